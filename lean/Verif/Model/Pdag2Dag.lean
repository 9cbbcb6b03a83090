import Verif.Model.Graph

/-!
# Model of `causallearn/utils/PDAG2DAG.py`

`Gd` and `Gp` are deep copies of the input, so `Gp` is the input `G` itself throughout. `removed i` is `inde[i] == 1`.
-/
namespace CL
namespace GG
variable {n : Nat}

/-- `PDAG2DAG.py:24-29`: drop every edge that is not a single directed edge. -/
def keepDirected (G : GG n) : GG n :=
  G.graphEdges.foldl (fun H e =>
    if !((e.end1 == .arrow && e.end2 == .tail) || (e.end1 == .tail && e.end2 == .arrow)) then H.removeEdge e else H) G

/-- `PDAG2DAG.py:53`: the nodes joined to `i` by an undirected edge. -/
def undirNbrs (G : GG n) (i : Fin n) : List (Fin n) :=
  (List.finRange n).filter fun k => G.g k i == .tail && G.g i k == .tail

/-- `PDAG2DAG.py:40-42` `Nx`. -/
def liveNbrs (G : GG n) (removed : Fin n → Bool) (i : Fin n) : List (Fin n) :=
  (G.undirNbrs i).filter fun k => !removed k

/-- `PDAG2DAG.py:43-45` `Ax` (a set; the order is irrelevant to `check2`). -/
def liveAdj (G : GG n) (removed : Fin n → Bool) (i : Fin n) : List (Fin n) :=
  ((List.finRange n).filter fun k => (G.g i k == .arrow || G.g k i == .arrow) && !removed k) ++ G.liveNbrs removed i

/-- `PDAG2DAG.py:60-67` `check2`. -/
def check2 (G : GG n) (nx ax : List (Fin n)) : Bool :=
  nx.all fun y => (ax.filter fun k => k != y).all fun k => G.g y k != .null

/-- `PDAG2DAG.py:36-50`: `sign == 2`. -/
def sinkOk (G : GG n) (removed : Fin n → Bool) (i : Fin n) : Bool :=
  (((List.finRange n).filter fun k => G.g k i == .arrow && !removed k).length == 0) &&
  (let nx := G.liveNbrs removed i
   if nx.length > 0 then G.check2 nx (G.liveAdj removed i) else true)

/-- `PDAG2DAG.py:53-54`: direct every undirected edge at `i` towards `i`. -/
def directInto (H : GG n) (i : Fin n) (l : List (Fin n)) : GG n :=
  l.foldl (fun H k => (H.addEdge (mkEdge k i .tail .arrow)).2) H

/-- `PDAG2DAG.py:34-55`: the body of the `for` loop. -/
def pdStep (G : GG n) (st : GG n × (Fin n → Bool)) (i : Fin n) : GG n × (Fin n → Bool) :=
  if st.2 i then st
  else if G.sinkOk st.2 i then (st.1.directInto i (G.undirNbrs i), fun k => if k = i then true else st.2 k)
  else st

/-- `PDAG2DAG.py:32-55`: the `while` loop (`none` = still running after `fuel` sweeps). -/
def pdLoop (G : GG n) : Nat → GG n × (Fin n → Bool) → Option (GG n)
  | 0, st => if (List.finRange n).all st.2 then some st.1 else none
  | f + 1, st =>
    if (List.finRange n).all st.2 then some st.1 else pdLoop G f ((List.finRange n).foldl (pdStep G) st)

/-- `PDAG2DAG.py:10-57` `pdag2dag`. -/
def pdag2dag (G : GG n) (fuel : Nat) : Option (GG n) := pdLoop G fuel (G.keepDirected, fun _ => false)

end GG
end CL
