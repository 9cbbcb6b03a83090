import Verif.Model.FCI

/-!
# Model of `causallearn/utils/DAG2PAG.py`

Nodes of the DAG are indices `Fin N`, nodes of the PAG are indices `Fin n`. `list(set(nodes) - set(islatent) - set(isselection))`
(line 31) is an enumeration of the observed nodes in the order of a Python set: `obs` is arbitrary. `networkx.is_d_separator` is the
parameter `nxDsep` (graph, two nodes, conditioning set). `true_dag` (lines 45, 48) carries the labels `mod_nodeids`; `GeneralGraph(observed_nodes)`
numbers the observed nodes the same way, so the model keeps the labels of the DAG and translates by `obs`. Printing is not modelled.
-/
namespace CL
open GG
variable {N n : Nat}

/-- The arguments of `dag2pag`, the set order and networkx. -/
structure PagInput (N n : Nat) where
  dag : GG N
  obs : Fin n → Fin N
  sel : List (Fin N)
  nxDsep : (Fin N → Fin N → Bool) → Fin N → Fin N → List (Fin N) → Bool
  setOrder : List (Fin n) → List (Fin n)

namespace Pag

/-- `DAG2PAG.py:40-48`: the edges of `dg`. -/
def digraph (G : GG N) (u v : Fin N) : Bool :=
  (Fci.pairsOf (List.finRange N)).any fun p => (G.getEdge p.1 p.2).elim false fun e =>
    if e.end2 = .arrow then decide (e.node1 = u ∧ e.node2 = v) else decide (e.node2 = u ∧ e.node1 = v)

/-- `DAG2PAG.py:40-48`: the edges of `true_dag` (both branches add `node1 → node2`). -/
def trueDag (G : GG N) (u v : Fin N) : Bool :=
  (Fci.pairsOf (List.finRange N)).any fun p => (G.getEdge p.1 p.2).elim false fun e => decide (e.node1 = u ∧ e.node2 = v)

/-- `DAG2PAG.py:51-56`: the complete graph with circle marks. -/
def start (n : Nat) : GG n :=
  (Fci.pairsOf (List.finRange n)).foldl
    (fun G p => (G.addEdge (((mkEdge p.1 p.2 .circle .circle).setEndpoint1 .circle).setEndpoint2 .circle)).2) (GG.empty n)

/-- `DAG2PAG.py:58`: an empty set for every ordered pair of different nodes. -/
def emptyTable : SSet n := fun x y => if x = y then none else some []

/-- `DAG2PAG.py:71-72`: `sepset[x, y] |= set(Z); sepset[y, x] |= set(Z)`. -/
def addSep (ss : SSet n) (x y : Fin n) (Z : List (Fin n)) : SSet n :=
  upd (upd ss x y ((ss x y).map (· ++ Z))) y x ((ss y x).map (· ++ Z))

/-- `DAG2PAG.py:66-72`: one conditioning set. -/
def testZ (I : PagInput N n) (x y : Fin n) (e : Edge n) (s : GG n × SSet n) (Z : List (Fin n)) : GG n × SSet n :=
  if x ∈ Z ∨ y ∈ Z then s
  else if I.nxDsep (digraph I.dag) (I.obs x) (I.obs y) (Z.map I.obs ++ I.sel) then (s.1.removeEdge e, addSep s.2 x y Z)
  else s

/-- `DAG2PAG.py:62-72`: one pair. All sets of size `l` are tried, also after the edge has been removed. -/
def testPair (I : PagInput N n) (l : Nat) (s : GG n × SSet n) (p : Fin n × Fin n) : GG n × SSet n :=
  (s.1.getEdge p.1 p.2).elim s fun e => (combos (List.finRange n) l).foldl (testZ I p.1 p.2 e) s

/-- `DAG2PAG.py:60-72`: the skeleton and the separating sets. -/
def skeleton (I : PagInput N n) : GG n × SSet n :=
  (List.range (n - 1)).foldl (fun s l => (Fci.pairsOf (List.finRange n)).foldl (testPair I l) s) (start n, emptyTable)

/-- `DAG2PAG.py:140-146` `mod_endpoint`. -/
def modEndpoint (e : Edge n) (z : Fin n) (m : Mark) : Edge n :=
  if e.node1 = z then e.setEndpoint1 m else e.setEndpoint2 m

/-- `DAG2PAG.py:86-88`, `90-92`: remove the edge, change its mark at `z`, add it. -/
def arrowAt (G : GG n) (e : Edge n) (z : Fin n) : GG n := ((G.removeEdge e).addEdge (modEndpoint e z .arrow)).2

/-- `DAG2PAG.py:78-92`: one `nodez` for a non-adjacent pair. -/
def colliderZ (ss : SSet n) (x y : Fin n) (G : GG n) (z : Fin n) : GG n :=
  if z = x ∨ z = y then G
  else if z ∈ (ss x y).getD [] then G
  else (G.getEdge x z).elim G fun exz => (G.getEdge y z).elim G fun eyz => arrowAt (arrowAt G exz z) eyz z

/-- `DAG2PAG.py:74-92`: one pair. -/
def colliderPair (ss : SSet n) (G : GG n) (p : Fin n × Fin n) : GG n :=
  if (G.getEdge p.1 p.2).isSome then G else (List.finRange n).foldl (colliderZ ss p.1 p.2) G

/-- `DAG2PAG.py:74-92`: the collider phase. -/
def colliders (s : GG n × SSet n) : GG n := (Fci.pairsOf (List.finRange n)).foldl (colliderPair s.2) s.1

/-- `DAG2PAG.py:97-98` and `cit.py:573-576`: the CI test handed to rule R4. The selection variables are not conditioned on. -/
def r4Test (I : PagInput N n) : CI n := fun x y S => I.nxDsep (trueDag I.dag) (I.obs x) (I.obs y) (S.map I.obs)

/-- What the rules are called with (`DAG2PAG.py:103-113`): no knowledge, `maxPathLength = -1`. -/
def env (I : PagInput N n) : FciEnv n := ⟨r4Test I, Know.none, false, -1, I.setOrder, id⟩

/-- `DAG2PAG.py:100`, `FCI.py:379-383`, `FCI.py:610`: the table as the rules see it. The sets hold `Node` objects, the rules ask for the
`int` index of a node, and a node equals no `int` (`GraphNode.py:64-65`): the sets look empty. -/
def asSeen (ss : SSet n) : SSet n := fun x y => (ss x y).map fun _ => []

/-- `DAG2PAG.py:102-113`: one round, started with `change_flag = False`. -/
def round (ev : FciEnv n) (ss : SSet n) (G : GG n) : GG n × Bool :=
  Fci.r10 ev (Fci.r9 ev (Fci.r8 (Fci.r7 (Fci.r6 (Fci.r5 (Fci.r4 ev ss (Fci.r3 ev.k ss (Fci.r1r2 ev.k (G, false)))))))))

/-- `DAG2PAG.py:95, 101-113`: the loop (`none`: out of fuel). -/
def loop (ev : FciEnv n) (ss : SSet n) : Nat → GG n → Option (GG n)
  | 0, _ => none
  | f + 1, G => if (round ev ss G).2 then loop ev ss f (round ev ss G).1 else some (round ev ss G).1

/-- `DAG2PAG.py:16-115` `dag2pag`. -/
def dag2pag (I : PagInput N n) : Option (GG n) :=
  loop (env I) (asSeen (skeleton I).2) (n * n + 1) (colliders (skeleton I))

end Pag
end CL
