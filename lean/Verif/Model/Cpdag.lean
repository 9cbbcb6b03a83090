import Verif.Model.GraphUtils

/-!
# Model of `causallearn/utils/DAG2CPDAG.py` and `causallearn/utils/MECCheck.py`

The rows of the array `edges_order` are pairs `(i, j)` for the edge `i → j`.  The array `sign_edges`, indexed by row number,
is a function of the edge stored in that row (the rows are pairwise different, `edgeOrder_eq`).
-/
namespace CL
namespace GG
variable {n : Nat}

/-- `DAG2CPDAG.py:39-52`: the node `j` chosen in one iteration, scanning the causal order from its end; the first node with
an incoming edge that is not listed yet.  If the scan finds none, the loop variable keeps its last value, the first node of
the order. -/
def pickHead (G : GG n) (order : List (Fin n)) (eo : List (Fin n × Fin n)) : Option (Fin n) :=
  match order.reverse.find? fun j => (List.finRange n).any fun i => G.g j i == .arrow && decide ((i, j) ∉ eo) with
  | some j => some j
  | none => order.head?

/-- `DAG2CPDAG.py:53-69`: the node `i` chosen, scanning the causal order from its start; if the scan finds none, the last
node of the order. -/
def pickTail (G : GG n) (order : List (Fin n)) (eo : List (Fin n × Fin n)) (j : Fin n) : Option (Fin n) :=
  match order.find? fun i => decide ((i, j) ∉ eo) && G.g j i == .arrow with
  | some i => some i
  | none => order.getLast?

/-- `DAG2CPDAG.py:38-70`: `while edges_order.shape[0] < M`; every iteration appends one row, so it runs `M` times. -/
def edgeOrder (G : GG n) (order : List (Fin n)) : Nat → List (Fin n × Fin n) → List (Fin n × Fin n)
  | 0, eo => eo
  | m + 1, eo =>
    match pickHead G order eo with
    | none => eo
    | some j =>
      match pickTail G order eo j with
      | none => eo
      | some i => edgeOrder G order m (eo ++ [(i, j)])

/-- `sign_edges`: 0 unknown, 1 compelled, -1 reversible. -/
abbrev Sign (n : Nat) := Fin n × Fin n → Int

/-- `sign_edges[ids] = v` for the rows satisfying `p`. -/
def setRows (eo : List (Fin n × Fin n)) (p : Fin n × Fin n → Bool) (v : Int) (s : Sign n) : Sign n :=
  fun e => if e ∈ eo ∧ p e = true then v else s e

/-- `DAG2CPDAG.py:83-101`: the loop over the edges `k[m] → i`; the flag is `ss`. -/
def scanCompelled (G : GG n) (eo : List (Fin n × Fin n)) (j : Fin n) : List (Fin n × Fin n) → Sign n → Sign n × Bool
  | [], s => (s, false)
  | e :: es, s =>
    if s e = 1 then
      if G.g j e.1 ≠ .arrow then (setRows eo (fun f => f.2 == j) 1 s, true)
      else scanCompelled G eo j es (setRows eo (fun f => f.1 == e.1 && f.2 == j) 1 s)
    else scanCompelled G eo j es s

/-- `DAG2CPDAG.py:103-121`: some parent `z ≠ i` of `j` with `graph[i, z]` zero or -1. -/
def hasUnrelatedParent (G : GG n) (i j : Fin n) : Bool :=
  (List.finRange n).any fun z => G.g j z == .arrow && z != i && (G.g i z == .null || G.g i z == .tail)

/-- `DAG2CPDAG.py:83-141`: one iteration of the labelling loop for the edge `i → j`. -/
def labelEdge (G : GG n) (eo : List (Fin n × Fin n)) (i j : Fin n) (s : Sign n) : Sign n :=
  let r := scanCompelled G eo j (eo.filter fun e => e.2 == i) s
  if r.2 then r.1
  else
    let v : Int := if hasUnrelatedParent G i j then 1 else -1
    let s1 := setRows eo (fun f => f.1 == i && f.2 == j) v r.1
    setRows eo (fun f => f.2 == j && s1 f == 0) v s1

/-- `DAG2CPDAG.py:74-141`: the labelling loop; the last unknown edge in `edges_order` is treated (`none` = out of fuel). -/
def labelLoop (G : GG n) (eo : List (Fin n × Fin n)) : Nat → Sign n → Option (Sign n)
  | 0, _ => none
  | f + 1, s =>
    match eo.reverse.find? fun e => s e == 0 with
    | none => some s
    | some e => labelLoop G eo f (labelEdge G eo e.1 e.2 s)

/-- `DAG2CPDAG.py:144-164`: the output graph. -/
def buildCpdag (eo : List (Fin n × Fin n)) (s : Sign n) : GG n :=
  eo.foldl (fun H e => (H.addEdge (mkEdge e.1 e.2 .tail (if s e = 1 then .arrow else .tail))).2) (GG.empty n)

/-- `DAG2CPDAG.py:9-166` `dag2cpdag`. -/
def dag2cpdag (G : GG n) (fuel : Nat) : Outcome (GG n) :=
  match G.causalOrder fuel with
  | .raised => .raised
  | .outOfFuel => .outOfFuel
  | .ok order =>
    let eo := edgeOrder G order G.numEdges []
    match labelLoop G eo fuel fun _ => 0 with
    | none => .outOfFuel
    | some s => .ok (buildCpdag eo s)

/-- `MECCheck.py:9-30` `mec_check`. -/
def mecCheck (G H : GG n) (fuel : Nat) : Outcome Bool :=
  match dag2cpdag G fuel with
  | .raised => .raised
  | .outOfFuel => .outOfFuel
  | .ok P =>
    match dag2cpdag H fuel with
    | .raised => .raised
    | .outOfFuel => .outOfFuel
    | .ok Q => .ok ((List.finRange n).all fun i => (List.finRange n).all fun j => P.g i j == Q.g i j)

end GG
end CL
