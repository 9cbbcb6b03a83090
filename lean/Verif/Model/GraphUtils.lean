import Verif.Model.Graph

/-!
# Model of graph traversals: `causallearn/utils/GraphUtils.py`
-/
namespace CL
namespace GG
variable {n : Nat}

/-- `GraphUtils.py:453-469`: the `for u in G.get_adjacent_nodes(t)` loop. `none` means the Python function returned
`True` inside the loop; otherwise the updated `V` and the updated deque `Q`. The deque is stored with its right end
first, so `Q.append` is `cons` and `Q.pop()` takes the head. -/
def pathInner (G : GG n) (dst t : Fin n) : List (Fin n) → List (Fin n) → List (Fin n) →
    Option (List (Fin n) × List (Fin n))
  | [], V, Q => some (V, Q)
  | u :: us, V, Q =>
    if G.isParentOf t u && G.isParentOf u t then none
    else
      match (G.getEdge t u).bind (traverseDirected t) with
      | none => pathInner G dst t us V Q
      | some c =>
        if c ∈ V then pathInner G dst t us V Q
        else if c = dst then none
        else pathInner G dst t us (V ++ [c]) (c :: Q)

/-- `GraphUtils.py:451-469`: the `while len(Q) > 0` loop with fuel; `none` = out of fuel. Falling off the end returns
Python `None`, which is falsy; it is modelled as `some false`. -/
def pathLoop (G : GG n) (dst : Fin n) : Nat → List (Fin n) → List (Fin n) → Option Bool
  | 0, _, _ => none
  | _ + 1, _, [] => some false
  | f + 1, V, t :: Q =>
    match pathInner G dst t (G.adjacentNodes t) V Q with
    | none => some true
    | some (V', Q') => pathLoop G dst f V' Q'

/-- `GraphUtils.py:446-469` `exists_directed_path_from_to_breadth_first`, with enough fuel (see
`pathLoop_terminates`). -/
def existsDirectedPath (G : GG n) (a b : Fin n) : Option Bool := pathLoop G b (n + 2) [a] [a]

/-- `GeneralGraph.py:306-312` `exists_directed_cycle`. Every inner search terminates (`pathLoop_terminates`), so its
`Option` is flattened with `== some true`. -/
def existsDirectedCycle (G : GG n) : Bool :=
  (List.finRange n).any fun v => G.existsDirectedPath v v == some true

/-- `GraphUtils.py:277-289`: one `for node in not_found` sweep of `get_causal_order`. Returns the new `found` and
`sub_not_found`. Nodes of type ERROR (lines 267-271) are not modelled, so `all_nodes` is every node and the
`sub_parents` filter (lines 280-285) is the identity. -/
def orderSweep (G : GG n) : List (Fin n) → List (Fin n) → List (Fin n) → List (Fin n) × List (Fin n)
  | [], found, sub => (found, sub)
  | v :: vs, found, sub =>
    if (G.parents v).all (fun p => decide (p ∈ found)) then orderSweep G vs (found ++ [v]) (sub ++ [v])
    else orderSweep G vs found sub

/-- `GraphUtils.py:275-291`: the `while len(not_found) > 0` loop, with fuel (`none` = out of fuel). -/
def orderLoop (G : GG n) : Nat → List (Fin n) → List (Fin n) → Option (List (Fin n))
  | 0, _, _ => none
  | _ + 1, found, [] => some found
  | f + 1, found, v :: vs =>
    let r := orderSweep G (v :: vs) found []
    orderLoop G f r.1 ((v :: vs).filter fun e => decide (e ∉ r.2))

/-- Outcome of a call that may raise. -/
inductive Outcome (α : Type)
  | raised
  | ok (a : α)
  | outOfFuel
  deriving DecidableEq, Repr

/-- `GraphUtils.py:259-293` `get_causal_order`. -/
def causalOrder (G : GG n) (fuel : Nat) : Outcome (List (Fin n)) :=
  if G.existsDirectedCycle then .raised
  else match orderLoop G fuel [] (List.finRange n) with
    | none => .outOfFuel
    | some l => .ok l

/-- `GraphUtils.py:141-143`: push the parents that are not in the deque (deque right end first). -/
def ancPush (ps : List (Fin n)) (Q : List (Fin n)) : List (Fin n) :=
  ps.foldl (fun Q c => if c ∈ Q then Q else c :: Q) Q

/-- `GraphUtils.py:136-144`: loop of `is_ancestor`, with fuel. -/
def ancLoop (G : GG n) (node : Fin n) : Nat → List (Fin n) → Option Bool
  | 0, _ => none
  | _ + 1, [] => some false
  | f + 1, t :: Q => if t = node then some true else ancLoop G node f (ancPush (G.parents t) Q)

/-- `GraphUtils.py:127-144` `is_ancestor`: is `node` an ancestor of a member of `z`? -/
def isAncestorOfSet (G : GG n) (node : Fin n) (z : List (Fin n)) (fuel : Nat) : Option Bool :=
  if node ∈ z then some true else ancLoop G node fuel z.reverse

/-- `GraphUtils.py:113-124` `reachable`. `is_ancestor` is only called when line 119 does not return. -/
def reachableEdge (G : GG n) (e1 e2 : Edge n) (a : Fin n) (z : List (Fin n)) (fuel : Nat) : Option Bool :=
  match e1.distalNode a with
  | none => some false
  | some b =>
    let collider := e1.proximal b == some .arrow && e2.proximal b == some .arrow
    if !collider && decide (b ∉ z) then some true
    else (G.isAncestorOfSet b z fuel).map fun anc => collider && anc

/-- `GraphUtils.py:42-52`: the `for edge2 in ...` loop. Result: `none` = inner search out of fuel,
`some none` = returned `True`, `some (some Q)` = new deque (right end first). -/
def dconInner (G : GG n) (y : Fin n) (z : List (Fin n)) (fuel : Nat) (e : Edge n) (a b : Fin n) :
    List (Edge n) → List (Edge n × Fin n) → Option (Option (List (Edge n × Fin n)))
  | [], Q => some (some Q)
  | e2 :: es, Q =>
    let c := e2.distalNode b
    if c = some a then dconInner G y z fuel e a b es Q
    else match G.reachableEdge e e2 a z fuel with
      | none => none
      | some true => if c = some y then some none else dconInner G y z fuel e a b es ((e2, b) :: Q)
      | some false => dconInner G y z fuel e a b es Q

/-- `GraphUtils.py:38-54`: the `while` loop of `is_dconnected_to`; there is no visited set. -/
def dconLoop (G : GG n) (y : Fin n) (z : List (Fin n)) (afuel : Nat) :
    Nat → List (Edge n × Fin n) → Option Bool
  | 0, _ => none
  | _ + 1, [] => some false
  | f + 1, (e, a) :: Q =>
    match e.distalNode a with
    | none => dconLoop G y z afuel f Q
    | some b =>
      match dconInner G y z afuel e a b (G.nodeEdges b) Q with
      | none => none
      | some none => some true
      | some (some Q') => dconLoop G y z afuel f Q'

/-- `GraphUtils.py:27-54` `is_dconnected_to`. The early return of line 34-35 is taken iff some edge at `x` leads
to `y`. Both loops have fuel. -/
def isDconnectedTo (G : GG n) (x y : Fin n) (z : List (Fin n)) (afuel fuel : Nat) : Option Bool :=
  if x = y then some true
  else if (G.nodeEdges x).any fun e => e.distalNode x == some y then some true
  else dconLoop G y z afuel fuel ((G.nodeEdges x).reverse.map fun e => (e, x))

end GG
end CL
