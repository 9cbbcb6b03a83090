import Verif.Model.Graph
import Mathlib.Data.List.Sort

/-!
# Model of the node bookkeeping of `causallearn/graph/GeneralGraph.py`

A graph object keeps a node list, a dictionary from node to row number and the matrix. Node names are elements of a
linear order `α` (Python: strings; `GraphNode.__eq__/__lt__/__hash__`, `GraphNode.py:64-71`, compare names).
`dpath` is not part of this model. Aliasing of the node list passed to the constructor is not modelled.
-/
namespace CL
variable {α : Type} [LinearOrder α]

/-- `GeneralGraph.py:26-49`: `nodes`, `node_map`, `num_vars`, `graph`. -/
structure NG (α : Type) where
  nodes : List α
  map : α → Option Nat
  num : Nat
  mat : Nat → Nat → Mark

/-- `GeneralGraph.py:32-36` and `847-850`: dictionary filled by enumerating a node list; later entries win. -/
def buildMap (nodes : List α) : α → Option Nat :=
  (List.range nodes.length).foldl (fun m i => fun a => if nodes[i]? = some a then some i else m a) fun _ => none

namespace NG

/-- `GeneralGraph.py:26-49` constructor. -/
def mk' (nodes : List α) : NG α := ⟨nodes, buildMap nodes, nodes.length, fun _ _ => .null⟩

/-- Reading `self.graph[node_map[a], node_map[b]]`, as done by `get_edge` (534-541), `is_adjacent_to` (496-499) etc.
A missing key raises in Python; the model returns NULL. -/
def markAt (G : NG α) (a b : α) : Mark :=
  match G.map a, G.map b with
  | some i, some j => G.mat i j
  | _, _ => .null

/-- The matrix writes of `add_edge` (`GeneralGraph.py:107-192`) on a non-adjacent pair: mark `m1` at `a`, `m2` at `b`. -/
def putEdge (G : NG α) (a b : α) (m1 m2 : Mark) : NG α :=
  match G.map a, G.map b with
  | some i, some j =>
    { G with mat := fun x y => if x = i ∧ y = j then m1 else if x = j ∧ y = i then m2 else G.mat x y }
  | _, _ => G

/-- `GeneralGraph.py:343-352` `get_adjacent_nodes`: rows are translated back through the node *list*. -/
def adjacentNodes (G : NG α) (a : α) : List α :=
  match G.map a with
  | none => []
  | some j => (List.range G.num).filterMap fun i =>
      if G.mat j i != .null && G.mat i j != .null then G.nodes[i]? else none

/-- numpy `np.delete(m, i, axis=0/1)` seen through the index shift. -/
def skip (i a : Nat) : Nat := if a < i then a else a + 1

/-- `GeneralGraph.py:834-857` `remove_node`. -/
def removeNode (G : NG α) (v : α) : NG α :=
  match G.map v with
  | none => G
  | some i =>
    let nodes := G.nodes.erase v
    ⟨nodes, buildMap nodes, G.num - 1, fun a b => G.mat (skip i a) (skip i b)⟩

/-- `GeneralGraph.py:862-864` `remove_nodes`. -/
def removeNodes (G : NG α) (vs : List α) : NG α := vs.foldl removeNode G

/-- `GeneralGraph.py:868-885` `subgraph`: a fresh graph on the list `S`, with the matrix of `self` restricted to the rows
whose node is in `S`. -/
def subgraph (G : NG α) (S : List α) : NG α :=
  let keep := (List.range G.num).filter fun i => (G.nodes[i]?).any fun a => decide (a ∈ S)
  ⟨S, buildMap S, S.length, fun a b =>
    match keep[a]?, keep[b]? with
    | some i, some j => G.mat i j
    | _, _ => .null⟩

/-- Python's `list.sort()` on the node list, in place: nothing else in the object changes. -/
def sortNodes (G : NG α) : NG α := { G with nodes := G.nodes.mergeSort (fun a b => decide (a ≤ b)) }

/-- `np.array_equal(self.graph, other.graph)`. -/
def matEq (G H : NG α) : Bool :=
  G.num == H.num && (List.range G.num).all fun i => (List.range G.num).all fun j => G.mat i j == H.mat i j

/-- `GeneralGraph.py:332-340` `__eq__`: `list.sort()` returns `None`, so the node comparison is `None == None`; both node
lists are sorted in place as a side effect. Result: the answer and the two graph objects afterwards. -/
def eq (G H : NG α) : Bool × NG α × NG α := (matEq G H, G.sortNodes, H.sortNodes)

end NG
end CL
