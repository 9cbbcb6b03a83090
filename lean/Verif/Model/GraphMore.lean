import Verif.Model.Graph
import Verif.Model.NamedGraph

/-!
# More of `causallearn/graph/GeneralGraph.py`: remaining queries, `transfer_nodes_and_edges`, and node lists shared between graph objects
-/
namespace CL
namespace GG
variable {n : Nat}

/-- `GeneralGraph.py:433-442` `get_max_degree` (`-1` for the empty graph). -/
def getMaxDegree (G : GG n) : Int := (List.finRange n).foldl (fun m v => if (G.degree v : Int) > m then (G.degree v : Int) else m) (-1)

/-- `GeneralGraph.py:479-489` `get_num_connected_edges`. -/
def numConnectedEdges (G : GG n) (i : Fin n) : Nat :=
  (List.finRange n).foldl (fun d j =>
    if G.g j i = .arrow ∨ G.g j i = .tail ∨ G.g j i = .circle then d + 1 else if G.g j i ≠ .null then d + 2 else d) 0

/-- `GeneralGraph.py:548-559` `get_directed_edge`; the codes above 1 are CIRCLE, STAR and the doubled marks. -/
def getDirectedEdge (G : GG n) (i j : Fin n) : Option (Edge n) :=
  if G.g i j = .circle ∨ G.g i j = .star ∨ G.g i j = .ta ∨ G.g i j = .aa ∨ G.g i j = .null ∨ (G.g i j = .tail ∧ G.g j i = .tail) then none
  else some (mkEdge i j (G.g i j) (G.g j i))

/-- `GeneralGraph.py:318-323` `exists_trek`. -/
def existsTrek (G : GG n) (a b : Fin n) : Bool := (List.finRange n).any fun v => G.isAncestorOf v a && G.isAncestorOf v b

/-- `GeneralGraph.py:896-901` `transfer_nodes_and_edges` into an empty graph: the nodes are added in their order (so that they get the same indices), then the edges. -/
def transfer (G : GG n) : GG n := G.graphEdges.foldl (fun H e => (H.addEdge e).2) (GG.empty n)

end GG

/-! ## Shared node lists -/

variable {α : Type} [LinearOrder α]

/-- A graph object: a reference to its node list (Python lists are shared, not copied), its dictionary, `num_vars` and matrix. -/
structure GObj (α : Type) where
  cell : Nat
  map : α → Option Nat
  num : Nat
  mat : Nat → Nat → Mark

/-- The memory: lists and graph objects, each with an address. -/
structure GHeap (α : Type) where
  cells : Nat → List α
  objs : Nat → GObj α

namespace GHeap

/-- What the user sees of graph `g`. -/
def view (h : GHeap α) (g : Nat) : NG α := ⟨h.cells (h.objs g).cell, (h.objs g).map, (h.objs g).num, (h.objs g).mat⟩

/-- Replace the object `g`. -/
def putObj (h : GHeap α) (g : Nat) (o : GObj α) : GHeap α := { h with objs := fun k => if k = g then o else h.objs k }

/-- Change the list at an address in place. -/
def putCell (h : GHeap α) (c : Nat) (l : List α) : GHeap α := { h with cells := fun k => if k = c then l else h.cells k }

/-- `GeneralGraph.py:26-49` constructor: `self.nodes = nodes` keeps the caller's list (`dag2cpdag`, `DAG2CPDAG.py:137-145`, passes the node list of its argument). -/
def construct (h : GHeap α) (g c : Nat) : GHeap α := h.putObj g ⟨c, buildMap (h.cells c), (h.cells c).length, fun _ _ => .null⟩

/-- `GeneralGraph.py:196-221` `add_node`: appends to the list in place. -/
def addNode (h : GHeap α) (g : Nat) (x : α) : GHeap α :=
  if x ∈ h.cells (h.objs g).cell then h
  else
    (h.putCell (h.objs g).cell (h.cells (h.objs g).cell ++ [x])).putObj g
      ⟨(h.objs g).cell, fun a => if a = x then some (h.objs g).num else (h.objs g).map a, (h.objs g).num + 1, fun a b =>
        if a < (h.objs g).num ∧ b < (h.objs g).num then (h.objs g).mat a b else .null⟩

/-- `GeneralGraph.py:834-857` `remove_node`: removes from the list in place. A node that is not in the dictionary raises (no change). -/
def removeNode (h : GHeap α) (g : Nat) (v : α) : GHeap α :=
  match (h.objs g).map v with
  | none => h
  | some i =>
    (h.putCell (h.objs g).cell ((h.cells (h.objs g).cell).erase v)).putObj g
      ⟨(h.objs g).cell, buildMap ((h.cells (h.objs g).cell).erase v), (h.objs g).num - 1, fun a b => (h.objs g).mat (NG.skip i a) (NG.skip i b)⟩

/-- `GeneralGraph.py:332-340` `__eq__`: sorts both lists in place. -/
def compare (h : GHeap α) (g g' : Nat) : GHeap α :=
  let h1 := h.putCell (h.objs g).cell ((h.cells (h.objs g).cell).mergeSort (fun a b => decide (a ≤ b)))
  h1.putCell (h1.objs g').cell ((h1.cells (h1.objs g').cell).mergeSort (fun a b => decide (a ≤ b)))

/-- Matrix writes of `add_edge` (`GeneralGraph.py:107-192`) on a non-adjacent pair. -/
def putEdge (h : GHeap α) (g : Nat) (a b : α) (m1 m2 : Mark) : GHeap α :=
  h.putObj g ⟨(h.objs g).cell, (h.objs g).map, (h.objs g).num, ((h.view g).putEdge a b m1 m2).mat⟩

/-- `GeneralGraph.py:986-990` `set_nodes`: replaces the list (raises on a length mismatch: no change); the dictionary is kept. -/
def setNodes (h : GHeap α) (g c : Nat) : GHeap α :=
  if (h.cells c).length = (h.objs g).num then h.putObj g { h.objs g with cell := c } else h

/-- A call. -/
inductive Call (α : Type)
  | construct (g c : Nat)
  | addNode (g : Nat) (x : α)
  | removeNode (g : Nat) (v : α)
  | compare (g g' : Nat)
  | putEdge (g : Nat) (a b : α) (m1 m2 : Mark)
  | setNodes (g c : Nat)

/-- Effect of a call. -/
def apply (h : GHeap α) : Call α → GHeap α
  | .construct g c => h.construct g c
  | .addNode g x => h.addNode g x
  | .removeNode g v => h.removeNode g v
  | .compare g g' => h.compare g g'
  | .putEdge g a b m1 m2 => h.putEdge g a b m1 m2
  | .setNodes g c => h.setNodes g c

/-- `GeneralGraph.py:862-864` `remove_nodes(nodes)` where `nodes` is the graph's own list: Python's `for` reads the list, which `remove_node` shortens, by position. -/
def removeOwn (g : Nat) : Nat → Nat → GHeap α → GHeap α
  | 0, _, h => h
  | f + 1, k, h =>
    match (h.cells (h.objs g).cell)[k]? with
    | none => h
    | some v => removeOwn g f (k + 1) (h.removeNode g v)

end GHeap
end CL
