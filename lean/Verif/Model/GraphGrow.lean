import Verif.Model.DagClass
import Mathlib.Data.Fin.Tuple.Basic

/-!
# Model of `add_node` of `GeneralGraph` and `Dag` on the two matrices, and of graphs that grow

Nodes are rows, in the order in which they were added; `add_node` of a node that is already there is not modelled here (`GeneralGraph.add_node` returns `False` and
changes nothing, `Dag.add_node` has no such check).
-/
namespace CL
variable {n : Nat}

/-- `GeneralGraph.py:207-215`, `Dag.py:132-140`: `np.vstack` with a row of `d`, then `np.column_stack` with a column of `d`. -/
def extend {α : Type} (d : α) (m : Fin n → Fin n → α) : Fin (n + 1) → Fin (n + 1) → α :=
  fun a b => if h : a.val < n ∧ b.val < n then m ⟨a, h.1⟩ ⟨b, h.2⟩ else d

/-- `GeneralGraph.py:196-221`, `Dag.py:123-145` `add_node`. -/
def GG.addNode (G : GG n) : GG (n + 1) := GG.adjustDpath ⟨extend .null G.g, extend false G.dp⟩ (Fin.last n) (Fin.last n)

/-- The kind of a call that names two nodes. -/
inductive EdgeCall
  | addEdge (m1 m2 : Mark)
  | addDirectedEdge
  | removeEdge (m1 m2 : Mark)
  | removeConnectingEdge

/-- The call for two rows. -/
def EdgeCall.op (a b : Fin n) : EdgeCall → Op n
  | .addEdge m1 m2 => .addEdge a b m1 m2
  | .addDirectedEdge => .addDirectedEdge a b
  | .removeEdge m1 m2 => .removeEdge a b m1 m2
  | .removeConnectingEdge => .removeConnectingEdge a b

/-- A call on a growing graph; nodes are named by the order in which they were added. -/
inductive GrowCall
  | addNode
  | edge (a b : Nat) (k : EdgeCall)

/-- One call; `ap` is the class (`Op.apply` or `DagC.apply`). A node that has not been added yet is not in `node_map`: KeyError, nothing changes. -/
def growStep (ap : ∀ n, GG n → Op n → GG n) (s : Σ n, GG n) : GrowCall → Σ n, GG n
  | .addNode => ⟨s.1 + 1, s.2.addNode⟩
  | .edge a b k => if h : a < s.1 ∧ b < s.1 then ⟨s.1, ap s.1 s.2 (k.op ⟨a, h.1⟩ ⟨b, h.2⟩)⟩ else s

/-- A `GeneralGraph` created without nodes, after a history of calls. -/
def growGraph (h : List GrowCall) : Σ n, GG n := h.foldl (growStep fun _ => Op.apply) ⟨0, GG.empty 0⟩

/-- A `Dag` created without nodes, after a history of calls. -/
def growDag (h : List GrowCall) : Σ n, GG n := h.foldl (growStep fun _ => DagC.apply) ⟨0, DagC.empty 0⟩

end CL
