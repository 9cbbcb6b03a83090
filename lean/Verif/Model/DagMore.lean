import Verif.Model.DagClass

/-!
# More methods of `causallearn/graph/Dag.py`

`get_nodes_into`, `get_nodes_out_of`, `is_descendant_of`, `is_proper_descendant_of`, `__eq__`, `set_nodes`. The comparison `str(endpoint) == "ARROW"` compares the name of the
endpoint (`Endpoint.__str__`).
-/
namespace CL.DagC
variable {n : Nat}

/-- `Dag.py:504-522` `get_nodes_into`. -/
def nodesInto (G : GG n) (i : Fin n) (m : Mark) : List (Fin n) :=
  if m ≠ .arrow ∧ m ≠ .tail then []
  else if m = .arrow then (List.finRange n).filter fun j => G.g i j == .arrow
  else (List.finRange n).filter fun j => G.g j i == .arrow

/-- `Dag.py:525-543` `get_nodes_out_of`. -/
def nodesOutOf (G : GG n) (i : Fin n) (m : Mark) : List (Fin n) :=
  if m ≠ .arrow ∧ m ≠ .tail then []
  else if m = .arrow then (List.finRange n).filter fun j => G.g j i == .arrow
  else (List.finRange n).filter fun j => G.g i j == .arrow

/-- `Dag.py:391-396` `is_descendant_of`: is node `i` a descendant of node `j`? -/
def isDescendantOf (G : GG n) (i j : Fin n) : Bool := G.dp i j

/-- `Dag.py:386-388` `is_proper_descendant_of`. -/
def isProperDescendantOf (G : GG n) (i j : Fin n) : Bool := isDescendantOf G i j && i != j

section
variable {α : Type} [LinearOrder α]

/-- `Dag.py:200-208` `__eq__` for two Dags: `list.sort()` returns `None` on both sides, so the lists are not compared; both are sorted in place. -/
def eq (G H : NG α) : Bool × NG α × NG α := (NG.matEq G H, G.sortNodes, H.sortNodes)

/-- `Dag.py:736-740` `set_nodes`: `none` is the `ValueError`; the dictionary is kept. -/
def setNodes (G : NG α) (nodes : List α) : Option (NG α) := if nodes.length ≠ G.num then none else some { G with nodes := nodes }
end

end CL.DagC
