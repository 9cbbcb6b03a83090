import Verif.Model.Graph

/-!
# Model of `causallearn/graph/Edges.py` and of the comparisons in `Edge.py`
-/

namespace CL
variable {n : Nat}

/-- `causallearn/graph/Edges.py:13-15` `bidirected_edge`. -/
def bidirectedEdge (a b : Fin n) : Edge n := mkEdge a b .arrow .arrow

/-- `causallearn/graph/Edges.py:18-20` `directed_edge`. -/
def directedEdge (a b : Fin n) : Edge n := mkEdge a b .tail .arrow

/-- `causallearn/graph/Edges.py:23-25` `partially_oriented_edge`. -/
def partiallyOrientedEdge (a b : Fin n) : Edge n := mkEdge a b .circle .arrow

/-- `causallearn/graph/Edges.py:28-30` `undirected_edge`. -/
def undirectedEdge (a b : Fin n) : Edge n := mkEdge a b .tail .tail

/-- `causallearn/graph/Edges.py:33-34` `is_bidirected_edge`. -/
def isBidirectedEdge (e : Edge n) : Bool := e.end1 == .arrow && e.end2 == .arrow

/-- `causallearn/graph/Edges.py:37-43` `is_directed_edge`. -/
def isDirectedEdgeObj (e : Edge n) : Bool :=
  if e.end1 = .tail then e.end2 == .arrow
  else if e.end2 = .tail then e.end1 == .arrow
  else false

/-- `causallearn/graph/Edges.py:46-52` `is_partially_oriented_edge`. -/
def isPartiallyOrientedEdge (e : Edge n) : Bool :=
  if e.end1 = .circle then e.end2 == .arrow
  else if e.end2 = .circle then e.end1 == .arrow
  else false

/-- `causallearn/graph/Edges.py:55-56` `is_undirected_edge`. -/
def isUndirectedEdge (e : Edge n) : Bool := e.end1 == .tail && e.end2 == .tail

/-- `causallearn/graph/Edge.py:201-205` `__eq__` on two edges (the type check is not modelled; nodes are compared as
nodes, here by index). -/
def edgeEq (e f : Edge n) : Bool :=
  e.end1 == f.end1 && e.end2 == f.end2 && e.node1 == f.node1 && e.node2 == f.node2

/-- `causallearn/graph/Edge.py:207-208` `__lt__`; the nodes are ordered as their indices are. -/
def edgeLt (e f : Edge n) : Bool := decide (e.node1 < f.node1) || decide (e.node2 < f.node2)

end CL
