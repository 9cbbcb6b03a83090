import Verif.Model.FCI

/-!
# Model of the edge labels that `fci` returns (`causallearn/search/ConstraintBased/FCI.py`, lines 863-948)

The list `edges` returned by `fci` is `get_color_edges(graph)`; every edge object carries a list `properties`. The `print` of line 943
is not modelled.
-/
namespace CL
open GG
variable {n : Nat}
namespace Fci

/-- `causallearn/graph/Edge.py:13-21` `Edge.Property`, the four values that `get_color_edges` appends. -/
inductive Label
  | dd | pd | nl | pl
  deriving DecidableEq, Repr

/-- `FCI.py:863-886` `visibleEdgeHelperVisit`, with the list `path` as state. The loop over `get_nodes_into` (lines 872-882) is `visitAll`.
The recursion depth is bounded by the fuel. -/
def visit (G : GG n) (b : Fin n) : Nat → Fin n → Fin n → List (Fin n) → Bool × List (Fin n)
  | 0, _, _, path => (false, path)
  | f + 1, c, a, path =>
    if a ∈ path then (false, path)
    else if a = b then (true, path ++ [a])
    else
      let r := (G.nodesInto a .arrow).foldl (fun (s : Bool × List (Fin n)) d =>
        if s.1 then s
        else if G.isParentOf d c then (true, s.2)
        else if !G.isDefCollider d c a then s
        else if !G.isParentOf c b then s
        else visit G b f d c s.2) (false, path ++ [a])
      if r.1 then r else (false, r.2.dropLast)

/-- `FCI.py:891-896`: one turn of the loop of `visibleEdgeHelper`; the state is the answer so far and `path`. -/
def helperStep (G : GG n) (a b : Fin n) (s : Bool × List (Fin n)) (c : Fin n) : Bool × List (Fin n) :=
  if s.1 then s
  else if G.isParentOf c a then (true, s.2)
  else visit G b (n + 1) c a s.2

/-- `FCI.py:888-898` `visibleEdgeHelper`. -/
def visibleHelper (G : GG n) (a b : Fin n) : Bool :=
  ((G.nodesInto a .arrow).foldl (helperStep G a b) (false, [a])).1

/-- `FCI.py:910-915`: the test on one neighbour `C` of `A` (`get_edge` of adjacent nodes is not `None`). -/
def visibleBy (G : GG n) (a b c : Fin n) : Bool :=
  decide (c ≠ b) && !G.isAdj c b && ((G.getEdge c a).bind fun e => e.proximal a) == some .arrow

/-- `FCI.py:903-908`: the node at the tail and the node at the head. -/
def ends (e : Edge n) : Fin n × Fin n := if e.end1 = .tail then (e.node1, e.node2) else (e.node2, e.node1)

/-- `FCI.py:901-919` `defVisible`; `none` is the exception of line 919. -/
def defVisible (G : GG n) (e : Edge n) : Option Bool :=
  if G.containsEdge e then
    some ((G.adjacentNodes (ends e).1).any (visibleBy G (ends e).1 (ends e).2) || visibleHelper G (ends e).1 (ends e).2)
  else none

/-- `FCI.py:925-926`: the edge is directed. -/
def isDirectedEdge (e : Edge n) : Bool := (e.end1 == .tail && e.end2 == .arrow) || (e.end1 == .arrow && e.end2 == .tail)

/-- `FCI.py:927-947`: a directed edge is taken out, `dd` / `pd` is decided, it is put back and `nl` / `pl` is decided. -/
def colorDirected (G : GG n) (e : Edge n) : Option (GG n × List Label) :=
  (defVisible ((G.removeEdge e).addEdge e).2 e).map fun v =>
    (((G.removeEdge e).addEdge e).2,
     [if existsSemi (G.removeEdge e) (ends e).1 (ends e).2 then .pd else .dd, if v then .nl else .pl])

/-- `FCI.py:924-947`: the loop over the edges; the result is the graph and, per edge, its properties. -/
def colorLoop : GG n → List (Edge n) → Option (GG n × List (Edge n × List Label))
  | G, [] => some (G, [])
  | G, e :: es =>
    if isDirectedEdge e then
      (colorDirected G e).bind fun r => (colorLoop r.1 es).map fun q => (q.1, (e, r.2) :: q.2)
    else (colorLoop G es).map fun q => (q.1, (e, []) :: q.2)

/-- `FCI.py:922-948` `get_color_edges`: the graph afterwards and the returned edges with their properties. -/
def colorEdges (G : GG n) : Option (GG n × List (Edge n × List Label)) := colorLoop G G.graphEdges

/-- `FCI.py:1012-1132` `fci`: graph and labelled edges (lines 1130-1132). -/
def fciLabelled (env : FciEnv n) (depth : Option Nat) : Option (GG n × List (Edge n × List Label)) :=
  (fci env depth).bind colorEdges

end Fci
end CL
