import Verif.Model.PC
import Verif.Model.GraphUtils
import Verif.Model.DagClass
import Verif.Model.Metrics
import Mathlib.Algebra.Field.Rat

/-!
# `GraphUtils`: triangles, kites, unshielded triples, structural Hamming distance, precision and recall

Model of `utils/GraphUtils.py:295-444`. `itertools.permutations(l, 2)` is `perm2`, which is exact for lists without
duplicates; the theorems are about graphs with at most one edge per pair of nodes, where the lists of edges and of triangles
have none.
-/
namespace CL
variable {n : Nat}

namespace GG

/-- `GraphUtils.py:337-356`: the body of `find_triangles` for one ordered pair of edges. A case whose adjacency test fails
falls through to the next one. -/
def edgeTriangle (G : GG n) (p q : Edge n) : Option (Fin n × Fin n × Fin n) :=
  if p.node1 = q.node1 ∧ G.isAdj p.node2 q.node2 = true then some (p.node2, p.node1, q.node2)
  else if p.node1 = q.node2 ∧ G.isAdj p.node2 q.node1 = true then some (p.node2, p.node1, q.node1)
  else if p.node2 = q.node1 ∧ G.isAdj p.node1 q.node2 = true then some (p.node1, p.node2, q.node2)
  else if p.node2 = q.node2 ∧ G.isAdj p.node1 q.node1 = true then some (p.node1, p.node2, q.node1)
  else none

/-- `GraphUtils.py:331-358` `find_triangles`. -/
def guTriangles (G : GG n) : List (Fin n × Fin n × Fin n) :=
  (perm2 G.graphEdges).filterMap fun pq => G.edgeTriangle pq.1 pq.2

/-- `GraphUtils.py:363-371` `find_kites`. -/
def guKites (G : GG n) : List (Fin n × Fin n × Fin n × Fin n) :=
  ((perm2 G.guTriangles).filter fun pq => decide (pq.1.1 = pq.2.1 ∧ pq.1.2.2 = pq.2.2.2 ∧ pq.1.2.1 < pq.2.2.1) &&
      G.g pq.1.2.1 pq.2.2.1 == .null).map
    fun pq => (pq.1.1, pq.1.2.1, pq.2.2.1, pq.1.2.2)

end GG

/-- `GraphUtils.py:303-324`: the body of `find_unshielded_triples` for one ordered pair of edges; `node4` is
`pair[1].get_node1()` (line 306), like `node3`. `get_adjacency_matrix()` of a `Dag` is its `graph` (`Dag.py:90-91`). -/
def edgeTriple (G : GG n) (p q : Edge n) : Option (Fin n × Fin n × Fin n) :=
  let node3 := q.node1
  let node4 := q.node1
  if p.node1 = node3 ∧ p.node2 ≠ node4 ∧ G.g p.node2 node4 = .null then some (p.node2, p.node1, node4)
  else if p.node1 = node4 ∧ p.node2 ≠ node3 ∧ G.g p.node2 node3 = .null then some (p.node2, p.node1, node3)
  else if p.node2 = node3 ∧ p.node1 ≠ node4 ∧ G.g p.node1 node4 = .null then some (p.node1, p.node2, node4)
  else if p.node2 = node4 ∧ p.node2 ≠ node3 ∧ G.g p.node2 node3 = .null then some (p.node1, p.node2, node3)
  else none

/-- `GraphUtils.py:295-326` `find_unshielded_triples` on a `Dag` (other graphs raise, line 298). -/
def dagTriples (G : GG n) : List (Fin n × Fin n × Fin n) :=
  (perm2 (DagC.graphEdges G)).filterMap fun pq => edgeTriple G pq.1 pq.2

/-! ### The distance of `GraphUtils` -/

/-- `GraphUtils.py:412-413` `undirected`; on `None` the attribute access raises (`none`). -/
def shdUndirected (e : Option (Edge n)) : Option Bool := e.map fun e => e.end1 == .tail && e.end2 == .tail

/-- `GraphUtils.py:415-417` `directed`. -/
def shdDirected (e : Option (Edge n)) : Option Bool :=
  e.map fun e => (e.end1 == .tail && e.end2 == .arrow) || (e.end1 == .arrow && e.end2 == .tail)

/-- `GraphUtils.py:419-420` `bi_directed`. -/
def shdBidirected (e : Option (Edge n)) : Option Bool := e.map fun e => e.end1 == .arrow && e.end2 == .arrow

/-- Python `a and b` / `a or b` where the evaluation of an operand may raise. -/
def andA (a b : Option Bool) : Option Bool := a.bind fun x => if x then b else some false

@[inherit_doc andA] def orA (a b : Option Bool) : Option Bool := a.bind fun x => if x then some true else b

/-- `if c: v else: k` where the evaluation of the condition may raise. -/
def iteA (c : Option Bool) (v k : Option Nat) : Option Nat := c.bind fun x => if x then v else k

/-- `GraphUtils.py:389-407` `shd_one_edge`; `none` is an AttributeError. Lines 402-403: `e1.get_endpoint1() ==
e2.get_endpoint2()`, evaluated only for two edges. -/
def shdOneEdge (e1 e2 : Option (Edge n)) : Option Nat :=
  iteA (andA (some e1.isNone) (shdUndirected e2)) (some 1) <|
  iteA (andA (some e2.isNone) (shdUndirected e1)) (some 1) <|
  iteA (andA (some e1.isNone) (shdDirected e2)) (some 2) <|
  iteA (andA (some e2.isNone) (shdDirected e1)) (some 2) <|
  iteA (andA (shdUndirected e1) (shdDirected e2)) (some 1) <|
  iteA (andA (shdUndirected e2) (shdDirected e1)) (some 1) <|
  iteA (andA (shdDirected e1) (shdDirected e2))
    (iteA (e1.bind fun a => e2.map fun b => a.end1 == b.end2) (some 1) (some 0)) <|
  iteA (orA (shdBidirected e1) (shdBidirected e2)) (some 2) (some 0)

/-- The loop ranges of `GraphUtils.py:381-382`: the first index starts at 1, so the first node takes part in no pair. -/
def sdhPairs (n : Nat) : List (Fin n × Fin n) :=
  ((List.finRange n).filter fun i => 1 ≤ i.val).flatMap fun i => (GG.rangeFrom i).map fun j => (i, j)

/-- `GraphUtils.py:377-387` `sdh`, for two graphs with the same node list. -/
def sdh (G H : GG n) : Option Nat :=
  (sdhPairs n).foldlM (fun acc p => (shdOneEdge (G.getEdge p.1 p.2) (H.getEdge p.1 p.2)).map fun k => acc + k) 0

/-! ### Precision and recall -/

section
variable {α : Type} [LinearOrder α]

/-- A quotient of two Python integers; `none` is ZeroDivisionError. For the arrow counters, which are numpy numbers, `none`
stands for `nan`. -/
def ratio (a b : Int) : Option Rat := if b = 0 then none else some (a / b)

/-- `GraphUtils.py:422-424` `adj_precision`; `AdjacencyConfusion.get_adj_precision` is the same quotient. -/
def adjPrecision (T E : NG α) : Option Rat :=
  ratio (adjConfusion T E).tp ((adjConfusion T E).tp + (adjConfusion T E).fp)

/-- `GraphUtils.py:426-428` `adj_recall`. -/
def adjRecall (T E : NG α) : Option Rat :=
  ratio (adjConfusion T E).tp ((adjConfusion T E).tp + (adjConfusion T E).fn)

/-- `GraphUtils.py:430-432` `arrow_precision`. -/
def arrowPrecision (T E : NG α) : Option Rat :=
  ratio (arrowConfusion T E).tp ((arrowConfusion T E).tp + (arrowConfusion T E).fp)

/-- `GraphUtils.py:434-436` `arrow_recall`. -/
def arrowRecall (T E : NG α) : Option Rat :=
  ratio (arrowConfusion T E).tp ((arrowConfusion T E).tp + (arrowConfusion T E).fn)

/-- `GraphUtils.py:438-440` `arrow_precision_common_edges` (the numerator is the unrestricted count). -/
def arrowPrecisionCE (T E : NG α) : Option Rat :=
  ratio (arrowConfusion T E).tp ((arrowConfusion T E).tp + (arrowConfusion T E).fpCE)

/-- `GraphUtils.py:442-444` `arrow_recall_common_edges`. -/
def arrowRecallCE (T E : NG α) : Option Rat :=
  ratio (arrowConfusion T E).tp ((arrowConfusion T E).tp + (arrowConfusion T E).fnCE)

end
end CL
