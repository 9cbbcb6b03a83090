import Verif.Model.PC

/-!
# Model of the conversions to networkx graphs in `graph/GraphClass.py` and of `get_adjacancy_matrix`, `matrix_diff` in `search/ConstraintBased/PC.py`

A `networkx.DiGraph` on the nodes `0, …, n-1` whose edges have a colour is a partial function on ordered pairs: `add_edge` on an existing edge
overwrites the colour.
-/
namespace CL
namespace Nx
open GG
variable {n : Nat}

inductive Colour | g | b | r
  deriving DecidableEq

abbrev DiG (n : Nat) := Fin n → Fin n → Option Colour

/-- `DiGraph.add_edge(i, j, color=c)` -/
def addEdge (c : Colour) (D : DiG n) (e : Fin n × Fin n) : DiG n := fun a b => if (a, b) = e then some c else D a b

/-- `GraphClass.py:78-80` `find_undirected`. -/
def findUndirected (G : GG n) : List (Fin n × Fin n) := (G.findMark .tail).filter fun e => G.g e.1 e.2 == .tail

/-- `GraphClass.py:82-84` `find_fully_directed`. -/
def findFullyDirected (G : GG n) : List (Fin n × Fin n) := (G.findMark .arrow).filter fun e => G.g e.1 e.2 == .tail

/-- `GraphClass.py:86-90` `find_bi_directed`. -/
def findBiDirected (G : GG n) : List (Fin n × Fin n) :=
  ((G.findMark .arrow).filter fun e => G.g e.2 e.1 == .arrow && G.g e.1 e.2 == .arrow).map fun e => (e.2, e.1)

/-- `GraphClass.py:151-164` `to_nx_graph`: edges are added to the networkx graph the object already holds. -/
def toNxGraph (G : GG n) (D : DiG n) : DiG n :=
  (findBiDirected G).foldl (addEdge .r) ((findFullyDirected G).foldl (addEdge .b) ((findUndirected G).foldl (addEdge .g) D))

/-- A new `networkx.DiGraph()` (`GraphClass.py:44`). -/
def empty : DiG n := fun _ _ => none

/-- `networkx.Graph.add_edge(i, j)`: both orders. -/
def addSkelEdge (S : Fin n → Fin n → Bool) (e : Fin n × Fin n) : Fin n → Fin n → Bool :=
  fun a b => decide ((a, b) = e ∨ (b, a) = e) || S a b

/-- `GraphClass.py:166-172` `to_nx_skeleton`. -/
def toNxSkeleton (G : GG n) (S : Fin n → Fin n → Bool) : Fin n → Fin n → Bool :=
  (G.findAdj.filter fun e => decide (e.1 < e.2)).foldl addSkelEdge S

/-- `PC.py:483-484` `get_adjacancy_matrix`: 1 for every edge (edges have no weight attribute). -/
def adjacency (D : DiG n) : Fin n → Fin n → Nat := fun i j => if (D i j).isSome then 1 else 0

/-- `PC.py:487-497` `matrix_diff`: twice the first component (`count`) and the list. -/
def matrixDiff (D1 D2 : DiG n) : Nat × List (Fin n × Fin n) :=
  (allPairs n).foldl (fun s e => if adjacency D1 e.1 e.2 ≠ adjacency D2 e.1 e.2 then (s.1 + 1, s.2 ++ [e]) else s) (0, [])

end Nx
end CL
