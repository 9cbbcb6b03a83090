import Verif.Model.NamedGraph
import Mathlib.Algebra.BigOperators.Group.List.Basic
import Mathlib.Algebra.Order.Ring.Int

/-!
# Model of `causallearn/graph/SHD.py`, `AdjacencyConfusion.py`, `ArrowConfusion.py`

Graph objects are the named graphs of `Verif.Model.NamedGraph`.  `node_map.items()` is iterated in the order of the
node list (the order in which the constructor fills the dictionary).  Indexed loops `for i in range(len(nodes))` that use
`i` only through `nodes_name[i]` are folds over the node list.  A name missing from the second graph raises in Python;
`markAt` returns NULL there, so the confusion theorems assume equal node sets.
-/
namespace CL
variable {α : Type} [LinearOrder α]

namespace NG

/-- `SHD.py:20-31`: `None` is the AssertionError for different node names.  The comparison of row numbers (line 27) is on
the rows of the first graph. -/
def shd (T E : NG α) : Option Nat :=
  if (∀ a ∈ T.nodes, a ∈ E.nodes) ∧ (∀ a ∈ E.nodes, a ∈ T.nodes) then
    some <| T.nodes.foldl (fun acc a => T.nodes.foldl (fun acc b =>
      if (T.map b).getD 0 < (T.map a).getD 0 then acc
      else if (T.markAt a b, T.markAt b a) ≠ (E.markAt a b, E.markAt b a) then acc + 1 else acc) acc) 0
  else none

/-- `GeneralGraph.py:496-499` `is_adjacent_to`. -/
def isAdj (G : NG α) (a b : α) : Bool := G.markAt b a != .null

/-- `GeneralGraph.py:616-621` `get_endpoint(a, b)`: the mark at `b`, `None` if `get_edge` finds no edge
(`graph[a, b] == 0`, lines 534-545).  The flip of left-pointing edges inside `Edge` does not change the mark at `b`. -/
def endpoint (G : NG α) (a b : α) : Option Mark := if G.markAt a b = .null then none else some (G.markAt b a)

end NG

/-- The four counters of `AdjacencyConfusion.py:8-11`. -/
structure AdjConf where
  fn : Nat
  tp : Nat
  fp : Nat
  tn : Nat

/-- `AdjacencyConfusion.py:28-38`: the update for one pair `(i, j)`. -/
def adjStep (T E : NG α) (a b : α) (c : AdjConf) : AdjConf :=
  let e := E.isAdj a b
  let t := T.isAdj a b
  if t && !e then { c with fn := c.fn + 1 }
  else if e && !t then { c with fp := c.fp + 1 }
  else if e && t then { c with tp := c.tp + 1 }
  else if !e && !t then { c with tn := c.tn + 1 }
  else c

/-- `AdjacencyConfusion.py:26-27`: the double loop `for i in range(n): for j in range(i+1, n)`. -/
def adjLoop (T E : NG α) : List α → AdjConf → AdjConf
  | [], c => c
  | a :: l, c => adjLoop T E l (l.foldl (fun c b => adjStep T E a b c) c)

/-- `AdjacencyConfusion.py:13-38` constructor. -/
def adjConfusion (T E : NG α) : AdjConf := adjLoop T E T.nodes ⟨0, 0, 0, 0⟩

/-- numpy `m.sum()` of a matrix indexed by the node list. -/
def matSum (nodes : List α) (m : α → α → Int) : Int := (nodes.map fun a => (nodes.map fun b => m a b).sum).sum

/-- The eight counters of `ArrowConfusion.py:11-19`. -/
structure ArrowConf where
  fp : Int
  fn : Int
  tp : Int
  tn : Int
  fpCE : Int
  fnCE : Int
  tpCE : Int
  tnCE : Int

/-- `ArrowConfusion.py:43-46`: the matrices `truePositives` / `estPositives` (`m[j][i]` refers to the edge `i`–`j`). -/
def arrowMat (G : NG α) : α → α → Int := fun b a => if G.endpoint a b = some .arrow then 1 else 0

/-- `ArrowConfusion.py:47-52`: the matrices restricted to pairs adjacent in the other graph. -/
def arrowMatCE (G H : NG α) : α → α → Int :=
  fun b a => if G.endpoint a b = some .arrow ∧ H.isAdj a b = true then 1 else 0

/-- numpy `(A == B)` as a 0/1 matrix. -/
def eqMat (A B : α → α → Int) : α → α → Int := fun a b => if A a b = B a b then 1 else 0

/-- `ArrowConfusion.py:21-65` constructor. -/
def arrowConfusion (T E : NG α) : ArrowConf :=
  let t := arrowMat T
  let e := arrowMat E
  let tc := arrowMatCE T E
  let ec := arrowMatCE E T
  let S := matSum T.nodes
  let tp := S fun a b => min (eqMat t e a b) (t a b)
  let tpc := S fun a b => min (eqMat tc ec a b) (tc a b)
  { fp := S fun a b => max (e a b - t a b) 0
    fn := S fun a b => max (t a b - e a b) 0
    tp := tp
    tn := S (eqMat t e) - tp
    fpCE := S fun a b => max (ec a b - tc a b) 0
    fnCE := S fun a b => max (tc a b - ec a b) 0
    tpCE := tpc
    tnCE := S (eqMat tc ec) - tpc }

end CL
