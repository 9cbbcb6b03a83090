import Verif.Model.Graph

/-!
# More mark queries of `causallearn/graph/GeneralGraph.py`
-/
namespace CL
namespace GG
variable {n : Nat}

/-- `GeneralGraph.py:697-701` `is_directly_connected_to`. -/
def isDirectlyConnectedTo (G : GG n) (a b : Fin n) : Bool := !(G.g b a == .null && G.g a b == .null)

/-- `GeneralGraph.py:657-658` `is_def_unshielded_collider`. -/
def isDefUnshieldedCollider (G : GG n) (a b c : Fin n) : Bool := G.isDefCollider a b c && !G.isDirectlyConnectedTo a c

/-- `GeneralGraph.py:708-730` `get_nodes_into`. -/
def nodesInto (G : GG n) (i : Fin n) (m : Mark) : List (Fin n) :=
  if m = .arrow then (List.finRange n).filter fun j => G.g i j == .arrow || G.g i j == .aa
  else if m = .tail then (List.finRange n).filter fun j => G.g i j == .tail || G.g i j == .ta
  else if m = .circle then (List.finRange n).filter fun j => G.g i j == .circle
  else []

/-- `GeneralGraph.py:733-755` `get_nodes_out_of`. -/
def nodesOutOf (G : GG n) (i : Fin n) (m : Mark) : List (Fin n) :=
  if m = .arrow then (List.finRange n).filter fun j => G.g j i == .arrow || G.g j i == .aa
  else if m = .tail then (List.finRange n).filter fun j => G.g j i == .tail || G.g j i == .ta
  else if m = .circle then (List.finRange n).filter fun j => G.g j i == .circle
  else []

/-- `GeneralGraph.py:629-645`: the loop of `is_def_noncollider`; the flags are `circle12`, `circle23`. -/
def defNoncolliderLoop (G : GG n) (a b c : Fin n) : List (Edge n) → Bool → Bool → Bool
  | [], _, _ => false
  | e :: es, c12, c23 =>
    let is1 := e.distalNode b == some a
    let is3 := e.distalNode b == some c
    if is1 && e.pointsToward a then true
    else if is3 && e.pointsToward c then true
    else
      let c12 := c12 || (is1 && e.proximal b == some .circle)
      let c23 := c23 || (is3 && e.proximal b == some .circle)
      if c12 && c23 && !G.isAdj a b then true else defNoncolliderLoop G a b c es c12 c23

/-- `GeneralGraph.py:624-645` `is_def_noncollider` (the adjacency test in line 642 is about `node1, node2`). -/
def isDefNoncollider (G : GG n) (a b c : Fin n) : Bool := defNoncolliderLoop G a b c (G.nodeEdges b) false false

end GG
end CL
