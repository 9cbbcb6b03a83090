import Mathlib.Data.Fintype.Basic
import Mathlib.Data.List.FinRange


/-!
# Model of `causallearn/graph/Endpoint.py`, `Edge.py` and the edge-level part of `GeneralGraph.py`

Nodes are indices `Fin n` (the Python code maps node objects to row numbers through `node_map`; that map is
modelled separately in `Verif.Model.NamedGraph`).  The integer codes stored in the numpy matrix are the
constructors of `Mark`.
-/

namespace CL

/-- `causallearn/graph/Endpoint.py:9-16`: the endpoint codes. Python stores the integers
TAIL=-1, NULL=0, ARROW=1, CIRCLE=2, STAR=3, TAIL_AND_ARROW=4, ARROW_AND_ARROW=5. -/
inductive Mark
  | tail | null | arrow | circle | star | ta | aa
  deriving DecidableEq, Repr, Inhabited

/-- All seven endpoint codes (finiteness of `Endpoint`, `Endpoint.py:9-16`). -/
instance : Fintype Mark :=
  Fintype.ofList [.tail, .null, .arrow, .circle, .star, .ta, .aa] (by intro x; cases x <;> simp)

/-- An `n × n` integer matrix of endpoint codes; `m i j` is the mark at `i` on the edge `i – j`. -/
abbrev MMat (n : Nat) := Fin n → Fin n → Mark

/-- numpy item assignment `m[i, j] = v`. -/
def upd {n : Nat} {α : Type} (m : Fin n → Fin n → α) (i j : Fin n) (v : α) : Fin n → Fin n → α :=
  fun a b => if a = i ∧ b = j then v else m a b

/-- `causallearn/graph/Edge.py:24-48` attributes of an edge object: the two nodes, the two endpoints and the two
separately stored numerical endpoints. -/
structure Edge (n : Nat) where
  node1 : Fin n
  node2 : Fin n
  end1 : Mark
  end2 : Mark
  num1 : Mark
  num2 : Mark
  deriving DecidableEq, Repr

/-- `causallearn/graph/Edge.py:245-246` `pointing_left`. -/
def pointingLeft (e1 e2 : Mark) : Bool :=
  e1 == .arrow && (e2 == .tail || e2 == .circle)

/-- `causallearn/graph/Edge.py:24-48` constructor: flips the edge if it points left. The `None` checks
(lines 27-32) are not modelled, arguments are total. -/
def mkEdge {n : Nat} (a b : Fin n) (e1 e2 : Mark) : Edge n :=
  if pointingLeft e1 e2 then ⟨b, a, e2, e1, e2, e1⟩ else ⟨a, b, e1, e2, e1, e2⟩

/-- `causallearn/graph/Edge.py:109-120, 150-161`: flip if pointing left, used by both setters. -/
def Edge.normalize {n : Nat} (e : Edge n) : Edge n :=
  if pointingLeft e.end1 e.end2 then ⟨e.node2, e.node1, e.end2, e.end1, e.num2, e.num1⟩ else e

/-- `causallearn/graph/Edge.py:81-120` `set_endpoint1`. -/
def Edge.setEndpoint1 {n : Nat} (e : Edge n) (m : Mark) : Edge n :=
  let e' : Edge n := { e with end1 := m }
  let e'' : Edge n :=
    if e.num1 = .arrow ∧ e.num2 = .arrow then
      if m = .arrow then e'
      else if m = .tail then { e' with num1 := .tail, num2 := .arrow }
      else if m = .circle then { e' with num1 := .circle, num2 := .arrow }
      else e'
    else if m = .arrow ∧ e.num2 = .arrow then { e' with num1 := .arrow, num2 := .arrow }
    else if m = .arrow then { e' with num1 := .arrow }
    else if m = .tail then { e' with num1 := .tail }
    else if m = .circle then { e' with num1 := .circle }
    else e'
  e''.normalize

/-- `causallearn/graph/Edge.py:122-161` `set_endpoint2` (note line 137 tests `numerical_endpoint_2`). -/
def Edge.setEndpoint2 {n : Nat} (e : Edge n) (m : Mark) : Edge n :=
  let e' : Edge n := { e with end2 := m }
  let e'' : Edge n :=
    if e.num1 = .arrow ∧ e.num2 = .arrow then
      if m = .arrow then e'
      else if m = .tail then { e' with num1 := .arrow, num2 := .tail }
      else if m = .circle then { e' with num1 := .arrow, num2 := .circle }
      else e'
    else if m = .arrow ∧ e.num2 = .arrow then { e' with num1 := .arrow, num2 := .arrow }
    else if m = .arrow then { e' with num2 := .arrow }
    else if m = .tail then { e' with num2 := .tail }
    else if m = .circle then { e' with num2 := .circle }
    else e'
  e''.normalize

/-- `causallearn/graph/Edge.py:165-172` `get_proximal_endpoint` (object identity is index equality here). -/
def Edge.proximal {n : Nat} (e : Edge n) (v : Fin n) : Option Mark :=
  if e.node1 = v then some e.end1 else if e.node2 = v then some e.end2 else none

/-- `causallearn/graph/Edge.py:176-183` `get_distal_endpoint`. -/
def Edge.distal {n : Nat} (e : Edge n) (v : Fin n) : Option Mark :=
  if e.node1 = v then some e.end2 else if e.node2 = v then some e.end1 else none

/-- `causallearn/graph/Edge.py:187-194` `get_distal_node`. -/
def Edge.distalNode {n : Nat} (e : Edge n) (v : Fin n) : Option (Fin n) :=
  if e.node1 = v then some e.node2 else if e.node2 = v then some e.node1 else none

/-- `causallearn/graph/Edge.py:196-199` `points_toward`. -/
def Edge.pointsToward {n : Nat} (e : Edge n) (v : Fin n) : Bool :=
  e.proximal v == some .arrow && (e.distal v == some .tail || e.distal v == some .circle)

/-- `causallearn/graph/Edges.py:57-65` `traverse_directed`: the other node if the edge is directed out of `v`. -/
def traverseDirected {n : Nat} (v : Fin n) (e : Edge n) : Option (Fin n) :=
  if v = e.node1 then
    if e.end1 = .tail ∧ e.end2 = .arrow then some e.node2 else none
  else if v = e.node2 then
    if e.end2 = .tail ∧ e.end1 = .arrow then some e.node1 else none
  else none

/-- `causallearn/graph/GeneralGraph.py:26-49`: the two matrices of a `GeneralGraph` with `n` nodes.
`dp j i` is `dpath[j, i] == 1` ("`i` is an ancestor of `j`"). -/
structure GG (n : Nat) where
  g : MMat n
  dp : Fin n → Fin n → Bool

namespace GG
variable {n : Nat}

/-- numpy assignment into `self.graph`. -/
def setG (G : GG n) (i j : Fin n) (m : Mark) : GG n := { G with g := upd G.g i j m }

/-- `GeneralGraph.py:57-62`: one iteration of the loop of `adjust_dpath`, reading and writing the live matrix. -/
def adjustStep (i j : Fin n) (dp : Fin n → Fin n → Bool) (k : Fin n) : Fin n → Fin n → Bool :=
  let dp1 := if dp i k then upd dp j k true else dp
  if dp1 k j then upd dp1 k i true else dp1

/-- `GeneralGraph.py:53-64` `adjust_dpath`. -/
def adjustDpath (G : GG n) (i j : Fin n) : GG n :=
  { G with dp := (List.finRange n).foldl (adjustStep i j) (upd G.dp j i true) }

/-- `GeneralGraph.py:496-499` `is_adjacent_to`. -/
def isAdj (G : GG n) (i j : Fin n) : Bool := G.g j i != .null

/-- `GeneralGraph.py:502-505` `is_ancestor_of`. -/
def isAncestorOf (G : GG n) (i j : Fin n) : Bool := G.dp j i

/-- `GeneralGraph.py:508-512` `is_child_of`. -/
def isChildOf (G : GG n) (i j : Fin n) : Bool :=
  (G.g j i == .tail && G.g i j == .arrow) || G.g j i == .ta

/-- `GeneralGraph.py:515-519` `is_parent_of`. -/
def isParentOf (G : GG n) (i j : Fin n) : Bool :=
  (G.g j i == .arrow && G.g i j == .tail) || G.g i j == .ta

/-- `GeneralGraph.py:66-80` `reconstitute_dpath`; `edges` is consumed from its end (`pop()`), so the fold runs over
the reversed list. The graph matrix is not changed. -/
def reconstituteDpath (G : GG n) (edges : List (Edge n)) : GG n :=
  let G0 : GG n := { G with dp := fun _ _ => false }
  let G1 := (List.finRange n).foldl (fun H i => H.adjustDpath i i) G0
  edges.reverse.foldl (fun H e =>
    if H.isParentOf e.node1 e.node2 then H.adjustDpath e.node1 e.node2
    else if H.isParentOf e.node2 e.node1 then H.adjustDpath e.node2 e.node1
    else H) G1

/-- `GeneralGraph.py:26-49` constructor: edgeless graph on `n` nodes. -/
def empty (n : Nat) : GG n :=
  reconstituteDpath ⟨fun _ _ => .null, fun _ _ => false⟩ []

/-- `GeneralGraph.py:97-103` `add_directed_edge`. -/
def addDirectedEdge (G : GG n) (i j : Fin n) : GG n :=
  ((G.setG j i .arrow).setG i j .tail).adjustDpath i j

/-- `GeneralGraph.py:107-192` `add_edge`. The first component is the Python return value (`none` is Python's `None`). -/
def addEdge (G : GG n) (e : Edge n) : Option Bool × GG n :=
  let i := e.node1
  let j := e.node2
  let e1 := G.g i j
  let e2 := G.g j i
  let bidirected : Bool := e2 == .arrow && e1 == .arrow
  let existing : Bool := !bidirected && (e2 != .null || e1 != .null)
  match e.end1 with
  | .tail =>
    if existing then (some false, G) else
    match e.end2 with
    | .tail =>
      if bidirected then (none, (G.setG j i .ta).setG i j .ta)
      else (none, (G.setG j i .tail).setG i j .tail)
    | .arrow =>
      if bidirected then (none, ((G.setG j i .aa).setG i j .ta).adjustDpath i j)
      else (none, ((G.setG j i .arrow).setG i j .tail).adjustDpath i j)
    | .circle =>
      if bidirected then (some false, G) else (none, (G.setG j i .circle).setG i j .tail)
    | _ => (some false, G)
  | .arrow =>
    match e.end2 with
    | .arrow =>
      if existing then
        if e1 = .circle ∨ e2 = .circle then (some false, G)
        else
          let G1 := if G.g j i = .arrow then G.setG j i .aa else G.setG j i .ta
          let G2 := if G1.g i j = .arrow then G1.setG i j .aa else G1.setG i j .ta
          (some true, G2)
      else (some true, (G.setG j i .arrow).setG i j .arrow)
    | _ => (some false, G)
  | .circle =>
    if existing then (some false, G) else
    match e.end2 with
    | .arrow =>
      if bidirected then (some false, G) else (some true, (G.setG j i .arrow).setG i j .circle)
    | .circle =>
      if bidirected then (some false, G) else (some true, (G.setG j i .circle).setG i j .circle)
    | _ => (some false, G)
  | _ => (some false, G)

/-- `GeneralGraph.py:234-296` `contains_edge`. -/
def containsEdge (G : GG n) (e : Edge n) : Bool :=
  let e1 := G.g e.node1 e.node2
  let e2 := G.g e.node2 e.node1
  match e.end1, e.end2 with
  | .tail, .tail => (e2 == .tail && e1 == .tail) || (e2 == .ta && e1 == .ta)
  | .tail, .arrow => (e1 == .tail && e2 == .arrow) || (e1 == .ta && e2 == .aa)
  | .tail, .circle => e1 == .tail && e2 == .circle
  | .arrow, .arrow => (e1 == .arrow && e2 == .arrow) || (e1 == .ta && e2 == .ta) || (e1 == .aa || e2 == .aa)
  | .circle, .arrow => e1 == .circle && e2 == .arrow
  | .circle, .circle => e1 == .circle && e2 == .circle
  | _, _ => false

/-- `GeneralGraph.py:343-352` `get_adjacent_nodes`. -/
def adjacentNodes (G : GG n) (j : Fin n) : List (Fin n) :=
  (List.finRange n).filter fun i => G.g j i != .null && G.g i j != .null

/-- `GeneralGraph.py:355-366` `get_parents`. -/
def parents (G : GG n) (j : Fin n) : List (Fin n) :=
  (List.finRange n).filter fun i =>
    (G.g i j == .tail && G.g j i == .arrow) || (G.g i j == .ta && G.g j i == .aa)

/-- `GeneralGraph.py:381-392` `get_children`. -/
def children (G : GG n) (i : Fin n) : List (Fin n) :=
  (List.finRange n).filter fun j =>
    (G.g j i == .arrow && G.g i j == .tail) || (G.g j i == .aa && G.g i j == .ta)

/-- `GeneralGraph.py:395-406` `get_indegree`. -/
def indegree (G : GG n) (i : Fin n) : Nat :=
  (List.finRange n).foldl (fun d j =>
    if G.g i j = .arrow then d + 1 else if G.g i j = .aa then d + 2 else d) 0

/-- `GeneralGraph.py:409-417` `get_outdegree`. -/
def outdegree (G : GG n) (i : Fin n) : Nat :=
  (List.finRange n).foldl (fun d j => if G.g i j = .tail ∨ G.g i j = .ta then d + 1 else d) 0

/-- `GeneralGraph.py:420-431` `get_degree`. -/
def degree (G : GG n) (i : Fin n) : Nat :=
  (List.finRange n).foldl (fun d j =>
    if G.g i j = .arrow ∨ G.g i j = .tail ∨ G.g i j = .circle then d + 1
    else if G.g i j ≠ .null then d + 2 else d) 0

/-- Python `range(i + 1, n)` as indices. -/
def rangeFrom (i : Fin n) : List (Fin n) := (List.finRange n).filter fun j => i < j

/-- The index pairs visited by the double loop `for i in range(n): for j in range(i + 1, n)` (e.g.
`GeneralGraph.py:591-593`, `GraphClass.py:36-37`), in that order. -/
def upperPairs (n : Nat) : List (Fin n × Fin n) :=
  (List.finRange n).flatMap fun i => (rangeFrom i).map fun j => (i, j)

/-- `GeneralGraph.py:466-476` `get_num_edges`. -/
def numEdges (G : GG n) : Nat :=
  (List.finRange n).foldl (fun acc i =>
    (rangeFrom i).foldl (fun d j =>
      if G.g i j = .arrow ∨ G.g i j = .tail ∨ G.g i j = .circle then d + 1
      else if G.g i j ≠ .null then d + 2 else d) acc) 0

/-- `GeneralGraph.py:534-545` `get_edge`. -/
def getEdge (G : GG n) (i j : Fin n) : Option (Edge n) :=
  if G.g i j = .null then none else some (mkEdge i j (G.g i j) (G.g j i))

/-- `GeneralGraph.py:569-585` and `595-611`: the edges appended for one pair. `get_edge` returning `None`
(when `graph[i,j] == 0` although `graph[j,i] != 0`) is an appended `None`; the model drops it, which cannot happen in
graphs with a symmetric adjacency. -/
def pairEdges (G : GG n) (i j : Fin n) : List (Edge n) :=
  if G.g j i = .arrow ∨ G.g j i = .tail ∨ G.g j i = .circle then (G.getEdge i j).toList
  else if G.g j i = .ta ∧ G.g i j = .aa then [mkEdge i j .arrow .tail, mkEdge i j .arrow .arrow]
  else if G.g j i = .aa ∧ G.g i j = .ta then [mkEdge i j .tail .arrow, mkEdge i j .arrow .arrow]
  else if G.g j i = .ta ∧ G.g i j = .ta then [mkEdge i j .tail .tail, mkEdge i j .arrow .arrow]
  else []

/-- `GeneralGraph.py:563-587` `get_node_edges`. -/
def nodeEdges (G : GG n) (i : Fin n) : List (Edge n) :=
  (List.finRange n).flatMap fun j => G.pairEdges i j

/-- `GeneralGraph.py:589-613` `get_graph_edges`. -/
def graphEdges (G : GG n) : List (Edge n) :=
  (List.finRange n).flatMap fun i => (rangeFrom i).flatMap fun j => G.pairEdges i j

/-- `GeneralGraph.py:616-622` `get_endpoint`: the mark at `j` on the edge `i – j`. -/
def getEndpoint (G : GG n) (i j : Fin n) : Option Mark :=
  (G.getEdge i j).bind fun e => e.proximal j

/-- `GeneralGraph.py:684-688` `is_directed_from_to`. -/
def isDirectedFromTo (G : GG n) (i j : Fin n) : Bool := G.g j i == .arrow && G.g i j == .tail

/-- `GeneralGraph.py:691-695` `is_undirected_from_to`. -/
def isUndirectedFromTo (G : GG n) (i j : Fin n) : Bool := G.g j i == .tail && G.g i j == .tail

/-- `GeneralGraph.py:648-655` `is_def_collider`. -/
def isDefCollider (G : GG n) (a b c : Fin n) : Bool :=
  match G.getEdge a b, G.getEdge b c with
  | some e1, some e2 => e1.proximal b == some .arrow && e2.proximal b == some .arrow
  | _, _ => false

/-- `GeneralGraph.py:758-805` `remove_edge`, driven by the edge's numerical endpoints. -/
def removeEdge (G : GG n) (e : Edge n) : GG n :=
  let i := e.node1
  let j := e.node2
  let outOf := G.g j i
  let inTo := G.g i j
  let fully := G.isParentOf i j || G.isParentOf j i
  let G1 :=
    if outOf = .ta ∧ inTo = .ta then
      if e.num1 = .arrow then (G.setG j i .tail).setG i j .tail
      else if e.num1 = .tail then (G.setG i j .arrow).setG j i .arrow
      else G
    else if outOf = .aa ∧ inTo = .ta then
      if e.num1 = .arrow then (G.setG j i .arrow).setG i j .tail
      else if e.num1 = .tail then (G.setG j i .arrow).setG i j .arrow
      else G
    else if outOf = .ta ∧ inTo = .aa then
      if e.num1 = .arrow then (G.setG j i .tail).setG i j .arrow
      else if e.num1 = .tail then (G.setG j i .arrow).setG i j .arrow
      else G
    else if e.num1 = inTo ∧ e.num2 = outOf then (G.setG j i .null).setG i j .null
    else G
  if fully then G1.reconstituteDpath G1.graphEdges else G1

/-- `GeneralGraph.py:808-824` `remove_connecting_edge(s)`. -/
def removeConnectingEdge (G : GG n) (i j : Fin n) : GG n := (G.setG j i .null).setG i j .null

end GG
end CL
