import Verif.Model.GraphUtils
import Verif.Model.NamedGraph
import Verif.Spec.GraphHistory

/-!
# Model of `causallearn/graph/Dag.py`

`Dag` inherits from `GeneralGraph` and overrides most of its methods; the object has the same two matrices (`GG n`). Nodes are row numbers in
the first part; the second part (node removal, subgraphs) uses the named objects of `Verif.Model.NamedGraph`.
-/
namespace CL
namespace DagC
open GG
variable {n : Nat}

/-- `Dag.py:97-103` `add_directed_edge`. -/
def addDirectedEdge (G : GG n) (i j : Fin n) : GG n := ((G.setG j i .arrow).setG i j .tail).adjustDpath i j

/-- `Dag.py:107-119` `add_edge`. -/
def addEdge (G : GG n) (e : Edge n) : Bool × GG n :=
  if e.end1 = .tail ∧ e.end2 = .arrow then
    (true, ((G.setG e.node2 e.node1 .arrow).setG e.node1 e.node2 .tail).adjustDpath e.node1 e.node2)
  else (false, G)

/-- `Dag.py:64-75` `reconstitute_dpath`: unlike `GeneralGraph`, the old entries stay. -/
def reconstituteDpath (G : GG n) (edges : List (Edge n)) : GG n :=
  edges.reverse.foldl (fun H e => H.adjustDpath e.node1 e.node2) ((List.finRange n).foldl (fun H i => H.adjustDpath i i) G)

/-- `Dag.py:21-45` constructor. -/
def empty (n : Nat) : GG n := reconstituteDpath ⟨fun _ _ => .null, fun _ _ => false⟩ []

/-- `Dag.py:399-411` `get_edge`. -/
def getEdge (G : GG n) (i j : Fin n) : Option (Edge n) :=
  if G.g i j = .null ∧ G.g j i = .null then none else some (mkEdge i j (G.g i j) (G.g j i))

/-- `Dag.py:430-441` `get_graph_edges` (a `None` from `get_edge` cannot occur, the mark was found non-null). -/
def graphEdges (G : GG n) : List (Edge n) :=
  (List.finRange n).flatMap fun i => (rangeFrom i).flatMap fun j => if G.g j i ≠ .null then (getEdge G i j).toList else []

/-- `Dag.py:418-428` `get_node_edges`. -/
def nodeEdges (G : GG n) (i : Fin n) : List (Edge n) :=
  (List.finRange n).flatMap fun j => if G.g j i ≠ .null then (getEdge G i j).toList else []

/-- `Dag.py:546-557` `remove_edge`. -/
def removeEdge (G : GG n) (e : Edge n) : GG n :=
  let G1 := (G.setG e.node2 e.node1 .null).setG e.node1 e.node2 .null
  reconstituteDpath G1 (graphEdges G1)

/-- `Dag.py:560-574` `remove_connecting_edge(s)`. -/
def removeConnectingEdge (G : GG n) (i j : Fin n) : GG n := (G.setG j i .null).setG i j .null

/-- `Dag.py:156-167` `contains_edge`. -/
def containsEdge (G : GG n) (e : Edge n) : Bool :=
  if e.end1 ≠ .tail ∨ e.end2 ≠ .arrow then false else if G.g e.node2 e.node1 = .arrow then true else false

/-- `Dag.py:177-178` `exists_directed_cycle`. -/
def existsDirectedCycle (_ : GG n) : Bool := false

/-- `Dag.py:359-364` `is_ancestor_of`. -/
def isAncestorOf (G : GG n) (i j : Fin n) : Bool := G.dp j i

/-- `Dag.py:185-191` `exists_trek`. -/
def existsTrek (G : GG n) (a b : Fin n) : Bool := (List.finRange n).any fun v => isAncestorOf G v a && isAncestorOf G v b

/-- `Dag.py:212-222` `get_adjacent_nodes`. -/
def adjacentNodes (G : GG n) (j : Fin n) : List (Fin n) :=
  (List.finRange n).filter fun i => G.g j i == .arrow || G.g i j == .arrow

/-- `Dag.py:225-235` `get_parents`. -/
def parents (G : GG n) (i : Fin n) : List (Fin n) := (List.finRange n).filter fun j => G.g i j == .arrow

/-- `Dag.py:253-263` `get_children`. -/
def children (G : GG n) (i : Fin n) : List (Fin n) := (List.finRange n).filter fun j => G.g j i == .arrow

/-- `Dag.py:266-276` `get_indegree`. -/
def indegree (G : GG n) (i : Fin n) : Nat := (List.finRange n).foldl (fun d j => if G.g i j = .arrow then d + 1 else d) 0

/-- `Dag.py:279-289` `get_outdegree`. -/
def outdegree (G : GG n) (i : Fin n) : Nat := (List.finRange n).foldl (fun d j => if G.g j i = .arrow then d + 1 else d) 0

/-- `Dag.py:292-293` `get_degree`. -/
def degree (G : GG n) (i : Fin n) : Nat := indegree G i + outdegree G i

/-- `Dag.py:321-330` `get_num_edges`. -/
def numEdges (G : GG n) : Nat :=
  (List.finRange n).foldl (fun acc i => (rangeFrom i).foldl (fun d j => if G.g j i ≠ .null then d + 1 else d) acc) 0

/-- `Dag.py:333-344` `get_num_connected_edges`. -/
def numConnectedEdges (G : GG n) (i : Fin n) : Nat :=
  (List.finRange n).foldl (fun d j => if G.g j i = .arrow ∨ G.g i j = .arrow then d + 1 else d) 0

/-- `Dag.py:351-356` `is_adjacent_to`. -/
def isAdjacentTo (G : GG n) (i j : Fin n) : Bool := G.g j i != .null

/-- `Dag.py:367-372` `is_child_of`. -/
def isChildOf (G : GG n) (i j : Fin n) : Bool := G.g i j == .arrow

/-- `Dag.py:375-380` `is_parent_of`, and `488-493` `is_directed_from_to`. -/
def isParentOf (G : GG n) (i j : Fin n) : Bool := G.g j i == .arrow

/-- `Dag.py:500-501` `is_exogenous`. -/
def isExogenous (G : GG n) (i : Fin n) : Bool := indegree G i == 0

/-- `Dag.py:444-457` `is_def_noncollider`. -/
def isDefNoncollider (G : GG n) (a b c : Fin n) : Bool :=
  (nodeEdges G b).any fun e => (e.distalNode b == some a && e.pointsToward a) || (e.distalNode b == some c && e.pointsToward c)

/-- `Dag.py:460-468` `is_def_collider`. -/
def isDefCollider (G : GG n) (a b c : Fin n) : Bool :=
  match getEdge G a b, getEdge G b c with
  | some e1, some e2 => e1.proximal b == some .arrow && e2.proximal b == some .arrow
  | _, _ => false

/-- `Dag.py:77-86` `collect_ancestors` (same code in `GeneralGraph.py:83-92`), for the `get_parents` of the class; the list is passed
through. Recursion depth is bounded by fuel, `none` = out of fuel. -/
def collect (par : Fin n → List (Fin n)) : Nat → List (Fin n) → Fin n → Option (List (Fin n))
  | 0, _, _ => none
  | f + 1, anc, v => if v ∈ anc then some anc else (par v).foldlM (collect par f) (anc ++ [v])

/-- `Dag.py:238-250` `get_ancestors` (same code in `GeneralGraph.py:369-378`). -/
def getAncestors (par : Fin n → List (Fin n)) (f : Nat) (vs : List (Fin n)) : Option (List (Fin n)) := vs.foldlM (collect par f) []

/-- `GraphUtils.py:277-289` with `Dag.get_parents`: one sweep (see `GG.orderSweep`). -/
def orderSweep (G : GG n) : List (Fin n) → List (Fin n) → List (Fin n) → List (Fin n) × List (Fin n)
  | [], found, sub => (found, sub)
  | v :: vs, found, sub =>
    if (parents G v).all (fun p => decide (p ∈ found)) then orderSweep G vs (found ++ [v]) (sub ++ [v])
    else orderSweep G vs found sub

/-- `GraphUtils.py:275-291` with `Dag.get_parents`: the loop, with fuel. -/
def orderLoop (G : GG n) : Nat → List (Fin n) → List (Fin n) → Option (List (Fin n))
  | 0, _, _ => none
  | _ + 1, found, [] => some found
  | f + 1, found, v :: vs =>
    let r := orderSweep G (v :: vs) found []
    orderLoop G f r.1 ((v :: vs).filter fun e => decide (e ∉ r.2))

/-- `Dag.py:719-721` `get_causal_ordering`, `GraphUtils.py:259-293`. -/
def causalOrdering (G : GG n) (fuel : Nat) : Outcome (List (Fin n)) :=
  if existsDirectedCycle G then .raised
  else match orderLoop G fuel [] (List.finRange n) with
    | none => .outOfFuel
    | some l => .ok l

/-! ## the life of an object -/

/-- A call of one of the four edge mutators on a `Dag`; the `Edge` objects are built by the user. -/
def apply (G : GG n) : Op n → GG n
  | .addEdge a b m1 m2 => (addEdge G (mkEdge a b m1 m2)).2
  | .addDirectedEdge a b => addDirectedEdge G a b
  | .removeEdge a b m1 m2 => removeEdge G (mkEdge a b m1 m2)
  | .removeConnectingEdge a b => removeConnectingEdge G a b

/-- The object after a history of calls. -/
def run (h : List (Op n)) : GG n := h.foldl apply (empty n)

/-! ## named nodes -/
section
variable {α : Type} [LinearOrder α]

/-- `Dag.py:225-235` `get_parents` by name; rows are translated back through the node list. -/
def namedParents (G : NG α) (a : α) : List α :=
  match G.map a with
  | none => []
  | some i => (List.range G.nodes.length).filterMap fun j => if G.mat i j == .arrow then G.nodes[j]? else none

/-- `Dag.py:399-411`: `get_edge` reads `graph[i, j]` with `i`, `j` from the dictionary; `none` is the KeyError or the IndexError. -/
def readPair (G : NG α) (a b : α) : Option (Mark × Mark) :=
  (G.map a).bind fun i => (G.map b).bind fun j => if i < G.num ∧ j < G.num then some (G.mat i j, G.mat j i) else none

/-- `Dag.py:430-441`, `68-75`: one edge of `get_graph_edges` inside `reconstitute_dpath`: `none` if something is raised. A pair without marks
makes `get_edge` return `None`, and `edge.get_node1()` raises; the nodes are looked up in the dictionary again and `dpath` is indexed
(it is not smaller than the matrix). -/
def edgeOk (G : NG α) (i j : Nat) : Option Unit :=
  (G.nodes[i]?).bind fun a => (G.nodes[j]?).bind fun b => (readPair G a b).bind fun m => if m.1 = .null ∧ m.2 = .null then none else some ()

/-- `Dag.py:585-606` `remove_node`: rows and columns are deleted, the list entry and the dictionary entry are removed, the other dictionary
entries stay. Then the edges are listed and `dpath` is updated, which may raise (`none`). -/
def removeNode (G : NG α) (v : α) : Option (NG α) :=
  (G.map v).bind fun r =>
    let G' : NG α := ⟨G.nodes.erase v, fun a => if a = v then none else G.map a, G.num - 1, fun a b => G.mat (NG.skip r a) (NG.skip r b)⟩
    if ∀ j < G'.num, ∀ i < j, G'.mat j i ≠ .null → edgeOk G' i j = some () then some G' else none

/-- `Dag.py:624-630`: the rows left after the loop `for i in range(num_vars): if not (nodes[i] in S): np.delete(graph, i)`; the columns are
treated the same. `none` is the IndexError. -/
def keepRows (out : Nat → Bool) (m : Nat) : Option (List Nat) :=
  (List.range m).foldlM (fun rows i => if out i then (if i < rows.length then some (rows.eraseIdx i) else none) else some rows) (List.range m)

/-- `Dag.py:618-635` `subgraph`; the update of `dpath` is not modelled. -/
def subgraph (G : NG α) (S : List α) : Option (NG α) :=
  (keepRows (fun i => (G.nodes[i]?).all fun a => decide (a ∉ S)) G.num).map fun rows =>
    ⟨S, buildMap S, S.length, fun a b =>
      match rows[a]?, rows[b]? with
      | some i, some j => G.mat i j
      | _, _ => .null⟩
end

/-! ## dag2pag -/

/-- `Dag.py:771-785`: the edges added for a latent `u`: parent → child, and child ↔ child. (`mod_endpoint` sets the endpoints the edge
already has.) -/
def latentEdges (G : GG n) (u : Fin n) : List (Edge n) :=
  ((parents G u).flatMap fun p => (children G u).map fun c => mkEdge p c .tail .arrow) ++
  (((children G u).zipIdx).flatMap fun x => ((children G u).drop (x.2 + 1)).map fun y => mkEdge x.1 y .arrow .arrow)

/-- `Dag.py:764-783`: the graph `G` of `dag2pag`. -/
def projected (G : GG n) (obs : List (Fin n)) : GG n :=
  let G0 := (upperPairs n).foldl (fun H p => (getEdge G p.1 p.2).elim H fun e => (H.addEdge e).2) (GG.empty n)
  ((List.finRange n).filter (· ∉ obs)).foldl (fun H u => (latentEdges G u).foldl (fun H e => (H.addEdge e).2) H) G0

/-- `Dag.py:785-790`: `pag.add_edge(G.get_edge(u, v))` for all pairs of observables; `none` when `get_edge` gives `None`, which has no
`get_node1`. The nodes of the result keep their numbers. -/
def dag2pag (G : GG n) (obs : List (Fin n)) : Option (GG n) :=
  (obs.zipIdx.flatMap fun x => (obs.drop (x.2 + 1)).map fun y => (x.1, y)).foldlM
    (fun P p => ((projected G obs).getEdge p.1 p.2).map fun e => (P.addEdge e).2) (GG.empty n)

end DagC
end CL
