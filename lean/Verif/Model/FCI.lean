import Verif.Model.FAS
import Verif.Model.MarkQueries
import Verif.Model.Generators

/-!
# Model of `causallearn/search/ConstraintBased/FCI.py`

Nodes are indices. A CI test is an arbitrary `ind x y S` (`independence_test_method(x, y, S) > alpha`). Printing is not modelled.
Python sets are lists; where the code iterates over a set or sorts by node name, the order is an arbitrary function of
`FciEnv`. Queue loops carry fuel; it is proved adequate where it matters. `get_edge` returning `None` followed by an attribute
access raises in Python; the model leaves the graph unchanged there (every such call is guarded by an adjacency).
-/
namespace CL
open GG
variable {n : Nat}

/-- What `fci` is parametrised by: the CI test, the background knowledge, the condition of `FCI.py:1098-1101`
(all three kinds of knowledge present), `max_path_length`, the iteration order of a Python set and the order of
`_dsep.sort(reverse=True)` (`FCI.py:216`). -/
structure FciEnv (n : Nat) where
  ind : CI n
  k : Know n
  allKinds : Bool
  maxPath : Int
  setOrder : List (Fin n) → List (Fin n)
  sorted : List (Fin n) → List (Fin n)

namespace Fci

/-- All pairs `(l[i], l[j])`, `i < j`, in the order in which `ChoiceGenerator(len(l), 2)` (C11) or
`itertools.combinations(l, 2)` lists them. -/
def pairsOf {α : Type} : List α → List (α × α)
  | [] => []
  | a :: l => l.map (fun b => (a, b)) ++ pairsOf l

/-- `graph.get_endpoint(a, b) == m`. -/
def ep (G : GG n) (a b : Fin n) (m : Mark) : Bool := G.getEndpoint a b == some m

/-- The idiom `e = graph.get_edge(a, b); graph.remove_edge(e); graph.add_edge(Edge(a, b, m1, m2))`, e.g. `FCI.py:321-323`. -/
def reor (G : GG n) (a b : Fin n) (m1 m2 : Mark) : GG n :=
  match G.getEdge a b with
  | none => G
  | some e => ((G.removeEdge e).addEdge (mkEdge a b m1 m2)).2

/-- The same with `m1 = e.get_proximal_endpoint(a)`, e.g. `FCI.py:343-345`. -/
def reorKeep (G : GG n) (a b : Fin n) (m2 : Mark) : GG n :=
  match G.getEdge a b with
  | none => G
  | some e => ((G.removeEdge e).addEdge (mkEdge a b ((e.proximal a).getD .null) m2)).2

/-- `FCI.py:526-528, 551-553`: the same with `m2 = e.get_proximal_endpoint(b)`. -/
def reorKeep2 (G : GG n) (a b : Fin n) (m1 : Mark) : GG n :=
  match G.getEdge a b with
  | none => G
  | some e => ((G.removeEdge e).addEdge (mkEdge a b m1 ((e.proximal b).getD .null))).2

/-- `FCI.py:20-30` `is_uncovered_path`. -/
def uncovered (G : GG n) : List (Fin n) → Bool
  | a :: b :: c :: l => !G.isAdj a c && uncovered G (b :: c :: l)
  | _ => true

/-- `FCI.py:33-40` `traverseSemiDirected`. -/
def traverseSemi (v : Fin n) (e : Edge n) : Option (Fin n) :=
  if v = e.node1 then if e.end1 = .tail ∨ e.end1 = .circle then some e.node2 else none
  else if v = e.node2 then if e.end2 = .tail ∨ e.end2 = .circle then some e.node1 else none
  else none

/-- `FCI.py:42-49` `traverseCircle`. -/
def traverseCircle (v : Fin n) (e : Edge n) : Option (Fin n) :=
  if v = e.node1 then if e.end1 = .circle ∧ e.end2 = .circle then some e.node2 else none
  else if v = e.node2 then if e.end1 = .circle ∧ e.end2 = .circle then some e.node1 else none
  else none

/-- `FCI.py:56-65, 72-81`: the nodes put in the queue from `v`, in order (those not in the visited set). -/
def semiSteps (G : GG n) (v : Fin n) : List (Fin n) :=
  (G.adjacentNodes v).filterMap fun u => (G.getEdge v u).bind (traverseSemi v)

/-- `FCI.py:63-65`, `79-81`: `if not V.__contains__(c): V.add(c); Q.put(c)`, state `(Q, V)`. -/
def enqueue (s : List (Fin n) × List (Fin n)) (c : Fin n) : List (Fin n) × List (Fin n) :=
  if c ∈ s.2 then s else (s.1 ++ [c], c :: s.2)

/-- `FCI.py:67-81`: the loop of `existsSemiDirectedPath`. -/
def semiLoop (G : GG n) (to' : Fin n) : Nat → List (Fin n) × List (Fin n) → Bool
  | 0, _ => false
  | _ + 1, ([], _) => false
  | f + 1, (t :: Q, V) => if t = to' then true else semiLoop G to' f ((semiSteps G t).foldl enqueue (Q, V))

/-- `FCI.py:52-83` `existsSemiDirectedPath`. -/
def existsSemi (G : GG n) (src dst : Fin n) : Bool :=
  semiLoop G dst (n + 1) ((semiSteps G src).foldl enqueue ([], []))

/-- `FCI.py:91-102`, `109-118`: the nodes reached from `v` along a circle edge, outside `excl`. The first loop (lines 92-93)
also skips `node_u in exclude_node`; `traverseCircle` returns `node_u`, so that is the same test. -/
def circleSteps (G : GG n) (excl : List (Fin n)) (v : Fin n) : List (Fin n) :=
  (G.adjacentNodes v).filterMap fun u =>
    ((G.getEdge v u).bind (traverseCircle v)).bind fun c => if c ∈ excl then none else some c

/-- `FCI.py:100-102`, `116-118`: queue entries carry the path. -/
def enqueueP (path : List (Fin n)) (s : List (Fin n × List (Fin n)) × List (Fin n)) (c : Fin n) :
    List (Fin n × List (Fin n)) × List (Fin n) :=
  if c ∈ s.2 then s else (s.1 ++ [(c, path ++ [c])], c :: s.2)

/-- `FCI.py:444-463` `orient_on_path_helper`. -/
def orientOnPath (G : GG n) (a b : Fin n) (path : List (Fin n)) : GG n :=
  match path.head?, path.getLast? with
  | some c, some d =>
    (path.zip path.tail).foldl (fun G p => reor G p.1 p.2 .tail .tail) (reor (reor G a c .tail .tail) b d .tail .tail)
  | _, _ => G

/-- `FCI.py:497-505` with the body of the lazily evaluated generator `GetUncoveredCirclePath` (`FCI.py:104-118`): when the
generator yields a path the caller orients it, and the generator goes on reading the changed graph. -/
def circleLoop (a b dst : Fin n) : Nat → List (Fin n × List (Fin n)) × List (Fin n) → GG n × Bool → GG n × Bool
  | 0, _, st => st
  | _ + 1, ([], _), st => st
  | f + 1, ((t, path) :: Q, V), st =>
    let st' := if t = dst ∧ uncovered st.1 path = true then (orientOnPath (reor st.1 a b .tail .tail) a b path, true) else st
    circleLoop a b dst f ((circleSteps st'.1 [a, b] t).foldl (enqueueP path) (Q, V)) st'

/-- `FCI.py:85-118` `GetUncoveredCirclePath` consumed by `FCI.py:498-505`, for one pair `(C, D)`. -/
def circlePaths (a b c d : Fin n) (st : GG n × Bool) : GG n × Bool :=
  circleLoop a b d (n + 1) ((circleSteps st.1 [a, b] c).foldl (enqueueP [c]) ([], [])) st

/-- `FCI.py:122-137` `existOnePathWithPossibleParents`; `prev v` is `previous.get(v)` (`none`: no entry or `None`). -/
def onePath (G : GG n) (prev : Fin n → Option (List (Fin n))) (w x b : Fin n) : Bool :=
  if w = x then true
  else (prev w).elim false fun p => p.any fun r => r ≠ b ∧ r ≠ x ∧ (existsSemi G r x = true ∨ existsSemi G r b = true)

/-- State of `getPossibleDsep`: the queue, `V`, `previous`, `e`, `distance`, `dsep`. -/
structure PdSt (n : Nat) where
  Q : List (Fin n × Fin n)
  V : List (Fin n × Fin n)
  prev : Fin n → Option (List (Fin n))
  e : Option (Fin n × Fin n)
  dist : Nat
  dsep : List (Fin n)

/-- `FCI.py:163-168`, `193-198`: the `addToSet` blocks. -/
def addPrev (prev : Fin n → Option (List (Fin n))) (v b : Fin n) : Fin n → Option (List (Fin n)) :=
  fun u => if u = v then some (b :: (prev v).getD []) else prev u

/-- `FCI.py:154-170`: one neighbour of `x`. -/
def pdInit (x y : Fin n) (st : PdSt n) (b : Fin n) : PdSt n :=
  if b = y then st
  else ⟨st.Q ++ [(x, b)], (x, b) :: st.V, addPrev st.prev x b, some (st.e.getD (x, b)), st.dist, b :: st.dsep⟩

/-- `FCI.py:185-209`: one neighbour `c` of `b` (line 201: the new pair is `(node_a, node_c)`). -/
def pdStep (G : GG n) (x y a b : Fin n) (st : PdSt n) (c : Fin n) : PdSt n :=
  if c = a ∨ c = x ∨ c = y then st
  else
    let st1 := { st with prev := addPrev st.prev c b }
    if (G.isDefCollider a b c || G.isAdj a c) = true then
      if (a, c) ∈ st.V then st1
      else { st1 with Q := st.Q ++ [(a, c)], V := (a, c) :: st.V, e := some (st.e.getD (a, c)) }
    else st1

/-- `FCI.py:173-176`: take `t` from the queue (the rest is `Q`); when it is the marker `e`, count a level. -/
def PdSt.tick (st : PdSt n) (t : Fin n × Fin n) (Q : List (Fin n × Fin n)) : PdSt n :=
  if st.e = some t then { st with Q := Q, e := none, dist := st.dist + 1 } else { st with Q := Q }

/-- `FCI.py:177-178`: the length limit is exceeded (the test is only made when `t` is the marker). -/
def PdSt.tooFar (st : PdSt n) (t : Fin n × Fin n) (maxPath : Int) : Bool :=
  decide (st.e = some t ∧ ((st.dist + 1 : Nat) : Int) > (if maxPath = -1 then 1000 else maxPath))

/-- `FCI.py:181-182`: put `b` in the result. -/
def PdSt.member (st : PdSt n) (G : GG n) (x b : Fin n) : PdSt n :=
  if onePath G st.prev b x b then { st with dsep := b :: st.dsep } else st

/-- `FCI.py:172-209`: the loop. -/
def pdLoop (G : GG n) (x y : Fin n) (maxPath : Int) : Nat → PdSt n → PdSt n
  | 0, st => st
  | f + 1, st =>
    match st.Q with
    | [] => st
    | t :: Q =>
      if st.tooFar t maxPath then st.tick t Q
      else pdLoop G x y maxPath f ((G.adjacentNodes t.2).foldl (pdStep G x y t.1 t.2) ((st.tick t Q).member G x t.2))

/-- `FCI.py:140-218` `getPossibleDsep`. -/
def possibleDsep (env : FciEnv n) (G : GG n) (x y : Fin n) (maxPath : Int) : List (Fin n) :=
  let st0 := (env.setOrder (G.adjacentNodes x)).foldl (pdInit x y) ⟨[], [], fun _ => none, none, 0, []⟩
  let st := pdLoop G x y maxPath (n * n + 1) st0
  env.sorted ((List.finRange n).filter fun v => v ∈ st.dsep ∧ v ≠ x ∧ v ≠ y)

/-- `FCI.py:221-243` `fci_orient_bk`: one edge (`bk is None`: the knowledge that answers `False`). -/
def orientBkStep (k : Know n) (G : GG n) (e : Edge n) : GG n :=
  if k.forb e.node1 e.node2 then (G.removeEdge e).addDirectedEdge e.node2 e.node1
  else if k.forb e.node2 e.node1 then (G.removeEdge e).addDirectedEdge e.node1 e.node2
  else if k.req e.node1 e.node2 then (G.removeEdge e).addDirectedEdge e.node1 e.node2
  else if k.req e.node2 e.node1 then (G.removeEdge e).addDirectedEdge e.node2 e.node1
  else G

/-- `FCI.py:221-243` `fci_orient_bk`. -/
def fciOrientBk (k : Know n) (G : GG n) : GG n := G.graphEdges.foldl (orientBkStep k) G

/-- `FCI.py:246-257` `is_arrow_point_allowed`. -/
def allowed (k : Know n) (G : GG n) (x y : Fin n) : Bool :=
  if ep G x y .arrow then true
  else if ep G x y .tail then false
  else if ep G y x .arrow && k.forb x y then false
  else if ep G y x .tail && k.forb x y then false
  else ep G x y .circle

/-- `FCI.py:302-309` `reorientAllWith`: one edge. -/
def reorientStep (m : Mark) (G : GG n) (e : Edge n) : GG n :=
  ((G.removeEdge e).addEdge ((e.setEndpoint1 m).setEndpoint2 m)).2

/-- `FCI.py:302-309` `reorientAllWith`. -/
def reorientAll (m : Mark) (G : GG n) : GG n := G.graphEdges.foldl (reorientStep m) G

/-- `FCI.py:277-295`: the body of `rule0` for one triple. -/
def rule0Step (k : Know n) (ss : SSet n) (b : Fin n) (G : GG n) (p : Fin n × Fin n) : GG n :=
  if G.isAdj p.1 p.2 || G.isDefCollider p.1 b p.2 then G
  else
    (ss p.1 p.2).elim G fun S =>
      if b ∈ S then G
      else if !allowed k G p.1 b || !allowed k G p.2 b then G
      else reorKeep (reorKeep G p.1 b .arrow) p.2 b .arrow

/-- `FCI.py:265-299`: the body of `rule0` for one node (lists with fewer than two elements have no pairs). -/
def rule0Node (k : Know n) (ss : SSet n) (G : GG n) (b : Fin n) : GG n :=
  (pairsOf (G.adjacentNodes b)).foldl (rule0Step k ss b) G

/-- `FCI.py:260-299` `rule0`. -/
def rule0 (k : Know n) (ss : SSet n) (G : GG n) : GG n :=
  (List.finRange n).foldl (rule0Node k ss) (fciOrientBk k (reorientAll .circle G))

/-- `FCI.py:312-330` `ruleR1`; the state is the graph and `changeFlag`. -/
def r1 (k : Know n) (st : GG n × Bool) (a b c : Fin n) : GG n × Bool :=
  if st.1.isAdj a c then st
  else if ep st.1 a b .arrow && ep st.1 c b .circle then
    if !allowed k st.1 b c then st else (reor st.1 c b .arrow .tail, true)
  else st

/-- `FCI.py:333-352` `ruleR2`. -/
def r2 (k : Know n) (st : GG n × Bool) (a b c : Fin n) : GG n × Bool :=
  if st.1.isAdj a c && ep st.1 a c .circle then
    if ep st.1 a b .arrow && ep st.1 b c .arrow && (ep st.1 b a .tail || ep st.1 c b .tail) then
      if !allowed k st.1 a c then st else (reorKeep st.1 a c .arrow, true)
    else st
  else st

/-- `FCI.py:367-374`: the four calls for one combination. -/
def r1r2Step (k : Know n) (b : Fin n) (st : GG n × Bool) (p : Fin n × Fin n) : GG n × Bool :=
  r2 k (r2 k (r1 k (r1 k st p.1 b p.2) p.2 b p.1) p.1 b p.2) p.2 b p.1

/-- `FCI.py:355-376` `rulesR1R2cycle`. -/
def r1r2 (k : Know n) (st : GG n × Bool) : GG n × Bool :=
  (List.finRange n).foldl (fun st b => (pairsOf (st.1.adjacentNodes b)).foldl (r1r2Step k b) st) st

/-- `FCI.py:379-383` `isNoncollider`. -/
def isNoncoll (ss : SSet n) (i j l : Fin n) : Bool := (ss i l).elim false fun S => decide (j ∈ S)

/-- `FCI.py:404-429`: the body of `ruleR3` for one `D` and one pair `(A, C)`. -/
def r3Step (k : Know n) (ss : SSet n) (b d : Fin n) (st : GG n × Bool) (p : Fin n × Fin n) : GG n × Bool :=
  if st.1.isAdj p.1 p.2 then st
  else if !st.1.isAdj p.1 d || !st.1.isAdj p.2 d then st
  else if !isNoncoll ss p.1 d p.2 then st
  else if !ep st.1 p.1 d .circle then st
  else if !ep st.1 p.2 d .circle then st
  else if !allowed k st.1 d b then st
  else (reorKeep st.1 d b .arrow, true)

/-- `FCI.py:390-429`: the body of `ruleR3` for one `B`. -/
def r3Node (k : Know n) (ss : SSet n) (st : GG n × Bool) (b : Fin n) : GG n × Bool :=
  let arrows := st.1.nodesInto b .arrow
  let circles := st.1.nodesInto b .circle
  circles.foldl (fun st d => (pairsOf arrows).foldl (r3Step k ss b d) st) st

/-- `FCI.py:386-430` `ruleR3`. -/
def r3 (k : Know n) (ss : SSet n) (st : GG n × Bool) : GG n × Bool := (List.finRange n).foldl (r3Node k ss) st

/-- `FCI.py:481-484`: neighbours of `v` along circle edges, other than `a` and `b`. -/
def circleAdj (G : GG n) (a b v : Fin n) : List (Fin n) :=
  (G.adjacentNodes v).filter fun u => u ≠ a ∧ u ≠ b ∧ ep G u v .circle = true ∧ ep G v u .circle = true

/-- `FCI.py:469-506`: the body of `ruleR5` for one `A`. The generators are created first (lines 487-494) and consumed after
(lines 497-505). -/
def r5Step (b : Fin n) (st : GG n × Bool) (a : Fin n) : GG n × Bool :=
  if !ep st.1 b a .circle then st
  else
    let cs := (circleAdj st.1 a b a).filter fun c => !st.1.isAdj b c
    let ds := (circleAdj st.1 a b b).filter fun d => !st.1.isAdj a d
    (cs.flatMap fun c => ds.map fun d => (c, d)).foldl (fun st p => circlePaths a b p.1 p.2 st) st

/-- `FCI.py:432-507` `ruleR5`. -/
def r5 (st : GG n × Bool) : GG n × Bool :=
  (List.finRange n).foldl (fun st b => (st.1.nodesInto b .circle).foldl (r5Step b) st) st

/-- `FCI.py:514-528`: the body of `ruleR6` for one `B`. -/
def r6Node (st : GG n × Bool) (b : Fin n) : GG n × Bool :=
  if (st.1.nodesInto b .tail).any (fun a => ep st.1 b a .tail) then
    (st.1.nodesInto b .circle).foldl (fun st c => (reorKeep2 st.1 b c .tail, true)) st
  else st

/-- `FCI.py:509-532` `ruleR6`. -/
def r6 (st : GG n × Bool) : GG n × Bool := (List.finRange n).foldl r6Node st

/-- `FCI.py:548-553`: the body of `ruleR7` for one `C` and one `A`. -/
def r7Step (b c : Fin n) (st : GG n × Bool) (a : Fin n) : GG n × Bool :=
  if a = c then st
  else if st.1.isAdj a c then st
  else (reorKeep2 st.1 b c .tail, true)

/-- `FCI.py:540-553`: the body of `ruleR7` for one `B`. -/
def r7Node (st : GG n × Bool) (b : Fin n) : GG n × Bool :=
  let circles := st.1.nodesInto b .circle
  let as := circles.filter fun a => ep st.1 b a .tail
  circles.foldl (fun st c => as.foldl (r7Step b c) st) st

/-- `FCI.py:535-556` `ruleR7`. -/
def r7 (st : GG n × Bool) : GG n × Bool := (List.finRange n).foldl r7Node st

/-- `FCI.py:558-567` `getPath`; `prev` is the dictionary `previous`. -/
def getPath (prev : Fin n → Option (Fin n)) : Nat → Fin n → List (Fin n)
  | 0, _ => []
  | f + 1, c => (prev c).elim [] fun p => p :: getPath prev f p

/-- `FCI.py:570-644` `doDdpOrientation`: `none` is the result `(False, change_flag)`, `some G` is `(True, True)` with the new
graph. `path` is `getPath(node_d, previous)`. -/
def doDdp (env : FciEnv n) (ss : SSet n) (G : GG n) (d a b c : Fin n) (path : List (Fin n)) : Option (GG n) :=
  let ind1 := env.ind d c path
  let ind2 := env.ind d c (path.erase b)
  let verdict : Option Bool := if !ind1 && !ind2 then (ss d c).map fun S => decide (b ∈ S) else some ind1
  verdict.elim none fun v =>
    if v then some (reorKeep G c b .tail)
    else if !allowed env.k G a b || !allowed env.k G c b then none
    else some (reorKeep (reorKeep G a b .arrow) c b .arrow)

/-- State of `ddpOrient`: the queue, `V`, `previous`, `e`, `distance`. -/
structure DdpSt (n : Nat) where
  Q : List (Fin n)
  V : List (Fin n)
  prev : Fin n → Option (Fin n)
  e : Option (Fin n)
  dist : Nat

/-- `FCI.py:684, 690`: `previous[node_d] = node_t`. -/
def DdpSt.setPrev (st : DdpSt n) (d t : Fin n) : DdpSt n := { st with prev := fun u => if u = d then some t else st.prev u }

/-- `FCI.py:700-702`: `Q.put(node_d); V.add(node_d)` if `node_d` is a parent of `node_c`. -/
def DdpSt.push (st : DdpSt n) (cPar : List (Fin n)) (d : Fin n) : DdpSt n :=
  if d ∈ cPar then { st with Q := st.Q ++ [d], V := d :: st.V } else st

/-- `FCI.py:672`: `e is None or e == node_t`. -/
def DdpSt.hit (st : DdpSt n) (t : Fin n) : Bool := decide (st.e = none ∨ st.e = some t)

/-- `FCI.py:670-674`: take `node_t` from the queue (the rest is `Q`) and update `e`, `distance`. -/
def DdpSt.take (st : DdpSt n) (t : Fin n) (Q : List (Fin n)) : DdpSt n :=
  if st.hit t then { st with Q := Q, e := some t, dist := st.dist + 1 } else { st with Q := Q }

/-- `FCI.py:675`: the length limit is exceeded. -/
def DdpSt.tooLong (st : DdpSt n) (maxPath : Int) : Bool :=
  decide (st.dist > 0 ∧ (st.dist : Int) > (if maxPath = -1 then 1000 else maxPath))

/-- `FCI.py:692-698`: try to orient for the end node `d`. -/
def ddpTry (env : FciEnv n) (ss : SSet n) (G : GG n) (a b c d : Fin n) (prev : Fin n → Option (Fin n)) : Option (GG n) :=
  if !G.isAdj d c && d ≠ c then doDdp env ss G d a b c (getPath prev (n + 1) d) else none

/-- `FCI.py:680-702`: the loop over `nodesInTo`; `inl G` is a `return` after a successful orientation. -/
def ddpInner (env : FciEnv n) (ss : SSet n) (G : GG n) (a b c t : Fin n) (cPar : List (Fin n)) :
    List (Fin n) → DdpSt n → GG n ⊕ DdpSt n
  | [], st => .inr st
  | d :: ds, st =>
    if d ∈ st.V then ddpInner env ss G a b c t cPar ds st
    else if !((st.setPrev d t).prev t).elim false (fun p => G.isDefCollider d t p) then
      ddpInner env ss G a b c t cPar ds (st.setPrev d t)
    else
      match ddpTry env ss G a b c d (st.setPrev d t).prev with
      | some G' => .inl G'
      | none => ddpInner env ss G a b c t cPar ds ((st.setPrev d t).push cPar d)

/-- `FCI.py:669-703`: the loop of `ddpOrient`; `none`: returned without orienting. -/
def ddpLoop (env : FciEnv n) (ss : SSet n) (G : GG n) (a b c : Fin n) (cPar : List (Fin n)) : Nat → DdpSt n → Option (GG n)
  | 0, _ => none
  | f + 1, st =>
    match st.Q with
    | [] => none
    | t :: Q =>
      if st.hit t && (st.take t Q).tooLong env.maxPath then none
      else
        match ddpInner env ss G a b c t cPar (G.nodesInto t .arrow) (st.take t Q) with
        | .inl G' => some G'
        | .inr st2 => ddpLoop env ss G a b c cPar f st2

/-- `FCI.py:647-703` `ddpOrient`. -/
def ddpOrient (env : FciEnv n) (ss : SSet n) (st : GG n × Bool) (a b c : Fin n) : GG n × Bool :=
  (ddpLoop env ss st.1 a b c (st.1.parents c) (n + 1)
    ⟨[a], [b, a], fun u => if u = a then some b else none, none, 0⟩).elim st fun G' => (G', true)

/-- `FCI.py:718-725`: the body of `ruleR4B` for one `A` and one `C`. -/
def r4Step (env : FciEnv n) (ss : SSet n) (b a : Fin n) (st : GG n × Bool) (c : Fin n) : GG n × Bool :=
  if !st.1.isParentOf a c then st
  else if !ep st.1 b c .arrow then st
  else ddpOrient env ss st a b c

/-- `FCI.py:713-725`: the body of `ruleR4B` for one `B`. -/
def r4Node (env : FciEnv n) (ss : SSet n) (st : GG n × Bool) (b : Fin n) : GG n × Bool :=
  let possA := st.1.nodesOutOf b .arrow
  let possC := st.1.nodesInto b .circle
  possA.foldl (fun st a => possC.foldl (r4Step env ss b a) st) st

/-- `FCI.py:706-726` `ruleR4B`. -/
def r4 (env : FciEnv n) (ss : SSet n) (st : GG n × Bool) : GG n × Bool := (List.finRange n).foldl (r4Node env ss) st

/-- `FCI.py:741-756`: the body of `rule8` for one pair. -/
def r8Step (b : Fin n) (st : GG n × Bool) (p : Fin n × Fin n) : GG n × Bool :=
  let G := st.1
  let A := p.1
  let C := p.2
  if (ep G A b .arrow && ep G b A .tail && ep G b C .arrow && ep G C b .tail && G.isAdj A C && ep G A C .arrow && ep G C A .circle) ||
     (ep G A b .circle && ep G b A .tail && ep G b C .arrow && ep G C b .tail && G.isAdj A C && ep G A C .arrow && ep G C A .circle)
  then (reor G A C .tail .arrow, true)
  else st

/-- `FCI.py:730-758` `rule8`. -/
def r8 (st : GG n × Bool) : GG n × Bool :=
  (List.finRange n).foldl (fun st b => (pairsOf (st.1.adjacentNodes b)).foldl (r8Step b) st) st

/-- `FCI.py:762-771` `is_possible_parent`. -/
def isPossibleParent (G : GG n) (p c : Fin n) : Bool := decide (p ≠ c) && G.isAdj p c && !ep G c p .arrow

/-- `FCI.py:774-784` `find_possible_children`, iterated in the order of the Python set. -/
def possibleChildren (env : FciEnv n) (G : GG n) (p : Fin n) (cand : List (Fin n)) : List (Fin n) :=
  env.setOrder (cand.filter fun c => isPossibleParent G p c)

/-- `FCI.py:793-810`: the body of `rule9` for one `A`. -/
def r9Step (env : FciEnv n) (c : Fin n) (st : GG n × Bool) (a : Fin n) : GG n × Bool :=
  if !ep st.1 c a .circle then st
  else
    let kids := possibleChildren env st.1 a ((st.1.adjacentNodes a).filter fun u => u ≠ a ∧ u ≠ c)
    if kids.any (fun b => !st.1.isAdj b c && existsSemi st.1 b c) then (reor st.1 a c .tail .arrow, true) else st

/-- `FCI.py:786-811` `rule9`. -/
def r9 (env : FciEnv n) (st : GG n × Bool) : GG n × Bool :=
  (List.finRange n).foldl (fun st c => (st.1.nodesInto c .arrow).foldl (r9Step env c) st) st

/-- `FCI.py:841-858`: the body of `rule10` for one `A` and one pair `(B, D)`. -/
def r10Step (kids : List (Fin n)) (c a : Fin n) (st : GG n × Bool) (p : Fin n × Fin n) : GG n × Bool :=
  if !ep st.1 c p.1 .tail then st
  else if !ep st.1 c p.2 .tail then st
  else if (pairsOf kids).any (fun q => existsSemi st.1 q.1 p.1 && existsSemi st.1 q.2 p.2 && !st.1.isAdj q.1 q.2) then
    (reor st.1 a c .tail .arrow, true)
  else st

/-- `FCI.py:827-858`: the body of `rule10` for one `A`. -/
def r10A (env : FciEnv n) (arrows : List (Fin n)) (c : Fin n) (st : GG n × Bool) (a : Fin n) : GG n × Bool :=
  let kids := possibleChildren env st.1 a ((st.1.adjacentNodes a).filter fun u => u ≠ c)
  if kids.length < 2 then st else (pairsOf arrows).foldl (r10Step kids c a) st

/-- `FCI.py:818-858`: the body of `rule10` for one `C` (fewer than two arrows: no pairs). -/
def r10Node (env : FciEnv n) (st : GG n × Bool) (c : Fin n) : GG n × Bool :=
  let arrows := st.1.nodesInto c .arrow
  let as := arrows.filter fun a => ep st.1 c a .circle
  as.foldl (r10A env arrows c) st

/-- `FCI.py:814-860` `rule10`. -/
def r10 (env : FciEnv n) (st : GG n × Bool) : GG n × Bool := (List.finRange n).foldl (r10Node env) st

/-- `FCI.py:968-971`, `991-994`: the index lists the loop works with. `DepthChoiceGenerator.next` returns the same list object
until it moves to the next size (`_initialize` makes a new one), and the code calls `next()` before it reads `origin_choice`:
it sees the list as the *following* call left it. `cur` is the content when it was returned. -/
def seen : Nat → Gen.DGen → List Int → List (List Int)
  | 0, _, _ => []
  | f + 1, g, cur =>
    match g.next with
    | none => [cur]
    | some (none, _) => [cur]
    | some (some c, g') => (if g'.b = g.b then c else cur) :: seen f g' c

/-- `FCI.py:965-971`: the index lists for a generator over `m` elements. -/
def seenOf (m : Nat) : List (List Int) :=
  match (Gen.DGen.init m (some m)).next with
  | some (some c, g) => seen (2 ^ m + 1) g c
  | _ => []

/-- `possibleDsep[index] for index in origin_choice`. -/
def pick (pd : List (Fin n)) (ix : List Int) : List (Fin n) := ix.filterMap fun i => pd[i.toNat]?

/-- `FCI.py:971-977`: the loop tests this set. -/
def testable (G : GG n) (a b : Fin n) (S : List (Fin n)) : Bool :=
  !(decide (S.length < 2)) && !(S.all fun v => decide (v ∈ G.adjacentNodes a)) && !(S.all fun v => decide (v ∈ G.adjacentNodes b))

/-- `FCI.py:965-985` (and `989-1009` with `pd` from the other side): the first tested set that separates `a` and `b`. -/
def findSep (env : FciEnv n) (G : GG n) (a b : Fin n) (pd : List (Fin n)) : Option (List (Fin n)) :=
  ((seenOf pd.length).map (pick pd)).find? fun S => testable G a b S && env.ind a b S

/-- `FCI.py:965-985` (and `989-1009`): search in `pd`; on success the edge is removed and the set recorded under one order. -/
def pdsepTry (env : FciEnv n) (s : GG n × SSet n) (e : Edge n) (pd : List (Fin n)) : GG n × SSet n :=
  (findSep env s.1 e.node1 e.node2 pd).elim s fun S => (s.1.removeEdge e, upd s.2 e.node1 e.node2 (some S))

/-- `FCI.py:961-985`: the first half of the body of `removeByPossibleDsep` for one edge. -/
def pdsepHalf (env : FciEnv n) (s : GG n × SSet n) (e : Edge n) : GG n × SSet n :=
  pdsepTry env s e (possibleDsep env s.1 e.node1 e.node2 (-1))

/-- `FCI.py:961-1009`: the body of `removeByPossibleDsep` for one edge. -/
def pdsepStep (env : FciEnv n) (s : GG n × SSet n) (e : Edge n) : GG n × SSet n :=
  if (pdsepHalf env s e).1.containsEdge e then
    pdsepTry env (pdsepHalf env s e) e (possibleDsep env (pdsepHalf env s e).1 e.node2 e.node1 (-1))
  else pdsepHalf env s e

/-- `FCI.py:951-1009` `removeByPossibleDsep`. -/
def removeByPdsep (env : FciEnv n) (s : GG n × SSet n) : GG n × SSet n := s.1.graphEdges.foldl (pdsepStep env) s

/-- `FCI.py:1095-1126`: one iteration of the main loop, started with `change_flag = False`; `first` is `first_time`. -/
def round (env : FciEnv n) (ss : SSet n) (first : Bool) (G : GG n) : (GG n × Bool) × Bool :=
  let s3 := r3 env.k ss (r1r2 env.k (G, false))
  let go := s3.2 || (first && env.allKinds)
  let s4 := if go then r4 env ss s3 else s3
  (r10 env (r9 env (r8 (r7 (r6 (r5 s4))))), if go then false else first)

/-- `FCI.py:1090-1126`: the main loop (`none`: out of fuel). -/
def mainLoop (env : FciEnv n) (ss : SSet n) : Nat → Bool → GG n → Option (GG n)
  | 0, _, _ => none
  | f + 1, first, G =>
    let r := round env ss first G
    if r.1.2 then mainLoop env ss f r.2 r.1.1 else some r.1.1

/-- `FCI.py:1077-1088`: everything before the main loop. -/
def prepare (env : FciEnv n) (depth : Option Nat) : Option (GG n × SSet n) :=
  (fas true env.ind env.k depth).map fun s =>
    let s1 := removeByPdsep env (rule0 env.k s.2 (reorientAll .circle s.1), s.2)
    (rule0 env.k s1.2 (reorientAll .circle s1.1), s1.2)

/-- `FCI.py:1012-1132` `fci`, the returned graph (without the colours of `get_color_edges`). The fuel is the number of
orientation rounds that can change something. -/
def fci (env : FciEnv n) (depth : Option Nat) : Option (GG n) :=
  (prepare env depth).bind fun s => mainLoop env s.2 (n * n + 2) true s.1

end Fci
end CL
