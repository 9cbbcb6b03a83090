import Verif.Model.Skeleton
import Mathlib.Order.WithBot
import Mathlib.Data.List.Sort
import Mathlib.Data.List.Dedup

/-!
# Model of the orientation phases of PC

`causallearn/graph/GraphClass.py` (graph queries), `utils/PCUtils/UCSepset.py`, `utils/PCUtils/Meek.py`,
`utils/PCUtils/BackgroundKnowledgeOrientUtils.py` and `search/ConstraintBased/PC.py:pc_alg`.

p-values live in an arbitrary linear order `P` (floats without NaN). `deepcopy` is the identity on values. Progress bars,
verbose printing and timing are not modelled.
-/
namespace CL
open GG
variable {n : Nat} {P : Type} [LinearOrder P]

/-- The CI test object together with the significance level: `cg.ci_test(x, y, S)` and `alpha`. -/
structure TestFn (n : Nat) (P : Type) where
  pval : Fin n → Fin n → List (Fin n) → P
  alpha : P

/-- `p > alpha` (`SkeletonDiscovery.py:101-102`). -/
def TestFn.ind (T : TestFn n P) : CI n := fun x y S => decide (T.alpha < T.pval x y S)

/-- All index pairs in row-major order (the order of `np.where`). -/
def allPairs (n : Nat) : List (Fin n × Fin n) :=
  (List.finRange n).flatMap fun r => (List.finRange n).map fun c => (r, c)

/-- `itertools.permutations(l, 2)` for duplicate-free `l`: ordered pairs of different elements, in lexicographic order of
positions. (Python distinguishes positions, which is the same thing for lists without duplicates, the only ones it is
applied to.) -/
def perm2 {α : Type} [DecidableEq α] (l : List α) : List (α × α) :=
  l.flatMap fun p => (l.filter (· ≠ p)).map fun q => (p, q)

namespace GG

/-- `GraphClass.py:68-77` `find_arrow_heads` / `find_tails`: `zip(L[1], L[0])` for `L = np.where(graph == m)`. -/
def findMark (G : GG n) (m : Mark) : List (Fin n × Fin n) :=
  ((allPairs n).filter fun p => G.g p.1 p.2 == m).map Prod.swap

/-- `GraphClass.py:92-94` `find_adj`. -/
def findAdj (G : GG n) : List (Fin n × Fin n) := G.findMark .tail ++ G.findMark .arrow

/-- `GraphClass.py:96-98` `is_undirected`. -/
def isUndirected (G : GG n) (i j : Fin n) : Bool := G.g i j == .tail && G.g j i == .tail

/-- `GraphClass.py:100-102` `is_fully_directed`. -/
def isFullyDirected (G : GG n) (i j : Fin n) : Bool := G.g i j == .tail && G.g j i == .arrow

/-- `GraphClass.py:104-107` `find_unshielded_triples`. -/
def unshieldedTriples (G : GG n) : List (Fin n × Fin n × Fin n) :=
  ((perm2 G.findAdj).filter fun pq => decide (pq.1.2 = pq.2.1 ∧ pq.1.1 ≠ pq.2.2) && G.g pq.1.1 pq.2.2 == .null).map
    fun pq => (pq.1.1, pq.1.2, pq.2.2)

/-- `GraphClass.py:109-113` `find_triangles`. -/
def triangles (G : GG n) : List (Fin n × Fin n × Fin n) :=
  ((perm2 G.findAdj).filter fun pq => decide (pq.1.2 = pq.2.1 ∧ pq.1.1 ≠ pq.2.2 ∧ (pq.1.1, pq.2.2) ∈ G.findAdj)).map
    fun pq => (pq.1.1, pq.1.2, pq.2.2)

/-- `GraphClass.py:115-120` `find_kites`. -/
def kites (G : GG n) : List (Fin n × Fin n × Fin n × Fin n) :=
  ((perm2 G.triangles).filter fun pq => decide (pq.1.1 = pq.2.1 ∧ pq.1.2.2 = pq.2.2.2 ∧ pq.1.2.1 < pq.2.2.1) &&
      G.g pq.1.2.1 pq.2.2.1 == .null).map
    fun pq => (pq.1.1, pq.1.2.1, pq.2.2.1, pq.1.2.2)

end GG

/-- `Helper.py:114-119` `powerset`. -/
def powersetList {α : Type} (l : List α) : List (List α) := (List.range (l.length + 1)).flatMap (combos l)

/-- `GraphClass.py:122-128` `find_cond_sets` with `Helper.py:134-136` `list_union`. The result is a Python set turned into
a list; the code only takes maxima over it or searches it, so the order is irrelevant. -/
def condSets (G : GG n) (i j : Fin n) : List (List (Fin n)) :=
  (powersetList (G.neighbors i) ++ powersetList (G.neighbors j)).dedup

/-- `max([cg.ci_test(x, z, S) for S in cond])`, e.g. `UCSepset.py:115`. Python raises on an empty list; the model returns
`⊥`. -/
def maxP (T : TestFn n P) (x z : Fin n) (Ss : List (List (Fin n))) : WithBot P :=
  (Ss.map fun S => ((T.pval x z S : P) : WithBot P)).foldl max ⊥

/-- `Helper.py:155-158` `sort_dict_ascending` on a list of (key, value) items: Python's stable sort. -/
def sortAsc {α K : Type} [LinearOrder K] (l : List (α × K)) : List (α × K) := l.insertionSort fun a b => a.2 ≤ b.2

/-- `Helper.py:155-158` `sort_dict_ascending(descending=True)`. -/
def sortDesc {α K : Type} [LinearOrder K] (l : List (α × K)) : List (α × K) := l.insertionSort fun a b => b.2 ≤ a.2

/-- The knowledge condition under which a triple is skipped: `UCSepset.py:44-49`, `125-130`, `175-180`. -/
def Know.blocksUC (k : Know n) (x y z : Fin n) : Bool := k.forb x y || k.forb z y || k.req y x || k.req y z

namespace GG

/-- `UCSepset.py:52-59`: delete the edge between `x` and `y` in both lookups, then add `x → y`. -/
def overwriteDirected (G : GG n) (x y : Fin n) : GG n :=
  (((G.removeIfEdge x y).removeIfEdge y x).addEdge (mkEdge x y .tail .arrow)).2

/-- `UCSepset.py:94-98`: delete the edge `x – y` if present, then add `x → y`. -/
def setDirected (G : GG n) (x y : Fin n) : GG n :=
  ((G.removeIfEdge x y).addEdge (mkEdge x y .tail .arrow)).2

/-- `UCSepset.py:70-79`: `x → y`, or `x ↔ y` if the edge already points the other way. -/
def orientBi (G : GG n) (x y : Fin n) : GG n :=
  match G.getEdge x y with
  | none => (G.addEdge (mkEdge x y .tail .arrow)).2
  | some e =>
    if G.g x y = .tail ∧ G.g y x = .tail then ((G.removeEdge e).addEdge (mkEdge x y .tail .arrow)).2
    else if G.g x y = .arrow ∧ G.g y x = .tail then ((G.removeEdge e).addEdge (mkEdge x y .arrow .arrow)).2
    else G

/-- `UCSepset.py:51-67`, priority 0. -/
def collider0 (G : GG n) (x y z : Fin n) : GG n :=
  let G1 := G.overwriteDirected x y
  (((G1.removeIfEdge y z).removeIfEdge z y).addEdge (mkEdge z y .tail .arrow)).2

/-- `UCSepset.py:69-90`, priority 1. -/
def collider1 (G : GG n) (x y z : Fin n) : GG n := (G.orientBi x y).orientBi z y

/-- `UCSepset.py:92-103`, priority 2 (and the last loops of priorities 3 and 4, lines 131-141). -/
def collider2 (G : GG n) (x y z : Fin n) : GG n :=
  if !G.isFullyDirected y x && !G.isFullyDirected y z then (G.setDirected x y).setDirected z y else G

end GG

/-- The effect of one accepted collider for priorities 0, 1, 2 (3 and 4 postpone). -/
def colliderBy (prio : Nat) (G : GG n) (t : Fin n × Fin n × Fin n) : GG n :=
  if prio = 0 then G.collider0 t.1 t.2.1 t.2.2
  else if prio = 1 then G.collider1 t.1 t.2.1 t.2.2
  else G.collider2 t.1 t.2.1 t.2.2

/-- `UCSepset.py:41, 172, 309`: unshielded triples with `i < k`. -/
def orderedUT (G : GG n) : List (Fin n × Fin n × Fin n) := G.unshieldedTriples.filter fun t => t.1 < t.2.2

/-- `UCSepset.py:124-141`, `258-276`: the final loop of priorities 3 and 4. -/
def lateLoop (k : Know n) (l : List (Fin n × Fin n × Fin n)) (G : GG n) : GG n :=
  l.foldl (fun G t => if k.blocksUC t.1 t.2.1 t.2.2 then G else G.collider2 t.1 t.2.1 t.2.2) G

/-- `UCSepset.py:50`: `all(y not in S for S in cg.sepset[x, z])`. (Iterating over `None` would raise; the skeleton phase
records a list for every non-adjacent pair, `C17_recorded_sets_partial`.) -/
def sepAvoids (sep : Sep n) (t : Fin n × Fin n × Fin n) : Bool :=
  ((sep t.1 t.2.2).getD []).all fun S => decide (t.2.1 ∉ S)

/-- `UCSepset.py:12-143` `uc_sepset`. For priorities 3 and 4 the graph is not changed while `R0` is collected. -/
def ucSepset (T : TestFn n P) (prio : Nat) (k : Know n) (G : GG n) (sep : Sep n) : GG n :=
  let cands := (orderedUT G).filter fun t => !k.blocksUC t.1 t.2.1 t.2.2 && sepAvoids sep t
  if prio ≤ 2 then cands.foldl (colliderBy prio) G
  else if prio = 3 then
    lateLoop k ((sortAsc (cands.map fun t =>
      (t, maxP T t.1 t.2.2 ((condSets G t.1 t.2.2).filter fun S => decide (t.2.1 ∈ S))))).map Prod.fst) G
  else
    lateLoop k ((sortDesc (cands.map fun t =>
      (t, maxP T t.1 t.2.2 ((condSets G t.1 t.2.2).filter fun S => decide (t.2.1 ∉ S))))).map Prod.fst) G

/-- `UCSepset.py:146-278` `maxp`. For priorities 0-2 the two maxima are computed on the live graph `cg_new`, whose
adjacencies (hence conditioning sets) do not change. -/
def maxp (T : TestFn n P) (prio : Nat) (k : Know n) (G : GG n) : GG n :=
  let withY (G : GG n) (t : Fin n × Fin n × Fin n) :=
    maxP T t.1 t.2.2 ((condSets G t.1 t.2.2).filter fun S => decide (t.2.1 ∈ S))
  let withoutY (G : GG n) (t : Fin n × Fin n × Fin n) :=
    maxP T t.1 t.2.2 ((condSets G t.1 t.2.2).filter fun S => decide (t.2.1 ∉ S))
  if prio ≤ 2 then
    (orderedUT G).foldl (fun G t =>
      if k.blocksUC t.1 t.2.1 t.2.2 then G
      else if withY G t < withoutY G t then colliderBy prio G t else G) G
  else
    let cands := (orderedUT G).filter fun t => !k.blocksUC t.1 t.2.1 t.2.2 && decide (withY G t < withoutY G t)
    if prio = 3 then lateLoop k ((sortAsc (cands.map fun t => (t, withY G t))).map Prod.fst) G
    else lateLoop k ((sortDesc (cands.map fun t => (t, withoutY G t))).map Prod.fst) G

/-- State of `definite_maxp`/`definite_meek`: the graph and the lists `definite_UC`, `definite_non_UC`
(`GraphClass.py:40-41`). -/
structure DefSt (n : Nat) where
  G : GG n
  uc : List (Fin n × Fin n × Fin n)
  nonUC : List (Fin n × Fin n × Fin n)

/-- `UCSepset.py:312-352`: verdict of the scan for one triple: the two flags and the two maxima. The maxima start at `0`;
the first scan stops at the first p-value above `alpha`, the second only if the first found one: in both cases the maxima
are not used afterwards. -/
def defScan (T : TestFn n P) (zero : P) (G : GG n) (t : Fin n × Fin n × Fin n) : Bool × Bool × P × P :=
  let cw := (condSets G t.1 t.2.2).filter fun S => decide (t.2.1 ∈ S)
  let co := (condSets G t.1 t.2.2).filter fun S => decide (t.2.1 ∉ S)
  let uc := cw.all fun S => !T.ind t.1 t.2.2 S
  let nuc := co.all fun S => !T.ind t.1 t.2.2 S
  (uc, nuc, (cw.map (T.pval t.1 t.2.2)).foldl max zero, (co.map (T.pval t.1 t.2.2)).foldl max zero)

/-- `UCSepset.py:281-381` `definite_maxp` (priorities 2, 3, 4). -/
def definiteMaxp (T : TestFn n P) (zero : P) (prio : Nat) (k : Know n) (G : GG n) : DefSt n :=
  let isUC (t : Fin n × Fin n × Fin n) : Bool :=
    (defScan T zero G t).1 &&
      (!(defScan T zero G t).2.1 || decide ((defScan T zero G t).2.2.1 < (defScan T zero G t).2.2.2))
  let isNonUC (t : Fin n × Fin n × Fin n) : Bool := (defScan T zero G t).2.1 && !isUC t
  let items := ((orderedUT G).filter isUC).map fun t =>
    (t, if prio = 4 then (defScan T zero G t).2.2.2 else (defScan T zero G t).2.2.1)
  let sorted := if prio = 3 then sortAsc items else if prio = 4 then sortDesc items else items
  (sorted.map Prod.fst).foldl (fun st t =>
      if k.blocksUC t.1 t.2.1 t.2.2 then st
      else if !st.G.isFullyDirected t.2.1 t.1 && !st.G.isFullyDirected t.2.1 t.2.2 then
        ⟨(st.G.setDirected t.1 t.2.1).setDirected t.2.2 t.2.1, st.uc ++ [t], st.nonUC⟩
      else st) ⟨G, [], (orderedUT G).filter isNonUC⟩

/-! ### Meek rules -/

/-- `Meek.py:41-55` and the same code at `59-73`, `78-92`: orient the undirected edge `a – c` as `a → c` unless knowledge
objects or `c` is recorded as an ancestor of `a`. The flag is `loop`. -/
def tryOrient (k : Know n) (st : GG n × Bool) (a c : Fin n) : GG n × Bool :=
  if k.forb a c || k.req c a then st
  else match st.1.getEdge a c with
    | none => st
    | some e =>
      if st.1.isAncestorOf c a then st
      else (((st.1.removeEdge e).addEdge (mkEdge a c .tail .arrow)).2, true)

/-- `Meek.py:39-55`, rule 1. -/
def meek1 (k : Know n) (st : GG n × Bool) (t : Fin n × Fin n × Fin n) : GG n × Bool :=
  if st.1.isFullyDirected t.1 t.2.1 && st.1.isUndirected t.2.1 t.2.2 then tryOrient k st t.2.1 t.2.2 else st

/-- `Meek.py:57-73`, rule 2. -/
def meek2 (k : Know n) (st : GG n × Bool) (t : Fin n × Fin n × Fin n) : GG n × Bool :=
  if st.1.isFullyDirected t.1 t.2.1 && st.1.isFullyDirected t.2.1 t.2.2 && st.1.isUndirected t.1 t.2.2 then
    tryOrient k st t.1 t.2.2 else st

/-- `Meek.py:75-92`, rule 3. -/
def meek3 (k : Know n) (st : GG n × Bool) (t : Fin n × Fin n × Fin n × Fin n) : GG n × Bool :=
  if st.1.isUndirected t.1 t.2.1 && st.1.isUndirected t.1 t.2.2.1 && st.1.isFullyDirected t.2.1 t.2.2.2 &&
      st.1.isFullyDirected t.2.2.1 t.2.2.2 && st.1.isUndirected t.1 t.2.2.2 then
    tryOrient k st t.1 t.2.2.2 else st

/-- `Meek.py:38-92`: one iteration of the `while` loop. -/
def meekPass (k : Know n) (UT Tri : List (Fin n × Fin n × Fin n)) (Kite : List (Fin n × Fin n × Fin n × Fin n))
    (G : GG n) : GG n × Bool :=
  Kite.foldl (meek3 k) (Tri.foldl (meek2 k) (UT.foldl (meek1 k) (G, false)))

/-- `Meek.py:35-92`: the `while loop` (`none` = out of fuel). -/
def meekLoop (k : Know n) (UT Tri : List (Fin n × Fin n × Fin n)) (Kite : List (Fin n × Fin n × Fin n × Fin n)) :
    Nat → GG n → Option (GG n)
  | 0, _ => none
  | f + 1, G =>
    if (meekPass k UT Tri Kite G).2 then meekLoop k UT Tri Kite f (meekPass k UT Tri Kite G).1
    else some (meekPass k UT Tri Kite G).1

/-- `Meek.py:11-94` `meek`. -/
def meek (k : Know n) (G : GG n) : Option (GG n) :=
  meekLoop k G.unshieldedTriples G.triangles G.kites (n * n + 1) G

/-- `Meek.py:124-154`: rule 1 of `definite_meek` on a definite non-collider, in either direction. -/
def defMeek1 (k : Know n) (st : GG n × Bool) (t : Fin n × Fin n × Fin n) : GG n × Bool :=
  if st.1.isFullyDirected t.1 t.2.1 && st.1.isUndirected t.2.1 t.2.2 &&
      !(k.forb t.2.1 t.2.2 || k.req t.2.2 t.2.1) then tryOrient k st t.2.1 t.2.2
  else if st.1.isFullyDirected t.2.2 t.2.1 && st.1.isUndirected t.2.1 t.1 &&
      !(k.forb t.2.1 t.1 || k.req t.1 t.2.1) then tryOrient k st t.2.1 t.1
  else st

/-- `Meek.py:174-192`: rule 3 of `definite_meek`. -/
def defMeek3 (k : Know n) (uc nonUC : List (Fin n × Fin n × Fin n)) (st : GG n × Bool)
    (t : Fin n × Fin n × Fin n × Fin n) : GG n × Bool :=
  if decide ((t.2.1, t.2.2.2, t.2.2.1) ∈ uc ∨ (t.2.2.1, t.2.2.2, t.2.1) ∈ uc) &&
      decide ((t.2.1, t.1, t.2.2.1) ∈ nonUC ∨ (t.2.2.1, t.1, t.2.1) ∈ nonUC) && st.1.isUndirected t.1 t.2.2.2 then
    tryOrient k st t.1 t.2.2.2 else st

/-- `Meek.py:123-192`: one iteration. -/
def defMeekPass (k : Know n) (uc nonUC Tri : List (Fin n × Fin n × Fin n))
    (Kite : List (Fin n × Fin n × Fin n × Fin n)) (G : GG n) : GG n × Bool :=
  Kite.foldl (defMeek3 k uc nonUC) (Tri.foldl (meek2 k) (nonUC.foldl (defMeek1 k) (G, false)))

/-- `Meek.py:120-192`: the loop. -/
def defMeekLoop (k : Know n) (uc nonUC Tri : List (Fin n × Fin n × Fin n))
    (Kite : List (Fin n × Fin n × Fin n × Fin n)) : Nat → GG n → Option (GG n)
  | 0, _ => none
  | f + 1, G =>
    if (defMeekPass k uc nonUC Tri Kite G).2 then defMeekLoop k uc nonUC Tri Kite f (defMeekPass k uc nonUC Tri Kite G).1
    else some (defMeekPass k uc nonUC Tri Kite G).1

/-- `Meek.py:97-194` `definite_meek`. -/
def definiteMeek (k : Know n) (st : DefSt n) : Option (GG n) :=
  defMeekLoop k st.uc st.nonUC st.G.triangles st.G.kites (n * n + 1) st.G

/-! ### Background knowledge orientation and PC -/

/-- `BackgroundKnowledgeOrientUtils.py:25-37`: one edge. -/
def bkStep (k : Know n) (G : GG n) (e : Edge n) : GG n :=
  if G.isUndirectedFromTo e.node1 e.node2 then
    if k.forb e.node2 e.node1 then (G.removeEdge e).addDirectedEdge e.node1 e.node2
    else if k.forb e.node1 e.node2 then (G.removeEdge e).addDirectedEdge e.node2 e.node1
    else if k.req e.node2 e.node1 then (G.removeEdge e).addDirectedEdge e.node2 e.node1
    else if k.req e.node1 e.node2 then (G.removeEdge e).addDirectedEdge e.node1 e.node2
    else G
  else G

/-- `BackgroundKnowledgeOrientUtils.py:5-37` `orient_by_background_knowledge`. With no knowledge (`Know.none`) it changes
nothing, like the skipped call in `PC.py:99-100`. -/
def orientByBk (k : Know n) (G : GG n) : GG n := G.graphEdges.foldl (bkStep k) G

/-- `PC.py:51-138` `pc_alg`; `prio = none` is `uc_priority = -1` (defaults 3, 3, 4). An unknown `uc_rule` raises
(`none` result, like running out of fuel). `zero` is the p-value `0` used by `definite_maxp`. -/
def pcAlg (T : TestFn n P) (zero : P) (stable : Bool) (ucRule : Nat) (prio : Option Nat) (k : Know n) : Option (GG n) :=
  (skeletonDiscovery stable T.ind k).bind fun s =>
    let G1 := orientByBk k s.1
    if ucRule = 0 then meek k (ucSepset T (prio.getD 3) k G1 s.2)
    else if ucRule = 1 then meek k (maxp T (prio.getD 3) k G1)
    else if ucRule = 2 then (definiteMeek k (definiteMaxp T zero (prio.getD 4) k G1)).bind (meek k)
    else none

end CL
