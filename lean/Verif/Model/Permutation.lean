import Verif.Model.Cpdag
import Mathlib.Algebra.Order.Group.Defs
import Mathlib.Data.List.Sort
import Mathlib.Data.Finset.Dedup

/-!
# Model of `causallearn/search/PermutationBased/gst.py`, `BOSS.py`, `GRaSP.py`

Scores are exact numbers of an ordered group `K` (no rounding, no NaN). `-score_nocache(v, parents)` is an arbitrary
function `sc v S` of the parent set `S`; larger is better. `1e-6` is an arbitrary `eps > 0`.
-/
namespace CL
namespace Perm
variable {p : Nat} {K : Type} [AddCommGroup K] [LinearOrder K]

/-! ### Grow-shrink trees -/

/-- The mutable part of the nodes of a grow-shrink tree (`gst.py:3-12`): `branches` (pairs `add`, `grow_score`) and
`remove` with `shrink_score`. A node is identified by the list of `add`s on the way from the root to it; the branches of a
node have different `add`s because the candidates do. -/
structure Tree (p : Nat) (K : Type) where
  branches : List (Fin p) → Option (List (Fin p × K))
  removed : List (Fin p) → Option (List (Fin p) × K)

/-- `gst.py:3-12`, `60-66`: a new tree. -/
def Tree.new : Tree p K := ⟨fun _ => none, fun _ => none⟩

/-- `gst.py:16-25` `grow`: `parents` is the path to the node, `g` its `grow_score`. `sort()` is stable and ascending. -/
def grow (sc : Finset (Fin p) → K) (avail parents : List (Fin p)) (g : K) : List (Fin p × K) :=
  ((avail.map fun a => (a, sc (parents ++ [a]).toFinset)).filter fun b => decide (g < b.2)).insertionSort
    fun a b => a.2 ≤ b.2

/-- `gst.py:32-38`: one candidate `remove` of a round; the state is `parents`, `shrink_score`, `best`. -/
def shrinkStep (sc : Finset (Fin p) → K) (s : List (Fin p) × K × Option (Fin p)) (r : Fin p) :
    List (Fin p) × K × Option (Fin p) :=
  if s.2.1 < sc (s.1.erase r).toFinset then (s.1.erase r ++ [r], sc (s.1.erase r).toFinset, some r)
  else (s.1.erase r ++ [r], s.2.1, s.2.2)

/-- `gst.py:27-41` `shrink`: the result is `parents`, `shrink_score`, `remove`. Each round but the last removes a parent, so
`length + 1` rounds are enough. -/
def shrinkLoop (sc : Finset (Fin p) → K) : Nat → List (Fin p) → K → List (Fin p) → List (Fin p) × K × List (Fin p)
  | 0, parents, s, rm => (parents, s, rm)
  | f + 1, parents, s, rm =>
    let r := parents.foldl (shrinkStep sc) (parents, s, none)
    r.2.2.elim (r.1, r.2.1, rm) fun best => shrinkLoop sc f (r.1.erase best) r.2.1 (rm ++ [best])

/-- `gst.py:27-41` `shrink`. -/
def shrink (sc : Finset (Fin p) → K) (parents : List (Fin p)) (g : K) : List (Fin p) × K × List (Fin p) :=
  shrinkLoop sc (parents.length + 1) parents g []

/-- dictionary update -/
def set1 {A B : Type} [DecidableEq A] (f : A → B) (a : A) (b : B) : A → B := fun x => if x = a then b else f x

/-- `gst.py:43-55` `GSTNode.trace` at the node `path` with `grow_score = g`; returns the tree, the score and the final value
of the list `parents`. Each recursive call uses up a candidate, so `avail.length + 1` calls are enough. -/
def traceAt (sc : Finset (Fin p) → K) (pre : List (Fin p)) : Nat → Tree p K → List (Fin p) → List (Fin p) → K →
    Tree p K × K × List (Fin p)
  | 0, T, path, _, g => (T, g, path)
  | f + 1, T, path, avail, g =>
    let bs := (T.branches path).getD (grow sc avail path g)
    let T1 : Tree p K := ⟨set1 T.branches path (some bs), T.removed⟩
    let skipped := bs.takeWhile fun b => decide (b.1 ∉ pre)
    (bs.find? fun b => decide (b.1 ∈ pre)).elim
      ((T1.removed path).elim
        (⟨T1.branches, set1 T1.removed path (some ((shrink sc path g).2.2, (shrink sc path g).2.1))⟩,
          (shrink sc path g).2.1, (shrink sc path g).1)
        fun rs => (T1, rs.2, rs.1.foldl List.erase path))
      fun b => traceAt sc pre f T1 (path ++ [b.1]) ((skipped.map Prod.fst ++ [b.1]).foldl List.erase avail) b.2

/-- `gst.py:66-69` `GST.trace` called with an empty list `parents` (as at all call sites). -/
def trace (sc : Finset (Fin p) → K) (v : Fin p) (T : Tree p K) (pre : List (Fin p)) : Tree p K × K × List (Fin p) :=
  traceAt sc pre (p + 1) T [] ((List.finRange p).filter (· ≠ v)) (sc ∅)

/-- The value of `trace` on a new tree. (By `C61_trace_history` every later call returns the same, so the search procedures
below are modelled with these functions in place of the trees.) -/
def trScore (sc : Fin p → Finset (Fin p) → K) (v : Fin p) (pre : List (Fin p)) : K := (trace (sc v) v Tree.new pre).2.1

/-- The list `parents` filled by `trace` on a new tree. -/
def trParents (sc : Fin p → Finset (Fin p) → K) (v : Fin p) (pre : List (Fin p)) : List (Fin p) :=
  (trace (sc v) v Tree.new pre).2.2

/-! ### BOSS -/

/-- `BOSS.py:185-189`: the forward loop of `better_mutation`; `tr` is `gsts[·].trace(·)`. State: `scores`, `prefix`, `score`. -/
def fwdStep (tr : Fin p → List (Fin p) → K) (v : Fin p) (s : (Nat → K) × List (Fin p) × K) (x : Fin p × Nat) :
    (Nat → K) × List (Fin p) × K :=
  let scores := set1 s.1 x.2 (tr v s.2.1 + s.2.2)
  if v ≠ x.1 then (scores, s.2.1 ++ [x.1], s.2.2 + tr x.1 s.2.1) else (scores, s.2.1, s.2.2)

/-- `BOSS.py:196-201`: the backward loop. State: `scores`, `prefix`, `score`, `best`. -/
def bwdStep (tr : Fin p → List (Fin p) → K) (v : Fin p) (s : (Nat → K) × List (Fin p) × K × Nat) (x : Fin p × Nat) :
    (Nat → K) × List (Fin p) × K × Nat :=
  let pre := if v ≠ x.1 then s.2.1.erase x.1 else s.2.1
  let score := if v ≠ x.1 then s.2.2.1 + tr x.1 pre else s.2.2.1
  let scores := set1 s.1 x.2 (s.1 x.2 + score)
  (scores, pre, score, if scores s.2.2.2 < scores x.2 then x.2 else s.2.2.2)

/-- `BOSS.py:181-201`: `scores` and `best`. -/
def mutationScores (tr : Fin p → List (Fin p) → K) (v : Fin p) (order : List (Fin p)) : (Nat → K) × Nat :=
  let fw := order.zipIdx.foldl (fwdStep tr v) (fun _ => 0, [], 0)
  let scores := set1 fw.1 order.length (tr v fw.2.1 + fw.2.2)
  let bw := order.zipIdx.reverse.foldl (bwdStep tr v) (scores, fw.2.1 ++ [v], 0, order.length)
  (bw.1, bw.2.2.2)

/-- `BOSS.py:178-207` `better_mutation`. -/
def betterMutation (tr : Fin p → List (Fin p) → K) (eps : K) (order : List (Fin p)) (v : Fin p) : Bool × List (Fin p) :=
  let i := order.idxOf v
  let m := mutationScores tr v order
  if m.1 m.2 < m.1 i + eps then (false, order)
  else (true, (order.erase v).insertIdx (m.2 - (if i < m.2 then 1 else 0)) v)

/-- `BOSS.py:149-150`: `for v in variables: improved |= better_mutation(v, order, gsts)`. -/
def sweep (tr : Fin p → List (Fin p) → K) (eps : K) (vars : List (Fin p)) (order : List (Fin p)) : Bool × List (Fin p) :=
  vars.foldl (fun s v => (s.1 || (betterMutation tr eps s.2 v).1, (betterMutation tr eps s.2 v).2)) (false, order)

/-- `BOSS.py:139-151`: the main loop; `sched k` is the shuffled list of variables in round `k`. -/
def bossLoop (tr : Fin p → List (Fin p) → K) (eps : K) (sched : Nat → List (Fin p)) : Nat → Nat → List (Fin p) →
    Option (List (Fin p))
  | 0, _, _ => none
  | f + 1, k, order =>
    if (sweep tr eps (sched k) order).1 then bossLoop tr eps sched f (k + 1) (sweep tr eps (sched k) order).2
    else some (sweep tr eps (sched k) order).2

/-- `BOSS.py:163-165`, `GRaSP.py:212-214`: the graph with an edge from each parent. -/
def parentsGraph (parents : Fin p → List (Fin p)) : GG p :=
  (List.finRange p).foldl (fun G y => (parents y).foldl (fun G x => G.addDirectedEdge x y) G) (GG.empty p)

/-- `BOSS.py:153-155`: the parents read off the final order. -/
def finalParents (sc : Fin p → Finset (Fin p) → K) (order : List (Fin p)) (v : Fin p) : List (Fin p) :=
  trParents sc v (order.take (order.idxOf v))

/-- `BOSS.py:24-169` `boss`: the final order and the returned graph. -/
def boss (sc : Fin p → Finset (Fin p) → K) (eps : K) (sched : Nat → List (Fin p)) (fuel cfuel : Nat) :
    Option (List (Fin p) × GG.Outcome (GG p)) :=
  (bossLoop (trScore sc) eps sched fuel 0 (List.finRange p)).map fun order =>
    (order, (parentsGraph (finalParents sc order)).dag2cpdag cfuel)

/-! ### GRaSP -/

/-- `GRaSP.py:24-77` `Order`: `order`, `parents`, `local_scores` (the edge counter, which is only printed, is not
modelled). -/
structure Order (p : Nat) (K : Type) where
  order : List (Fin p)
  parents : Fin p → List (Fin p)
  scores : Fin p → K

/-- `GRaSP.py:323-329` `get_ancestors`; the recursion adds a new node at every call, so `p` levels are enough. -/
def getAncestors (parents : Fin p → List (Fin p)) : Nat → List (Fin p) → Fin p → List (Fin p)
  | 0, anc, _ => anc
  | f + 1, anc, y => (parents y).foldl (fun anc x => if x ∈ anc then anc else getAncestors parents f anc x) (anc ++ [y])

/-- `GRaSP.py:316-319`: one `k` of `tuck`; the state is the order and `shift`. -/
def tuckStep (anc : List (Fin p)) (j : Nat) (s : List (Fin p) × Nat) (k : Nat) : List (Fin p) × Nat :=
  (s.1[k]?).elim s fun z => if z ∈ anc then ((s.1.eraseIdx k).insertIdx (j + s.2) z, s.2 + 1) else s

/-- `GRaSP.py:309-319` `tuck`. -/
def tuck (o : Order p K) (i j : Nat) : Order p K :=
  { o with order := ((o.order[i]?).elim o.order fun y =>
      ((List.range' (j + 1) (i - j)).foldl (tuckStep (getAncestors o.parents (p + 1) [] y) j) (o.order, 0)).1) }

/-- `GRaSP.py:290-303`: one `k` of `update`; the state is the order object and `old_score`, `new_score`. -/
def updateStep (sc : Fin p → Finset (Fin p) → K) (s : Order p K × K × K) (k : Nat) : Order p K × K × K :=
  (s.1.order[k]?).elim s fun z =>
    (⟨s.1.order, set1 s.1.parents z (trParents sc z (s.1.order.take k)), set1 s.1.scores z (trScore sc z (s.1.order.take k))⟩,
      s.2.1 + s.1.scores z, s.2.2 + trScore sc z (s.1.order.take k))

/-- `GRaSP.py:284-305` `update`: the new order object and `score_bump`. -/
def update (sc : Fin p → Finset (Fin p) → K) (o : Order p K) (i j : Nat) : Order p K × K :=
  let r := (List.range' j (i + 1 - j)).foldl (updateStep sc) (o, 0, 0)
  (r.1, r.2.2 - r.2.1)

/-- `GRaSP.py:274-277`: restore position `k` of `o` from the cache, which was filled from `old` (lines 242-246). -/
def restoreStep (old o : Order p K) (k : Nat) : Order p K :=
  (old.order[k]?).elim o fun z =>
    ⟨o.order.set k z, set1 o.parents z (old.parents z), set1 o.scores z (old.scores z)⟩

/-- `GRaSP.py:273-277`: restore positions `j..i`. -/
def restore (old o : Order p K) (i j : Nat) : Order p K := (List.range' j (i + 1 - j)).foldl (restoreStep old) o

/-- `GRaSP.py:222-280` `dfs`, as a relation between the order object before and after and the returned value.
`depth` is the argument of the same name.  The relation allows every choice of the pair of positions `i`, `j` and every
order of trying them: this covers the random shuffles, the tests on `covered`, `flipped` and `history` (which only restrict
what is tried) and the fact that the list iterated over in `for x in y_parents` is the one `update` overwrites. -/
inductive Dfs (sc : Fin p → Finset (Fin p) → K) (eps : K) : Nat → Order p K → Bool → Order p K → Prop
  /-- no (more) pair to try -/
  | done (n o) : Dfs sc eps n o false o
  /-- `random.shuffle(y_parents)` -/
  | shuffle {n o b o'} (y : Fin p) (l : List (Fin p)) : l.Perm (o.parents y) →
      Dfs sc eps n { o with parents := set1 o.parents y l } b o' → Dfs sc eps n o b o'
  /-- lines 253-255: the tuck improves the score -/
  | improve {n o} (i j : Nat) : i < p → eps < (update sc (tuck o i j) i j).2 →
      Dfs sc eps n o true (update sc (tuck o i j) i j).1
  /-- lines 258-270: the tuck does not change the score much and the recursive call succeeds -/
  | deeper {n o o'} (i j : Nat) : i < p → -eps < (update sc (tuck o i j) i j).2 →
      Dfs sc eps n (update sc (tuck o i j) i j).1 true o' → Dfs sc eps (n + 1) o true o'
  /-- lines 273-278: restore and continue with the next pair -/
  | back {n o b o'} (i j : Nat) : i < p →
      Dfs sc eps n (restore o (update sc (tuck o i j) i j).1 i j) b o' → Dfs sc eps n o b o'
  /-- lines 258-278: the recursive call fails; restore and continue -/
  | deeperBack {n o b o1 o'} (i j : Nat) : i < p → -eps < (update sc (tuck o i j) i j).2 →
      Dfs sc eps n (update sc (tuck o i j) i j).1 false o1 →
      Dfs sc eps (n + 1) (restore o o1 i j) b o' → Dfs sc eps (n + 1) o b o'

/-- `GRaSP.py:32-38`, `190-199`: the initial order object for the shuffled order `l`. -/
def graspInit (sc : Fin p → Finset (Fin p) → K) (l : List (Fin p)) : Order p K :=
  ⟨l, fun v => trParents sc v (l.take (l.idxOf v)), fun v => trScore sc v (l.take (l.idxOf v))⟩

/-- `GRaSP.py:201-204`: `while dfs(depth - 1, ...)`; any number of successful rounds. -/
inductive GraspRun (sc : Fin p → Finset (Fin p) → K) (eps : K) (depth : Nat) : Order p K → Order p K → Prop
  | stop (o o') : Dfs sc eps depth o false o' → GraspRun sc eps depth o o'
  | more (o o1 o') : Dfs sc eps depth o true o1 → GraspRun sc eps depth o1 o' → GraspRun sc eps depth o o'

end Perm
end CL
