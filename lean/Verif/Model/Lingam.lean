import Mathlib.Data.List.Perm.Basic
import Mathlib.Data.List.Dedup
import Mathlib.Data.List.Sort
import Mathlib.Algebra.BigOperators.Group.List.Basic
import Mathlib.Data.Prod.Lex

/-!
# Model of `causallearn/search/FCMBased/lingam`

`direct_lingam.py`, `base.py`, `ica_lingam.py`, `bootstrap.py`, `utils/__init__.py`.  Matrices are functions of two row numbers.
The numerical parts (independence measures, adaptive lasso, ICA) are arbitrary functions: every theorem quantifies over
them.  NaN scores (for which `np.argmax` behaves specially) are not modelled.
-/
namespace CL.Lingam

/-! ## `utils/__init__.py` -/

/-- Assignment `m[i, j] = v`. -/
def put {V : Type} (m : Nat → Nat → V) (i j : Nat) (v : V) : Nat → Nat → V := fun a b => if a = i ∧ b = j then v else m a b

/-- `utils/__init__.py:88-102` `make_prior_knowledge`. An absent (`None`) argument is the empty list. -/
def makePriorKnowledge (exo sink : List Nat) (paths noPaths : List (Nat × Nat)) : Nat → Nat → Int :=
  let m0 : Nat → Nat → Int := fun _ _ => -1
  let m1 := noPaths.foldl (fun (m : Nat → Nat → Int) p => put m p.2 p.1 0) m0
  let m2 := paths.foldl (fun (m : Nat → Nat → Int) p => put m p.2 p.1 1) m1
  let m3 := sink.foldl (fun (m : Nat → Nat → Int) v => fun a b => if b = v then 0 else m a b) m2
  let m4 := exo.foldl (fun (m : Nat → Nat → Int) v => fun a b => if a = v then 0 else m a b) m3
  fun a b => if a = b then -1 else m4 a b

/-- `utils/__init__.py:327-337`: the adjacency lists, `to_indices[i]` lists the rows `t` with a coefficient above the
threshold in column `i`, in increasing order. `exceeds x` is `abs(nan_to_num(x)) > min_causal_effect`. -/
def toIndices {R : Type} (exceeds : R → Bool) (n : Nat) (dag : Nat → Nat → R) (i : Nat) : List Nat :=
  (List.range n).filter fun t => exceeds (dag t i)

/-- State of the depth-first search (`utils/__init__.py:340-342`): `stack` and `stack_to_indice` zipped, top of the stack
first; `paths` in order of discovery. -/
structure DfsState where
  stack : List (Nat × List Nat)
  paths : List (List Nat)

/-- The list of the bottom frame of the stack whose top frame is left with `rem` (`utils/__init__.py:342`, `357`). -/
def sourceRem (rem : List Nat) (below : List (Nat × List Nat)) : List Nat := (below.map Prod.snd).getLastD rem

/-- `utils/__init__.py:343-362`: one iteration of the `while stack` loop; `none` is the ValueError for cyclic graphs.
Line 342 does not copy: the list of the bottom frame *is* `to_indices[from_index]`, so if the start vertex is reached again
line 359 copies what is left of it. -/
def dfsStep (n : Nat) (adj : Nat → List Nat) (src target : Nat) (s : DfsState) : Option DfsState :=
  match s.stack with
  | [] => some s
  | (cur, rem) :: below =>
    if s.stack.length > n then none
    else if cur = target then some ⟨below, s.paths ++ [(s.stack.map Prod.fst).reverse]⟩
    else match rem with
      | next :: rem' => some ⟨(next, if next = src then sourceRem rem' below else adj next) :: (cur, rem') :: below, s.paths⟩
      | [] => some ⟨below, s.paths⟩

/-- Run the loop until the stack is empty. Outer `none`: out of fuel; inner `none`: ValueError. -/
def dfsRun (n : Nat) (adj : Nat → List Nat) (src target : Nat) : Nat → DfsState → Option (Option (List (List Nat)))
  | 0, s => if s.stack = [] then some (some s.paths) else none
  | fuel + 1, s =>
    if s.stack = [] then some (some s.paths)
    else match dfsStep n adj src target s with
      | none => some none
      | some s' => dfsRun n adj src target fuel s'

/-- `utils/__init__.py:367-368`: the coefficients along a path and the last entry of their cumulative product;
`np.cumprod([])[-1]` raises IndexError. -/
def pathEffect {R : Type} [Mul R] (dag : Nat → Nat → R) (p : List Nat) : Option R :=
  match List.zipWith (fun a b => dag b a) p p.tail with
  | [] => none
  | c :: cs => some (cs.foldl (fun x y => x * y) c)

/-- `utils/__init__.py:305-370` `find_all_paths`. -/
def findAllPaths {R : Type} [Mul R] (exceeds : R → Bool) (n : Nat) (dag : Nat → Nat → R) (src target fuel : Nat) :
    Option (Option (List (List Nat × R))) :=
  (dfsRun n (toIndices exceeds n dag) src target fuel ⟨[(src, toIndices exceeds n dag src)], []⟩).map fun r =>
    r.bind fun ps => ps.mapM fun p => (pathEffect dag p).map fun e => (p, e)

/-! ## `direct_lingam.py` -/

/-- Prior knowledge after `np.where(pk < 0, nan, pk)` (`direct_lingam.py:51`): `none` is NaN. -/
abbrev Prior := Nat → Nat → Option Nat

/-- Index pairs of a matrix in row-major order (`np.where(...)` transposed). -/
def indexPairs (n : Nat) : List (Nat × Nat) := (List.range n).flatMap fun i => (List.range n).map fun j => (i, j)

/-- `direct_lingam.py:103-133` `_extract_partial_orders`: outer `none` is the ValueError, inner `none` is "discard the prior
knowledge". `np.unique` (sorted, without repetition) is applied last; the order of the rows is not observable later. -/
def extractPartialOrders (n : Nat) (pk : Prior) : Option (Option (List (Nat × Nat))) :=
  let path := (indexPairs n).filter fun p => pk p.1 p.2 = some 1
  let noPath := (indexPairs n).filter fun p => pk p.1 p.2 = some 0
  -- lines 109-114: a pair occurring twice in path_pairs + reversed path_pairs
  if path.any fun p => decide ((p.2, p.1) ∈ path) then none
  else
    -- lines 118-123: pairs ruled out in both directions cancel
    let noPath' := noPath.filter fun p => (p.2, p.1) ∉ noPath
    let check := path ++ noPath'.map fun p => (p.2, p.1)
    if check.length = 0 then some none
    else some (some (check.dedup.map fun p => (p.2, p.1)))

/-- Mutable attributes of a `DirectLiNGAM` object (`direct_lingam.py:45-55`). -/
structure Model where
  aknw : Option Prior
  soft : Bool
  orders : List (Nat × Nat)

/-- `direct_lingam.py:24-55` constructor. -/
def mkModel (n : Nat) (pk : Option Prior) (soft : Bool) : Option Model :=
  match pk with
  | none => some ⟨none, soft, []⟩
  | some pk =>
    if soft then some ⟨some pk, true, []⟩
    else match extractPartialOrders n pk with
      | none => none
      | some none => some ⟨none, false, []⟩
      | some (some po) => some ⟨some pk, false, po⟩

/-- `direct_lingam.py:153-193` `_search_candidate`: only the first component `Uc` (the second one, `Vj`, only selects which
regression residuals are used in the score). Entries of the prior are non-negative, so a sum is zero iff all entries are
zero and none is NaN; `nansum` is positive iff some entry is positive. -/
def searchCandidate (M : Model) (U : List Nat) : List Nat :=
  match M.aknw with
  | none => U
  | some pk =>
    if !M.soft then U.filter fun i => i ∉ M.orders.map Prod.snd
    else
      let uc := U.filter fun j => (U.filter (· ≠ j)).all fun i => pk j i = some 0
      if uc.length = 0 then
        let uend := (U.filter fun j => (U.filter (· ≠ j)).any fun i => (pk j i).any fun v => decide (0 < v)) ++
          (U.filter fun i => (U.filter (· ≠ i)).all fun j => pk j i = some 0)
        U.filter fun i => i ∉ uend
      else uc

/-- `np.argmax` of a list of scores paired with their variables: the first maximal one; `none` for an empty list
(ValueError). -/
def argmaxFirst {S : Type} [LinearOrder S] (score : Nat → S) : List Nat → Option Nat
  | [] => none
  | a :: l => some (l.foldl (fun best b => if score best < score b then b else best) a)

/-- `direct_lingam.py:195-215` (and 238-259 for the kernel measure): the chosen variable. `score K U i` is the independence
measure of candidate `i` at this stage (`K` = variables already chosen, which determine the residual data). -/
def searchCausalOrder {S : Type} [LinearOrder S] (score : List Nat → List Nat → Nat → S) (M : Model) (K U : List Nat) :
    Option Nat :=
  let uc := searchCandidate M U
  if uc.length = 1 then uc.head? else argmaxFirst (score K U) uc

/-- `direct_lingam.py:87-98`: one iteration of the main loop. -/
def fitStep {S : Type} [LinearOrder S] (score : List Nat → List Nat → Nat → S)
    (st : Model × List Nat × List Nat) : Option (Model × List Nat × List Nat) :=
  let (M, K, U) := st
  (searchCausalOrder score M K U).map fun m =>
    (if M.aknw.isSome && !M.soft then { M with orders := M.orders.filter fun p => p.1 ≠ m } else M,
      K ++ [m], U.filter (· ≠ m))

/-- The main loop, run `k` times. -/
def fitLoop {S : Type} [LinearOrder S] (score : List Nat → List Nat → Nat → S) :
    Nat → Model × List Nat × List Nat → Option (Model × List Nat × List Nat)
  | 0, st => some st
  | k + 1, st => (fitStep score st).bind (fitLoop score k)

/-- `direct_lingam.py:57-100` `fit` up to `self._causal_order = K`: the changed object and the causal order; `none` is an
exception (no candidate left). The check of the shape of the prior (74-77) is not modelled. -/
def fitOrder {S : Type} [LinearOrder S] (score : List Nat → List Nat → Nat → S) (n : Nat) (M : Model) :
    Option (Model × List Nat) :=
  (fitLoop score n (M, [], List.range n)).map fun r => (r.1, r.2.1)

/-! ## `base.py` -/

/-- `base.py:134-145`: predictors of the variable at position `i` of the causal order. -/
def predictorsOf (pk : Option Prior) (order : List Nat) (target i : Nat) : List Nat :=
  match pk with
  | none => order.take i
  | some pk => (order.take i).filter fun p => p ≠ target ∧ pk target p ≠ some 0

/-- `base.py:118-155` `_estimate_adjacency_matrix`; `coef target predictors p` is the adaptive-lasso coefficient.
Line 136 zeroes the diagonal of the prior, hence `p ≠ target` above. -/
def estimateAdjacency {R : Type} [Zero R] (coef : Nat → List Nat → Nat → R) (pk : Option Prior) (order : List Nat) :
    Nat → Nat → R :=
  (List.range' 1 (order.length - 1)).foldl (fun (B : Nat → Nat → R) i =>
    (order[i]?).elim B fun target =>
      let pred := predictorsOf pk order target i
      if pred.length = 0 then B
      else fun a b => if a = target ∧ b ∈ pred then coef target pred b else B a b) fun _ _ => 0

/-- `direct_lingam.py:57-101` `fit`: changed object, causal order and adjacency matrix. -/
def fit {S R : Type} [LinearOrder S] [Zero R] (score : List Nat → List Nat → Nat → S) (coef : Nat → List Nat → Nat → R)
    (n : Nat) (M : Model) : Option (Model × List Nat × (Nat → Nat → R)) :=
  (fitOrder score n M).map fun r => (r.1, r.2, estimateAdjacency coef r.1.aknw r.2)

/-- Repeated fits of one object, as `bootstrap` does (`bootstrap.py:46-47`); each fit has its own data. -/
def fitMany {S R : Type} [LinearOrder S] [Zero R] (n : Nat) :
    List ((List Nat → List Nat → Nat → S) × (Nat → List Nat → Nat → R)) → Model →
      Option (List (List Nat × (Nat → Nat → R)))
  | [], _ => some []
  | d :: ds, M =>
    match fit d.1 d.2 n M with
    | none => none
    | some (M', K, B) => (fitMany n ds M').map fun l => (K, B) :: l

/-! ## `ica_lingam.py` -/

/-- `ica_lingam.py:75-112` `_search_causal_order`: `idx` are the original indices of the remaining rows/columns; the shrunken
matrix is the original one restricted to them. `fuel` bounds the while loop, which removes one row per iteration. -/
def icaSearch {R : Type} [Zero R] [DecidableEq R] (mat : Nat → Nat → R) : Nat → List Nat → List Nat → List Nat
  | 0, _, acc => acc
  | fuel + 1, idx, acc =>
    match idx.find? fun i => idx.all fun j => mat i j = 0 with
    | none => acc
    | some i => icaSearch mat fuel (idx.erase i) (acc ++ [i])

/-- `ica_lingam.py:75-112`: `None` unless all rows were placed. -/
def icaSearchOrder {R : Type} [Zero R] [DecidableEq R] (n : Nat) (mat : Nat → Nat → R) : Option (List Nat) :=
  let o := icaSearch mat n (List.range n) []
  if o.length ≠ n then none else some o

/-- `ica_lingam.py:136-142`: the loop that zeroes one more entry until an order exists. -/
def icaLoop {R : Type} [Zero R] [DecidableEq R] (n : Nat) : List (Nat × Nat) → (Nat → Nat → R) → Option (List Nat)
  | [], _ => none
  | p :: ps, mat =>
    let mat' := put mat p.1 p.2 0
    match icaSearchOrder n mat' with
    | some o => some o
    | none => icaLoop n ps mat'

/-- `ica_lingam.py:114-144` `_estimate_causal_order`; `pos` is the list of all positions sorted by absolute value. -/
def icaEstimateOrder {R : Type} [Zero R] [DecidableEq R] (n : Nat) (pos : List (Nat × Nat)) (mat : Nat → Nat → R) :
    Option (List Nat) :=
  let k := n * (n + 1) / 2
  icaLoop n (pos.drop k) ((pos.take k).foldl (fun (m : Nat → Nat → R) p => put m p.1 p.2 0) mat)

/-! ## `bootstrap.py` -/

/-- `bootstrap.py:142-147`: the directions of one sample: rows (to, from, sign) in row-major order. Without
`split_by_causal_effect_sign` the third column is absent; the model then uses the constant 0. -/
def sampleDirections {R : Type} (exceeds : R → Bool) (sign : R → Int) (split : Bool) (n : Nat) (am : Nat → Nat → R) :
    List (Nat × Nat × Int) :=
  ((indexPairs n).filter fun p => exceeds (am p.1 p.2)).map fun p => (p.1, p.2, if split then sign (am p.1 p.2) else 0)

/-- `bootstrap.py:99-170` `get_causal_direction_counts`: rows (to, from, sign) with their count. `np.unique` is `dedup` with
`count`; `sortDesc` is the reordering by `np.argsort(-counts)` (an unstable sort: any descending order). -/
def directionCounts {R : Type} (exceeds : R → Bool) (sign : R → Int) (split : Bool) (n : Nat)
    (sortDesc : List ((Nat × Nat × Int) × Nat) → List ((Nat × Nat × Int) × Nat)) (nDirections : Option Nat)
    (samples : List (Nat → Nat → R)) : List ((Nat × Nat × Int) × Nat) :=
  let dirs := samples.flatMap (sampleDirections exceeds sign split n)
  if dirs.length = 0 then []
  else
    let sorted := sortDesc (dirs.dedup.map fun d => (d, dirs.count d))
    nDirections.elim sorted fun k => sorted.take k

/-- `bootstrap.py:266-270`: the numerators of `get_probabilities` (division by the number of samples follows). -/
def probabilityCounts {R : Type} (exceeds : R → Bool) (samples : List (Nat → Nat → R)) (i j : Nat) : Nat :=
  samples.foldl (fun acc am => acc + if exceeds (am i j) then 1 else 0) 0

end CL.Lingam
