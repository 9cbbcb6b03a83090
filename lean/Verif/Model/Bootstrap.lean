import Verif.Model.Lingam
import Mathlib.Algebra.Order.Field.Basic
import Mathlib.Data.List.Sort

/-!
# `lingam/bootstrap.py` (the summaries of a bootstrap) and the queries of a fitted model in `lingam/base.py`

`np.unique(…, return_counts=True)` is `dedup` with `count`; the reordering by `np.argsort(-counts)` (an unstable sort) is a
parameter `sortDesc`, of which the theorems only assume that it permutes and that the result is descending. Arithmetic is exact.
-/
namespace CL.Lingam

/-- `bootstrap.py:223` (and `371`): `np.unique(l, axis=0, return_counts=True)`, in some order. -/
def uniqueCounts {α : Type} [DecidableEq α] (l : List α) : List (α × Nat) := l.dedup.map fun d => (d, l.count d)

/-- `bootstrap.py:211-242`: `get_directed_acyclic_graph_counts` after the parameter checks.
A thresholded matrix is represented by the list of its non-zero cells (`np.where(dag)`, with the signs if they are split), which
is how it is reported; two matrices are equal exactly when these lists are, because a cell above a non-negative threshold has a
non-zero sign. -/
def dagCounts {R : Type} (exceeds : R → Bool) (sign : R → Int) (split : Bool) (n : Nat)
    (sortDesc : List (List (Nat × Nat × Int) × Nat) → List (List (Nat × Nat × Int) × Nat)) (nDags : Option Nat)
    (samples : List (Nat → Nat → R)) : List (List (Nat × Nat × Int) × Nat) :=
  let sorted := sortDesc (uniqueCounts (samples.map (sampleDirections exceeds sign split n)))
  nDags.elim sorted fun k => sorted.take k

/-- `bootstrap.py:196-202` (and `123-130`): `n_dags` / `n_directions` must be positive if given; `none` is the ValueError. -/
def checkCount : Option Int → Option (Option Nat)
  | none => some none
  | some k => if 0 < k then some (some k.toNat) else none

section
variable {K : Type} [Field K] [LinearOrder K]

/-- `bootstrap.py:204-209` (and `132-137`, `259-264`, `298-303`): the default threshold is 0, a given one must be positive (`none` is the
ValueError). -/
def checkMin : Option K → Option K
  | none => some 0
  | some x => if 0 < x then some x else none

/-- `bootstrap.py:318` (and `379`): `np.median` of a non-empty list. -/
def medianOf (l : List K) : K :=
  let s := l.insertionSort (· ≤ ·)
  if l.length % 2 = 1 then s.getD (l.length / 2) 0 else (s.getD (l.length / 2 - 1) 0 + s.getD (l.length / 2) 0) / 2

/-- `bootstrap.py:306-308`: the fraction of the samples whose effect exceeds the threshold. -/
def effectProb (thr : K) (te : List (Nat → Nat → K)) (tgt from_ : Nat) : K :=
  (te.countP fun m => decide (thr < |m tgt from_|) : Nat) / (te.length : Nat)

/-- `bootstrap.py:317-318`: the median over the samples with a non-zero effect. -/
def effectMedian (te : List (Nat → Nat → K)) (tgt from_ : Nat) : K :=
  medianOf ((te.map fun m => m tgt from_).filter fun x => decide (0 < |x|))

/-- `bootstrap.py:297-333` `get_total_causal_effects`: rows (to, from), effect, probability; `none` is a ValueError. `n` is the
number of variables; `te` the list of the matrices of total effects. -/
def totalCausalEffects (n : Nat) (minEffect : Option K)
    (sortDesc : List ((Nat × Nat) × K × K) → List ((Nat × Nat) × K × K)) (te : List (Nat → Nat → K)) :
    Option (List ((Nat × Nat) × K × K)) :=
  (checkMin minEffect).map fun thr =>
    sortDesc (((indexPairs n).filter fun d => decide (0 < |effectProb thr te d.1 d.2|)).map fun d =>
      (d, effectMedian te d.1 d.2, effectProb thr te d.1 d.2))

/-- `bootstrap.py:358-368`: the paths and effects of all samples, in one list. Outer `none`: still running; inner `none`: an
exception of `find_all_paths`, which is called without a threshold (line 362), so with 0. -/
def allPathsOf (n : Nat) (am : List (Nat → Nat → K)) (src target fuel : Nat) : Option (Option (List (List Nat × K))) :=
  (am.mapM fun m => findAllPaths (fun x => decide (0 < |x|)) n m src target fuel).map fun rs => (rs.mapM id).map List.flatten

/-- `bootstrap.py:358-387` `get_paths`: rows path, effect, probability. The argument `min_causal_effect` is not used by the code. The
paths are counted as strings `'_'.join(path)` and parsed back; the model compares the paths themselves. -/
def getPaths (n : Nat) (am : List (Nat → Nat → K)) (src target : Nat) (_minEffect : K)
    (sortDesc : List (List Nat × Nat) → List (List Nat × Nat)) (fuel : Nat) : Option (Option (List (List Nat × K × K))) :=
  (allPathsOf n am src target fuel).map fun r => r.map fun L =>
    (sortDesc (uniqueCounts (L.map Prod.fst))).map fun pc =>
      (pc.1, medianOf ((L.filter fun q => decide (q.1 = pc.1)).map Prod.snd), ((pc.2 : Nat) : K) / (am.length : Nat))

/-! ### `base.py` -/

/-- `base.py:80-82`: the predictors: the source and the variables with a non-zero coefficient in its row. -/
def effectPredictors (n : Nat) (B : Nat → Nat → K) (from_ : Nat) : List Nat :=
  from_ :: (List.range n).filter fun p => decide (0 < |B from_ p|)

/-- `base.py:68-87` `estimate_total_effect`; `regress predictors target` stands for `predict_adaptive_lasso` (one coefficient for
each predictor). `none` is the ValueError of `list.index` (lines 72-73); the warning is left out. -/
def estimateTotalEffect (n : Nat) (order : List Nat) (B : Nat → Nat → K) (regress : List Nat → Nat → List K)
    (from_ tgt : Nat) : Option K :=
  if from_ ∈ order ∧ tgt ∈ order then (regress (effectPredictors n B from_) tgt).head? else none

/-- `bootstrap.py:50-54`: the matrix of total effects of one bootstrap sample; `te from tgt` is `estimate_total_effect`. -/
def bootEffects (order : List Nat) (te : Nat → Nat → K) : Nat → Nat → K :=
  order.zipIdx.foldl (fun m cf => (order.drop (cf.2 + 1)).foldl (fun m t => put m t cf.1 (te cf.1 t)) m) fun _ _ => 0

/-- `base.py:108`: `E = X - np.dot(B, X.T).T`; row `k` is a sample. -/
def errorsOf {N n : Nat} (B : Fin n → Fin n → K) (X : Fin N → Fin n → K) : Fin N → Fin n → K :=
  fun k i => X k i - ((List.finRange n).map fun j => B i j * X k j).sum

/-- `base.py:89-116` `get_error_independence_p_values`; `hsic` is the p-value of `hsic_test_gamma` for two columns. -/
def errorPValues {N n : Nat} (hsic : (Fin N → K) → (Fin N → K) → K) (B : Fin n → Fin n → K) (X : Fin N → Fin n → K) :
    Fin n → Fin n → K :=
  ((List.finRange n).flatMap fun i => ((List.finRange n).filter fun j => i < j).map fun j => (i, j)).foldl
    (fun m p => fun a b =>
      if (a = p.1 ∧ b = p.2) ∨ (a = p.2 ∧ b = p.1) then hsic (fun k => errorsOf B X k p.1) (fun k => errorsOf B X k p.2) else m a b)
    fun _ _ => 0

end
end CL.Lingam
