import Verif.Model.Bootstrap
import Verif.Model.Parce
import Verif.Model.Rcd

/-!
# Model of the queries on a fitted `BottomUpParceLiNGAM`, `RCD`, `MultiGroupDirectLiNGAM`, `LongitudinalLiNGAM`

`NaN` is `none`; the arithmetic is exact, and an operation with a `NaN` gives `NaN`.
-/
namespace CL.Conf
open Lingam
variable {K : Type} [Field K] [LinearOrder K]

/-- A product of floats, one of which may be NaN. -/
def mulN (a : Option K) (b : K) : Option K := a.map (· * b)

/-- A sum of floats that may be NaN. -/
def addN (a b : Option K) : Option K := a.bind fun x => b.map fun y => x + y

/-- A difference of a float and one that may be NaN. -/
def subN (a : K) (b : Option K) : Option K := b.map fun y => a - y

/-- `bottom_up_parce_lingam.py:405`, `rcd.py:420`: `E = X - np.dot(B, X.T).T` for a matrix with NaN. -/
def errorsNan {N n : Nat} (B : Fin n → Fin n → Option K) (X : Fin N → Fin n → K) (k : Fin N) (i : Fin n) : Option K :=
  subN (X k i) ((List.finRange n).foldl (fun s j => addN s (mulN (B i j) (X k j))) (some 0))

/-- `bottom_up_parce_lingam.py:406-407`, `rcd.py:421-422`: `np.argwhere(np.isnan(B)).ravel()`. -/
def nanCols {n : Nat} (B : Fin n → Fin n → Option K) : List (Fin n) :=
  (List.finRange n).flatMap fun i => ((List.finRange n).filter fun j => (B i j).isNone).flatMap fun j => [i, j]

/-- `bottom_up_parce_lingam.py:409-417`, `rcd.py:424-432`: the value written at `[i, j]` and `[j, i]`. -/
def pValueNan {N n : Nat} (hsic : (Fin N → Option K) → (Fin N → Option K) → Option K) (B : Fin n → Fin n → Option K) (X : Fin N → Fin n → K)
    (i j : Fin n) : Option K :=
  if i ∈ nanCols B ∨ j ∈ nanCols B then none else hsic (fun k => errorsNan B X k i) (fun k => errorsNan B X k j)

/-- `bottom_up_parce_lingam.py:386-419`, `rcd.py:402-434` `get_error_independence_p_values`. -/
def errorPValuesNan {N n : Nat} (hsic : (Fin N → Option K) → (Fin N → Option K) → Option K) (B : Fin n → Fin n → Option K) (X : Fin N → Fin n → K) :
    Fin n → Fin n → Option K :=
  ((List.finRange n).flatMap fun i => ((List.finRange n).filter fun j => i < j).map fun j => (i, j)).foldl
    (fun m p => fun a b => if (a = p.1 ∧ b = p.2) ∨ (a = p.2 ∧ b = p.1) then pValueNan hsic B X p.1 p.2 else m a b)
    fun _ _ => some 0

/-- `bottom_up_parce_lingam.py:368-384`, `rcd.py:386-400`: NaN if the row of the source has a NaN, else the coefficient of the source in the
regression on the source and the variables with a non-zero entry (a comparison with NaN would be false). The result of `regress` is assumed to have an entry for each predictor. -/
def effectNan (n : Nat) (B : Nat → Nat → Option K) (regress : List Nat → Nat → List K) (from_ tgt : Nat) : Option K :=
  if (List.range n).any fun j => (B from_ j).isNone then none
  else (regress (from_ :: (List.range n).filter fun p => (B from_ p).any fun x => decide (0 < |x|)) tgt).head?

/-- `bottom_up_parce_lingam.py:349-362`: the index of the first element of the causal order that is, or contains, the variable. -/
def positionIn (order : List Parce.Item) (v : Nat) : Option Nat := order.findIdx? fun i => decide (v ∈ i.vars)

/-- `bottom_up_parce_lingam.py:327-384` `estimate_total_effect`: outer `none` is the UnboundLocalError for a variable that does not occur in the order;
the warnings are left out. -/
def parceEffect (n : Nat) (order : List Parce.Item) (B : Nat → Nat → Option K) (regress : List Nat → Nat → List K) (from_ tgt : Nat) : Option (Option K) :=
  (positionIn order from_).bind fun _ => (positionIn order tgt).map fun _ => effectNan n B regress from_ tgt

/-- `bottom_up_parce_lingam.py:481-489`: the total effects of one bootstrap sample; `te` is `estimate_total_effect`. A list `to` (line 482)
would be used as an index; it never follows an element. -/
def parceBoot {V : Type} (zero : V) (te : Nat → Nat → V) : List Parce.Item → (Nat → Nat → V) → Nat → Nat → V
  | [], m => m
  | f :: l, m => parceBoot zero te l (l.foldl (fun m i => i.vars.foldl (fun m t => f.vars.foldl (fun m s => fun a b => if a = t ∧ b = s then te s t else m a b) m) m) m)

/-- `rcd.py:497-500`: the total effects of one bootstrap sample of RCD. -/
def rcdBoot {V : Type} {n : Nat} (M : Fin n → Finset (Fin n)) (enum : Finset (Fin n) → List (Fin n)) (zero : V) (te : Fin n → Fin n → V) : Fin n → Fin n → V :=
  (List.finRange n).foldl (fun m t => (enum (M t)).foldl (fun m s => fun a b => if a = t ∧ b = s then te s t else m a b) m) fun _ _ => zero

/-- `rcd.py:492-493`: the number of rows of each sample; `none` is the exception of `sklearn.utils.resample` (`n_samples` must be at least 1). -/
def rcdSampleSize (rows nSampling : Nat) : Option Nat := if nSampling < rows then some (rows - nSampling) else none

/-- `multi_group_direct_lingam.py:220-238` `_check_X_list`, for a list of two-dimensional arrays given by their shapes: the number of features. `none` is an exception: the
ValueErrors of the function, and that of `np.array` (numpy ≥ 1.24) for arrays with different numbers of rows (line 238). -/
def checkXList (shapes : List (Nat × Nat)) : Option Nat :=
  if shapes.length < 2 then none
  else if shapes.any fun s => decide (s.2 ≠ (shapes.headD (0, 0)).2) then none
  else if shapes.any fun s => decide (s.1 ≠ (shapes.headD (0, 0)).1) then none
  else some (shapes.headD (0, 0)).2

/-- `multi_group_direct_lingam.py:172-188` `estimate_total_effect`: one effect for each group. `none` is the ValueError of `list.index`. -/
def groupEffects (n : Nat) (order : List Nat) (groups : List ((Nat → Nat → K) × (List Nat → Nat → List K))) (from_ tgt : Nat) : Option (List K) :=
  groups.mapM fun g => estimateTotalEffect n order g.1 g.2 from_ tgt

/-- `multi_group_direct_lingam.py:124-138`: the total effects of group `d` in one bootstrap sample; `effects` is `estimate_total_effect` on the
resampled groups. -/
def groupBoot (order : List Nat) (effects : Nat → Nat → List K) (d : Nat) : Nat → Nat → K :=
  bootEffects order fun s t => ((effects s t)[d]?).getD 0

/-- `multi_group_direct_lingam.py:206-218` `get_error_independence_p_values`: one matrix for each group. -/
def groupPValues {n : Nat} (groups : List (Σ N : Nat, ((Fin N → K) → (Fin N → K) → K) × (Fin n → Fin n → K) × (Fin N → Fin n → K))) : List (Fin n → Fin n → K) :=
  groups.map fun g => errorPValues g.2.1 g.2.2.1 g.2.2.2

/-- `longitudinal_lingam.py:225-228`: `np.dot(np.eye(p) - B_t, resid.T).T`. -/
def longErrors {N p : Nat} (B : Fin p → Fin p → K) (resid : Fin N → Fin p → K) (k : Fin N) (i : Fin p) : K :=
  ((List.finRange p).map fun j => ((if i = j then 1 else 0) - B i j) * resid k j).sum

/-- `longitudinal_lingam.py:217-242` `get_error_independence_p_values`: the matrices of all time points; `resid t` are the residuals
of the autoregression, `B t` the instantaneous effects. -/
def longPValues {N p : Nat} (hsic : (Fin N → K) → (Fin N → K) → K) (T : Nat) (B : Nat → Fin p → Fin p → K) (resid : Nat → Fin N → Fin p → K) :
    List (Fin p → Fin p → Option K) :=
  (List.range T).map fun t => if t = 0 then fun _ _ => none else
    ((List.finRange p).flatMap fun i => ((List.finRange p).filter fun j => i < j).map fun j => (i, j)).foldl
      (fun m q => fun a b => if (a = q.1 ∧ b = q.2) ∨ (a = q.2 ∧ b = q.1) then
        some (hsic (fun k => longErrors (B t) (resid t) k q.1) (fun k => longErrors (B t) (resid t) k q.2)) else m a b)
      fun _ _ => some 0

end CL.Conf
