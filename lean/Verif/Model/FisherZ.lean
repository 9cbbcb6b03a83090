import Verif.Model.Cache
import Mathlib.LinearAlgebra.Matrix.NonsingularInverse
import Mathlib.Analysis.SpecialFunctions.Log.Basic
import Mathlib.Analysis.SpecialFunctions.Pow.NNReal
import Mathlib.Data.Real.Sign

/-!
# Fisher's z test (`causallearn/utils/cit.py:192-225`, `445-489`)

Simplifications: exact real arithmetic; `norm.cdf` is an arbitrary function `Φ`; columns are natural numbers (an index outside the data is an
error in Python and not modelled). `none` is an exception or a `NaN` p-value.
-/
namespace CL.FisherZ
open Real

/-- The column mean. -/
noncomputable def mean {N : Nat} (data : Fin N → Nat → ℝ) (i : Nat) : ℝ := (∑ k, data k i) / N

/-- `np.cov` as used by `np.corrcoef`. -/
noncomputable def cov {N : Nat} (data : Fin N → Nat → ℝ) (i j : Nat) : ℝ :=
  (∑ k, (data k i - mean data i) * (data k j - mean data j)) / ((N : ℝ) - 1)

/-- `cit.py:197`, `478`: `np.corrcoef(data.T)`, which divides by the standard deviations and clips to `[-1, 1]`. -/
noncomputable def corr {N : Nat} (data : Fin N → Nat → ℝ) (i j : Nat) : ℝ :=
  max (-1) (min 1 (cov data i j / √(cov data i i) / √(cov data j j)))

/-- `cit.py:219`, `483`. -/
noncomputable def rOf {k : Nat} (M : Matrix (Fin (k + 2)) (Fin (k + 2)) ℝ) : ℝ := -M⁻¹ 0 1 / √|M⁻¹ 0 0 * M⁻¹ 1 1|

/-- `cit.py:220`, `484`. -/
noncomputable def clampR (eps r : ℝ) : ℝ := if 1 ≤ |r| then (1 - eps) * Real.sign r else r

/-- `cit.py:221-223`, `485-487` with `c` the size of the conditioning set. -/
noncomputable def tailP (Φ : ℝ → ℝ) (m c : Nat) (r : ℝ) : ℝ :=
  2 * (1 - Φ (abs (√((m : ℝ) - c - 3) * abs (1 / 2 * log ((1 + r) / (1 - r))))))

/-- `cit.py:214-223` and `478-487`: the p-value from the correlation matrix `R`, the number `m` of samples and the formatted query. A singular
matrix raises; so does the square root of a negative number (line 222, 485). A variable with variance zero gives `NaN` in Python, here a zero row,
hence a singular matrix. -/
noncomputable def pvalue (Φ : ℝ → ℝ) (eps : ℝ) (R : Nat → Nat → ℝ) (m a b : Nat) (s : List Nat) : Option ℝ :=
  let M : Matrix (Fin (s.length + 2)) (Fin (s.length + 2)) ℝ := Matrix.of fun i j => R ((a :: b :: s).get i) ((a :: b :: s).get j)
  if M.det = 0 then none
  else if m < s.length + 3 then none
  else some (tailP Φ m s.length (clampR eps (rOf M)))

/-- `cit.py:199-225` `FisherZ.__call__` (first call of a query; later calls return the cached value, see C40). -/
noncomputable def fisherz {N : Nat} (Φ : ℝ → ℝ) (eps : ℝ) (data : Fin N → Nat → ℝ) (x y : Nat) (s : List Nat) : Option ℝ :=
  (format1 x y s).bind fun q => pvalue Φ eps (corr data) N (q.1.headD 0) (q.2.1.headD 0) q.2.2

/-- `cit.py:450-457` `_get_index_no_mv_rows` on the columns `var`. -/
def completeRows {N : Nat} (data : Fin N → Nat → Option ℝ) (var : List Nat) : List (Fin N) :=
  (List.finRange N).filter fun k => var.all fun i => (data k i).isSome

/-- `cit.py:477`: the rows `idx`; missing values cannot occur in the columns used. -/
noncomputable def select {N : Nat} (data : Fin N → Nat → Option ℝ) (idx : List (Fin N)) : Fin idx.length → Nat → ℝ :=
  fun k i => (data (idx.get k) i).getD 0

/-- `cit.py:459-489` `MV_FisherZ.__call__`. -/
noncomputable def mvFisherz {N : Nat} (Φ : ℝ → ℝ) (eps : ℝ) (data : Fin N → Nat → Option ℝ) (x y : Nat) (s : List Nat) : Option ℝ :=
  (format1 x y s).bind fun q =>
    let var := q.1 ++ q.2.1 ++ q.2.2
    let idx := completeRows data var
    if idx.length = 0 then none
    else pvalue Φ eps (corr (select data idx)) idx.length (q.1.headD 0) (q.2.1.headD 0) q.2.2

end CL.FisherZ
