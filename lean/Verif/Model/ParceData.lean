import Verif.Model.Parce
import Verif.Model.RcdData
import Mathlib.Data.ENNReal.Basic
import Mathlib.Data.ENNReal.Operations
import Mathlib.Analysis.SpecialFunctions.Log.Basic

/-!
# `lingam/bottom_up_parce_lingam.py` on data

`Verif/Model/Parce.lean` models the search for arbitrary values of the tests; here HSIC is applied to the columns to which the code applies it.
`hsic_test_gamma` is an arbitrary function of two columns (statistic, which is not negative, and p-value), the tail of the chi-square distribution an arbitrary
antitone function; arithmetic is exact.
-/
namespace CL
namespace Parce
noncomputable section
variable {N n : Nat} [NeZero n]

/-- the column with a number -/
def idx (n : Nat) [NeZero n] (v : Nat) : Fin n := Fin.ofNat n v

/-- `bottom_up_parce_lingam.py:99-100`: a centred column. -/
def cen (data : Fin N → Fin n → ℝ) (v : Nat) : Fin N → ℝ := fun k => data k (idx n v) - (∑ k, data k (idx n v)) / N

/-- `bottom_up_parce_lingam.py:239-252` `_compute_residuals` without a regressor: `pinv(cov) cov` solves the normal equations, so this is the least
squares residual (`resid_of_normal`). -/
def resid (data : Fin N → Fin n → ℝ) (target : Nat) (predictors : List Nat) : Fin N → ℝ :=
  Rcd.ols data (idx n target) (predictors.map (idx n)).toFinset

/-- The tests of `bottom_up_parce_lingam.py:102-103` and `254-270` on a data set; `hsic` is `hsic_test_gamma`, `tl k` is `1 - chi2.cdf(·, df=2*k)`. -/
def testData (hsic : (Fin N → ℝ) → (Fin N → ℝ) → ENNReal × ℝ) (tl : Nat → ENNReal → ℝ) (htl : ∀ k a b, a ≤ b → tl k b ≤ tl k a) (alpha : ℝ)
    (data : Fin N → Fin n → ℝ) : Data ENNReal ℝ where
  pair m ps := ((hsic (cen data (ps.headD 0)) (resid data m ps)).2, (hsic (cen data (ps.headD 0)) (resid data m ps)).1)
  contrib m ps x := if (hsic (cen data x) (resid data m ps)).2 = 0 then ⊤ else ENNReal.ofReal (-2 * Real.log (hsic (cen data x) (resid data m ps)).2)
  tail := tl
  zeroK := 0
  zeroQ := 0
  thresh := alpha / (n - 1)
  le_add _ _ _ _ := le_self_add
  tail_anti := htl

end
end Parce
end CL
