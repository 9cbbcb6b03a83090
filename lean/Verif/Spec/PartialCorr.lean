import Mathlib.Analysis.SpecialFunctions.Pow.NNReal

/-!
# Sample partial correlation (specification only)

The sample correlation of the residuals of two columns after least-squares regression, with intercept, on the columns in `S`.
-/
namespace Spec
variable {N : Nat} {V : Type}

/-- `u` is what is left of column `x` after subtracting some affine combination of the columns in `S`. -/
def Fit (data : Fin N → V → ℝ) (x : V) (S : Finset V) (u : Fin N → ℝ) : Prop :=
  ∃ (b0 : ℝ) (b : V → ℝ), ∀ k, u k = data k x - (b0 + ∑ s ∈ S, b s * data k s)

/-- … with the least possible sum of squares. -/
def Residual (data : Fin N → V → ℝ) (x : V) (S : Finset V) (u : Fin N → ℝ) : Prop :=
  Fit data x S u ∧ ∀ u', Fit data x S u' → ∑ k, u k ^ 2 ≤ ∑ k, u' k ^ 2

/-- `ρ` is the sample correlation of the residuals of `x` and `y` on `S` (which are not identically zero). -/
def PartialCorr (data : Fin N → V → ℝ) (x y : V) (S : Finset V) (ρ : ℝ) : Prop :=
  ∃ u v, Residual data x S u ∧ Residual data y S v ∧ 0 < ∑ k, u k ^ 2 ∧ 0 < ∑ k, v k ^ 2 ∧
    ρ = (∑ k, u k * v k) / √((∑ k, u k ^ 2) * ∑ k, v k ^ 2)

end Spec
