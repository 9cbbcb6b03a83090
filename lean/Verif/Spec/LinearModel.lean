import Mathlib.Algebra.BigOperators.Group.Finset.Basic
import Mathlib.Data.Real.Basic
import Mathlib.Data.Fintype.BigOperators

/-!
# Data generated by a linear structural equation model (specification only)
-/
namespace Spec
variable {N n : Nat}

/-- Every column is a linear function of its parents' columns in `D` plus an error; the errors have mean zero, are not zero and are pairwise
uncorrelated in the sample. -/
def LinearModel (D : Fin n → Fin n → Prop) (data : Fin N → Fin n → ℝ) : Prop :=
  ∃ (b0 : Fin n → ℝ) (B : Fin n → Fin n → ℝ) (e : Fin n → Fin N → ℝ),
    (∀ p i, ¬ D p i → B p i = 0) ∧ (∀ k i, data k i = b0 i + ∑ p, B p i * data k p + e i k) ∧
    (∀ i, ∑ k, e i k = 0) ∧ (∀ i, 0 < ∑ k, e i k ^ 2) ∧ ∀ i j, i ≠ j → ∑ k, e i k * e j k = 0

end Spec
