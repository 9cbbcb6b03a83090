import Verif.Spec.DSep
import Mathlib.Algebra.BigOperators.Group.Finset.Basic
import Mathlib.Data.Real.Basic
import Mathlib.Data.Fintype.BigOperators
import Mathlib.Data.ENNReal.Basic

/-!
# Data of a linear model with non-Gaussian errors, and ideal tests on them (specification only)
-/
namespace Spec
open Relation
variable {N m : Nat}

/-- Centred, non-zero, pairwise uncorrelated errors. -/
structure Errors {ι : Type} (e : ι → Fin N → ℝ) : Prop where
  mean : ∀ i, ∑ k, e i k = 0
  pos : ∀ i, 0 < ∑ k, e i k ^ 2
  orth : ∀ i j, i ≠ j → ∑ k, e i k * e j k = 0

/-- The data obey the equations `x_i = b0_i + Σ_p B_{p i} x_p + e_i` of an acyclic linear model; `B p i` is the coefficient of `p` in the equation of
`i`, so `p` is a parent of `i` iff it is not zero. -/
structure Generated (data : Fin N → Fin m → ℝ) (b0 : Fin m → ℝ) (B : Fin m → Fin m → ℝ) (e : Fin m → Fin N → ℝ) : Prop where
  errors : Errors e
  acyclic : Acyclic fun p i => B p i ≠ 0
  eqn : ∀ k i, data k i = b0 i + ∑ p, B p i * data k p + e i k

/-- `p` is an ancestor of `i`. -/
def Anc (B : Fin m → Fin m → ℝ) (p i : Fin m) : Prop := TransGen (fun p i => B p i ≠ 0) p i

/-- `T j i` is the total effect of `j` on `i`: it is propagated along the equations. -/
def TotalEffects (B T : Fin m → Fin m → ℝ) : Prop := ∀ j i, T j i = (if j = i then 1 else 0) + ∑ p, B p i * T j p

/-- A linear combination of the errors plus a constant. -/
def comb {ι : Type} [Fintype ι] (e : ι → Fin N → ℝ) (a : ι → ℝ) (c : ℝ) : Fin N → ℝ := fun k => c + ∑ i, a i * e i k

/-- Ideal tests for independent non-Gaussian errors `e`: a non-trivial combination of the errors is not Gaussian (Cramér's theorem); two columns are
correlated iff their sample covariance is not zero; two combinations are independent iff they have no error in common (the theorem of
Darmois and Skitovich). -/
structure IdealTests {ι : Type} [Fintype ι] (e : ι → Fin N → ℝ) (nonGauss : (Fin N → ℝ) → Bool) (corr indep : (Fin N → ℝ) → (Fin N → ℝ) → Bool) : Prop where
  nonGauss : ∀ a c, (∃ i, a i ≠ 0) → nonGauss (comb e a c) = true
  corr : ∀ u v, corr u v = true ↔ ∑ k, (u k - (∑ k, u k) / N) * (v k - (∑ k, v k) / N) ≠ 0
  indep : ∀ a c a' c', indep (comb e a c) (comb e a' c') = true ↔ ∀ i, a i = 0 ∨ a' i = 0

/-- An independence test (statistic, p-value) on centred columns that detects every dependence: the p-value of two combinations with a common error is 0. -/
def Detects {ι : Type} [Fintype ι] (e : ι → Fin N → ℝ) (hsic : (Fin N → ℝ) → (Fin N → ℝ) → ENNReal × ℝ) : Prop :=
  ∀ a a', (∃ i, a i ≠ 0 ∧ a' i ≠ 0) → (hsic (comb e a 0) (comb e a' 0)).2 = 0

/-- It also accepts every independence (p-value 1), and its statistic is not greater for independent than for dependent columns. -/
structure IdealHsic {ι : Type} [Fintype ι] (e : ι → Fin N → ℝ) (hsic : (Fin N → ℝ) → (Fin N → ℝ) → ENNReal × ℝ) : Prop where
  detects : Detects e hsic
  accepts : ∀ a a', (∀ i, a i = 0 ∨ a' i = 0) → (hsic (comb e a 0) (comb e a' 0)).2 = 1
  stat : ∀ a a' b b', (∀ i, a i = 0 ∨ a' i = 0) → (∃ i, b i ≠ 0 ∧ b' i ≠ 0) → (hsic (comb e a 0) (comb e a' 0)).1 ≤ (hsic (comb e b 0) (comb e b' 0)).1

/-- Ideal p-values for independent non-Gaussian errors `e`, at the level `alpha`: the p-value of two combinations of the errors is above the level if they have
no error in common and below it otherwise; the p-value of a combination and several others is above the level if it has no error in common with any of
them, below it otherwise. -/
structure IdealPvalues {K ι : Type} [LinearOrder K] [Fintype ι] (e : ι → Fin N → ℝ) (pair : (Fin N → ℝ) → (Fin N → ℝ) → K)
    (multi : (Fin N → ℝ) → List (Fin N → ℝ) → K) (alpha : K) : Prop where
  accepts : ∀ a c a' c', (∀ i, a i = 0 ∨ a' i = 0) → alpha < pair (comb e a c) (comb e a' c')
  rejects : ∀ a c a' c', (∃ i, a i ≠ 0 ∧ a' i ≠ 0) → pair (comb e a c) (comb e a' c') < alpha
  multi_accepts : ∀ a c (L : List ((ι → ℝ) × ℝ)), (∀ q ∈ L, ∀ i, a i = 0 ∨ q.1 i = 0) → alpha < multi (comb e a c) (L.map fun q => comb e q.1 q.2)
  multi_rejects : ∀ a c (L : List ((ι → ℝ) × ℝ)), (∃ q ∈ L, ∃ i, a i ≠ 0 ∧ q.1 i ≠ 0) → multi (comb e a c) (L.map fun q => comb e q.1 q.2) < alpha

end Spec
