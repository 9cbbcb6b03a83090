import Verif.Model.Lingam
import Mathlib.Data.Real.Basic
import Mathlib.Algebra.BigOperators.Fin
import Mathlib.Logic.Equiv.Basic

/-!
# `ICALiNGAM.fit` (`causallearn/search/FCMBased/lingam/ica_lingam.py:37-73`)

The unmixing matrix `W_ica` returned by FastICA is a parameter; exact real arithmetic.
-/
namespace CL.Lingam
variable {n : Nat}

/-- Every chosen entry is non-zero, i.e. the cost `1 / |w|` is finite. -/
def Feasible (W : Fin n → Fin n → ℝ) (σ : Equiv.Perm (Fin n)) : Prop := ∀ i, W i (σ i) ≠ 0

/-- A correct `scipy.optimize.linear_sum_assignment` on the matrix `1 / |W|` (line 58; `1 / 0` is `inf`): it raises `ValueError` (here `none`) if every assignment
costs `inf` and returns an assignment of least cost otherwise; `find W = some σ` means `col_index[i] = σ i`. -/
structure Assignment (n : Nat) where
  find : (Fin n → Fin n → ℝ) → Option (Equiv.Perm (Fin n))
  raises : ∀ W, find W = none ↔ ∀ σ, ¬ Feasible W σ
  best : ∀ W σ, find W = some σ → Feasible W σ ∧ ∀ τ, Feasible W τ → ∑ i, 1 / |W i (σ i)| ≤ ∑ i, 1 / |W i (τ i)|

/-- A correct `np.argsort(np.abs(matrix), axis=None)` with `np.unravel_index` (lines 130-131): all positions, by non-decreasing absolute value. -/
structure Argsort (n : Nat) where
  sort : (Nat → Nat → ℝ) → List (Nat × Nat)
  perm : ∀ m, (sort m).Perm (indexPairs n)
  mono : ∀ m, (sort m).Pairwise fun p q => |m p.1 p.2| ≤ |m q.1 q.2|

/-- `ica_lingam.py:59-60`: `PW_ica[col_index] = W_ica`. -/
def permuted (W : Fin n → Fin n → ℝ) (σ : Equiv.Perm (Fin n)) (a b : Fin n) : ℝ := W (σ.symm a) b

/-- `ica_lingam.py:63-67`: rows divided by the diagonal, subtracted from the identity. -/
noncomputable def bEstimate (W : Fin n → Fin n → ℝ) (σ : Equiv.Perm (Fin n)) (a b : Fin n) : ℝ :=
  (if a = b then 1 else 0) - permuted W σ a b / permuted W σ a a

/-- A matrix as a function of row and column numbers. -/
def natMat (B : Fin n → Fin n → ℝ) (a b : Nat) : ℝ := if h : a < n ∧ b < n then B ⟨a, h.1⟩ ⟨b, h.2⟩ else 0

open Classical in
/-- `ica_lingam.py:56-70`: the causal order of `fit`; the outer `none` is the ValueError of the assignment, the inner `none` is `causal_order = None`, on
which `_estimate_adjacency_matrix` (line 73) raises. -/
noncomputable def icaFitOrder (A : Assignment n) (S : Argsort n) (W : Fin n → Fin n → ℝ) : Option (Option (List Nat)) :=
  (A.find W).map fun σ => icaEstimateOrder n (S.sort (natMat (bEstimate W σ))) (natMat (bEstimate W σ))

end CL.Lingam
