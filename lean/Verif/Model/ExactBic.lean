import Mathlib.LinearAlgebra.Matrix.NonsingularInverse
import Mathlib.LinearAlgebra.LinearIndependent.Defs
import Mathlib.Analysis.SpecialFunctions.Log.Basic
import Mathlib.Order.WithBot

/-!
# The node score of the exact search (`causallearn/search/ScoreBased/ExactSearch.py:358-371` `bic_score_node`)

Real arithmetic. `np.linalg.lstsq` on columns of full rank is the solution of the normal equations; its `residuals` are an *empty* array if the
rank is below the number of columns or if there are no more samples than columns (numpy's documentation); numerical rank is exact rank here.
`-inf` is `⊥`. No samples at all (`n = 0`) are not modelled.
-/
namespace CL.ExactBic
open Matrix
variable {N n : Nat}

/-- `X[:, structure]ᵀ X[:, structure]`, the matrix of the normal equations of `lstsq` (line 364). -/
def gramS (data : Fin N → Fin n → ℝ) (S : Finset (Fin n)) : Matrix S S ℝ := of fun a b => ∑ k, data k a * data k b

/-- `ExactSearch.py:364-366`: the least-squares solution; there is no intercept. -/
noncomputable def lsCoef (data : Fin N → Fin n → ℝ) (i : Fin n) (S : Finset (Fin n)) : S → ℝ :=
  (gramS data S)⁻¹ *ᵥ fun a => ∑ k, data k a * data k i

/-- `ExactSearch.py:364-366`: the residual vector of the solution. -/
noncomputable def lsResid (data : Fin N → Fin n → ℝ) (i : Fin n) (S : Finset (Fin n)) (k : Fin N) : ℝ :=
  data k i - ∑ a : S, lsCoef data i S a * data k a

/-- `ExactSearch.py:364`: the returned sum of squared residuals. -/
noncomputable def rss (data : Fin N → Fin n → ℝ) (i : Fin n) (S : Finset (Fin n)) : ℝ := ∑ k, lsResid data i S k ^ 2

/-- `ExactSearch.py:367` `n * np.log(residual / n)` (`-inf` for a zero residual). -/
noncomputable def logTerm (N : Nat) (r : ℝ) : WithBot ℝ := if r = 0 then ⊥ else ((N * Real.log (r / N) : ℝ) : WithBot ℝ)

open Classical in
/-- `ExactSearch.py:358-371` `bic_score_node`; the second branch is line 368-369 (`bic.size == 0`). -/
noncomputable def bicNode (data : Fin N → Fin n → ℝ) (i : Fin n) (S : Finset (Fin n)) : WithBot ℝ :=
  if S = ∅ then logTerm N (∑ k, data k i ^ 2)
  else if ¬ LinearIndependent ℝ (fun (a : S) (k : Fin N) => data k a) ∨ N ≤ S.card then ⊥
  else logTerm N (rss data i S) + ((S.card * Real.log N : ℝ) : WithBot ℝ)

/-- The score as a number where it is finite (the search model has no infinite scores). -/
noncomputable def bicNum (data : Fin N → Fin n → ℝ) (i : Fin n) (S : Finset (Fin n)) : ℝ := (bicNode data i S).unbotD 0

end CL.ExactBic
