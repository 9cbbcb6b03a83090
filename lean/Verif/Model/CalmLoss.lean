import Mathlib.Data.Matrix.Mul
import Mathlib.LinearAlgebra.Matrix.Determinant.Basic
import Mathlib.Analysis.SpecialFunctions.Log.Basic
import Mathlib.LinearAlgebra.Matrix.Trace

/-!
# CALM's loss (`causallearn/search/ScoreBased/CALM.py`)

Simplifications: exact real arithmetic; the sigmoid and the logistic noise of `gumbel_sigmoid` are arguments. `log` of zero (where torch gives
`-inf`) is excluded by the theorems' hypotheses.
-/
namespace CL.CalmLoss
open Matrix
variable {N d : Nat}

/-- `CALM.py:64-66`: `X - np.mean(X, axis=0)`. -/
noncomputable def centred (X : Fin N → Fin d → ℝ) (n : Fin N) (j : Fin d) : ℝ := X n j - (∑ m, X m j) / N

/-- `CALM.py:61-63`: the same, divided by `np.std(X, axis=0)` (`standardize=True`). -/
noncomputable def standardized (X : Fin N → Fin d → ℝ) (n : Fin N) (j : Fin d) : ℝ :=
  centred X n j / Real.sqrt ((∑ m, centred X m j ^ 2) / N)

/-- `CALM.py:69`: `np.cov(X.T, bias=True)` (it centres the columns once more). -/
noncomputable def covEmp (X : Fin N → Fin d → ℝ) : Matrix (Fin d) (Fin d) ℝ :=
  of fun j k => (∑ n, centred X n j * centred X n k) / N

/-- `CALM.py:178-185` `compute_likelihood`. -/
noncomputable def likelihood (B S : Matrix (Fin d) (Fin d) ℝ) : ℝ :=
  1 / 2 * ∑ j, Real.log (((1 - B)ᵀ * S * (1 - B) : Matrix (Fin d) (Fin d) ℝ) j j) - Real.log |(1 - B).det|

/-- `CALM.py:153-160` `sample_mask` and `CALMUtils.py:8-12` `gumbel_sigmoid`, from the logits and the noise. -/
noncomputable def sampleMask (sig : ℝ → ℝ) (tau : ℝ) (moral : Fin d → Fin d → Bool) (logit noise : Fin d → Fin d → ℝ) :
    Matrix (Fin d) (Fin d) ℝ :=
  of fun i j => sig ((logit i j + noise i j) / tau) * if moral i j then 1 else 0

/-- `CALM.py:193-198` `compute_h`. -/
noncomputable def hTerm (W : Matrix (Fin d) (Fin d) ℝ) : ℝ := trace ((1 + (1 / (d : ℝ)) • W) ^ d) - d

/-- `CALM.py:200-210` `compute_loss` (with `compute_sparsity`, lines 187-191), for a sampled mask. -/
noncomputable def loss (S : Matrix (Fin d) (Fin d) ℝ) (lam rho : ℝ) (mask param : Matrix (Fin d) (Fin d) ℝ) : ℝ :=
  likelihood (of fun i j => mask i j * param i j) S + lam * ∑ i, ∑ j, mask i j + 1 / 2 * rho * hTerm mask ^ 2

end CL.CalmLoss
