import Verif.Model.CvScore
import Verif.Model.Minimize

/-!
# Model of the marginal likelihood score: `score/LocalScoreFunction.py` `local_score_marginal_general` (681-778) and the Gaussian-process regression of `utils/ScoreUtils.py` (435-760)

Real numbers. All arrays are `ndarray`s, so `*` multiplies entry by entry and `@` is the matrix product. `numpy.linalg.cholesky` is an argument (`none` is LinAlgError), and so is the
map from the kernel matrix of the variable to the matrix of targets (`eigdec` and lines 719-725, 743-750).
-/
namespace CL
namespace Gp
open Matrix Kci CvScore Mini
variable {T m D : Nat}

/-- `ScoreUtils.py:670-698` `sq_dist(a)` for `a` of `D` rows and `T` columns, one argument: the loop over the rows. -/
noncomputable def sqDist (a : Fin D → Fin T → ℝ) : Matrix (Fin T) (Fin T) ℝ :=
  (List.finRange D).foldl (fun C d => C + of fun i j => (a d j - a d i) * (a d j - a d i)) 0

/-- `ScoreUtils.py:622`: the shape of `np.diag(1 / ell) * x.T` for `D` columns and `T` samples; `none` is the ValueError. -/
def scaledShape (D T : Nat) : Option (Nat × Nat) := broadcast (D, D) (D, T)

/-- `ScoreUtils.py:616-623` `cov_seard(loghyper, x)` for one column; `l0` is the logarithm of the length scale and `l1` that of the root of the signal variance. -/
noncomputable def covSEard (x : Col T) (l0 l1 : ℝ) : Matrix (Fin T) (Fin T) ℝ :=
  of fun i j => Real.exp (2 * l1) * Real.exp (-(sqDist (D := 1) (fun _ k => 1 / Real.exp l0 * x k)) i j / 2)

/-- `ScoreUtils.py:574-579` `cov_noise(logtheta, x)`. -/
noncomputable def covNoise (T : Nat) (l2 : ℝ) : Matrix (Fin T) (Fin T) ℝ := Real.exp (2 * l2) • 1

/-- `ScoreUtils.py:583-584` `cov_noise` with `z` given: the derivative matrix. -/
noncomputable def dNoise (T : Nat) (l2 : ℝ) : Matrix (Fin T) (Fin T) ℝ := (2 * Real.exp (2 * l2)) • 1

/-- `ScoreUtils.py:723-739` `cov_sum` of `covSEard` and `covNoise` (hyperparameters 0 and 1 belong to the first, 2 to the second). -/
noncomputable def covSum (x : Col T) (h : Vec 2 ℝ) : Matrix (Fin T) (Fin T) ℝ := 0 + covSEard x (h 0) (h 1) + covNoise T (h 2)

/-- `ScoreUtils.py:549` `solve_chol`. -/
noncomputable def solveChol (A : Matrix (Fin T) (Fin T) ℝ) (B : Matrix (Fin T) (Fin m) ℝ) : Matrix (Fin T) (Fin m) ℝ := A⁻¹ * ((Aᵀ)⁻¹ * B)

/-- `ScoreUtils.py:482`: `alpha`. -/
noncomputable def alpha (L : Matrix (Fin T) (Fin T) ℝ) (y : Matrix (Fin T) (Fin m) ℝ) : Matrix (Fin T) (Fin m) ℝ := solveChol Lᵀ y

/-- `ScoreUtils.py:491-495`: the negative log marginal likelihood. -/
noncomputable def nlml (L : Matrix (Fin T) (Fin T) ℝ) (y : Matrix (Fin T) (Fin m) ℝ) : ℝ :=
  0.5 * (yᵀ * alpha L y).trace + m * ∑ i, Real.log (L i i) + 0.5 * m * T * Real.log (2 * Real.pi)

/-- `ScoreUtils.py:500-503`: `W`; the products are entry by entry. -/
noncomputable def matW (L : Matrix (Fin T) (Fin T) ℝ) (y : Matrix (Fin T) (Fin m) ℝ) : Matrix (Fin T) (Fin T) ℝ :=
  (m : ℝ) • (Lᵀ⁻¹ ⊙ (L⁻¹ ⊙ 1)) - alpha L y * (alpha L y)ᵀ

/-- `ScoreUtils.py:504-509`: the entry of the gradient that is computed, the last one. -/
noncomputable def gradNoise (L : Matrix (Fin T) (Fin T) ℝ) (y : Matrix (Fin T) (Fin m) ℝ) (l2 : ℝ) : ℝ := (∑ i, ∑ j, (matW L y ⊙ dNoise T l2) i j) / 2

/-- `ScoreUtils.py:435-527` `gpr_multi_new` without test cases, `nargout=2`; the other entries of the gradient stay zero (497-499, 504). -/
noncomputable def gpr (chol : Matrix (Fin T) (Fin T) ℝ → Option (Matrix (Fin T) (Fin T) ℝ)) (x : Col T) (y : Matrix (Fin T) (Fin m) ℝ) (h : Vec 2 ℝ) : Option (ℝ × Vec 2 ℝ) :=
  (chol (covSum x h)).map fun L => (nlml L y, fun k => if k = 2 then gradNoise L y (h 2) else 0)

/-- `LocalScoreFunction.py:743-758`, `763-778`: optimise from the hyperparameters `h0` and evaluate at the result. After an exception, or a successful line search (see
`Mini.Out`), no value. -/
noncomputable def optimised (chol : Matrix (Fin T) (Fin T) ℝ → Option (Matrix (Fin T) (Fin T) ℝ)) (x : Col T) (y : Matrix (Fin T) (Fin m) ℝ) (h0 : Vec 2 ℝ) : Res ℝ :=
  match minimize Real.sqrt (gpr chol x y) 300 h0 with
  | .done h _ _ _ => match gpr chol x y h with
    | some r => .val r.1
    | none => .raises
  | _ => .raises

/-- `LocalScoreFunction.py:738-739`: the width of a parent; `nan` for a constant column. -/
noncomputable def width (p : Col T) : Res ℝ := (npMedian (posDiffs p)).bind fun m => .val (√(0.5 * m) * 2.5)

/-- `LocalScoreFunction.py:742`, `762`: the initial hyperparameters. -/
noncomputable def init (l : ℝ) : Vec 2 ℝ := fun k => if k = 0 then l else if k = 1 then 0 else Real.log √0.1

/-- A NaN in an array given to `np.linalg.eig` or `np.linalg.cholesky` raises LinAlgError. -/
def strict {α : Type} : Res α → Res α
  | .nan => .raises
  | r => r

/-- `LocalScoreFunction.py:681-780` `local_score_marginal_general`; `eigdec` raises for fewer than four samples (719-721, `N < 1`). `targets` gives the matrix of targets for `Kx`. For two or
more parents the product of `ScoreUtils.py:622` raises, except if there are as many parents as samples, which is not modelled. -/
noncomputable def marginalScore (chol : Matrix (Fin T) (Fin T) ℝ → Option (Matrix (Fin T) (Fin T) ℝ)) (targets : Matrix (Fin T) (Fin T) ℝ → Σ m : Nat, Matrix (Fin T) (Fin m) ℝ)
    (x : Col T) (pas : List (Col T)) : Res ℝ :=
  (strict (kx 2.5 x)).bind fun K =>
    if T < 4 then .raises
    else match pas with
      | [] => optimised chol (fun _ => 0) (targets K).2 (init 100)
      | [p] => (strict (width p)).bind fun w => optimised chol p (targets K).2 (init (Real.log w))
      | ps => if scaledShape ps.length T = none then .raises else .nan

end Gp
end CL
