import Verif.Model.Kci
import Mathlib.LinearAlgebra.Matrix.Hadamard
import Mathlib.LinearAlgebra.Matrix.Determinant.Basic
import Mathlib.LinearAlgebra.Matrix.PosDef
import Mathlib.Analysis.SpecialFunctions.Log.Basic
import Mathlib.Analysis.SpecialFunctions.Trigonometric.Basic

/-!
# Model of the generalised scores: `score/LocalScoreFunction.py` `local_score_cv_general` (175-432), `local_score_cv_multi` (435-678) and the kernels of
`local_score_marginal_general`, `local_score_marginal_multi` (681-869); `utils/ScoreUtils.py` `kernel`, `dist2`, `pdinv`

Numbers are real numbers. The Gaussian-process regression of the marginal likelihood scores is in `Verif.Model.Gp`.
-/
namespace CL
namespace CvScore
open Matrix Kci
variable {T : Nat}

/-- one column of the data -/
abbrev Col (T : Nat) := Fin T → ℝ

/-- `LocalScoreFunction.py:212-215` (the same in 238-241, 357-360 and in the other scores): squared distances `G_i + G_j - 2 x_i x_j`. -/
def sqd (x : Col T) (i j : Fin T) : ℝ := x i * x i + x j * x j - 2 * (x i * x j)

open Classical in
/-- `LocalScoreFunction.py:216-218` (242-244, 361-363): the positive entries above the diagonal, row by row. -/
noncomputable def posDiffs (x : Col T) : List ℝ :=
  ((List.finRange T).flatMap fun i => (List.finRange T).map fun j => if i < j then sqd x i j else 0).filter fun t => decide (0 < t)

/-- `LocalScoreFunction.py:218-220` (244-246, 363-365; 476-478, 711-713): `theta`; the width is multiplied by `f` (2 in `cv_general`, 3 in `cv_multi`, 2.5 in the marginal scores). `nan` for
a constant column. -/
noncomputable def theta (f : ℝ) (x : Col T) : Res ℝ := (npMedian (posDiffs x)).bind fun m => .val (1 / (√(0.5 * m) * f) ^ 2)

/-- `ScoreUtils.py:10-19` `kernel(x, x, (theta, 1))` with `dist2` (22-50), which replaces negative distances by 0. -/
noncomputable def kern (θ : ℝ) (x : Col T) : Matrix (Fin T) (Fin T) ℝ := of fun i j => 1 * Real.exp (-(max 0 (sqd x i j)) * (θ / 2))

/-- `LocalScoreFunction.py:223-226` (252-255, 368-371, 481-484, 714-716): `H0 * K * H0` on `ndarray`s. The operator `*` of numpy multiplies entry by entry. -/
noncomputable def hadCenter (K : Matrix (Fin T) (Fin T) ℝ) : Matrix (Fin T) (Fin T) ℝ := (centering T ⊙ K) ⊙ centering T

/-- `LocalScoreFunction.py:212-226`, `357-371`: `Kx`. -/
noncomputable def kx (f : ℝ) (x : Col T) : Res (Matrix (Fin T) (Fin T) ℝ) := (theta f x).bind fun θ => .val (hadCenter (kern θ x))

/-- `LocalScoreFunction.py:247-250`: multiply the kernel of one parent into `Kpa`. -/
noncomputable def kpaStep (f : ℝ) (acc : Res (Matrix (Fin T) (Fin T) ℝ)) (p : Col T) : Res (Matrix (Fin T) (Fin T) ℝ) :=
  acc.bind fun K => (theta f p).bind fun θ => .val (K ⊙ kern θ p)

/-- `LocalScoreFunction.py:235-255`: `Kpa`. -/
noncomputable def kpa (f : ℝ) (pas : List (Col T)) : Res (Matrix (Fin T) (Fin T) ℝ) :=
  (pas.foldl (kpaStep f) (.val (of fun _ _ => 1))).bind fun K => .val (hadCenter K)

/-! ## Folds -/

/-- the indices `a, …, b-1` of an axis of length `T`, as in `K[a:b]` and `np.arange(a, b)` -/
def slice (T a b : Nat) : List (Fin T) := (List.finRange T).filter fun i => decide (a ≤ i.val ∧ i.val < b)

/-- `LocalScoreFunction.py:204`: `n0 = math.floor(T / k)`. -/
def n0 (T k : Nat) : Nat := T / k

/-- `LocalScoreFunction.py:258-316`, `378-411`: the rows of `Kx_te`. -/
def testIdx (T k kk : Nat) : List (Fin T) :=
  if kk = 0 then slice T 0 (n0 T k) else if kk = k - 1 then slice T (kk * n0 T k) T else slice T (kk * n0 T k) ((kk + 1) * n0 T k)

/-- `LocalScoreFunction.py:258-316`, `378-411`: the rows of `Kx_tr`. -/
def trainIdx (T k kk : Nat) : List (Fin T) :=
  if kk = 0 then slice T (n0 T k) T else if kk = k - 1 then slice T 0 (kk * n0 T k)
  else slice T 0 (kk * n0 T k) ++ slice T ((kk + 1) * n0 T k) T

/-- `LocalScoreFunction.py:266`, `274`, `314` (383, 388, 409): `nv`. -/
def nv (T k kk : Nat) : Nat := if kk = 0 then n0 T k else if kk = k - 1 then T - kk * n0 T k else n0 T k

/-- `K[np.ix_(a, b)]` -/
def sub (K : Matrix (Fin T) (Fin T) ℝ) (a b : List (Fin T)) : Matrix (Fin a.length) (Fin b.length) ℝ := K.submatrix a.get b.get

/-- `LocalScoreFunction.py:349-350`, `423-424`: the sum of the logarithms of the diagonal of the Cholesky factor; the square of their product is the determinant. -/
noncomputable def logChol {m : Nat} (B : Matrix (Fin m) (Fin m) ℝ) : ℝ := Real.log B.det / 2

/-- `LocalScoreFunction.py:205`. -/
noncomputable def gamma : ℝ := 0.01

/-- `LocalScoreFunction.py:352`, `427`: what a fold adds. -/
noncomputable def addTerm (v : Nat) (C trA : ℝ) : ℝ := (v * v * Real.log (2 * Real.pi) + v * C + trA) / 2

/-- `LocalScoreFunction.py:318-319`: the argument of `pdinv` in `tmp1`. -/
noncomputable def ridge (lam : ℝ) (Kpa : Matrix (Fin T) (Fin T) ℝ) (k kk : Nat) :
    Matrix (Fin (trainIdx T k kk).length) (Fin (trainIdx T k kk).length) ℝ :=
  sub Kpa (trainIdx T k kk) (trainIdx T k kk) + (((T - nv T k kk : Nat) : ℝ) * lam) • 1

/-- `LocalScoreFunction.py:320`: `tmp2`. -/
noncomputable def tmp2 (lam : ℝ) (Kx Kpa : Matrix (Fin T) (Fin T) ℝ) (k kk : Nat) :
    Matrix (Fin (trainIdx T k kk).length) (Fin (trainIdx T k kk).length) ℝ :=
  (ridge lam Kpa k kk)⁻¹ * sub Kx (trainIdx T k kk) (trainIdx T k kk) * (ridge lam Kpa k kk)⁻¹

/-- `LocalScoreFunction.py:348`: `B`, also the argument of `pdinv` in `tmp3` (321). -/
noncomputable def matB (lam : ℝ) (Kx Kpa : Matrix (Fin T) (Fin T) ℝ) (k kk : Nat) :
    Matrix (Fin (trainIdx T k kk).length) (Fin (trainIdx T k kk).length) ℝ :=
  (((T - nv T k kk : Nat) : ℝ) * lam ^ 2 / gamma) • tmp2 lam Kx Kpa k kk + 1

/-- `LocalScoreFunction.py:321`: `tmp3`. -/
noncomputable def tmp3 (lam : ℝ) (Kx Kpa : Matrix (Fin T) (Fin T) ℝ) (k kk : Nat) :
    Matrix (Fin (trainIdx T k kk).length) (Fin (trainIdx T k kk).length) ℝ :=
  (ridge lam Kpa k kk)⁻¹ * (matB lam Kx Kpa k kk)⁻¹ * (ridge lam Kpa k kk)⁻¹

/-- `LocalScoreFunction.py:322-346`: `A`. -/
noncomputable def matA (lam : ℝ) (Kx Kpa : Matrix (Fin T) (Fin T) ℝ) (k kk : Nat) :
    Matrix (Fin (testIdx T k kk).length) (Fin (testIdx T k kk).length) ℝ :=
  let tr := trainIdx T k kk
  let te := testIdx T k kk
  let c := ((T - nv T k kk : Nat) : ℝ) * lam ^ 2 / gamma
  let R := (ridge lam Kpa k kk)⁻¹
  let t2 := tmp2 lam Kx Kpa k kk
  let t3 := tmp3 lam Kx Kpa k kk
  (1 / gamma) • (sub Kx te te + (sub Kpa tr te)ᵀ * t2 * sub Kpa tr te - (2 : ℝ) • ((sub Kx tr te)ᵀ * R * sub Kpa tr te)
    - c • ((sub Kx tr te)ᵀ * t3 * sub Kx tr te)
    - c • ((sub Kpa tr te)ᵀ * R * sub Kx tr tr * t3 * sub Kx tr tr * R * sub Kpa tr te)
    + (2 * c) • ((sub Kx tr te)ᵀ * t3 * sub Kx tr tr * R * sub Kpa tr te))

open Classical in
/-- `LocalScoreFunction.py:318-352`: one fold, with parents; `np.linalg.cholesky` (349) raises an exception if `B` is not positive definite. `pdinv`
(`ScoreUtils.py:53-66`) is the inverse matrix. -/
noncomputable def foldPa (lam : ℝ) (Kx Kpa : Matrix (Fin T) (Fin T) ℝ) (k kk : Nat) : Res ℝ :=
  if (matB lam Kx Kpa k kk).PosDef then .val (addTerm (nv T k kk) (logChol (matB lam Kx Kpa k kk)) (trace (matA lam Kx Kpa k kk))) else .raises

/-- `LocalScoreFunction.py:422`: `B` without parents, also the argument of `pdinv` (419). -/
noncomputable def matB0 (Kx : Matrix (Fin T) (Fin T) ℝ) (k kk : Nat) : Matrix (Fin (trainIdx T k kk).length) (Fin (trainIdx T k kk).length) ℝ :=
  (1 / (gamma * ((T - nv T k kk : Nat) : ℝ))) • sub Kx (trainIdx T k kk) (trainIdx T k kk) + 1

/-- `LocalScoreFunction.py:414-421`: `A` without parents. -/
noncomputable def matA0 (Kx : Matrix (Fin T) (Fin T) ℝ) (k kk : Nat) : Matrix (Fin (testIdx T k kk).length) (Fin (testIdx T k kk).length) ℝ :=
  let tr := trainIdx T k kk
  let te := testIdx T k kk
  (1 / gamma) • (sub Kx te te - (1 / (gamma * ((T - nv T k kk : Nat) : ℝ))) • ((sub Kx tr te)ᵀ * (matB0 Kx k kk)⁻¹ * sub Kx tr te))

open Classical in
/-- `LocalScoreFunction.py:413-427`: one fold, without parents; `1 / (gamma * n1)` raises `ZeroDivisionError` if there are no training samples, and
`np.linalg.cholesky` if `B` is not positive definite. -/
noncomputable def fold0 (Kx : Matrix (Fin T) (Fin T) ℝ) (k kk : Nat) : Res ℝ :=
  if T - nv T k kk = 0 then .raises
  else if (matB0 Kx k kk).PosDef then .val (addTerm (nv T k kk) (logChol (matB0 Kx k kk)) (trace (matA0 Kx k kk))) else .raises

/-- `LocalScoreFunction.py:257-258`, `352-354`, `377-378`, `427-429`: the loop over the folds and the mean. -/
noncomputable def meanFolds (k : Nat) (term : Nat → Res ℝ) : Res ℝ :=
  ((List.range k).foldl (fun (acc : Res ℝ) kk => acc.bind fun s => (term kk).bind fun t => .val (s + t)) (.val 0)).bind fun s => .val (s / k)

/-- `LocalScoreFunction.py:175-432` `local_score_cv_general`; `T / 0` raises an exception. A matrix of NaNs (constant column) is kept as `nan`; numpy's
Cholesky decomposition then raises an error. -/
noncomputable def scoreCV (lam : ℝ) (k : Nat) (x : Col T) (pas : List (Col T)) : Res ℝ :=
  if k = 0 then .raises
  else if pas = [] then (kx 2 x).bind fun Kx => meanFolds k (fold0 Kx k)
  else (kx 2 x).bind fun Kx => (kpa 2 pas).bind fun Kpa => meanFolds k (foldPa lam Kx Kpa k)

/-! ## Shapes in the functions for variables with several dimensions -/

/-- numpy broadcasting of one axis -/
def bcAxis (a b : Nat) : Option Nat := if a = b then some a else if a = 1 then some b else if b = 1 then some a else none

/-- numpy broadcasting of two matrices; `none` is the `ValueError`. -/
def broadcast (s t : Nat × Nat) : Option (Nat × Nat) := (bcAxis s.1 t.1).bind fun a => (bcAxis s.2 t.2).map fun b => (a, b)

/-- `LocalScoreFunction.py:461`, `470-473` (and the same lines 490-494, 607-610, 805-812, 835-840): the shape of `dists` for a variable of `d` dimensions.
`Data[:, dlabel].reshape(-1, 1)` has `T * d` rows. -/
def distShape (T d : Nat) : Option (Nat × Nat) :=
  (broadcast (T * d, T) (T, T * d)).bind fun s => (broadcast (T * d, 1) (1, T * d)).bind fun u => broadcast s u

/-- `LocalScoreFunction.py:475` (496, 612, 814, 842): `np.reshape(dists, (T**2, 1))`, possible only if the number of entries is right. -/
def distOk (T d : Nat) : Bool := (distShape T d).any fun s => s.1 * s.2 == T ^ 2

/-- `LocalScoreFunction.py:660-667`: `Kx_te - c * Kx_tr_te.T * pdinv(…) * Kx_tr_te`, products entry by entry. -/
def multiAShape (nv n1 : Nat) : Option (Nat × Nat) :=
  (broadcast (nv, n1) (n1, n1)).bind fun s => (broadcast s (n1, nv)).bind fun u => broadcast (nv, nv) u

end CvScore
end CL
