import Mathlib.LinearAlgebra.Matrix.NonsingularInverse
import Mathlib.LinearAlgebra.Matrix.Trace
import Mathlib.Analysis.SpecialFunctions.Exp
import Mathlib.Analysis.SpecialFunctions.Pow.NNReal
import Mathlib.Data.List.Sort

/-!
# Model of the kernel tests: `causallearn/utils/KCI/*.py`, `search/FCMBased/lingam/hsic.py` and `hsic2.py`, `utils/cit.py:227-239`

Numbers are real numbers. A data array is a function of the row (sample) and the column. `nan` is explicit where the code can divide zero by zero.
The Gaussian-process branch (`use_gp`) and the random draws of `null_sample_spectral` are not modelled; the drawn null statistics are an argument.
-/
namespace CL
namespace Kci
open Matrix
variable {n d e : Nat}

/-- An array with `n` samples (rows) of `d` columns. -/
abbrev Data (n d : Nat) := Fin n → Fin d → ℝ

/-- What a computation gives: an exception, the float `nan`, or a number (matrix, …). -/
inductive Res (α : Type) | raises | nan | val (a : α)

/-- Sequencing: exceptions propagate, and whatever is computed from `nan` is `nan`. -/
def Res.bind {α β : Type} : Res α → (α → Res β) → Res β
  | .raises, _ => .raises
  | .nan, _ => .nan
  | .val a, f => f a

/-- `numpy.mean(axis=0)`, used by `stats.zscore` (`KCI.py:148-151`). -/
noncomputable def colMean (X : Data n d) (j : Fin d) : ℝ := (∑ i, X i j) / n

/-- `numpy.var(axis=0, ddof=1)`, used by `stats.zscore` (`KCI.py:148-151`). -/
noncomputable def colVar (X : Data n d) (j : Fin d) : ℝ := (∑ i, (X i j - colMean X j) ^ 2) / ((n : ℝ) - 1)

/-- `KCI.py:148-151`, `330-337`: `stats.zscore(X, ddof=1, axis=0)` followed by `X[isnan(X)] = 0`. A constant column (or a single sample) gives
`0/0 = nan` in numpy and then `0`; division by zero in Lean is `0` as well. -/
noncomputable def zscore (X : Data n d) : Data n d := fun i j => (X i j - colMean X j) / √(colVar X j)

/-- `scipy` `pdist(X, 'sqeuclidean')` in square form (`GaussianKernel.py:20`). -/
noncomputable def sqDist (X : Data n d) (i k : Fin n) : ℝ := ∑ j, (X i j - X k j) ^ 2

/-- `GaussianKernel.py:15-25` `kernel(X)`; `θ` is `self.width`. -/
noncomputable def gaussK (θ : ℝ) (X : Data n d) : Matrix (Fin n) (Fin n) ℝ := of fun i k => Real.exp (-0.5 * sqDist X i k * θ)

/-- `LinearKernel.py:12-18` `kernel(X)`: `X.dot(X.T)`. -/
def linK (X : Data n d) : Matrix (Fin n) (Fin n) ℝ := of fun i k => ∑ j, X i j * X k j

/-- `PolynomialKernel.py:14-20` `kernel(X)`. -/
def polyK (deg : Nat) (const : ℝ) (X : Data n d) : Matrix (Fin n) (Fin n) ℝ := of fun i k => (const + ∑ j, X i j * X k j) ^ deg

/-- The `kernelX` / `kernelY` / `kernelZ` argument; `other` is any other string. -/
inductive Kind | gaussian | polynomial | linear | other
  deriving DecidableEq

/-- The `est_width` argument; `other` is any other string. -/
inductive Width | manual | median | empirical | other
  deriving DecidableEq

/-- `numpy.median`; `nan` for an empty array. -/
noncomputable def npMedian (l : List ℝ) : Res ℝ :=
  let s := l.insertionSort (· ≤ ·)
  if l = [] then .nan
  else if l.length % 2 = 1 then .val (s.getD (l.length / 2) 0)
  else .val ((s.getD (l.length / 2 - 1) 0 + s.getD (l.length / 2) 0) / 2)

open Classical in
/-- `GaussianKernel.py:32-33`: the positive entries of the square matrix of Euclidean distances of the rows in `rows`. -/
noncomputable def posDists (X : Data n d) (rows : List (Fin n)) : List ℝ :=
  (rows.flatMap fun i => rows.map fun k => √(sqDist X i k)).filter fun t => decide (t > 0)

/-- `GaussianKernel.py:28-36` `set_width_median`; `sub` is `permutation(n)[:1000]`, used when there are more than 1000 samples. -/
noncomputable def widthMedian (sub : List (Fin n)) (X : Data n d) : Res ℝ :=
  (npMedian (posDists X (if n > 1000 then sub else List.finRange n))).bind fun m => .val (1 / (√2 * m) ^ 2)

/-- `GaussianKernel.py:50-59` `set_width_empirical_hsic`. -/
noncomputable def widthHsic (n d : Nat) : ℝ := 1 / (if n < 200 then (0.8 : ℝ) else if n < 1200 then 0.5 else 0.3) ^ 2 * d

/-- `GaussianKernel.py:39-48` `set_width_empirical_kci`. -/
noncomputable def widthKci (n d : Nat) : ℝ := 1 / (if n < 200 then (1.2 : ℝ) else if n < 1200 then 0.7 else 0.4) ^ 2 / d

/-- `GaussianKernel.py:11-13`: `GaussianKernel(width)` with a width given by the user; `None` raises (`KCI.py:107-111`), and so does the width 0. -/
noncomputable def widthManual : Option ℝ → Res ℝ
  | none => .raises
  | some w => if w = 0 then .raises else .val (1 / w ^ 2)

/-- `KCI.py:107-119` / `128-140`: the value of `kernel.width`, computed from the data *before* it is normalised. -/
noncomputable def thetaU (w : Width) (manual : Option ℝ) (sub : List (Fin n)) (X : Data n d) : Res ℝ :=
  match w with
  | .manual => widthManual manual
  | .median => widthMedian sub X
  | .empirical => .val (widthHsic n d)
  | .other => .raises

/-- The kernel matrix of the normalised data `Z` for a kernel kind whose Gaussian width is `θ` (`KCI.py:106-157`). -/
noncomputable def kernelOf (k : Kind) (θ : Res ℝ) (polyd : Nat) (Z : Data n d) : Res (Matrix (Fin n) (Fin n) ℝ) :=
  match k with
  | .gaussian => θ.bind fun t => .val (gaussK t Z)
  | .polynomial => .val (polyK polyd 1 Z)
  | .linear => .val (linK Z)
  | .other => .raises

/-- `Kernel.py:18-23` `centering_matrix`: `eye(n) - 1/n`. -/
noncomputable def centering (n : Nat) : Matrix (Fin n) (Fin n) ℝ := of fun i j => (if i = j then 1 else 0) - 1 / (n : ℝ)

/-- `Kernel.py:25-41` `center_kernel_matrix`; it uses the column sums for the rows too. -/
noncomputable def center (K : Matrix (Fin n) (Fin n) ℝ) : Matrix (Fin n) (Fin n) ℝ :=
  of fun i j => K i j - ((∑ k, K k j) + ∑ k, K k i) / n + (∑ l, ∑ k, K k l) / n ^ 2

/-- `np.sum(A * B)` (`KCI.py:175`, `508`). -/
noncomputable def sumProd (A B : Matrix (Fin n) (Fin n) ℝ) : ℝ := ∑ i, ∑ j, A i j * B i j

/-- `KCI.py:159-176` `HSIC_V_statistic`: the statistic. -/
noncomputable def hsicV (Kx Ky : Matrix (Fin n) (Fin n) ℝ) : ℝ := sumProd (center Kx) (center Ky)

/-- `KCI.py:232`: `mean_appr`. -/
noncomputable def meanAppr (Kx Ky : Matrix (Fin n) (Fin n) ℝ) : ℝ := trace Kx * trace Ky / n

/-- `KCI.py:233`: `var_appr`. -/
noncomputable def varAppr (Kx Ky : Matrix (Fin n) (Fin n) ℝ) : ℝ := 2 * (∑ i, ∑ j, Kx i j ^ 2) * (∑ i, ∑ j, Ky i j ^ 2) / n / n

/-- `KCI.py:234-236`, `594-598`: `k_appr`, `theta_appr` from mean and variance; `nan` when both are zero (`0/0`). The matrices are positive
semidefinite, so one of the two is zero only if the other is (C120). -/
noncomputable def gammaParams (mean var : ℝ) : Res (ℝ × ℝ) :=
  if mean = 0 ∨ var = 0 then .nan else .val (mean ^ 2 / var, var / mean)

/-- The arguments of `KCI_UInd` (`KCI.py:29-60`) together with `scipy`'s gamma distribution function `cdf x k θ`. -/
structure UCfg where
  kernelX : Kind
  kernelY : Kind
  width : Width
  polyd : Nat
  kwidthx : Option ℝ
  kwidthy : Option ℝ
  cdf : ℝ → ℝ → ℝ → ℝ

/-- `KCI.py:92-157` `kernel_matrix`. `subx`, `suby` are the random row samples of the median rule. -/
noncomputable def UCfg.kernels (c : UCfg) (subx suby : List (Fin n)) (X : Data n d) (Y : Data n e) :
    Res (Matrix (Fin n) (Fin n) ℝ × Matrix (Fin n) (Fin n) ℝ) :=
  (kernelOf c.kernelX (thetaU c.width c.kwidthx subx X) c.polyd (zscore X)).bind fun Kx =>
    (kernelOf c.kernelY (thetaU c.width c.kwidthy suby Y) c.polyd (zscore Y)).bind fun Ky => .val (Kx, Ky)

/-- `KCI.py:81-82`: the test statistic. -/
noncomputable def UCfg.stat (c : UCfg) (subx suby : List (Fin n)) (X : Data n d) (Y : Data n e) : Res ℝ :=
  (c.kernels subx suby X Y).bind fun K => .val (hsicV K.1 K.2)

/-- `KCI.py:84-86`: the p-value with the gamma approximation (`approx = True`). -/
noncomputable def UCfg.pApprox (c : UCfg) (subx suby : List (Fin n)) (X : Data n d) (Y : Data n e) : Res ℝ :=
  (c.kernels subx suby X Y).bind fun K =>
    (gammaParams (meanAppr (center K.1) (center K.2)) (varAppr (center K.1) (center K.2))).bind fun g =>
      .val (1 - c.cdf (hsicV K.1 K.2) g.1 g.2)

open Classical in
/-- `KCI.py:88-89`, `309-310`: the p-value from `nullss` simulated null statistics. -/
noncomputable def pSim (null : List ℝ) (stat : ℝ) : ℝ := ((null.filter fun t => decide (t > stat)).length : ℝ) / null.length

/-! ## The conditional test -/

/-- `Kernel.py:43-49` `center_kernel_matrix_regression`: `epsilon * pinv(Kz + epsilon * I)`. `pinv` of an invertible matrix is its inverse (and it is always applied to
an invertible one, C121). -/
noncomputable def regR (ε : ℝ) (Kz : Matrix (Fin n) (Fin n) ℝ) : Matrix (Fin n) (Fin n) ℝ := ε • (Kz + ε • 1)⁻¹

/-- `Kernel.py:43-49`: the first result, `Rz.dot(K.dot(Rz))`. -/
noncomputable def regCenter (ε : ℝ) (K Kz : Matrix (Fin n) (Fin n) ℝ) : Matrix (Fin n) (Fin n) ℝ := regR ε Kz * (K * regR ε Kz)

/-- `KCI.py:342`: `np.concatenate((data_x, 0.5 * data_z), axis=1)`. -/
noncomputable def joinHalf (X : Data n d) (Z : Data n e) : Data n (d + e) := fun i => Fin.append (X i) fun j => 0.5 * Z i j

/-- The arguments of `KCI_CInd` with `use_gp=False` (`KCI.py:249-286`). -/
structure CCfg where
  kernelX : Kind
  kernelY : Kind
  kernelZ : Kind
  width : Width
  polyd : Nat
  kwidthx : Option ℝ
  kwidthy : Option ℝ
  kwidthz : Option ℝ
  cdf : ℝ → ℝ → ℝ → ℝ

/-- `KCI.py:343-359`, `367-383`: the width for the (already normalised) data `X`; the empirical rule uses the shape of `Z`. -/
noncomputable def thetaC (w : Width) (manual : Option ℝ) (sub : List (Fin n)) (dz : Nat) (X : Data n d) : Res ℝ :=
  match w with
  | .manual => widthManual manual
  | .median => widthMedian sub X
  | .empirical => .val (widthKci n dz)
  | .other => .raises

/-- `KCI.py:399-410`: the width for the (already normalised) `Z`. An undefined width name does not raise here: the width stays that of `GaussianKernel()`, 1. -/
noncomputable def thetaZ (w : Width) (manual : Option ℝ) (sub : List (Fin n)) (Z : Data n d) : Res ℝ :=
  match w with
  | .manual => widthManual manual
  | .median => widthMedian sub Z
  | .empirical => .val (widthKci n d)
  | .other => .val 1

/-- `KCI.py:313-474` `kernel_matrix` with `use_gp=False`: `Kx`, `Ky`, `Kz`, all centred. `sub` are the random row samples of the median rule. -/
noncomputable def CCfg.kernels {dx dy dz : Nat} (c : CCfg) (sub : Fin 3 → List (Fin n)) (X : Data n dx) (Y : Data n dy) (Z : Data n dz) :
    Res (Matrix (Fin n) (Fin n) ℝ × Matrix (Fin n) (Fin n) ℝ × Matrix (Fin n) (Fin n) ℝ) :=
  let XZ := joinHalf (zscore X) (zscore Z)
  (kernelOf c.kernelX (thetaC c.width c.kwidthx (sub 0) dz XZ) c.polyd XZ).bind fun Kx =>
  (kernelOf c.kernelY (thetaC c.width c.kwidthy (sub 1) dz (zscore Y)) c.polyd (zscore Y)).bind fun Ky =>
  (kernelOf c.kernelZ (thetaZ c.width c.kwidthz (sub 2) (zscore Z)) c.polyd (zscore Z)).bind fun Kz =>
    .val (center Kx, center Ky, center Kz)

/-- `KCI.py:282-283`: `epsilon_x = epsilon_y = 1e-3`. -/
noncomputable def eps : ℝ := 1 / 1000

/-- `KCI.py:476-509` `KCI_V_statistic` (the branch without Gaussian process): the statistic of the regression-centred matrices. -/
noncomputable def kciV (Kx Ky Kz : Matrix (Fin n) (Fin n) ℝ) : ℝ := sumProd (regCenter eps Kx Kz) (regCenter eps Ky Kz)

/-- `KCI.py:302-303`: the statistic of the conditional test. -/
noncomputable def CCfg.stat {dx dy dz : Nat} (c : CCfg) (sub : Fin 3 → List (Fin n)) (X : Data n dx) (Y : Data n dy) (Z : Data n dz) : Res ℝ :=
  (c.kernels sub X Y Z).bind fun K => .val (kciV K.1 K.2.1 K.2.2)

open Classical in
/-- `KCI.py:526-539`: the eigenpairs with an eigenvalue above `1e-5` times the largest, the eigenvectors scaled by the square roots.
`eig` is what `eigh` returns, sorted. -/
noncomputable def scaled (eig : List (ℝ × (Fin n → ℝ))) : List (Fin n → ℝ) :=
  (eig.filter fun p => decide (p.1 > ((eig.map Prod.fst).foldl max (((eig.map Prod.fst).head?).getD 0)) * (1 / 100000))).map
    fun p => fun i => p.2 i * √p.1

/-- `KCI.py:542-549`: the columns of `uu`, the products of the scaled eigenvectors. -/
noncomputable def uuCols (vx vy : List (Fin n → ℝ)) : List (Fin n → ℝ) := vx.flatMap fun a => vy.map fun b => fun i => a i * b i

/-- `KCI.py:552`: `uu.dot(uu.T)`. -/
noncomputable def uuOuter (cols : List (Fin n → ℝ)) (i j : Fin n) : ℝ := (cols.map fun c => c i * c j).sum

/-- `KCI.py:554`: `uu.T.dot(uu)`, entry `(c, c')`. -/
noncomputable def uuInner (c c' : Fin n → ℝ) : ℝ := ∑ i, c i * c' i

/-- `KCI.py:551-554` and `594-595`: `trace(uu_prod)` and `2 * trace(uu_prod.dot(uu_prod))`, for the matrix of either branch. -/
noncomputable def uuMoments (cols : List (Fin n → ℝ)) : ℝ × ℝ :=
  if cols.length > n then (∑ i, uuOuter cols i i, 2 * ∑ i, ∑ j, uuOuter cols i j * uuOuter cols j i)
  else ((cols.map fun c => uuInner c c).sum, 2 * (cols.map fun c => (cols.map fun c' => uuInner c c' * uuInner c' c).sum).sum)

/-- `KCI.py:302-307`: the p-value of the conditional test with the gamma approximation; `eig` stands for `eigh` of a symmetric matrix. -/
noncomputable def CCfg.pApprox {dx dy dz : Nat} (c : CCfg) (eig : Matrix (Fin n) (Fin n) ℝ → List (ℝ × (Fin n → ℝ))) (sub : Fin 3 → List (Fin n))
    (X : Data n dx) (Y : Data n dy) (Z : Data n dz) : Res ℝ :=
  (c.kernels sub X Y Z).bind fun K =>
    let KxR := regCenter eps K.1 K.2.2
    let KyR := regCenter eps K.2.1 K.2.2
    let m := uuMoments (uuCols (scaled (eig ((1 / 2 : ℝ) • (KxR + KxRᵀ)))) (scaled (eig ((1 / 2 : ℝ) • (KyR + KyRᵀ)))))
    (gammaParams m.1 m.2).bind fun g => .val (1 - c.cdf (kciV K.1 K.2.1 K.2.2) g.1 g.2)

/-! ## `lingam/hsic.py` and `lingam/hsic2.py` -/

/-- `hsic.py:58-62` `_rbf_dot_XX`, `hsic2.py:65-79` `rbf_dot(X, X, width)`. -/
noncomputable def rbfDot (X : Data n d) (width : ℝ) : Matrix (Fin n) (Fin n) ℝ :=
  of fun i k => Real.exp (-((∑ j, X k j * X k j) + (∑ j, X i j * X i j) - 2 * ∑ j, X i j * X k j) / 2 / width ^ 2)

/-- `hsic.py:64-89` `get_gram_matrix`: the centred matrix. -/
noncomputable def gramCenter (K : Matrix (Fin n) (Fin n) ℝ) : Matrix (Fin n) (Fin n) ℝ :=
  of fun i j => K i j - ((∑ k, K k j) + ∑ k, K i k) / n + (∑ l, ∑ k, K l k) / n ^ 2

/-- `hsic2.py:82-91`, `114-122`: the centred matrix `H K H`. -/
noncomputable def gamCenter (K : Matrix (Fin n) (Fin n) ℝ) : Matrix (Fin n) (Fin n) ℝ := (centering n * K) * centering n

/-- `hsic.py:92-109` `hsic_teststat`. -/
noncomputable def testStat (Kc Lc : Matrix (Fin n) (Fin n) ℝ) : ℝ := 1 / n * ∑ i, ∑ j, Kcᵀ i j * Lc i j

/-- `hsic.py:158-162`: the variance under the null hypothesis, from the centred matrices. -/
noncomputable def gammaVar (Kc Lc : Matrix (Fin n) (Fin n) ℝ) : ℝ :=
  72 * ((n : ℝ) - 4) * (n - 5) / n / (n - 1) / (n - 2) / (n - 3) *
    (1 / n / (n - 1) * ((∑ i, ∑ j, (1 / 6 * Kc i j * Lc i j) ^ 2) - ∑ i, (1 / 6 * Kc i i * Lc i i) ^ 2))

/-- `hsic.py:164-169`: the mean under the null hypothesis; the diagonals are overwritten with zeros. -/
noncomputable def gammaMean (K L : Matrix (Fin n) (Fin n) ℝ) : ℝ :=
  let mu := fun M : Matrix (Fin n) (Fin n) ℝ => 1 / n / ((n : ℝ) - 1) * ∑ i, ∑ j, if i = j then 0 else M i j
  1 / n * (1 + mu K * mu L - mu K - mu L)

/-- `hsic.py:112-176` `hsic_test_gamma`: statistic and the two parameters of the gamma distribution, for given kernel widths. -/
noncomputable def hsicTest (X : Data n d) (Y : Data n e) (wx wy : ℝ) : ℝ × ℝ × ℝ :=
  let K := rbfDot X wx
  let L := rbfDot Y wy
  let var := gammaVar (gramCenter K) (gramCenter L)
  let mean := gammaMean K L
  (testStat (gramCenter K) (gramCenter L), mean ^ 2 / var, var * n / mean)

/-- `hsic2.py:94-155` `hsic_gam` with `kwdth` and the widths given: statistic, `al`, `bet`. -/
noncomputable def hsicGam (X : Data n d) (Y : Data n e) (wx wy : ℝ) : ℝ × ℝ × ℝ :=
  let K := rbfDot X wx
  let L := rbfDot Y wy
  let Kc := gamCenter K
  let Lc := gamCenter L
  let v := fun i j => (Kc i j * Lc i j / 6) ^ 2
  let var := ((∑ i, ∑ j, v i j) - ∑ i, v i i) / n / ((n : ℝ) - 1) * 72 * (n - 4) * (n - 5) / n / (n - 1) / (n - 2) / (n - 3)
  let mu := fun M : Matrix (Fin n) (Fin n) ℝ => (∑ j, (∑ i, (M i j - (if i = j then M i j else 0))) * 1) / n / ((n : ℝ) - 1)
  let mean := (1 + mu K * mu L - mu K - mu L) / n
  ((∑ i, ∑ j, Kcᵀ i j * Lc i j) / n, mean ^ 2 / var, var * n / mean)

/-! ## `CIT(data, "kci", **kwargs)` -/

/-- `cit.py:232-234`: the keyword arguments handed on to `KCI_CInd`. -/
def cindKeys : List String :=
  ["kernelX", "kernelY", "kernelZ", "null_ss", "approx", "use_gp", "est_width", "polyd", "kwidthx", "kwidthy", "kwidthz"]

/-- `cit.py:230-231`: the keyword arguments handed on to `KCI_UInd`. -/
def uindKeys : List String := ["kernelX", "kernelY", "null_ss", "approx", "est_width", "polyd", "kwidthx", "kwidthy"]

/-- `KCI.py:249-250`: the parameters of `KCI_CInd.__init__`. -/
def cindParams : List String :=
  ["kernelX", "kernelY", "kernelZ", "nullss", "est_width", "use_gp", "approx", "polyd", "kwidthx", "kwidthy", "kwidthz"]

/-- `KCI.py:29-30`: the parameters of `KCI_UInd.__init__`. -/
def uindParams : List String := ["kernelX", "kernelY", "null_ss", "approx", "est_width", "polyd", "kwidthx", "kwidthy"]

/-- `cit.py:228-239`: whether the constructor gets past the two constructor calls (Python raises a `TypeError` for an unknown keyword). -/
def citKciOk (kwargs : List String) : Bool :=
  (kwargs.filter (· ∈ uindKeys)).all (· ∈ uindParams) && (kwargs.filter (· ∈ cindKeys)).all (· ∈ cindParams)

end Kci
end CL
