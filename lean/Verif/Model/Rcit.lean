import Verif.Model.Kci
import Mathlib.Analysis.SpecialFunctions.Trigonometric.Basic

/-!
# Model of `utils/RCIT/RCIT.py`

Real numbers. The random draws, `eigh`, `pinv`, and the approximations of the distribution of weighted sums of chi-squares (package `momentchi2`) are arguments. The result `nan` stands
for "no number": numpy's `nan`, or the `LinAlgError` that LAPACK raises on a matrix of `nan`s.
-/
namespace CL.Rcit
open Kci Matrix
variable {n d e dz f g : Nat}

open Classical in
/-- `RCIT.py:64-66`, `82-84`, `272-273`, `284-285`: `(x - x.mean(axis=0)) / x.std(axis=0, ddof=1)`; a column with deviation zero gives `0/0`. -/
noncomputable def standardise (X : Data n d) : Res (Data n d) := if ∃ j, colVar X j = 0 then .nan else .val (zscore X)

/-- `RCIT.py:61-62`, `71-76`, `269-270`, `275-280`: the median of the non-zero distances of the first 500 samples. -/
noncomputable def sigma (X : Data n d) : Res ℝ := npMedian (posDists X ((List.finRange n).take (if n > 500 then 500 else n)))

/-- The random numbers of `random_fourier_features` (`RCIT.py:190-191`): normal `w` and uniform `u`. -/
structure Draw (f d : Nat) where
  w : Fin f → Fin d → ℝ
  u : Fin f → ℝ

/-- `RCIT.py:159-196`, `339-376` `random_fourier_features`: `sqrt(2) * cos(w x + b)` with `w = normal / sigma` and `b = 2 pi uniform`. The width is a median of non-zero distances, so the branch
`sigma == 0` is not taken. -/
noncomputable def fourier (D : Draw f d) (σ : ℝ) (X : Data n d) : Data n f :=
  fun i k => √2 * Real.cos ((∑ c, 1 / σ * D.w k c * X i c) + 2 * Real.pi * D.u k)

/-- `RCIT.py:71-84`, `275-285`: the standardised features of a standardised variable. -/
noncomputable def features (D : Draw f d) (X : Data n d) : Res (Data n f) := (sigma X).bind fun σ => standardise (fourier D σ X)

/-- `RCIT.py:198-223`, `378-403` `matrix_cov`. -/
noncomputable def matrixCov (A : Data n f) (B : Data n g) : Matrix (Fin f) (Fin g) ℝ :=
  of fun a b => (∑ i, (A i a - colMean A a) * (B i b - colMean B b)) / ((n : ℝ) - 1)

/-- `RCIT.py:86`, `94-95`: `A.T @ B / (n - 1)`. -/
noncomputable def crossProd (A : Data n f) (B : Data n g) : Matrix (Fin f) (Fin g) ℝ := of fun a b => (∑ i, A i a * B i b) / ((n : ℝ) - 1)

/-- `RCIT.py:109`, `124`, `288`: `r * np.sum(C ** 2)`. -/
noncomputable def frob (n : Nat) (C : Matrix (Fin f) (Fin g) ℝ) : ℝ := n * ∑ a, ∑ b, C a b ^ 2

/-- `RCIT.py:126-128`, `306-308`: `Cov = 1/r * res.T @ res`, the columns of `res` being the products of the columns of the two arguments. -/
noncomputable def prodCov (A : Data n f) (B : Data n g) : Matrix (Fin f × Fin g) (Fin f × Fin g) ℝ :=
  of fun x y => 1 / n * ∑ i, A i x.1 * B i x.2 * (A i y.1 * B i y.2)

/-- The argument `approx`; `other` is any other string, for which `p` is never assigned. -/
inductive Approx | lpd4 | hbe | gamma | chi2 | perm | other
  deriving DecidableEq

/-- What comes from libraries: `chi2.cdf`, `momentchi2.sw`, `hbe`, `lpb4` (which may raise), the eigenvalues `eigh` and the pseudo-inverse `pinv`. -/
structure Lib (f g : Nat) where
  chi2 : ℝ → Nat → ℝ
  sw : List ℝ → ℝ → Res ℝ
  hbe : List ℝ → ℝ → Res ℝ
  lpb4 : List ℝ → ℝ → Res ℝ
  eigs : Matrix (Fin f × Fin g) (Fin f × Fin g) ℝ → List ℝ
  pinv : Matrix (Fin f × Fin g) (Fin f × Fin g) ℝ → Matrix (Fin f × Fin g) (Fin f × Fin g) ℝ

/-- `RCIT.py:154-155`, `334-335`: `if p < 0: p = 0`. -/
noncomputable def clamp (p : ℝ) : ℝ := if p < 0 then 0 else p

/-- `1 - cdf`. -/
def compl (r : Res ℝ) : Res ℝ := r.bind fun c => .val (1 - c)

/-- `RCIT.py:146-152`, `326-332`: `lpb4`, and `hbe` if that raises or gives `nan`. -/
def lpd4 {f g : Nat} (L : Lib f g) (l : List ℝ) (sta : ℝ) : Res ℝ :=
  match L.lpb4 l sta with
  | .val c => .val (1 - c)
  | _ => compl (L.hbe l sta)

/-- `RCIT.py:133`, `313`: `r * v.T pinv(Cov) v` for the flattened matrix `v`. -/
noncomputable def chi2Stat (L : Lib f g) (n : Nat) (C : Matrix (Fin f) (Fin g) ℝ) (cov : Matrix (Fin f × Fin g) (Fin f × Fin g) ℝ) : ℝ :=
  n * ∑ x : Fin f × Fin g, C x.1 x.2 * ∑ y : Fin f × Fin g, L.pinv cov x y * C y.1 y.2

open Classical in
/-- `RCIT.py:120`, `300`: `1 - np.sum(sta >= stas) / len(stas)`. -/
noncomputable def permP (sta : ℝ) (stas : List ℝ) : ℝ := 1 - ((stas.filter fun s => decide (sta ≥ s)).length : ℝ) / stas.length

open Classical in
/-- `RCIT.py:122-157`, `302-337`: p-value and statistic for the analytic approximations, from the matrix `C` and the residuals. -/
noncomputable def analytic (L : Lib f g) (a : Approx) (n : Nat) (C : Matrix (Fin f) (Fin g) ℝ) (cov : Matrix (Fin f × Fin g) (Fin f × Fin g) ℝ) : Res (ℝ × ℝ) :=
  match a with
  | .chi2 => .val (clamp (1 - L.chi2 (chi2Stat L n C cov) (f * g)), chi2Stat L n C cov)
  | .gamma => (compl (L.sw ((L.eigs cov).filter fun t => decide (t > 0)) (frob n C))).bind fun p => .val (clamp p, frob n C)
  | .hbe => (compl (L.hbe ((L.eigs cov).filter fun t => decide (t > 0)) (frob n C))).bind fun p => .val (clamp p, frob n C)
  | .lpd4 => (lpd4 L ((L.eigs cov).filter fun t => decide (t > 0)) (frob n C)).bind fun p => .val (clamp p, frob n C)
  | _ => .raises

/-- `RCIT.py:107-120`, `290-300`: the permutation test; `perms` are the random permutations. -/
noncomputable def permTest (perms : List (Fin n → Fin n)) (A : Data n f) (B : Data n g) : ℝ × ℝ :=
  (clamp (permP (frob n (matrixCov A B)) (perms.map fun σ => frob n (matrixCov (fun i => A (σ i)) B))), frob n (matrixCov A B))

/-- `x - x.mean(axis=0)` (`RCIT.py:303-304`). -/
noncomputable def centred (A : Data n f) : Data n f := fun i a => A i a - colMean A a

/-- `RCIT.py:286-337`: the unconditional test on the features. -/
noncomputable def ritFeatures (L : Lib f g) (a : Approx) (perms : List (Fin n → Fin n)) (fx : Data n f) (fy : Data n g) : Res (ℝ × ℝ) :=
  if a = .perm then .val (permTest perms fx fy)
  else analytic L a n (matrixCov fx fy) (prodCov (centred fx) (centred fy))

/-- `RCIT.py:253-337` `RIT.compute_pvalue` (five features each): p-value and statistic. -/
noncomputable def rit (L : Lib 5 5) (a : Approx) (perms : List (Fin n → Fin n)) (Dx : Draw 5 d) (Dy : Draw 5 e) (X : Data n d) (Y : Data n e) : Res (ℝ × ℝ) :=
  (standardise X).bind fun X => (standardise Y).bind fun Y =>
    (features Dx X).bind fun fx => (features Dy Y).bind fun fy => ritFeatures L a perms fx fy

/-! ## Conditional test -/

/-- `RCIT.py:88-92`: the inverse of `Czz + 1e-10 I`, computed as `inv(L).T inv(L)` with the Cholesky factor `L` (C173: the factor exists and this is the inverse). -/
noncomputable def iCzz (fz : Data n dz) : Matrix (Fin dz) (Fin dz) ℝ := (matrixCov fz fz + (1 / 10 ^ 10 : ℝ) • 1)⁻¹

/-- `RCIT.py:97-102`: `f - f_z @ i_Czz @ C` with `C` the cross products of `f_z` and `f`. -/
noncomputable def resid (fz : Data n dz) (A : Data n f) : Data n f :=
  fun i a => A i a - ∑ c, (∑ b, fz i b * iCzz fz b c) * crossProd fz A c a

/-- `RCIT.py:123`: `Cxy - Cxz @ i_Czz @ Czy`. -/
noncomputable def condCov (fx : Data n f) (fy : Data n g) (fz : Data n dz) : Matrix (Fin f) (Fin g) ℝ :=
  crossProd fx fy - crossProd fx fz * iCzz fz * crossProd fz fy

/-- `RCIT.py:104-105`: the approximation used; a single feature forces `hbe`. -/
def chosen (f : Nat) (a : Approx) : Approx := if f = 1 then .hbe else a

/-- `RCIT.py:86-157`: the conditional test on the features. -/
noncomputable def rcitFeatures (L : Lib f f) (a : Approx) (perms : List (Fin n → Fin n)) (fx fy : Data n f) (fz : Data n dz) : Res (ℝ × ℝ) :=
  if chosen f a = .perm then .val (permTest perms (resid fz fx) (resid fz fy))
  else analytic L (chosen f a) n (condCov fx fy fz) (prodCov (resid fz fx) (resid fz fy))

/-- `RCIT.py:78-157`: from the standardised variables on (`Y` already extended). -/
noncomputable def rcitCore (L : Lib f f) (a : Approx) (perms : List (Fin n → Fin n)) (Dx : Draw f d) (Dy : Draw f e) (Dz : Draw g dz) (X : Data n d) (Y : Data n e) (Z : Data n dz) :
    Res (ℝ × ℝ) :=
  (features Dx X).bind fun fx => (features Dy Y).bind fun fy => (features Dz Z).bind fun fz => rcitFeatures L a perms fx fy fz

/-- `RCIT.py:43-157` `RCIT(rcit=True).compute_pvalue`: `Y` is extended by `Z` (lines 68-69). `f` is `num_f2`, `g` is `num_f`. -/
noncomputable def rcit (L : Lib f f) (a : Approx) (perms : List (Fin n → Fin n)) (Dx : Draw f d) (Dy : Draw f (e + dz)) (Dz : Draw g dz) (X : Data n d) (Y : Data n e) (Z : Data n dz) :
    Res (ℝ × ℝ) :=
  (standardise X).bind fun X => (standardise Y).bind fun Y => (standardise Z).bind fun Z => rcitCore L a perms Dx Dy Dz X (fun i => Fin.append (Y i) (Z i)) Z

/-- `RCIT.py:43-157` `RCIT(rcit=False).compute_pvalue` (RCoT). -/
noncomputable def rcot (L : Lib f f) (a : Approx) (perms : List (Fin n → Fin n)) (Dx : Draw f d) (Dy : Draw f e) (Dz : Draw g dz) (X : Data n d) (Y : Data n e) (Z : Data n dz) :
    Res (ℝ × ℝ) :=
  (standardise X).bind fun X => (standardise Y).bind fun Y => (standardise Z).bind fun Z => rcitCore L a perms Dx Dy Dz X Y Z

end CL.Rcit
