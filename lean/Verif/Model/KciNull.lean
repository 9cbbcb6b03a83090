import Verif.Model.Kci

/-!
# Model of the simulated null distribution of the kernel tests (`approx = False`): `utils/KCI/KCI.py:84-90`, `178-208`, `302-311`, `558-580`

`eigvalsh` is an argument: the list of eigenvalues it returns. The draws `numpy.random.chisquare(1, ...)` are an argument as well: `f r k` is row `r`, column `k` of `f_rand`.
-/
namespace CL
namespace Kci
open Matrix
variable {n d e : Nat}

/-- `-np.sort(-lambda)` (`KCI.py:199-200`, `574`). -/
noncomputable def sortDown (l : List ℝ) : List ℝ := l.insertionSort (· ≥ ·)

/-- `KCI.py:192-196`: `num_eig`. -/
def numEig (T : Nat) : Nat := if T > 1000 then T / 2 else T

/-- `np.max` of a nonempty array. -/
noncomputable def npMax (l : List ℝ) : ℝ := l.foldl max (l.head?.getD 0)

open Classical in
/-- `lambda_prod[lambda_prod > lambda_prod.max() * self.thresh]` (`KCI.py:205`), `eig_uu[eig_uu > np.max(eig_uu) * self.thresh]` (`576`); the maximum of an empty array raises. -/
noncomputable def cutOff (thresh : ℝ) (l : List ℝ) : Res (List ℝ) :=
  if l = [] then .raises else .val (l.filter fun t => decide (t > npMax l * thresh))

/-- `KCI.py:201-204`: all products of a leading eigenvalue of one matrix with one of the other. -/
noncomputable def lambdaProd (T : Nat) (lx ly : List ℝ) : List ℝ :=
  ((sortDown lx).take (numEig T)).flatMap fun a => ((sortDown ly).take (numEig T)).map fun b => a * b

/-- `KCI.py:178-208` `KCI_UInd.null_sample_spectral`: the weights `lambda_prod / T` of the chi-squared draws; `thresh` is `1e-6` (`KCI.py:59`). -/
noncomputable def weightsU (T : Nat) (lx ly : List ℝ) : Res (List ℝ) :=
  (cutOff (1 / 1000000) (lambdaProd T lx ly)).bind fun l => .val (l.map fun t => t / T)

/-- `KCI.py:558-580` `KCI_CInd.null_sample_spectral`: the weights; `eigs` are the eigenvalues of `uu_prod`, `thresh` is `1e-5` (`KCI.py:285`). -/
noncomputable def weightsC (T sizeU : Nat) (eigs : List ℝ) : Res (List ℝ) := cutOff (1 / 100000) ((sortDown eigs).take (min T sizeU))

/-- `KCI.py:207`, `579`: `weights.T.dot(f_rand)`, one column. -/
noncomputable def nullDraw (w : List ℝ) (f : Nat → ℝ) : ℝ := ∑ r : Fin w.length, w[r] * f r

/-- `KCI.py:84-90` with `approx = False`: the p-value of the unconditional test. `eigvals` stands for `eigvalsh`. (With `null_ss = 1` the code raises, as
`squeeze` leaves a scalar; this is not modelled.) -/
noncomputable def UCfg.pSpectral (c : UCfg) (eigvals : Matrix (Fin n) (Fin n) ℝ → List ℝ) (subx suby : List (Fin n)) (nullss : Nat) (f : Nat → Nat → ℝ)
    (X : Data n d) (Y : Data n e) : Res ℝ :=
  (c.kernels subx suby X Y).bind fun K =>
    (weightsU n (eigvals (center K.1)) (eigvals (center K.2))).bind fun w =>
      .val (pSim ((List.range nullss).map fun k => nullDraw w fun r => f r k) (hsicV K.1 K.2))

/-- `KCI.py:302-311` with `approx = False`: the p-value of the conditional test. `eig` is `eigh`; `eigUU` gives the eigenvalues of `uu_prod` (of whichever shape) from the columns of `uu`. -/
noncomputable def CCfg.pSpectral {dx dy dz : Nat} (c : CCfg) (eig : Matrix (Fin n) (Fin n) ℝ → List (ℝ × (Fin n → ℝ))) (eigUU : List (Fin n → ℝ) → List ℝ)
    (sub : Fin 3 → List (Fin n)) (nullss : Nat) (f : Nat → Nat → ℝ) (X : Data n dx) (Y : Data n dy) (Z : Data n dz) : Res ℝ :=
  (c.kernels sub X Y Z).bind fun K =>
    let KxR := regCenter eps K.1 K.2.2
    let KyR := regCenter eps K.2.1 K.2.2
    let cols := uuCols (scaled (eig ((1 / 2 : ℝ) • (KxR + KxRᵀ)))) (scaled (eig ((1 / 2 : ℝ) • (KyR + KyRᵀ))))
    (weightsC n cols.length (eigUU cols)).bind fun w =>
      .val (pSim ((List.range nullss).map fun k => nullDraw w fun r => f r k) (kciV K.1 K.2.1 K.2.2))

end Kci
end CL
