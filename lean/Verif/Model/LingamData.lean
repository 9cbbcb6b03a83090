import Verif.Model.Lingam
import Mathlib.Analysis.SpecialFunctions.Log.Basic
import Mathlib.Analysis.SpecialFunctions.Trigonometric.Basic
import Mathlib.Analysis.Complex.Trigonometric
import Mathlib.Analysis.Matrix.Spectrum
import Mathlib.LinearAlgebra.Matrix.SchurComplement

/-!
# Model of the numerical part of `direct_lingam.py` and of `multi_group_direct_lingam.py`

`Verif/Model/Lingam.lean` models the control flow of `DirectLiNGAM.fit` for an arbitrary independence measure. Here the two measures of the code are
defined on data. Numbers are real numbers; a column is a function of the sample number. Division by zero (a constant column) gives `nan` in numpy and `0` in
Lean.
-/
namespace CL.Lingam
noncomputable section
variable {n : Nat}

/-- One column of the data, `X[:, i]`. -/
abbrev Col (n : Nat) := Fin n → ℝ

/-- `np.mean`. -/
def mean (x : Col n) : ℝ := (∑ s, x s) / n

/-- `np.var` (`ddof=0`). -/
def var (x : Col n) : ℝ := (∑ s, (x s - mean x) ^ 2) / n

/-- `np.std` (`ddof=0`). -/
def std (x : Col n) : ℝ := √(var x)

/-- `np.cov(x, y)[0, 1]` (`ddof=1`, the default of `np.cov`). -/
def cov (x y : Col n) : ℝ := (∑ s, (x s - mean x) * (y s - mean y)) / ((n : ℝ) - 1)

/-- `direct_lingam.py:135-137` `_residual`. -/
def residual (xi xj : Col n) : Col n := fun s => xi s - cov xi xj / var xj * xj s

/-- `direct_lingam.py:139-146` `_entropy`. -/
def entropy (u : Col n) : ℝ :=
  (1 + Real.log (2 * Real.pi)) / 2 - 79.047 * (mean (fun s => Real.log (Real.cosh (u s))) - 0.37457) ^ 2 -
    7.4129 * (mean fun s => u s * Real.exp (-(u s) ^ 2 / 2)) ^ 2

/-- `u / np.std(u)` (`direct_lingam.py:150-151`). -/
def overStd (u : Col n) : Col n := fun s => u s / std u

/-- `direct_lingam.py:148-151` `_diff_mutual_info`. -/
def diffMI (xi xj ri rj : Col n) : ℝ := entropy xj + entropy (overStd ri) - (entropy xi + entropy (overStd rj))

/-- `direct_lingam.py:206-207`: `(x - np.mean(x)) / np.std(x)`. -/
def standardize (x : Col n) : Col n := fun s => (x s - mean x) / std x

/-- `direct_lingam.py:186-192`: the set `Vj` that `_search_candidate` returns (empty without prior knowledge, 156-157, and for hard prior knowledge, 160-162). -/
def searchVj (M : Model) (U : List Nat) : List Nat :=
  match M.aknw with
  | none => []
  | some pk =>
    if !M.soft then []
    else U.filter fun i => i ∉ searchCandidate M U ∧ (searchCandidate M U).all fun u => pk i u = some 0

/-- `direct_lingam.py:208-209`: `ri_j` (with the arguments exchanged it is `rj_i`, 210-211). -/
def pairResidual (uc vj : List Nat) (X : Nat → Col n) (i j : Nat) : Col n :=
  if i ∈ vj ∧ j ∈ uc then standardize (X i) else residual (standardize (X i)) (standardize (X j))

/-- `direct_lingam.py:212-213`: what the pair `i`, `j` adds to `M`. -/
def pairTerm (uc vj : List Nat) (X : Nat → Col n) (i j : Nat) : ℝ :=
  (min 0 (diffMI (standardize (X i)) (standardize (X j)) (pairResidual uc vj X i j) (pairResidual uc vj X j i))) ^ 2

/-- `direct_lingam.py:203-213`: `M` for candidate `i`. -/
def pwSum (M : Model) (X : Nat → Col n) (U : List Nat) (i : Nat) : ℝ :=
  ((U.filter (· ≠ i)).map (pairTerm (searchCandidate M U) (searchVj M U) X i)).sum

/-- `direct_lingam.py:91-93`: the columns of `U` other than `m` are replaced by their residuals on column `m`. -/
def removeEffect (X : Nat → Col n) (U : List Nat) (m : Nat) : Nat → Col n :=
  fun i => if i ∈ U ∧ i ≠ m then residual (X i) (X m) else X i

/-- `direct_lingam.py:82-94`: the data `X_` after the variables of the list have been chosen, in this order, from `U`. -/
def stage (X : Nat → Col n) : List Nat → List Nat → (Nat → Col n)
  | _, [] => X
  | U, m :: K => stage (removeEffect X U m) (U.filter (· ≠ m)) K

/-- `direct_lingam.py:195-214`: the entry of `M_list` for candidate `i` when `K` has been chosen and `U` is left (`p` variables). For soft prior knowledge
candidates depend on the prior only, and for hard prior knowledge `Vj` is empty, so the object `M` at the beginning of `fit` determines the measure. -/
def pwScore (p : Nat) (M : Model) (X : Nat → Col n) (K U : List Nat) (i : Nat) : ℝ :=
  -1 * pwSum M (stage X (List.range p) K) U i

/-- `direct_lingam.py:57-100` `fit(X)` with `measure='pwling'`: the changed object and the causal order. -/
def directOrder (p : Nat) (M : Model) (X : Nat → Col n) : Option (Model × List Nat) := fitOrder (pwScore p M X) p M

/-! ## The kernel measure -/

/-- `direct_lingam.py:221-222`: `K1` of `_mutual_information` (`X1[s, t] = x[t]`). -/
def gramK (σ : ℝ) (x : Col n) : Matrix (Fin n) (Fin n) ℝ :=
  Matrix.of fun s t => Real.exp (-1 / (2 * σ ^ 2) * (x t ^ 2 + x s ^ 2 - 2 * x t * x s))

/-- `direct_lingam.py:226`: `tmp1`. -/
def ridge (κ : ℝ) (A : Matrix (Fin n) (Fin n) ℝ) : Matrix (Fin n) (Fin n) ℝ := A + ((n : ℝ) * κ / 2) • (1 : Matrix (Fin n) (Fin n) ℝ)

/-- `direct_lingam.py:228-229`: `K_kappa`. -/
def kKappa (κ : ℝ) (A B : Matrix (Fin n) (Fin n) ℝ) : Matrix (Fin n ⊕ Fin n) (Fin n ⊕ Fin n) ℝ :=
  Matrix.fromBlocks (ridge κ A * ridge κ A) (A * B) (B * A) (ridge κ B * ridge κ B)

/-- `direct_lingam.py:230-231`: `D_kappa`. -/
def dKappa (κ : ℝ) (A B : Matrix (Fin n) (Fin n) ℝ) : Matrix (Fin n ⊕ Fin n) (Fin n ⊕ Fin n) ℝ :=
  Matrix.fromBlocks (ridge κ A * ridge κ A) 0 0 (ridge κ B * ridge κ B)

/-- `direct_lingam.py:233-236`: the sum of the logarithms of the singular values, the square roots of the eigenvalues of `Aᵀ A`. -/
def sumLogSv {ι : Type} [Fintype ι] [DecidableEq ι] (A : Matrix ι ι ℝ) : ℝ :=
  ∑ i, Real.log (√((Matrix.isHermitian_conjTranspose_mul_self A).eigenvalues i))

/-- `direct_lingam.py:217-236` `_mutual_information`, `param = [κ, σ]`. -/
def mutualInfo (κ σ : ℝ) (x1 x2 : Col n) : ℝ :=
  -1 / 2 * (sumLogSv (kKappa κ (gramK σ x1) (gramK σ x2)) - sumLogSv (dKappa κ (gramK σ x1) (gramK σ x2)))

/-- `direct_lingam.py:244-247`: `param`. -/
def kernelKappa (n : Nat) : ℝ := if 1000 < n then 2e-3 else 2e-2

/-- `direct_lingam.py:244-247`: `param`. -/
def kernelSigma (n : Nat) : ℝ := if 1000 < n then 0.5 else 1.0

/-- `direct_lingam.py:254-255`: `ri_j` for candidate `j`. -/
def kernelResidual (uc vj : List Nat) (X : Nat → Col n) (i j : Nat) : Col n :=
  if j ∈ vj ∧ i ∈ uc then X i else residual (X i) (X j)

/-- `direct_lingam.py:250-257`: `Tkernel` for candidate `j`. -/
def kernelSum (M : Model) (X : Nat → Col n) (U : List Nat) (j : Nat) : ℝ :=
  ((U.filter (· ≠ j)).map fun i => mutualInfo (kernelKappa n) (kernelSigma n) (X j)
    (kernelResidual (searchCandidate M U) (searchVj M U) X i j)).sum

/-- `sklearn.preprocessing.scale` of one column (`direct_lingam.py:83-84`): a column without variance is only centred. -/
def scaleCol (x : Col n) : Col n := fun s => if std x = 0 then x s - mean x else (x s - mean x) / std x

/-- `direct_lingam.py:238-259`: the first minimal `Tkernel` is the first maximal negated one. -/
def kernelScore (p : Nat) (M : Model) (X : Nat → Col n) (K U : List Nat) (j : Nat) : ℝ :=
  -kernelSum M (stage (fun i => scaleCol (X i)) (List.range p) K) U j

/-- `direct_lingam.py:57-100` `fit(X)` with `measure='kernel'`. -/
def kernelOrder (p : Nat) (M : Model) (X : Nat → Col n) : Option (Model × List Nat) := fitOrder (kernelScore p M X) p M

/-! ## `multi_group_direct_lingam.py` -/

/-- One data set of `X_list`: the number of samples and the columns. (Line 238 puts the data sets into one array; recent versions of numpy refuse this when the
numbers of samples differ. The model allows any numbers.) -/
structure Group where
  n : Nat
  col : Nat → Col n

/-- `multi_group_direct_lingam.py:246-248`: `total_size`. -/
def totalSize (Xs : List Group) : Nat := (Xs.map fun X => X.n).sum

/-- `multi_group_direct_lingam.py:252-265`: `MG` for candidate `i`. -/
def groupSum (M : Model) (Xs : List Group) (U : List Nat) (i : Nat) : ℝ :=
  (Xs.map fun X => pwSum M X.col U i * ((X.n : ℝ) / (totalSize Xs : ℝ))).sum

/-- `multi_group_direct_lingam.py:75-79`: every data set is replaced by its residuals. -/
def stageGroup (p : Nat) (K : List Nat) (X : Group) : Group := ⟨X.n, stage X.col (List.range p) K⟩

/-- `multi_group_direct_lingam.py:240-266`: the entry of `MG_list`. -/
def groupScore (p : Nat) (M : Model) (Xs : List Group) (K U : List Nat) (i : Nat) : ℝ :=
  -1 * groupSum M (Xs.map (stageGroup p K)) U i

/-- `multi_group_direct_lingam.py:46-85` `fit(X_list)`: the changed object and the common causal order; `none` is an exception. -/
def groupOrder (p : Nat) (M : Model) (Xs : List Group) : Option (Model × List Nat) :=
  if Xs.length < 2 then none else fitOrder (groupScore p M Xs) p M

/-- `multi_group_direct_lingam.py:87-91`: `fit(X_list)` with the list `adjacency_matrices_`; `coef X` is the adaptive lasso on data set `X`. -/
def groupFit {R : Type} [Zero R] (coef : Group → Nat → List Nat → Nat → R) (p : Nat) (M : Model) (Xs : List Group) :
    Option (Model × List Nat × List (Nat → Nat → R)) :=
  (groupOrder p M Xs).map fun r => (r.1, r.2, Xs.map fun X => estimateAdjacency (coef X) r.1.aknw r.2)

end
end CL.Lingam
