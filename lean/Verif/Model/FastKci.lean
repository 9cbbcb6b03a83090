import Verif.Model.Kci
import Verif.Model.Granger

/-!
# Model of `utils/FastKCI/FastKCI.py`

Real numbers. The random partition of the samples, the chi-square draws, `eigvalsh` and the log marginal likelihood of the Gaussian-process regressions are arguments.
The branch `use_gp=True` is not modelled.
-/
namespace CL.FastKci
open Kci Matrix
variable {n d e dz : Nat}

/-- `FastKCI.py:129`, `437` `K_mask = (Z_proposal == k)`: the samples with label `k`, in order. -/
def block (Z : Fin n → Nat) (k : Nat) : List (Fin n) := (List.finRange n).filter fun i => Z i = k

/-- `FastKCI.py:124`, `432` `np.unique(Z_proposal)`. -/
def labels (Z : Fin n → Nat) : List Nat := (((List.finRange n).map Z).dedup).insertionSort (· ≤ ·)

/-- `FastKCI.py:130-132`, `438-439`: the rows of a block. -/
def restrict (X : Data n d) (rows : List (Fin n)) : Data rows.length d := fun i => X (rows.get i)

/-! ## Without conditioning -/

/-- `FastKCI.py:459-475` `FastKCI_UInd.kernel_matrix`. -/
noncomputable def kernelU (X : Data n d) : Matrix (Fin n) (Fin n) ℝ := gaussK (widthHsic n d) (zscore X)

/-- `FastKCI.py:525-542` `HSIC_V_statistic` on a block (lines 441-447). -/
noncomputable def blockStatU (X : Data n d) (Y : Data n e) (rows : List (Fin n)) : ℝ :=
  hsicV (kernelU (restrict X rows)) (kernelU (restrict Y rows))

/-- `FastKCI.py:431-457` `FastKCI_UInd.pvalue_onblocks`: `test_stat`. -/
noncomputable def statU (X : Data n d) (Y : Data n e) (Z : Fin n → Nat) : ℝ := ((labels Z).map fun k => blockStatU X Y (block Z k)).sum

/-- `ndarray.max()` of a non-empty array (`FastKCI.py:520`). -/
noncomputable def maxL (l : List ℝ) : ℝ := l.foldl max (l.head?.getD 0)

/-- `FastKCI.py:507-511`: how many eigenvalues of a block of size `T` are used. -/
def numEig (T : Nat) : Nat := if T > 1000 then T / 2 else T

open Classical in
/-- `FastKCI.py:512-520` `null_sample_spectral`: the weights `lambda_prod`, from the eigenvalues of the two centred matrices. -/
noncomputable def lambdaProd (T : Nat) (lx ly : List ℝ) : List ℝ :=
  let sx := (lx.insertionSort (· ≥ ·)).take (numEig T)
  let sy := (ly.insertionSort (· ≥ ·)).take (numEig T)
  let p := sx.flatMap fun a => sy.map fun b => a * b
  p.filter fun t => decide (t > maxL p * (1 / 100000))

/-- `FastKCI.py:521-523`: the null statistic `s` of a block of size `T`, with weights `lam` and chi-square draws `f i s`. -/
noncomputable def spectral (T : Nat) (lam : List ℝ) (f : Nat → Nat → ℝ) (s : Nat) : ℝ := (lam.zipIdx.map fun p => p.1 * f p.2 s).sum / T

/-- `FastKCI.py:493-523`: the null statistic `s` of the block `rows`; `eigs` is `numpy.linalg.eigvalsh`, `f` the draws for this block. -/
noncomputable def blockNullU (eigs : (m : Nat) → Matrix (Fin m) (Fin m) ℝ → List ℝ) (X : Data n d) (Y : Data n e) (f : Nat → Nat → ℝ) (rows : List (Fin n)) (s : Nat) : ℝ :=
  spectral rows.length (lambdaProd rows.length (eigs _ (center (kernelU (restrict X rows)))) (eigs _ (center (kernelU (restrict Y rows))))) f s

/-- What a repetition gives (`FastKCI.py:145`, `457`): the statistic, the null statistics, the log-likelihood. -/
structure Rep where
  stat : ℝ
  null : Nat → ℝ
  ll : ℝ

/-- `FastKCI.py:431-457` `FastKCI_UInd.pvalue_onblocks` for the partition `Z`; `gp` is the log marginal likelihood of the regression of `X` on `Y` in a block, `f k` the draws for block `k`. -/
noncomputable def onBlocksU (eigs : (m : Nat) → Matrix (Fin m) (Fin m) ℝ → List ℝ) (gp : List (Fin n) → ℝ) (X : Data n d) (Y : Data n e) (f : Nat → Nat → Nat → ℝ)
    (Z : Fin n → Nat) : Rep :=
  ⟨statU X Y Z, fun s => ((labels Z).map fun k => blockNullU eigs X Y (f k) (block Z k) s).sum, ((labels Z).map fun k => gp (block Z k)).sum⟩

/-! ## With conditioning, `use_gp=False` -/

/-- `FastKCI.py:147-187` `FastKCI_CInd.kernel_matrix`: the centred matrices. -/
noncomputable def kernelsC (X : Data n d) (Y : Data n e) (Z : Data n dz) : Matrix (Fin n) (Fin n) ℝ × Matrix (Fin n) (Fin n) ℝ × Matrix (Fin n) (Fin n) ℝ :=
  (center (gaussK (widthKci n dz) (joinHalf (zscore X) (zscore Z))), center (gaussK (widthKci n dz) (zscore Y)), center (gaussK (widthKci n dz) (zscore Z)))

/-- `FastKCI.py:135-141`: the statistic of a block, `np.einsum('ij,ji->', KxR, KyR)` (both matrices are centred with the same `epsilon = 1e-3`, line 29). -/
noncomputable def blockStatC (X : Data n d) (Y : Data n e) (Z : Data n dz) (rows : List (Fin n)) : ℝ :=
  let K := kernelsC (restrict X rows) (restrict Y rows) (restrict Z rows)
  ∑ i, ∑ j, regCenter eps K.1 K.2.2 i j * (regR eps K.2.2 * (K.2.1 * regR eps K.2.2)) j i

/-- `FastKCI.py:124-134`: the blocks that are not skipped. -/
def bigBlocks (P : Fin n → Nat) : List (List (Fin n)) := ((labels P).map (block P)).filter fun rows => !decide (rows.length < 6)

/-- `FastKCI.py:110-145` `FastKCI_CInd.pvalue_onblocks` for the partition `P`; `null rows s` are the simulated null statistics of a block and `gp` its log-likelihood. -/
noncomputable def onBlocksC (gp : List (Fin n) → ℝ) (null : List (Fin n) → Nat → ℝ) (X : Data n d) (Y : Data n e) (Z : Data n dz) (P : Fin n → Nat) : Rep :=
  ⟨((bigBlocks P).map (blockStatC X Y Z)).sum, fun s => ((bigBlocks P).map fun rows => null rows s).sum, ((bigBlocks P).map gp).sum⟩

/-! ## Combination of the repetitions -/

/-- `numpy.around(x, 6)`. -/
noncomputable def round6 (x : ℝ) : ℝ := (Granger.rint (x * 1000000) : ℝ) / 1000000

/-- `scipy.special.logsumexp`. -/
noncomputable def logsumexp (l : List ℝ) : ℝ := Real.log ((l.map Real.exp).sum)

/-- `FastKCI.py:76`, `397`: `prob_weights`. -/
noncomputable def weights (ll : List ℝ) : List ℝ := ll.map fun x => round6 (Real.exp (x - logsumexp ll))

/-- `numpy.average(a, weights=w)`; it raises if the weights sum to zero. -/
noncomputable def average (w a : List ℝ) : Res ℝ := if w.sum = 0 then .raises else .val ((List.zipWith (· * ·) w a).sum / w.sum)

/-- The average of the null statistics (`FastKCI.py:79`, `399`), only used when `average` does not raise. -/
noncomputable def avgNull (w : List ℝ) (reps : List Rep) (s : Nat) : ℝ := (List.zipWith (· * ·) w (reps.map fun r => r.null s)).sum / w.sum

/-- `FastKCI.py:50-82`, `375-402` `compute_pvalue`: p-value and statistic from the repetitions. Without repetitions the unpacking of `zip(*[])` raises. `nullss` is 5000. -/
noncomputable def combine (reps : List Rep) : Res (ℝ × ℝ) :=
  (average (weights (reps.map Rep.ll)) (reps.map Rep.stat)).bind fun t =>
    .val (pSim ((List.range 5000).map (avgNull (weights (reps.map Rep.ll)) reps)) t, t)

end CL.FastKci
