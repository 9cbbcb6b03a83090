import Verif.Model.FastKci
import Verif.Model.KciNull

/-!
# Model of the simulated null distribution of FastKCI with conditioning (`utils/FastKCI/FastKCI.py:110-145`, `256-342`), `use_gp=False`

`eigs` is `numpy.linalg.eigvalsh`, `eig` is `eigh`; the chi-squared draws are arguments.
-/
namespace CL.FastKci
open Kci Matrix
variable {n d e dz : Nat}

/-- `KCI.py:551-554`, `571-572` and `FastKCI.py:290-293`, `332`: the eigenvalues of `uu_prod`. FastKCI compares the number of columns with the size `n` of
the whole sample, not with the size `T` of the block. -/
noncomputable def uuEigs (eigs : (m : Nat) → Matrix (Fin m) (Fin m) ℝ → List ℝ) (n : Nat) {T : Nat} (cols : List (Fin T → ℝ)) : List ℝ :=
  if cols.length > n then eigs T (of fun i j => uuOuter cols i j) else eigs cols.length (of fun a b => uuInner (cols.get a) (cols.get b))

/-- `FastKCI.py:135-143`, `256-295`: the columns of `uu` for a block. -/
noncomputable def blockCols (eig : (m : Nat) → Matrix (Fin m) (Fin m) ℝ → List (ℝ × (Fin m → ℝ))) (X : Data n d) (Y : Data n e) (Z : Data n dz)
    (rows : List (Fin n)) : List (Fin rows.length → ℝ) :=
  let K := kernelsC (restrict X rows) (restrict Y rows) (restrict Z rows)
  uuCols (scaled (eig _ (regCenter eps K.1 K.2.2))) (scaled (eig _ (regR eps K.2.2 * (K.2.1 * regR eps K.2.2))))

/-- `FastKCI.py:317-342` `null_sample_spectral`: the weights of the draws for a block (the same lines as in `KCI_CInd`, `eig_thresh = 1e-5`). -/
noncomputable def blockWeightsC (eig : (m : Nat) → Matrix (Fin m) (Fin m) ℝ → List (ℝ × (Fin m → ℝ))) (eigs : (m : Nat) → Matrix (Fin m) (Fin m) ℝ → List ℝ)
    (X : Data n d) (Y : Data n e) (Z : Data n dz) (rows : List (Fin n)) : Res (List ℝ) :=
  weightsC rows.length (blockCols eig X Y Z rows).length (uuEigs eigs n (blockCols eig X Y Z rows))

/-- `FastKCI.py:122-145`: the null statistic `s` for the partition `P`, from the weights of the blocks that are not skipped; `f rows r s` are the draws. -/
noncomputable def nullC (w : List (Fin n) → List ℝ) (f : List (Fin n) → Nat → Nat → ℝ) (P : Fin n → Nat) (s : Nat) : ℝ :=
  ((bigBlocks P).map fun rows => nullDraw (w rows) fun r => f rows r s).sum

end CL.FastKci
