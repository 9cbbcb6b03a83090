import Verif.Model.LingamData
import Verif.Proofs.Kci
import Mathlib.Analysis.Matrix.PosDef
import Mathlib.Analysis.Matrix.Order
import Mathlib.Data.Matrix.ColumnRowPartitioned
import Mathlib.Tactic.FieldSimp
import Mathlib.Tactic.Ring
import Mathlib.Tactic.Linarith
import Mathlib.Tactic.Positivity

/-!
# Facts about the measures of DirectLiNGAM
-/
namespace CL.Lingam
open Matrix
variable {n : Nat}

/-! ## Affine changes -/

/-- The column `a * x + b`. -/
def aff (a b : ℝ) (x : Col n) : Col n := fun s => a * x s + b

theorem mean_aff (hn : n ≠ 0) (a b : ℝ) (x : Col n) : mean (aff a b x) = a * mean x + b := by
  have h : (n : ℝ) ≠ 0 := Nat.cast_ne_zero.2 hn
  simp only [mean, aff, Finset.sum_add_distrib, ← Finset.mul_sum, Finset.sum_const, Finset.card_univ, Fintype.card_fin, nsmul_eq_mul]
  field_simp

theorem var_aff (hn : n ≠ 0) (a b : ℝ) (x : Col n) : var (aff a b x) = a ^ 2 * var x := by
  unfold var
  rw [mean_aff hn, ← mul_div_assoc, Finset.mul_sum]
  congr 1
  refine Finset.sum_congr rfl fun s _ => ?_
  simp only [aff]; ring

theorem std_aff (hn : n ≠ 0) (a b : ℝ) (x : Col n) : std (aff a b x) = |a| * std x := by
  unfold std
  rw [var_aff hn, Real.sqrt_mul (sq_nonneg a), Real.sqrt_sq_eq_abs]

theorem cov_aff (hn : n ≠ 0) (a b c d : ℝ) (x y : Col n) : cov (aff a b x) (aff c d y) = a * c * cov x y := by
  unfold cov
  rw [mean_aff hn, mean_aff hn, ← mul_div_assoc, Finset.mul_sum]
  congr 1
  refine Finset.sum_congr rfl fun s _ => ?_
  simp only [aff]; ring

theorem residual_aff (hn : n ≠ 0) (a b : ℝ) {c : ℝ} (d : ℝ) (hc : c ≠ 0) (x y : Col n) :
    residual (aff a b x) (aff c d y) = aff a (b - a * cov x y / (c * var y) * d) (residual x y) := by
  funext s
  simp only [residual, cov_aff hn, var_aff hn]
  simp only [aff, residual]
  by_cases hv : var y = 0
  · simp [hv]
  · field_simp
    ring

/-- The sign of a non-zero number. -/
theorem sign_cases {a : ℝ} (ha : a ≠ 0) : a / |a| = 1 ∨ a / |a| = -1 := by
  rcases lt_or_gt_of_ne ha with h | h
  · right; rw [abs_of_neg h]; field_simp
  · left; rw [abs_of_pos h]; field_simp

theorem standardize_aff (hn : n ≠ 0) {a : ℝ} (b : ℝ) (ha : a ≠ 0) (x : Col n) :
    standardize (aff a b x) = aff (a / |a|) 0 (standardize x) := by
  funext s
  simp only [standardize, mean_aff hn, std_aff hn]
  simp only [aff, standardize]
  have : |a| ≠ 0 := abs_ne_zero.2 ha
  by_cases hv : std x = 0
  · simp [hv]
  · field_simp
    ring

theorem overStd_sign (hn : n ≠ 0) {e : ℝ} (he : e = 1 ∨ e = -1) (u : Col n) : overStd (aff e 0 u) = aff e 0 (overStd u) := by
  funext s
  simp only [overStd, std_aff hn]
  simp only [aff, overStd]
  rcases he with rfl | rfl
  · simp
  · simp only [abs_neg, abs_one, one_mul]; ring

theorem entropy_sign {e : ℝ} (he : e = 1 ∨ e = -1) (u : Col n) : entropy (aff e 0 u) = entropy u := by
  rcases he with rfl | rfl
  · unfold aff; simp
  · unfold entropy aff
    have h1 : (fun s => Real.log (Real.cosh (-1 * u s + 0))) = fun s => Real.log (Real.cosh (u s)) := by
      funext s; rw [show (-1 * u s + 0) = -u s by ring, Real.cosh_neg]
    have h2 : (mean fun s => (-1 * u s + 0) * Real.exp (-(-1 * u s + 0) ^ 2 / 2)) = -mean fun s => u s * Real.exp (-(u s) ^ 2 / 2) := by
      unfold mean
      rw [← neg_div, ← Finset.sum_neg_distrib]
      congr 1
      refine Finset.sum_congr rfl fun s _ => ?_
      beta_reduce
      rw [show (-1 * u s + 0) = -u s by ring, neg_sq]; ring
    rw [h1, h2]; ring

theorem residual_sign (hn : n ≠ 0) (e : ℝ) {e' : ℝ} (he' : e' = 1 ∨ e' = -1) (x y : Col n) :
    residual (aff e 0 x) (aff e' 0 y) = aff e 0 (residual x y) := by
  rw [residual_aff hn e 0 0 (by rcases he' with rfl | rfl <;> norm_num)]
  simp

theorem pairResidual_sign (hn : n ≠ 0) (uc vj : List Nat) {X Y : Nat → Col n} {e : Nat → ℝ} (he : ∀ i, e i = 1 ∨ e i = -1)
    (h : ∀ i, standardize (Y i) = aff (e i) 0 (standardize (X i))) (i j : Nat) :
    pairResidual uc vj Y i j = aff (e i) 0 (pairResidual uc vj X i j) := by
  unfold pairResidual
  split
  · exact h i
  · rw [h i, h j, residual_sign hn _ (he j)]

theorem pairTerm_sign (hn : n ≠ 0) (uc vj : List Nat) {X Y : Nat → Col n} {e : Nat → ℝ} (he : ∀ i, e i = 1 ∨ e i = -1)
    (h : ∀ i, standardize (Y i) = aff (e i) 0 (standardize (X i))) (i j : Nat) : pairTerm uc vj Y i j = pairTerm uc vj X i j := by
  unfold pairTerm diffMI
  rw [pairResidual_sign hn uc vj he h i j, pairResidual_sign hn uc vj he h j i, overStd_sign hn (he i), overStd_sign hn (he j), h i, h j,
    entropy_sign (he i), entropy_sign (he j), entropy_sign (he i), entropy_sign (he j)]

/-- Every column of `Y` is a non-trivial affine function of the column of `X`. -/
def AffRel (X Y : Nat → Col n) : Prop := ∀ i, ∃ a b, a ≠ 0 ∧ Y i = aff a b (X i)

theorem pairTerm_aff (hn : n ≠ 0) (uc vj : List Nat) {X Y : Nat → Col n} (h : AffRel X Y) (i j : Nat) :
    pairTerm uc vj Y i j = pairTerm uc vj X i j := by
  choose a b ha hY using h
  refine pairTerm_sign hn uc vj (e := fun i => a i / |a i|) (fun i => sign_cases (ha i)) (fun i => ?_) i j
  rw [hY i, standardize_aff hn _ (ha i)]

theorem removeEffect_aff (hn : n ≠ 0) (U : List Nat) (m : Nat) {X Y : Nat → Col n} (h : AffRel X Y) :
    AffRel (removeEffect X U m) (removeEffect Y U m) := by
  intro i
  unfold removeEffect
  obtain ⟨a, b, ha, hi⟩ := h i
  split
  · obtain ⟨c, d, hc, hm⟩ := h m
    exact ⟨a, _, ha, by rw [hi, hm, residual_aff hn a b d hc]⟩
  · exact ⟨a, b, ha, hi⟩

theorem stage_aff (hn : n ≠ 0) (K : List Nat) : ∀ (U : List Nat) {X Y : Nat → Col n}, AffRel X Y → AffRel (stage X U K) (stage Y U K) := by
  induction K with
  | nil => intro U X Y h; exact h
  | cons m K ih => intro U X Y h; exact ih _ (removeEffect_aff hn U m h)

theorem pwSum_aff (hn : n ≠ 0) (M : Model) {X Y : Nat → Col n} (h : AffRel X Y) (U : List Nat) (i : Nat) : pwSum M Y U i = pwSum M X U i := by
  unfold pwSum
  congr 1
  exact List.map_congr_left fun j _ => pairTerm_aff hn _ _ h i j

theorem eq_of_zero (hn : n = 0) (X Y : Nat → Col n) : X = Y := by subst hn; funext i s; exact s.elim0

theorem pwScore_aff (p : Nat) (M : Model) {X Y : Nat → Col n} (h : AffRel X Y) : pwScore p M Y = pwScore p M X := by
  by_cases hn : n = 0
  · rw [eq_of_zero hn X Y]
  · funext K U i
    unfold pwScore
    rw [pwSum_aff hn M (stage_aff hn K _ h)]

/-! ## The order of the samples -/

variable (π : Equiv.Perm (Fin n))

theorem mean_comp (x : Col n) : mean (x ∘ π) = mean x := by
  unfold mean; rw [← Equiv.sum_comp π x]; rfl

theorem var_comp (x : Col n) : var (x ∘ π) = var x := by
  unfold var; rw [mean_comp, ← Equiv.sum_comp π fun s => (x s - mean x) ^ 2]; rfl

theorem std_comp (x : Col n) : std (x ∘ π) = std x := by unfold std; rw [var_comp]

theorem cov_comp (x y : Col n) : cov (x ∘ π) (y ∘ π) = cov x y := by
  unfold cov; rw [mean_comp, mean_comp, ← Equiv.sum_comp π fun s => (x s - mean x) * (y s - mean y)]; rfl

theorem residual_comp (x y : Col n) : residual (x ∘ π) (y ∘ π) = residual x y ∘ π := by
  funext s; simp only [residual, cov_comp, var_comp, Function.comp_apply]

theorem standardize_comp (x : Col n) : standardize (x ∘ π) = standardize x ∘ π := by
  funext s; simp only [standardize, mean_comp, std_comp, Function.comp_apply]

theorem overStd_comp (x : Col n) : overStd (x ∘ π) = overStd x ∘ π := by
  funext s; simp only [overStd, std_comp, Function.comp_apply]

theorem scaleCol_comp (x : Col n) : scaleCol (x ∘ π) = scaleCol x ∘ π := by
  funext s; simp only [scaleCol, mean_comp, std_comp, Function.comp_apply]

theorem entropy_comp (u : Col n) : entropy (u ∘ π) = entropy u := by
  unfold entropy
  have h1 := mean_comp π fun s => Real.log (Real.cosh (u s))
  have h2 := mean_comp π fun s => u s * Real.exp (-(u s) ^ 2 / 2)
  simp only [Function.comp_def] at h1 h2 ⊢
  rw [h1, h2]

theorem pairResidual_comp (uc vj : List Nat) (X : Nat → Col n) (i j : Nat) :
    pairResidual uc vj (fun k => X k ∘ π) i j = pairResidual uc vj X i j ∘ π := by
  unfold pairResidual
  split
  · exact standardize_comp π _
  · rw [standardize_comp, standardize_comp, residual_comp]

theorem pairTerm_comp (uc vj : List Nat) (X : Nat → Col n) (i j : Nat) : pairTerm uc vj (fun k => X k ∘ π) i j = pairTerm uc vj X i j := by
  unfold pairTerm diffMI
  simp only [pairResidual_comp, standardize_comp, overStd_comp, entropy_comp]

theorem removeEffect_comp (X : Nat → Col n) (U : List Nat) (m : Nat) :
    removeEffect (fun k => X k ∘ π) U m = fun k => removeEffect X U m k ∘ π := by
  funext k
  unfold removeEffect
  split
  · exact residual_comp π _ _
  · rfl

theorem stage_comp (K : List Nat) : ∀ (U : List Nat) (X : Nat → Col n), stage (fun k => X k ∘ π) U K = fun k => stage X U K k ∘ π := by
  induction K with
  | nil => intro U X; rfl
  | cons m K ih => intro U X; simp only [stage]; rw [removeEffect_comp, ih]

theorem pwSum_comp (M : Model) (X : Nat → Col n) (U : List Nat) (i : Nat) : pwSum M (fun k => X k ∘ π) U i = pwSum M X U i := by
  unfold pwSum
  congr 1
  exact List.map_congr_left fun j _ => pairTerm_comp π _ _ X i j

theorem pwScore_comp (p : Nat) (M : Model) (X : Nat → Col n) : pwScore p M (fun k => X k ∘ π) = pwScore p M X := by
  funext K U i
  unfold pwScore
  rw [stage_comp, pwSum_comp]

/-! ## The kernel measure -/

theorem gramK_sign (σ : ℝ) {e : ℝ} (he : e = 1 ∨ e = -1) (x : Col n) : gramK σ (aff e 0 x) = gramK σ x := by
  ext s t
  simp only [gramK, aff, of_apply]
  rcases he with rfl | rfl <;> congr 2 <;> ring

theorem psd_gramK (σ : ℝ) (x : Col n) : (gramK σ x).PosSemidef := by
  have h := Kci.psd_gauss (θ := 1 / σ ^ 2) (by positivity) (fun s (_ : Fin 1) => x s)
  have : gramK σ x = Kci.gaussK (1 / σ ^ 2) (fun s (_ : Fin 1) => x s) := by
    ext s t
    simp only [gramK, Kci.gaussK, Kci.sqDist, of_apply, Finset.univ_unique, Finset.sum_singleton]
    congr 1
    by_cases hs : σ = 0
    · simp [hs]
    · field_simp
      ring
  rw [this]; exact h

variable {ι : Type} [Fintype ι] [DecidableEq ι]

theorem sumLogSv_eq {A : Matrix ι ι ℝ} (h : A.det ≠ 0) : sumLogSv A = Real.log |A.det| := by
  have hdet := (isHermitian_conjTranspose_mul_self A).det_eq_prod_eigenvalues
  rw [det_mul, det_conjTranspose] at hdet
  simp only [star_trivial, RCLike.ofReal_real_eq_id, id_eq] at hdet
  have h0 : ∀ i, 0 ≤ (isHermitian_conjTranspose_mul_self A).eigenvalues i := fun i => eigenvalues_conjTranspose_mul_self_nonneg A i
  have h1 : ∀ i, (isHermitian_conjTranspose_mul_self A).eigenvalues i ≠ 0 := by
    intro i hi
    have : ∏ i, (isHermitian_conjTranspose_mul_self A).eigenvalues i = 0 := Finset.prod_eq_zero (Finset.mem_univ i) hi
    rw [this] at hdet
    exact h (mul_self_eq_zero.1 hdet)
  unfold sumLogSv
  rw [← Real.log_prod (fun i _ => (Real.sqrt_pos.2 (lt_of_le_of_ne (h0 i) (h1 i).symm)).ne'), ← Real.sqrt_prod _ (fun i _ => h0 i), ← hdet,
    Real.sqrt_mul_self_eq_abs]

/-- Adding a positive semidefinite matrix to the identity does not decrease the determinant. -/
theorem one_le_det {S : Matrix ι ι ℝ} (hS : S.PosSemidef) : 1 ≤ (1 + S).det := by
  have hH : (1 + S).IsHermitian := (PosSemidef.one.add hS).1
  rw [hH.det_eq_prod_eigenvalues]
  simp only [RCLike.ofReal_real_eq_id, id_eq]
  have h1 : ∀ i, 1 ≤ hH.eigenvalues i := by
    intro i
    have hv := hH.mulVec_eigenvectorBasis i
    rw [add_mulVec, one_mulVec] at hv
    have h0 := hS.dotProduct_mulVec_nonneg (hH.eigenvectorBasis i)
    have hS' : S *ᵥ ⇑(hH.eigenvectorBasis i) = (hH.eigenvalues i - 1) • ⇑(hH.eigenvectorBasis i) := by
      rw [sub_smul, one_smul, ← hv]; abel
    rw [hS', dotProduct_smul, smul_eq_mul] at h0
    have hpos : 0 < star ⇑(hH.eigenvectorBasis i) ⬝ᵥ ⇑(hH.eigenvectorBasis i) := by
      rw [dotProduct_star_self_pos_iff]
      intro h
      have := hH.eigenvectorBasis.orthonormal.ne_zero i
      exact this (by ext k; exact congrFun h k)
    nlinarith [h0, hpos]
  exact Finset.prod_induction _ (fun x => (1 : ℝ) ≤ x) (fun a b ha hb => by nlinarith) le_rfl fun i _ => h1 i

open scoped MatrixOrder in
/-- Adding a positive semidefinite matrix to a positive definite one does not decrease the determinant. -/
theorem det_le_det_add {Q S : Matrix ι ι ℝ} (hQ : Q.PosDef) (hS : S.PosSemidef) : Q.det ≤ (Q + S).det := by
  obtain ⟨L, hL⟩ := CStarAlgebra.nonneg_iff_eq_star_mul_self.mp hQ.posSemidef.nonneg
  rw [star_eq_conjTranspose] at hL
  have hdet : Q.det = L.det * L.det := by rw [hL, det_mul, det_conjTranspose]; simp
  have hL0 : L.det ≠ 0 := by
    intro h; have := hQ.det_pos; rw [hdet, h] at this; simp at this
  have hu : IsUnit L.det := isUnit_iff_ne_zero.2 hL0
  have hLt : IsUnit (Lᴴ).det := by rw [det_conjTranspose]; simpa using hL0
  have h1 : Q + S = Lᴴ * (1 + (L⁻¹)ᴴ * S * L⁻¹) * L := by
    rw [mul_add, add_mul, mul_one, ← hL, conjTranspose_nonsing_inv]
    congr 1
    rw [Matrix.mul_assoc, Matrix.mul_assoc, Matrix.mul_assoc, Matrix.nonsing_inv_mul _ hu, Matrix.mul_one, ← Matrix.mul_assoc,
      Matrix.mul_nonsing_inv _ hLt, Matrix.one_mul]
  have h2 := one_le_det (hS.conjTranspose_mul_mul_same L⁻¹)
  rw [h1, det_mul, det_mul, det_conjTranspose, hdet]
  simp only [star_trivial]
  nlinarith [mul_self_nonneg L.det]

/-- **Fischer's inequality**: the determinant of a positive definite block matrix is at most the product of those of its diagonal blocks. -/
theorem fischer {A D : Matrix ι ι ℝ} {B : Matrix ι ι ℝ} (hA : A.PosDef) (h : (fromBlocks A B Bᴴ D).PosDef) :
    (fromBlocks A B Bᴴ D).det ≤ A.det * D.det := by
  haveI : Invertible A := hA.isUnit.invertible
  have hschur : (D - Bᴴ * A⁻¹ * B).PosSemidef := (PosDef.fromBlocks₁₁ B D hA).1 h.posSemidef
  have hdet := det_fromBlocks₁₁ A B Bᴴ D
  rw [invOf_eq_nonsing_inv] at hdet
  have hpos : 0 < (D - Bᴴ * A⁻¹ * B).det := by
    have h1 := h.det_pos
    rw [hdet] at h1
    exact (mul_pos_iff_of_pos_left hA.det_pos).1 h1
  have hpd : (D - Bᴴ * A⁻¹ * B).PosDef := hschur.posDef_iff_isUnit.2 (by
    rw [isUnit_iff_isUnit_det]; exact isUnit_iff_ne_zero.2 hpos.ne')
  rw [hdet]
  refine mul_le_mul_of_nonneg_left ?_ hA.det_pos.le
  have := det_le_det_add hpd (hA.inv.posSemidef.conjTranspose_mul_mul_same B)
  rwa [sub_add_cancel] at this

theorem posDef_blockDiag {P Q : Matrix ι ι ℝ} (hP : P.PosDef) (hQ : Q.PosDef) : (fromBlocks P 0 0 Q).PosDef := by
  haveI : Invertible P := hP.isUnit.invertible
  have h1 : (fromBlocks P 0 (0 : Matrix ι ι ℝ)ᴴ Q).PosSemidef := (PosDef.fromBlocks₁₁ 0 Q hP).2 (by simpa using hQ.posSemidef)
  rw [conjTranspose_zero] at h1
  refine h1.posDef_iff_isUnit.2 ?_
  rw [isUnit_iff_isUnit_det, det_fromBlocks_zero₂₁]
  exact isUnit_iff_ne_zero.2 (mul_pos hP.det_pos hQ.det_pos).ne'

theorem psd_fromBlocks (A B : Matrix ι ι ℝ) (hA : A.IsHermitian) (hB : B.IsHermitian) : (fromBlocks (A * A) (A * B) (B * A) (B * B)).PosSemidef := by
  have h := posSemidef_conjTranspose_mul_self (fromCols A B)
  rw [conjTranspose_fromCols_eq_fromRows_conjTranspose, fromRows_mul_fromCols, hA.eq, hB.eq] at h
  exact h

/-- What the ridge adds to the square of a matrix. -/
noncomputable def slack (κ : ℝ) (A : Matrix (Fin n) (Fin n) ℝ) : Matrix (Fin n) (Fin n) ℝ :=
  ((n : ℝ) * κ) • A + ((n : ℝ) * κ / 2) ^ 2 • (1 : Matrix (Fin n) (Fin n) ℝ)

theorem ridge_sq (κ : ℝ) (A : Matrix (Fin n) (Fin n) ℝ) : ridge κ A * ridge κ A = A * A + slack κ A := by
  unfold ridge slack
  simp only [mul_add, add_mul, mul_one, one_mul, smul_mul_assoc, mul_smul_comm, smul_smul]
  ext s t
  simp only [Matrix.add_apply, Matrix.smul_apply, smul_eq_mul]
  ring

theorem slack_posDef (hn : n ≠ 0) {κ : ℝ} (hκ : 0 < κ) {A : Matrix (Fin n) (Fin n) ℝ} (hA : A.PosSemidef) : (slack κ A).PosDef := by
  have hn' : (0 : ℝ) < n := Nat.cast_pos.2 (Nat.pos_of_ne_zero hn)
  unfold slack
  exact PosDef.posSemidef_add (hA.smul (by positivity)) (PosDef.one.smul (by positivity))

theorem kKappa_eq (κ : ℝ) (A B : Matrix (Fin n) (Fin n) ℝ) :
    kKappa κ A B = fromBlocks (A * A) (A * B) (B * A) (B * B) + fromBlocks (slack κ A) 0 0 (slack κ B) := by
  unfold kKappa
  rw [fromBlocks_add, ridge_sq, ridge_sq, add_zero, add_zero]

theorem kKappa_posDef (hn : n ≠ 0) {κ : ℝ} (hκ : 0 < κ) {A B : Matrix (Fin n) (Fin n) ℝ} (hA : A.PosSemidef) (hB : B.PosSemidef) :
    (kKappa κ A B).PosDef := by
  rw [kKappa_eq]
  exact PosDef.posSemidef_add (psd_fromBlocks A B hA.1 hB.1) (posDef_blockDiag (slack_posDef hn hκ hA) (slack_posDef hn hκ hB))

theorem ridge_sq_posDef (hn : n ≠ 0) {κ : ℝ} (hκ : 0 < κ) {A : Matrix (Fin n) (Fin n) ℝ} (hA : A.PosSemidef) :
    (ridge κ A * ridge κ A).PosDef := by
  rw [ridge_sq]
  refine PosDef.posSemidef_add ?_ (slack_posDef hn hκ hA)
  have := posSemidef_conjTranspose_mul_self A
  rwa [hA.1.eq] at this

theorem dKappa_posDef (hn : n ≠ 0) {κ : ℝ} (hκ : 0 < κ) {A B : Matrix (Fin n) (Fin n) ℝ} (hA : A.PosSemidef) (hB : B.PosSemidef) :
    (dKappa κ A B).PosDef := posDef_blockDiag (ridge_sq_posDef hn hκ hA) (ridge_sq_posDef hn hκ hB)

/-- The kernel measure in closed form. -/
theorem mutualInfo_eq (hn : n ≠ 0) {κ : ℝ} (hκ : 0 < κ) (σ : ℝ) (x y : Col n) :
    mutualInfo κ σ x y = 1 / 2 * (Real.log ((ridge κ (gramK σ x) * ridge κ (gramK σ x)).det * (ridge κ (gramK σ y) * ridge κ (gramK σ y)).det) -
      Real.log (kKappa κ (gramK σ x) (gramK σ y)).det) := by
  have h1 := (kKappa_posDef hn hκ (psd_gramK σ x) (psd_gramK σ y)).det_pos
  have h2 := (dKappa_posDef hn hκ (psd_gramK σ x) (psd_gramK σ y)).det_pos
  unfold mutualInfo
  rw [sumLogSv_eq h1.ne', sumLogSv_eq h2.ne', abs_of_pos h1, abs_of_pos h2]
  unfold dKappa
  rw [det_fromBlocks_zero₂₁]
  ring

theorem mutualInfo_nonneg (hn : n ≠ 0) {κ : ℝ} (hκ : 0 < κ) (σ : ℝ) (x y : Col n) : 0 ≤ mutualInfo κ σ x y := by
  rw [mutualInfo_eq hn hκ]
  have hpd := kKappa_posDef hn hκ (psd_gramK σ x) (psd_gramK σ y)
  have h : kKappa κ (gramK σ x) (gramK σ y) = fromBlocks (ridge κ (gramK σ x) * ridge κ (gramK σ x)) (gramK σ x * gramK σ y)
      (gramK σ x * gramK σ y)ᴴ (ridge κ (gramK σ y) * ridge κ (gramK σ y)) := by
    unfold kKappa
    rw [conjTranspose_mul, (psd_gramK σ x).1.eq, (psd_gramK σ y).1.eq]
  have h1 := fischer (ridge_sq_posDef hn hκ (psd_gramK σ x)) (h ▸ hpd)
  rw [← h] at h1
  have := Real.log_le_log hpd.det_pos h1
  linarith

theorem mutualInfo_comm (hn : n ≠ 0) {κ : ℝ} (hκ : 0 < κ) (σ : ℝ) (x y : Col n) : mutualInfo κ σ x y = mutualInfo κ σ y x := by
  rw [mutualInfo_eq hn hκ, mutualInfo_eq hn hκ, mul_comm (det _) (det _)]
  congr 3
  unfold kKappa
  rw [← det_submatrix_equiv_self (Equiv.sumComm (Fin n) (Fin n)), Equiv.sumComm_apply, fromBlocks_submatrix_sum_swap_sum_swap]

theorem gramK_comp (σ : ℝ) (x : Col n) (π : Equiv.Perm (Fin n)) : gramK σ (x ∘ π) = (gramK σ x).submatrix π π := by
  ext s t; rfl

theorem ridge_submatrix (κ : ℝ) (A : Matrix (Fin n) (Fin n) ℝ) (π : Equiv.Perm (Fin n)) : ridge κ (A.submatrix π π) = (ridge κ A).submatrix π π := by
  unfold ridge
  rw [submatrix_add, submatrix_smul, Pi.add_apply, Pi.add_apply, Pi.smul_apply, Pi.smul_apply, submatrix_one_equiv]

theorem mutualInfo_comp (hn : n ≠ 0) {κ : ℝ} (hκ : 0 < κ) (σ : ℝ) (x y : Col n) (π : Equiv.Perm (Fin n)) :
    mutualInfo κ σ (x ∘ π) (y ∘ π) = mutualInfo κ σ x y := by
  rw [mutualInfo_eq hn hκ, mutualInfo_eq hn hκ]
  have h : kKappa κ (gramK σ (x ∘ π)) (gramK σ (y ∘ π)) =
      (kKappa κ (gramK σ x) (gramK σ y)).submatrix (Equiv.sumCongr π π) (Equiv.sumCongr π π) := by
    unfold kKappa
    simp only [gramK_comp, ridge_submatrix, submatrix_mul_equiv]
    ext s t
    rcases s with s | s <;> rcases t with t | t <;> rfl
  rw [h, det_submatrix_equiv_self]
  simp only [gramK_comp, ridge_submatrix, submatrix_mul_equiv, det_submatrix_equiv_self]

theorem mutualInfo_sign (κ σ : ℝ) {e e' : ℝ} (he : e = 1 ∨ e = -1) (he' : e' = 1 ∨ e' = -1) (x y : Col n) :
    mutualInfo κ σ (aff e 0 x) (aff e' 0 y) = mutualInfo κ σ x y := by
  unfold mutualInfo
  rw [gramK_sign σ he, gramK_sign σ he']

theorem kernelKappa_pos : 0 < kernelKappa n := by unfold kernelKappa; split <;> norm_num

theorem dev_zero {x : Col n} (h : std x = 0) (s : Fin n) : x s - mean x = 0 := by
  have hn : n ≠ 0 := by rintro rfl; exact s.elim0
  have hn' : (0 : ℝ) < n := Nat.cast_pos.2 (Nat.pos_of_ne_zero hn)
  unfold std var at h
  have h0 : 0 ≤ ∑ s, (x s - mean x) ^ 2 := Finset.sum_nonneg fun s _ => sq_nonneg _
  rw [Real.sqrt_eq_zero (div_nonneg h0 hn'.le)] at h
  rw [div_eq_zero_iff, or_iff_left hn'.ne', Finset.sum_eq_zero_iff_of_nonneg fun s _ => sq_nonneg _] at h
  exact pow_eq_zero_iff (two_ne_zero) |>.1 (h s (Finset.mem_univ s))

theorem scaleCol_eq (x : Col n) : scaleCol x = standardize x := by
  funext s
  unfold scaleCol standardize
  split
  · rename_i h; rw [h, dev_zero h s, zero_div]
  · rfl

/-- Every column of `Y` is the column of `X` or its negative. -/
def SignRel (X Y : Nat → Col n) : Prop := ∀ i, ∃ e : ℝ, (e = 1 ∨ e = -1) ∧ Y i = aff e 0 (X i)

theorem removeEffect_sgn (hn : n ≠ 0) (U : List Nat) (m : Nat) {X Y : Nat → Col n} (h : SignRel X Y) :
    SignRel (removeEffect X U m) (removeEffect Y U m) := by
  intro i
  unfold removeEffect
  obtain ⟨e, he, hi⟩ := h i
  obtain ⟨e', he', hm⟩ := h m
  refine ⟨e, he, ?_⟩
  split
  · rw [hi, hm, residual_sign hn _ he']
  · exact hi

theorem stage_sgn (hn : n ≠ 0) (K : List Nat) : ∀ (U : List Nat) {X Y : Nat → Col n}, SignRel X Y → SignRel (stage X U K) (stage Y U K) := by
  induction K with
  | nil => intro U X Y h; exact h
  | cons m K ih => intro U X Y h; exact ih _ (removeEffect_sgn hn U m h)

theorem kernelSum_sgn (hn : n ≠ 0) (M : Model) {X Y : Nat → Col n} (h : SignRel X Y) (U : List Nat) (j : Nat) :
    kernelSum M Y U j = kernelSum M X U j := by
  unfold kernelSum
  refine congrArg List.sum (List.map_congr_left fun i _ => ?_)
  obtain ⟨e, he, hi⟩ := h i
  obtain ⟨e', he', hj⟩ := h j
  have : kernelResidual (searchCandidate M U) (searchVj M U) Y i j = aff e 0 (kernelResidual (searchCandidate M U) (searchVj M U) X i j) := by
    unfold kernelResidual
    split
    · exact hi
    · rw [hi, hj, residual_sign hn _ he']
  rw [this, hj, mutualInfo_sign _ _ he' he]

theorem kernelScore_aff (p : Nat) (M : Model) {X Y : Nat → Col n} (h : AffRel X Y) : kernelScore p M Y = kernelScore p M X := by
  by_cases hn : n = 0
  · rw [eq_of_zero hn X Y]
  · funext K U i
    unfold kernelScore
    rw [kernelSum_sgn hn M (stage_sgn hn K _ (fun i => ?_))]
    obtain ⟨a, b, ha, hi⟩ := h i
    exact ⟨a / |a|, sign_cases ha, by rw [scaleCol_eq, scaleCol_eq, hi, standardize_aff hn b ha]⟩

theorem kernelScore_comp (π : Equiv.Perm (Fin n)) (p : Nat) (M : Model) (X : Nat → Col n) : kernelScore p M (fun k => X k ∘ π) = kernelScore p M X := by
  by_cases hn : n = 0
  · exact congrArg (kernelScore p M) (eq_of_zero hn _ _)
  · funext K U j
    unfold kernelScore
    simp only [scaleCol_comp]
    rw [stage_comp π K (List.range p) fun i => scaleCol (X i)]
    refine congrArg Neg.neg ?_
    unfold kernelSum
    refine congrArg List.sum (List.map_congr_left fun i _ => ?_)
    have (Z : Nat → Col n) (uc vj : List Nat) : kernelResidual uc vj (fun k => Z k ∘ π) i j = kernelResidual uc vj Z i j ∘ π := by
      unfold kernelResidual
      split
      · rfl
      · exact residual_comp π _ _
    rw [this, mutualInfo_comp hn kernelKappa_pos]

end CL.Lingam
