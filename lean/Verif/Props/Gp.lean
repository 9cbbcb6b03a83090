import Verif.Model.Gp
import Verif.Props.Minimize
import Verif.Props.CvScore
import Mathlib.Analysis.SpecialFunctions.Log.Deriv
import Mathlib.Analysis.SpecialFunctions.ExpDeriv
import Mathlib.Analysis.Matrix.PosDef
import Mathlib.LinearAlgebra.Matrix.Block
import Mathlib.Analysis.Matrix.LDL

/-!
# C189, C190, C192: the marginal likelihood score
-/
namespace CL
namespace Gp
open Matrix Kci CvScore Mini
variable {T m : Nat}

/-! ## Specification -/

/-- `L` is the Cholesky factor of `K`: lower triangular with positive diagonal and `L Lᵀ = K`. -/
structure IsCholesky (K L : Matrix (Fin T) (Fin T) ℝ) : Prop where
  lower : ∀ i j, i < j → L i j = 0
  pos : ∀ i, 0 < L i i
  mul : L * Lᵀ = K

/-- What `numpy.linalg.cholesky` promises: a factor for every positive definite matrix. -/
def CholSpec (chol : Matrix (Fin T) (Fin T) ℝ → Option (Matrix (Fin T) (Fin T) ℝ)) : Prop := ∀ K : Matrix (Fin T) (Fin T) ℝ, K.PosDef → ∃ L, chol K = some L ∧ IsCholesky K L

/-- The negative logarithm of the joint density of the `m` columns of `y`, independent normal vectors with mean 0 and covariance matrix `K`. -/
noncomputable def negLogLik (K : Matrix (Fin T) (Fin T) ℝ) (y : Matrix (Fin T) (Fin m) ℝ) : ℝ :=
  ∑ c, (1 / 2 * ((fun i => y i c) ⬝ᵥ (K⁻¹ *ᵥ fun i => y i c)) + 1 / 2 * Real.log K.det + T / 2 * Real.log (2 * Real.pi))

/-- The covariance matrix of a Gaussian process with a squared exponential kernel of length scale `w` and signal variance 1, observed at `x` with noise variance `v`. -/
noncomputable def gpCov (x : Col T) (w v : ℝ) : Matrix (Fin T) (Fin T) ℝ := of fun i j => Real.exp (-(x i - x j) ^ 2 / (2 * w ^ 2)) + if i = j then v else 0

/-- The promise can be kept: every positive definite matrix has a Cholesky factor. -/
theorem exists_cholesky {K : Matrix (Fin T) (Fin T) ℝ} (hK : K.PosDef) : ∃ L, IsCholesky K L := by
  have hA : BlockTriangular (LDL.lowerInv hK) (OrderDual.toDual : Fin T → (Fin T)ᵒᵈ) := fun i j hij => LDL.lowerInv_triangular hK hij
  have hB := blockTriangular_inv_of_blockTriangular hA
  have hd : (LDL.lowerInv hK)⁻¹.det ≠ 0 := by
    have := (isUnit_nonsing_inv_det _ (isUnit_det_of_invertible (LDL.lowerInv hK))).ne_zero
    exact this
  have hD : LDL.diag hK = LDL.lowerInv hK * K * (LDL.lowerInv hK)ᴴ := LDL.diag_eq_lowerInv_conj hK
  have hS : (LDL.lowerInv hK)⁻¹ * LDL.diag hK * ((LDL.lowerInv hK)⁻¹)ᴴ = K := LDL.lower_conj_diag hK
  have hpos : ∀ i, 0 < LDL.diagEntries hK i := by
    have hpd : (LDL.diag hK).PosDef := by
      rw [hD]
      exact hK.mul_mul_conjTranspose_same (vecMul_injective_of_isUnit (isUnit_of_invertible _))
    intro i
    have := hpd.diag_pos (i := i)
    rwa [LDL.diag, diagonal_apply_eq] at this
  have hne : ∀ i, (LDL.lowerInv hK)⁻¹ i i ≠ 0 := by
    intro i h0
    rw [det_of_lowerTriangular _ fun i j hij => hB hij] at hd
    exact hd (Finset.prod_eq_zero (Finset.mem_univ i) h0)
  unfold LDL.diag at hS
  generalize LDL.diagEntries hK = e at hS hpos
  generalize (LDL.lowerInv hK)⁻¹ = B at hB hS hne
  refine ⟨B * diagonal fun i => √(e i) * SignType.sign (B i i), ⟨fun i j hij => ?_, fun i => ?_, ?_⟩⟩
  · rw [mul_diagonal, hB hij, zero_mul]
  · rw [mul_diagonal, mul_left_comm, self_mul_sign]
    exact mul_pos (Real.sqrt_pos.2 (hpos i)) (abs_pos.2 (hne i))
  · rw [← hS, transpose_mul, diagonal_transpose, conjTranspose_eq_transpose_of_trivial, Matrix.mul_assoc, Matrix.mul_assoc, ← Matrix.mul_assoc (diagonal _), diagonal_mul_diagonal]
    congr 3
    funext i
    have h1 : ((SignType.sign (B i i) : SignType) : ℝ) * SignType.sign (B i i) = 1 := by
      rcases lt_or_gt_of_ne (hne i) with h | h
      · rw [sign_neg h]; norm_num
      · rw [sign_pos h]; norm_num
    calc _ = √(e i) * √(e i) * (((SignType.sign (B i i) : SignType) : ℝ) * SignType.sign (B i i)) := by ring
      _ = e i := by rw [h1, mul_one, Real.mul_self_sqrt (hpos i).le]

/-- So there is such a function. -/
theorem exists_cholSpec (T : Nat) : ∃ chol : Matrix (Fin T) (Fin T) ℝ → Option (Matrix (Fin T) (Fin T) ℝ), CholSpec chol := by
  classical
  refine ⟨fun K => if h : K.PosDef then some (exists_cholesky h).choose else none, fun K hK => ?_⟩
  exact ⟨_, dif_pos hK, (exists_cholesky hK).choose_spec⟩

/-! ## Covariance -/

theorem sqDist_eq {D : Nat} (a : Fin D → Fin T → ℝ) (i j : Fin T) : sqDist a i j = ∑ d, (a d j - a d i) ^ 2 := by
  have key : ∀ (l : List (Fin D)) (C : Matrix (Fin T) (Fin T) ℝ),
      (l.foldl (fun C d => C + of fun i j => (a d j - a d i) * (a d j - a d i)) C) i j = C i j + (l.map fun d => (a d j - a d i) ^ 2).sum := by
    intro l
    induction l with
    | nil => intro C; simp
    | cons d l ih => intro C; rw [List.foldl_cons, ih, List.map_cons, List.sum_cons, Matrix.add_apply, of_apply]; ring
  unfold sqDist
  rw [key, Matrix.zero_apply, zero_add, ← List.ofFn_eq_map, List.sum_ofFn]

theorem covSEard_eq (x : Col T) (l0 l1 : ℝ) (i j : Fin T) : covSEard x l0 l1 i j = Real.exp (2 * l1) * Real.exp (-(x i - x j) ^ 2 / (2 * Real.exp l0 ^ 2)) := by
  unfold covSEard
  rw [of_apply, sqDist_eq, Fin.sum_univ_one]
  congr 2
  have := Real.exp_pos l0
  field_simp
  ring

theorem covSum_eq (x : Col T) (h : Vec 2 ℝ) (h1 : h 1 = 0) : covSum x h = gpCov x (Real.exp (h 0)) (Real.exp (2 * h 2)) := by
  ext i j
  unfold covSum gpCov
  rw [zero_add, Matrix.add_apply, covSEard_eq, h1, covNoise, Matrix.smul_apply, Matrix.one_apply, of_apply]
  simp

theorem psd_se (x : Col T) (l0 l1 : ℝ) : (covSEard x l0 l1).PosSemidef := by
  have hg := (psd_gauss (θ := 1 / Real.exp l0 ^ 2) (by positivity) (fun (i : Fin T) (_ : Fin 1) => x i)).smul (Real.exp_pos (2 * l1)).le
  refine (congrArg PosSemidef ?_).mpr hg
  ext i j
  rw [covSEard_eq, Matrix.smul_apply]
  simp only [gaussK, of_apply, Kci.sqDist, Fin.sum_univ_one, smul_eq_mul]
  congr 2
  have := Real.exp_pos l0
  field_simp
  norm_num
  ring

theorem posDef_add {K : Matrix (Fin T) (Fin T) ℝ} (hK : K.PosSemidef) {v : ℝ} (hv : 0 < v) : (K + v • (1 : Matrix (Fin T) (Fin T) ℝ)).PosDef :=
  PosDef.posSemidef_add hK (PosDef.one.smul hv)

theorem posDef_covSum (x : Col T) (h : Vec 2 ℝ) : (covSum x h).PosDef := by
  unfold covSum covNoise
  rw [zero_add]
  exact posDef_add (psd_se x _ _) (Real.exp_pos _)

/-! ## Likelihood -/

namespace IsCholesky
variable {K L : Matrix (Fin T) (Fin T) ℝ} (hL : IsCholesky K L)
include hL

theorem det_L : L.det = ∏ i, L i i := det_of_lowerTriangular L fun i j hij => hL.lower i j hij

theorem det_pos : 0 < L.det := by rw [hL.det_L]; exact Finset.prod_pos fun i _ => hL.pos i

theorem det_K : K.det = L.det ^ 2 := by rw [← hL.mul, det_mul, det_transpose, sq]

theorem unit_L : IsUnit L.det := isUnit_iff_ne_zero.2 hL.det_pos.ne'

theorem unit_K : IsUnit K.det := by rw [hL.det_K]; exact isUnit_iff_ne_zero.2 (pow_ne_zero _ hL.det_pos.ne')

theorem inv_K : K⁻¹ = L⁻¹ᵀ * L⁻¹ := by
  rw [← hL.mul, Matrix.mul_inv_rev, transpose_nonsing_inv]

theorem alpha_eq (y : Matrix (Fin T) (Fin m) ℝ) : alpha L y = K⁻¹ * y := by
  unfold alpha solveChol
  rw [transpose_transpose, hL.inv_K, ← transpose_nonsing_inv, Matrix.mul_assoc]

/-- The inverse of the factor is lower triangular too, with the reciprocal diagonal. -/
theorem inv_lower : ∀ i j, i < j → L⁻¹ i j = 0 := by
  have h : BlockTriangular L (OrderDual.toDual : Fin T → (Fin T)ᵒᵈ) := fun i j hij => hL.lower i j hij
  haveI : Invertible L := invertibleOfIsUnitDet L hL.unit_L
  have := blockTriangular_inv_of_blockTriangular h
  intro i j hij
  exact this hij

theorem inv_diag (i : Fin T) : L⁻¹ i i = 1 / L i i := by
  have h : (L * L⁻¹) i i = 1 := by rw [mul_nonsing_inv _ hL.unit_L, Matrix.one_apply_eq]
  rw [Matrix.mul_apply, Finset.sum_eq_single i] at h
  · rw [eq_div_iff (hL.pos i).ne', mul_comm]; exact h
  · intro k _ hk
    rcases lt_or_gt_of_ne hk with hk | hk
    · rw [hL.inv_lower k i hk, mul_zero]
    · rw [hL.lower i k hk, zero_mul]
  · intro h; exact absurd (Finset.mem_univ i) h

theorem trace_inv : K⁻¹.trace = ∑ i, ∑ j, L⁻¹ i j ^ 2 := by
  rw [hL.inv_K, trace, Finset.sum_comm]
  refine Finset.sum_congr rfl fun j _ => ?_
  rw [diag_apply, Matrix.mul_apply]
  exact Finset.sum_congr rfl fun i _ => by rw [transpose_apply, sq]

end IsCholesky

theorem trace_cols (A : Matrix (Fin T) (Fin T) ℝ) (y : Matrix (Fin T) (Fin m) ℝ) : (yᵀ * (A * y)).trace = ∑ c, (fun i => y i c) ⬝ᵥ (A *ᵥ fun i => y i c) := by
  rw [trace]
  refine Finset.sum_congr rfl fun c _ => ?_
  rw [diag_apply, Matrix.mul_apply]
  rfl

/-- C190. The number computed from a Cholesky factor of the covariance matrix is the negative log likelihood. -/
theorem C190_likelihood {K L : Matrix (Fin T) (Fin T) ℝ} (hL : IsCholesky K L) (y : Matrix (Fin T) (Fin m) ℝ) : nlml L y = negLogLik K y := by
  have hlog : Real.log K.det = 2 * ∑ i, Real.log (L i i) := by
    rw [hL.det_K, hL.det_L, Real.log_pow, Real.log_prod (fun i _ => (hL.pos i).ne')]
    norm_num
  unfold nlml negLogLik
  rw [hL.alpha_eq, trace_cols, hlog]
  simp only [Finset.sum_add_distrib, ← Finset.mul_sum, Finset.sum_const, Finset.card_univ, Fintype.card_fin, nsmul_eq_mul]
  ring

/-! ## Gradient -/

theorem spectral_real {K0 : Matrix (Fin T) (Fin T) ℝ} (h : K0.PosSemidef) :
    ∃ (U : Matrix (Fin T) (Fin T) ℝ) (lam : Fin T → ℝ), U * Uᵀ = 1 ∧ Uᵀ * U = 1 ∧ (∀ i, 0 ≤ lam i) ∧ K0 = U * diagonal lam * Uᵀ := by
  have hU := h.1.eigenvectorUnitary.2
  rw [mem_unitaryGroup_iff, star_eq_conjTranspose, conjTranspose_eq_transpose_of_trivial] at hU
  refine ⟨h.1.eigenvectorUnitary, h.1.eigenvalues, hU, mul_eq_one_comm.1 hU, h.eigenvalues_nonneg, ?_⟩
  have := h.1.spectral_theorem
  simpa [Unitary.conjStarAlgAut_apply, star_eq_conjTranspose, conjTranspose_eq_transpose_of_trivial, Function.comp_def] using this

section spectral
variable {U : Matrix (Fin T) (Fin T) ℝ} {lam : Fin T → ℝ} (h1 : U * Uᵀ = 1) (h2 : Uᵀ * U = 1) (h0 : ∀ i, 0 ≤ lam i)
include h1

theorem shift_eq (v : ℝ) : U * diagonal lam * Uᵀ + v • (1 : Matrix (Fin T) (Fin T) ℝ) = U * diagonal (fun i => lam i + v) * Uᵀ := by
  have e : diagonal (fun i => lam i + v) = diagonal lam + v • (1 : Matrix (Fin T) (Fin T) ℝ) := by
    rw [smul_one_eq_diagonal, diagonal_add]
  rw [e, Matrix.mul_add, Matrix.add_mul, Matrix.mul_smul, Matrix.mul_one, Matrix.smul_mul, h1]

theorem det_shift (v : ℝ) : (U * diagonal lam * Uᵀ + v • (1 : Matrix (Fin T) (Fin T) ℝ)).det = ∏ i, (lam i + v) := by
  rw [shift_eq h1, det_mul, det_mul, det_transpose, det_diagonal]
  have : U.det * U.det = 1 := by have := congrArg det h1; rwa [det_mul, det_transpose, det_one] at this
  calc _ = U.det * U.det * ∏ i, (lam i + v) := by ring
    _ = _ := by rw [this, one_mul]

include h2 h0
theorem inv_shift {v : ℝ} (hv : 0 < v) : (U * diagonal lam * Uᵀ + v • (1 : Matrix (Fin T) (Fin T) ℝ))⁻¹ = U * diagonal (fun i => (lam i + v)⁻¹) * Uᵀ := by
  rw [shift_eq h1]
  refine inv_eq_right_inv ?_
  have e : diagonal (fun i => lam i + v) * diagonal (fun i => (lam i + v)⁻¹) = 1 := by
    rw [diagonal_mul_diagonal, ← diagonal_one]
    congr 1
    funext i
    exact mul_inv_cancel₀ (by have := h0 i; linarith)
  calc _ = U * diagonal (fun i => lam i + v) * (Uᵀ * U) * diagonal (fun i => (lam i + v)⁻¹) * Uᵀ := by simp only [Matrix.mul_assoc]
    _ = U * (diagonal (fun i => lam i + v) * diagonal (fun i => (lam i + v)⁻¹)) * Uᵀ := by rw [h2, Matrix.mul_one]; simp only [Matrix.mul_assoc]
    _ = 1 := by rw [e, Matrix.mul_one, h1]

end spectral

theorem quad_diag (U : Matrix (Fin T) (Fin T) ℝ) (g : Fin T → ℝ) (y : Fin T → ℝ) : y ⬝ᵥ ((U * diagonal g * Uᵀ) *ᵥ y) = ∑ i, g i * (Uᵀ *ᵥ y) i ^ 2 := by
  rw [← Matrix.mulVec_mulVec, ← Matrix.mulVec_mulVec, dotProduct_mulVec, ← mulVec_transpose, dotProduct]
  exact Finset.sum_congr rfl fun i _ => by rw [mulVec_diagonal]; ring

theorem norm_symm {A : Matrix (Fin T) (Fin T) ℝ} (ht : Aᵀ = A) (y : Fin T → ℝ) : ∑ i, (A *ᵥ y) i ^ 2 = y ⬝ᵥ ((A * A) *ᵥ y) := by
  rw [← mulVec_mulVec, dotProduct_mulVec, ← mulVec_transpose, ht, dotProduct]
  exact Finset.sum_congr rfl fun i _ => by rw [sq]

theorem norm_diag {U : Matrix (Fin T) (Fin T) ℝ} (h2 : Uᵀ * U = 1) (g : Fin T → ℝ) (y : Fin T → ℝ) :
    ∑ i, ((U * diagonal g * Uᵀ) *ᵥ y) i ^ 2 = ∑ i, g i ^ 2 * (Uᵀ *ᵥ y) i ^ 2 := by
  have e : ∑ i, ((U * diagonal g * Uᵀ) *ᵥ y) i ^ 2 = y ⬝ᵥ ((U * diagonal (fun i => g i ^ 2) * Uᵀ) *ᵥ y) := by
    have ht : (U * diagonal g * Uᵀ)ᵀ = U * diagonal g * Uᵀ := by
      rw [transpose_mul, transpose_mul, transpose_transpose, diagonal_transpose, Matrix.mul_assoc]
    have hm : (U * diagonal g * Uᵀ) * (U * diagonal g * Uᵀ) = U * diagonal (fun i => g i ^ 2) * Uᵀ := by
      calc _ = U * diagonal g * (Uᵀ * U) * diagonal g * Uᵀ := by simp only [Matrix.mul_assoc]
        _ = U * (diagonal g * diagonal g) * Uᵀ := by rw [h2, Matrix.mul_one]; simp only [Matrix.mul_assoc]
        _ = _ := by rw [diagonal_mul_diagonal]; congr 3; funext i; rw [sq]
    rw [← hm, norm_symm ht]
  rw [e, quad_diag]

/-- The derivative of the negative log likelihood in the logarithm of the root of the noise variance. -/
theorem deriv_noise {K0 : Matrix (Fin T) (Fin T) ℝ} (h : K0.PosSemidef) (y : Matrix (Fin T) (Fin m) ℝ) (l : ℝ) :
    HasDerivAt (fun l => negLogLik (K0 + Real.exp (2 * l) • (1 : Matrix (Fin T) (Fin T) ℝ)) y)
      (Real.exp (2 * l) * (m * (K0 + Real.exp (2 * l) • (1 : Matrix (Fin T) (Fin T) ℝ))⁻¹.trace -
        ∑ c, ∑ i, ((K0 + Real.exp (2 * l) • (1 : Matrix (Fin T) (Fin T) ℝ))⁻¹ *ᵥ fun i => y i c) i ^ 2)) l := by
  obtain ⟨U, lam, h1, h2, h0, rfl⟩ := spectral_real h
  have hp : ∀ l i, 0 < lam i + Real.exp (2 * l) := fun l i => by have := h0 i; have := Real.exp_pos (2 * l); linarith
  have hfun : (fun l => negLogLik (U * diagonal lam * Uᵀ + Real.exp (2 * l) • (1 : Matrix (Fin T) (Fin T) ℝ)) y) =
      fun l => ∑ c, (1 / 2 * (∑ i, (lam i + Real.exp (2 * l))⁻¹ * (Uᵀ *ᵥ fun i => y i c) i ^ 2) + 1 / 2 * (∑ i, Real.log (lam i + Real.exp (2 * l))) + T / 2 * Real.log (2 * Real.pi)) := by
    funext l
    unfold negLogLik
    refine Finset.sum_congr rfl fun c _ => ?_
    rw [inv_shift h1 h2 h0 (Real.exp_pos _), quad_diag, det_shift h1, Real.log_prod fun i _ => (hp l i).ne']
  rw [hfun]
  have he : HasDerivAt (fun l : ℝ => Real.exp (2 * l)) (2 * Real.exp (2 * l)) l := by
    have := ((hasDerivAt_id l).const_mul 2).exp
    simpa [mul_comm] using this
  have hd : ∀ i, HasDerivAt (fun l => lam i + Real.exp (2 * l)) (2 * Real.exp (2 * l)) l := fun i => he.const_add _
  have hc : ∀ c, HasDerivAt (fun l => 1 / 2 * (∑ i, (lam i + Real.exp (2 * l))⁻¹ * (Uᵀ *ᵥ fun i => y i c) i ^ 2) + 1 / 2 * (∑ i, Real.log (lam i + Real.exp (2 * l))) + T / 2 * Real.log (2 * Real.pi))
      (1 / 2 * (∑ i, -(2 * Real.exp (2 * l)) / (lam i + Real.exp (2 * l)) ^ 2 * (Uᵀ *ᵥ fun i => y i c) i ^ 2) + 1 / 2 * (∑ i, 2 * Real.exp (2 * l) / (lam i + Real.exp (2 * l)))) l := by
    intro c
    refine HasDerivAt.add_const _ (HasDerivAt.add ?_ ?_)
    · refine HasDerivAt.const_mul _ ?_
      exact HasDerivAt.fun_sum fun i _ => ((hd i).inv (hp l i).ne').mul_const _
    · refine HasDerivAt.const_mul _ ?_
      exact HasDerivAt.fun_sum fun i _ => (hd i).log (hp l i).ne'
  have hs := HasDerivAt.fun_sum (u := Finset.univ) fun c _ => hc c
  refine hs.congr_deriv ?_
  rw [inv_shift h1 h2 h0 (Real.exp_pos _), trace_mul_comm, ← Matrix.mul_assoc, h2, Matrix.one_mul, trace_diagonal]
  simp only [norm_diag h2]
  rw [mul_sub, Finset.mul_sum, Finset.sum_add_distrib, Finset.sum_const, Finset.card_univ, Fintype.card_fin, nsmul_eq_mul, add_comm, sub_eq_add_neg]
  congr 1
  · rw [mul_left_comm, ← Finset.mul_sum]
    congr 1
    simp only [Finset.mul_sum]
    exact Finset.sum_congr rfl fun i _ => by rw [div_eq_mul_inv]; ring
  · rw [Finset.mul_sum, ← Finset.sum_neg_distrib]
    refine Finset.sum_congr rfl fun c _ => ?_
    rw [Finset.mul_sum, Finset.mul_sum, ← Finset.sum_neg_distrib]
    exact Finset.sum_congr rfl fun i _ => by rw [div_eq_mul_inv, inv_pow]; ring

theorem gradNoise_eq {K L : Matrix (Fin T) (Fin T) ℝ} (hL : IsCholesky K L) (y : Matrix (Fin T) (Fin m) ℝ) (l : ℝ) :
    gradNoise L y l = Real.exp (2 * l) * (m * ∑ i, L⁻¹ i i ^ 2 - ∑ c, ∑ i, (K⁻¹ *ᵥ fun i => y i c) i ^ 2) := by
  have e : ∀ i, ∑ j, (matW L y ⊙ dNoise T l) i j = matW L y i i * (2 * Real.exp (2 * l)) := by
    intro i
    rw [Finset.sum_eq_single i]
    · simp [dNoise, hadamard_apply]
    · intro j _ hj
      rw [hadamard_apply, dNoise, Matrix.smul_apply, Matrix.one_apply_ne (Ne.symm hj), smul_zero, mul_zero]
    · intro h; exact absurd (Finset.mem_univ i) h
  have hW : ∀ i, matW L y i i = m * L⁻¹ i i ^ 2 - ∑ c, (K⁻¹ *ᵥ fun i => y i c) i ^ 2 := by
    intro i
    unfold matW
    rw [Matrix.sub_apply, Matrix.smul_apply, hadamard_apply, hadamard_apply, Matrix.one_apply_eq, ← transpose_nonsing_inv, transpose_apply, hL.alpha_eq, Matrix.mul_apply, smul_eq_mul, mul_one, ← sq]
    congr 1
    exact Finset.sum_congr rfl fun c _ => by rw [transpose_apply, ← sq]; rfl
  unfold gradNoise
  simp only [e, hW]
  rw [← Finset.sum_mul, Finset.sum_sub_distrib, ← Finset.mul_sum, Finset.sum_comm]
  ring

/-- Only the diagonal of the inverse of the Cholesky factor enters, so the derivative in the noise that is used is smaller than the derivative of the function
that is minimised, unless there is no target or the covariance matrix is diagonal. -/
theorem gradient_lt {K0 L : Matrix (Fin T) (Fin T) ℝ} (hK : K0.PosSemidef) (l : ℝ) (hL : IsCholesky (K0 + Real.exp (2 * l) • (1 : Matrix (Fin T) (Fin T) ℝ)) L)
    (y : Matrix (Fin T) (Fin m) ℝ) :
    ∃ d, HasDerivAt (fun l => negLogLik (K0 + Real.exp (2 * l) • (1 : Matrix (Fin T) (Fin T) ℝ)) y) d l ∧ gradNoise L y l ≤ d ∧
      (gradNoise L y l = d ↔ m = 0 ∨ ∀ i j, i ≠ j → K0 i j = 0) := by
  refine ⟨_, deriv_noise hK y l, ?_⟩
  rw [gradNoise_eq hL, hL.trace_inv]
  have hE := Real.exp_pos (2 * l)
  generalize Real.exp (2 * l) = E at hE hL
  have hrow : ∀ i, ∑ j, L⁻¹ i j ^ 2 = L⁻¹ i i ^ 2 + ∑ j ∈ Finset.univ.erase i, L⁻¹ i j ^ 2 := fun i => (Finset.add_sum_erase _ _ (Finset.mem_univ i)).symm
  have hoff : ∀ i, 0 ≤ ∑ j ∈ Finset.univ.erase i, L⁻¹ i j ^ 2 := fun i => Finset.sum_nonneg fun j _ => sq_nonneg _
  have hle : ∑ i, L⁻¹ i i ^ 2 ≤ ∑ i, ∑ j, L⁻¹ i j ^ 2 := Finset.sum_le_sum fun i _ => by rw [hrow i]; linarith [hoff i]
  refine ⟨?_, ?_⟩
  · exact mul_le_mul_of_nonneg_left (sub_le_sub_right (mul_le_mul_of_nonneg_left hle (Nat.cast_nonneg m)) _) hE.le
  · rw [mul_right_inj' hE.ne', sub_left_inj, mul_eq_mul_left_iff, Nat.cast_eq_zero]
    have hdiag : (∑ i, L⁻¹ i i ^ 2 = ∑ i, ∑ j, L⁻¹ i j ^ 2) ↔ ∀ i j, i ≠ j → L⁻¹ i j = 0 := by
      constructor
      · intro he i j hij
        have h3 : ∑ i, ∑ j ∈ Finset.univ.erase i, L⁻¹ i j ^ 2 = 0 := by
          have : ∑ i, ∑ j, L⁻¹ i j ^ 2 = ∑ i, L⁻¹ i i ^ 2 + ∑ i, ∑ j ∈ Finset.univ.erase i, L⁻¹ i j ^ 2 := by
            rw [← Finset.sum_add_distrib]; exact Finset.sum_congr rfl fun i _ => hrow i
          linarith
        have h4 := (Finset.sum_eq_zero_iff_of_nonneg fun i _ => hoff i).1 h3 i (Finset.mem_univ i)
        have h5 := (Finset.sum_eq_zero_iff_of_nonneg fun j _ => sq_nonneg (L⁻¹ i j)).1 h4 j (Finset.mem_erase.2 ⟨Ne.symm hij, Finset.mem_univ j⟩)
        exact pow_eq_zero_iff (by norm_num) |>.1 h5
      · intro he
        refine Finset.sum_congr rfl fun i _ => ?_
        rw [hrow i, Finset.sum_eq_zero, add_zero]
        intro j hj
        rw [he i j (Finset.ne_of_mem_erase hj).symm]; norm_num
    have hinv : (∀ i j, i ≠ j → L⁻¹ i j = 0) ↔ ∀ i j, i ≠ j → K0 i j = 0 := by
      constructor
      · intro he i j hij
        have hd : L⁻¹ = diagonal fun i => L⁻¹ i i := by
          ext a b
          by_cases hab : a = b
          · subst hab; rw [diagonal_apply_eq]
          · rw [diagonal_apply_ne _ hab]; exact he a b hab
        have hg : ∀ k, L⁻¹ k k ≠ 0 := fun k => by rw [hL.inv_diag]; exact one_div_ne_zero (hL.pos k).ne'
        generalize (fun i => L⁻¹ i i) = g at hd
        have hg' : ∀ k, g k ≠ 0 := fun k => by have := hg k; rwa [hd, diagonal_apply_eq] at this
        have hLL : L = diagonal fun i => (g i)⁻¹ := by
          rw [← nonsing_inv_nonsing_inv L hL.unit_L, hd]
          refine inv_eq_right_inv ?_
          rw [diagonal_mul_diagonal, ← diagonal_one]
          congr 1; funext k
          exact mul_inv_cancel₀ (hg' k)
        have hm := congrFun (congrFun hL.mul i) j
        rw [hLL, diagonal_transpose, diagonal_mul_diagonal, diagonal_apply_ne _ hij, Matrix.add_apply, Matrix.smul_apply, Matrix.one_apply_ne hij, smul_zero, add_zero] at hm
        exact hm.symm
      · intro he
        have hz : ∀ (n : Nat) (j : Fin T), j.val = n → ∀ i, j < i → L i j = 0 := by
          intro n
          induction n using Nat.strong_induction_on with
          | _ n ih =>
            intro j hj i hij
            have hm := congrFun (congrFun hL.mul i) j
            rw [Matrix.add_apply, Matrix.smul_apply, Matrix.one_apply_ne hij.ne', smul_zero, add_zero, he i j hij.ne', Matrix.mul_apply, Finset.sum_eq_single j] at hm
            · rw [transpose_apply] at hm
              exact (mul_eq_zero.1 hm).resolve_right (hL.pos j).ne'
            · intro k _ hk
              rcases lt_or_gt_of_ne hk with hk | hk
              · rw [ih k.val (by rw [← hj]; exact hk) k rfl i (hk.trans hij), zero_mul]
              · rw [transpose_apply, hL.lower j k hk, mul_zero]
            · intro h; exact absurd (Finset.mem_univ j) h
        have hd : L = diagonal fun i => L i i := by
          ext a b
          rcases lt_trichotomy a b with hab | hab | hab
          · rw [diagonal_apply_ne _ hab.ne]; exact hL.lower a b hab
          · subst hab; rw [diagonal_apply_eq]
          · rw [diagonal_apply_ne _ hab.ne']; exact hz b.val b rfl a hab
        have hp := hL.pos
        generalize (fun i => L i i) = g at hd
        have hLL : L⁻¹ = diagonal fun i => (g i)⁻¹ := by
          rw [hd]
          refine inv_eq_right_inv ?_
          rw [diagonal_mul_diagonal, ← diagonal_one]
          congr 1; funext k
          have := hp k
          rw [hd, diagonal_apply_eq] at this
          exact mul_inv_cancel₀ this.ne'
        intro i j hij
        rw [hLL, diagonal_apply_ne _ hij]
    rw [hdiag, hinv]
    exact or_comm

/-- C190 fails for the gradient: with two samples and one target or more, the derivative in the noise that is computed is smaller than the derivative of the function that is minimised,
for all inputs and hyperparameters. -/
theorem C190_gradient_violated (hT : 2 ≤ T) (hm : 1 ≤ m) (x : Col T) (h : Vec 2 ℝ) (y : Matrix (Fin T) (Fin m) ℝ) {L : Matrix (Fin T) (Fin T) ℝ} (hL : IsCholesky (covSum x h) L) :
    ∃ d, HasDerivAt (fun l => negLogLik (covSum x fun k => if k = 2 then l else h k) y) d (h 2) ∧ gradNoise L y (h 2) < d := by
  have e : ∀ l, covSum x (fun k => if k = 2 then l else h k) = covSEard x (h 0) (h 1) + Real.exp (2 * l) • (1 : Matrix (Fin T) (Fin T) ℝ) := by
    intro l
    unfold covSum covNoise
    rw [zero_add]
    rfl
  have e0 : covSum x h = covSEard x (h 0) (h 1) + Real.exp (2 * h 2) • (1 : Matrix (Fin T) (Fin T) ℝ) := by unfold covSum covNoise; rw [zero_add]
  rw [e0] at hL
  obtain ⟨d, hd, hle, hiff⟩ := gradient_lt (psd_se x (h 0) (h 1)) (h 2) hL y
  simp only [e]
  refine ⟨d, hd, lt_of_le_of_ne hle fun heq => ?_⟩
  rcases hiff.1 heq with h0 | h0
  · omega
  · have := h0 ⟨0, by omega⟩ ⟨1, by omega⟩ (by simp)
    rw [covSEard_eq] at this
    exact (mul_pos (Real.exp_pos _) (Real.exp_pos _)).ne' this

/-! ## The score -/

theorem gpr_total {chol : Matrix (Fin T) (Fin T) ℝ → Option (Matrix (Fin T) (Fin T) ℝ)} (hc : CholSpec chol) (x : Col T) (y : Matrix (Fin T) (Fin m) ℝ) (h : Vec 2 ℝ) :
    ∃ g, gpr chol x y h = some (negLogLik (covSum x h) y, g) ∧ g 0 = 0 ∧ g 1 = 0 := by
  obtain ⟨L, h1, h2⟩ := hc _ (posDef_covSum x h)
  unfold gpr
  rw [h1, Option.map_some, C190_likelihood h2]
  exact ⟨_, rfl, rfl, rfl⟩

/-- From the start `(l, 0, log √0.1)` the optimiser ends, with the length scale and the signal variance of the start, at a noise level that is not worse than that of the start. -/
theorem optimised_val {chol : Matrix (Fin T) (Fin T) ℝ → Option (Matrix (Fin T) (Fin T) ℝ)} (hc : CholSpec chol) (x : Col T) (y : Matrix (Fin T) (Fin m) ℝ) (l : ℝ) :
    ∃ v > 0, optimised chol x y (init l) = .val (negLogLik (gpCov x (Real.exp l) v) y) ∧ negLogLik (gpCov x (Real.exp l) v) y ≤ negLogLik (gpCov x (Real.exp l) 0.1) y := by
  have ht : ∀ Y, ∃ r, gpr chol x y Y = some r := fun Y => by obtain ⟨g, hg, -⟩ := gpr_total hc x y Y; exact ⟨_, hg⟩
  have hz : ∀ k : Fin 3, k = 0 ∨ k = 1 → ∀ Y v g, gpr chol x y Y = some (v, g) → g k = 0 := by
    intro k hk Y v g hg
    obtain ⟨g', hg', h0, h1⟩ := gpr_total hc x y Y
    rw [hg'] at hg
    cases hg
    rcases hk with rfl | rfl
    · exact h0
    · exact h1
  obtain ⟨X', i, seen, F, g, hF, hmin, -⟩ := C191_gives_up_violated Real.sqrt (gpr chol x y) (hz 0 (Or.inl rfl)) ht (len := 300) (by norm_num) (init l)
  obtain ⟨⟨F', g', hF', -, hle⟩, ⟨F0, g0, hF0, hmem⟩, -, -, hk⟩ := C191_best Real.sqrt (gpr chol x y) (len := 300) (by norm_num) (init l) hmin
  have k0 : X' 0 = l := hk 0 (hz 0 (Or.inl rfl))
  have k1 : X' 1 = 0 := hk 1 (hz 1 (Or.inr rfl))
  have i1 : init l 1 = 0 := rfl
  have i2 : Real.exp (2 * init l 2) = 0.1 := by
    show Real.exp (2 * Real.log √0.1) = 0.1
    rw [mul_comm, Real.exp_mul, Real.exp_log (by positivity)]
    norm_num
  obtain ⟨g1, hg1, -⟩ := gpr_total hc x y X'
  obtain ⟨g2, hg2, -⟩ := gpr_total hc x y (init l)
  rw [covSum_eq x X' k1, k0] at hg1
  rw [covSum_eq x (init l) i1, i2] at hg2
  rw [hg1] at hF'
  rw [hg2] at hF0
  obtain ⟨rfl, rfl⟩ : _ = F' ∧ _ = g' := by simpa using hF'
  obtain ⟨rfl, rfl⟩ : _ = F0 ∧ _ = g0 := by simpa using hF0
  refine ⟨Real.exp (2 * X' 2), Real.exp_pos _, ?_, hle _ hmem⟩
  unfold optimised
  rw [hmin]
  show (match gpr chol x y X' with | some r => Res.val r.1 | none => Res.raises) = _
  rw [hg1]

theorem kx_val {x : Col T} (h : ¬ Const x) : ∃ K, kx 2.5 x = .val K := by
  obtain ⟨θ, hθ, -⟩ := theta_val (f := 2.5) (by norm_num) h
  exact ⟨_, by rw [kx, hθ]; rfl⟩

theorem width_val {p : Col T} (h : ¬ Const p) : ∃ μ > 0, npMedian (posDiffs p) = .val μ ∧ width p = .val (√(μ / 2) * 2.5) := by
  obtain ⟨m, hm, hp⟩ := npMedian_pos (l := posDiffs p) (fun t ht => (mem_posDiffs.1 ht).1) fun h0 => h (posDiffs_nil.1 h0)
  exact ⟨m, hp, hm, by rw [width, hm]; show Res.val (√(0.5 * m) * 2.5) = _; rw [show (0.5 : ℝ) * m = m / 2 by ring]⟩

section score
variable {chol : Matrix (Fin T) (Fin T) ℝ → Option (Matrix (Fin T) (Fin T) ℝ)} {targets : Matrix (Fin T) (Fin T) ℝ → Σ m : Nat, Matrix (Fin T) (Fin m) ℝ}

/-- C189. Without parents: for four samples or more and a variable that is not constant the score is the negative log likelihood of the targets for the covariance `1 + v δ`, for some
noise variance `v` that is not worse than 0.1. -/
theorem C189_no_parents (hc : CholSpec chol) (hT : 4 ≤ T) {x : Col T} (hx : ¬ Const x) :
    ∃ K, kx 2.5 x = .val K ∧ ∃ v > 0, marginalScore chol targets x [] = .val (negLogLik (of fun i j => 1 + if i = j then v else 0) (targets K).2) ∧
      negLogLik (of fun i j => 1 + if i = j then v else 0) (targets K).2 ≤ negLogLik (of fun i j => 1 + if i = j then 0.1 else 0) (targets K).2 := by
  obtain ⟨K, hK⟩ := kx_val hx
  obtain ⟨v, hv, h1, h2⟩ := optimised_val hc (fun _ => 0) (targets K).2 100
  have e : ∀ v, gpCov (fun _ : Fin T => 0) (Real.exp 100) v = of fun i j => 1 + if i = j then v else 0 := by
    intro v; ext i j; simp [gpCov]
  rw [e] at h1 h2
  rw [e] at h2
  refine ⟨K, hK, v, hv, ?_, h2⟩
  rw [← h1]
  unfold marginalScore
  rw [hK]
  show (if T < 4 then Res.raises else _) = _
  rw [if_neg (by omega)]

/-- C189. With one parent that is not constant: the covariance is that of a squared exponential kernel whose length scale `w` is 2.5 times the root of half the median of the positive squared
differences, plus noise that is not worse than the variance 0.1. -/
theorem C189_one_parent (hc : CholSpec chol) (hT : 4 ≤ T) {x p : Col T} (hx : ¬ Const x) (hp : ¬ Const p) :
    ∃ K μ w, kx 2.5 x = .val K ∧ npMedian (posDiffs p) = .val μ ∧ w = √(μ / 2) * 2.5 ∧ 0 < w ∧ ∃ v > 0, marginalScore chol targets x [p] = .val (negLogLik (gpCov p w v) (targets K).2) ∧
      negLogLik (gpCov p w v) (targets K).2 ≤ negLogLik (gpCov p w 0.1) (targets K).2 := by
  obtain ⟨K, hK⟩ := kx_val hx
  obtain ⟨μ, hμ, hm, hw⟩ := width_val hp
  have hw0 : 0 < √(μ / 2) * 2.5 := by have : 0 < √(μ / 2) := Real.sqrt_pos.2 (by positivity); positivity
  obtain ⟨v, hv, h1, h2⟩ := optimised_val hc p (targets K).2 (Real.log (√(μ / 2) * 2.5))
  rw [Real.exp_log hw0] at h1 h2
  refine ⟨K, μ, _, hK, hm, rfl, hw0, v, hv, ?_, h2⟩
  rw [← h1]
  unfold marginalScore
  rw [hK]
  show (if T < 4 then Res.raises else (strict (width p)).bind _) = _
  rw [if_neg (by omega), hw]
  rfl

/-- C189 fails: with two or more parents (and not as many as samples) there is no score, an exception is raised. -/
theorem C189_two_parents_violated (x : Col T) (pas : List (Col T)) (h2 : 2 ≤ pas.length) (hT : 2 ≤ T) (hne : pas.length ≠ T) : marginalScore chol targets x pas = .raises := by
  have hs : scaledShape pas.length T = none := by
    unfold scaledShape broadcast bcAxis
    rw [if_pos rfl, if_neg hne, if_neg (by omega), if_neg (by omega)]
    rfl
  have hstrict : strict (kx 2.5 x) = .raises ∨ ∃ K, strict (kx 2.5 x) = .val K := by
    cases kx 2.5 x with
    | raises => exact Or.inl rfl
    | nan => exact Or.inl rfl
    | val K => exact Or.inr ⟨K, rfl⟩
  unfold marginalScore
  rcases hstrict with h | ⟨K, h⟩
  · rw [h]; rfl
  · rw [h]
    show (if T < 4 then Res.raises else _) = _
    split_ifs
    · rfl
    · match pas, h2 with
      | [], h => simp at h
      | [_], h => simp at h
      | p :: q :: ps, _ => exact if_pos hs

/-- C189 fails: a constant variable, a constant parent or fewer than four samples raise an exception. -/
theorem C189_constant_violated (x p : Col T) :
    (Const x → ∀ pas, marginalScore chol targets x pas = .raises) ∧ (Const p → marginalScore chol targets x [p] = .raises) ∧ (T < 4 → ∀ pas, marginalScore chol targets x pas = .raises) := by
  have hcase : strict (kx 2.5 x) = .raises ∨ ∃ K, strict (kx 2.5 x) = .val K := by
    cases kx 2.5 x with
    | raises => exact Or.inl rfl
    | nan => exact Or.inl rfl
    | val K => exact Or.inr ⟨K, rfl⟩
  refine ⟨fun h pas => ?_, fun h => ?_, fun h pas => ?_⟩
  · unfold marginalScore
    rw [kx, theta_const _ h]
    rfl
  · unfold marginalScore
    rcases hcase with h' | ⟨K, h'⟩
    · rw [h']; rfl
    · rw [h']
      show (if T < 4 then Res.raises else (strict (width p)).bind _) = _
      split_ifs
      · rfl
      · rw [width, posDiffs_nil.2 h]; rfl
  · unfold marginalScore
    rcases hcase with h' | ⟨K, h'⟩
    · rw [h']; rfl
    · rw [h']
      show (if T < 4 then Res.raises else _) = _
      rw [if_pos h]

end score

/-! ## Units -/

end Gp

namespace Mini
variable {p : Nat} {K : Type} [Field K] [LinearOrder K]

/-- The best point moved by `v`. -/
def Best.shift (v : Vec p K) (b : Best p K) : Best p K := ⟨b.X + v, b.F, b.dF, b.seen⟩
@[inherit_doc Best.shift] def Pt.shift (v : Vec p K) (r : Pt p K) : Pt p K := ⟨r.x3, r.f3, r.df3, r.M, r.best.shift v⟩
@[inherit_doc Best.shift] def Out.shift (v : Vec p K) : Out p K → Out p K
  | .done X fX i seen => .done (X + v) fX i seen
  | .raises => .raises
  | .succeeded => .succeeded

theorem move_shift (v X s : Vec p K) (x : K) : move (X + v) x s = move X x s + v := by
  funext k; simp only [move, Pi.add_apply]; ring

theorem keep_shift (v : Vec p K) (b : Best p K) (X : Vec p K) (F : K) (g : Vec p K) : keep (b.shift v) (X + v) F g = (keep b X F g).shift v := by
  unfold keep Best.shift
  split <;> rfl

section
variable (sqrt : K → K) {f f' : Vec p K → Option (K × Vec p K)} (v : Vec p K) (hf : ∀ Y, f' (Y + v) = f Y)
include hf

theorem tryPoint_shift (X s : Vec p K) (f0 : K) (df0 : Vec p K) : ∀ (M : Nat) (x3 : K) (b : Best p K), tryPoint f' (X + v) s f0 df0 M x3 (b.shift v) = (tryPoint f X s f0 df0 M x3 b).shift v := by
  intro M
  induction M with
  | zero => intro x3 b; rw [tryPoint, tryPoint, move_shift, keep_shift]; rfl
  | succ M ih =>
    intro x3 b
    rw [tryPoint, tryPoint, move_shift, hf]
    cases f (move X x3 s) with
    | none => exact ih _ _
    | some r =>
      show (⟨x3, r.1, r.2, M, keep (Best.shift v ⟨b.X, b.F, b.dF, b.seen ++ [r.1]⟩) (move X x3 s + v) r.1 r.2⟩ : Pt p K) = _
      rw [keep_shift]
      rfl

theorem extrapolate_shift (X s : Vec p K) (f0 : K) (df0 : Vec p K) (d0 : K) : ∀ (fuel M : Nat) (x3 : K) (b : Best p K),
    extrapolate sqrt f' (X + v) s f0 df0 d0 fuel M x3 (b.shift v) = (extrapolate sqrt f X s f0 df0 d0 fuel M x3 b).shift v := by
  intro fuel
  induction fuel with
  | zero => intro M x3 b; exact tryPoint_shift v hf X s f0 df0 M x3 b
  | succ fuel ih =>
    intro M x3 b
    rw [extrapolate, extrapolate]
    simp only [tryPoint_shift v hf]
    generalize tryPoint f X s f0 df0 M x3 b = r
    show (if SIG * d0 < dot00 r.df3 s ∨ f0 + r.x3 * RHO * d0 < r.f3 ∨ r.M = 0 then r.shift v else _) = _
    split
    · rfl
    · exact ih _ _ _

theorem interpolate_shift (X s : Vec p K) (f0 d0 : K) : ∀ (M : Nat) (a : Lp K) (b : Option (Lp K)) (r : Pt p K),
    interpolate sqrt f' (X + v) s f0 d0 M a b (r.shift v) = (interpolate sqrt f X s f0 d0 M a b r).map (Pt.shift v) := by
  intro M
  induction M with
  | zero => intro a b r; rfl
  | succ M ih =>
    intro a b r
    rw [interpolate, interpolate]
    show (if -(SIG * d0) < |dot00 r.df3 s| ∨ f0 + r.x3 * RHO * d0 < r.f3 then (subinterval f0 d0 a b ⟨r.x3, r.f3, dot00 r.df3 s⟩).2.bind _ else _) = _
    split
    · cases (subinterval f0 d0 a b ⟨r.x3, r.f3, dot00 r.df3 s⟩).2 with
      | none => rfl
      | some b' =>
        simp only [Option.bind_some]
        show (f' (move (X + v) (clip (subinterval f0 d0 a b ⟨r.x3, r.f3, dot00 r.df3 s⟩).1 b' (interX3 sqrt f0 (subinterval f0 d0 a b ⟨r.x3, r.f3, dot00 r.df3 s⟩).1 b')) s)).bind _ = _
        rw [move_shift, hf]
        cases f (move X (clip (subinterval f0 d0 a b ⟨r.x3, r.f3, dot00 r.df3 s⟩).1 b' (interX3 sqrt f0 (subinterval f0 d0 a b ⟨r.x3, r.f3, dot00 r.df3 s⟩).1 b')) s) with
        | none => rfl
        | some q =>
          simp only [Option.bind_some]
          rw [← ih]
          congr 1
          unfold Pt.shift
          rw [← keep_shift]
          simp only [move_shift]
          rfl
    · rfl

theorem lineSearch_shift (X s : Vec p K) (f0 : K) (df0 : Vec p K) (d0 x3 : K) (M : Nat) (seen : List K) :
    lineSearch sqrt f' (X + v) s f0 df0 d0 x3 M seen = (lineSearch sqrt f X s f0 df0 d0 x3 M seen).map (Pt.shift v) := by
  unfold lineSearch
  have := extrapolate_shift sqrt v hf X s f0 df0 d0 (M + 1) M x3 ⟨X, f0, df0, seen⟩
  show interpolate sqrt f' (X + v) s f0 d0 (extrapolate sqrt f' (X + v) s f0 df0 d0 (M + 1) M x3 (Best.shift v ⟨X, f0, df0, seen⟩)).M _ _ (extrapolate sqrt f' (X + v) s f0 df0 d0 (M + 1) M x3 (Best.shift v ⟨X, f0, df0, seen⟩)) = _
  rw [this]
  exact interpolate_shift sqrt v hf X s f0 d0 _ _ _ _

theorem mainLoop_shift (len : Nat) (fX : List K) : ∀ (fuel : Nat) (failed : Bool) (i : Nat) (X : Vec p K) (f0 : K) (df0 : Vec p K) (x3 : K) (seen : List K),
    mainLoop sqrt f' len fX fuel failed i (X + v) f0 df0 x3 seen = (mainLoop sqrt f len fX fuel failed i X f0 df0 x3 seen).shift v := by
  intro fuel
  induction fuel with
  | zero => intros; rfl
  | succ fuel ih =>
    intro failed i X f0 df0 x3 seen
    rw [mainLoop, mainLoop]
    split
    · simp only [lineSearch_shift sqrt v hf]
      cases lineSearch sqrt f X (fun k => -df0 k) f0 df0 (-dot00 (fun k => -df0 k) fun k => -df0 k) x3 (min 20 (len - i)) seen with
      | none => rfl
      | some r =>
        simp only [Option.map_some, Option.elim_some]
        have hs : succeeds f0 (-dot00 (fun k => -df0 k) fun k => -df0 k) (fun k => -df0 k) (r.shift v) = succeeds f0 (-dot00 (fun k => -df0 k) fun k => -df0 k) (fun k => -df0 k) r := rfl
        rw [hs]
        split
        · rfl
        · show (if failed = true ∨ len < i + (min 20 (len - i) - r.M) then _ else _) = _
          split
          · rfl
          · exact ih _ _ _ _ _ _ _
    · rfl

/-- Moving the function moves the result. -/
theorem minimize_shift (len : Nat) (X : Vec p K) : minimize sqrt f' len (X + v) = (minimize sqrt f len X).shift v := by
  unfold minimize
  rw [hf]
  cases f X with
  | none => rfl
  | some r => exact mainLoop_shift sqrt v hf len _ _ _ _ _ _ _ _ _

end
end Mini

namespace Gp
open Matrix Kci CvScore Mini
variable {T m : Nat}

theorem covSum_units (a b : ℝ) (ha : a ≠ 0) (x : Col T) (h : Vec 2 ℝ) : covSum (fun i => a * x i + b) (h + fun k => if k = 0 then Real.log |a| else 0) = covSum x h := by
  have h1 : (h + fun k : Fin 3 => if k = 0 then Real.log |a| else 0) 1 = h 1 := by simp
  have h2 : (h + fun k : Fin 3 => if k = 0 then Real.log |a| else 0) 2 = h 2 := by simp
  have h0 : (h + fun k : Fin 3 => if k = 0 then Real.log |a| else 0) 0 = h 0 + Real.log |a| := by simp
  unfold covSum
  rw [h0, h1, h2]
  congr 2
  ext i j
  rw [covSEard_eq, covSEard_eq, Real.exp_add, Real.exp_log (abs_pos.2 ha), mul_pow, sq_abs]
  congr 2
  have := Real.exp_pos (h 0)
  field_simp
  ring

theorem width_units (a b : ℝ) (ha : a ≠ 0) (x : Col T) : width (fun i => a * x i + b) = (width x).bind fun w => .val (|a| * w) := by
  have hp : 0 < a ^ 2 := by positivity
  unfold width
  rw [posDiffs_affine a b ha, npMedian_scale hp]
  cases npMedian (posDiffs x) with
  | raises => rfl
  | nan => rfl
  | val μ =>
    simp only [Res.bind]
    rw [show 0.5 * (a ^ 2 * μ) = a ^ 2 * (0.5 * μ) by ring, Real.sqrt_mul hp.le, Real.sqrt_sq_eq_abs, mul_assoc]

/-- C192. Measuring the variable and its parent in other units (shift, non-zero factor) does not change the score; for constant columns, whose score is an exception, and several parents this
holds too. -/
theorem C192_units (chol : Matrix (Fin T) (Fin T) ℝ → Option (Matrix (Fin T) (Fin T) ℝ)) (targets : Matrix (Fin T) (Fin T) ℝ → Σ m : Nat, Matrix (Fin T) (Fin m) ℝ)
    {x x' : Col T} (hx : OtherUnits x x') {pas pas' : List (Col T)} (hp : List.Forall₂ OtherUnits pas pas') : marginalScore chol targets x' pas' = marginalScore chol targets x pas := by
  unfold marginalScore
  rw [kx_units 2.5 hx]
  cases strict (kx 2.5 x) with
  | raises => rfl
  | nan => rfl
  | val K =>
    show (if T < 4 then Res.raises else _) = if T < 4 then Res.raises else _
    congr 1
    match pas, pas', hp with
    | [], [], _ => rfl
    | [p], [p'], .cons ⟨a, b, ha, e⟩ .nil =>
      subst e
      show (strict (width fun i => a * p i + b)).bind _ = (strict (width p)).bind _
      rw [width_units a b ha]
      by_cases hcp : Const p
      · have : width p = .nan := by rw [width, posDiffs_nil.2 hcp]; rfl
        rw [this]; rfl
      · obtain ⟨μ, hμ, -, hw⟩ := width_val hcp
        have hw0 : 0 < √(μ / 2) * 2.5 := by have : 0 < √(μ / 2) := Real.sqrt_pos.2 (by positivity); positivity
        rw [hw]
        generalize √(μ / 2) * 2.5 = w at hw0
        show optimised chol (fun i => a * p i + b) (targets K).2 (init (Real.log (|a| * w))) = optimised chol p (targets K).2 (init (Real.log w))
        have hf : ∀ Y, gpr chol (fun i => a * p i + b) (targets K).2 (Y + fun k => if k = 0 then Real.log |a| else 0) = gpr chol p (targets K).2 Y := by
          intro Y
          unfold gpr
          rw [covSum_units a b ha]
          have : (Y + fun k : Fin 3 => if k = 0 then Real.log |a| else 0) 2 = Y 2 := by simp
          rw [this]
        have hi : init (Real.log (|a| * w)) = init (Real.log w) + fun k => if k = 0 then Real.log |a| else 0 := by
          funext k
          have : Real.log (|a| * w) = Real.log w + Real.log |a| := by rw [Real.log_mul (abs_pos.2 ha).ne' hw0.ne', add_comm]
          simp only [init, Pi.add_apply, this]
          split_ifs <;> simp
        unfold optimised
        rw [hi, Mini.minimize_shift Real.sqrt _ hf]
        cases minimize Real.sqrt (gpr chol p (targets K).2) 300 (init (Real.log w)) with
        | done X fX i seen =>
          show (match gpr chol (fun i => a * p i + b) (targets K).2 (X + fun k => if k = 0 then Real.log |a| else 0) with | some r => Res.val r.1 | none => Res.raises) = _
          rw [hf]
          rfl
        | raises => rfl
        | succeeded => rfl
    | p :: q :: ps, p' :: q' :: ps', h =>
      have hl : (p :: q :: ps).length = (p' :: q' :: ps').length := h.length_eq
      show (if scaledShape (p' :: q' :: ps').length T = none then Res.raises else Res.nan) = if scaledShape (p :: q :: ps).length T = none then Res.raises else Res.nan
      rw [hl]

end Gp
end CL
