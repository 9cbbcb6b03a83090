import Verif.Model.CalmLoss
import Verif.Spec.LinearModel
import Mathlib.Analysis.Matrix.Order
import Mathlib.LinearAlgebra.Matrix.Block
import Mathlib.Logic.Relation
import Mathlib.Tactic.Ring
import Mathlib.Tactic.FieldSimp
import Mathlib.Tactic.Linarith
import Mathlib.Tactic.FinCases
import Mathlib.Tactic.NormNum

/-!
# C220: CALM's likelihood
-/
namespace CL.CalmLoss
open Matrix Relation
variable {N d : Nat}

section Hadamard
variable {m : Type} [Fintype m] [DecidableEq m]

theorem log_det_unit {M : Matrix m m ℝ} (hM : M.PosDef) (h1 : ∀ i, M i i = 1) : Real.log M.det ≤ 0 ∧ (Real.log M.det = 0 → M = 1) := by
  have hH := hM.isHermitian
  have hpos : ∀ i, 0 < hH.eigenvalues i := hM.eigenvalues_pos
  have hdet : Real.log M.det = ∑ i, Real.log (hH.eigenvalues i) := by
    rw [hH.det_eq_prod_eigenvalues]
    simp only [RCLike.ofReal_real_eq_id, id]
    exact Real.log_prod fun i _ => (hpos i).ne'
  have htr : ∑ i, (hH.eigenvalues i - 1) = 0 := by
    have h := hH.trace_eq_sum_eigenvalues
    simp only [RCLike.ofReal_real_eq_id, id] at h
    rw [Finset.sum_sub_distrib, ← h]
    simp [trace, h1]
  have hle : ∀ i ∈ Finset.univ, Real.log (hH.eigenvalues i) ≤ hH.eigenvalues i - 1 := fun i _ => Real.log_le_sub_one_of_pos (hpos i)
  refine ⟨by rw [hdet, ← htr]; exact Finset.sum_le_sum hle, fun h0 => ?_⟩
  have heq := (Finset.sum_eq_sum_iff_of_le hle).1 (by rw [← hdet, h0, htr])
  have hone : ∀ i, hH.eigenvalues i = 1 := by
    intro i
    by_contra hne
    exact absurd (heq i (Finset.mem_univ i)) (Real.log_lt_sub_one_of_pos (hpos i) hne).ne
  rw [hH.spectral_theorem]
  have : diagonal ((RCLike.ofReal : ℝ → ℝ) ∘ hH.eigenvalues) = 1 := by
    rw [← diagonal_one]; congr 1; funext i; simp [hone]
  rw [this, map_one]

/-- Hadamard's inequality with its equality case. -/
theorem hadamard_ineq {M : Matrix m m ℝ} (hM : M.PosDef) :
    Real.log M.det ≤ ∑ i, Real.log (M i i) ∧ (Real.log M.det = ∑ i, Real.log (M i i) ↔ ∀ i j, i ≠ j → M i j = 0) := by
  have hd : ∀ i, 0 < M i i := fun i => hM.diag_pos
  set D : Matrix m m ℝ := diagonal fun i => (Real.sqrt (M i i))⁻¹ with hD
  have hs : ∀ i, 0 < Real.sqrt (M i i) := fun i => Real.sqrt_pos.2 (hd i)
  have hDdet : D.det = ∏ i, (Real.sqrt (M i i))⁻¹ := det_diagonal
  have hDne : D.det ≠ 0 := by rw [hDdet]; exact Finset.prod_ne_zero_iff.2 fun i _ => (inv_pos.2 (hs i)).ne'
  have hent : ∀ i j, (D * M * D) i j = (Real.sqrt (M i i))⁻¹ * M i j * (Real.sqrt (M j j))⁻¹ := by
    intro i j; rw [hD, mul_diagonal, diagonal_mul]
  have hDt : Dᴴ = D := by rw [hD, diagonal_conjTranspose]; congr 1
  have hN : (D * M * D).PosDef := by
    have := hM.conjTranspose_mul_mul_same (B := D) (mulVec_injective_iff_isUnit.2 ((isUnit_iff_isUnit_det _).2 hDne.isUnit))
    rwa [hDt] at this
  have hN1 : ∀ i, (D * M * D) i i = 1 := by
    intro i
    rw [hent]
    have := Real.mul_self_sqrt (hd i).le
    rw [mul_assoc, mul_comm, mul_assoc, ← mul_inv, this, mul_inv_cancel₀ (hd i).ne']
  obtain ⟨hle, heq⟩ := log_det_unit hN hN1
  have hlogD : Real.log D.det = ∑ i, -(1 / 2 * Real.log (M i i)) := by
    rw [hDdet, Real.log_prod fun i _ => (inv_pos.2 (hs i)).ne']
    refine Finset.sum_congr rfl fun i _ => ?_
    rw [Real.log_inv, Real.log_sqrt (hd i).le]; ring
  have hlog : Real.log (D * M * D).det = Real.log M.det - ∑ i, Real.log (M i i) := by
    rw [det_mul, det_mul, Real.log_mul (mul_ne_zero hDne hM.det_pos.ne') hDne, Real.log_mul hDne hM.det_pos.ne', hlogD, Finset.sum_neg_distrib,
      ← Finset.mul_sum]
    ring
  rw [hlog] at hle heq
  refine ⟨by linarith, fun h => ?_, fun h => ?_⟩
  · have h1 := heq (by linarith)
    intro i j hij
    have := hent i j
    rw [h1, one_apply_ne hij] at this
    rcases mul_eq_zero.1 this.symm with h2 | h2
    · rcases mul_eq_zero.1 h2 with h3 | h3
      · exact absurd h3 (inv_pos.2 (hs i)).ne'
      · exact h3
    · exact absurd h2 (inv_pos.2 (hs j)).ne'
  · have : M = diagonal fun i => M i i := by
      ext i j
      by_cases hij : i = j
      · subst hij; simp
      · rw [diagonal_apply_ne _ hij, h i j hij]
    rw [this, det_diagonal, Real.log_prod (fun i _ => (hd i).ne')]
    simp

end Hadamard

/-- The residual of column `j` when it is predicted by the columns `i` with weights `B i j` (all columns centred). -/
noncomputable def residual (X : Fin N → Fin d → ℝ) (B : Matrix (Fin d) (Fin d) ℝ) (n : Fin N) (j : Fin d) : ℝ :=
  (X n j - (∑ m, X m j) / N) - ∑ i, B i j * (X n i - (∑ m, X m i) / N)

theorem residual_eq (X : Fin N → Fin d → ℝ) (B : Matrix (Fin d) (Fin d) ℝ) (n : Fin N) (j : Fin d) :
    residual X B n j = (of (centred X) * (1 - B) : Matrix (Fin N) (Fin d) ℝ) n j := by
  rw [Matrix.mul_sub, Matrix.mul_one, Matrix.sub_apply, mul_apply]
  simp only [residual, of_apply, centred]
  congr 1
  exact Finset.sum_congr rfl fun i _ => mul_comm _ _

theorem cov_eq (X : Fin N → Fin d → ℝ) : covEmp X = (1 / (N : ℝ)) • ((of (centred X))ᵀ * of (centred X)) := by
  ext j k
  simp [covEmp, mul_apply, div_eq_inv_mul]

theorem quad_entry (X : Fin N → Fin d → ℝ) (B : Matrix (Fin d) (Fin d) ℝ) (j k : Fin d) :
    ((1 - B)ᵀ * covEmp X * (1 - B) : Matrix (Fin d) (Fin d) ℝ) j k = (∑ n, residual X B n j * residual X B n k) / N := by
  have : (1 - B)ᵀ * covEmp X * (1 - B) = (1 / (N : ℝ)) • ((of (centred X) * (1 - B))ᵀ * (of (centred X) * (1 - B))) := by
    rw [cov_eq, transpose_mul, Matrix.mul_smul, Matrix.smul_mul]
    simp only [Matrix.mul_assoc]
  rw [this, Matrix.smul_apply, mul_apply]
  simp only [transpose_apply, ← residual_eq, smul_eq_mul]
  rw [one_div, div_eq_inv_mul]

theorem cov_psd (X : Fin N → Fin d → ℝ) : (covEmp X).PosSemidef := by
  rw [cov_eq]
  have := (posSemidef_conjTranspose_mul_self (of (centred X) : Matrix (Fin N) (Fin d) ℝ)).smul (a := 1 / (N : ℝ)) (by positivity)
  simpa using this

theorem cov_posDef {X : Fin N → Fin d → ℝ} (h : (covEmp X).det ≠ 0) : (covEmp X).PosDef := (cov_psd X).posDef_iff_det_ne_zero.2 h

theorem quad_posDef {S B : Matrix (Fin d) (Fin d) ℝ} (hS : S.PosDef) (hB : (1 - B).det ≠ 0) : ((1 - B)ᵀ * S * (1 - B)).PosDef := by
  have := hS.conjTranspose_mul_mul_same (B := 1 - B) (mulVec_injective_iff_isUnit.2 ((isUnit_iff_isUnit_det _).2 hB.isUnit))
  simpa using this

theorem likelihood_gap {S B : Matrix (Fin d) (Fin d) ℝ} (hS : S.PosDef) (hB : (1 - B).det ≠ 0) :
    likelihood B S = 1 / 2 * Real.log S.det +
      1 / 2 * (∑ j, Real.log (((1 - B)ᵀ * S * (1 - B) : Matrix (Fin d) (Fin d) ℝ) j j) - Real.log ((1 - B)ᵀ * S * (1 - B)).det) := by
  have : Real.log ((1 - B)ᵀ * S * (1 - B)).det = 2 * Real.log |(1 - B).det| + Real.log S.det := by
    rw [det_mul, det_mul, det_transpose, Real.log_mul (mul_ne_zero hB hS.det_pos.ne') hB, Real.log_mul hB hS.det_pos.ne', Real.log_abs]
    ring
  rw [likelihood, this]; ring

/-- **C220**: whatever the weights (of a cyclic or an acyclic model), the likelihood term is at least half the log-determinant of the sample
covariance. -/
theorem C220_bound (X : Fin N → Fin d → ℝ) (hX : (covEmp X).det ≠ 0) (B : Matrix (Fin d) (Fin d) ℝ) (hB : (1 - B).det ≠ 0) :
    1 / 2 * Real.log (covEmp X).det ≤ likelihood B (covEmp X) := by
  rw [likelihood_gap (cov_posDef hX) hB]
  have := (hadamard_ineq (quad_posDef (cov_posDef hX) hB)).1
  linarith

/-- **C220**: the bound is attained exactly by the weights whose residuals are pairwise uncorrelated in the sample. -/
theorem C220_optimum (X : Fin N → Fin d → ℝ) (hX : (covEmp X).det ≠ 0) (B : Matrix (Fin d) (Fin d) ℝ) (hB : (1 - B).det ≠ 0) :
    likelihood B (covEmp X) = 1 / 2 * Real.log (covEmp X).det ↔ ∀ j k, j ≠ k → ∑ n, residual X B n j * residual X B n k = 0 := by
  have hS := cov_posDef hX
  rw [likelihood_gap hS hB]
  have h := (hadamard_ineq (quad_posDef hS hB)).2
  have hN : ∀ j k, ((1 - B)ᵀ * covEmp X * (1 - B) : Matrix (Fin d) (Fin d) ℝ) j k = 0 ↔ ∑ n, residual X B n j * residual X B n k = 0 := by
    intro j k
    rw [quad_entry]
    rcases Nat.eq_zero_or_pos N with h0 | h0
    · subst h0; simp
    · rw [div_eq_zero_iff]; simp [h0.ne']
  simp only [hN] at h
  rw [← h]
  constructor <;> intro h' <;> linarith

/-! ### Acyclic weights -/

theorem rank_of_acyclic {D : Fin d → Fin d → Prop} (hac : ∀ i, ¬ TransGen D i i) : ∃ f : Fin d → ℕ, ∀ i j, D i j → f i < f j := by
  classical
  refine ⟨fun i => (Finset.univ.filter fun j => TransGen D j i).card, fun i j hij => Finset.card_lt_card ?_⟩
  rw [Finset.ssubset_iff_of_subset]
  · exact ⟨i, by simpa using TransGen.single hij, by simpa using hac i⟩
  · intro k hk
    simp only [Finset.mem_filter, Finset.mem_univ, true_and] at hk ⊢
    exact hk.tail hij

theorem det_of_acyclic {B : Matrix (Fin d) (Fin d) ℝ} (hac : ∀ i, ¬ TransGen (fun i j => B i j ≠ 0) i i) : (1 - B).det = 1 := by
  obtain ⟨f, hf⟩ := rank_of_acyclic hac
  have hBT : BlockTriangular (1 - B) f := by
    intro i j hlt
    have hij : i ≠ j := fun h => by subst h; exact lt_irrefl _ hlt
    rw [Matrix.sub_apply, one_apply_ne hij]
    have : B i j = 0 := by
      by_contra h
      exact absurd (hf i j h) (not_lt.2 hlt.le)
    simp [this]
  rw [hBT.det]
  refine Finset.prod_eq_one fun a _ => ?_
  have : (1 - B).toSquareBlock f a = 1 := by
    ext ⟨i, hi⟩ ⟨j, hj⟩
    have h0 : B i j = 0 := by
      by_contra h
      have := hf i j h
      omega
    simp only [toSquareBlock_def, of_apply, Matrix.sub_apply, h0, sub_zero, one_apply, Subtype.mk.injEq]
  rw [this, det_one]

/-- **C220**: for weights without directed cycle the likelihood term is half the sum of the logarithms of the residuals' mean squares - the negative
Gaussian log-likelihood of a linear model, up to constants, with each error variance estimated. -/
theorem C220_acyclic (X : Fin N → Fin d → ℝ) (B : Matrix (Fin d) (Fin d) ℝ) (hac : ∀ i, ¬ TransGen (fun i j => B i j ≠ 0) i i) :
    likelihood B (covEmp X) = 1 / 2 * ∑ j, Real.log ((∑ n, residual X B n j ^ 2) / N) := by
  rw [likelihood, det_of_acyclic hac]
  simp only [quad_entry, abs_one, Real.log_one, sub_zero, pow_two]

/-- **C220**: if the data come from a linear model on an acyclic graph, then weights along the edges of that graph minimise the likelihood term over
all models, cyclic ones included. -/
theorem C220_true_model (X : Fin N → Fin d → ℝ) (D : Fin d → Fin d → Prop) (hac : ∀ i, ¬ TransGen D i i) (hX : Spec.LinearModel D X)
    (hdet : (covEmp X).det ≠ 0) :
    ∃ B : Matrix (Fin d) (Fin d) ℝ, (∀ i j, B i j ≠ 0 → D i j) ∧
      ∀ B' : Matrix (Fin d) (Fin d) ℝ, (1 - B').det ≠ 0 → likelihood B (covEmp X) ≤ likelihood B' (covEmp X) := by
  obtain ⟨b0, B, e, hsup, hgen, hmean, -, hunc⟩ := hX
  have hBD : ∀ i j, B i j ≠ 0 → D i j := fun i j h => by by_contra hn; exact h (hsup i j hn)
  refine ⟨of B, hBD, fun B' hB' => ?_⟩
  have hac' : ∀ i, ¬ TransGen (fun i j => (of B : Matrix (Fin d) (Fin d) ℝ) i j ≠ 0) i i := fun i t =>
    hac i ((TransGen.mono (p := D) hBD) i i t)
  have hBd : (1 - (of B : Matrix (Fin d) (Fin d) ℝ)).det ≠ 0 := by rw [det_of_acyclic hac']; exact one_ne_zero
  have hN : (N : ℝ) ≠ 0 ∨ N = 0 := by rcases Nat.eq_zero_or_pos N with h | h
                                      · exact Or.inr h
                                      · exact Or.inl (by exact_mod_cast h.ne')
  have hres : ∀ n j, residual X (of B) n j = e j n := by
    intro n j
    rcases hN with hN | hN
    · have hm : (∑ m, X m j) / N = b0 j + ∑ i, B i j * ((∑ m, X m i) / N) := by
        have : ∑ m, X m j = N * b0 j + ∑ i, B i j * ∑ m, X m i := by
          simp_rw [hgen _ j, Finset.sum_add_distrib, hmean j, Finset.sum_const, Finset.card_univ, Fintype.card_fin, nsmul_eq_mul, add_zero]
          rw [Finset.sum_comm]
          simp_rw [Finset.mul_sum]
        rw [this, add_div, mul_div_cancel_left₀ _ hN, Finset.sum_div]
        simp_rw [mul_div_assoc]
      rw [residual, hm, hgen n j]
      simp only [of_apply, mul_sub, Finset.sum_sub_distrib]
      ring
    · subst hN; exact n.elim0
  rw [(C220_optimum X hdet (of B) hBd).2 (fun j k hjk => by simp_rw [hres]; exact hunc j k hjk)]
  exact C220_bound X hdet B' hB'

/-- **C220**: over all weights, the loss of any sampled mask is at least the same bound. -/
theorem C220_loss (X : Fin N → Fin d → ℝ) (hX : (covEmp X).det ≠ 0) {lam rho : ℝ} (hl : 0 ≤ lam) (hr : 0 ≤ rho)
    (mask param : Matrix (Fin d) (Fin d) ℝ) (hm : ∀ i j, 0 ≤ mask i j) (hB : (1 - of fun i j => mask i j * param i j).det ≠ 0) :
    1 / 2 * Real.log (covEmp X).det ≤ loss (covEmp X) lam rho mask param := by
  have h1 := C220_bound X hX _ hB
  have h2 : 0 ≤ lam * ∑ i, ∑ j, mask i j := mul_nonneg hl (Finset.sum_nonneg fun i _ => Finset.sum_nonneg fun j _ => hm i j)
  have h3 : 0 ≤ 1 / 2 * rho * hTerm mask ^ 2 := by positivity
  rw [loss]; linarith

/-- **C220**: the weights of the pairs outside the moral graph do not matter. -/
theorem C220_moral (S : Matrix (Fin d) (Fin d) ℝ) (lam rho tau : ℝ) (sig : ℝ → ℝ) (moral : Fin d → Fin d → Bool) (logit logit' noise noise' : Fin d → Fin d → ℝ)
    (param param' : Matrix (Fin d) (Fin d) ℝ)
    (h : ∀ i j, moral i j = true → logit i j = logit' i j ∧ noise i j = noise' i j ∧ param i j = param' i j) :
    loss S lam rho (sampleMask sig tau moral logit noise) param = loss S lam rho (sampleMask sig tau moral logit' noise') param' := by
  have hm : sampleMask sig tau moral logit noise = sampleMask sig tau moral logit' noise' := by
    ext i j
    simp only [sampleMask, of_apply]
    cases hb : moral i j
    · simp
    · rw [(h i j hb).1, (h i j hb).2.1]
  have hp : (of fun i j => sampleMask sig tau moral logit noise i j * param i j : Matrix (Fin d) (Fin d) ℝ) =
      of fun i j => sampleMask sig tau moral logit noise i j * param' i j := by
    ext i j
    simp only [sampleMask, of_apply]
    cases hb : moral i j
    · simp
    · rw [(h i j hb).2.2]
  rw [loss, loss, ← hm, hp]

/-! ### Units -/

/-- **C220**: multiplying the columns by non-zero constants (and the weights accordingly) adds a constant to the likelihood term, the same for
every weight matrix: the units of the variables do not change which weights are best. -/
theorem C220_units (X : Fin N → Fin d → ℝ) (hX : (covEmp X).det ≠ 0) (s : Fin d → ℝ) (hs : ∀ j, s j ≠ 0) (B : Matrix (Fin d) (Fin d) ℝ)
    (hB : (1 - B).det ≠ 0) :
    likelihood (of fun i j => B i j * s j / s i) (covEmp fun n j => s j * X n j) = likelihood B (covEmp X) + ∑ j, Real.log |s j| := by
  set D : Matrix (Fin d) (Fin d) ℝ := diagonal s
  set E : Matrix (Fin d) (Fin d) ℝ := diagonal fun i => (s i)⁻¹
  have hED : E * D = 1 := by
    rw [diagonal_mul_diagonal, ← diagonal_one]; congr 1; funext i; exact inv_mul_cancel₀ (hs i)
  have hDE : D * E = 1 := by
    rw [diagonal_mul_diagonal, ← diagonal_one]; congr 1; funext i; exact mul_inv_cancel₀ (hs i)
  have h1 : (1 - of fun i j => B i j * s j / s i : Matrix (Fin d) (Fin d) ℝ) = E * (1 - B) * D := by
    rw [mul_sub, mul_one, sub_mul, hED]
    congr 1
    ext i j
    rw [mul_diagonal, diagonal_mul, of_apply]; field_simp
  have hdet : (E * (1 - B) * D).det = (1 - B).det := by
    have : E.det * D.det = 1 := by rw [← det_mul, hED, det_one]
    rw [det_mul, det_mul, mul_right_comm, this, one_mul]
  have hcov : covEmp (fun n j => s j * X n j) = D * covEmp X * D := by
    ext j k
    rw [mul_diagonal, diagonal_mul]
    simp only [covEmp, of_apply]
    rw [mul_div_assoc', div_mul_eq_mul_div, Finset.mul_sum, Finset.sum_mul]
    congr 1
    refine Finset.sum_congr rfl fun n _ => ?_
    simp only [centred, ← Finset.mul_sum]
    ring
  have hq : ∀ j, ((E * (1 - B) * D)ᵀ * (D * covEmp X * D) * (E * (1 - B) * D) : Matrix (Fin d) (Fin d) ℝ) j j = s j ^ 2 * ((1 - B)ᵀ * covEmp X * (1 - B) : Matrix (Fin d) (Fin d) ℝ) j j := by
    intro j
    have : (E * (1 - B) * D)ᵀ * (D * covEmp X * D) * (E * (1 - B) * D) = D * ((1 - B)ᵀ * covEmp X * (1 - B)) * D := by
      rw [transpose_mul, transpose_mul, diagonal_transpose, diagonal_transpose]
      calc D * ((1 - B)ᵀ * E) * (D * covEmp X * D) * (E * (1 - B) * D)
          = D * ((1 - B)ᵀ * ((E * D) * (covEmp X * ((D * E) * ((1 - B) * D))))) := by simp only [Matrix.mul_assoc]
        _ = _ := by rw [hED, hDE, Matrix.one_mul, Matrix.one_mul]; simp only [Matrix.mul_assoc]
    rw [this, mul_diagonal, diagonal_mul]; ring
  have hpos : ∀ j, ((1 - B)ᵀ * covEmp X * (1 - B) : Matrix (Fin d) (Fin d) ℝ) j j ≠ 0 := fun j => (quad_posDef (cov_posDef hX) hB).diag_pos.ne'
  rw [likelihood, likelihood, h1, hdet, hcov]
  simp only [hq]
  have : ∀ j, Real.log (s j ^ 2 * ((1 - B)ᵀ * covEmp X * (1 - B) : Matrix (Fin d) (Fin d) ℝ) j j) = 2 * Real.log |s j| + Real.log (((1 - B)ᵀ * covEmp X * (1 - B) : Matrix (Fin d) (Fin d) ℝ) j j) := by
    intro j
    rw [Real.log_mul (pow_ne_zero 2 (hs j)) (hpos j), Real.log_pow, Real.log_abs]; norm_num
  simp only [this, Finset.sum_add_distrib, ← Finset.mul_sum]
  ring

theorem centred_centred (X : Fin N → Fin d → ℝ) : centred (centred X) = centred X := by
  funext n j
  have hN : (N : ℝ) ≠ 0 := by
    have : 0 < N := n.pos
    exact_mod_cast this.ne'
  have : ∑ m, centred X m j = 0 := by
    simp only [centred, Finset.sum_sub_distrib, Finset.sum_const, Finset.card_univ, Fintype.card_fin, nsmul_eq_mul]
    field_simp; ring
  rw [centred, this, zero_div, sub_zero]

/-- **C220**: `standardize=True` does not change which weights are best for the likelihood term either. -/
theorem C220_standardize (X : Fin N → Fin d → ℝ) (hX : (covEmp X).det ≠ 0) (B : Matrix (Fin d) (Fin d) ℝ) (hB : (1 - B).det ≠ 0) :
    ∃ c : ℝ, ∃ s : Fin d → ℝ, (∀ j, s j = 1 / Real.sqrt ((∑ m, (X m j - (∑ m, X m j) / N) ^ 2) / N)) ∧
      (∀ j, covEmp (standardized X) j j = 1) ∧ c = ∑ j, Real.log |s j| ∧
      likelihood (of fun i j => B i j * s j / s i) (covEmp (standardized X)) = likelihood B (covEmp X) + c := by
  have hvar : ∀ j, covEmp X j j = (∑ m, centred X m j ^ 2) / N := fun j => by simp [covEmp, pow_two]
  have hpos : ∀ j, 0 < (∑ m, centred X m j ^ 2) / N := fun j => by rw [← hvar]; exact (cov_posDef hX).diag_pos
  have hcc : covEmp (centred X) = covEmp X := by ext j k; simp only [covEmp, of_apply, centred_centred]
  have hst : standardized X = fun n j => 1 / Real.sqrt ((∑ m, centred X m j ^ 2) / N) * centred X n j := by
    funext n j; rw [standardized, one_div, div_eq_inv_mul]
  refine ⟨_, fun j => 1 / Real.sqrt ((∑ m, centred X m j ^ 2) / N), fun j => rfl, fun j => ?_, rfl, ?_⟩
  · have hs : standardized X = centred (standardized X) := by
      rw [hst]
      funext n k
      have hN : (N : ℝ) ≠ 0 := by
        have : 0 < N := n.pos
        exact_mod_cast this.ne'
      have : ∑ m, centred X m k = 0 := by
        simp only [centred, Finset.sum_sub_distrib, Finset.sum_const, Finset.card_univ, Fintype.card_fin, nsmul_eq_mul]
        field_simp; ring
      conv_rhs => rw [centred, ← Finset.mul_sum, this, mul_zero, zero_div, sub_zero]
    have : covEmp (standardized X) j j = (∑ n, standardized X n j ^ 2) / N := by
      simp only [covEmp, of_apply, ← hs, pow_two]
    rw [this]
    simp only [standardized, div_pow, Real.sq_sqrt (hpos j).le, ← Finset.sum_div]
    rw [div_div, mul_comm, ← div_div]
    exact div_self (hpos j).ne'
  · rw [hst, C220_units (centred X) (by rw [hcc]; exact hX) _ (fun j => (one_div_pos.2 (Real.sqrt_pos.2 (hpos j))).ne') B hB, hcc]

/-! ### Two variables: the likelihood does not orient -/

/-- **C220**: for two variables both directions attain the minimum, so neither the likelihood nor the sparsity term distinguishes them. -/
theorem C220_two_variables (X : Fin N → Fin 2 → ℝ) (hX : (covEmp X).det ≠ 0) :
    ∃ b b' : ℝ, likelihood !![0, b; 0, 0] (covEmp X) = 1 / 2 * Real.log (covEmp X).det ∧
      likelihood !![0, 0; b', 0] (covEmp X) = 1 / 2 * Real.log (covEmp X).det := by
  have hS := cov_posDef hX
  have hsym : (covEmp X) 1 0 = (covEmp X) 0 1 := by simp [covEmp, mul_comm]
  have h0 : (covEmp X) 0 0 ≠ 0 := hS.diag_pos.ne'
  have h1 : (covEmp X) 1 1 ≠ 0 := hS.diag_pos.ne'
  have key : ∀ B : Matrix (Fin 2) (Fin 2) ℝ, (1 - B).det ≠ 0 → ((1 - B)ᵀ * covEmp X * (1 - B) : Matrix (Fin 2) (Fin 2) ℝ) 0 1 = 0 → ((1 - B)ᵀ * covEmp X * (1 - B) : Matrix (Fin 2) (Fin 2) ℝ) 1 0 = 0 →
      likelihood B (covEmp X) = 1 / 2 * Real.log (covEmp X).det := by
    intro B hB h01 h10
    rw [likelihood_gap hS hB, ((hadamard_ineq (quad_posDef hS hB)).2).2]
    · ring
    · intro i j hij
      fin_cases i <;> fin_cases j <;> simp_all
  refine ⟨(covEmp X) 0 1 / (covEmp X) 0 0, (covEmp X) 0 1 / (covEmp X) 1 1, key _ ?_ ?_ ?_, key _ ?_ ?_ ?_⟩
  all_goals
    simp only [det_fin_two, mul_apply, Fin.sum_univ_two, transpose_apply, Matrix.sub_apply, one_apply, of_apply, cons_val', cons_val_zero, cons_val_one,
      hsym]
    simp
    try field_simp
    try ring

/-! ### A case -/

/-- Four samples of a variable and of its sum with an uncorrelated error. -/
def exX : Fin 4 → Fin 2 → ℝ := ![![1, 2], ![1, 0], ![-1, 0], ![-1, -2]]
/-- `0 → 1`. -/
def exEdge : Fin 2 → Fin 2 → Prop := fun i j => i = 0 ∧ j = 1

theorem exCov : covEmp exX = !![1, 1; 1, 2] := by
  ext i j
  fin_cases i <;> fin_cases j <;> simp [covEmp, centred, exX, Fin.sum_univ_four] <;> norm_num

/-- The hypotheses are met, and the bound (zero) is not attained without the edge. -/
theorem C220_case : (covEmp exX).det = 1 ∧ (∀ i, ¬ TransGen exEdge i i) ∧ Spec.LinearModel exEdge exX ∧
    likelihood !![0, 1; 0, 0] (covEmp exX) = 0 ∧ 0 < likelihood 0 (covEmp exX) := by
  refine ⟨by rw [exCov]; norm_num [det_fin_two], fun i h => ?_, ?_, ?_, ?_⟩
  · have : ∀ a b, TransGen exEdge a b → a = 0 ∧ b = 1 := by
      intro a b t
      induction t with
      | single h => exact h
      | tail _ h ih => exact ⟨ih.1, h.2⟩
    have := this i i h
    omega
  · refine ⟨fun _ => 0, fun p i => if p = 0 ∧ i = 1 then 1 else 0, ![![1, 1, -1, -1], ![1, -1, 1, -1]], ?_, ?_, ?_, ?_, ?_⟩
    · intro p i h; exact if_neg h
    · intro k i; fin_cases k <;> fin_cases i <;> norm_num [exX, Fin.sum_univ_two]
    · intro i; fin_cases i <;> simp [Fin.sum_univ_four] <;> norm_num
    · intro i; fin_cases i <;> simp [Fin.sum_univ_four] <;> norm_num
    · intro i j hij; fin_cases i <;> fin_cases j <;> first | exact absurd rfl hij | (simp [Fin.sum_univ_four])
  · rw [exCov, likelihood]
    norm_num [det_fin_two, mul_apply, Fin.sum_univ_two, one_apply]
  · rw [exCov, likelihood]
    norm_num [det_fin_two, mul_apply, Fin.sum_univ_two, one_apply]
    exact Real.log_pos (by norm_num)

end CL.CalmLoss
