import Verif.Model.FisherZ
import Verif.Proofs.PartialCorr
import Verif.Props.Cache

/-!
# C76: Fisher's z test is a test of zero partial correlation
-/
open Finset Matrix Spec
namespace CL.FisherZ
variable {N : Nat}

/-- Sum of products of centred columns. -/
noncomputable def gram (data : Fin N → Nat → ℝ) (i j : Nat) : ℝ := ∑ k, (data k i - mean data i) * (data k j - mean data j)

theorem gram_self_nonneg (data : Fin N → Nat → ℝ) (i : Nat) : 0 ≤ gram data i i := sum_nonneg fun k _ => mul_self_nonneg _

theorem gram_sq_le (data : Fin N → Nat → ℝ) (i j : Nat) : gram data i j ^ 2 ≤ gram data i i * gram data j j := by
  have := sum_mul_sq_le_sq_mul_sq univ (fun k => data k i - mean data i) (fun k => data k j - mean data j)
  simp only [sq] at this ⊢
  exact this

theorem center_sum (data : Fin N → Nat → ℝ) (i : Nat) : ∑ k, (data k i - mean data i) = 0 := by
  rcases Nat.eq_zero_or_pos N with h | h
  · subst h; simp
  · have : (N : ℝ) ≠ 0 := by exact_mod_cast h.ne'
    rw [sum_sub_distrib, sum_const, card_univ, Fintype.card_fin, nsmul_eq_mul, mean]
    field_simp
    simp

/-- With at least two samples the clipped correlation is the sum of products over the root of the sums of squares. -/
theorem corr_eq (data : Fin N → Nat → ℝ) (hN : 2 ≤ N) (i j : Nat) : corr data i j = gram data i j / (√(gram data i i) * √(gram data j j)) := by
  have h1 : (0 : ℝ) < (N : ℝ) - 1 := by
    have : (2 : ℝ) ≤ N := by exact_mod_cast hN
    linarith
  have hc : ∀ i j, cov data i j = gram data i j / ((N : ℝ) - 1) := fun _ _ => rfl
  have e : cov data i j / √(cov data i i) / √(cov data j j) = gram data i j / (√(gram data i i) * √(gram data j j)) := by
    rw [hc, hc, hc, Real.sqrt_div (gram_self_nonneg _ _), Real.sqrt_div (gram_self_nonneg _ _), div_div]
    have : √((N : ℝ) - 1) * √((N : ℝ) - 1) = (N : ℝ) - 1 := Real.mul_self_sqrt h1.le
    have h2 : √((N : ℝ) - 1) ≠ 0 := (Real.sqrt_pos.2 h1).ne'
    rw [div_mul_div_comm, this, div_div_div_cancel_right₀ h1.ne']
  unfold corr
  rw [e]
  have hab : |gram data i j / (√(gram data i i) * √(gram data j j))| ≤ 1 := by
    rw [abs_div, abs_of_nonneg (a := √(gram data i i) * √(gram data j j)) (by positivity)]
    refine div_le_one_of_le₀ ?_ (by positivity)
    rw [← Real.sqrt_mul (gram_self_nonneg _ _)]
    exact Real.abs_le_sqrt (gram_sq_le data i j)
  rw [abs_le] at hab
  rw [min_eq_right hab.2, max_eq_right hab.1]

/-- A residual as a combination of centred columns. -/
theorem Residual.center {data : Fin N → Nat → ℝ} {x : Nat} {S : Finset Nat} {u : Fin N → ℝ} (h : Residual data x S u) :
    ∃ b : Nat → ℝ, ∀ k, u k = (data k x - mean data x) - ∑ s ∈ S, b s * (data k s - mean data s) := by
  obtain ⟨b0, b, hb⟩ := h.1
  refine ⟨b, fun k => ?_⟩
  have h0 := h.sum_zero
  have hN : (N : ℝ) ≠ 0 := by exact_mod_cast (Fin.pos k).ne'
  have hm : mean data x - b0 - ∑ s ∈ S, b s * mean data s = 0 := by
    have e : ∑ k, u k = N * (mean data x - b0 - ∑ s ∈ S, b s * mean data s) := by
      simp only [hb, sum_sub_distrib, sum_add_distrib, sum_const, card_univ, Fintype.card_fin, nsmul_eq_mul, mul_sub, mul_sum]
      rw [sum_comm]
      have e1 : ∀ t, (N : ℝ) * mean data t = ∑ k, data k t := fun t => by rw [mean]; field_simp
      rw [e1]
      have e2 : ∀ s ∈ S, (N : ℝ) * (b s * mean data s) = ∑ k, b s * data k s := fun s _ => by rw [mul_left_comm, e1, mul_sum]
      rw [sum_congr rfl e2]
      ring
    rw [h0] at e
    exact (mul_eq_zero.1 e.symm).resolve_left hN
  rw [hb]
  simp only [mul_sub, sum_sub_distrib]
  linarith

theorem sum_get {α : Type} [DecidableEq α] (l : List α) (hl : l.Nodup) (f : α → ℝ) : ∑ i : Fin l.length, f (l.get i) = ∑ t ∈ l.toFinset, f t := by
  let e : Fin l.length ≃ l.toFinset := (hl.getEquiv l).trans (Equiv.subtypeEquivRight fun x => by simp)
  rw [← Finset.sum_coe_sort l.toFinset f]
  exact Fintype.sum_equiv e _ _ fun i => rfl

/-- The correlation matrix of a list of columns. -/
noncomputable def corrMat (R : Nat → Nat → ℝ) (l : List Nat) : Matrix (Fin l.length) (Fin l.length) ℝ := Matrix.of fun i j => R (l.get i) (l.get j)

theorem gram_pos {data : Fin N → Nat → ℝ} (hN : 2 ≤ N) {l : List Nat} (hdet : (corrMat (corr data) l).det ≠ 0) {t : Nat} (ht : t ∈ l) : 0 < √(gram data t t) := by
  rcases (Real.sqrt_nonneg (gram data t t)).lt_or_eq with h | h
  · exact h
  · exfalso
    obtain ⟨i, rfl⟩ := List.get_of_mem ht
    refine hdet (Matrix.det_eq_zero_of_row_eq_zero i fun j => ?_)
    show corr data (l.get i) (l.get j) = 0
    rw [corr_eq data hN, ← h, zero_mul, div_zero]

theorem vecMul_corr {data : Fin N → Nat → ℝ} (hN : 2 ≤ N) {l : List Nat} (hl : l.Nodup) (hdet : (corrMat (corr data) l).det ≠ 0) (w : Nat → ℝ) (u : Fin N → ℝ)
    (hu : ∀ k, u k = ∑ t ∈ l.toFinset, w t * (data k t - mean data t)) (τ : ℝ) (j : Fin l.length) :
    ((fun i => w (l.get i) * √(gram data (l.get i) (l.get i)) / τ) ᵥ* corrMat (corr data) l) j =
      (∑ k, u k * (data k (l.get j) - mean data (l.get j))) / (τ * √(gram data (l.get j) (l.get j))) := by
  rw [vecMul, dotProduct]
  set y := l.get j
  have e : ∀ i : Fin l.length, w (l.get i) * √(gram data (l.get i) (l.get i)) / τ * corrMat (corr data) l i j =
      w (l.get i) * gram data (l.get i) y / (τ * √(gram data y y)) := by
    intro i
    have h1 := (gram_pos hN hdet (List.get_mem l i)).ne'
    show w (l.get i) * √(gram data (l.get i) (l.get i)) / τ * corr data (l.get i) y = _
    rw [corr_eq data hN]
    field_simp
  rw [sum_congr rfl fun i _ => e i, sum_get l hl fun t => w t * gram data t y / (τ * √(gram data y y)), ← sum_div]
  congr 1
  simp only [hu, sum_mul, gram, mul_sum]
  rw [sum_comm]
  exact sum_congr rfl fun k _ => sum_congr rfl fun t _ => by ring

theorem sum_center {data : Fin N → Nat → ℝ} {u : Fin N → ℝ} (h0 : ∑ k, u k = 0) (t : Nat) :
    ∑ k, u k * (data k t - mean data t) = ∑ k, u k * data k t := by
  simp only [mul_sub, sum_sub_distrib]
  rw [← sum_mul, h0, zero_mul, sub_zero]

theorem residual_dot {data : Fin N → Nat → ℝ} {x : Nat} {S : Finset Nat} {v u : Fin N → ℝ} (hv : Residual data x S v) (h0 : ∑ k, u k = 0)
    (ho : ∀ s ∈ S, ∑ k, u k * data k s = 0) : ∑ k, u k * (data k x - mean data x) = ∑ k, u k * v k := by
  obtain ⟨b, hb⟩ := Residual.center hv
  have : ∑ k, u k * v k = ∑ k, u k * (data k x - mean data x) - ∑ s ∈ S, b s * ∑ k, u k * (data k s - mean data s) := by
    simp only [mul_sum]
    rw [sum_comm, ← sum_sub_distrib]
    refine sum_congr rfl fun k _ => ?_
    rw [hb, mul_sub, mul_sum]
    congr 1
    exact sum_congr rfl fun s _ => by ring
  have hz : ∑ s ∈ S, b s * ∑ k, u k * (data k s - mean data s) = 0 := sum_eq_zero fun s hs => by
    rw [sum_center h0, ho s hs, mul_zero]
  rw [this, hz, sub_zero]

/-- Line 219-220: what the code computes from the inverse of the correlation matrix is the partial correlation, and it is never `±1`. -/
theorem partial_corr_of_inv {data : Fin N → Nat → ℝ} (hN : 2 ≤ N) {a b : Nat} {s : List Nat} (hl : (a :: b :: s).Nodup)
    (hdet : (corrMat (corr data) (a :: b :: s)).det ≠ 0) :
    ∃ ρ, PartialCorr data a b s.toFinset ρ ∧ |ρ| < 1 ∧
      -(corrMat (corr data) (a :: b :: s))⁻¹ (0 : Fin (s.length + 2)) (1 : Fin (s.length + 2)) /
        √|(corrMat (corr data) (a :: b :: s))⁻¹ (0 : Fin (s.length + 2)) (0 : Fin (s.length + 2)) *
          (corrMat (corr data) (a :: b :: s))⁻¹ (1 : Fin (s.length + 2)) (1 : Fin (s.length + 2))| = ρ := by
  set l := a :: b :: s with hldef
  obtain ⟨u, hu⟩ := exists_residual data a s.toFinset
  obtain ⟨v, hv⟩ := exists_residual data b s.toFinset
  obtain ⟨p, hp⟩ := Residual.center hu
  obtain ⟨q, hq⟩ := Residual.center hv
  have hab : a ≠ b := fun e => by simp [hldef, e] at hl
  have has : a ∉ s := fun e => by simp [hldef, e] at hl
  have hbs : b ∉ s := fun e => by simp [hldef, e] at hl
  have hset : l.toFinset = insert a (insert b s.toFinset) := by simp [hldef]
  have hsum : ∀ f : Nat → ℝ, ∑ t ∈ l.toFinset, f t = f a + (f b + ∑ t ∈ s.toFinset, f t) := fun f => by
    rw [hset, sum_insert (by simp [hab, has]), sum_insert (by simp [hbs])]
  have hne : ∀ t ∈ s.toFinset, t ≠ a ∧ t ≠ b := fun t ht => by
    rw [List.mem_toFinset] at ht
    exact ⟨fun e => has (e ▸ ht), fun e => hbs (e ▸ ht)⟩
  let wu : Nat → ℝ := fun t => if t = a then 1 else if t = b then 0 else -p t
  let wv : Nat → ℝ := fun t => if t = a then 0 else if t = b then 1 else -q t
  have hwu : ∀ k, u k = ∑ t ∈ l.toFinset, wu t * (data k t - mean data t) := fun k => by
    have e : ∑ t ∈ s.toFinset, wu t * (data k t - mean data t) = -∑ t ∈ s.toFinset, p t * (data k t - mean data t) := by
      rw [← sum_neg_distrib]
      exact sum_congr rfl fun t ht => by simp only [wu, (hne t ht).1, (hne t ht).2, if_false]; ring
    have e1 : wu a = 1 := by simp [wu]
    have e2 : wu b = 0 := by simp [wu, hab.symm]
    rw [hsum, hp k, e, e1, e2]
    ring
  have hwv : ∀ k, v k = ∑ t ∈ l.toFinset, wv t * (data k t - mean data t) := fun k => by
    have e : ∑ t ∈ s.toFinset, wv t * (data k t - mean data t) = -∑ t ∈ s.toFinset, q t * (data k t - mean data t) := by
      rw [← sum_neg_distrib]
      exact sum_congr rfl fun t ht => by simp only [wv, (hne t ht).1, (hne t ht).2, if_false]; ring
    have e1 : wv a = 0 := by simp [wv]
    have e2 : wv b = 1 := by simp [wv, hab.symm]
    rw [hsum, hq k, e, e1, e2]
    ring
  set σ : Nat → ℝ := fun t => √(gram data t t) with hσ
  have hσa : 0 < σ a := gram_pos hN hdet (by simp [hldef])
  have hσb : 0 < σ b := gram_pos hN hdet (by simp [hldef])
  set M := corrMat (corr data) l with hM
  have hunit : IsUnit M.det := isUnit_iff_ne_zero.2 hdet
  let x0 : Fin l.length := (0 : Fin (s.length + 2))
  let y0 : Fin l.length := (1 : Fin (s.length + 2))
  have hx0 : l.get x0 = a := rfl
  have hy0 : l.get y0 = b := rfl
  have hxy : x0 ≠ y0 := fun e => hab (by rw [← hx0, ← hy0, e])
  have hrest : ∀ i : Fin l.length, i ≠ x0 → i ≠ y0 → l.get i ∈ s.toFinset := by
    intro i h1 h2
    have hm : l.get i = a ∨ l.get i = b ∨ l.get i ∈ s := (List.mem_cons.1 (List.get_mem l i)).imp id List.mem_cons.1
    rw [List.mem_toFinset]
    rcases hm with h | h | h
    · exact absurd (hl.injective_get (a₁ := i) (a₂ := x0) (by rw [hx0]; exact h)) h1
    · exact absurd (hl.injective_get (a₁ := i) (a₂ := y0) (by rw [hy0]; exact h)) h2
    · exact h
  let U : Fin l.length → ℝ := fun i => wu (l.get i) * σ (l.get i) / σ a
  let W : Fin l.length → ℝ := fun i => wv (l.get i) * σ (l.get i) / σ b
  have hU := vecMul_corr hN hl hdet wu u hwu (σ a)
  have hW := vecMul_corr hN hl hdet wv v hwv (σ b)
  have hUz : ∀ i, i ≠ x0 → i ≠ y0 → (U ᵥ* M) i = 0 := fun i h1 h2 => by
    rw [hU i, sum_center hu.sum_zero, hu.orth (hrest i h1 h2), zero_div]
  have hWz : ∀ i, i ≠ x0 → i ≠ y0 → (W ᵥ* M) i = 0 := fun i h1 h2 => by
    rw [hW i, sum_center hv.sum_zero, hv.orth (hrest i h1 h2), zero_div]
  have hUx : (U ᵥ* M) x0 = (∑ k, u k ^ 2) / (σ a * σ a) := by
    rw [hU x0, hx0, residual_dot hu hu.sum_zero fun s hs => hu.orth hs]
    simp only [sq, hσ]
  have hUy : (U ᵥ* M) y0 = (∑ k, u k * v k) / (σ a * σ b) := by
    rw [hU y0, hy0, residual_dot hv hu.sum_zero fun s hs => hu.orth hs]
  have hWx : (W ᵥ* M) x0 = (∑ k, u k * v k) / (σ a * σ b) := by
    rw [hW x0, hx0, residual_dot hu hv.sum_zero fun s hs => hv.orth hs, mul_comm (σ b)]
    simp only [mul_comm (v _), hσ]
  have hWy : (W ᵥ* M) y0 = (∑ k, v k ^ 2) / (σ b * σ b) := by
    rw [hW y0, hy0, residual_dot hv hv.sum_zero fun s hs => hv.orth hs]
    simp only [sq, hσ]
  have r1 := inv_row M hunit hxy U hUz x0
  have r2 := inv_row M hunit hxy U hUz y0
  have r3 := inv_row M hunit hxy W hWz x0
  have r4 := inv_row M hunit hxy W hWz y0
  have u1 : U x0 = 1 := by show wu a * σ a / σ a = 1; simp [wu, hσa.ne']
  have u2 : U y0 = 0 := by show wu b * σ b / σ a = 0; simp [wu, hab.symm]
  have u3 : W x0 = 0 := by show wv a * σ a / σ b = 0; simp [wv]
  have u4 : W y0 = 1 := by show wv b * σ b / σ b = 1; simp [wv, hab.symm, hσb.ne']
  rw [hUx, hUy, u1] at r1
  rw [hUx, hUy, u2] at r2
  rw [hWx, hWy, u3] at r3
  rw [hWx, hWy, u4] at r4
  have hA : 0 ≤ ∑ k, u k ^ 2 := sum_nonneg fun k _ => sq_nonneg _
  have hC : 0 ≤ ∑ k, v k ^ 2 := sum_nonneg fun k _ => sq_nonneg _
  have hcs : ((∑ k, u k * v k) / (σ a * σ b)) ^ 2 ≤ (∑ k, u k ^ 2) / (σ a * σ a) * ((∑ k, v k ^ 2) / (σ b * σ b)) := by
    rw [div_pow, div_mul_div_comm]
    have e : (σ a * σ b) ^ 2 = σ a * σ a * (σ b * σ b) := by ring
    rw [e]
    exact div_le_div_of_nonneg_right (sum_mul_sq_le_sq_mul_sq univ u v) (by positivity)
  obtain ⟨k1, k2, k3, k4⟩ := ratio (div_nonneg hA (by positivity)) (div_nonneg hC (by positivity)) hcs r1 r2 r3 r4
  have hA' : 0 < ∑ k, u k ^ 2 := by
    rcases hA.lt_or_eq with h | h
    · exact h
    · rw [← h, zero_div] at k1; exact absurd k1 (lt_irrefl _)
  have hC' : 0 < ∑ k, v k ^ 2 := by
    rcases hC.lt_or_eq with h | h
    · exact h
    · rw [← h, zero_div] at k2; exact absurd k2 (lt_irrefl _)
  have hroot : √((∑ k, u k ^ 2) / (σ a * σ a) * ((∑ k, v k ^ 2) / (σ b * σ b))) = √((∑ k, u k ^ 2) * ∑ k, v k ^ 2) / (σ a * σ b) := by
    rw [div_mul_div_comm, show σ a * σ a * (σ b * σ b) = (σ a * σ b) ^ 2 by ring, Real.sqrt_div (by positivity), Real.sqrt_sq (by positivity)]
  have hfin : (∑ k, u k * v k) / (σ a * σ b) / √((∑ k, u k ^ 2) / (σ a * σ a) * ((∑ k, v k ^ 2) / (σ b * σ b))) =
      (∑ k, u k * v k) / √((∑ k, u k ^ 2) * ∑ k, v k ^ 2) := by
    rw [hroot, div_div_div_cancel_right₀ (by positivity)]
  refine ⟨(∑ k, u k * v k) / √((∑ k, u k ^ 2) * ∑ k, v k ^ 2), ⟨u, v, hu, hv, hA', hC', rfl⟩, ?_, ?_⟩
  · rw [← hfin, abs_div, abs_of_nonneg (Real.sqrt_nonneg _), div_lt_one (Real.sqrt_pos.2 (mul_pos k1 k2))]
    exact (Real.lt_sqrt (abs_nonneg _)).2 (by rw [sq_abs]; exact k3)
  · rw [← hfin]; exact k4

/-- Fisher's z: twice the upper tail of `√(m - c - 3) · |artanh ρ|`. -/
noncomputable def fisherP (Φ : ℝ → ℝ) (m c : Nat) (ρ : ℝ) : ℝ := 2 * (1 - Φ (√((m : ℝ) - c - 3) * |1 / 2 * Real.log ((1 + ρ) / (1 - ρ))|))

/-- No non-trivial combination of the columns in `W` is constant over the rows. -/
def Independent (data : Fin N → Nat → ℝ) (W : Finset Nat) : Prop :=
  ∀ c : Nat → ℝ, (∃ c0, ∀ k, ∑ t ∈ W, c t * data k t = c0) → ∀ t ∈ W, c t = 0

theorem Independent.det_ne {data : Fin N → Nat → ℝ} (hN : 2 ≤ N) {l : List Nat} (hl : l.Nodup) (h : Independent data l.toFinset) :
    (corrMat (corr data) l).det ≠ 0 := by
  have hpos : ∀ t ∈ l, 0 < √(gram data t t) := by
    intro t ht
    rw [Real.sqrt_pos]
    rcases (gram_self_nonneg data t).lt_or_eq with h1 | h1
    · exact h1
    · exfalso
      have h2 : ∀ k, data k t - mean data t = 0 := fun k =>
        mul_self_eq_zero.1 ((sum_eq_zero_iff_of_nonneg fun k _ => mul_self_nonneg (data k t - mean data t)).1 h1.symm k (mem_univ k))
      have := h (fun s => if s = t then 1 else 0) ⟨mean data t, fun k => by
        simp [List.mem_toFinset.2 ht, sub_eq_zero.1 (h2 k), ht]⟩ t (List.mem_toFinset.2 ht)
      simp at this
  intro hdet
  obtain ⟨v, hv, hM⟩ := Matrix.exists_mulVec_eq_zero_iff.2 hdet
  let e : Fin l.length ≃ l.toFinset := (hl.getEquiv l).trans (Equiv.subtypeEquivRight fun x => by simp)
  let c : Nat → ℝ := fun t => if ht : t ∈ l.toFinset then v (e.symm ⟨t, ht⟩) / √(gram data t t) else 0
  have hc : ∀ i, c (l.get i) = v i / √(gram data (l.get i) (l.get i)) := fun i => by
    have hi : l.get i ∈ l.toFinset := List.mem_toFinset.2 (List.get_mem l i)
    have : e.symm ⟨l.get i, hi⟩ = i := by rw [Equiv.symm_apply_eq]; rfl
    simp only [c, hi, dif_pos, this]
  have hz : ∑ k, (∑ t ∈ l.toFinset, c t * (data k t - mean data t)) ^ 2 = 0 := by
    have e0 : v ⬝ᵥ (corrMat (corr data) l *ᵥ v) = 0 := by rw [hM, dotProduct_zero]
    rw [← e0]
    simp only [dotProduct, mulVec, mul_sum, sq, sum_mul]
    simp only [← sum_get l hl]
    rw [sum_comm]
    refine sum_congr rfl fun i _ => ?_
    rw [sum_comm]
    refine sum_congr rfl fun j _ => ?_
    have h1 := (hpos _ (List.get_mem l i)).ne'
    have h2 := (hpos _ (List.get_mem l j)).ne'
    have e1 : corrMat (corr data) l i j = gram data (l.get i) (l.get j) / (√(gram data (l.get i) (l.get i)) * √(gram data (l.get j) (l.get j))) :=
      corr_eq data hN _ _
    rw [e1, hc, hc]
    have e2 : ∀ k, v i / √(gram data (l.get i) (l.get i)) * (data k (l.get i) - mean data (l.get i)) *
        (v j / √(gram data (l.get j) (l.get j)) * (data k (l.get j) - mean data (l.get j))) =
        (v i * v j / (√(gram data (l.get i) (l.get i)) * √(gram data (l.get j) (l.get j)))) *
          ((data k (l.get i) - mean data (l.get i)) * (data k (l.get j) - mean data (l.get j))) := fun k => by ring
    simp only [e2, mul_comm (v j / _ * _)]
    rw [← mul_sum]
    show _ * gram data (l.get i) (l.get j) = _
    ring
  have hzero : ∀ k, ∑ t ∈ l.toFinset, c t * (data k t - mean data t) = 0 := fun k =>
    pow_eq_zero_iff two_ne_zero |>.1 ((sum_eq_zero_iff_of_nonneg fun k _ => sq_nonneg _).1 hz k (mem_univ k))
  refine hv (funext fun i => ?_)
  have := h c ⟨∑ t ∈ l.toFinset, c t * mean data t, fun k => by
    have := hzero k
    simp only [mul_sub, sum_sub_distrib] at this
    linarith⟩ (l.get i) (List.mem_toFinset.2 (List.get_mem l i))
  rw [hc] at this
  exact (div_eq_zero_iff.1 this).resolve_right (hpos _ (List.get_mem l i)).ne'

theorem independent_of_det {data : Fin N → Nat → ℝ} (hN : 2 ≤ N) {l : List Nat} (hl : l.Nodup) (hdet : (corrMat (corr data) l).det ≠ 0) :
    Independent data l.toFinset := by
  rintro c ⟨c0, hc⟩ t ht
  have hu : ∀ k, (0 : ℝ) = ∑ t ∈ l.toFinset, c t * (data k t - mean data t) := by
    intro k
    have hN0 : (N : ℝ) ≠ 0 := by
      have : N ≠ 0 := by omega
      exact_mod_cast this
    have hm : ∑ t ∈ l.toFinset, c t * mean data t = c0 := by
      have e1 : ∀ t, (N : ℝ) * mean data t = ∑ k, data k t := fun t => by rw [mean]; field_simp
      have : (N : ℝ) * ∑ t ∈ l.toFinset, c t * mean data t = N * c0 := by
        rw [mul_sum]
        simp only [mul_left_comm, e1, mul_sum]
        rw [sum_comm]
        simp [hc]
      exact mul_left_cancel₀ hN0 this
    simp only [mul_sub, sum_sub_distrib, hc, hm, sub_self]
  obtain ⟨i, rfl⟩ := List.get_of_mem (List.mem_toFinset.1 ht)
  have h1 := vecMul_corr hN hl hdet c (fun _ => 0) hu 1
  have h2 : ((fun i => c (l.get i) * √(gram data (l.get i) (l.get i)) / 1) ᵥ* corrMat (corr data) l) = 0 := funext fun j => by
    rw [h1 j]; simp
  have h3 : (fun i => c (l.get i) * √(gram data (l.get i) (l.get i)) / 1) = 0 := by
    by_contra hne
    exact hdet (Matrix.exists_vecMul_eq_zero_iff.1 ⟨_, hne, h2⟩)
  have := congrFun h3 i
  simp only [div_one, Pi.zero_apply] at this
  exact (mul_eq_zero.1 this).resolve_right (gram_pos hN hdet (List.get_mem l i)).ne'

theorem pvalue_eq (Φ : ℝ → ℝ) (eps : ℝ) (data : Fin N → Nat → ℝ) {a b : Nat} {s : List Nat} (hl : (a :: b :: s).Nodup) (p : ℝ) :
    pvalue Φ eps (corr data) N a b s = some p ↔ s.length + 3 ≤ N ∧ Independent data (insert a (insert b s.toFinset)) ∧
      ∃ ρ, PartialCorr data a b s.toFinset ρ ∧ |ρ| < 1 ∧ p = fisherP Φ N s.length ρ := by
  have hset : (a :: b :: s).toFinset = insert a (insert b s.toFinset) := by simp
  rw [← hset]
  unfold pvalue
  dsimp only
  change (if (corrMat (corr data) (a :: b :: s)).det = 0 then none else _) = _ ↔ _
  by_cases hm : N < s.length + 3
  · have : ¬ s.length + 3 ≤ N := by omega
    simp [hm, this]
  have hN : 2 ≤ N := by omega
  by_cases hdet : (corrMat (corr data) (a :: b :: s)).det = 0
  · rw [if_pos hdet]
    constructor
    · intro h; cases h
    · rintro ⟨-, h, -⟩
      exact absurd hdet (h.det_ne hN hl)
  · rw [if_neg hdet, if_neg hm]
    obtain ⟨ρ, h1, h2, h3⟩ := partial_corr_of_inv hN hl hdet
    have hr : rOf (k := s.length) (corrMat (corr data) (a :: b :: s)) = ρ := h3
    change some (tailP Φ N s.length (clampR eps (rOf (k := s.length) (corrMat (corr data) (a :: b :: s))))) = some p ↔ _
    rw [hr, clampR, if_neg (not_le.2 h2), Option.some_inj]
    have e : tailP Φ N s.length ρ = fisherP Φ N s.length ρ := by
      unfold tailP fisherP
      rw [abs_of_nonneg (by positivity)]
    rw [e]
    constructor
    · intro h
      exact ⟨by omega, independent_of_det hN hl hdet, ρ, h1, h2, h.symm⟩
    · rintro ⟨-, -, ρ', h1', -, rfl⟩
      rw [h1.unique h1']

/-! ### The property -/

theorem PartialCorr.symm {data : Fin N → Nat → ℝ} {x y : Nat} {S : Finset Nat} {ρ : ℝ} (h : PartialCorr data x y S ρ) : PartialCorr data y x S ρ := by
  obtain ⟨u, v, hu, hv, h1, h2, rfl⟩ := h
  refine ⟨v, u, hv, hu, h2, h1, ?_⟩
  rw [mul_comm (∑ k, v k ^ 2)]
  simp only [mul_comm (v _)]

theorem sortedSet_nodup (l : List Nat) : (sortedSet l).Nodup := (List.perm_insertionSort _ _).nodup_iff.2 (List.nodup_dedup _)

theorem sortedSet_toFinset (l : List Nat) : (sortedSet l).toFinset = l.toFinset := by
  ext t; rw [List.mem_toFinset, List.mem_toFinset, mem_sortedSet]

theorem format1_eq (x y : Nat) (s : List Nat) :
    format1 x y s = if x ∉ s ∧ y ∉ s then some ([min x y], [max x y], sortedSet s) else none := by
  unfold format1
  rcases lt_or_ge x y with c | c
  · simp only [c, if_true, mem_sortedSet, min_eq_left c.le, max_eq_right c.le]
  · simp only [not_lt.2 c, if_false, mem_sortedSet, min_eq_right c, max_eq_left c, and_comm]

/-- **C76.** For two different columns: `FisherZ` answers exactly when the two columns are outside the conditioning set, there are at least
`|S| + 3` samples and no combination of the columns involved is constant; the answer is then Fisher's z p-value of the sample partial
correlation of `x` and `y` given `S` (the correlation of the least-squares residuals), which is strictly between `-1` and `1`. -/
theorem C76_fisherz (Φ : ℝ → ℝ) (eps : ℝ) (data : Fin N → Nat → ℝ) {x y : Nat} (hxy : x ≠ y) (s : List Nat) (p : ℝ) :
    fisherz Φ eps data x y s = some p ↔ x ∉ s ∧ y ∉ s ∧ s.toFinset.card + 3 ≤ N ∧ Independent data (insert x (insert y s.toFinset)) ∧
      ∃ ρ, PartialCorr data x y s.toFinset ρ ∧ |ρ| < 1 ∧ p = fisherP Φ N s.toFinset.card ρ := by
  unfold fisherz
  rw [format1_eq]
  by_cases hs : x ∉ s ∧ y ∉ s
  · rw [if_pos hs]
    have hlen : (sortedSet s).length = s.toFinset.card := by rw [← sortedSet_toFinset, List.toFinset_card_of_nodup (sortedSet_nodup s)]
    have hnd : (min x y :: max x y :: sortedSet s).Nodup := by
      rw [List.nodup_cons, List.nodup_cons, List.mem_cons, mem_sortedSet, mem_sortedSet]
      refine ⟨not_or.2 ⟨?_, ?_⟩, ?_, sortedSet_nodup s⟩
      · rcases lt_or_gt_of_ne hxy with c | c <;> simp [c.le, hxy, hxy.symm]
      · rcases le_total x y with c | c <;> simp [c, hs.1, hs.2]
      · rcases le_total x y with c | c <;> simp [c, hs.1, hs.2]
    have key := pvalue_eq Φ eps data hnd p
    rw [sortedSet_toFinset, hlen] at key
    show pvalue Φ eps (corr data) N (min x y) (max x y) (sortedSet s) = some p ↔ _
    rw [key]
    rcases le_total x y with c | c
    · simp only [min_eq_left c, max_eq_right c, hs.1, hs.2, not_false_eq_true, true_and]
    · simp only [min_eq_right c, max_eq_left c, hs.1, hs.2, not_false_eq_true, true_and]
      rw [Finset.insert_comm y x]
      refine and_congr Iff.rfl (and_congr Iff.rfl (exists_congr fun ρ => and_congr ⟨PartialCorr.symm, PartialCorr.symm⟩ Iff.rfl))
  · rw [if_neg hs]
    constructor
    · intro h; cases h
    · rintro ⟨h1, h2, -⟩; exact absurd ⟨h1, h2⟩ hs

/-- **C76.** The answer depends on the unordered pair and on the set of conditioning columns only. -/
theorem C76_symmetric (Φ : ℝ → ℝ) (eps : ℝ) (data : Fin N → Nat → ℝ) (x y : Nat) {s s' : List Nat} (h : ∀ t, t ∈ s ↔ t ∈ s') :
    fisherz Φ eps data x y s = fisherz Φ eps data y x s' := by
  unfold fisherz
  rw [format1_eq, format1_eq, (sortedSet_eq s s').2 h, min_comm, max_comm]
  simp only [h, and_comm]

/-- A column against itself always raises. -/
theorem C76_same_column (Φ : ℝ → ℝ) (eps : ℝ) (data : Fin N → Nat → ℝ) (x : Nat) (s : List Nat) : fisherz Φ eps data x x s = none := by
  unfold fisherz
  rw [format1_eq]
  split
  · show pvalue Φ eps (corr data) N (min x x) (max x x) (sortedSet s) = none
    rw [min_self, max_self]
    unfold pvalue
    rw [if_pos]
    exact Matrix.det_zero_of_row_eq (i := 0) (j := 1) (by simp) rfl
  · rfl

/-! ### What the p-value says -/

/-- `|artanh ρ|`. -/
noncomputable def zAbs (ρ : ℝ) : ℝ := |1 / 2 * Real.log ((1 + ρ) / (1 - ρ))|

theorem zAbs_abs {ρ : ℝ} (h : |ρ| < 1) : zAbs ρ = 1 / 2 * Real.log ((1 + |ρ|) / (1 - |ρ|)) := by
  have key : ∀ t : ℝ, 0 ≤ t → t < 1 → 0 ≤ 1 / 2 * Real.log ((1 + t) / (1 - t)) := fun t h0 h1 => by
    refine mul_nonneg (by norm_num) (Real.log_nonneg ?_)
    rw [le_div_iff₀ (by linarith)]; linarith
  unfold zAbs
  rcases abs_cases ρ with ⟨e, h0⟩ | ⟨e, h0⟩
  · rw [e] at h ⊢
    exact abs_of_nonneg (key ρ h0 h)
  · rw [e] at h ⊢
    have e1 : (1 + ρ) / (1 - ρ) = ((1 + -ρ) / (1 - -ρ))⁻¹ := by rw [inv_div]; ring_nf
    rw [e1, Real.log_inv, mul_neg, abs_neg]
    exact abs_of_nonneg (key (-ρ) (by linarith) h)

theorem zAbs_lt {ρ ρ' : ℝ} (h : |ρ| < 1) (h' : |ρ'| < 1) : zAbs ρ < zAbs ρ' ↔ |ρ| < |ρ'| := by
  have key : ∀ {a b : ℝ}, |a| < 1 → |b| < 1 → |a| < |b| → zAbs a < zAbs b := by
    intro a b ha hb hab
    rw [zAbs_abs ha, zAbs_abs hb]
    have h0 := abs_nonneg a
    refine mul_lt_mul_of_pos_left (Real.log_lt_log (by apply div_pos <;> linarith) ?_) (by norm_num)
    rw [div_lt_div_iff₀ (by linarith) (by linarith)]
    nlinarith
  refine ⟨fun hz => ?_, key h h'⟩
  by_contra hc
  rcases (not_lt.1 hc).lt_or_eq with h1 | h1
  · exact absurd (key h' h h1) (not_lt.2 hz.le)
  · rw [zAbs_abs h, zAbs_abs h', h1] at hz
    exact absurd hz (lt_irrefl _)

theorem zAbs_zero : zAbs 0 = 0 := by unfold zAbs; simp

theorem fisherP_eq (Φ : ℝ → ℝ) (m c : Nat) (ρ : ℝ) : fisherP Φ m c ρ = 2 * (1 - Φ (√((m : ℝ) - c - 3) * zAbs ρ)) := rfl

/-- **C76.** With a distribution function of a symmetric law (`1/2 ≤ Φ t ≤ 1` for `t ≥ 0`) the p-value is between 0 and 1. -/
theorem C76_range {Φ : ℝ → ℝ} (hΦ : ∀ t, 0 ≤ t → 1 / 2 ≤ Φ t ∧ Φ t ≤ 1) (eps : ℝ) (data : Fin N → Nat → ℝ) {x y : Nat} (hxy : x ≠ y) (s : List Nat)
    {p : ℝ} (h : fisherz Φ eps data x y s = some p) : 0 ≤ p ∧ p ≤ 1 := by
  obtain ⟨-, -, -, -, ρ, -, -, rfl⟩ := (C76_fisherz Φ eps data hxy s p).1 h
  have := hΦ (√((N : ℝ) - s.toFinset.card - 3) * zAbs ρ) (mul_nonneg (Real.sqrt_nonneg _) (abs_nonneg _))
  rw [fisherP_eq]
  constructor <;> linarith

/-- **C76.** The p-value orders tests on equally many conditioning columns by the size of the partial correlation: strictly smaller p-value
exactly when the partial correlation is strictly larger in absolute value. -/
theorem C76_order {Φ : ℝ → ℝ} (hΦ : StrictMono Φ) {m c : Nat} (hm : c + 3 < m) {ρ ρ' : ℝ} (h : |ρ| < 1) (h' : |ρ'| < 1) :
    fisherP Φ m c ρ' < fisherP Φ m c ρ ↔ |ρ| < |ρ'| := by
  have hpos : 0 < √((m : ℝ) - c - 3) := by
    rw [Real.sqrt_pos]
    have : ((c + 3 : Nat) : ℝ) < m := by exact_mod_cast hm
    push_cast at this
    linarith
  have hmono : zAbs ρ < zAbs ρ' ↔ Φ (√((m : ℝ) - c - 3) * zAbs ρ) < Φ (√((m : ℝ) - c - 3) * zAbs ρ') := by
    rw [hΦ.lt_iff_lt, mul_lt_mul_iff_right₀ hpos]
  rw [fisherP_eq, fisherP_eq, ← zAbs_lt h h', hmono]
  constructor <;> intro hh <;> linarith

/-- **C76.** With the normal law's `Φ 0 = 1/2`: the p-value is 1 exactly when the partial correlation is zero (more than `|S| + 3` samples). -/
theorem C76_one_iff {Φ : ℝ → ℝ} (hΦ : StrictMono Φ) (h0 : Φ 0 = 1 / 2) {m c : Nat} (hm : c + 3 < m) {ρ : ℝ} (h : |ρ| < 1) :
    fisherP Φ m c ρ = 1 ↔ ρ = 0 := by
  have e : fisherP Φ m c 0 = 1 := by rw [fisherP_eq, zAbs_zero, mul_zero, h0]; norm_num
  constructor
  · intro hp
    by_contra hne
    have := (C76_order hΦ hm (ρ := 0) (ρ' := ρ) (by simp) h).2 (by simpa using hne)
    rw [hp, e] at this
    exact absurd this (lt_irrefl _)
  · rintro rfl; exact e

/-- **C76.** With exactly `|S| + 3` samples the test always answers `2 (1 - Φ 0)` (that is, 1), whatever the data. -/
theorem C76_no_power (Φ : ℝ → ℝ) (c : Nat) (ρ : ℝ) : fisherP Φ (c + 3) c ρ = 2 * (1 - Φ 0) := by
  rw [fisherP_eq]
  push_cast
  rw [show ((c : ℝ) + 3 - c - 3) = 0 by ring, Real.sqrt_zero, zero_mul]

/-! ### Units do not matter -/

theorem Residual.rescale {data : Fin N → Nat → ℝ} {α β : Nat → ℝ} (hα : ∀ t, α t ≠ 0) {x : Nat} {S : Finset Nat} {u : Fin N → ℝ} (h : Residual data x S u) :
    Residual (fun k t => α t * data k t + β t) x S fun k => α x * u k := by
  refine residual_of_orth ?_ ?_ ?_
  · obtain ⟨b0, b, hb⟩ := h.1
    refine ⟨β x + α x * b0 - ∑ s ∈ S, α x * b s / α s * β s, fun s => α x * b s / α s, fun k => ?_⟩
    have e : ∑ s ∈ S, α x * b s / α s * (α s * data k s + β s) = α x * (∑ s ∈ S, b s * data k s) + ∑ s ∈ S, α x * b s / α s * β s := by
      rw [mul_sum, ← sum_add_distrib]
      refine sum_congr rfl fun s _ => ?_
      have := hα s
      field_simp
    dsimp only
    rw [hb, e]
    ring
  · rw [← mul_sum, h.sum_zero, mul_zero]
  · intro s hs
    have : ∀ k, α x * u k * (α s * data k s + β s) = α x * α s * (u k * data k s) + α x * β s * u k := fun k => by ring
    simp only [this, sum_add_distrib, ← mul_sum, h.orth hs, h.sum_zero, mul_zero, add_zero]

theorem Independent.rescale {data : Fin N → Nat → ℝ} {α β : Nat → ℝ} (hα : ∀ t, α t ≠ 0) {W : Finset Nat} (h : Independent data W) :
    Independent (fun k t => α t * data k t + β t) W := by
  rintro c ⟨c0, hc⟩ t ht
  have := h (fun t => c t * α t) ⟨c0 - ∑ t ∈ W, c t * β t, fun k => by
    rw [← hc k]
    simp only [mul_add, sum_add_distrib, mul_assoc]
    ring⟩ t ht
  exact (mul_eq_zero.1 this).resolve_right (hα t)

theorem rescale_some (Φ : ℝ → ℝ) (eps : ℝ) (data : Fin N → Nat → ℝ) (α β : Nat → ℝ) (hα : ∀ t, α t ≠ 0) {x y : Nat} (hxy : x ≠ y) (s : List Nat) {p : ℝ}
    (h : fisherz Φ eps data x y s = some p) : fisherz Φ eps (fun k t => α t * data k t + β t) x y s = some p := by
  obtain ⟨h1, h2, h3, h4, ρ, ⟨u, v, hu, hv, k1, k2, rfl⟩, h6, rfl⟩ := (C76_fisherz Φ eps data hxy s p).1 h
  refine (C76_fisherz Φ eps _ hxy s _).2 ⟨h1, h2, h3, h4.rescale hα, _, ⟨_, _, Residual.rescale hα hu, Residual.rescale hα hv, ?_, ?_, rfl⟩, ?_⟩
  · simp only [mul_pow, ← mul_sum]; have := hα x; positivity
  · simp only [mul_pow, ← mul_sum]; have := hα y; positivity
  have e : |(∑ k, α x * u k * (α y * v k)) / √((∑ k, (α x * u k) ^ 2) * ∑ k, (α y * v k) ^ 2)| = |(∑ k, u k * v k) / √((∑ k, u k ^ 2) * ∑ k, v k ^ 2)| := by
    have e1 : ∑ k, α x * u k * (α y * v k) = α x * α y * ∑ k, u k * v k := by rw [mul_sum]; exact sum_congr rfl fun k _ => by ring
    have e2 : (∑ k, (α x * u k) ^ 2) * ∑ k, (α y * v k) ^ 2 = (α x * α y) ^ 2 * ((∑ k, u k ^ 2) * ∑ k, v k ^ 2) := by
      simp only [mul_pow, ← mul_sum]; ring
    have hne : |α x * α y| ≠ 0 := abs_ne_zero.2 (mul_ne_zero (hα x) (hα y))
    rw [e1, e2, Real.sqrt_mul (sq_nonneg _), Real.sqrt_sq_eq_abs, abs_div, abs_mul (α x * α y), abs_mul |α x * α y|, abs_abs,
      mul_div_mul_left _ _ hne, ← abs_div]
  refine ⟨by rw [e]; exact h6, ?_⟩
  rw [fisherP_eq, fisherP_eq, zAbs_abs h6, zAbs_abs (by rw [e]; exact h6), e]

/-- **C76.** Changing the unit and the origin of every column changes nothing. -/
theorem C76_units (Φ : ℝ → ℝ) (eps : ℝ) (data : Fin N → Nat → ℝ) (α β : Nat → ℝ) (hα : ∀ t, α t ≠ 0) {x y : Nat} (hxy : x ≠ y) (s : List Nat) :
    fisherz Φ eps (fun k t => α t * data k t + β t) x y s = fisherz Φ eps data x y s := by
  cases e : fisherz Φ eps data x y s with
  | some p => exact rescale_some Φ eps data α β hα hxy s e
  | none =>
    cases e' : fisherz Φ eps (fun k t => α t * data k t + β t) x y s with
    | none => rfl
    | some p =>
      have := rescale_some Φ eps _ (fun t => (α t)⁻¹) (fun t => -(β t / α t)) (fun t => inv_ne_zero (hα t)) hxy s e'
      have hd : (fun (k : Fin N) t => (α t)⁻¹ * (α t * data k t + β t) + -(β t / α t)) = data := by
        funext k t
        have := hα t
        field_simp
        ring
      rw [hd, e] at this
      cases this

/-! ### Missing values -/

theorem pvalue_small (Φ : ℝ → ℝ) (eps : ℝ) (R : Nat → Nat → ℝ) {m : Nat} (a b : Nat) (s : List Nat) (h : m < 3) : pvalue Φ eps R m a b s = none := by
  unfold pvalue
  have : m < s.length + 3 := by omega
  simp [this]

/-- **C76.** `MV_FisherZ` is `FisherZ` on the samples that have no missing value among the columns of the query (test-wise deletion), with the
number of those samples as sample size. -/
theorem C76_testwise_deletion (Φ : ℝ → ℝ) (eps : ℝ) (data : Fin N → Nat → Option ℝ) (x y : Nat) (s : List Nat) :
    mvFisherz Φ eps data x y s = fisherz Φ eps (select data (completeRows data (x :: y :: s))) x y s := by
  unfold mvFisherz fisherz
  rw [format1_eq]
  by_cases hs : x ∉ s ∧ y ∉ s
  · rw [if_pos hs]
    have hrows : completeRows data ([min x y] ++ [max x y] ++ sortedSet s) = completeRows data (x :: y :: s) := by
      unfold completeRows
      refine List.filter_congr fun k _ => ?_
      rw [Bool.eq_iff_iff, List.all_eq_true, List.all_eq_true]
      have hm : ∀ t, t ∈ [min x y] ++ [max x y] ++ sortedSet s ↔ t ∈ x :: y :: s := fun t => by
        simp only [List.mem_append, List.mem_cons, List.not_mem_nil, or_false, mem_sortedSet]
        rcases le_total x y with c | c
        · rw [min_eq_left c, max_eq_right c, or_assoc]
        · rw [min_eq_right c, max_eq_left c, or_comm (a := t = y), or_assoc]
      simp only [hm]
    have key : ∀ idx idx' : List (Fin N), idx = idx' →
        (if idx.length = 0 then none else pvalue Φ eps (corr (select data idx)) idx.length (min x y) (max x y) (sortedSet s)) =
          pvalue Φ eps (corr (select data idx')) idx'.length (min x y) (max x y) (sortedSet s) := by
      rintro idx _ rfl
      split
      · rename_i h0
        exact (pvalue_small Φ eps _ _ _ _ (by omega)).symm
      · rfl
    exact key _ _ hrows
  · rw [if_neg hs]; rfl

theorem mem_completeRows (data : Fin N → Nat → Option ℝ) (var : List Nat) (k : Fin N) : k ∈ completeRows data var ↔ ∀ i ∈ var, (data k i).isSome := by
  simp [completeRows]

theorem completeRows_nodup (data : Fin N → Nat → Option ℝ) (var : List Nat) : (completeRows data var).Nodup := (List.nodup_finRange N).filter _

theorem fisherz_congr (Φ : ℝ → ℝ) (eps : ℝ) {N' : Nat} (h : N' = N) (data : Fin N → Nat → ℝ) (data' : Fin N' → Nat → ℝ)
    (hd : ∀ k, data' k = data (Fin.cast h k)) (x y : Nat) (s : List Nat) : fisherz Φ eps data' x y s = fisherz Φ eps data x y s := by
  subst h
  obtain rfl : data' = data := funext hd
  rfl

/-- **C76.** Without missing values `MV_FisherZ` and `FisherZ` agree. -/
theorem C76_no_missing (Φ : ℝ → ℝ) (eps : ℝ) (data : Fin N → Nat → ℝ) (x y : Nat) (s : List Nat) :
    mvFisherz Φ eps (fun k i => some (data k i)) x y s = fisherz Φ eps data x y s := by
  rw [C76_testwise_deletion]
  have e : completeRows (fun (k : Fin N) i => some (data k i)) (x :: y :: s) = List.finRange N := by
    unfold completeRows
    rw [List.filter_eq_self]
    simp
  rw [e]
  refine fisherz_congr Φ eps (by simp) data _ (fun k => ?_) x y s
  funext i
  simp [select]

/-! ### An example -/

/-- Five samples of three columns; column 2 is the sum of the other two plus noise. -/
def exData : Fin 5 → Nat → ℝ := fun k t =>
  if t = 0 then ![1, 0, 0, 0, 0] k else if t = 1 then ![0, 1, 0, 0, 0] k else ![1, 1, 1, 0, 0] k

/-- The hypotheses of C76 are met: the test of columns 0 and 1 given column 2 answers. -/
theorem C76_example (Φ : ℝ → ℝ) : ∃ p, fisherz Φ 0 exData 0 1 [2] = some p := by
  have hind : Independent exData (insert 0 (insert 1 [2].toFinset)) := by
    rintro c ⟨c0, hc⟩
    have h : ∀ k, c 0 * exData k 0 + (c 1 * exData k 1 + c 2 * exData k 2) = c0 := fun k => by
      rw [← hc k, sum_insert (by decide), sum_insert (by decide)]
      simp
    have h0 := h 0; have h1 := h 1; have h2 := h 2; have h3 := h 3
    simp [exData] at h0 h1 h2 h3
    intro t ht
    simp only [mem_insert, List.toFinset_cons, List.toFinset_nil, notMem_empty, or_false] at ht
    rcases ht with rfl | rfl | rfl <;> linarith
  have hnd : (0 :: 1 :: [2] : List Nat).Nodup := by decide
  have hdet := Independent.det_ne (data := exData) (by norm_num) hnd (by simpa using hind)
  obtain ⟨ρ, h1, h2, -⟩ := partial_corr_of_inv (data := exData) (by norm_num) hnd hdet
  exact ⟨_, (C76_fisherz Φ 0 exData (by decide) [2] _).2 ⟨by decide, by decide, by decide, hind, ρ, h1, h2, rfl⟩⟩

end CL.FisherZ
