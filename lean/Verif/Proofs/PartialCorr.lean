import Verif.Spec.PartialCorr
import Mathlib.LinearAlgebra.Matrix.NonsingularInverse
import Mathlib.Analysis.InnerProductSpace.PiL2
import Mathlib.Analysis.InnerProductSpace.Projection.Basic
import Mathlib.Tactic.Ring
import Mathlib.Tactic.Linarith
import Mathlib.Tactic.FieldSimp

/-!
# Residuals, partial correlation and the inverse of a Gram matrix
-/
open Finset Matrix
namespace Spec
variable {N : Nat} {V : Type}

/-! ### Least squares and the normal equations -/

theorem Fit.add {data : Fin N → V → ℝ} {x : V} {S : Finset V} {u : Fin N → ℝ} [DecidableEq V] (h : Fit data x S u) (c : V → ℝ) (c0 : ℝ) :
    Fit data x S fun k => u k - (c0 + ∑ s ∈ S, c s * data k s) := by
  obtain ⟨b0, b, hb⟩ := h
  refine ⟨b0 + c0, fun s => b s + c s, fun k => ?_⟩
  dsimp only
  rw [hb]
  simp only [add_mul, sum_add_distrib]
  ring

theorem orth_of_min {u w : Fin N → ℝ} (h : ∀ t : ℝ, ∑ k, u k ^ 2 ≤ ∑ k, (u k - t * w k) ^ 2) : ∑ k, u k * w k = 0 := by
  have e : ∀ t : ℝ, ∑ k, (u k - t * w k) ^ 2 = ∑ k, u k ^ 2 - 2 * t * ∑ k, u k * w k + t ^ 2 * ∑ k, w k ^ 2 := by
    intro t
    rw [mul_sum, mul_sum, ← sum_sub_distrib, ← sum_add_distrib]
    exact sum_congr rfl fun k _ => by ring
  set A := ∑ k, u k * w k
  set B := ∑ k, w k ^ 2
  have hB : 0 ≤ B := sum_nonneg fun k _ => sq_nonneg _
  by_contra hA
  have h1 := h (A / (B + 1))
  rw [e] at h1
  have hB1 : 0 < B + 1 := by linarith
  have h2 : 0 ≤ -2 * (A / (B + 1)) * A + (A / (B + 1)) ^ 2 * B := by linarith
  have h3 : -2 * (A / (B + 1)) * A + (A / (B + 1)) ^ 2 * B = -(A ^ 2 * (B + 2) / (B + 1) ^ 2) := by field_simp; ring
  rw [h3] at h2
  have h4 : 0 < A ^ 2 * (B + 2) / (B + 1) ^ 2 := by
    have : 0 < A ^ 2 := by positivity
    positivity
  linarith

theorem Residual.sum_zero [DecidableEq V] {data : Fin N → V → ℝ} {x : V} {S : Finset V} {u : Fin N → ℝ} (h : Residual data x S u) : ∑ k, u k = 0 := by
  have := orth_of_min (u := u) (w := fun _ => 1) fun t => by
    have := h.2 _ (h.1.add (fun _ => 0) t)
    simpa using this
  simpa using this

theorem Residual.orth [DecidableEq V] {data : Fin N → V → ℝ} {x : V} {S : Finset V} {u : Fin N → ℝ} (h : Residual data x S u) {s : V} (hs : s ∈ S) :
    ∑ k, u k * data k s = 0 := by
  refine orth_of_min fun t => ?_
  have := h.2 _ (h.1.add (fun s' => if s' = s then t else 0) 0)
  simpa [hs] using this

/-- Normal equations are enough. -/
theorem residual_of_orth {data : Fin N → V → ℝ} {x : V} {S : Finset V} {u : Fin N → ℝ} (hf : Fit data x S u) (h0 : ∑ k, u k = 0)
    (ho : ∀ s ∈ S, ∑ k, u k * data k s = 0) : Residual data x S u := by
  refine ⟨hf, fun u' hf' => ?_⟩
  obtain ⟨b0, b, hb⟩ := hf
  obtain ⟨c0, c, hc⟩ := hf'
  have hd : ∀ k, u' k = u k + ((b0 - c0) + ∑ s ∈ S, (b s - c s) * data k s) := fun k => by
    rw [hb, hc]; simp only [sub_mul, sum_sub_distrib]; ring
  have hz : ∑ k, u k * ((b0 - c0) + ∑ s ∈ S, (b s - c s) * data k s) = 0 := by
    simp only [mul_add, mul_sum, sum_add_distrib]
    rw [← sum_mul, h0, zero_mul, zero_add, sum_comm]
    refine sum_eq_zero fun s hs => ?_
    rw [← mul_zero (b s - c s), ← ho s hs, mul_sum]
    exact sum_congr rfl fun k _ => by ring
  calc ∑ k, u k ^ 2 ≤ ∑ k, u k ^ 2 + 2 * (∑ k, u k * ((b0 - c0) + ∑ s ∈ S, (b s - c s) * data k s)) +
        ∑ k, ((b0 - c0) + ∑ s ∈ S, (b s - c s) * data k s) ^ 2 := by
        rw [hz, mul_zero, add_zero]
        exact le_add_of_nonneg_right (sum_nonneg fun k _ => sq_nonneg _)
    _ = ∑ k, u' k ^ 2 := by
        rw [mul_sum, ← sum_add_distrib, ← sum_add_distrib]
        exact sum_congr rfl fun k _ => by rw [hd]; ring

/-- The residual is unique. -/
theorem Residual.unique [DecidableEq V] {data : Fin N → V → ℝ} {x : V} {S : Finset V} {u u' : Fin N → ℝ} (h : Residual data x S u) (h' : Residual data x S u') :
    u = u' := by
  obtain ⟨b0, b, hb⟩ := h.1
  obtain ⟨c0, c, hc⟩ := h'.1
  have hd : ∀ k, u k - u' k = (c0 - b0) + ∑ s ∈ S, (c s - b s) * data k s := fun k => by
    rw [hb, hc]; simp only [sub_mul, sum_sub_distrib]; ring
  have hz : ∑ k, (u k - u' k) ^ 2 = 0 := by
    have : ∀ k, (u k - u' k) ^ 2 = u k * ((c0 - b0) + ∑ s ∈ S, (c s - b s) * data k s) - u' k * ((c0 - b0) + ∑ s ∈ S, (c s - b s) * data k s) :=
      fun k => by rw [← hd]; ring
    have e : ∀ w : Fin N → ℝ, ∑ k, w k = 0 → (∀ s ∈ S, ∑ k, w k * data k s = 0) →
        ∑ k, w k * ((c0 - b0) + ∑ s ∈ S, (c s - b s) * data k s) = 0 := by
      intro w h0 ho
      simp only [mul_add, mul_sum, sum_add_distrib]
      rw [← sum_mul, h0, zero_mul, zero_add, sum_comm]
      refine sum_eq_zero fun s hs => ?_
      rw [← mul_zero (c s - b s), ← ho s hs, mul_sum]
      exact sum_congr rfl fun k _ => by ring
    rw [sum_congr rfl fun k _ => this k, sum_sub_distrib, e u h.sum_zero fun s hs => h.orth hs, e u' h'.sum_zero fun s hs => h'.orth hs, sub_zero]
  funext k
  have := (sum_eq_zero_iff_of_nonneg fun k _ => sq_nonneg (u k - u' k)).1 hz k (mem_univ k)
  have := pow_eq_zero_iff (two_ne_zero) |>.1 this
  linarith

theorem PartialCorr.unique [DecidableEq V] {data : Fin N → V → ℝ} {x y : V} {S : Finset V} {ρ ρ' : ℝ} (h : PartialCorr data x y S ρ)
    (h' : PartialCorr data x y S ρ') : ρ = ρ' := by
  obtain ⟨u, v, hu, hv, -, -, rfl⟩ := h
  obtain ⟨u', v', hu', hv', -, -, rfl⟩ := h'
  rw [hu.unique hu', hv.unique hv']

/-- There is always a residual. -/
theorem exists_residual [DecidableEq V] (data : Fin N → V → ℝ) (x : V) (S : Finset V) : ∃ u, Residual data x S u := by
  let E := EuclideanSpace ℝ (Fin N)
  let one : E := WithLp.toLp 2 fun _ => (1 : ℝ)
  let col : V → E := fun s => WithLp.toLp 2 fun k => data k s
  let W : Submodule ℝ E := Submodule.span ℝ (insert one (col '' (S : Set V)))
  haveI : FiniteDimensional ℝ W := FiniteDimensional.span_of_finite ℝ ((S.finite_toSet.image col).insert one)
  obtain ⟨p, hp, hq⟩ : ∃ p ∈ W, col x - p ∈ Wᗮ := ⟨W.starProjection (col x), Submodule.starProjection_apply_mem W (col x), Submodule.sub_starProjection_mem_orthogonal (col x)⟩
  have hin : ∀ a b : E, inner ℝ a b = ∑ k, b k * a k := fun a b => by
    rw [PiLp.inner_apply]; simp
  refine ⟨fun k => (col x - p) k, residual_of_orth ?_ ?_ ?_⟩
  · obtain ⟨b0, z, hz, rfl⟩ := Submodule.mem_span_insert.1 hp
    obtain ⟨b, hb⟩ : ∃ b : V → ℝ, ∑ i ∈ S, b i • col i = z := by
      refine Submodule.span_induction (p := fun z _ => ∃ b : V → ℝ, ∑ i ∈ S, b i • col i = z) ?_ ?_ ?_ ?_ hz
      · rintro _ ⟨s, hs, rfl⟩
        exact ⟨fun t => if t = s then 1 else 0, by simp [Finset.mem_coe.1 hs]⟩
      · exact ⟨0, by simp⟩
      · rintro _ _ - - ⟨b, rfl⟩ ⟨c, rfl⟩
        exact ⟨b + c, by simp [add_smul, sum_add_distrib]⟩
      · rintro t _ - ⟨b, rfl⟩
        exact ⟨t • b, by simp [smul_sum, smul_smul]⟩
    refine ⟨b0, b, fun k => ?_⟩
    have e : (∑ i ∈ S, b i • col i) k = ∑ s ∈ S, b s * data k s := by
      rw [WithLp.ofLp_sum, Finset.sum_apply]
      exact sum_congr rfl fun s _ => rfl
    rw [← hb]
    show data k x - (b0 * 1 + (∑ i ∈ S, b i • col i) k) = _
    rw [e, mul_one]
  · have := (Submodule.mem_orthogonal W _).1 hq one (Submodule.subset_span (Set.mem_insert _ _))
    rw [hin] at this
    simpa [one] using this
  · intro s hs
    have := (Submodule.mem_orthogonal W _).1 hq (col s) (Submodule.subset_span (Set.mem_insert_of_mem _ ⟨s, hs, rfl⟩))
    rw [hin] at this
    exact this

/-! ### The inverse matrix -/

section inv
variable {ι : Type} [Fintype ι] [DecidableEq ι]

theorem inv_row (M : Matrix ι ι ℝ) (hM : IsUnit M.det) {x y : ι} (hxy : x ≠ y) (u : ι → ℝ) (hu : ∀ s, s ≠ x → s ≠ y → (u ᵥ* M) s = 0) (t : ι) :
    (u ᵥ* M) x * M⁻¹ x t + (u ᵥ* M) y * M⁻¹ y t = u t := by
  have e : (u ᵥ* M) ᵥ* M⁻¹ = u := by rw [vecMul_vecMul, mul_nonsing_inv M hM, vecMul_one]
  have := congrFun e t
  rw [vecMul, dotProduct, ← Finset.sum_subset (subset_univ {x, y}), sum_pair hxy] at this
  · exact this
  · intro s _ hs
    simp only [mem_insert, mem_singleton, not_or] at hs
    rw [hu s hs.1 hs.2, zero_mul]

/-- With `a, b, c` the (scaled) residual products, `-Q₀₁/√|Q₀₀Q₁₁|` is `b/√(ac)`. -/
theorem ratio {a b c Q0 Q1 Q2 Q2' : ℝ} (ha : 0 ≤ a) (hc : 0 ≤ c) (hcs : b ^ 2 ≤ a * c)
    (h1 : a * Q0 + b * Q2' = 1) (h2 : a * Q2 + b * Q1 = 0) (h3 : b * Q0 + c * Q2' = 0) (h4 : b * Q2 + c * Q1 = 1) :
    0 < a ∧ 0 < c ∧ b ^ 2 < a * c ∧ -Q2 / √|Q0 * Q1| = b / √(a * c) := by
  have ha' : 0 < a := by
    rcases ha.lt_or_eq with h | h
    · exact h
    · exfalso
      rw [← h, zero_mul] at hcs
      have hb : b = 0 := by nlinarith
      rw [← h, hb] at h1; linarith
  have hc' : 0 < c := by
    rcases hc.lt_or_eq with h | h
    · exact h
    · exfalso
      rw [← h, mul_zero] at hcs
      have hb : b = 0 := by nlinarith
      rw [← h, hb] at h4; linarith
  have hD : 0 < a * c - b ^ 2 := by
    rcases hcs.lt_or_eq with h | h
    · linarith
    · exfalso
      have : (a * c - b ^ 2) * Q0 = c := by
        have : (a * c - b ^ 2) * Q0 = c * (a * Q0 + b * Q2') - b * (b * Q0 + c * Q2') := by ring
        rw [this, h1, h3]; ring
      rw [h, sub_self, zero_mul] at this
      linarith
  set D := a * c - b ^ 2 with hDdef
  have q0 : Q0 = c / D := by
    rw [eq_div_iff hD.ne']
    have : D * Q0 = c * (a * Q0 + b * Q2') - b * (b * Q0 + c * Q2') := by rw [hDdef]; ring
    rw [h1, h3] at this; linarith
  have q1 : Q1 = a / D := by
    rw [eq_div_iff hD.ne']
    have : D * Q1 = a * (b * Q2 + c * Q1) - b * (a * Q2 + b * Q1) := by rw [hDdef]; ring
    rw [h2, h4] at this; linarith
  have q2 : -Q2 = b / D := by
    rw [eq_div_iff hD.ne']
    have : D * Q2 = c * (a * Q2 + b * Q1) - b * (b * Q2 + c * Q1) := by rw [hDdef]; ring
    rw [h2, h4] at this; linarith
  refine ⟨ha', hc', by linarith, ?_⟩
  have e : Q0 * Q1 = a * c / D ^ 2 := by rw [q0, q1, div_mul_div_comm, mul_comm c a, sq]
  rw [q2, e, abs_of_pos (by positivity), Real.sqrt_div (by positivity), Real.sqrt_sq hD.le]
  have : 0 < √(a * c) := Real.sqrt_pos.2 (mul_pos ha' hc')
  field_simp
end inv

end Spec
