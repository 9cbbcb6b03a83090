import Verif.Proofs.Moral
import Verif.Proofs.PartialCorr
import Verif.Spec.LinearModel

/-!
# In a linear structural equation model, d-separated variables have uncorrelated residuals
-/
open Finset
namespace Spec
variable {N n : Nat}

/-- A well-founded order of the nodes. -/
theorem acyclic_rank {D : Fin n → Fin n → Prop} (h : Acyclic D) : ∃ r : Fin n → Nat, ∀ a b, D a b → r a < r b := by
  classical
  refine ⟨fun a => (univ.filter fun u => Relation.TransGen D u a).card, fun a b hab => card_lt_card (Finset.ssubset_iff_subset_ne.2 ⟨fun u hu => ?_, fun q => h a ?_⟩)⟩
  · simp only [mem_filter, mem_univ, true_and] at hu ⊢
    exact hu.tail hab
  · have : a ∈ univ.filter fun u => Relation.TransGen D u b := by simp only [mem_filter, mem_univ, true_and]; exact .single hab
    rw [← q] at this
    simpa using this

theorem residual_inner {data : Fin N → Fin n → ℝ} {x : Fin n} {S : Finset (Fin n)} {u w : Fin N → ℝ} (hu : Residual data x S u) (h0 : ∑ t, w t = 0)
    (hS : ∀ s ∈ S, ∑ t, w t * data t s = 0) : ∑ t, w t * u t = ∑ t, w t * data t x := by
  obtain ⟨b0, b, hb⟩ := hu.1
  simp only [hb, mul_sub, mul_add, sum_sub_distrib, sum_add_distrib, ← sum_mul, h0, zero_mul, zero_add]
  have : ∑ t, w t * ∑ s ∈ S, b s * data t s = 0 := by
    simp only [mul_sum]
    rw [sum_comm]
    refine sum_eq_zero fun s hs => ?_
    rw [← mul_zero (b s), ← hS s hs, mul_sum]
    exact sum_congr rfl fun t _ => by ring
  rw [this, sub_zero]

theorem LinearModel.dsep_orth {D : Fin n → Fin n → Prop} (hac : Acyclic D) {data : Fin N → Fin n → ℝ} (hm : LinearModel D data) {x y : Fin n}
    {S : Finset (Fin n)} (hx : x ∉ S) (hy : y ∉ S) (hsep : DSep D S x y) {u v : Fin N → ℝ} (hu : Residual data x S u) (hv : Residual data y S v) :
    ∑ t, u t * v t = 0 := by
  classical
  obtain ⟨b0, B, e, hB, hd, he0, hepos, heo⟩ := hm
  obtain ⟨r, hr⟩ := acyclic_rank hac
  set Z : Set (Fin n) := (S : Set (Fin n)) with hZ
  let A : Fin n → Prop := AncOf D ({x, y} ∪ Z)
  have hApar : ∀ {p i}, D p i → A i → A p := fun h ha => ha.of_edge h
  have hAx : A x := ⟨x, Or.inl (Or.inl rfl), .refl⟩
  have hAy : A y := ⟨y, Or.inl (Or.inr rfl), .refl⟩
  have hAS : ∀ s ∈ S, A s := fun s hs => ⟨s, Or.inr hs, .refl⟩
  let f : Fin n → ℝ := fun i => ∑ t, u t * data t i
  have hfS : ∀ s ∈ S, f s = 0 := fun s hs => hu.orth hs
  have hue : ∀ k, ∑ t, u t * e k t = f k - ∑ p, B p k * f p := by
    intro k
    have h1 : ∀ t, u t * e k t = u t * data t k - b0 k * u t - ∑ p, B p k * (u t * data t p) := fun t => by
      rw [hd t k]
      have : ∑ p, B p k * (u t * data t p) = u t * ∑ p, B p k * data t p := by rw [mul_sum]; exact sum_congr rfl fun p _ => by ring
      rw [this]; ring
    simp only [h1, sum_sub_distrib, ← mul_sum, hu.sum_zero, mul_zero, sub_zero]
    rw [sum_comm]
    simp only [← mul_sum, f]
  let W : Fin n → Prop := fun i => A i ∧ i ∉ S ∧ ¬ DConn D Z i x
  let fW : Fin n → ℝ := fun i => if W i then f i else 0
  let g : Fin n → ℝ := fun k => if A k then fW k - ∑ p, B p k * fW p else 0
  let w : Fin N → ℝ := fun t => ∑ k, g k / (∑ t, e k t ^ 2) * e k t
  have hwdot : ∀ z : Fin N → ℝ, ∑ t, w t * z t = ∑ k, g k / (∑ t, e k t ^ 2) * ∑ t, e k t * z t := by
    intro z
    simp only [w, sum_mul, mul_sum]
    rw [sum_comm]
    exact sum_congr rfl fun k _ => sum_congr rfl fun t _ => by ring
  have hwe : ∀ k, ∑ t, w t * e k t = g k := by
    intro k
    rw [hwdot, sum_eq_single k]
    · have h1 : ∑ t, e k t * e k t = ∑ t, e k t ^ 2 := sum_congr rfl fun t _ => by ring
      rw [h1, div_mul_cancel₀ _ (hepos k).ne']
    · intro j _ hj
      rw [heo j k hj, mul_zero]
    · simp
  have hw0 : ∑ t, w t = 0 := by
    have := hwdot fun _ => 1
    simp only [mul_one] at this
    rw [this]
    exact sum_eq_zero fun k _ => by rw [he0, mul_zero]
  have hwd : ∀ i, A i → ∑ t, w t * data t i = fW i := by
    intro i
    induction hri : r i using Nat.strong_induction_on generalizing i with
    | _ m ih =>
      intro hAi
      have h1 : ∀ t, w t * data t i = b0 i * w t + ∑ p, B p i * (w t * data t p) + w t * e i t := fun t => by
        rw [hd t i]
        have : ∑ p, B p i * (w t * data t p) = w t * ∑ p, B p i * data t p := by rw [mul_sum]; exact sum_congr rfl fun p _ => by ring
        rw [this]; ring
      simp only [h1, sum_add_distrib, ← mul_sum, hw0, mul_zero, zero_add, hwe]
      rw [sum_comm]
      simp only [← mul_sum]
      have h2 : ∑ p, B p i * ∑ t, w t * data t p = ∑ p, B p i * fW p := sum_congr rfl fun p _ => by
        by_cases hp : D p i
        · rw [ih (r p) (hri ▸ hr p i hp) p rfl (hApar hp hAi)]
        · rw [hB p i hp, zero_mul, zero_mul]
      rw [h2]
      simp only [g, if_pos hAi]
      ring
  have hcross : ∀ k, g k * ∑ t, e k t * u t = g k * g k := by
    intro k
    by_cases hAk : A k
    · by_cases hg : ∃ m, (m = k ∨ D m k) ∧ W m
      · obtain ⟨m, hmk, hWm⟩ := hg
        have hfam : ∀ i, (i = k ∨ D i k) → fW i = f i := by
          intro i hi
          by_cases hWi : W i
          · simp only [fW, if_pos hWi]
          · simp only [fW, if_neg hWi]
            by_cases hiS : i ∈ S
            · exact (hfS i hiS).symm
            · exfalso
              have hAi : A i := by rcases hi with rfl | hi; exacts [hAk, hApar hi hAk]
              have hci : DConn D Z i x := by
                by_contra hc
                exact hWi ⟨hAi, hiS, hc⟩
              exact hWm.2.2 (moral_closed hac hsep hAk hi hmk hiS hWm.2.1 hci)
        congr 1
        have h1 : ∑ t, e k t * u t = f k - ∑ p, B p k * f p := by rw [← hue]; exact sum_congr rfl fun t _ => by ring
        rw [h1]
        simp only [g, if_pos hAk, hfam k (Or.inl rfl)]
        congr 1
        refine sum_congr rfl fun p _ => ?_
        by_cases hp : D p k
        · rw [hfam p (Or.inr hp)]
        · rw [hB p k hp, zero_mul, zero_mul]
      · have hz : g k = 0 := by
          push Not at hg
          simp only [g, if_pos hAk]
          have h1 : fW k = 0 := by simp only [fW, if_neg (hg k (Or.inl rfl))]
          have h2 : ∑ p, B p k * fW p = 0 := sum_eq_zero fun p _ => by
            by_cases hp : D p k
            · simp only [fW, if_neg (hg p (Or.inr hp)), mul_zero]
            · rw [hB p k hp, zero_mul]
          rw [h1, h2, sub_zero]
        rw [hz, zero_mul, zero_mul]
    · simp only [g, if_neg hAk, zero_mul]
  have hWS : ∀ s ∈ S, fW s = 0 := fun s hs => by
    have : ¬ W s := fun h => h.2.1 hs
    simp only [fW, if_neg this]
  have hWx : fW x = 0 := by
    have : ¬ W x := fun h => h.2.2 (AWalk.dConn hac (l := []) ⟨ActiveSeq.single x, rfl⟩)
    simp only [fW, if_neg this]
  have hwu : ∑ t, w t * u t = 0 := by
    rw [residual_inner hu hw0 fun s hs => by rw [hwd s (hAS s hs), hWS s hs], hwd x hAx, hWx]
  have hww : ∑ t, w t * w t = 0 := by
    rw [hwdot w, ← hwu, hwdot u]
    refine sum_congr rfl fun k _ => ?_
    have : ∑ t, e k t * w t = g k := by rw [← hwe k]; exact sum_congr rfl fun t _ => by ring
    rw [this, div_mul_eq_mul_div, div_mul_eq_mul_div, hcross]
  have hw : ∀ t, w t = 0 := fun t => mul_self_eq_zero.1 ((sum_eq_zero_iff_of_nonneg fun t _ => mul_self_nonneg (w t)).1 hww t (mem_univ t))
  rw [residual_inner hv hu.sum_zero fun s hs => hu.orth hs]
  have hWy : W y := ⟨hAy, hy, fun h => hsep h.symm⟩
  have : fW y = f y := by simp only [fW, if_pos hWy]
  show f y = 0
  rw [← this, ← hwd y hAy]
  simp [hw]

/-- No combination of the columns is constant. -/
theorem LinearModel.independent {D : Fin n → Fin n → Prop} (hac : Acyclic D) {data : Fin N → Fin n → ℝ} (hm : LinearModel D data) (c : Fin n → ℝ) (c0 : ℝ)
    (hc : ∀ t, ∑ i, c i * data t i = c0) : ∀ i, c i = 0 := by
  obtain ⟨b0, B, e, hB, hd, he0, hepos, heo⟩ := hm
  obtain ⟨r, hr⟩ := acyclic_rank hac
  have hlow : ∀ k i, r i ≤ r k → i ≠ k → ∑ t, e k t * data t i = 0 := by
    intro k i
    induction hri : r i using Nat.strong_induction_on generalizing i with
    | _ m ih =>
      intro hle hne
      have h1 : ∀ t, e k t * data t i = b0 i * e k t + ∑ p, B p i * (e k t * data t p) + e k t * e i t := fun t => by
        rw [hd t i]
        have : ∑ p, B p i * (e k t * data t p) = e k t * ∑ p, B p i * data t p := by rw [mul_sum]; exact sum_congr rfl fun p _ => by ring
        rw [this]; ring
      simp only [h1, sum_add_distrib, ← mul_sum, he0, mul_zero, zero_add, heo k i hne.symm, add_zero]
      rw [sum_comm]
      simp only [← mul_sum]
      refine sum_eq_zero fun p _ => ?_
      by_cases hp : D p i
      · have hlt := hr p i hp
        rw [ih (r p) (hri ▸ hlt) p rfl (by omega) (fun h => by subst h; omega), mul_zero]
      · rw [hB p i hp, zero_mul]
  have hself : ∀ k, ∑ t, e k t * data t k = ∑ t, e k t ^ 2 := by
    intro k
    have h1 : ∀ t, e k t * data t k = b0 k * e k t + ∑ p, B p k * (e k t * data t p) + e k t ^ 2 := fun t => by
      rw [hd t k]
      have : ∑ p, B p k * (e k t * data t p) = e k t * ∑ p, B p k * data t p := by rw [mul_sum]; exact sum_congr rfl fun p _ => by ring
      rw [this]; ring
    simp only [h1, sum_add_distrib, ← mul_sum, he0, mul_zero, zero_add]
    rw [sum_comm]
    simp only [← mul_sum]
    rw [sum_eq_zero fun p _ => ?_, zero_add]
    by_cases hp : D p k
    · have hlt := hr p k hp
      rw [hlow k p hlt.le (fun h => by subst h; omega), mul_zero]
    · rw [hB p k hp, zero_mul]
  by_contra hne
  push Not at hne
  obtain ⟨k, hk, hmax⟩ := exists_max_image (univ.filter fun i => c i ≠ 0) r (by obtain ⟨i, hi⟩ := hne; exact ⟨i, by simpa using hi⟩)
  rw [mem_filter] at hk
  have h1 : ∑ t, e k t * ∑ i, c i * data t i = 0 := by
    simp only [hc, ← sum_mul, he0, zero_mul]
  have h2 : ∑ t, e k t * ∑ i, c i * data t i = c k * ∑ t, e k t ^ 2 := by
    simp only [mul_sum]
    rw [sum_comm, sum_eq_single k]
    · rw [← mul_sum, ← hself k, mul_sum]
      exact sum_congr rfl fun t _ => by ring
    · intro i _ hik
      by_cases hci : c i = 0
      · simp [hci]
      · have := hlow k i (hmax i (by simpa using hci)) hik
        rw [← mul_zero (c i), ← this, mul_sum]
        exact sum_congr rfl fun t _ => by ring
    · simp
  rw [h1] at h2
  rcases mul_eq_zero.1 h2.symm with h | h
  · exact hk.2 h
  · exact (hepos k).ne' h

end Spec
