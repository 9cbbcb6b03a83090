import Verif.Spec.Discrete
import Verif.Proofs.IMap
import Verif.Proofs.LinearModel
import Mathlib.Algebra.BigOperators.Fin
import Mathlib.Algebra.BigOperators.Ring.Finset
import Mathlib.Data.Rat.Cast.CharZero
import Mathlib.Tactic

/-!
# The global Markov property of discrete data
-/
namespace Discrete
open Finset Spec Relation
variable {N n : Nat} {data : Fin N → Fin n → Int}

open Classical in
/-- `m` on `M`, `v` elsewhere. -/
noncomputable def glue (M : Set (Fin n)) (m v : Fin n → Int) : Fin n → Int := fun j => if j ∈ M then m j else v j

open Classical in
/-- The value combinations of the variables of `M`. -/
noncomputable def vals (data : Fin N → Fin n → Int) (M : Set (Fin n)) : Finset (Fin n → Int) := univ.image fun k => glue M (data k) 0

theorem glue_in {M : Set (Fin n)} {m v : Fin n → Int} {j : Fin n} (h : j ∈ M) : glue M m v j = m j := if_pos h
theorem glue_out {M : Set (Fin n)} {m v : Fin n → Int} {j : Fin n} (h : j ∉ M) : glue M m v j = v j := if_neg h

theorem count_congr {W : Set (Fin n)} {v w : Fin n → Int} (h : ∀ j ∈ W, v j = w j) : count data W v = count data W w := by
  classical
  unfold count
  congr 1
  ext k
  simp only [mem_filter, mem_univ, true_and]
  exact forall₂_congr fun j hj => by rw [h j hj]

theorem count_mono {W W' : Set (Fin n)} (h : W ⊆ W') (v : Fin n → Int) : count data W' v ≤ count data W v := by
  classical
  unfold count
  refine card_le_card fun k hk => ?_
  simp only [mem_filter, mem_univ, true_and] at hk ⊢
  exact fun j hj => hk j (h hj)

/-- The law of total probability. -/
theorem count_sum {W M : Set (Fin n)} (hWM : ∀ j ∈ M, j ∉ W) (v : Fin n → Int) :
    count data W v = ∑ m ∈ vals data M, count data (W ∪ M) (glue M m v) := by
  classical
  have h1 : ∀ m ∈ vals data M, count data (W ∪ M) (glue M m v) = #{k ∈ {k | ∀ j ∈ W, data k j = v j} | glue M (data k) 0 = m} := by
    intro m hm
    obtain ⟨l, -, rfl⟩ := mem_image.1 hm
    unfold count
    congr 1
    ext k
    simp only [mem_filter, mem_univ, true_and]
    constructor
    · intro h
      refine ⟨fun j hj => ?_, funext fun j => ?_⟩
      · rw [h j (Or.inl hj), glue_out fun hm => hWM j hm hj]
      · by_cases hj : j ∈ M
        · rw [glue_in hj, glue_in hj, h j (Or.inr hj), glue_in hj, glue_in hj]
        · rw [glue_out hj, glue_out hj]
    · rintro ⟨h, h2⟩ j hj
      by_cases hm : j ∈ M
      · have := congrFun h2 j
        rw [glue_in hm] at this
        rw [glue_in hm, this]
      · rw [glue_out hm]
        exact h j (hj.resolve_right hm)
  rw [sum_congr rfl h1, ← card_eq_sum_card_fiberwise (f := fun k => glue M (data k) 0)]
  · rfl
  · intro k _
    exact mem_image_of_mem _ (mem_univ k)

theorem CondIndep.symm {A B C : Set (Fin n)} (h : CondIndep data A B C) : CondIndep data B A C := by
  intro v
  rw [Set.union_comm B A, h v, mul_comm]

/-- Decomposition. -/
theorem CondIndep.mono {A B B' C : Set (Fin n)} (h : CondIndep data A B C) (hB : B' ⊆ B) (hAB : ∀ j ∈ A, j ∉ B) : CondIndep data A B' C := by
  intro v
  let M : Set (Fin n) := {j | j ∈ B ∧ j ∉ B' ∧ j ∉ C}
  have e1 : A ∪ B' ∪ C ∪ M = A ∪ B ∪ C := by
    ext j
    have := @hB j
    simp only [Set.mem_union, M, Set.mem_setOf_eq]
    tauto
  have e2 : B' ∪ C ∪ M = B ∪ C := by
    ext j
    have := @hB j
    simp only [Set.mem_union, M, Set.mem_setOf_eq]
    tauto
  have h1 := count_sum (data := data) (W := A ∪ B' ∪ C) (M := M)
    (by rintro j ⟨a, b, c⟩ ((d | d) | d); exacts [hAB j d a, b d, c d]) v
  have h2 := count_sum (data := data) (W := B' ∪ C) (M := M) (by rintro j ⟨a, b, c⟩ (d | d); exacts [b d, c d]) v
  rw [e1] at h1
  rw [e2] at h2
  rw [h1, h2, sum_mul, mul_sum]
  refine sum_congr rfl fun m _ => ?_
  have hC : count data C v = count data C (glue M m v) := count_congr fun j hj => (glue_out fun hm => hm.2.2 hj).symm
  have hAC : count data (A ∪ C) v = count data (A ∪ C) (glue M m v) :=
    count_congr fun j hj => (glue_out fun hm => hj.elim (fun ha => hAB j ha hm.1) fun hc => hm.2.2 hc).symm
  rw [hC, hAC]
  exact h _

/-- The factor of a variable: the relative frequency of its value among the rows with the values of its parents. -/
noncomputable def factor (D : Fin n → Fin n → Prop) (data : Fin N → Fin n → Int) (i : Fin n) (v : Fin n → Int) : ℚ :=
  (count data ({i} ∪ {p | D p i}) v : ℚ) / (count data {p | D p i} v : ℚ)

theorem factor_congr {D : Fin n → Fin n → Prop} {i : Fin n} {v w : Fin n → Int} (hi : v i = w i) (h : ∀ p, D p i → v p = w p) :
    factor D data i v = factor D data i w := by
  unfold factor
  rw [count_congr (v := v) (w := w) (W := {p | D p i}) h, count_congr (v := v) (w := w)]
  rintro j (rfl | hj)
  exacts [hi, h j hj]

/-- The factorisation of the joint distribution of a set of variables that contains the parents of its members. -/
theorem Markov.product {D : Fin n → Fin n → Prop} (hac : Acyclic D) (hM : Markov D data) (v : Fin n → Int) :
    ∀ (U : Finset (Fin n)), (∀ p i, D p i → i ∈ U → p ∈ U) → (count data U v : ℚ) = N * ∏ i ∈ U, factor D data i v := by
  classical
  obtain ⟨r, hr⟩ := acyclic_rank hac
  intro U
  induction hc : U.card generalizing U with
  | zero =>
    intro _
    rw [card_eq_zero] at hc
    subst hc
    simp [count]
  | succ c ih =>
    intro hU
    obtain ⟨i, hi, hmax⟩ := exists_max_image U r (card_pos.1 (by omega))
    have hcl : ∀ p j, D p j → j ∈ U.erase i → p ∈ U.erase i := by
      intro p j hpj hj
      rw [mem_erase] at hj ⊢
      refine ⟨?_, hU p j hpj hj.2⟩
      rintro rfl
      exact absurd (hmax j hj.2) (not_le.2 (hr _ _ hpj))
    have h1 := ih (U.erase i) (by rw [card_erase_of_mem hi]; omega) hcl
    rw [← mul_prod_erase _ _ hi]
    have hnd : ∀ j ∈ U.erase i, ¬ ReflTransGen D i j := by
      intro j hj hp
      rw [mem_erase] at hj
      have : r i < r j := rank_lt hr (reflTransGen_iff_eq_or_transGen.1 hp |>.resolve_left hj.1)
      exact absurd (hmax j hj.2) (not_le.2 this)
    have hci := (hM i).mono (B' := ((U.erase i : Finset (Fin n)) : Set (Fin n))) hnd
      (fun j hj hn => hn (by rw [Set.mem_singleton_iff.1 hj])) v
    have hpar : ∀ p, D p i → p ∈ U.erase i := fun p hp =>
      mem_erase.2 ⟨fun e => by subst e; exact hac p (TransGen.single hp), hU p i hp hi⟩
    have e1 : ({i} ∪ ((U.erase i : Finset (Fin n)) : Set (Fin n)) ∪ {p | D p i}) = (U : Set (Fin n)) := by
      ext j
      simp only [Set.mem_union, Set.mem_singleton_iff, mem_coe, mem_erase, Set.mem_setOf_eq]
      constructor
      · rintro ((rfl | h) | h)
        exacts [hi, h.2, hU j i h hi]
      · intro h
        by_cases e : j = i
        · exact Or.inl (Or.inl e)
        · exact Or.inl (Or.inr ⟨e, h⟩)
    have e2 : (((U.erase i : Finset (Fin n)) : Set (Fin n)) ∪ {p | D p i}) = ((U.erase i : Finset (Fin n)) : Set (Fin n)) := by
      rw [Set.union_eq_left]
      exact fun p hp => hpar p hp
    rw [e1, e2] at hci
    have hq : (count data U v : ℚ) * count data {p | D p i} v = count data ({i} ∪ {p | D p i}) v * count data (U.erase i : Finset (Fin n)) v := by
      exact_mod_cast hci
    by_cases h0 : count data {p | D p i} v = 0
    · have : count data U v = 0 := Nat.le_zero.1 (h0 ▸ count_mono (fun p hp => hU p i hp hi) v)
      rw [this]
      unfold factor
      rw [h0]
      simp
    · have h0' : (count data {p | D p i} v : ℚ) ≠ 0 := by exact_mod_cast h0
      unfold factor
      rw [eq_div_of_mul_eq h0' hq, h1]
      unfold factor
      ring

theorem condIndep_of_factors {A B C : Set (Fin n)} (hAB : ∀ j ∈ A, j ∉ B) (hAC : ∀ j ∈ A, j ∉ C) (hBC : ∀ j ∈ B, j ∉ C)
    {φ ψ : (Fin n → Int) → ℚ} (hφ : ∀ v w, (∀ j ∈ A ∪ C, v j = w j) → φ v = φ w) (hψ : ∀ v w, (∀ j ∈ B ∪ C, v j = w j) → ψ v = ψ w)
    (h : ∀ v, (count data (A ∪ B ∪ C) v : ℚ) = φ v * ψ v) : CondIndep data A B C := by
  intro v
  have hac : ∀ v, (count data (A ∪ C) v : ℚ) = φ v * ∑ m ∈ vals data B, ψ (glue B m v) := by
    intro v
    rw [count_sum (W := A ∪ C) (M := B) (by rintro j hj (h | h); exacts [hAB j h hj, hBC j hj h]) v, Nat.cast_sum, mul_sum]
    refine sum_congr rfl fun m _ => ?_
    rw [Set.union_right_comm, h, hφ (glue B m v) v]
    rintro j (hj | hj)
    exacts [glue_out fun hb => hAB j hj hb, glue_out fun hb => hBC j hb hj]
  have hbc : (count data (B ∪ C) v : ℚ) = (∑ m ∈ vals data A, φ (glue A m v)) * ψ v := by
    rw [count_sum (W := B ∪ C) (M := A) (by rintro j hj (h | h); exacts [hAB j hj h, hAC j hj h]) v, Nat.cast_sum, sum_mul]
    refine sum_congr rfl fun m _ => ?_
    rw [show B ∪ C ∪ A = A ∪ B ∪ C by rw [Set.union_comm, Set.union_assoc], h, hψ (glue A m v) v]
    rintro j (hj | hj)
    exacts [glue_out fun ha => hAB j ha hj, glue_out fun ha => hAC j ha hj]
  have hc : (count data C v : ℚ) = (∑ m ∈ vals data A, φ (glue A m v)) * ∑ m ∈ vals data B, ψ (glue B m v) := by
    rw [count_sum (W := C) (M := A) (fun j hj => hAC j hj) v, Nat.cast_sum, sum_mul]
    refine sum_congr rfl fun m _ => ?_
    rw [Set.union_comm, hac]
    congr 1
    refine sum_congr rfl fun m' _ => hψ _ _ ?_
    rintro j (hj | hj)
    · rw [glue_in hj, glue_in hj]
    · rw [glue_out fun hb => hBC j hb hj, glue_out fun hb => hBC j hb hj, glue_out fun ha => hAC j ha hj]
  have : (count data (A ∪ B ∪ C) v : ℚ) * count data C v = count data (A ∪ C) v * count data (B ∪ C) v := by
    rw [h, hc, hac, hbc]
    ring
  exact_mod_cast this

/-- **The global Markov property.** -/
theorem Markov.global {D : Fin n → Fin n → Prop} (hac : Acyclic D) (hM : Markov D data) {x y : Fin n} {S : Set (Fin n)} (hx : x ∉ S) (hy : y ∉ S)
    (hsep : DSep D S x y) : CondIndep data {x} {y} S := by
  classical
  have hxy : x ≠ y := by
    rintro rfl
    exact hsep ⟨[x], by simp, rfl, rfl, ActiveSeq.single x⟩
  let Q : Set (Fin n) := {x, y} ∪ S
  let U : Finset (Fin n) := univ.filter fun i => AncOf D Q i
  have hU : ∀ i, i ∈ U ↔ AncOf D Q i := fun i => by simp [U]
  have hcl : ∀ p i, D p i → i ∈ U → p ∈ U := fun p i h hi => (hU p).2 (((hU i).1 hi).of_edge h)
  let A : Set (Fin n) := {i | AncOf D Q i ∧ i ∉ S ∧ DConn D S i x}
  let B : Set (Fin n) := {i | AncOf D Q i ∧ i ∉ S ∧ ¬ DConn D S i x}
  have hUS : ∀ s ∈ S, AncOf D Q s := fun s hs => ⟨s, Or.inr hs, .refl⟩
  have eU : A ∪ B ∪ S = (U : Set (Fin n)) := by
    ext j
    have := hUS j
    simp only [Set.mem_union, A, B, Set.mem_setOf_eq, mem_coe, hU]
    tauto
  -- the families of `A` and the others
  let FA : Fin n → Prop := fun i => ∃ j, (j = i ∨ D j i) ∧ j ∈ A
  have hprod := fun v => hM.product hac v U hcl
  have hAB : ∀ j ∈ A, j ∉ B := fun j ha hb => hb.2.2 ha.2.2
  have hAC : ∀ j ∈ A, j ∉ S := fun j ha => ha.2.1
  have hBC : ∀ j ∈ B, j ∉ S := fun j hb => hb.2.1
  have key : CondIndep data A B S := by
    refine condIndep_of_factors hAB hAC hBC (φ := fun v => ∏ i ∈ U.filter FA, factor D data i v)
      (ψ := fun v => N * ∏ i ∈ U.filter fun i => ¬ FA i, factor D data i v) ?_ ?_ ?_
    · intro v w h
      refine prod_congr rfl fun i hi => ?_
      obtain ⟨hiU, j, hj, hjA⟩ := mem_filter.1 hi
      have hm : ∀ t, (t = i ∨ D t i) → v t = w t := by
        intro t ht
        refine h t ?_
        by_cases htS : t ∈ S
        · exact Or.inr htS
        · refine Or.inl ⟨?_, htS, moral_closed hac hsep ((hU i).1 hiU) hj ht hjA.2.1 htS hjA.2.2⟩
          rcases ht with rfl | ht
          · exact (hU _).1 hiU
          · exact ((hU i).1 hiU).of_edge ht
      exact factor_congr (hm i (Or.inl rfl)) fun p hp => hm p (Or.inr hp)
    · intro v w h
      congr 1
      refine prod_congr rfl fun i hi => ?_
      obtain ⟨hiU, hn⟩ := mem_filter.1 hi
      have hm : ∀ t, (t = i ∨ D t i) → v t = w t := by
        intro t ht
        refine h t ?_
        by_cases htS : t ∈ S
        · exact Or.inr htS
        · have hta : AncOf D Q t := by
            rcases ht with rfl | ht
            · exact (hU _).1 hiU
            · exact ((hU i).1 hiU).of_edge ht
          exact Or.inl ⟨hta, htS, fun hc => hn ⟨t, ht, hta, htS, hc⟩⟩
      exact factor_congr (hm i (Or.inl rfl)) fun p hp => hm p (Or.inr hp)
    · intro v
      rw [eU, hprod v, ← prod_filter_mul_prod_filter_not U FA]
      ring
  have hxA : x ∈ A := ⟨⟨x, Or.inl (Or.inl rfl), .refl⟩, hx, ⟨[x], by simp, rfl, rfl, ActiveSeq.single x⟩⟩
  have hyB : y ∈ B := ⟨⟨y, Or.inl (Or.inr rfl), .refl⟩, hy, fun hc => hsep hc.symm⟩
  have k1 : CondIndep data A {y} S := key.mono (by simpa using hyB) hAB
  exact (k1.symm.mono (B' := {x}) (by simpa using hxA) (fun j hj ha => hAB j ha (by rw [Set.mem_singleton_iff.1 hj]; exact hyB))).symm

end Discrete
