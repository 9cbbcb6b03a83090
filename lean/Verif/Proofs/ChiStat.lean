import Verif.Spec.ChiSq
import Mathlib.Analysis.SpecialFunctions.Log.Basic
import Mathlib.Algebra.BigOperators.Field
import Mathlib.Tactic

/-!
# When the chi-square and G-square statistics vanish
-/
namespace ChiSpec
open Finset
variable {N : Nat} {A B C : Type} [DecidableEq A] [DecidableEq B] [DecidableEq C] {s : Fin N → C} {x : Fin N → A} {y : Fin N → B}

/-- The table is independent in every stratum. -/
def IndepTable (s : Fin N → C) (x : Fin N → A) (y : Fin N → B) : Prop := ∀ c a b, nSXY s x y c a b * nS s c = nSX s x c a * nSX s y c b

theorem nSXY_le_left (c : C) (a : A) (b : B) : nSXY s x y c a b ≤ nSX s x c a :=
  card_le_card fun k hk => by simp only [mem_filter, mem_univ, true_and] at hk ⊢; exact ⟨hk.1, hk.2.1⟩

theorem nSXY_le_right (c : C) (a : A) (b : B) : nSXY s x y c a b ≤ nSX s y c b :=
  card_le_card fun k hk => by simp only [mem_filter, mem_univ, true_and] at hk ⊢; exact ⟨hk.1, hk.2.2⟩

theorem nSX_le (c : C) (a : A) : nSX s x c a ≤ nS s c :=
  card_le_card fun k hk => by simp only [mem_filter, mem_univ, true_and] at hk ⊢; exact hk.1

theorem nSX_pos_mem {c : C} {a : A} (h : nSX s x c a ≠ 0) : c ∈ univ.image s ∧ a ∈ univ.image x := by
  obtain ⟨k, hk⟩ := card_pos.1 (Nat.pos_of_ne_zero h)
  simp only [mem_filter, mem_univ, true_and] at hk
  exact ⟨mem_image.2 ⟨k, mem_univ _, hk.1⟩, mem_image.2 ⟨k, mem_univ _, hk.2⟩⟩

theorem ex_eq_of_indep (h : IndepTable s x y) {c : C} {a : A} {b : B} (h0 : nS s c ≠ 0) : (ex s x y c a b : ℝ) = nSXY s x y c a b := by
  unfold ex
  rw [div_eq_iff (by exact_mod_cast h0)]
  exact_mod_cast (h c a b).symm

theorem chi2_of_indep (h : IndepTable s x y) : (chi2 s x y : ℝ) = 0 := by
  unfold chi2
  refine sum_eq_zero fun c _ => sum_eq_zero fun a _ => sum_eq_zero fun b _ => ?_
  by_cases h0 : nSX s x c a = 0 ∨ nSX s y c b = 0
  · rw [if_pos h0]
  · rw [if_neg h0]
    have hn : nS s c ≠ 0 := fun e => h0 (Or.inl (Nat.le_zero.1 (e ▸ nSX_le c a)))
    rw [ex_eq_of_indep h hn, sub_self]
    simp

theorem g2_of_indep (h : IndepTable s x y) : (g2 Real.log s x y : ℝ) = 0 := by
  unfold g2
  refine mul_eq_zero_of_right _ (sum_eq_zero fun c _ => sum_eq_zero fun a _ => sum_eq_zero fun b _ => ?_)
  by_cases h0 : nSXY s x y c a b = 0
  · rw [if_pos h0]
  · rw [if_neg h0]
    have hn : nS s c ≠ 0 := fun e => h0 (Nat.le_zero.1 (e ▸ (nSXY_le_left c a b).trans (nSX_le c a)))
    rw [ex_eq_of_indep h hn, div_self (by exact_mod_cast h0), Real.log_one, mul_zero]

theorem ex_nonneg (c : C) (a : A) (b : B) : (0 : ℝ) ≤ ex s x y c a b := by
  unfold ex
  positivity

theorem ex_pos {c : C} {a : A} {b : B} (h1 : nSX s x c a ≠ 0) (h2 : nSX s y c b ≠ 0) : (0 : ℝ) < ex s x y c a b := by
  have hn : nS s c ≠ 0 := fun e => h1 (Nat.le_zero.1 (e ▸ nSX_le c a))
  unfold ex
  have := Nat.pos_of_ne_zero h1
  have := Nat.pos_of_ne_zero h2
  have := Nat.pos_of_ne_zero hn
  positivity

theorem cell_of_not_indep {c : C} {a : A} {b : B} (h : nSXY s x y c a b * nS s c ≠ nSX s x c a * nSX s y c b) :
    nSX s x c a ≠ 0 ∧ nSX s y c b ≠ 0 ∧ (nSXY s x y c a b : ℝ) ≠ ex s x y c a b := by
  have h1 : nSX s x c a ≠ 0 := fun e => h (by
    have h0 := nSXY_le_left (s := s) (x := x) (y := y) c a b
    rw [e] at h0
    rw [e, Nat.le_zero.1 h0]; simp)
  have h2 : nSX s y c b ≠ 0 := fun e => h (by
    have h0 := nSXY_le_right (s := s) (x := x) (y := y) c a b
    rw [e] at h0
    rw [e, Nat.le_zero.1 h0]; simp)
  refine ⟨h1, h2, fun e => h ?_⟩
  have hn : nS s c ≠ 0 := fun e => h1 (Nat.le_zero.1 (e ▸ nSX_le c a))
  unfold ex at e
  rw [eq_div_iff (by exact_mod_cast hn)] at e
  exact_mod_cast e

theorem chi2_pos (h : ¬ IndepTable s x y) : (0 : ℝ) < chi2 s x y := by
  unfold IndepTable at h
  push Not at h
  obtain ⟨c, a, b, h⟩ := h
  obtain ⟨h1, h2, h3⟩ := cell_of_not_indep h
  have nn : ∀ c a b, (0 : ℝ) ≤ if nSX s x c a = 0 ∨ nSX s y c b = 0 then 0 else ((nSXY s x y c a b : ℝ) - ex s x y c a b) ^ 2 / ex s x y c a b := by
    intro c a b
    split
    · exact le_rfl
    · exact div_nonneg (sq_nonneg _) (ex_nonneg c a b)
  obtain ⟨m1, m2⟩ := nSX_pos_mem h1
  obtain ⟨-, m3⟩ := nSX_pos_mem h2
  unfold chi2
  refine sum_pos' (fun c _ => sum_nonneg fun a _ => sum_nonneg fun b _ => nn c a b) ⟨c, m1, ?_⟩
  refine sum_pos' (fun a _ => sum_nonneg fun b _ => nn c a b) ⟨a, m2, ?_⟩
  refine sum_pos' (fun b _ => nn c a b) ⟨b, m3, ?_⟩
  rw [if_neg (by simp [h1, h2])]
  have : (nSXY s x y c a b : ℝ) - ex s x y c a b ≠ 0 := sub_ne_zero.2 h3
  exact div_pos (by positivity) (ex_pos h1 h2)

theorem sum_nSX (c : C) : ∑ a ∈ univ.image x, nSX s x c a = nS s c := by
  unfold nS
  rw [card_eq_sum_card_fiberwise (f := x) (t := univ.image x) fun k _ => mem_image_of_mem _ (mem_univ k)]
  refine sum_congr rfl fun a _ => ?_
  unfold nSX
  rw [filter_filter]

theorem sum_nSXY (c : C) : ∑ a ∈ univ.image x, ∑ b ∈ univ.image y, nSXY s x y c a b = nS s c := by
  rw [← sum_nSX (x := x) c]
  refine sum_congr rfl fun a _ => ?_
  unfold nSX
  rw [card_eq_sum_card_fiberwise (f := y) (t := univ.image y) fun k _ => mem_image_of_mem _ (mem_univ k)]
  refine sum_congr rfl fun b _ => ?_
  unfold nSXY
  rw [filter_filter]
  simp only [and_assoc]

theorem sum_ex {c : C} (hc : nS s c ≠ 0) : ∑ a ∈ univ.image x, ∑ b ∈ univ.image y, (ex s x y c a b : ℝ) = nS s c := by
  have h : ∀ a, ∑ b ∈ univ.image y, (ex s x y c a b : ℝ) = nSX s x c a := by
    intro a
    unfold ex
    rw [← sum_div, ← mul_sum]
    have : ∑ b ∈ univ.image y, (nSX s y c b : ℝ) = nS s c := by exact_mod_cast sum_nSX (x := y) c
    rw [this, mul_div_assoc, div_self (by exact_mod_cast hc), mul_one]
  rw [sum_congr rfl fun a _ => h a]
  exact_mod_cast sum_nSX (x := x) c

theorem g2_pos (h : ¬ IndepTable s x y) : (0 : ℝ) < g2 Real.log s x y := by
  unfold IndepTable at h
  push Not at h
  obtain ⟨c, a, b, h⟩ := h
  obtain ⟨h1, h2, h3⟩ := cell_of_not_indep h
  -- each cell against `observed - expected`
  have key : ∀ c a b, ((nSXY s x y c a b : ℝ) - ex s x y c a b ≤
        if nSXY s x y c a b = 0 then 0 else (nSXY s x y c a b : ℝ) * Real.log ((nSXY s x y c a b : ℝ) / ex s x y c a b)) ∧
      ((nSXY s x y c a b : ℝ) ≠ ex s x y c a b → (nSXY s x y c a b : ℝ) - ex s x y c a b <
        if nSXY s x y c a b = 0 then 0 else (nSXY s x y c a b : ℝ) * Real.log ((nSXY s x y c a b : ℝ) / ex s x y c a b)) := by
    intro c a b
    have h0 := ex_nonneg (s := s) (x := x) (y := y) c a b
    by_cases ho : nSXY s x y c a b = 0
    · rw [if_pos ho, ho, Nat.cast_zero, zero_sub]
      exact ⟨by linarith, fun e => by have := lt_of_le_of_ne h0 e; linarith⟩
    · rw [if_neg ho]
      have hop : (0 : ℝ) < nSXY s x y c a b := by exact_mod_cast Nat.pos_of_ne_zero ho
      have hep : (0 : ℝ) < ex s x y c a b := ex_pos (fun e => ho (Nat.le_zero.1 (e ▸ nSXY_le_left c a b)))
        fun e => ho (Nat.le_zero.1 (e ▸ nSXY_le_right c a b))
      generalize (nSXY s x y c a b : ℝ) = o at hop ⊢
      generalize (ex s x y c a b : ℝ) = e at hep ⊢
      have hlog : Real.log (o / e) = - Real.log (e / o) := by rw [← Real.log_inv, inv_div]
      have he : o * (e / o - 1) = e - o := by field_simp
      constructor
      · have := mul_le_mul_of_nonneg_left (Real.log_le_sub_one_of_pos (div_pos hep hop)) hop.le
        rw [hlog]; linarith
      · intro hne
        have hne' : e / o ≠ 1 := fun h => hne ((div_eq_one_iff_eq hop.ne').1 h).symm
        have := mul_lt_mul_of_pos_left (Real.log_lt_sub_one_of_pos (div_pos hep hop) hne') hop
        rw [hlog]; linarith
  have zero : ∀ c ∈ univ.image s, ∑ a ∈ univ.image x, ∑ b ∈ univ.image y, ((nSXY s x y c a b : ℝ) - ex s x y c a b) = 0 := by
    intro c hc
    obtain ⟨k, -, rfl⟩ := mem_image.1 hc
    have hn : nS s (s k) ≠ 0 := (card_pos.2 ⟨k, by simp⟩).ne'
    have e1 : ∑ a ∈ univ.image x, ∑ b ∈ univ.image y, (nSXY s x y (s k) a b : ℝ) = nS s (s k) := by exact_mod_cast sum_nSXY (s := s) (x := x) (y := y) (s k)
    simp only [sum_sub_distrib]
    rw [e1, sum_ex hn, sub_self]
  obtain ⟨m1, m2⟩ := nSX_pos_mem h1
  obtain ⟨-, m3⟩ := nSX_pos_mem h2
  unfold g2
  refine mul_pos two_pos ?_
  refine sum_pos' (fun c hc => ?_) ⟨c, m1, ?_⟩
  · refine (zero c hc).symm.le.trans ?_
    exact sum_le_sum fun a _ => sum_le_sum fun b _ => (key c a b).1
  · refine (zero c m1).symm.le.trans_lt ?_
    refine sum_lt_sum (fun a _ => sum_le_sum fun b _ => (key c a b).1) ⟨a, m2, ?_⟩
    exact sum_lt_sum (fun b _ => (key c a b).1) ⟨b, m3, (key c a b).2 h3⟩

/-- Where a stratum is dependent both variables take two values in it. -/
theorem two_values {c : C} {a : A} {b : B} (h : nSXY s x y c a b * nS s c ≠ nSX s x c a * nSX s y c b) :
    1 < #((univ.filter fun k => s k = c).image x) := by
  obtain ⟨h1, h2, -⟩ := cell_of_not_indep h
  rw [one_lt_card]
  obtain ⟨k, hk⟩ := card_pos.1 (Nat.pos_of_ne_zero h1)
  simp only [mem_filter, mem_univ, true_and] at hk
  by_contra hn
  push Not at hn
  have hall : ∀ l, s l = c → x l = a := fun l hl =>
    (hn a (mem_image.2 ⟨k, by simp [hk.1], hk.2⟩) (x l) (mem_image.2 ⟨l, by simp [hl], rfl⟩)).symm
  refine h ?_
  have e1 : nSX s x c a = nS s c := congrArg card (filter_congr fun l _ => ⟨fun h => h.1, fun h => ⟨h, hall l h⟩⟩)
  have e2 : nSXY s x y c a b = nSX s y c b := congrArg card (filter_congr fun l _ => ⟨fun h => ⟨h.1, h.2.2⟩, fun h => ⟨h.1, hall l h.1, h.2⟩⟩)
  rw [e1, e2, mul_comm]

theorem df_pos (h : ¬ IndepTable s x y) : 0 < df s x y := by
  unfold IndepTable at h
  push Not at h
  obtain ⟨c, a, b, h⟩ := h
  have h1 := two_values h
  have hsw : nSXY s y x c b a = nSXY s x y c a b := congrArg card (filter_congr fun l _ => by rw [and_comm (a := y l = b)])
  have h2 := two_values (s := s) (x := y) (y := x) (c := c) (a := b) (b := a) (by rw [hsw, mul_comm (nSX s y c b)]; exact h)
  obtain ⟨m1, -⟩ := nSX_pos_mem (cell_of_not_indep h).1
  unfold df
  refine sum_pos' (fun c hc => ?_) ⟨c, m1, ?_⟩
  · obtain ⟨k, -, rfl⟩ := mem_image.1 hc
    have p1 : 0 < #((univ.filter fun l => s l = s k).image x) := card_pos.2 ⟨x k, mem_image.2 ⟨k, by simp, rfl⟩⟩
    have p2 : 0 < #((univ.filter fun l => s l = s k).image y) := card_pos.2 ⟨y k, mem_image.2 ⟨k, by simp, rfl⟩⟩
    exact mul_nonneg (by omega) (by omega)
  · exact mul_pos (by omega) (by omega)

end ChiSpec
