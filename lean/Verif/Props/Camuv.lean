import Verif.Model.Camuv
import Verif.Proofs.Skeleton
import Verif.Spec.DSep
import Verif.Proofs.IMap
import Mathlib.Algebra.BigOperators.Group.Finset.Basic
import Mathlib.Algebra.Order.BigOperators.Group.Finset

/-!
# C86–C88: CAM-UV
-/
namespace CL
namespace Camuv
open Spec Relation
variable {d : Nat} {K : Type} [LinearOrder K] {t : Tests d K}

/-! ### one step -/

/-- what the loop over the candidate children returns -/
theorem child_fold (s : St d) (U : Finset (Fin d)) (l : List (Fin d)) (b : K × Option (Fin d)) :
    let r := l.foldl (childStep t s U) b
    b.1 ≤ r.1 ∧ (∀ c ∈ l, checkCorrelation t c (U.erase c) = true → t.multi (c, U.erase c ∪ s.P c) (U.erase c) s.Y ≤ r.1) ∧
      (r = b ∨ ∃ c ∈ l, checkCorrelation t c (U.erase c) = true ∧ r = (t.multi (c, U.erase c ∪ s.P c) (U.erase c) s.Y, some c) ∧ b.1 < r.1) := by
  induction l generalizing b with
  | nil => simp
  | cons c l ih =>
    intro r
    obtain ⟨h1, h2, h3⟩ := ih (childStep t s U b c)
    have hr : r = l.foldl (childStep t s U) (childStep t s U b c) := rfl
    rw [← hr] at h1 h2 h3
    have hs : childStep t s U b c = b ∧ (checkCorrelation t c (U.erase c) = true → t.multi (c, U.erase c ∪ s.P c) (U.erase c) s.Y ≤ b.1) ∨
        checkCorrelation t c (U.erase c) = true ∧ b.1 < t.multi (c, U.erase c ∪ s.P c) (U.erase c) s.Y ∧
          childStep t s U b c = (t.multi (c, U.erase c ∪ s.P c) (U.erase c) s.Y, some c) := by
      unfold childStep
      split
      · split
        · exact Or.inr ⟨‹_›, ‹_›, rfl⟩
        · exact Or.inl ⟨rfl, fun _ => not_lt.1 ‹_›⟩
      · exact Or.inl ⟨rfl, fun h => absurd h ‹_›⟩
    rcases hs with ⟨e, hle⟩ | ⟨hc, hlt, e⟩
    · rw [e] at h1 h3
      refine ⟨h1, fun c' hc' hcc => ?_, ?_⟩
      · rcases List.mem_cons.1 hc' with rfl | hc'
        · exact (hle hcc).trans h1
        · exact h2 c' hc' hcc
      · rcases h3 with h3 | ⟨c', hc', h⟩
        · exact Or.inl h3
        · exact Or.inr ⟨c', by simp [hc'], h⟩
    · rw [e] at h1 h3
      refine ⟨hlt.le.trans h1, fun c' hc' hcc => ?_, Or.inr ?_⟩
      · rcases List.mem_cons.1 hc' with rfl | hc'
        · exact h1
        · exact h2 c' hc' hcc
      · rcases h3 with h3 | ⟨c', hc', g1, g2, g3⟩
        · exact ⟨c, by simp, hc, h3, by rw [h3]; exact hlt⟩
        · exact ⟨c', by simp [hc'], g1, g2, hlt.trans g3⟩

/-- a step records nothing, or the parents of the best child -/
theorem step_cases (s : St d) (U : Finset (Fin d)) : step t s U = s ∨
    ∃ c ∈ U, unidentified s.P U = true ∧ checkCorrelation t c (U.erase c) = true ∧
      t.alpha < t.multi (c, U.erase c ∪ s.P c) (U.erase c) s.Y ∧ dependentWithoutK t s (U.erase c) c = true ∧
      U.erase c ≠ ∅ ∧ step t s U = record s (U.erase c) c := by
  unfold step
  split
  · rename_i hu
    split
    · rename_i ha
      obtain ⟨-, -, h⟩ := child_fold (t := t) s U (t.enum U) (t.zero, none)
      rcases h with h | ⟨c, hc, h1, h2, -⟩
      · left
        rw [show getChild t s U = (t.zero, none) from h]
        rfl
      · have e : getChild t s U = (t.multi (c, U.erase c ∪ s.P c) (U.erase c) s.Y, some c) := h2
        rw [e]
        simp only [Option.elim_some]
        rw [e] at ha
        split
        · by_cases hem : U.erase c = ∅
          · left
            rw [record, if_pos hem]
          · exact Or.inr ⟨c, (t.mem_enum U c).1 hc, hu, h1, ha, ‹_›, hem, rfl⟩
        · exact Or.inl rfl
    · exact Or.inl rfl
  · exact Or.inl rfl

theorem record_P {s : St d} {Q : Finset (Fin d)} {c : Fin d} (h : Q ≠ ∅) (v : Fin d) : (record s Q c).P v = if v = c then s.P c ∪ Q else s.P v := by
  rw [record, if_neg h]

theorem unidentified_iff {P : Fin d → Finset (Fin d)} {U : Finset (Fin d)} :
    unidentified P U = true ↔ ∀ i ∈ U, ∀ j ∈ U, i ≠ j → j ∉ P i ∧ i ∉ P j := by unfold unidentified; rw [decide_eq_true_eq]

/-! ### invariants -/

/-- irreflexive, antisymmetric, only neighbours; `Y` holds the residuals on the present parents -/
structure Sane (t : Tests d K) (s : St d) : Prop where
  irrefl : ∀ i, i ∉ s.P i
  asymm : ∀ i j, j ∈ s.P i → i ∉ s.P j
  near : ∀ i j, j ∈ s.P i → neighbour t i j = true
  resid : s.Y = s.P

theorem step_sane {s : St d} (h : Sane t s) (U : Finset (Fin d)) : Sane t (step t s U) := by
  rcases step_cases (t := t) s U with e | ⟨c, hc, hu, hcc, -, -, hne, e⟩
  · rw [e]; exact h
  · rw [e]
    rw [unidentified_iff] at hu
    have hmem : ∀ x, x ∈ U.erase c → x ∉ s.P c ∧ c ∉ s.P x ∧ x ≠ c := fun x hx => by
      obtain ⟨h1, h2⟩ := Finset.mem_erase.1 hx
      have := hu c hc x h2 (Ne.symm h1)
      exact ⟨this.1, this.2, h1⟩
    constructor
    · intro i
      rw [record_P hne]
      split
      · rename_i hi
        subst hi
        rw [Finset.mem_union, not_or]
        exact ⟨h.irrefl _, Finset.notMem_erase _ _⟩
      · exact h.irrefl i
    · intro i j hj
      rw [record_P hne] at hj ⊢
      split at hj
      · rename_i hi
        subst hi
        rcases Finset.mem_union.1 hj with hj | hj
        · rw [if_neg fun e : j = i => h.irrefl i (e ▸ hj)]
          exact h.asymm _ _ hj
        · rw [if_neg (hmem j hj).2.2]
          exact (hmem j hj).2.1
      · rename_i hi
        split
        · rename_i hjc
          subst hjc
          rw [Finset.mem_union, not_or]
          exact ⟨h.asymm _ _ hj, fun hi' => (hmem i hi').2.1 hj⟩
        · exact h.asymm _ _ hj
    · intro i j hj
      rw [record_P hne] at hj
      split at hj
      · rename_i hi
        subst hi
        rcases Finset.mem_union.1 hj with hj | hj
        · exact h.near _ _ hj
        · unfold checkCorrelation at hcc
          rw [decide_eq_true_eq] at hcc
          exact hcc j hj
      · exact h.near _ _ hj
    · rw [record, if_neg hne, h.resid]

theorem foldl_inv {Q : St d → Prop} (hs : ∀ s U, Q s → Q (step t s U)) (l : List (Finset (Fin d))) (s : St d) (h : Q s) : Q (l.foldl (step t) s) := by
  induction l generalizing s with
  | nil => exact h
  | cons U l ih => exact ih _ (hs s U h)

theorem loop_inv {Q : St d → Prop} (hs : ∀ s U, Q s → Q (step t s U)) (h0 : ∀ s, Q s → Q { s with changed := false }) {maxN : Nat} :
    ∀ {f k : Nat} {s r : St d}, Q s → loop t maxN f k s = some r → Q r := by
  intro f
  induction f with
  | zero => intro k s r _ h; simp [loop] at h
  | succ f ih =>
    intro k s r hQ h
    have hp : Q (pass t k s) := foldl_inv hs _ _ (h0 s hQ)
    rw [loop] at h
    split at h
    · exact ih hp h
    · split at h
      · simp only [Option.some.injEq] at h
        rw [← h]; exact hp
      · exact ih hp h

/-! ### termination -/

/-- number of recorded parents -/
def weight (P : Fin d → Finset (Fin d)) : Nat := ∑ v, (P v).card

theorem weight_le (P : Fin d → Finset (Fin d)) : weight P ≤ d * d := by
  unfold weight
  calc ∑ v, (P v).card ≤ ∑ _v : Fin d, d := Finset.sum_le_sum fun v _ => (Finset.card_le_univ _).trans (by simp)
    _ = d * d := by simp

theorem step_weight (s : St d) (U : Finset (Fin d)) : step t s U = s ∨ (step t s U).changed = true ∧ weight s.P < weight (step t s U).P := by
  rcases step_cases (t := t) s U with e | ⟨c, hc, hu, -, -, -, hne, e⟩
  · exact Or.inl e
  · right
    rw [e]
    refine ⟨by rw [record, if_neg hne], ?_⟩
    obtain ⟨x, hx⟩ := Finset.nonempty_iff_ne_empty.2 hne
    refine Finset.sum_lt_sum (fun v _ => ?_) ⟨c, Finset.mem_univ c, ?_⟩
    · rw [record_P hne]
      split
      · rename_i hv; subst hv; exact Finset.card_le_card Finset.subset_union_left
      · exact le_rfl
    · rw [record_P hne, if_pos rfl]
      refine Finset.card_lt_card ⟨Finset.subset_union_left, fun hs => ?_⟩
      obtain ⟨h1, h2⟩ := Finset.mem_erase.1 hx
      exact ((unidentified_iff.1 hu) c hc x h2 (Ne.symm h1)).1 (hs (Finset.mem_union_right _ hx))

theorem foldl_weight (l : List (Finset (Fin d))) (s : St d) : (l.foldl (step t) s = s ∧ ∀ U ∈ l, step t s U = s) ∨
    (l.foldl (step t) s).changed = true ∧ weight s.P < weight (l.foldl (step t) s).P := by
  induction l generalizing s with
  | nil => exact Or.inl ⟨rfl, by simp⟩
  | cons U l ih =>
    rw [List.foldl_cons]
    rcases step_weight (t := t) s U with e | ⟨h1, h2⟩
    · rw [e]
      rcases ih s with ⟨h3, h4⟩ | h
      · refine Or.inl ⟨h3, fun V hV => ?_⟩
        rcases List.mem_cons.1 hV with rfl | hV
        · exact e
        · exact h4 V hV
      · exact Or.inr h
    · right
      rcases ih (step t s U) with ⟨h3, -⟩ | ⟨h3, h4⟩
      · rw [h3]; exact ⟨h1, h2⟩
      · exact ⟨h3, h2.trans h4⟩

theorem pass_weight (k : Nat) (s : St d) :
    ((pass t k s) = { s with changed := false } ∧ ∀ U ∈ (combos (List.finRange d) k).map List.toFinset, step t { s with changed := false } U = { s with changed := false }) ∨
      (pass t k s).changed = true ∧ weight s.P < weight (pass t k s).P := foldl_weight _ { s with changed := false }

theorem loop_terminates (maxN : Nat) : ∀ (f k : Nat) (s : St d), 2 ≤ k → (d * d - weight s.P) * (maxN + 1) + (maxN + 2 - k) < f →
    ∃ r, loop t maxN f k s = some r ∧ ∀ f', f ≤ f' → loop t maxN f' k s = some r := by
  intro f
  induction f with
  | zero => intro k s _ h; omega
  | succ f ih =>
    intro k s hk hf
    have hw := weight_le (pass t k s).P
    by_cases hc : (pass t k s).changed = true
    · have hlt : weight s.P < weight (pass t k s).P := by
        rcases pass_weight (t := t) k s with ⟨h1, -⟩ | ⟨-, h2⟩
        · rw [h1] at hc; cases hc
        · exact h2
      obtain ⟨r, h1, h2⟩ := ih 2 (pass t k s) le_rfl (by
        have : (d * d - weight (pass t k s).P + 1) * (maxN + 1) ≤ (d * d - weight s.P) * (maxN + 1) := Nat.mul_le_mul_right _ (by omega)
        rw [Nat.add_mul] at this
        omega)
      have e : ∀ f', loop t maxN (f' + 1) k s = loop t maxN f' 2 (pass t k s) := fun f' => by rw [loop]; exact if_pos hc
      refine ⟨r, by rw [e]; exact h1, fun f' hf' => ?_⟩
      obtain ⟨g, rfl⟩ : ∃ g, f' = g + 1 := ⟨f' - 1, by omega⟩
      rw [e]; exact h2 g (by omega)
    · have hM : (pass t k s).P = s.P := by
        rcases pass_weight (t := t) k s with ⟨h2, -⟩ | ⟨h1, -⟩
        · rw [h2]
        · exact absurd h1 hc
      by_cases hkm : maxN < k + 1
      · have e : ∀ f', loop t maxN (f' + 1) k s = some (pass t k s) := fun f' => by
          rw [loop]; rw [if_neg hc, if_pos hkm]
        refine ⟨_, e f, fun f' hf' => ?_⟩
        obtain ⟨g, rfl⟩ : ∃ g, f' = g + 1 := ⟨f' - 1, by omega⟩
        exact e g
      · obtain ⟨r, h1, h2⟩ := ih (k + 1) (pass t k s) (by omega) (by rw [hM]; omega)
        have e : ∀ f', loop t maxN (f' + 1) k s = loop t maxN f' (k + 1) (pass t k s) := fun f' => by
          rw [loop]; rw [if_neg hc, if_neg hkm]
        refine ⟨r, by rw [e]; exact h1, fun f' hf' => ?_⟩
        obtain ⟨g, rfl⟩ : ∃ g, f' = g + 1 := ⟨f' - 1, by omega⟩
        rw [e]; exact h2 g (by omega)

/-! ### pruning -/

theorem pruneStep_apply (P : Fin d → Finset (Fin d)) (i v : Fin d) :
    pruneStep t P i v = if v = i then (P i).filter fun j => ¬ t.alpha < t.pair (i, (P i).erase j) (j, P j) else P v := rfl

theorem prune_fold (l : List (Fin d)) (hl : l.Pairwise (· < ·)) (P : Fin d → Finset (Fin d)) :
    (∀ v, v ∉ l → l.foldl (pruneStep t) P v = P v) ∧
    ∀ i ∈ l, l.foldl (pruneStep t) P i =
      (P i).filter fun j => ¬ t.alpha < t.pair (i, (P i).erase j) (j, if j ∈ l ∧ j < i then l.foldl (pruneStep t) P j else P j) := by
  induction l generalizing P with
  | nil => simp
  | cons a l ih =>
    obtain ⟨ha, hl⟩ := List.pairwise_cons.1 hl
    obtain ⟨h1, h2⟩ := ih hl (pruneStep t P a)
    have hal : a ∉ l := fun h => lt_irrefl _ (ha a h)
    have hA : l.foldl (pruneStep t) (pruneStep t P a) a = pruneStep t P a a := h1 a hal
    refine ⟨fun v hv => ?_, fun i hi => ?_⟩
    · rw [List.mem_cons, not_or] at hv
      rw [List.foldl_cons, h1 v hv.2, pruneStep_apply, if_neg hv.1]
    · rw [List.foldl_cons]
      rcases List.mem_cons.1 hi with rfl | hi
      · rw [hA, pruneStep_apply, if_pos rfl]
        refine Finset.filter_congr fun j _ => ?_
        rw [if_neg (c := j ∈ i :: l ∧ j < i)]
        rintro ⟨hj, hlt⟩
        rcases List.mem_cons.1 hj with rfl | hj
        · exact lt_irrefl _ hlt
        · exact lt_asymm hlt (ha j hj)
      · have hai : a < i := ha i hi
        have hia : i ≠ a := hai.ne'
        rw [h2 i hi, pruneStep_apply, if_neg hia]
        refine Finset.filter_congr fun j _ => ?_
        by_cases hja : j = a
        · subst hja
          rw [if_neg (fun h => hal h.1), if_pos ⟨by simp, hai⟩, hA]
        · rw [pruneStep_apply, if_neg hja]
          simp only [List.mem_cons, hja, false_or]

/-- the last loop of `find_parents`: the parents are dropped in the order of the variables -/
theorem prune_all (P : Fin d → Finset (Fin d)) (i : Fin d) : (List.finRange d).foldl (pruneStep t) P i =
    (P i).filter fun j => ¬ t.alpha < t.pair (i, (P i).erase j) (j, if j < i then (List.finRange d).foldl (pruneStep t) P j else P j) := by
  have := (prune_fold (t := t) (List.finRange d) (List.pairwise_lt_finRange d) P).2 i (List.mem_finRange i)
  rw [this]
  refine Finset.filter_congr fun j _ => ?_
  simp

theorem neighbour_symm (i j : Fin d) : neighbour t i j = neighbour t j i := by
  unfold neighbour
  rcases lt_trichotomy i j with h | h | h
  · simp [h, lt_asymm h]
  · subst h; rfl
  · simp [h, lt_asymm h]

theorem hidden_iff (P : Fin d → Finset (Fin d)) {i j : Fin d} (hij : i < j) :
    hidden t P i j = true ↔ i ∉ P j ∧ j ∉ P i ∧ t.pair (i, ∅) (j, ∅) < t.alpha ∧ t.pair (i, P i) (j, P j) < t.alpha := by
  have hn : neighbour t i j = true ↔ t.pair (i, ∅) (j, ∅) < t.alpha := by unfold neighbour; rw [if_pos hij, decide_eq_true_eq]
  unfold hidden
  rw [neighbour_symm j i]
  split
  · simp; tauto
  · split
    · simp only [or_self, hn] at *
      simp; tauto
    · simp only [or_self, hn, not_not] at *
      rw [decide_eq_true_eq]; tauto

/-! ### C86 -/

/-- **C86**. CAM-UV always ends, after at most `d * d * (maxnum + 1) + maxnum + 1` passes, with parents `P` and a list `U` of pairs, and there are
the parents `P0` found by the search such that: `P0` is irreflexive and antisymmetric and only marginally dependent variables are parents; a parent `j` of `i` is dropped
exactly when the residual of `i` on the *other* found parents is independent of the residual of `j` on its parents (the final ones for `j < i`); and `U`
consists, without repetition, of exactly the pairs of marginally dependent variables, neither a parent of the other, whose residuals on their final parents are dependent. -/
theorem C86_execute (t : Tests d K) (maxN : Nat) : ∃ (P0 P : Fin d → Finset (Fin d)) (U : List (Fin d × Fin d)),
    (∀ fuel, d * d * (maxN + 1) + maxN < fuel → execute t maxN fuel = some (P, U)) ∧
    (∀ i, i ∉ P0 i) ∧ (∀ i j, j ∈ P0 i → i ∉ P0 j) ∧
    (∀ i j, j ∈ P0 i → t.pair (min i j, ∅) (max i j, ∅) < t.alpha) ∧
    (∀ i j, j ∈ P i ↔ j ∈ P0 i ∧ ¬ t.alpha < t.pair (i, (P0 i).erase j) (j, if j < i then P j else P0 j)) ∧
    U.Nodup ∧
    ∀ i j, (i, j) ∈ U ↔ i < j ∧ i ∉ P j ∧ j ∉ P i ∧ t.pair (i, ∅) (j, ∅) < t.alpha ∧ t.pair (i, P i) (j, P j) < t.alpha := by
  obtain ⟨r, hr, hr'⟩ := loop_terminates (t := t) maxN (d * d * (maxN + 1) + maxN + 1) 2 init le_rfl (by simp [weight, init])
  have hs : Sane t r := loop_inv (Q := Sane t) (fun s U h => step_sane h U) (fun s h => ⟨h.irrefl, h.asymm, h.near, h.resid⟩)
    ⟨by simp [init], by simp [init], by simp [init], rfl⟩ hr
  refine ⟨r.P, (List.finRange d).foldl (pruneStep t) r.P,
    (List.finRange d).flatMap fun i => ((List.finRange d).filter fun j => decide (i < j) && hidden t ((List.finRange d).foldl (pruneStep t) r.P) i j).map fun j => (i, j),
    fun fuel hf => ?_, hs.irrefl, hs.asymm, fun i j h => ?_, fun i j => ?_, ?_, fun i j => ?_⟩
  · unfold execute findParents
    rw [hr' fuel (by omega)]
    rfl
  · have hn := hs.near i j h
    unfold neighbour at hn
    rcases lt_trichotomy i j with hij | hij | hij
    · rw [min_eq_left hij.le, max_eq_right hij.le]
      simpa [hij] using hn
    · subst hij; simp at hn
    · rw [min_eq_right hij.le, max_eq_left hij.le]
      simpa [hij, lt_asymm hij] using hn
  · rw [prune_all, Finset.mem_filter]
  · rw [List.nodup_flatMap]
    refine ⟨fun i _ => ((List.nodup_finRange d).filter _).map fun a b h => (Prod.mk.inj h).2, ?_⟩
    refine (List.nodup_finRange d).imp fun {a b} hab => ?_
    simp only [Function.onFun]
    intro x hx hy
    simp only [List.mem_map] at hx hy
    obtain ⟨_, -, rfl⟩ := hx
    obtain ⟨_, -, e⟩ := hy
    exact hab (Prod.mk.inj e).1.symm
  · simp only [List.mem_flatMap, List.mem_map, List.mem_filter, List.mem_finRange, true_and, Prod.mk.injEq, Bool.and_eq_true, decide_eq_true_eq]
    constructor
    · rintro ⟨a, b, ⟨h1, h2⟩, rfl, rfl⟩
      exact ⟨h1, (hidden_iff _ h1).1 h2⟩
    · rintro ⟨h1, h2⟩
      exact ⟨i, j, ⟨h1, (hidden_iff _ h1).2 h2⟩, rfl, rfl⟩

/-! ### C87: acyclicity -/

/-- Python iterates over a set of small numbers in increasing order -/
def sortEnum (U : Finset (Fin 3)) : List (Fin 3) := (List.finRange 3).filter (· ∈ U)

/-- Tests on three variables: everything is dependent except that the residual of `i + 1` on `i` is independent of `i`, cyclically. -/
def cycTests : Tests 3 Nat := ⟨fun _ _ => 0, fun x ps _ => if ps = {x.1 + 2} then 2 else 0, 1, 0, sortEnum,
  fun S => (List.nodup_finRange 3).filter _, fun S x => by simp [sortEnum]⟩

theorem some_of_elim {o : Option ((Fin 3 → Finset (Fin 3)) × List (Fin 3 × Fin 3))} {P : Fin 3 → Finset (Fin 3)} {U : List (Fin 3 × Fin 3)}
    (h : (o.elim false fun q => decide (∀ i, q.1 i = P i) && decide (q.2 = U)) = true) : o = some (P, U) := by
  cases o with
  | none => simp at h
  | some q =>
    simp only [Option.elim_some, Bool.and_eq_true, decide_eq_true_eq] at h
    obtain ⟨P', U'⟩ := q
    simp only [Option.some.injEq, Prod.mk.injEq]
    exact ⟨funext h.1, h.2⟩

/-- **C87 is false**: there are p-values for which CAM-UV returns parents around a directed cycle. -/
theorem C87_acyclic_violated : ∃ (t : Tests 3 Nat) (P : Fin 3 → Finset (Fin 3)) (U : List (Fin 3 × Fin 3)), t.zero ≤ t.alpha ∧ (∃ fuel, execute t 2 fuel = some (P, U)) ∧
    0 ∈ P 1 ∧ 1 ∈ P 2 ∧ 2 ∈ P 0 :=
  ⟨cycTests, fun i => {i + 2}, [], by decide, ⟨9, some_of_elim (by decide +kernel)⟩, by decide, by decide, by decide⟩

/-- **C87** (what is true). If the children that the tests single out are right, i.e. there is a DAG in which the other variables are ancestors of each child whose
residual on them is found independent, then every returned parent is an ancestor in that DAG and the returned graph is acyclic. Missing: acyclicity without an
assumption on the tests. -/
theorem C87_acyclic_partial {E : Fin d → Fin d → Prop} (hE : Acyclic E)
    (ht : ∀ (P : Fin d → Finset (Fin d)) (U : Finset (Fin d)), ∀ c ∈ U, (∀ i, ∀ j ∈ P i, TransGen E j i) →
      t.alpha < t.multi (c, U.erase c ∪ P c) (U.erase c) P → (∀ p ∈ U.erase c, ¬ t.alpha < t.pair (c, P c) (p, P p)) → ∀ p ∈ U, p ≠ c → TransGen E p c)
    {maxN fuel : Nat} {P : Fin d → Finset (Fin d)} {L : List (Fin d × Fin d)} (h : execute t maxN fuel = some (P, L)) :
    (∀ i, ∀ j ∈ P i, TransGen E j i) ∧ Acyclic fun j i => j ∈ P i := by
  unfold execute findParents at h
  cases hr : loop t maxN fuel 2 init with
  | none => rw [hr] at h; simp at h
  | some r =>
    rw [hr] at h
    simp only [Option.map_some, Option.some.injEq, Prod.mk.injEq] at h
    have hM : Sane t r ∧ ∀ i, ∀ j ∈ r.P i, TransGen E j i := by
      refine loop_inv (t := t) (Q := fun s => Sane t s ∧ ∀ i, ∀ j ∈ s.P i, TransGen E j i) (fun s U hs => ⟨step_sane hs.1 U, fun i j hj => ?_⟩)
        (fun s h => ⟨⟨h.1.irrefl, h.1.asymm, h.1.near, h.1.resid⟩, h.2⟩)
        ⟨⟨by simp [init], by simp [init], by simp [init], rfl⟩, by simp [init]⟩ hr
      rcases step_cases (t := t) s U with e | ⟨c, hc, hu, hcc, hm, hd, hne, e⟩
      · rw [e] at hj; exact hs.2 i j hj
      · rw [e, record_P hne] at hj
        split at hj
        · rename_i hi
          subst hi
          rcases Finset.mem_union.1 hj with hj | hj
          · exact hs.2 i j hj
          · rw [hs.1.resid] at hm
            unfold dependentWithoutK at hd
            rw [decide_eq_true_eq, hs.1.resid] at hd
            obtain ⟨h1, h2⟩ := Finset.mem_erase.1 hj
            exact ht s.P U i hc hs.2 hm hd j h2 h1
        · exact hs.2 i j hj
    have hP : ∀ i, ∀ j ∈ P i, TransGen E j i := by
      intro i j hj
      rw [← h.1, prune_all, Finset.mem_filter] at hj
      exact hM.2 i j hj.1
    refine ⟨hP, fun x hx => hE x ?_⟩
    have : ∀ a b, TransGen (fun j i => j ∈ P i) a b → TransGen E a b := by
      intro a b hab
      induction hab with
      | single h => exact hP _ _ h
      | tail _ h ih => exact ih.trans (hP _ _ h)
    exact this x x hx

/-! ### C88: nothing more to find -/

/-- a step that leaves the state alone although a child stands out: some candidate parent's residual is independent of the child's -/
theorem step_stuck {s : St d} {U : Finset (Fin d)} (h : step t s U = s) (hz : t.zero ≤ t.alpha) (hu : unidentified s.P U = true) {c : Fin d} (hc : c ∈ U)
    (h2 : U.erase c ≠ ∅) (hn : checkCorrelation t c (U.erase c) = true) (ha : t.alpha < t.multi (c, U.erase c ∪ s.P c) (U.erase c) s.Y)
    (hbest : ∀ c' ∈ U, c' ≠ c → checkCorrelation t c' (U.erase c') = true →
      t.multi (c', U.erase c' ∪ s.P c') (U.erase c') s.Y < t.multi (c, U.erase c ∪ s.P c) (U.erase c) s.Y) :
    ∃ p ∈ U.erase c, t.alpha < t.pair (c, s.Y c) (p, s.Y p) := by
  obtain ⟨-, h3, h4⟩ := child_fold (t := t) s U (t.enum U) (t.zero, none)
  have hle := h3 c ((t.mem_enum U c).2 hc) hn
  have e : getChild t s U = (t.multi (c, U.erase c ∪ s.P c) (U.erase c) s.Y, some c) := by
    rcases h4 with h4 | ⟨c', hc', hn', h4, -⟩
    · rw [h4] at hle
      exact absurd (ha.trans_le (hle.trans hz)) (lt_irrefl _)
    · by_cases hcc : c' = c
      · subst hcc; exact h4
      · rw [h4] at hle
        exact absurd ((hbest c' ((t.mem_enum U c').1 hc') hcc hn').trans_le hle) (lt_irrefl _)
  by_contra hno
  push Not at hno
  have hd : dependentWithoutK t s (U.erase c) c = true := by
    unfold dependentWithoutK
    rw [decide_eq_true_eq]
    exact fun p hp => not_lt.2 (hno p hp)
  have hs : step t s U = record s (U.erase c) c := by
    unfold step
    rw [if_pos hu, e]
    simp only [if_pos ha, Option.elim_some, if_pos hd]
  obtain ⟨x, hx⟩ := Finset.nonempty_iff_ne_empty.2 h2
  have : x ∈ s.P c := by
    rw [← h, hs, record_P h2, if_pos rfl]
    exact Finset.mem_union_right _ hx
  obtain ⟨h1, h2'⟩ := Finset.mem_erase.1 hx
  exact ((unidentified_iff.1 hu) c hc x h2' (Ne.symm h1)).1 this

/-- **C88**. The search of CAM-UV stops only when nothing more can be found: with the parents `P0` found by the search (from which only independent ones are dropped), every set `U` of 2 to
`max maxnum 2` variables no two of which are related by `P0`, with a child `c` whose candidates are all marginally dependent on it, whose residual is independent of the
residuals of the others, and more so than for any other admissible child, contains a candidate whose residual is already independent of the residual of `c`. -/
theorem C88_exhaustive (hz : t.zero ≤ t.alpha) {maxN fuel : Nat} {P : Fin d → Finset (Fin d)} {L : List (Fin d × Fin d)} (h : execute t maxN fuel = some (P, L)) :
    ∃ P0 : Fin d → Finset (Fin d),
      (∀ i j, j ∈ P i ↔ j ∈ P0 i ∧ ¬ t.alpha < t.pair (i, (P0 i).erase j) (j, if j < i then P j else P0 j)) ∧
      ∀ (U : Finset (Fin d)) (c : Fin d), 2 ≤ Finset.card U → Finset.card U ≤ max maxN 2 → c ∈ U →
        (∀ i ∈ U, ∀ j ∈ U, j ∉ P0 i) → (∀ p ∈ U, p ≠ c → neighbour t c p = true) →
        t.alpha < t.multi (c, U.erase c ∪ P0 c) (U.erase c) P0 →
        (∀ c' ∈ U, c' ≠ c → (∀ p ∈ U, p ≠ c' → neighbour t c' p = true) →
          t.multi (c', U.erase c' ∪ P0 c') (U.erase c') P0 < t.multi (c, U.erase c ∪ P0 c) (U.erase c) P0) →
        ∃ p ∈ U, p ≠ c ∧ t.alpha < t.pair (c, P0 c) (p, P0 p) := by
  unfold execute findParents at h
  cases hr : loop t maxN fuel 2 init with
  | none => rw [hr] at h; simp at h
  | some r =>
    rw [hr] at h
    simp only [Option.map_some, Option.some.injEq, Prod.mk.injEq] at h
    have hs : Sane t r := loop_inv (Q := Sane t) (fun s U h => step_sane h U) (fun s h => ⟨h.irrefl, h.asymm, h.near, h.resid⟩)
      ⟨by simp [init], by simp [init], by simp [init], rfl⟩ hr
    have key : ∀ (f k : Nat) (s : St d), 2 ≤ k → k ≤ max maxN 2 →
        (∀ m, 2 ≤ m → m < k → ∀ U ∈ (combos (List.finRange d) m).map List.toFinset, step t { s with changed := false } U = { s with changed := false }) →
        loop t maxN f k s = some r →
        ∀ m, 2 ≤ m → m ≤ max maxN 2 → ∀ U ∈ (combos (List.finRange d) m).map List.toFinset, step t { r with changed := false } U = { r with changed := false } := by
      intro f
      induction f with
      | zero => intro k s _ _ _ h; simp [loop] at h
      | succ f ih =>
        intro k s hk hkm hold h
        rw [loop] at h
        by_cases hc : (pass t k s).changed = true
        · rw [if_pos hc] at h
          exact ih 2 _ le_rfl (by omega) (fun m h1 h2 => by omega) h
        · rw [if_neg hc] at h
          obtain ⟨e, hnew⟩ : (pass t k s) = { s with changed := false } ∧ _ := by
            rcases pass_weight (t := t) k s with h' | ⟨h', -⟩
            · exact h'
            · exact absurd h' hc
          have hnext : ∀ m, 2 ≤ m → m < k + 1 → ∀ U ∈ (combos (List.finRange d) m).map List.toFinset,
              step t { s with changed := false } U = { s with changed := false } := by
            intro m h1 h2 U hU
            by_cases hm : m = k
            · subst hm; exact hnew U hU
            · exact hold m h1 (by omega) U hU
          rw [e] at h
          split at h
          · simp only [Option.some.injEq] at h
            rw [← h]
            intro m h1 h2
            exact hnext m h1 (by omega)
          · exact ih (k + 1) { s with changed := false } (by omega) (by omega) hnext h
    have hfix := key fuel 2 init le_rfl (by omega) (fun m h1 h2 => by omega) hr
    refine ⟨r.P, fun i j => ?_, fun U c hU2 hUm hc hun hnb ha hbest => ?_⟩
    · rw [← h.1, prune_all, Finset.mem_filter]
    · have hcor : ∀ c', checkCorrelation t c' (U.erase c') = true ↔ ∀ p ∈ U, p ≠ c' → neighbour t c' p = true := by
        intro c'
        unfold checkCorrelation
        rw [decide_eq_true_eq]
        simp only [Finset.mem_erase]
        exact ⟨fun h p h1 h2 => h p ⟨h2, h1⟩, fun h p hp => h p hp.2 hp.1⟩
      have hmem : U ∈ (combos (List.finRange d) (Finset.card U)).map List.toFinset := by
        refine List.mem_map.2 ⟨(List.finRange d).filter (· ∈ U), (combos_mem _ _ _).2 ⟨List.filter_sublist, ?_⟩, ?_⟩
        · rw [← List.toFinset_card_of_nodup ((List.nodup_finRange d).filter _)]
          congr 1
          ext x; simp
        · ext x; simp
      have hst := hfix _ hU2 hUm U hmem
      obtain ⟨p, hp, hpp⟩ := step_stuck hst hz
        (unidentified_iff.2 fun i hi j hj _ => ⟨hun i hi j hj, hun j hj i hi⟩) hc
        (by intro e; have := Finset.card_erase_of_mem hc; rw [e] at this; simp at this; omega)
        ((hcor c).2 hnb) (by dsimp only; rw [hs.resid]; exact ha)
        (fun c' h1 h2 h3 => by dsimp only; rw [hs.resid]; exact hbest c' h1 h2 ((hcor c').1 h3))
      dsimp only at hpp
      rw [hs.resid] at hpp
      obtain ⟨h1, h2⟩ := Finset.mem_erase.1 hp
      exact ⟨p, h2, h1, hpp⟩

/-! ### concrete cases -/

/-- Tests for the chain 0 → 1 → 2 (all marginally dependent). -/
def chainTests : Tests 3 Nat := ⟨fun x y => if (x.1, x.2, y.1) = (2, {1}, 0) ∨ (y.1, y.2, x.1) = (2, {1}, 0) then 2 else 0,
  fun x ps _ => if x.1 = 1 ∧ ps = {0} ∨ x.1 = 2 ∧ ps = {1} ∨ x.1 = 2 ∧ ps = {0, 1} then 2 else 0, 1, 0, sortEnum,
  fun S => (List.nodup_finRange 3).filter _, fun S x => by simp [sortEnum]⟩

/-- C86, C88: CAM-UV on the chain finds its parents and no hidden pair. -/
example : chainTests.zero ≤ chainTests.alpha ∧ execute chainTests 3 9 = some (fun i => if i = 1 then {0} else if i = 2 then {1} else ∅, []) :=
  ⟨by decide, some_of_elim (by decide +kernel)⟩

/-- C87: the assumption of the positive part is met by the chain. -/
example : ∃ E : Fin 3 → Fin 3 → Prop, Acyclic E ∧ (∀ (P : Fin 3 → Finset (Fin 3)) (U : Finset (Fin 3)), ∀ c ∈ U, (∀ i, ∀ j ∈ P i, TransGen E j i) →
    chainTests.alpha < chainTests.multi (c, U.erase c ∪ P c) (U.erase c) P →
    (∀ p ∈ U.erase c, ¬ chainTests.alpha < chainTests.pair (c, P c) (p, P p)) → ∀ p ∈ U, p ≠ c → TransGen E p c) := by
  refine ⟨fun a b => a < b, acyclic_of_rank (ρ := fun v : Fin 3 => (v : Nat)) (fun _ _ h => h), fun P U c hc _ h _ p hp hpc => ?_⟩
  have h' : c = 1 ∧ U.erase c = {0} ∨ c = 2 ∧ U.erase c = {1} ∨ c = 2 ∧ U.erase c = {0, 1} := by
    by_contra hn
    have : ¬ ((c, U.erase c ∪ P c).1 = 1 ∧ U.erase c = {0} ∨ (c, U.erase c ∪ P c).1 = 2 ∧ U.erase c = {1} ∨ (c, U.erase c ∪ P c).1 = 2 ∧ U.erase c = {0, 1}) := hn
    simp only [chainTests, if_neg this] at h
    omega
  have hp' : p ∈ U.erase c := Finset.mem_erase.2 ⟨hpc, hp⟩
  refine TransGen.single ?_
  rcases h' with ⟨e, h'⟩ | ⟨e, h'⟩ | ⟨e, h'⟩ <;> rw [h'] at hp' <;> subst e <;> clear hp hpc h' hc h <;> revert p <;> decide

end Camuv
end CL
