import Verif.Model.Rcd
import Verif.Proofs.Skeleton
import Verif.Spec.DSep
import Mathlib.Algebra.BigOperators.Group.Finset.Basic
import Mathlib.Algebra.Order.BigOperators.Group.Finset

/-!
# C83–C85: RCD
-/
namespace CL
namespace Rcd
open Spec Relation
variable {n : Nat} {t : Tests n}

/-! ### one step -/

theorem addSink_hist (s : St n) (U l : List (Fin n)) : (addSink s U l).hist = s.hist := by
  unfold addSink
  split
  · split <;> rfl
  · rfl

theorem addSink_M (s : St n) (U l : List (Fin n)) (v : Fin n) :
    (addSink s U l).M v = s.M v ∨ l = [v] ∧ (addSink s U l).M v = s.M v ∪ U.toFinset.erase v := by
  unfold addSink
  split
  · rename_i x
    split
    · exact Or.inl rfl
    · by_cases h : v = x
      · subst h
        exact Or.inr ⟨rfl, if_pos rfl⟩
      · exact Or.inl (if_neg h)
  · exact Or.inl rfl

theorem addSink_single (s : St n) (U : List (Fin n)) (x : Fin n) : (addSink s U [x]).M x = s.M x ∪ U.toFinset.erase x := by
  unfold addSink
  dsimp only
  split
  · assumption
  · exact if_pos rfl

theorem addSink_changed (s : St n) (U l : List (Fin n)) :
    ((addSink s U l).changed = s.changed ∧ (addSink s U l).M = s.M) ∨
      ((addSink s U l).changed = true ∧ ∃ x, l = [x] ∧ ¬ U.toFinset.erase x ⊆ s.M x) := by
  unfold addSink
  split
  · rename_i x
    split
    · exact Or.inl ⟨rfl, rfl⟩
    · rename_i h
      refine Or.inr ⟨rfl, x, rfl, fun hs => h ?_⟩
      rw [Finset.union_eq_left.2 hs]
  · exact Or.inl ⟨rfl, rfl⟩

/-- a step either leaves `M` and `changed` alone or applies `addSink` -/
theorem step_cases (s : St n) (U : List (Fin n)) :
    step t s U = s ∨ (eligible t (common s.M U) U = true ∧
      (step t s U).M = (addSink s U (sinks t s.M (common s.M U) U)).M ∧ (step t s U).changed = (addSink s U (sinks t s.M (common s.M U) U)).changed ∧
      (step t s U).hist = fun V => if V = U then some (common s.M U) else s.hist V) := by
  unfold step
  dsimp only
  split
  · exact Or.inl rfl
  · split
    · rename_i h
      refine Or.inr ⟨h, rfl, rfl, ?_⟩
      funext V
      dsimp only
      rw [addSink_hist]
    · exact Or.inl rfl

theorem step_mono (s : St n) (U : List (Fin n)) (v : Fin n) : s.M v ⊆ (step t s U).M v := by
  rcases step_cases (t := t) s U with h | ⟨-, h, -⟩
  · rw [h]
  · rw [h]
    rcases addSink_M s U (sinks t s.M (common s.M U) U) v with h | ⟨-, h⟩
    · rw [h]
    · rw [h]; exact Finset.subset_union_left

theorem mem_sinks {M : Fin n → Finset (Fin n)} {H : Finset (Fin n)} {U : List (Fin n)} {x : Fin n} : x ∈ sinks t M H U ↔
    x ∈ U ∧ ((∀ y ∈ U, y ≠ x → x ∉ M y) ∧ ¬ U.toFinset.erase x ⊆ M x) ∧ t.independent H x (U.toFinset.erase x) = true := by
  unfold sinks existsAncestor
  simp only [List.mem_filter, Bool.and_eq_true, Bool.not_eq_true', Bool.or_eq_false_iff, decide_eq_false_iff_not, not_exists, not_and]
  simp only [Finset.mem_erase, List.mem_toFinset]
  grind

/-- what a step adds -/
theorem step_M (s : St n) (U : List (Fin n)) (v : Fin n) : (step t s U).M v = s.M v ∨
    (eligible t (common s.M U) U = true ∧ sinks t s.M (common s.M U) U = [v] ∧ (step t s U).M = fun w => if w = v then s.M v ∪ U.toFinset.erase v else s.M w) := by
  rcases step_cases (t := t) s U with h | ⟨he, h, -⟩
  · rw [h]; exact Or.inl rfl
  · rw [h]
    rcases addSink_M s U (sinks t s.M (common s.M U) U) v with h' | ⟨h1, h2⟩
    · exact Or.inl h'
    · refine Or.inr ⟨he, h1, ?_⟩
      funext w
      by_cases hw : w = v
      · subst hw; rw [if_pos rfl]; exact h2
      · rw [if_neg hw]
        rcases addSink_M s U (sinks t s.M (common s.M U) U) w with h' | ⟨h1', -⟩
        · exact h'
        · rw [h1] at h1'
          simp only [List.cons.injEq, and_true] at h1'
          exact absurd h1'.symm hw

/-! ### invariants of the ancestor lists -/

/-- the relation `M` is antisymmetric and irreflexive -/
structure Sane (M : Fin n → Finset (Fin n)) : Prop where
  irrefl : ∀ i, i ∉ M i
  asymm : ∀ i j, j ∈ M i → i ∉ M j

theorem step_sane {s : St n} (h : Sane s.M) (U : List (Fin n)) : Sane (step t s U).M := by
  by_cases hc : ∀ v, (step t s U).M v = s.M v
  · rw [show (step t s U).M = s.M from funext hc]
    exact h
  · push Not at hc
    obtain ⟨v, hv⟩ := hc
    obtain ⟨-, h1, h2⟩ := (step_M (t := t) s U v).resolve_left hv
    have hx : v ∈ sinks t s.M (common s.M U) U := by rw [h1]; simp
    obtain ⟨-, ⟨h3, -⟩, -⟩ := mem_sinks.1 hx
    rw [h2]
    constructor
    · intro i
      by_cases hi : i = v
      · subst hi
        rw [if_pos rfl, Finset.mem_union, not_or]
        exact ⟨h.irrefl i, Finset.notMem_erase i _⟩
      · rw [if_neg hi]; exact h.irrefl i
    · intro i j hj
      by_cases hi : i = v
      · subst hi
        rw [if_pos rfl, Finset.mem_union] at hj
        rcases hj with hj | hj
        · by_cases hji : j = i
          · subst hji; exact absurd hj (h.irrefl _)
          · rw [if_neg hji]; exact h.asymm _ _ hj
        · obtain ⟨hji, hjU⟩ := Finset.mem_erase.1 hj
          rw [if_neg hji]
          exact h3 j (List.mem_toFinset.1 hjU) hji
      · rw [if_neg hi] at hj
        by_cases hjv : j = v
        · subst hjv
          rw [if_pos rfl, Finset.mem_union, not_or]
          refine ⟨h.asymm _ _ hj, fun hi' => ?_⟩
          obtain ⟨-, hiU⟩ := Finset.mem_erase.1 hi'
          exact h3 i (List.mem_toFinset.1 hiU) hi hj
        · rw [if_neg hjv]; exact h.asymm _ _ hj

/-- a property of `M` that holds at the start and is kept by every step holds at the end -/
theorem foldl_inv {Q : St n → Prop} (hs : ∀ s U, Q s → Q (step t s U)) (l : List (List (Fin n))) (s : St n) (h : Q s) : Q (l.foldl (step t) s) := by
  induction l generalizing s with
  | nil => exact h
  | cons U l ih => exact ih _ (hs s U h)

theorem loop_inv {Q : St n → Prop} (hs : ∀ s U, Q s → Q (step t s U)) (h0 : ∀ s, Q s → Q { s with changed := false }) {maxN : Nat} :
    ∀ {f l : Nat} {s r : St n}, Q s → loop t maxN f l s = some r → Q r := by
  intro f
  induction f with
  | zero => intro l s r _ h; simp [loop] at h
  | succ f ih =>
    intro l s r hQ h
    have hp : Q (pass t l s) := foldl_inv hs _ _ (h0 s hQ)
    rw [loop] at h
    split at h
    · exact ih hp h
    · split at h
      · exact ih hp h
      · simp only [Option.some.injEq] at h
        rw [← h]; exact hp

/-! ### termination -/

/-- number of recorded ancestors -/
def weight (M : Fin n → Finset (Fin n)) : Nat := ∑ v, (M v).card

theorem weight_le (M : Fin n → Finset (Fin n)) : weight M ≤ n * n := by
  unfold weight
  calc ∑ v, (M v).card ≤ ∑ _v : Fin n, n := Finset.sum_le_sum fun v _ => (Finset.card_le_univ _).trans (by simp)
    _ = n * n := by simp

theorem step_weight (s : St n) (U : List (Fin n)) :
    (step t s U).changed = s.changed ∧ (step t s U).M = s.M ∨ (step t s U).changed = true ∧ weight s.M < weight (step t s U).M := by
  rcases step_cases (t := t) s U with h | ⟨-, h1, h2, -⟩
  · rw [h]; exact Or.inl ⟨rfl, rfl⟩
  · rcases addSink_changed s U (sinks t s.M (common s.M U) U) with ⟨h3, h4⟩ | ⟨h3, x, hx, hn⟩
    · exact Or.inl ⟨h2.trans h3, h1.trans h4⟩
    · refine Or.inr ⟨h2.trans h3, ?_⟩
      refine Finset.sum_lt_sum (fun v _ => Finset.card_le_card (step_mono s U v)) ⟨x, Finset.mem_univ x, ?_⟩
      rw [h1, hx, addSink_single]
      refine Finset.card_lt_card ⟨Finset.subset_union_left, fun hs => hn fun y hy => hs (Finset.mem_union_right _ hy)⟩

theorem foldl_weight (l : List (List (Fin n))) (s : St n) :
    (l.foldl (step t) s).changed = s.changed ∧ (l.foldl (step t) s).M = s.M ∨
      (l.foldl (step t) s).changed = true ∧ weight s.M < weight (l.foldl (step t) s).M := by
  induction l generalizing s with
  | nil => exact Or.inl ⟨rfl, rfl⟩
  | cons U l ih =>
    rw [List.foldl_cons]
    rcases step_weight (t := t) s U with ⟨h1, h2⟩ | ⟨h1, h2⟩ <;> rcases ih (step t s U) with ⟨h3, h4⟩ | ⟨h3, h4⟩
    · exact Or.inl ⟨h3.trans h1, h4.trans h2⟩
    · exact Or.inr ⟨h3, by rw [← h2]; exact h4⟩
    · exact Or.inr ⟨h3.trans h1, by rw [h4]; exact h2⟩
    · exact Or.inr ⟨h3, h2.trans h4⟩

theorem pass_weight (l : Nat) (s : St n) : (pass t l s).changed = false ∧ (pass t l s).M = s.M ∨
    (pass t l s).changed = true ∧ weight s.M < weight (pass t l s).M := foldl_weight _ { s with changed := false }

theorem loop_terminates (maxN : Nat) : ∀ (f l : Nat) (s : St n), 1 ≤ l → (n * n - weight s.M) * (maxN + 1) + (maxN + 1 - l) < f →
    ∃ r, loop t maxN f l s = some r ∧ ∀ f', f ≤ f' → loop t maxN f' l s = some r := by
  intro f
  induction f with
  | zero => intro l s _ h; omega
  | succ f ih =>
    intro l s hl hf
    have hw := weight_le (pass t l s).M
    have key : ∀ l' : Nat, 1 ≤ l' → (n * n - weight (pass t l s).M) * (maxN + 1) + (maxN + 1 - l') < f → ∃ r, loop t maxN f l' (pass t l s) = some r ∧
        ∀ f', f ≤ f' → loop t maxN f' l' (pass t l s) = some r := fun l' h1 h2 => ih l' _ h1 h2
    by_cases hc : (pass t l s).changed = true
    · have hlt : weight s.M < weight (pass t l s).M := by
        rcases pass_weight (t := t) l s with ⟨h1, -⟩ | ⟨-, h2⟩
        · rw [hc] at h1; cases h1
        · exact h2
      obtain ⟨r, h1, h2⟩ := key 1 le_rfl (by
        have : (n * n - weight (pass t l s).M + 1) * (maxN + 1) ≤ (n * n - weight s.M) * (maxN + 1) := Nat.mul_le_mul_right _ (by omega)
        rw [Nat.add_mul] at this
        omega)
      have e : ∀ f', loop t maxN (f' + 1) l s = loop t maxN f' 1 (pass t l s) := fun f' => by rw [loop]; exact if_pos hc
      refine ⟨r, by rw [e]; exact h1, fun f' hf' => ?_⟩
      obtain ⟨g, rfl⟩ : ∃ g, f' = g + 1 := ⟨f' - 1, by omega⟩
      rw [e]; exact h2 g (by omega)
    · have hM : (pass t l s).M = s.M := by
        rcases pass_weight (t := t) l s with ⟨-, h2⟩ | ⟨h1, -⟩
        · exact h2
        · exact absurd h1 hc
      by_cases hlm : l < maxN
      · obtain ⟨r, h1, h2⟩ := key (l + 1) (by omega) (by rw [hM]; omega)
        have e : ∀ f', loop t maxN (f' + 1) l s = loop t maxN f' (l + 1) (pass t l s) := fun f' => by
          rw [loop]; rw [if_neg hc, if_pos hlm]
        refine ⟨r, by rw [e]; exact h1, fun f' hf' => ?_⟩
        obtain ⟨g, rfl⟩ : ∃ g, f' = g + 1 := ⟨f' - 1, by omega⟩
        rw [e]; exact h2 g (by omega)
      · have e : ∀ f', loop t maxN (f' + 1) l s = some (pass t l s) := fun f' => by
          rw [loop]; rw [if_neg hc, if_neg hlm]
        refine ⟨_, e f, fun f' hf' => ?_⟩
        obtain ⟨g, rfl⟩ : ∃ g, f' = g + 1 := ⟨f' - 1, by omega⟩
        exact e g

/-! ### parents and confounders -/

theorem pair_sublist {i j : Fin n} (hij : i < j) : [i, j].Sublist (List.finRange n) := by
  refine List.sublist_of_subperm_of_pairwise (r := (· < ·)) ?_ (by simpa using hij) (List.pairwise_lt_finRange n)
  exact List.subperm_of_subset (by simpa using hij.ne) fun x _ => List.mem_finRange x

/-- one pair of `_extract_vars_sharing_confounders` -/
theorem confounded_iff (P : Fin n → Finset (Fin n)) {i j : Fin n} (hij : i < j) :
    (j ∈ confounded t P i ↔ i ∉ P j ∧ j ∉ P i ∧ t.correlated (i, P i) (j, P j) = true) ∧ (i ∈ confounded t P j ↔ j ∈ confounded t P i) := by
  have step : ∀ (C : Fin n → Finset (Fin n)) (x y a b : Fin n), x < y → a < b →
      (b ∈ confStep t P C x y a ↔ b ∈ C a ∨ (a = x ∧ b = y) ∧ a ∉ P b ∧ b ∉ P a ∧ t.correlated (a, P a) (b, P b) = true) ∧
      (a ∈ confStep t P C x y b ↔ a ∈ C b ∨ (a = x ∧ b = y) ∧ a ∉ P b ∧ b ∉ P a ∧ t.correlated (a, P a) (b, P b) = true) := by
    intro C x y a b hxy hab
    unfold confStep
    split
    · constructor <;> grind
    · split
      · have h1 : ¬ (a = y ∧ b = x) := fun h => absurd hab (by rw [h.1, h.2]; exact not_lt.2 hxy.le)
        dsimp only
        constructor
        · split
          · grind
          · split
            · grind
            · grind
        · split
          · grind
          · split
            · grind
            · grind
      · constructor <;> grind
  have key : ∀ (l : List (List (Fin n))) (C C' : Fin n → Finset (Fin n)), (∀ q ∈ l, q.Sublist (List.finRange n) ∧ q.length = 2) →
      C' = l.foldl (fun C q => match q with
        | [i, j] => confStep t P C i j
        | _ => C) C → ∀ a b : Fin n, a < b →
      (b ∈ C' a ↔ b ∈ C a ∨ [a, b] ∈ l ∧ a ∉ P b ∧ b ∉ P a ∧ t.correlated (a, P a) (b, P b) = true) ∧
      (a ∈ C' b ↔ a ∈ C b ∨ [a, b] ∈ l ∧ a ∉ P b ∧ b ∉ P a ∧ t.correlated (a, P a) (b, P b) = true) := by
    intro l
    induction l with
    | nil => intro C C' _ e a b _; subst e; simp
    | cons q l ih =>
      intro C C' hl e a b hab
      obtain ⟨hq1, hq2⟩ := hl q (by simp)
      obtain ⟨x, y, rfl⟩ := List.length_eq_two.1 hq2
      have hxy : x < y := by
        have := (List.pairwise_lt_finRange n).sublist hq1
        simpa using this
      have h := ih (confStep t P C x y) C' (fun q hq => hl q (by simp [hq])) e a b hab
      have h' := step C x y a b hxy hab
      rw [h'.1, h'.2] at h
      simp only [List.mem_cons, List.cons.injEq, and_true]
      rw [or_and_right, ← or_assoc, ← or_assoc]
      exact h
  have h := key (combos (List.finRange n) 2) (fun _ => ∅) _ (fun q hq => (combos_mem _ _ _).1 hq) rfl i j hij
  have hm : [i, j] ∈ combos (List.finRange n) 2 := (combos_mem _ _ _).2 ⟨pair_sublist hij, rfl⟩
  unfold confounded
  simp only [Finset.notMem_empty, false_or, hm, true_and] at h
  exact ⟨h.1, h.2.trans h.1.symm⟩

theorem not_confounded_self (P : Fin n → Finset (Fin n)) (i : Fin n) : i ∉ confounded t P i := by
  have key : ∀ (l : List (List (Fin n))) (C : Fin n → Finset (Fin n)), (∀ q ∈ l, q.Sublist (List.finRange n) ∧ q.length = 2) → i ∉ C i →
      i ∉ (l.foldl (fun C q => match q with
        | [i, j] => confStep t P C i j
        | _ => C) C) i := by
    intro l
    induction l with
    | nil => intro C _ h; exact h
    | cons q l ih =>
      intro C hl h
      obtain ⟨hq1, hq2⟩ := hl q (by simp)
      obtain ⟨x, y, rfl⟩ := List.length_eq_two.1 hq2
      have hxy : x < y := by
        have := (List.pairwise_lt_finRange n).sublist hq1
        simpa using this
      refine ih _ (fun q hq => hl q (by simp [hq])) ?_
      show i ∉ confStep t P C x y i
      unfold confStep
      split
      · exact h
      · split
        · have := hxy.ne
          dsimp only
          split <;> (try split) <;> grind
        · exact h
  exact key _ _ (fun q hq => (combos_mem _ _ _).1 hq) (by simp)

theorem mem_parents {M : Fin n → Finset (Fin n)} {i j : Fin n} : j ∈ parents t M i ↔ j ∈ M i ∧ isParent t M j i = true := by
  unfold parents; simp

/-- **C83.** Whatever the tests answer, RCD ends; its ancestor lists are irreflexive and antisymmetric; a coefficient stands in the adjacency matrix
exactly for the recorded ancestors that are correlated with the variable after the other ancestors (of the variable, and the common ones) have been
regressed out; never in both directions; `nan` stands, symmetrically, exactly for the pairs without a coefficient whose residuals on their parents are
correlated; all other entries are zero. -/
theorem C83_fit (t : Tests n) (maxN : Nat) :
    ∃ M B, (∀ fuel, n * n * (maxN + 1) + maxN < fuel → fit t maxN fuel = some (M, B)) ∧
      (∀ i, i ∉ M i) ∧ (∀ i j, j ∈ M i → i ∉ M j) ∧
      (∀ i j, B i j = .coef ↔ j ∈ M i ∧ t.correlated (j, M i ∩ M j) (i, (M i).erase j) = true) ∧
      (∀ i j, B i j = .coef → B j i = .zero) ∧ (∀ i, B i i = .zero) ∧
      (∀ i j, B i j = .nan ↔ B j i = .nan) ∧
      ∀ i j, i < j → (B i j = .nan ↔ B i j ≠ .coef ∧ B j i ≠ .coef ∧
        t.correlated (i, Finset.univ.filter fun k => B i k = .coef) (j, Finset.univ.filter fun k => B j k = .coef) = true) := by
  obtain ⟨r, -, h2⟩ := loop_terminates (t := t) maxN (n * n * (maxN + 1) + maxN + 1) 1 init le_rfl (by simp [weight, init])
  have h1 := h2 _ le_rfl
  have hs : Sane r.M := loop_inv (Q := fun s => Sane s.M) (fun s U h => step_sane h U) (fun s h => h)
    (show Sane (init : St n).M from ⟨fun i => by simp [init], fun i j h => by simp [init] at h⟩) h1
  have hsym : ∀ i j, j ∈ confounded t (parents t r.M) i ↔ i ∈ confounded t (parents t r.M) j := by
    intro i j
    rcases lt_trichotomy i j with h | h | h
    · exact (confounded_iff _ h).2.symm
    · rw [h]
    · exact (confounded_iff _ h).2
  have hdisj : ∀ i j, j ∈ confounded t (parents t r.M) i → j ∉ parents t r.M i ∧ i ∉ parents t r.M j := by
    intro i j hc
    rcases lt_trichotomy i j with h | h | h
    · have := (confounded_iff _ h).1.1 hc
      exact ⟨this.2.1, this.1⟩
    · subst h; exact absurd hc (not_confounded_self _ _)
    · have := (confounded_iff _ h).1.1 ((hsym i j).1 hc)
      exact ⟨this.1, this.2.1⟩
  have hcoef : ∀ i j, entry (parents t r.M) (confounded t (parents t r.M)) i j = .coef ↔ j ∈ parents t r.M i := by
    intro i j
    unfold entry
    have := hdisj i j
    split
    · simp; grind
    · split <;> simp_all
  have hnan : ∀ i j, entry (parents t r.M) (confounded t (parents t r.M)) i j = .nan ↔ j ∈ confounded t (parents t r.M) i := by
    intro i j
    unfold entry
    split
    · simp_all
    · split <;> simp_all
  refine ⟨r.M, entry (parents t r.M) (confounded t (parents t r.M)), fun fuel hf => ?_, hs.irrefl, hs.asymm, fun i j => ?_, fun i j h => ?_, fun i => ?_, fun i j => ?_, fun i j hij => ?_⟩
  · unfold fit ancestors
    rw [h2 fuel (by omega)]
    rfl
  · rw [hcoef, mem_parents]; rfl
  · rw [hcoef] at h
    have hji : i ∉ parents t r.M j := fun h' => hs.asymm i j (mem_parents.1 h).1 (mem_parents.1 h').1
    have hc : i ∉ confounded t (parents t r.M) j := fun h' => (hdisj j i h').2 h
    unfold entry
    rw [if_neg hc, if_neg hji]
  · unfold entry
    rw [if_neg (not_confounded_self _ _), if_neg fun h => hs.irrefl i (mem_parents.1 h).1]
  · rw [hnan, hnan]; exact hsym i j
  · rw [hnan, (confounded_iff _ hij).1, ne_eq, ne_eq, hcoef, hcoef]
    have e : ∀ k, (Finset.univ.filter fun l => entry (parents t r.M) (confounded t (parents t r.M)) k l = .coef) = parents t r.M k := by
      intro k
      ext l
      simp [hcoef]
    rw [e, e]
    tauto

/-! ### C84: acyclicity -/

/-- Tests on three variables: every residual is non-Gaussian, everything is correlated, and the residual of `i + 1` on `i` is independent (cyclically). -/
def cycTests : Tests 3 := ⟨fun _ _ => true, fun _ _ => true, fun _ xi o => decide (o = {xi + 2})⟩

/-- **C84 is false**: there are test answers for which RCD returns coefficients around a directed cycle. (Only pairs are compared: nothing makes the
recorded ancestors transitive.) -/
theorem C84_acyclic_violated : ∃ (t : Tests 3) (M : Fin 3 → Finset (Fin 3)) (B : Fin 3 → Fin 3 → Entry), (∃ fuel, fit t 1 fuel = some (M, B)) ∧
    B 1 0 = .coef ∧ B 2 1 = .coef ∧ B 0 2 = .coef :=
  ⟨cycTests, fun i => {i + 2}, fun i j => if j = i + 2 then .coef else .zero, ⟨3, by
    have h : ∀ (o : Option ((Fin 3 → Finset (Fin 3)) × (Fin 3 → Fin 3 → Entry))) (M : Fin 3 → Finset (Fin 3)) (B : Fin 3 → Fin 3 → Entry),
        (o.elim false fun q => decide (∀ i, q.1 i = M i) && decide (∀ i j, q.2 i j = B i j)) = true → o = some (M, B) := by
      intro o M B h
      cases o with
      | none => simp at h
      | some q =>
        simp only [Option.elim_some, Bool.and_eq_true, decide_eq_true_eq] at h
        obtain ⟨M', B'⟩ := q
        simp only [Option.some.injEq, Prod.mk.injEq]
        exact ⟨funext h.1, funext fun i => funext fun j => h.2 i j⟩
    exact h _ _ _ (by decide +kernel)⟩, by decide, by decide, by decide⟩

/-- **C84** (what is true). If the sinks that the tests single out are right, i.e. there is a DAG in which the other variables are ancestors of each unique
sink that is found, then the recorded ancestors are ancestors in that DAG, and the returned coefficients form a DAG. Missing: acyclicity without an
assumption on the tests. -/
theorem C84_acyclic_partial {E : Fin n → Fin n → Prop} (hE : Acyclic E)
    (ht : ∀ (M : Fin n → Finset (Fin n)) (U : List (Fin n)) (x : Fin n), (∀ i, ∀ j ∈ M i, TransGen E j i) → eligible t (common M U) U = true →
      sinks t M (common M U) U = [x] → ∀ y ∈ U, y ≠ x → TransGen E y x)
    {maxN fuel : Nat} {M : Fin n → Finset (Fin n)} {B : Fin n → Fin n → Entry} (h : fit t maxN fuel = some (M, B)) :
    (∀ i, ∀ j ∈ M i, TransGen E j i) ∧ Acyclic fun j i => B i j = .coef := by
  unfold fit ancestors at h
  cases hr : loop t maxN fuel 1 init with
  | none => rw [hr] at h; simp at h
  | some r =>
    rw [hr] at h
    simp only [Option.map_some, Option.some.injEq, Prod.mk.injEq] at h
    have hM : ∀ i, ∀ j ∈ r.M i, TransGen E j i := by
      refine loop_inv (t := t) (Q := fun s => ∀ i, ∀ j ∈ s.M i, TransGen E j i) (fun s U hs i j hj => ?_) (fun s h => h)
        (fun i j hj => by simp [init] at hj) hr
      rcases step_M (t := t) s U i with h' | ⟨h1, h2, h3⟩
      · rw [h'] at hj; exact hs i j hj
      · rw [h3] at hj
        dsimp only at hj
        rw [if_pos rfl, Finset.mem_union] at hj
        rcases hj with hj | hj
        · exact hs i j hj
        · obtain ⟨g1, g2⟩ := Finset.mem_erase.1 hj
          exact ht s.M U i hs h1 h2 j (List.mem_toFinset.1 g2) g1
    rw [h.1] at hM
    refine ⟨hM, fun x hx => hE x ?_⟩
    have key : ∀ j i, B i j = .coef → TransGen E j i := by
      intro j i hB
      rw [← h.2] at hB
      have : j ∈ parents t r.M i := by
        unfold entry at hB
        split at hB
        · cases hB
        · split at hB
          · assumption
          · cases hB
      rw [h.1] at this
      exact hM i j (mem_parents.1 this).1
    clear hM
    have : ∀ a b, TransGen (fun j i => B i j = .coef) a b → TransGen E a b := by
      intro a b hab
      induction hab with
      | single h => exact key _ _ h
      | tail _ h ih => exact ih.trans (key _ _ h)
    exact this x x hx

/-! ### C85: nothing more to find -/

/-- Five variables: 0 and 1 both look like sinks of `{0, 1, 2}`; the triples with 3, 4 make 3 and 4 ancestors of 0 and 1; given these, 1 is the sink of
`{0, 1}`. -/
def histTests : Tests 5 := ⟨fun _ _ => true, fun _ _ => true, fun H xi o =>
  decide (H = ∅ ∧ xi ∈ ({0, 1} : Finset (Fin 5)) ∧ insert xi o = {0, 1, 2}) || decide (H = ∅ ∧ xi ∈ ({0, 1} : Finset (Fin 5)) ∧ o = {3, 4}) ||
    decide (H = {3, 4} ∧ xi = 1 ∧ o = {0})⟩

/-- the ancestors found -/
def histM : Fin 5 → Finset (Fin 5) := ![{3, 4}, {0, 3, 4}, ∅, ∅, ∅]

/-- **C85 is false**: RCD can stop although a set of variables, of allowed size, passes all tests and has a unique sink for which an ancestor is missing.
Sets are skipped when their common ancestors have not changed (`hu_history`), but the sinks also depend on the ancestors recorded for the single
variables. -/
theorem C85_history_violated : ∃ (t : Tests 5) (M : Fin 5 → Finset (Fin 5)) (U : List (Fin 5)) (x y : Fin 5), (∃ fuel, ancestors t 2 fuel = some M) ∧
    U.Sublist (List.finRange 5) ∧ U.length ≤ 3 ∧ eligible t (common M U) U = true ∧ sinks t M (common M U) U = [x] ∧ y ∈ U ∧ y ≠ x ∧ y ∉ M x :=
  ⟨histTests, histM, [0, 1, 2], 1, 2, ⟨8, by
    have h : ∀ (o : Option (Fin 5 → Finset (Fin 5))) (M : Fin 5 → Finset (Fin 5)), (o.elim false fun q => decide (∀ i, q i = M i)) = true → o = some M := by
      intro o M h
      cases o with
      | none => simp at h
      | some q =>
        simp only [Option.elim_some, decide_eq_true_eq] at h
        rw [funext h]
    exact h _ _ (by decide +kernel)⟩, by decide, by decide, by decide +kernel, by decide +kernel, by decide, by decide, by decide⟩

/-- the history records what was examined, and what it gave -/
structure Recorded (t : Tests n) (s : St n) : Prop where
  seen : ∀ U H, s.hist U = some H → ∃ M' : Fin n → Finset (Fin n), (∀ v, M' v ⊆ s.M v) ∧ common M' U = H ∧
    ∀ x, sinks t M' H U = [x] → ∀ y ∈ U, y ≠ x → y ∈ s.M x

theorem step_recorded {s : St n} (h : Recorded t s) (U : List (Fin n)) : Recorded t (step t s U) := by
  have mono := step_mono (t := t) s U
  have old : ∀ V H, s.hist V = some H → ∃ M' : Fin n → Finset (Fin n), (∀ v, M' v ⊆ (step t s U).M v) ∧ common M' V = H ∧
      ∀ x, sinks t M' H V = [x] → ∀ y ∈ V, y ≠ x → y ∈ (step t s U).M x := by
    intro V H hV
    obtain ⟨M', h1, h2, h3⟩ := h.seen V H hV
    exact ⟨M', fun v => (h1 v).trans (mono v), h2, fun x hx y hy hyx => mono x (h3 x hx y hy hyx)⟩
  refine ⟨fun V H hV => ?_⟩
  rcases step_cases (t := t) s U with hs | ⟨-, h1, -, h3⟩
  · rw [hs] at hV
    exact old V H hV
  · rw [h3] at hV
    dsimp only at hV
    split at hV
    · rename_i hVU
      subst hVU
      simp only [Option.some.injEq] at hV
      refine ⟨s.M, mono, hV, fun x hx y hy hyx => ?_⟩
      rw [← hV] at hx
      rw [h1, hx, addSink_single, Finset.mem_union]
      exact Or.inr (Finset.mem_erase.2 ⟨hyx, List.mem_toFinset.2 hy⟩)
    · exact old V H hV

theorem step_changed_false {s : St n} {U : List (Fin n)} (h : (step t s U).changed = false) : s.changed = false ∧ (step t s U).M = s.M := by
  rcases step_weight (t := t) s U with ⟨h1, h2⟩ | ⟨h1, -⟩
  · exact ⟨h1 ▸ h, h2⟩
  · rw [h] at h1; cases h1

/-- when a pass changes nothing, all its sets are recorded with their present common ancestors -/
theorem foldl_hist (l : List (List (Fin n))) (s : St n) (h : (l.foldl (step t) s).changed = false) (A : List (Fin n) → Prop)
    (hA : ∀ U, A U → eligible t (common s.M U) U = true → s.hist U = some (common s.M U)) :
    ∀ U, A U ∨ U ∈ l → eligible t (common (l.foldl (step t) s).M U) U = true → (l.foldl (step t) s).hist U = some (common (l.foldl (step t) s).M U) := by
  induction l generalizing s A with
  | nil =>
    intro U hU
    exact hA U (by simpa using hU)
  | cons V l ih =>
    rw [List.foldl_cons] at h
    have hM : (step t s V).M = s.M := by
      have := foldl_weight (t := t) l (step t s V)
      rcases this with ⟨h1, -⟩ | ⟨h1, -⟩
      · rw [h] at h1; exact (step_changed_false h1.symm).2
      · rw [h] at h1; cases h1
    intro U hU
    rw [List.foldl_cons]
    refine ih (step t s V) h (fun U => A U ∨ U = V) (fun U hU he => ?_) U (by simp only [List.mem_cons] at hU; tauto)
    rw [hM] at he ⊢
    have hold : s.hist U = some (common s.M U) → (step t s V).hist U = some (common s.M U) := by
      intro hh
      rcases step_cases (t := t) s V with hs | ⟨-, -, -, h3⟩
      · rw [hs]; exact hh
      · rw [h3]
        dsimp only
        split
        · rename_i e; rw [e]
        · exact hh
    rcases hU with hU | rfl
    · exact hold (hA U hU he)
    · rcases step_cases (t := t) s U with hs | ⟨-, -, -, h3⟩
      · rw [hs]
        by_contra hn
        have : step t s U ≠ s := by
          intro e
          unfold step at e
          dsimp only at e
          rw [if_neg hn, if_pos he] at e
          have := congrArg (fun s => s.hist U) e
          simp only [if_true] at this
          exact hn this.symm
        exact this hs
      · rw [h3]; simp

/-- **C85** (what is true). When RCD stops, every set of two to `max_explanatory_num + 1` variables that passes the tests was examined with its present common
ancestors; if it then had a unique sink, all the others are recorded as ancestors of that sink. Missing: that the sinks are those under the ancestors recorded
in the end. -/
theorem C85_history_partial {maxN fuel : Nat} {M : Fin n → Finset (Fin n)} (h : ancestors t maxN fuel = some M) {U : List (Fin n)}
    (hU : U.Sublist (List.finRange n)) (h2 : 2 ≤ U.length) (hmax : U.length ≤ max maxN 1 + 1) (he : eligible t (common M U) U = true) :
    ∃ M' : Fin n → Finset (Fin n), (∀ v, M' v ⊆ M v) ∧ common M' U = common M U ∧
      ∀ x, sinks t M' (common M U) U = [x] → ∀ y ∈ U, y ≠ x → y ∈ M x := by
  unfold ancestors at h
  cases hr : loop t maxN fuel 1 init with
  | none => rw [hr] at h; simp at h
  | some r =>
    rw [hr] at h
    simp only [Option.map_some, Option.some.injEq] at h
    subst h
    have hrec : Recorded t r := loop_inv (Q := Recorded t) (fun s U h => step_recorded h U) (fun s h => ⟨h.seen⟩)
      (⟨fun U H h => by simp [init] at h⟩ : Recorded t init) hr
    have key : ∀ (f l : Nat) (s : St n), 1 ≤ l → l ≤ max maxN 1 →
        (∀ U, (∃ k, 1 ≤ k ∧ k < l ∧ U ∈ combos (List.finRange n) (k + 1)) → eligible t (common s.M U) U = true → s.hist U = some (common s.M U)) →
        loop t maxN f l s = some r →
        ∀ U, (∃ k, 1 ≤ k ∧ k ≤ max maxN 1 ∧ U ∈ combos (List.finRange n) (k + 1)) → eligible t (common r.M U) U = true → r.hist U = some (common r.M U) := by
      intro f
      induction f with
      | zero => intro l s _ _ _ h; simp [loop] at h
      | succ f ih =>
        intro l s hl hlm hs h
        rw [loop] at h
        by_cases hc : (pass t l s).changed = true
        · rw [if_pos hc] at h
          exact ih 1 _ le_rfl (by omega) (fun U ⟨k, h1, h2, _⟩ => by omega) h
        · rw [if_neg hc] at h
          have hnext : ∀ U, (∃ k, 1 ≤ k ∧ k < l + 1 ∧ U ∈ combos (List.finRange n) (k + 1)) → eligible t (common (pass t l s).M U) U = true →
              (pass t l s).hist U = some (common (pass t l s).M U) := by
            intro U hU he
            refine foldl_hist (combos (List.finRange n) (l + 1)) { s with changed := false } (by simpa [pass] using hc) _ hs U ?_ he
            obtain ⟨k, h1, h2, h3⟩ := hU
            by_cases hk : k = l
            · subst hk; exact Or.inr h3
            · exact Or.inl ⟨k, h1, by omega, h3⟩
          split at h
          · exact ih (l + 1) _ (by omega) (by omega) hnext h
          · simp only [Option.some.injEq] at h
            rw [← h]
            rintro U ⟨k, h1, h2, h3⟩
            exact hnext U ⟨k, h1, by omega, h3⟩
    have hh := key fuel 1 init le_rfl (by omega) (fun U ⟨k, h1, h2, _⟩ => by omega) hr U
      ⟨U.length - 1, by omega, by omega, (combos_mem _ _ _).2 ⟨hU, by omega⟩⟩ he
    exact hrec.seen U _ hh

/-- Tests on three variables that single out 1 in `{0, 1}` and 2 in `{1, 2}`. -/
def chainTests : Tests 3 := ⟨fun _ _ => true, fun _ _ => true, fun _ xi o => decide (xi = 1 ∧ o = {0}) || decide (xi = 2 ∧ o = {1})⟩

/-- A run of RCD: the chain is found. -/
example : ((ancestors chainTests 2 9).elim false fun M => decide (∀ i, M i = (![∅, {0}, {1}] : Fin 3 → Finset (Fin 3)) i)) = true := by decide +kernel

/-- The hypotheses of `C84_acyclic_partial` hold for these tests and the DAG `0 → 1 → 2`. -/
example {maxN fuel : Nat} {M : Fin 3 → Finset (Fin 3)} {B : Fin 3 → Fin 3 → Entry} (h : fit chainTests maxN fuel = some (M, B)) :
    Acyclic fun j i => B i j = .coef := by
  have hE : Acyclic fun a b : Fin 3 => b.val = a.val + 1 := by
    have : ∀ a b : Fin 3, TransGen (fun a b : Fin 3 => b.val = a.val + 1) a b → a < b := by
      intro a b hab
      induction hab with
      | single h => exact Fin.lt_def.2 (by omega)
      | tail _ h ih => exact ih.trans (Fin.lt_def.2 (by omega))
    exact fun x hx => lt_irrefl _ (this x x hx)
  refine (C84_acyclic_partial hE (fun M U x _ _ hs y hy hyx => ?_) h).2
  have hx : x ∈ sinks chainTests M (common M U) U := by rw [hs]; simp
  obtain ⟨-, -, hi⟩ := mem_sinks.1 hx
  have hy' : y ∈ U.toFinset.erase x := Finset.mem_erase.2 ⟨hyx, List.mem_toFinset.2 hy⟩
  simp only [chainTests, Bool.or_eq_true, decide_eq_true_eq] at hi
  rcases hi with ⟨rfl, e⟩ | ⟨rfl, e⟩
  · rw [e, Finset.mem_singleton] at hy'
    subst hy'
    exact TransGen.single (by decide)
  · rw [e, Finset.mem_singleton] at hy'
    subst hy'
    exact TransGen.single (by decide)

end Rcd
end CL
