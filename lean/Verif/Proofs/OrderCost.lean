import Verif.Proofs.ExactSearch
import Verif.Spec.ExactSearch
import Mathlib.Data.Finite.Defs
import Mathlib.Data.Set.Finite.List
import Mathlib.Order.WellFounded
import Mathlib.Data.Fintype.EquivFin

/-!
# Costs of orderings: moving a satisfied variable to the front, orderings versus DAGs
-/
namespace CL
namespace Exact
open Spec
variable {d : Nat} {K : Type} [AddCommGroup K] [LinearOrder K] [IsOrderedAddMonoid K]

/-- all parent graphs are sorted by score -/
def Sorted (pgs : Fin d → PG d K) : Prop := ∀ i, (pgs i).Pairwise fun a b => a.2 ≤ b.2

/-- cost of placing the variables of `l` one after the other after those of `U` -/
def cost (pgs : Fin d → PG d K) : Finset (Fin d) → List (Fin d) → WithTop K
  | _, [] => 0
  | U, v :: l => (query (pgs v) U).2 + cost pgs (insert v U) l

/-- `l` lists exactly the variables outside `U` -/
def Completion (U : Finset (Fin d)) (l : List (Fin d)) : Prop := l.Nodup ∧ ∀ v, v ∈ l ↔ v ∉ U

theorem cost_mono {pgs : Fin d → PG d K} (hs : Sorted pgs) {U V : Finset (Fin d)} (h : U ⊆ V) (l : List (Fin d)) :
    cost pgs V l ≤ cost pgs U l := by
  induction l generalizing U V with
  | nil => exact le_refl _
  | cons v l ih => exact add_le_add (query_mono (hs v) h) (ih (Finset.insert_subset_insert v h))

theorem move_front {pgs : Fin d → PG d K} (hs : Sorted pgs) {U : Finset (Fin d)} {v : Fin d}
    (hv : (query (pgs v) U).2 = headScore (pgs v)) (l1 l2 : List (Fin d)) :
    headScore (pgs v) + cost pgs (insert v U) (l1 ++ l2) ≤ cost pgs U (l1 ++ v :: l2) := by
  induction l1 generalizing U with
  | nil => simp [cost, hv]
  | cons a l1 ih =>
    have hv' : (query (pgs v) (insert a U)).2 = headScore (pgs v) := by
      apply le_antisymm _ (headScore_le (hs v) _)
      rw [← hv]; exact query_mono (hs v) (Finset.subset_insert a U)
    have h1 := ih hv'
    simp only [List.cons_append, cost]
    calc headScore (pgs v) + ((query (pgs a) (insert v U)).2 + cost pgs (insert a (insert v U)) (l1 ++ l2))
        = (query (pgs a) (insert v U)).2 + (headScore (pgs v) + cost pgs (insert v (insert a U)) (l1 ++ l2)) := by
          rw [Finset.insert_comm a v, add_left_comm]
      _ ≤ _ := add_le_add (query_mono (hs a) (Finset.subset_insert v U)) h1

/-- a satisfied variable may be placed next -/
theorem place_next {pgs : Fin d → PG d K} (hs : Sorted pgs) {U : Finset (Fin d)} {v : Fin d} (hvU : v ∉ U)
    (hv : (query (pgs v) U).2 = headScore (pgs v)) {l : List (Fin d)} (hl : Completion U l) :
    ∃ l', Completion (insert v U) l' ∧ headScore (pgs v) + cost pgs (insert v U) l' ≤ cost pgs U l := by
  obtain ⟨l1, l2, rfl⟩ := List.append_of_mem ((hl.2 v).2 hvU)
  refine ⟨l1 ++ l2, ?_, move_front hs hv l1 l2⟩
  have hnd := hl.1
  rw [List.nodup_middle] at hnd
  obtain ⟨h1, h2⟩ := List.nodup_cons.1 hnd
  refine ⟨h2, fun w => ?_⟩
  have := hl.2 w
  simp only [List.mem_append, List.mem_cons, Finset.mem_insert] at this h1 ⊢
  grind

theorem Completion.cons {U : Finset (Fin d)} {v : Fin d} {l : List (Fin d)} (h : Completion U (v :: l)) :
    v ∉ U ∧ Completion (insert v U) l := by
  obtain ⟨h1, h2⟩ := List.nodup_cons.1 h.1
  refine ⟨(h.2 v).1 (by simp), h2, fun w => ?_⟩
  have := h.2 w
  simp only [List.mem_cons, Finset.mem_insert] at this ⊢
  grind

theorem exists_completion (U : Finset (Fin d)) : ∃ l, Completion U l :=
  ⟨outSet U, (List.nodup_finRange d).filter _, fun v => by simp [outSet]⟩

theorem completion_ne_nil {U : Finset (Fin d)} {l : List (Fin d)} (h : Completion U l) (hU : U ≠ Finset.univ) : l ≠ [] := by
  rintro rfl
  apply hU
  ext v
  have := h.2 v
  simp at this
  simp [this]

/-- structures and cost produced by placing the variables of `U` in some order -/
inductive Real (pgs : Fin d → PG d K) : Finset (Fin d) → Structs d → WithTop K → Prop
  | nil (s) : Real pgs ∅ s 0
  | snoc {U s g s'} (i) : Real pgs U s g → i ∉ U → (∀ j ∈ U, s' j = s j) → s' i = (query (pgs i) U).1 →
      Real pgs (insert i U) s' (g + (query (pgs i) U).2)

theorem cost_append (pgs : Fin d → PG d K) (U : Finset (Fin d)) (l1 l2 : List (Fin d)) :
    cost pgs U (l1 ++ l2) = cost pgs U l1 + cost pgs (U ∪ l1.toFinset) l2 := by
  induction l1 generalizing U with
  | nil => simp [cost]
  | cons a l1 ih =>
    simp only [List.cons_append, cost, ih, add_assoc, List.toFinset_cons]
    rw [Finset.union_insert, Finset.insert_union]

theorem Real.order {pgs : Fin d → PG d K} {U : Finset (Fin d)} {s : Structs d} {g : WithTop K} (h : Real pgs U s g) :
    ∃ l : List (Fin d), l.Nodup ∧ l.toFinset = U ∧ g = cost pgs ∅ l := by
  induction h with
  | nil => exact ⟨[], by simp, by simp, rfl⟩
  | @snoc U s g s' i _ hi _ _ ih =>
    obtain ⟨l, h1, h2, h3⟩ := ih
    refine ⟨l ++ [i], ?_, ?_, ?_⟩
    · rw [List.nodup_append_comm]
      simp only [List.singleton_append, List.nodup_cons]
      exact ⟨fun hm => hi (h2 ▸ List.mem_toFinset.2 hm), h1⟩
    · rw [List.toFinset_append, h2]; ext v; simp
    · rw [cost_append, h3]; simp [cost, h2]

theorem real_values_finite (pgs : Fin d → PG d K) : ∃ V : Finset (WithTop K), ∀ U s g, Real pgs U s g → g ∈ V := by
  have hf : {l : List (Fin d) | l.length ≤ d}.Finite := List.finite_length_le (Fin d) d
  classical
  refine ⟨hf.toFinset.image (cost pgs ∅), fun U s g h => ?_⟩
  obtain ⟨l, h1, -, h3⟩ := h.order
  refine Finset.mem_image.2 ⟨l, ?_, h3.symm⟩
  simp only [Set.Finite.mem_toFinset, Set.mem_setOf_eq]
  have := h1.length_le_card
  simpa using this

/-- A finite realized cost is the score of an acyclic choice of entries of the parent graphs. -/
theorem Real.dag {pgs : Fin d → PG d K} (hs : Sorted pgs) {score : Fin d → Finset (Fin d) → K}
    (hsc : ∀ i, ∀ e ∈ pgs i, e.2 = score i e.1) {U : Finset (Fin d)} {s : Structs d} {g : WithTop K}
    (h : Real pgs U s g) (hg : g ≠ ⊤) :
    ∃ pa : Fin d → Finset (Fin d), (∀ i ∈ U, s i = some (pa i) ∧ (pa i, score i (pa i)) ∈ pgs i) ∧
      g = ((∑ i ∈ U, score i (pa i) : K) : WithTop K) ∧
      ∃ r : Fin d → Nat, ∀ i ∈ U, r i < U.card ∧ ∀ j ∈ pa i, j ∈ U ∧ r j < r i := by
  induction h with
  | nil => exact ⟨fun _ => ∅, by simp, by simp, fun _ => 0, by simp⟩
  | @snoc U s g s' i _ hi hkeep hnew ih =>
    have h1 : g ≠ ⊤ := fun hh => hg (by rw [hh]; simp)
    have h2 : (query (pgs i) U).2 ≠ ⊤ := fun hh => hg (by rw [hh]; simp)
    obtain ⟨pa, p1, p2, r, p3⟩ := ih h1
    rcases query_spec (hs i) U with ⟨e1, -⟩ | ⟨e, e1, e2, e3, -⟩
    · rw [e1] at h2; simp at h2
    · have hne : ∀ j ∈ U, j ≠ i := fun j hj hji => hi (hji ▸ hj)
      refine ⟨fun j => if j = i then e.1 else pa j, fun j hj => ?_, ?_, fun j => if j = i then U.card else r j, fun j hj => ?_⟩
      · rcases Finset.mem_insert.1 hj with rfl | hj
        · simp only [if_true]
          rw [hnew, e2]
          refine ⟨rfl, ?_⟩
          rw [← hsc j e e1]; exact e1
        · simp only [if_neg (hne j hj)]
          rw [hkeep j hj]; exact p1 j hj
      · rw [Finset.sum_insert hi, p2, e2, hsc i e e1, add_comm, WithTop.coe_add]
        simp only [if_true]
        congr 2
        apply Finset.sum_congr rfl
        intro j hj
        simp only [if_neg (hne j hj)]
      · rw [Finset.card_insert_of_notMem hi]
        rcases Finset.mem_insert.1 hj with rfl | hj
        · simp only [if_true]
          refine ⟨by omega, fun k hk => ?_⟩
          have hkU := e3 hk
          rw [if_neg (hne k hkU)]
          exact ⟨Finset.mem_insert_of_mem hkU, (p3 k hkU).1⟩
        · simp only [if_neg (hne j hj)]
          refine ⟨by have := (p3 j hj).1; omega, fun k hk => ?_⟩
          obtain ⟨k1, k2⟩ := (p3 j hj).2 k hk
          rw [if_neg (hne k k1)]
          exact ⟨Finset.mem_insert_of_mem k1, k2⟩

theorem acyclic_of_rank {E : Fin d → Fin d → Prop} (r : Fin d → Nat) (h : ∀ a b, E a b → r a < r b) : Acyclic E := by
  intro x hx
  have : ∀ a b, Relation.TransGen E a b → r a < r b := by
    intro a b hab
    induction hab with
    | single hh => exact h _ _ hh
    | tail _ hh ih => exact ih.trans (h _ _ hh)
  exact absurd (this x x hx) (lt_irrefl _)

/-- every acyclic choice of parents has an ordering of at most its score -/
theorem exists_order {pgs : Fin d → PG d K} (hs : Sorted pgs) {score : Fin d → Finset (Fin d) → K}
    {pa : Fin d → Finset (Fin d)} (hac : Acyclic fun j i => j ∈ pa i)
    (hcov : ∀ i, ∃ e ∈ pgs i, e.1 ⊆ pa i ∧ e.2 ≤ score i (pa i)) (m : Nat) (U : Finset (Fin d)) (hm : (Uᶜ).card = m)
    (hU : ∀ i ∈ U, pa i ⊆ U) :
    ∃ l, Completion U l ∧ cost pgs U l ≤ ((∑ i ∈ Uᶜ, score i (pa i) : K) : WithTop K) := by
  induction m generalizing U with
  | zero =>
    have hc : Uᶜ = ∅ := Finset.card_eq_zero.1 hm
    refine ⟨[], ⟨by simp, fun v => ?_⟩, by simp [cost, hc]⟩
    have : v ∉ Uᶜ := by rw [hc]; simp
    simpa using this
  | succ m ih =>
    have hwf : WellFounded (Relation.TransGen fun j i : Fin d => j ∈ pa i) := by
      have : IsTrans (Fin d) (Relation.TransGen fun j i : Fin d => j ∈ pa i) := ⟨fun _ _ _ => Relation.TransGen.trans⟩
      have : Std.Irrefl (Relation.TransGen fun j i : Fin d => j ∈ pa i) := ⟨hac⟩
      exact Finite.wellFounded_of_trans_of_irrefl _
    obtain ⟨v, hv, hmin⟩ := hwf.has_min {v | v ∈ Uᶜ} (by
      obtain ⟨v, hv⟩ := Finset.card_pos.1 (show 0 < (Uᶜ).card by omega)
      exact ⟨v, hv⟩)
    have hvU : v ∉ U := by simpa using hv
    have hpa : pa v ⊆ U := by
      intro j hj
      by_contra hjU
      exact hmin j (by simpa using hjU) (Relation.TransGen.single hj)
    have hcompl : (insert v U)ᶜ = (Uᶜ).erase v := by ext w; simp
    have hvc : v ∈ Uᶜ := by simpa using hvU
    obtain ⟨l, hl, hc⟩ := ih (insert v U) (by rw [hcompl, Finset.card_erase_of_mem hvc]; omega) (by
      intro i hi
      rcases Finset.mem_insert.1 hi with rfl | hi
      · exact hpa.trans (Finset.subset_insert _ _)
      · exact (hU i hi).trans (Finset.subset_insert _ _))
    refine ⟨v :: l, ⟨?_, fun w => ?_⟩, ?_⟩
    · refine List.nodup_cons.2 ⟨fun hm => ?_, hl.1⟩
      have := (hl.2 v).1 hm
      simp at this
    · have := hl.2 w
      simp only [List.mem_cons, Finset.mem_insert] at this ⊢
      grind
    · obtain ⟨e, e1, e2, e3⟩ := hcov v
      have hq : (query (pgs v) U).2 ≤ (score v (pa v) : WithTop K) :=
        (query_le (hs v) e1 (e2.trans hpa)).trans (WithTop.coe_le_coe.2 e3)
      rw [hcompl] at hc
      rw [← Finset.add_sum_erase _ _ hvc, WithTop.coe_add]
      exact add_le_add hq hc

end Exact
end CL
