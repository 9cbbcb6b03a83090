import Verif.Spec.DSep
import Mathlib.Algebra.BigOperators.Fin
import Mathlib.Algebra.BigOperators.Ring.Finset
import Mathlib.Data.Finset.Powerset
import Mathlib.Algebra.BigOperators.Group.Finset.Powerset

/-!
# Scores that are differences of a function of sets agree on Markov equivalent graphs

If the local score of `v` given parents `S` is `f (S ∪ {v}) - f S` for some function `f` of sets of variables, then Markov equivalent acyclic
graphs have the same total score: the total is a sum over all sets `U` of (the Möbius inverse of `f` at `U`) for those `U` that have a member
which is a child of all the others, and whether `U` has such a member can be read off the skeleton and the v-structures.
-/
open Finset Spec Relation
namespace ScoreEq
variable {V : Type} [Fintype V] [DecidableEq V] {K : Type} [AddCommGroup K]

/-- Möbius inversion. -/
theorem exists_moebius (f : Finset V → K) : ∃ g : Finset V → K, ∀ S, f S = ∑ T ∈ S.powerset, g T := by
  refine ⟨fun S => Finset.strongInduction (p := fun _ => K) (fun S ih => f S - ∑ T ∈ S.ssubsets.attach, ih T.1 (mem_ssubsets.1 T.2)) S, fun S => ?_⟩
  have hS : S.powerset = insert S S.ssubsets := by
    ext T
    rw [mem_powerset, mem_insert, mem_ssubsets, ssubset_iff_subset_ne]
    by_cases h : T = S <;> simp [h]
  rw [hS, sum_insert (by simp), Finset.strongInduction_eq, sum_attach S.ssubsets fun T => Finset.strongInduction (p := fun _ => K)
    (fun S ih => f S - ∑ T ∈ S.ssubsets.attach, ih T.1 (mem_ssubsets.1 T.2)) T]
  rw [sub_add_cancel]

variable {D F : V → V → Prop}

/-- Members of `U` that are children of all the others. -/
def Last (D : V → V → Prop) (U : Finset V) (v : V) : Prop := v ∈ U ∧ ∀ w ∈ U, w ≠ v → D w v

theorem last_unique (hD : Acyclic D) {U : Finset V} {v w : V} (hv : Last D U v) (hw : Last D U w) : v = w := by
  by_contra h
  exact hD v (TransGen.tail (TransGen.single (hw.2 v hv.1 h)) (hv.2 w hw.1 (Ne.symm h)))

/-- Every nonempty set has a member without child in the set. -/
theorem exists_sink (hF : Acyclic F) (U : Finset V) (hU : U.Nonempty) : ∃ j ∈ U, ∀ w ∈ U, ¬ F j w := by
  by_contra hc
  push Not at hc
  -- the member with most ancestors
  classical
  obtain ⟨j, hj, hmax⟩ := exists_max_image U (fun v => #(univ.filter fun a => TransGen F a v)) hU
  obtain ⟨w, hw, hjw⟩ := hc j hj
  have hlt : #(univ.filter fun a => TransGen F a j) < #(univ.filter fun a => TransGen F a w) := by
    refine card_lt_card ⟨?_, ?_⟩
    · intro a ha
      simp only [mem_filter, mem_univ, true_and] at ha ⊢
      exact ha.tail hjw
    · intro hsub
      have : j ∈ univ.filter fun a => TransGen F a w := by simp [TransGen.single hjw]
      have := hsub this
      simp only [mem_filter, mem_univ, true_and] at this
      exact hF j this
  have := hmax w hw
  omega

/-- Whether a set has a common child inside is a property of the equivalence class. -/
theorem exists_last (hF : Acyclic F) (h : MarkovEquiv D F) {U : Finset V} (hU : ∃ v, Last D U v) : ∃ v, Last F U v := by
  obtain ⟨i, hi, hpa⟩ := hU
  obtain ⟨j, hj, hs⟩ := exists_sink hF U ⟨i, hi⟩
  refine ⟨j, hj, fun k hk hkj => ?_⟩
  have hadj : ∀ w ∈ U, Adj F w j → F w j := fun w hw ha => ha.resolve_right (hs w hw)
  by_cases hij : i = j
  · subst hij
    exact hadj k hk ((h.1 k i).1 (Or.inl (hpa k hk hkj)))
  have hji := hpa j hj (Ne.symm hij)
  have hFij : F i j := hadj i hi ((h.1 i j).1 (Or.inr hji))
  by_cases hki : k = i
  · subst hki; exact hFij
  by_contra hc
  have hna : ¬ Adj D k j := fun ha => hc (hadj k hk ((h.1 k j).1 ha))
  have huc : UnshieldedCollider D k i j := ⟨hkj, hna, hpa k hk hki, hji⟩
  exact hs i hi ((h.2 k i j).1 huc).2.2.2

theorem acyclic_irrefl (hD : Acyclic D) (v : V) : ¬ D v v := fun h => hD v (.single h)

open Classical in
/-- The total score, as a sum over sets. -/
theorem total_eq (hD : Acyclic D) (f g : Finset V → K) (hg : ∀ S, f S = ∑ T ∈ S.powerset, g T) :
    ∑ v, (f (insert v (univ.filter fun w => D w v)) - f (univ.filter fun w => D w v)) =
      ∑ U : Finset V, if ∃ v, Last D U v then g U else 0 := by
  have h1 : ∀ v, f (insert v (univ.filter fun w => D w v)) - f (univ.filter fun w => D w v) = ∑ U : Finset V, if Last D U v then g U else 0 := by
    intro v
    have hv : v ∉ univ.filter fun w => D w v := by simp [acyclic_irrefl hD v]
    rw [hg, hg, sum_powerset_insert hv, add_sub_cancel_left, ← sum_filter]
    refine sum_bij (fun T _ => insert v T) ?_ ?_ ?_ ?_
    · intro T hT
      rw [mem_powerset] at hT
      simp only [mem_filter, mem_univ, true_and]
      refine ⟨mem_insert_self _ _, fun w hw hwv => ?_⟩
      have := hT ((mem_insert.1 hw).resolve_left hwv)
      simpa using this
    · intro T hT T' hT' he
      have a : v ∉ T := fun h => hv (mem_powerset.1 hT h)
      have b : v ∉ T' := fun h => hv (mem_powerset.1 hT' h)
      rw [← erase_insert a, ← erase_insert b, he]
    · intro U hU
      simp only [mem_filter, mem_univ, true_and] at hU
      refine ⟨U.erase v, ?_, insert_erase hU.1⟩
      rw [mem_powerset]
      intro w hw
      rw [mem_erase] at hw
      simpa using hU.2 w hw.2 hw.1
    · intro T _; rfl
  rw [sum_congr rfl fun v _ => h1 v, sum_comm]
  refine sum_congr rfl fun U _ => ?_
  split
  · rename_i hU
    obtain ⟨v, hv⟩ := hU
    rw [sum_eq_single v (fun w _ hw => if_neg fun h => hw (last_unique hD h hv)) (fun h => absurd (mem_univ v) h), if_pos hv]
  · rename_i hU
    push Not at hU
    exact sum_eq_zero fun v _ => if_neg (hU v)

open Classical in
theorem score_equiv (hD : Acyclic D) (hF : Acyclic F) (h : MarkovEquiv D F) (f : Finset V → K) :
    ∑ v, (f (insert v (univ.filter fun w => D w v)) - f (univ.filter fun w => D w v)) =
      ∑ v, (f (insert v (univ.filter fun w => F w v)) - f (univ.filter fun w => F w v)) := by
  obtain ⟨g, hg⟩ := exists_moebius f
  rw [total_eq hD f g hg, total_eq hF f g hg]
  have h' : MarkovEquiv F D := ⟨fun a b => (h.1 a b).symm, fun a b c => (h.2 a b c).symm⟩
  refine sum_congr rfl fun U _ => ?_
  have : (∃ v, Last D U v) ↔ ∃ v, Last F U v := ⟨exists_last hF h, exists_last hD h'⟩
  simp only [this]

end ScoreEq
