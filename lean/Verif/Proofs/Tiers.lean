import Verif.Props.PCComplete
import Mathlib.Logic.Equiv.Fin.Basic

/-!
# Meek's rules with tiers

Knowledge that orders all variables in tiers can be expressed in the graph: for every node `i` a new node `i'` with an edge to every node of the
tier of `i`. An edge between two tiers becomes part of a v-structure, an edge within a tier does not.
-/
namespace CL
open Relation Spec

/-- A partially directed graph that shows the v-structures and is closed under R1–R3 shows everything derivable. -/
theorem meek_of_closed {V : Type} {T A U : V → V → Prop} (hac : Acyclic T) (kinds : ∀ a b, Adj T a b → A a b ∨ A b a ∨ (U a b ∧ U b a))
    (sound : ∀ a b, A a b → T a b) (vs : ∀ a b c, UnshieldedCollider T a b c → A a b)
    (r1 : ∀ x a b, A x a → U a b → x ≠ b → ¬ Adj T x b → False) (r2 : ∀ a x b, A a x → A x b → U a b → False)
    (r3 : ∀ a b d e, U a b → U a d → U a e → A d b → A e b → d ≠ e → ¬ Adj T d e → False) {a b : V} (hm : Meek T a b) : A a b := by
  have dsound : ∀ {x y}, Meek T x y → T x y := fun hm => hm.sound hac ⟨fun _ _ => Iff.rfl, fun _ _ _ => Iff.rfl⟩
  induction hm with
  | vs hv => exact vs _ _ _ hv
  | @r1 x a b h1 ha hne hna hnu ih =>
    have hD : T a b := dsound (.r1 h1 ha hne hna hnu)
    rcases kinds a b ha with h2 | h2 | h2
    · exact h2
    · exact absurd (sound _ _ h2) (hac.asymm hD)
    · exact (r1 x a b ih h2.1 hne hna).elim
  | @r2 a x b h1 h2 ha ih1 ih2 =>
    have hD : T a b := dsound (.r2 h1 h2 ha)
    rcases kinds a b ha with h3 | h3 | h3
    · exact h3
    · exact absurd (sound _ _ h3) (hac.asymm hD)
    · exact (r2 a x b ih1 ih2 h3.1).elim
  | @r3 a b d e hab had hae h1 h2 hne hna hnu ih1 ih2 =>
    have hD : T a b := dsound (.r3 hab had hae h1 h2 hne hna hnu)
    rcases kinds a b hab with h3 | h3 | h3
    · exact h3
    · exact absurd (sound _ _ h3) (hac.asymm hD)
    · exfalso
      rcases kinds a d had with k1 | k1 | k1
      · exact r2 a d b k1 ih1 h3.1
      · rcases kinds a e hae with k2 | k2 | k2
        · exact r2 a e b k2 ih2 h3.1
        · exact hnu ⟨hne, hna, sound _ _ k1, sound _ _ k2⟩
        · exact r1 d a e k1 k2.1 hne hna
      · rcases kinds a e hae with k2 | k2 | k2
        · exact r2 a e b k2 ih2 h3.1
        · exact r1 e a d k2 k1.1 hne.symm fun h => hna h.symm
        · exact r3 a b d e h3.1 k1.1 k2.1 ih1 ih2 hne hna

variable {n : Nat}

/-- The graph with a new node for every node, pointing to the tier of that node. -/
def Tiered (D : Fin n → Fin n → Prop) (tier : Fin n → Nat) : Fin n ⊕ Fin n → Fin n ⊕ Fin n → Prop
  | .inl a, .inl b => D a b
  | .inr i, .inl b => tier i = tier b
  | _, .inr _ => False

/-- The tiers are obeyed: no edge goes from a later to an earlier tier. -/
def Obeys (tier : Fin n → Nat) (F : Fin n → Fin n → Prop) : Prop := ∀ a b, F a b → tier a ≤ tier b

theorem tiered_acyclic {D : Fin n → Fin n → Prop} (hac : Acyclic D) (tier : Fin n → Nat) : Acyclic (Tiered D tier) := by
  have key : ∀ x y, TransGen (Tiered D tier) x y → ∃ b, y = .inl b ∧ ∀ a, x = .inl a → TransGen D a b := by
    intro x y h
    induction h with
    | @single y h =>
      cases y with
      | inr j => cases x <;> exact h.elim
      | inl b => exact ⟨b, rfl, fun a e => by subst e; exact .single h⟩
    | @tail y z _ h ih =>
      obtain ⟨b, rfl, hb⟩ := ih
      cases z with
      | inr j => exact h.elim
      | inl c => exact ⟨c, rfl, fun a e => (hb a e).tail h⟩
  intro x h
  obtain ⟨b, rfl, hb⟩ := key x x h
  exact hac b (hb b rfl)

theorem tiered_adj {D : Fin n → Fin n → Prop} {tier : Fin n → Nat} (a b : Fin n) :
    Adj (Tiered D tier) (.inl a) (.inl b) ↔ Adj D a b := Iff.rfl

/-- What the tiers and the class force is derivable in the graph with the new nodes. -/
theorem forced_meek {D : Fin n → Fin n → Prop} (hac : Acyclic D) {tier : Fin n → Nat} (hD : Obeys tier D) {a b : Fin n} (hab : D a b)
    (h : ∀ F, Acyclic F → MarkovEquiv D F → Obeys tier F → F a b) :
    Meek (fun x y : Fin (n + n) => Tiered D tier (finSumFinEquiv.symm x) (finSumFinEquiv.symm y)) (finSumFinEquiv (.inl a))
      (finSumFinEquiv (.inl b)) := by
  set e := (finSumFinEquiv : Fin n ⊕ Fin n ≃ Fin (n + n)) with he
  set T : Fin (n + n) → Fin (n + n) → Prop := fun x y => Tiered D tier (e.symm x) (e.symm y) with hT
  have hTT : ∀ p q, T (e p) (e q) ↔ Tiered D tier p q := by intro p q; simp [hT]
  have hacT : Acyclic T := fun x hx => tiered_acyclic hac tier (e.symm x) (hx.lift e.symm fun _ _ h => h)
  rw [← compelled_iff_meek hacT]
  refine ⟨(hTT _ _).2 hab, fun F' hF' hE => ?_⟩
  have hadj : ∀ p q, Adj (Tiered D tier) p q ↔ Adj F' (e p) (e q) := by
    intro p q
    rw [← hE.1]
    exact or_congr (hTT p q).symm (hTT q p).symm
  have huc : ∀ p q r, UnshieldedCollider (Tiered D tier) p q r ↔ UnshieldedCollider F' (e p) (e q) (e r) := by
    intro p q r
    rw [← hE.2]
    unfold UnshieldedCollider Collider Adj
    simp only [hTT, ne_eq, e.injective.eq_iff]
  have hcross : ∀ c d, D c d → tier c ≠ tier d → F' (e (.inl c)) (e (.inl d)) := by
    intro c d hcd hne
    refine ((huc (.inl c) (.inl d) (.inr d)).1 ⟨by simp, ?_, hcd, rfl⟩).2.2.1
    rintro (h1 | h1)
    · exact h1
    · exact hne (Eq.symm h1)
  refine h (fun c d => F' (e (.inl c)) (e (.inl d))) (fun x hx => hF' _ (hx.lift (fun c => e (.inl c)) fun _ _ h => h))
    ⟨fun c d => (tiered_adj c d).symm.trans (hadj _ _), fun c d g => ?_⟩ ?_
  · rw [show UnshieldedCollider D c d g ↔ UnshieldedCollider (Tiered D tier) (.inl c) (.inl d) (.inl g) by
      unfold UnshieldedCollider Collider; simp only [ne_eq, Sum.inl.injEq]; rfl, huc]
    unfold UnshieldedCollider Collider Adj
    simp
  · intro c d hcd
    by_contra hlt
    have h1 : Adj D c d := (tiered_adj (tier := tier) c d).1 ((hadj _ _).2 (Or.inl hcd))
    rcases h1 with h1 | h1
    · exact hlt (hD _ _ h1)
    · exact hF' _ ((TransGen.single hcd).tail (hcross d c h1 (by omega)))

/-- A correct result whose undirected edges lie within a tier directs everything that the tiers and the class force. -/
theorem PCCorrect.tiers {D : Fin n → Fin n → Prop} (hac : Acyclic D) {tier : Fin n → Nat} (hD : Obeys tier D) {H : GG n} (h : PCCorrect D H)
    (hu : ∀ a b, H.g a b = .tail → H.g b a = .tail → tier a = tier b) {a b : Fin n} (hab : D a b)
    (hf : ∀ F, Acyclic F → MarkovEquiv D F → Obeys tier F → F a b) : H.Arrow a b := by
  have hm := forced_meek hac hD hab hf
  set e := (finSumFinEquiv : Fin n ⊕ Fin n ≃ Fin (n + n)) with he
  let A : Fin n ⊕ Fin n → Fin n ⊕ Fin n → Prop := fun p q => match p, q with
    | .inl a, .inl b => H.Arrow a b
    | .inr i, .inl b => tier i = tier b
    | _, .inr _ => False
  let U : Fin n ⊕ Fin n → Fin n ⊕ Fin n → Prop := fun p q => match p, q with
    | .inl a, .inl b => H.g a b = .tail ∧ H.g b a = .tail
    | _, _ => False
  have nul : ∀ {x y}, ¬ Adj D x y → H.g x y = .null := fun {x y} hn => by
    by_contra hc; exact hn ((h.skeleton x y).1 hc)
  have key : ∀ x y : Fin (n + n), Meek (fun x y : Fin (n + n) => Tiered D tier (e.symm x) (e.symm y)) x y → A (e.symm x) (e.symm y) := by
    intro x y hxy
    refine meek_of_closed (T := fun x y : Fin (n + n) => Tiered D tier (e.symm x) (e.symm y)) (A := fun x y => A (e.symm x) (e.symm y))
      (U := fun x y => U (e.symm x) (e.symm y)) (fun x hx => tiered_acyclic hac tier (e.symm x) (hx.lift e.symm fun _ _ h => h))
      ?_ ?_ ?_ ?_ ?_ ?_ hxy
    · intro x y
      show Adj (Tiered D tier) (e.symm x) (e.symm y) → _
      generalize e.symm x = p
      generalize e.symm y = q
      intro hpq
      rcases p with a | i <;> rcases q with b | j
      · rcases h.kinds a b hpq with h1 | h1 | h1
        · exact Or.inl h1
        · exact Or.inr (Or.inl h1)
        · exact Or.inr (Or.inr ⟨h1, h1.2, h1.1⟩)
      · exact Or.inr (Or.inl (hpq.resolve_left fun h => h))
      · exact Or.inl (hpq.resolve_right fun h => h)
      · exact (hpq.elim (fun h => h) fun h => h).elim
    · intro x y
      show A (e.symm x) (e.symm y) → Tiered D tier (e.symm x) (e.symm y)
      generalize e.symm x = p
      generalize e.symm y = q
      intro hpq
      rcases p with a | i <;> rcases q with b | j
      · exact h.directed a b hpq
      · exact hpq
      · exact hpq
      · exact hpq
    · intro x y z hv
      have hv' : UnshieldedCollider (Tiered D tier) (e.symm x) (e.symm y) (e.symm z) :=
        ⟨fun hc => hv.1 (e.symm.injective hc), hv.2⟩
      clear hv
      revert hv'
      show _ → A (e.symm x) (e.symm y)
      generalize e.symm x = p
      generalize e.symm y = q
      generalize e.symm z = r
      intro hv
      rcases p with a | i <;> rcases q with b | j <;> rcases r with c | k
      · exact (h.vstruct a b c ⟨fun hc => hv.1 (by rw [hc]), hv.2⟩).1
      · have hab : D a b := hv.2.2.1
        have hk : tier k = tier b := hv.2.2.2
        rcases h.kinds a b (Or.inl hab) with h1 | h1 | h1
        · exact h1
        · exact absurd (h.directed _ _ h1) (hac.asymm hab)
        · exact absurd (Or.inr (hk.trans (hu a b h1.1 h1.2).symm)) hv.2.1
      · exact hv.2.2.1
      · exact hv.2.2.1
      · exact hv.2.2.1
      · exact hv.2.2.1
      · exact hv.2.2.1
      · exact hv.2.2.1
    · intro x y z
      show A (e.symm x) (e.symm y) → U (e.symm y) (e.symm z) → _
      intro h1 h2 hne hna
      have hne' : e.symm x ≠ e.symm z := fun hc => hne (e.symm.injective hc)
      have hna' : ¬ Adj (Tiered D tier) (e.symm x) (e.symm z) := hna
      clear hne hna
      revert h1 h2 hne' hna'
      generalize e.symm x = p
      generalize e.symm y = q
      generalize e.symm z = r
      intro h1 h2 hne hna
      rcases q with b | j
      · rcases r with c | k
        · rcases p with a | i
          · exact h.closed b c ⟨h2, Or.inl ⟨a, fun hc => hne (by rw [hc]), nul hna, h1⟩⟩
          · exact hna (Or.inl (Eq.trans h1 (hu b c h2.1 h2.2)))
        · exact h2
      · rcases p with a | i <;> exact h1
    · intro x y z
      show A (e.symm x) (e.symm y) → A (e.symm y) (e.symm z) → U (e.symm x) (e.symm z) → False
      generalize e.symm x = p
      generalize e.symm y = q
      generalize e.symm z = r
      intro h1 h2 h3
      rcases p with a | i <;> rcases q with b | j <;> rcases r with c | k
      · exact h.closed a c ⟨h3, Or.inr (Or.inl ⟨b, h1, h2⟩)⟩
      all_goals first | exact h3 | exact h1 | exact h2
    · intro x y z w
      show U (e.symm x) (e.symm y) → U (e.symm x) (e.symm z) → U (e.symm x) (e.symm w) → A (e.symm z) (e.symm y) → A (e.symm w) (e.symm y) → _
      intro h1 h2 h3 h4 h5 hne hna
      have hne' : e.symm z ≠ e.symm w := fun hc => hne (e.symm.injective hc)
      have hna' : ¬ Adj (Tiered D tier) (e.symm z) (e.symm w) := hna
      clear hne hna
      revert h1 h2 h3 h4 h5 hne' hna'
      generalize e.symm x = p
      generalize e.symm y = q
      generalize e.symm z = r
      generalize e.symm w = s
      intro h1 h2 h3 h4 h5 hne hna
      rcases p with a | i <;> rcases q with b | j <;> rcases r with c | k <;> rcases s with d | l
      · exact h.closed a b ⟨h1, Or.inr (Or.inr ⟨c, d, fun hc => hne (by rw [hc]), nul hna, h2, h3, h4, h5⟩)⟩
      all_goals first | exact h1 | exact h2 | exact h3
  have h1 := key _ _ hm
  simp only [Equiv.symm_apply_apply] at h1
  exact h1

end CL
