import Verif.Proofs.Essential

/-!
# Meek's rules R1–R3 orient exactly the compelled edges

Abstract part (no code).
-/
namespace Spec
open Relation
variable {V : Type} {E : V → V → Prop} {C : V → V → Prop} {τ : V → Nat}

/-- The closure of the v-structures of `E` under Meek's rules R1, R2 and R3. The side conditions mention only adjacencies and
v-structures, so the closure is the same for every Markov-equivalent DAG. -/
inductive Meek (E : V → V → Prop) : V → V → Prop
  | vs {a b c : V} : UnshieldedCollider E a b c → Meek E a b
  | r1 {x a b : V} : Meek E x a → Adj E a b → x ≠ b → ¬ Adj E x b → ¬ UnshieldedCollider E x a b → Meek E a b
  | r2 {a x b : V} : Meek E a x → Meek E x b → Adj E a b → Meek E a b
  | r3 {a b d e : V} : Adj E a b → Adj E a d → Adj E a e → Meek E d b → Meek E e b → d ≠ e → ¬ Adj E d e →
      ¬ UnshieldedCollider E d a e → Meek E a b

theorem uc_symm {a b c : V} (h : UnshieldedCollider E a b c) : UnshieldedCollider E c b a :=
  ⟨h.1.symm, fun h' => h.2.1 h'.symm, h.2.2.symm⟩

theorem MarkovEquiv.symm' {F : V → V → Prop} (h : MarkovEquiv E F) : MarkovEquiv F E :=
  ⟨fun a b => (h.1 a b).symm, fun a b c => (h.2 a b c).symm⟩

/-- R1–R3 are sound for every Markov-equivalent DAG -/
theorem Meek.sound {F : V → V → Prop} (hF : Acyclic F) (he : MarkovEquiv E F) {a b : V} (h : Meek E a b) : F a b := by
  have adj : ∀ {a b}, Adj E a b → F a b ∨ F b a := fun h => (he.1 _ _).1 h
  induction h with
  | vs h => exact ((he.2 _ _ _).1 h).2.2.1
  | r1 _ ha hne hna hnu ih =>
    rcases adj ha with h | h
    · exact h
    · exact absurd ((he.2 _ _ _).2 ⟨hne, fun h => hna ((he.1 _ _).2 h), ih, h⟩) hnu
  | r2 _ _ ha ih1 ih2 =>
    rcases adj ha with h | h
    · exact h
    · exact absurd (((TransGen.single ih1).tail ih2).tail h) (hF _)
  | r3 hab had hae _ _ hne hna hnu ih1 ih2 =>
    rcases adj hab with h | h
    · exact h
    · rcases adj had with h1 | h1
      · exact absurd (((TransGen.single h1).tail ih1).tail h) (hF _)
      · rcases adj hae with h2 | h2
        · exact absurd (((TransGen.single h2).tail ih2).tail h) (hF _)
        · exact absurd ((he.2 _ _ _).2 ⟨hne, fun h => hna ((he.1 _ _).2 h), h1, h2⟩) hnu

/-- adjacent and not directed by the rules -/
def MeekUnd (E : V → V → Prop) (a b : V) : Prop := Adj E a b ∧ ¬ Meek E a b ∧ ¬ Meek E b a

theorem MeekUnd.symm {a b : V} (h : MeekUnd E a b) : MeekUnd E b a := ⟨h.1.symm, h.2.2, h.2.1⟩

theorem Meek.step {a b c : V} (h : Meek E a b) (hu : MeekUnd E b c) : Meek E a c ∨ MeekUnd E a c := by
  have hne : a ≠ c := by rintro rfl; exact hu.2.2 h
  have hadj : Adj E a c := by
    by_contra hna
    exact hu.2.1 (.r1 h hu.1 hne hna fun hv => hu.2.2 (.vs (uc_symm hv)))
  by_cases h1 : Meek E a c
  · exact Or.inl h1
  · exact Or.inr ⟨hadj, h1, fun h2 => hu.2.2 (.r2 h2 h hu.1.symm)⟩

/-- Meek's lemma: an undirected edge has the same directed parents at both ends. -/
theorem Meek.parents {a b : V} (h : Meek E a b) : ∀ {c}, MeekUnd E b c → Meek E a c := by
  induction h with
  | @vs a b d hv =>
    intro c hu
    rcases (Meek.vs hv).step hu with h | h
    · exact h
    · exfalso
      have hd : Meek E d b := .vs (uc_symm hv)
      rcases hd.step hu with h2 | h2
      · exact h.2.2 (.r1 h2 h.1.symm hv.1.symm (fun h' => hv.2.1 h'.symm) fun hw => h.2.1 (.vs (uc_symm hw)))
      · exact hu.2.2 (.r3 hu.1.symm h.1.symm h2.1.symm (.vs hv) hd hv.1 hv.2.1 fun hw => h.2.1 (.vs hw))
  | @r1 x a b h1 ha hne hna hnu ih =>
    intro c hu
    rcases (Meek.r1 h1 ha hne hna hnu).step hu with h | h
    · exact h
    · exfalso
      exact hu.2.2 (.r1 (ih h) hu.1.symm hne hna fun hw => hu.2.1 (.vs (uc_symm hw)))
  | @r2 a x b h1 h2 ha ih1 ih2 =>
    intro c hu
    rcases (Meek.r2 h1 h2 ha).step hu with h | h
    · exact h
    · exact .r2 h1 (ih2 hu) h.1
  | @r3 a b d e hab had hae h1 h2 hne hna hnu ih1 ih2 =>
    intro c hu
    rcases (Meek.r3 hab had hae h1 h2 hne hna hnu).step hu with h | h
    · exact h
    · exact .r3 h.1 had hae (ih1 hu) (ih2 hu) hne hna hnu

/-- **Completeness of R1–R3**: every edge labelled compelled is directed by the rules. -/
theorem Labelling.meek (L : Labelling E C τ) {z y : V} (h : C z y) : Meek E z y := by
  obtain ⟨k, hk⟩ : ∃ k, τ y = k := ⟨_, rfl⟩
  induction k using Nat.strong_induction_on generalizing z y with
  | _ k ih =>
    obtain ⟨u, x, h1, h2, h3, h4, h5, h6⟩ := L.witness h
    have hE := L.sub _ _ h
    have hxu := L.topo _ _ h2.1
    have hEup : ∀ p, E p u → E p y := fun p hp => L.sub _ _ (h4 p hp)
    have hxy := hEup x h2.1
    have hac := L.acyclic
    have asym : ∀ {a b}, E a b → ¬ E b a := fun h1 h2 => hac _ ((TransGen.single h1).tail h2)
    rcases h3 with ⟨w, hwx, hwu⟩ | ⟨z', hz'u, hz'x, hz'nx⟩
    · have hwx' := L.topo _ _ (L.sub _ _ hwx)
      have hMwx : Meek E w x := ih (τ x) (by omega) hwx rfl
      have hwy : ¬ Adj E w y := by
        rintro (hw | hw)
        · rcases h5 w hw with h | h
          · exact hwu h
          · omega
        · have := L.topo _ _ hw; omega
      have hwney : w ≠ y := by rintro rfl; omega
      have hMxy : Meek E x y := .r1 hMwx (Or.inl hxy) hwney hwy fun hv => asym hxy hv.2.2.2
      by_cases hzx : z = x
      · rw [hzx]; exact hMxy
      · have hzlt : τ z < τ x := lt_of_le_of_ne (h2.2 z h1) fun h => hzx (L.inj _ _ h)
        by_cases hxz : Adj E z x
        · have hEzx : E z x := by
            rcases hxz with h | h
            · exact h
            · have := L.topo _ _ h; omega
          have hwz : w ≠ z := by rintro rfl; exact hwu h1
          by_cases hawz : Adj E w z
          · by_cases m1 : Meek E z x
            · exact .r2 m1 hMxy (Or.inl hE)
            · have hMwz : Meek E w z := by
                by_cases m2 : Meek E x z
                · exact .r2 hMwx m2 hawz
                · exact hMwx.parents ⟨hxz.symm, m2, m1⟩
              exact .r1 hMwz (Or.inl hE) hwney hwy fun hv => asym hE hv.2.2.2
          · have hMzx : Meek E z x := .vs ⟨hwz.symm, fun h => hawz h.symm, hEzx, L.sub _ _ hwx⟩
            exact .r2 hMzx hMxy (Or.inl hE)
        · exact .vs ⟨hzx, hxz, hE, hxy⟩
    · have hz'lt : τ z' < τ x := lt_of_le_of_ne (h2.2 z' hz'u) fun h => hz'x (L.inj _ _ h)
      have hna : ¬ Adj E z' x := by
        rintro (h | h)
        · exact hz'nx h
        · have := L.topo _ _ h; omega
      have hv : UnshieldedCollider E z' y x := ⟨hz'x, hna, hEup _ hz'u, hxy⟩
      by_cases hzx : z = x
      · rw [hzx]; exact .vs (uc_symm hv)
      by_cases hzz' : z = z'
      · rw [hzz']; exact .vs hv
      by_cases a1 : Adj E z x
      · by_cases a2 : Adj E z z'
        · refine .r3 (Or.inl hE) a2 a1 (.vs hv) (.vs (uc_symm hv)) hz'x hna fun hw => ?_
          have := L.topo _ _ hw.2.2.2
          have := h2.2 z h1
          omega
        · exact .vs ⟨hzz', a2, hE, hEup _ hz'u⟩
      · exact .vs ⟨hzx, a1, hE, hxy⟩

end Spec
