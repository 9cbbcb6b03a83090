import Verif.Proofs.Moral

/-!
# Conditioning on a further ancestor of an end point keeps d-separation within the ancestors
-/
namespace Spec
open Relation
variable {V : Type} {E : V → V → Prop} {Z : Set V}

/-- an active walk inside the ancestors of its end is followed by moral steps -/
theorem moral_walk (hac : Acyclic E) {x y w : V} (hZ : ∀ z ∈ insert w Z, ReflTransGen E z x) (hxZ : x ∉ Z) (hsep : DSep E Z y x) :
    ∀ (L : Nat) (l : List V) (a : V), l.length ≤ L → ActiveSeq E (insert w Z) (a :: l) → (a :: l).getLast? = some x → ReflTransGen E a x → a ∉ Z → DConn E Z a y →
      DConn E Z x y := by
  have hk : ∀ k, ReflTransGen E k x → AncOf E ({y, x} ∪ Z) k := fun k h => ⟨x, Or.inl (Or.inr rfl), h⟩
  have hanc : ∀ k, AncOf E (insert w Z) k → ReflTransGen E k x := by
    rintro k ⟨z, hz, h⟩
    exact h.trans (hZ z hz)
  have hedge : ∀ {a b : V}, Adj E a b → ReflTransGen E a x → ReflTransGen E b x → a ∉ Z → b ∉ Z → DConn E Z a y → DConn E Z b y := by
    intro a b hab ha hb haZ hbZ hc
    rcases hab with h | h
    · exact moral_closed hac hsep (hk b hb) (Or.inr h) (Or.inl rfl) haZ hbZ hc
    · exact moral_closed hac hsep (hk a ha) (Or.inl rfl) (Or.inr h) haZ hbZ hc
  intro L
  induction L with
  | zero =>
    intro l a hl _ hlast _ _ hc
    obtain rfl : l = [] := List.length_eq_zero_iff.1 (by omega)
    simp only [List.getLast?_singleton, Option.some.injEq] at hlast
    rwa [hlast] at hc
  | succ L ih =>
    intro l a hl hact hlast ha haZ hc
    match l with
    | [] =>
      simp only [List.getLast?_singleton, Option.some.injEq] at hlast
      rwa [hlast] at hc
    | [b] =>
      have hb : b = x := by simpa using hlast
      subst hb
      exact hedge (activeSeq_pair_iff.1 hact) ha .refl haZ hxZ hc
    | b :: d :: r =>
      obtain ⟨hab, hop, hrest⟩ := activeSeq_cons.1 hact
      have hlast' : (b :: d :: r).getLast? = some x := by rw [← hlast]; simp [List.getLast?_cons]
      have hlast'' : (d :: r).getLast? = some x := by rw [← hlast']; simp [List.getLast?_cons]
      have hbx : ReflTransGen E b x := by
        by_cases hcol : Collider E a b d
        · exact hanc b (hop.1 hcol)
        · rcases hab with hab | hab
          · have hbd : Adj E b d := by
              cases r with
              | nil => exact activeSeq_pair_iff.1 hrest
              | cons _ _ => exact (activeSeq_cons.1 hrest).1
            rcases hbd with hbd | hbd
            · rcases forward_or_anc hrest hbd with h | h
              · exact (h x hlast').to_reflTransGen
              · exact hanc b h
            · exact absurd ⟨hab, hbd⟩ hcol
          · exact ReflTransGen.head hab ha
      by_cases hcol : Collider E a b d
      · have hdx : ReflTransGen E d x := ReflTransGen.head hcol.2 hbx
        have hdZ : d ∉ Z := by
          cases r with
          | nil =>
            have : d = x := by simpa using hlast''
            rwa [this]
          | cons f r =>
            obtain ⟨-, hop', -⟩ := activeSeq_cons.1 hrest
            exact fun h => hop'.2 (fun hc' => hac.asymm hc'.1 hcol.2) (Or.inr h)
        have hact' : ActiveSeq E (insert w Z) (d :: r) := hrest.infix ⟨[b], [], by simp⟩
        exact ih r d (by simp only [List.length_cons] at hl; omega) hact' hlast'' hdx hdZ
          (moral_closed hac hsep (hk b hbx) (Or.inr hcol.1) (Or.inr hcol.2) haZ hdZ hc)
      · have hbZ : b ∉ Z := fun h => hop.2 hcol (Or.inr h)
        exact ih (d :: r) b (by simp only [List.length_cons] at hl ⊢; omega) hrest hlast' hbx hbZ (hedge hab ha hbx haZ hbZ hc)

/-- Within the ancestors of `x`, conditioning on one more of them keeps `x` and `y` separated. -/
theorem DSep.insert_anc (hac : Acyclic E) {x y w : V} (hxZ : x ∉ Z) (hyZ : y ∉ Z) (hZ : ∀ z ∈ Z, ReflTransGen E z x) (hy : ReflTransGen E y x)
    (hw : ReflTransGen E w x) (hsep : DSep E Z x y) : DSep E (insert w Z) x y := by
  intro hc
  obtain ⟨l, hl⟩ := exists_aWalk hc.symm
  refine hsep (moral_walk hac (w := w) ?_ hxZ (dSep_symm.1 hsep) l.length l y le_rfl hl.1 hl.2 hy hyZ ?_)
  · rintro z (rfl | hz)
    · exact hw
    · exact hZ z hz
  · exact AWalk.dConn hac (l := []) ⟨ActiveSeq.single y, rfl⟩

end Spec
