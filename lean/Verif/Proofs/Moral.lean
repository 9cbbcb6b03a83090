import Verif.Proofs.DSep

/-!
# d-connection is closed under moral adjacency among ancestors
-/
namespace Spec
open Relation
variable {V : Type} {E : V → V → Prop} {Z : Set V}

/-- An active walk given by its list, from `a` to `b`. -/
def AWalk (E : V → V → Prop) (Z : Set V) (a b : V) (l : List V) : Prop := ActiveSeq E Z (a :: l) ∧ (a :: l).getLast? = some b

theorem AWalk.dConn (hac : Acyclic E) {a b : V} {l : List V} (h : AWalk E Z a b l) : DConn E Z a b := dConn_of_walk hac rfl h.2 h.1

theorem exists_aWalk {a b : V} (h : DConn E Z a b) : ∃ l, AWalk E Z a b l := by
  obtain ⟨l, -, hh, hl, ha⟩ := h
  cases l with
  | nil => simp at hh
  | cons c l =>
    simp only [List.head?_cons, Option.some.injEq] at hh
    subst hh
    exact ⟨l, ha, hl⟩

/-- Leave `a` through a tail at `a`. -/
theorem AWalk.cons_tail (hac : Acyclic E) {a b c : V} {l : List V} (h : AWalk E Z a b l) (hac' : E a c) (ha : a ∉ Z) : AWalk E Z c b (a :: l) := by
  refine ⟨?_, by rw [← h.2]; simp [List.getLast?_cons]⟩
  cases l with
  | nil => exact ActiveSeq.pair (Or.inr hac')
  | cons d l =>
    refine activeSeq_cons.2 ⟨Or.inr hac', ⟨fun hcol => absurd hac' (hac.asymm hcol.1), fun _ => ha⟩, h.1⟩

/-- Leave `a` through an arrowhead at `a`. -/
theorem AWalk.cons_head {a b c : V} {l : List V} (h : AWalk E Z a b l) (hca : E c a) (ha : a ∉ Z)
    (hcol : (∃ d l', l = d :: l' ∧ E d a) → AncOf E Z a) : AWalk E Z c b (a :: l) := by
  refine ⟨?_, by rw [← h.2]; simp [List.getLast?_cons]⟩
  cases l with
  | nil => exact ActiveSeq.pair (Or.inl hca)
  | cons d l =>
    refine activeSeq_cons.2 ⟨Or.inl hca, ⟨fun hc => hcol ⟨d, l, rfl, hc.2⟩, fun _ => ha⟩, h.1⟩

/-- Follow a directed path out of `Z`'s ancestors. -/
theorem AWalk.directed (hac : Acyclic E) {a b c : V} {l : List V} (h : AWalk E Z a b l) (hp : ReflTransGen E a c) (hn : ¬ AncOf E Z a) :
    ∃ l', AWalk E Z c b l' := by
  induction hp with
  | refl => exact ⟨l, h⟩
  | @tail d c had hdc ih =>
    obtain ⟨l', h'⟩ := ih
    exact ⟨_, h'.cons_tail hac hdc fun hd => hn ⟨d, hd, had⟩⟩

/-- A directed path out of `Z`'s ancestors is an active walk that starts with a tail. -/
theorem directed_walk (hac : Acyclic E) {a b : V} (hp : ReflTransGen E a b) (hn : ¬ AncOf E Z a) :
    ∃ l, AWalk E Z a b l ∧ ∀ d l', l = d :: l' → E a d := by
  induction hp using ReflTransGen.head_induction_on with
  | refl => exact ⟨[], ⟨ActiveSeq.single b, rfl⟩, fun d l' e => by cases e⟩
  | @head a c hacx hcb ih =>
    have hn' : ¬ AncOf E Z c := fun h => hn (h.of_edge hacx)
    obtain ⟨l, hl, hd⟩ := ih hn'
    refine ⟨c :: l, hl.cons_head hacx (fun hc => hn' ⟨c, hc, .refl⟩) ?_, fun d l' e => by cases e; exact hacx⟩
    rintro ⟨d, l', e, hdc⟩
    exact absurd hdc (hac.asymm (hd d l' e))

/-- Two members of a node's family (the node and its parents) outside `Z`, the node an ancestor of `x`, `y` or `Z`: if one is d-connected to `x`
so is the other, provided `x` and `y` are d-separated. -/
theorem moral_closed (hac : Acyclic E) {x y : V} (hsep : DSep E Z x y) {k i j : V} (hk : AncOf E ({x, y} ∪ Z) k)
    (hi : i = k ∨ E i k) (hj : j = k ∨ E j k) (hiZ : i ∉ Z) (hjZ : j ∉ Z) (hc : DConn E Z i x) : DConn E Z j x := by
  obtain ⟨l, hl⟩ := exists_aWalk hc
  rcases hj with rfl | hj
  · rcases hi with rfl | hi
    · exact hc
    · exact (hl.cons_tail hac hi hiZ).dConn hac
  -- `j → k`
  by_cases hkZ : AncOf E Z k
  · rcases hi with rfl | hi
    · exact (hl.cons_head hj hiZ fun _ => hkZ).dConn hac
    · -- i → k ← j
      have h1 := hl.cons_tail hac hi hiZ
      refine AWalk.dConn hac (l := k :: i :: l) ⟨?_, ?_⟩
      · refine activeSeq_cons.2 ⟨Or.inl hj, ⟨fun _ => hkZ, fun hn => absurd ⟨hj, hi⟩ hn⟩, h1.1⟩
      · rw [← h1.2]; simp [List.getLast?_cons]
  · -- a walk reaches `k`
    have hkn : k ∉ Z := fun h => hkZ ⟨k, h, .refl⟩
    obtain ⟨l', hl'⟩ : ∃ l', AWalk E Z k x l' := by
      rcases hi with rfl | hi
      · exact ⟨l, hl⟩
      · exact ⟨_, hl.cons_tail hac hi hiZ⟩
    obtain ⟨z, hz, hkz⟩ := hk
    rcases hz with (rfl | hz) | hz
    · -- k is an ancestor of x
      obtain ⟨p, hp, hpd⟩ := directed_walk hac hkz hkZ
      refine (hp.cons_head hj hkn ?_).dConn hac
      rintro ⟨d, q, e, hdk⟩
      exact absurd hdk (hac.asymm (hpd d q e))
    · -- k is an ancestor of y
      obtain rfl : z = y := hz
      obtain ⟨q, hq⟩ := hl'.directed hac hkz hkZ
      exact absurd (hq.dConn hac).symm hsep
    · exact absurd ⟨z, hz, hkz⟩ hkZ

end Spec
