import Verif.Spec.DSep

/-!
# Facts about d-separation
-/
namespace Spec
open Relation
variable {V : Type} {E : V → V → Prop} {Z : Set V}

theorem Adj.symm {a b : V} (h : Adj E a b) : Adj E b a := h.elim Or.inr Or.inl

theorem Acyclic.irrefl (h : Acyclic E) (a : V) : ¬ E a a := fun ha => h a (TransGen.single ha)

theorem Acyclic.asymm (h : Acyclic E) {a b : V} (hab : E a b) : ¬ E b a :=
  fun hba => h a ((TransGen.single hab).tail hba)

theorem Acyclic.ne_of_adj (h : Acyclic E) {a b : V} (hab : Adj E a b) : a ≠ b := by
  rintro rfl; exact hab.elim (h.irrefl a) (h.irrefl a)

theorem Collider.symm {a b c : V} (h : Collider E a b c) : Collider E c b a := ⟨h.2, h.1⟩

theorem collider_comm {a b c : V} : Collider E a b c ↔ Collider E c b a := ⟨.symm, .symm⟩

theorem open_comm {a b c : V} : Open E Z a b c ↔ Open E Z c b a := by
  unfold Open; rw [collider_comm]

theorem AncOf.of_edge {a b : V} (h : E a b) (hb : AncOf E Z b) : AncOf E Z a := by
  obtain ⟨z, hz, hp⟩ := hb
  exact ⟨z, hz, hp.head h⟩

theorem ActiveSeq.infix {l l' : List V} (h : ActiveSeq E Z l) (hl : l' <:+: l) : ActiveSeq E Z l' :=
  ⟨fun a b hab => h.edge a b (hab.trans hl), fun a b c habc => h.opened a b c (habc.trans hl)⟩

theorem infix_cons_iff' {l l' : List V} {a : V} : l' <:+: a :: l ↔ l' <+: a :: l ∨ l' <:+: l := List.infix_cons_iff

theorem ActiveSeq.single (a : V) : ActiveSeq E Z [a] := by
  constructor
  · intro x y h; have := h.length_le; simp at this
  · intro x y z h; have := h.length_le; simp at this

theorem ActiveSeq.pair {a b : V} (h : Adj E a b) : ActiveSeq E Z [a, b] := by
  constructor
  · intro x y hi
    have := hi.eq_of_length (by simp)
    simp at this
    rw [this.1, this.2]; exact h
  · intro x y z hi; have := hi.length_le; simp at this

theorem activeSeq_cons {a b c : V} {l : List V} :
    ActiveSeq E Z (a :: b :: c :: l) ↔ Adj E a b ∧ Open E Z a b c ∧ ActiveSeq E Z (b :: c :: l) := by
  constructor
  · intro h
    refine ⟨h.edge a b ⟨[], c :: l, by simp⟩, h.opened a b c ⟨[], l, by simp⟩, h.infix ⟨[a], [], by simp⟩⟩
  · rintro ⟨h1, h2, h3⟩
    constructor
    · intro x y hi
      rcases List.infix_cons_iff.1 hi with hp | hi
      · obtain ⟨t, ht⟩ := hp
        simp at ht
        rw [ht.1, ht.2.1]; exact h1
      · exact h3.edge x y hi
    · intro x y z hi
      rcases List.infix_cons_iff.1 hi with hp | hi
      · obtain ⟨t, ht⟩ := hp
        simp at ht
        rw [ht.1, ht.2.1, ht.2.2.1]; exact h2
      · exact h3.opened x y z hi

theorem activeSeq_pair_iff {a b : V} : ActiveSeq E Z [a, b] ↔ Adj E a b :=
  ⟨fun h => h.edge a b (List.infix_refl _), ActiveSeq.pair⟩

theorem ActiveSeq.reverse {l : List V} (h : ActiveSeq E Z l) : ActiveSeq E Z l.reverse := by
  constructor
  · intro a b hi
    have : [b, a] <:+: l := by
      have := List.reverse_infix.2 hi
      simpa using this
    exact (h.edge b a this).symm
  · intro a b c hi
    have : [c, b, a] <:+: l := by
      have := List.reverse_infix.2 hi
      simpa using this
    exact open_comm.1 (h.opened c b a this)

theorem DConn.symm {x y : V} (h : DConn E Z x y) : DConn E Z y x := by
  obtain ⟨l, h1, h2, h3, h4⟩ := h
  exact ⟨l.reverse, List.nodup_reverse.2 h1, by simpa using h3, by simpa using h2, h4.reverse⟩

theorem dSep_symm {x y : V} : DSep E Z x y ↔ DSep E Z y x :=
  ⟨fun h h' => h h'.symm, fun h h' => h h'.symm⟩

theorem dConn_of_adj {x y : V} (hne : x ≠ y) (h : Adj E x y) : DConn E Z x y :=
  ⟨[x, y], by simp [hne], rfl, rfl, ActiveSeq.pair h⟩

theorem dConn_triple {x z y : V} (h1 : x ≠ z) (h2 : z ≠ y) (h3 : x ≠ y) (hxz : Adj E x z) (hzy : Adj E z y)
    (ho : Open E Z x z y) : DConn E Z x y :=
  ⟨[x, z, y], by simp [h1, h2, h3], rfl, rfl, activeSeq_cons.2 ⟨hxz, ho, ActiveSeq.pair hzy⟩⟩

/-- The middle of an unshielded collider is in no separating set. -/
theorem collider_not_mem {x z y : V} (h1 : x ≠ z) (h2 : z ≠ y) (h3 : x ≠ y) (hc : Collider E x z y)
    (hs : DSep E Z x y) : z ∉ Z := fun hz =>
  hs (dConn_triple h1 h2 h3 (Or.inl hc.1) (Or.inr hc.2) ⟨fun _ => ⟨z, hz, .refl⟩, fun h => absurd hc h⟩)

/-- The middle of an unshielded non-collider is in every separating set. -/
theorem noncollider_mem {x z y : V} (h1 : x ≠ z) (h2 : z ≠ y) (h3 : x ≠ y) (hxz : Adj E x z) (hzy : Adj E z y)
    (hc : ¬ Collider E x z y) (hs : DSep E Z x y) : z ∈ Z := by
  by_contra hz
  exact hs (dConn_triple h1 h2 h3 hxz hzy ⟨fun h => absurd h hc, fun _ => hz⟩)

/-- An active sequence that starts `a → b` either stays directed to its end or meets a collider that is an ancestor of
`Z`; in the second case `a` is an ancestor of `Z`. -/
theorem forward_or_anc {a b : V} {l : List V} (h : ActiveSeq E Z (a :: b :: l)) (hab : E a b) :
    (∀ y, (a :: b :: l).getLast? = some y → TransGen E a y) ∨ AncOf E Z a := by
  induction l generalizing a b with
  | nil =>
    left
    intro y hy
    simp at hy
    subst hy
    exact TransGen.single hab
  | cons c l ih =>
    obtain ⟨-, ho, ht⟩ := activeSeq_cons.1 h
    by_cases hcb : E c b
    · right
      exact (ho.1 ⟨hab, hcb⟩).of_edge hab
    · have hbc : E b c := by
        have : Adj E b c := ht.edge b c ⟨[], l, by simp⟩
        exact this.resolve_right hcb
      rcases ih ht hbc with h | h
      · left
        intro y hy
        exact TransGen.head hab (h y (by simpa using hy))
      · right; exact h.of_edge hab

/-- **Local Markov property.** A node is d-separated from every non-adjacent non-descendant by its parents. -/
theorem local_markov (hac : Acyclic E) {x y : V} (hne : x ≠ y) (hna : ¬ Adj E x y) (hnd : ¬ TransGen E x y) :
    DSep E {p | E p x} x y := by
  rintro ⟨l, -, hh, hl, ha⟩
  rcases l with _ | ⟨a, _ | ⟨b, l⟩⟩
  · simp at hh
  · simp at hh hl; exact hne (hh.symm.trans hl)
  · simp at hh
    subst hh
    by_cases hab : E a b
    · rcases forward_or_anc ha hab with h | ⟨z, hz, hp⟩
      · exact hnd (h y hl)
      · exact hac a (TransGen.tail' hp hz)
    · have hba : E b a := (ha.edge a b ⟨[], l, by simp⟩).resolve_left hab
      rcases l with _ | ⟨c, l⟩
      · simp at hl
        subst hl
        exact hna (Or.inr hba)
      · obtain ⟨-, ho, -⟩ := activeSeq_cons.1 ha
        exact ho.2 (fun h => hab h.1) hba

/-- Two non-adjacent nodes of a DAG are separated by the parents of one of them. -/
theorem exists_parents_sep (hac : Acyclic E) {x y : V} (hne : x ≠ y) (hna : ¬ Adj E x y) :
    DSep E {p | E p x} x y ∨ DSep E {p | E p y} x y := by
  by_cases h : TransGen E x y
  · right
    rw [dSep_symm]
    refine local_markov hac hne.symm (fun h' => hna h'.symm) (fun h' => hac x (h.trans h'))
  · left; exact local_markov hac hne hna h

/-! ### Active walks can be cut to active paths -/

theorem infix3_append {p r : List V} {v a b c : V} (h : [a, b, c] <:+: p ++ v :: r) :
    [a, b, c] <:+: p ++ [v] ∨ [a, b, c] <:+: v :: r ∨
      (b = v ∧ (∃ p', p = p' ++ [a]) ∧ ∃ r', r = c :: r') := by
  induction p with
  | nil => right; left; simpa using h
  | cons x p ih =>
    rw [List.cons_append, List.infix_cons_iff] at h
    rcases h with h | h
    · rcases p with _ | ⟨y, p⟩
      · simp at h
        obtain ⟨rfl, rfl, h⟩ := h
        right; right
        refine ⟨rfl, ⟨[], rfl⟩, ?_⟩
        obtain ⟨t, ht⟩ := h
        exact ⟨t, by simpa using ht.symm⟩
      · rcases p with _ | ⟨z, p⟩
        · left
          obtain ⟨t, ht⟩ := h
          simp at ht
          obtain ⟨rfl, rfl, rfl, -⟩ := ht
          simp
        · left
          obtain ⟨t, ht⟩ := h
          simp at ht
          obtain ⟨rfl, rfl, rfl, -⟩ := ht
          exact ⟨[], p ++ [v], by simp⟩
    · rcases ih h with h | h | ⟨rfl, ⟨p', rfl⟩, hr⟩
      · left; exact h.trans ⟨[x], [], by simp⟩
      · right; left; exact h
      · right; right; exact ⟨rfl, ⟨x :: p', rfl⟩, hr⟩

theorem infix2_append {p r : List V} {v a b : V} (h : [a, b] <:+: p ++ v :: r) :
    [a, b] <:+: p ++ [v] ∨ [a, b] <:+: v :: r := by
  induction p with
  | nil => right; simpa using h
  | cons x p ih =>
    rw [List.cons_append, List.infix_cons_iff] at h
    rcases h with h | h
    · rcases p with _ | ⟨y, p⟩
      · left
        simp at h
        obtain ⟨rfl, rfl⟩ := h
        simp
      · left
        obtain ⟨t, ht⟩ := h
        simp at ht
        obtain ⟨rfl, rfl, -⟩ := ht
        exact ⟨[], p ++ [v], by simp⟩
    · rcases ih h with h | h
      · left; exact h.trans ⟨[x], [], by simp⟩
      · right; exact h

/-- cutting out the segment between two visits of the same node keeps a walk active -/
theorem ActiveSeq.cut (hac : Acyclic E) {p q r : List V} {v : V} (h : ActiveSeq E Z (p ++ v :: (q ++ v :: r))) :
    ActiveSeq E Z (p ++ v :: r) := by
  have hA : ActiveSeq E Z (p ++ [v]) := h.infix ⟨[], q ++ v :: r, by simp⟩
  have hB : ActiveSeq E Z (v :: r) := h.infix ⟨p ++ v :: q, [], by simp⟩
  have hM : ActiveSeq E Z (v :: (q ++ [v])) := h.infix ⟨p, r, by simp⟩
  constructor
  · intro a b hi
    rcases infix2_append hi with h' | h'
    · exact hA.edge a b h'
    · exact hB.edge a b h'
  · intro a b c hi
    rcases infix3_append hi with h' | h' | ⟨rfl, ⟨p', rfl⟩, ⟨r', rfl⟩⟩
    · exact hA.opened a b c h'
    · exact hB.opened a b c h'
    · -- the new triple (a, b, c)
      rcases q with _ | ⟨s, q⟩
      · exact absurd (hM.edge b b (by simp)) (fun h => hac.ne_of_adj h rfl)
      obtain ⟨q', t, hq'⟩ : ∃ q' t, s :: q = q' ++ [t] := by
        rcases List.eq_nil_or_concat (s :: q) with h | ⟨q', t, h⟩
        · simp at h
        · exact ⟨q', t, by simpa using h⟩
      have o1 : Open E Z a b s := h.opened a b s ⟨p', q ++ b :: c :: r', by simp⟩
      have o2 : Open E Z t b c := by
        refine h.opened t b c ⟨p' ++ a :: b :: q', r', ?_⟩
        rw [hq']; simp
      have ebs : Adj E b s := hM.edge b s ⟨[], q ++ [b], by simp⟩
      have etb : Adj E t b := by
        refine hM.edge t b ⟨b :: q', [], ?_⟩
        rw [hq']; simp
      constructor
      · intro hc
        by_cases h1 : E s b
        · exact o1.1 ⟨hc.1, h1⟩
        · by_cases h2 : E t b
          · exact o2.1 ⟨h2, hc.2⟩
          · -- b → s ... t ← b
            have hbs : E b s := ebs.resolve_right h1
            have hM' : ActiveSeq E Z (b :: s :: (q ++ [b])) := by simpa using hM
            rcases forward_or_anc hM' hbs with hf | hf
            · exact absurd (hf b (by simp [List.getLast?_cons])) (hac b)
            · exact hf
      · intro hc
        by_cases h1 : Collider E a b s
        · by_cases h2 : Collider E t b c
          · exact absurd ⟨h1.1, h2.2⟩ hc
          · exact o2.2 h2
        · exact o1.2 h1

theorem exists_dup_split {l : List V} (h : ¬ l.Nodup) : ∃ p v q r, l = p ++ v :: (q ++ v :: r) := by
  induction l with
  | nil => simp at h
  | cons a l ih =>
    by_cases ha : a ∈ l
    · obtain ⟨q, r, rfl⟩ := List.append_of_mem ha
      exact ⟨[], a, q, r, rfl⟩
    · rw [List.nodup_cons] at h
      push Not at h
      obtain ⟨p, v, q, r, rfl⟩ := ih (h ha)
      exact ⟨a :: p, v, q, r, rfl⟩

/-- **Active walks suffice.** -/
theorem dConn_of_walk (hac : Acyclic E) {x y : V} {l : List V} (hh : l.head? = some x) (hl : l.getLast? = some y)
    (ha : ActiveSeq E Z l) : DConn E Z x y := by
  induction hn : l.length using Nat.strong_induction_on generalizing l with
  | _ k ih =>
    by_cases hnd : l.Nodup
    · exact ⟨l, hnd, hh, hl, ha⟩
    · obtain ⟨p, v, q, r, rfl⟩ := exists_dup_split hnd
      refine ih (p ++ v :: r).length ?_ ?_ ?_ (ha.cut hac) rfl
      · rw [← hn]; simp; omega
      · rcases p with _ | ⟨a, p⟩
        · simpa using hh
        · simpa using hh
      · rw [← hl]
        simp [List.getLast?_append, List.getLast?_cons]

end Spec
