import Verif.Proofs.Moral
import Mathlib.Data.Fintype.Prod
import Mathlib.Data.Fintype.Card
import Mathlib.Data.Finset.Max

/-!
# Markov equivalent DAGs have the same d-separations (Verma and Pearl), by covered edge reversals (Chickering)
-/
namespace Spec
open Relation
variable {V : Type} {E : V → V → Prop} {Z : Set V}

/-! ## The moral criterion -/

/-- `i` and `j` lie in the family of a node that is an ancestor of `T`, and are not in `Z`. -/
def MStep (E : V → V → Prop) (Z T : Set V) (i j : V) : Prop :=
  ∃ k, AncOf E T k ∧ (i = k ∨ E i k) ∧ (j = k ∨ E j k) ∧ i ∉ Z ∧ j ∉ Z

theorem MStep.symm {T : Set V} {i j : V} (h : MStep E Z T i j) : MStep E Z T j i := by
  obtain ⟨k, h1, h2, h3, h4, h5⟩ := h
  exact ⟨k, h1, h3, h2, h5, h4⟩

theorem dConn_of_moral (hac : Acyclic E) {x y : V} (h : ReflTransGen (MStep E Z ({x, y} ∪ Z)) x y) : DConn E Z x y := by
  by_contra hs
  have hx : DConn E Z x x := ⟨[x], by simp, rfl, rfl, ActiveSeq.single x⟩
  have : ∀ j, ReflTransGen (MStep E Z ({x, y} ∪ Z)) x j → DConn E Z j x := by
    intro j hj
    induction hj with
    | refl => exact hx
    | tail _ h ih =>
      obtain ⟨k, h1, h2, h3, h4, h5⟩ := h
      exact moral_closed hac hs h1 h2 h3 h4 h5 ih
  exact hs (this y h).symm

theorem AncOf.mono {T T' : Set V} (h : T ⊆ T') {v : V} (hv : AncOf E T v) : AncOf E T' v := by
  obtain ⟨z, hz, hp⟩ := hv
  exact ⟨z, h hz, hp⟩

/-- Every node of an active sequence is an ancestor of an end or of the conditioning set. -/
theorem active_anc {x y : V} {l : List V} (hh : l.head? = some x) (hl : l.getLast? = some y) (ha : ActiveSeq E Z l) :
    ∀ v ∈ l, AncOf E ({x, y} ∪ Z) v := by
  intro v hv
  have hZ : ∀ {v}, AncOf E Z v → AncOf E ({x, y} ∪ Z) v := fun h => h.mono Set.subset_union_right
  have hy : ∀ {v}, ReflTransGen E v y → AncOf E ({x, y} ∪ Z) v := fun h => ⟨y, Or.inl (Or.inr rfl), h⟩
  have hx : ∀ {v}, ReflTransGen E v x → AncOf E ({x, y} ∪ Z) v := fun h => ⟨x, Or.inl (Or.inl rfl), h⟩
  obtain ⟨p, q, rfl⟩ := List.append_of_mem hv
  rcases q with _ | ⟨c, q⟩
  · have : v = y := by simpa using hl
    exact hy (this ▸ .refl)
  have hsuf : ActiveSeq E Z (v :: c :: q) := ha.infix ⟨p, [], by simp⟩
  by_cases hvc : E v c
  · rcases forward_or_anc hsuf hvc with h | h
    · exact hy (h y (by rw [← hl, List.getLast?_append_cons])).to_reflTransGen
    · exact hZ h
  have hcv : E c v := (hsuf.edge v c ⟨[], q, rfl⟩).resolve_left hvc
  rcases List.eq_nil_or_concat p with rfl | ⟨p, a, rfl⟩
  · have : v = x := by simpa using hh
    exact hx (this ▸ .refl)
  by_cases hav : E a v
  · exact hZ ((ha.opened a v c ⟨p, q, by simp⟩).1 ⟨hav, hcv⟩)
  · have hva : E v a := (ha.edge a v ⟨p, c :: q, by simp⟩).resolve_left hav
    have hpre : ActiveSeq E Z (p ++ [a, v]) := ha.infix ⟨[], c :: q, by simp⟩
    have hrev := hpre.reverse
    rw [List.reverse_append] at hrev
    simp only [List.reverse_cons, List.reverse_nil, List.nil_append, List.cons_append] at hrev
    rcases forward_or_anc hrev hva with h | h
    · refine hx (h x ?_).to_reflTransGen
      rw [← hh]
      cases p <;> simp [List.getLast?_cons, List.getLast?_reverse, List.getLast?_append]
    · exact hZ h

theorem moral_of_walk (hac : Acyclic E) {T : Set V} {y : V} (hy : y ∉ Z) : ∀ (m : Nat) (i : V) (l : List V), l.length ≤ m → AWalk E Z i y l →
    (∀ v ∈ i :: l, AncOf E T v) → i ∉ Z → ReflTransGen (MStep E Z T) i y := by
  intro m
  induction m with
  | zero =>
    intro i l hm h _ _
    obtain rfl : l = [] := List.length_eq_zero_iff.1 (by omega)
    have : i = y := by simpa using h.2
    exact this ▸ .refl
  | succ m ih =>
    intro i l hm h hA hi
    rcases l with _ | ⟨b, l⟩
    · have : i = y := by simpa using h.2
      exact this ▸ .refl
    have hib : Adj E i b := h.1.edge i b ⟨[], l, rfl⟩
    have step : b ∉ Z → MStep E Z T i b := by
      intro hb
      rcases hib with e | e
      · exact ⟨b, hA b (by simp), Or.inr e, Or.inl rfl, hi, hb⟩
      · exact ⟨i, hA i (by simp), Or.inl rfl, Or.inr e, hi, hb⟩
    rcases l with _ | ⟨c, l⟩
    · have : b = y := by simpa using h.2
      subst this
      exact .single (step hy)
    obtain ⟨-, ho, ht⟩ := activeSeq_cons.1 h.1
    have hlast : (b :: c :: l).getLast? = some y := by have := h.2; simpa using this
    by_cases hcol : Collider E i b c
    · have hcZ : c ∉ Z := by
        rcases l with _ | ⟨d, l⟩
        · have : c = y := by simpa using hlast
          exact this ▸ hy
        · exact (ht.opened b c d ⟨[], l, rfl⟩).2 fun h' => hac.asymm hcol.2 h'.1
      refine .head ⟨b, hA b (by simp), Or.inr hcol.1, Or.inr hcol.2, hi, hcZ⟩ ?_
      refine ih c l (by simp only [List.length_cons] at hm; omega) ⟨ht.infix ⟨[b], [], by simp⟩, by simpa using hlast⟩ ?_ hcZ
      intro v hv
      exact hA v (by simp only [List.mem_cons] at hv ⊢; tauto)
    · have hbZ := ho.2 hcol
      refine .head (step hbZ) (ih b (c :: l) (by simp only [List.length_cons] at hm ⊢; omega) ⟨ht, hlast⟩ ?_ hbZ)
      intro v hv
      exact hA v (by simp only [List.mem_cons] at hv ⊢; tauto)

/-- **The moral criterion.** -/
theorem dConn_iff_moral (hac : Acyclic E) {x y : V} (hx : x ∉ Z) (hy : y ∉ Z) :
    DConn E Z x y ↔ ReflTransGen (MStep E Z ({x, y} ∪ Z)) x y := by
  refine ⟨fun h => ?_, dConn_of_moral hac⟩
  obtain ⟨l, hl⟩ := exists_aWalk h
  exact moral_of_walk hac hy l.length x l le_rfl hl (active_anc rfl hl.2 hl.1) hx

/-! ## Reversing a covered edge -/

/-- `x → y` and `y` has no other parents than those of `x` (and `x`). -/
def Covered (E : V → V → Prop) (x y : V) : Prop := E x y ∧ ∀ p, p ≠ x → (E p y ↔ E p x)

/-- The edge `x → y` turned around. -/
def flip' (E : V → V → Prop) (x y a b : V) : Prop := (E a b ∧ ¬ (a = x ∧ b = y)) ∨ (a = y ∧ b = x)

variable {x y : V}

theorem flip'_acyclic (hac : Acyclic E) (h : Covered E x y) : Acyclic (flip' E x y) := by
  let E0 : V → V → Prop := fun a b => E a b ∧ ¬ (a = x ∧ b = y)
  have hsub : ∀ {a b}, ReflTransGen E0 a b → ReflTransGen E a b := fun h => ReflTransGen.mono (fun _ _ h => h.1) _ _ h
  have key : ∀ a b, TransGen (flip' E x y) a b → TransGen E0 a b ∨ (ReflTransGen E0 a y ∧ ReflTransGen E0 x b) := by
    intro a b hab
    induction hab with
    | single h =>
      rcases h with h | ⟨rfl, rfl⟩
      · exact Or.inl (.single h)
      · exact Or.inr ⟨.refl, .refl⟩
    | tail _ h ih =>
      rcases h with h | ⟨rfl, rfl⟩
      · rcases ih with ih | ih
        · exact Or.inl (ih.tail h)
        · exact Or.inr ⟨ih.1, ih.2.tail h⟩
      · rcases ih with ih | ih
        · exact Or.inr ⟨ih.to_reflTransGen, .refl⟩
        · exact Or.inr ⟨ih.1, .refl⟩
  intro a ha
  rcases key a a ha with h1 | ⟨h1, h2⟩
  · exact hac a (TransGen.mono (fun _ _ h => h.1) _ _ h1)
  · have hxy : ReflTransGen E0 x y := h2.trans h1
    rcases ReflTransGen.cases_tail hxy with e | ⟨p, hp, hpy⟩
    · exact hac.irrefl x (e ▸ h.1)
    · have hpx : p ≠ x := fun e => hpy.2 ⟨e, rfl⟩
      exact hac x (TransGen.tail' (hsub hp) ((h.2 p hpx).1 hpy.1))

theorem flip'_adj (h : E x y) (a b : V) : Adj E a b ↔ Adj (flip' E x y) a b := by
  unfold Adj flip'
  constructor
  · rintro (h1 | h1)
    · by_cases e : a = x ∧ b = y
      · exact Or.inr (Or.inr ⟨e.2, e.1⟩)
      · exact Or.inl (Or.inl ⟨h1, e⟩)
    · by_cases e : b = x ∧ a = y
      · exact Or.inl (Or.inr ⟨e.2, e.1⟩)
      · exact Or.inr (Or.inl ⟨h1, e⟩)
  · rintro ((h1 | ⟨rfl, rfl⟩) | (h1 | ⟨rfl, rfl⟩))
    · exact Or.inl h1.1
    · exact Or.inr h
    · exact Or.inr h1.1
    · exact Or.inl h

theorem flip'_covered (hac : Acyclic E) (h : Covered E x y) : Covered (flip' E x y) y x := by
  have hne : x ≠ y := hac.ne_of_adj (Or.inl h.1)
  refine ⟨Or.inr ⟨rfl, rfl⟩, fun p hp => ?_⟩
  unfold flip'
  constructor
  · rintro (h1 | ⟨h1, -⟩)
    · have hpx : p ≠ x := fun e => hac.irrefl x (e ▸ h1.1)
      exact Or.inl ⟨(h.2 p hpx).2 h1.1, fun e => hpx e.1⟩
    · exact absurd h1 hp
  · rintro (h1 | ⟨-, h1⟩)
    · have hpx : p ≠ x := fun e => h1.2 ⟨e, rfl⟩
      exact Or.inl ⟨(h.2 p hpx).1 h1.1, fun e => hpx e.1⟩
    · exact absurd h1.symm hne

theorem flip'_flip' (hac : Acyclic E) (h : E x y) : flip' (flip' E x y) y x = E := by
  have hne : x ≠ y := hac.ne_of_adj (Or.inl h)
  funext a b
  unfold flip'
  apply propext
  constructor
  · rintro (⟨h1 | ⟨rfl, rfl⟩, h2⟩ | ⟨rfl, rfl⟩)
    · exact h1.1
    · exact absurd ⟨rfl, rfl⟩ h2
    · exact h
  · intro h1
    by_cases e : a = x ∧ b = y
    · exact Or.inr e
    · refine Or.inl ⟨Or.inl ⟨h1, e⟩, ?_⟩
      rintro ⟨rfl, rfl⟩
      exact hac.asymm h h1

theorem flip'_collider (hac : Acyclic E) (h : Covered E x y) {a b c : V} (hv : UnshieldedCollider E a b c) :
    UnshieldedCollider (flip' E x y) a b c := by
  refine ⟨hv.1, fun h' => hv.2.1 ((flip'_adj h.1 a c).2 h'), Or.inl ⟨hv.2.2.1, ?_⟩, Or.inl ⟨hv.2.2.2, ?_⟩⟩
  · rintro ⟨rfl, rfl⟩
    exact hv.2.1 (Or.inr ((h.2 c hv.1.symm).1 hv.2.2.2))
  · rintro ⟨rfl, rfl⟩
    exact hv.2.1 (Or.inl ((h.2 a hv.1).1 hv.2.2.1))

theorem flip'_equiv (hac : Acyclic E) (h : Covered E x y) : MarkovEquiv E (flip' E x y) := by
  refine ⟨flip'_adj h.1, fun a b c => ⟨flip'_collider hac h, fun hv => ?_⟩⟩
  have := flip'_collider (flip'_acyclic hac h) (flip'_covered hac h) hv
  rwa [flip'_flip' hac h.1] at this

/-- The ancestors after a covered reversal. -/
theorem flip'_anc (hac : Acyclic E) (h : Covered E x y) {T : Set V} {v : V} (hv : AncOf E T v) :
    AncOf (flip' E x y) T v ∨ (v = x ∧ AncOf (flip' E x y) T y) := by
  have hne : x ≠ y := hac.ne_of_adj (Or.inl h.1)
  obtain ⟨t, ht, hp⟩ := hv
  induction hp using ReflTransGen.head_induction_on with
  | refl => exact Or.inl ⟨t, ht, .refl⟩
  | @head v w hvw _ ih =>
    by_cases e : v = x ∧ w = y
    · obtain ⟨rfl, rfl⟩ := e
      refine Or.inr ⟨rfl, ?_⟩
      rcases ih with ih | ih
      · exact ih
      · exact absurd ih.1.symm hne
    · rcases ih with ih | ⟨rfl, ih⟩
      · exact Or.inl (ih.of_edge (Or.inl ⟨hvw, e⟩))
      · have hvx : v ≠ w := hac.ne_of_adj (Or.inl hvw)
        exact Or.inl (ih.of_edge (Or.inl ⟨(h.2 v hvx).2 hvw, fun e => hvx e.1⟩))

theorem flip'_dConn (hac : Acyclic E) (h : Covered E x y) {a b : V} (ha : a ∉ Z) (hb : b ∉ Z) (hc : DConn E Z a b) :
    DConn (flip' E x y) Z a b := by
  have hne : x ≠ y := hac.ne_of_adj (Or.inl h.1)
  rw [dConn_iff_moral hac ha hb] at hc
  rw [dConn_iff_moral (flip'_acyclic hac h) ha hb]
  set T : Set V := {a, b} ∪ Z with hT
  set F := flip' E x y with hF
  have anc := fun {v} => flip'_anc hac h (T := T) (v := v)
  have hax : AncOf F T a := ⟨a, Or.inl (Or.inl rfl), .refl⟩
  have hbx : AncOf F T b := ⟨b, Or.inl (Or.inr rfl), .refl⟩
  -- families
  have famx : ∀ {i}, (i = x ∨ E i x) ∨ (i = y ∨ E i y) → i = x ∨ F i x := by
    rintro i ((e | e) | (e | e))
    · exact Or.inl e
    · exact Or.inr (Or.inl ⟨e, fun q => hne q.2⟩)
    · exact Or.inr (Or.inr ⟨e, rfl⟩)
    · by_cases q : i = x
      · exact Or.inl q
      · exact Or.inr (Or.inl ⟨(h.2 i q).1 e, fun q' => q q'.1⟩)
  have famy : ∀ {i}, i ≠ x → (i = x ∨ E i x) ∨ (i = y ∨ E i y) → i = y ∨ F i y := by
    rintro i hi ((e | e) | (e | e))
    · exact absurd e hi
    · exact Or.inr (Or.inl ⟨(h.2 i hi).2 e, fun q => hi q.1⟩)
    · exact Or.inl e
    · exact Or.inr (Or.inl ⟨e, fun q => hi q.1⟩)
  have famk : ∀ {i k}, k ≠ x → k ≠ y → (i = k ∨ E i k) → i = k ∨ F i k := by
    rintro i k hx hy (e | e)
    · exact Or.inl e
    · exact Or.inr (Or.inl ⟨e, fun q => hy q.2⟩)
  have ancy : ∀ {k}, AncOf E T k → k = x ∨ k = y → ¬ AncOf F T x → AncOf F T y := by
    rintro k hk (rfl | rfl) hn
    · exact ((anc hk).resolve_left hn).2
    · exact (anc hk).resolve_right fun q => hne q.1.symm
  by_cases hxA : AncOf F T x
  · refine ReflTransGen.mono ?_ _ _ hc
    rintro i j ⟨k, hk, hi, hj, hiZ, hjZ⟩
    by_cases e : k = x ∨ k = y
    · refine ⟨x, hxA, famx ?_, famx ?_, hiZ, hjZ⟩
      · rcases e with rfl | rfl
        · exact Or.inl hi
        · exact Or.inr hi
      · rcases e with rfl | rfl
        · exact Or.inl hj
        · exact Or.inr hj
    · push Not at e
      exact ⟨k, (anc hk).resolve_right fun q => e.1 q.1, famk e.1 e.2 hi, famk e.1 e.2 hj, hiZ, hjZ⟩
  · -- `x` is not in the moral graph of the new DAG; walks avoid it
    have key : ∀ j, ReflTransGen (MStep E Z T) a j → (j ≠ x → ReflTransGen (MStep F Z T) a j) ∧
        (j = x → AncOf F T y ∧ ∃ i, (i = y ∨ F i y) ∧ i ∉ Z ∧ ReflTransGen (MStep F Z T) a i) := by
      intro j hj
      induction hj with
      | refl => exact ⟨fun _ => .refl, fun e => absurd (e ▸ hax) hxA⟩
      | @tail i j _ hs ih =>
        obtain ⟨k, hk, hi, hj, hiZ, hjZ⟩ := hs
        have hxk : (i = x ∨ j = x) → k = x ∨ k = y := by
          intro hor
          by_contra e
          push Not at e
          have hkA := (anc hk).resolve_right fun q => e.1 q.1
          rcases hor with rfl | rfl
          · rcases famk e.1 e.2 hi with q | q
            · exact e.1 q.symm
            · exact hxA (hkA.of_edge q)
          · rcases famk e.1 e.2 hj with q | q
            · exact e.1 q.symm
            · exact hxA (hkA.of_edge q)
        have hfam : ∀ {v}, (k = x ∨ k = y) → (v = k ∨ E v k) → (v = x ∨ E v x) ∨ (v = y ∨ E v y) := by
          rintro v (rfl | rfl) hv
          · exact Or.inl hv
          · exact Or.inr hv
        by_cases hix : i = x
        · obtain ⟨hyA, i', hi', hi'Z, hp⟩ := ih.2 hix
          refine ⟨fun hjx => hp.tail ⟨y, hyA, hi', famy hjx (hfam (hxk (Or.inl hix)) hj), hi'Z, hjZ⟩, fun _ => ⟨hyA, i', hi', hi'Z, hp⟩⟩
        · have hp := ih.1 hix
          refine ⟨fun hjx => ?_, fun hjx => ?_⟩
          · by_cases e : k = x ∨ k = y
            · exact hp.tail ⟨y, ancy hk e hxA, famy hix (hfam e hi), famy hjx (hfam e hj), hiZ, hjZ⟩
            · push Not at e
              exact hp.tail ⟨k, (anc hk).resolve_right fun q => e.1 q.1, famk e.1 e.2 hi, famk e.1 e.2 hj, hiZ, hjZ⟩
          · have e := hxk (Or.inr hjx)
            exact ⟨ancy hk e hxA, i, famy hix (hfam e hi), hiZ, hp⟩
    refine (key b hc).1 fun e => hxA (e ▸ hbx)

theorem flip'_dConn_iff (hac : Acyclic E) (h : Covered E x y) {a b : V} (ha : a ∉ Z) (hb : b ∉ Z) :
    DConn E Z a b ↔ DConn (flip' E x y) Z a b := by
  refine ⟨flip'_dConn hac h ha hb, fun hc => ?_⟩
  have := flip'_dConn (flip'_acyclic hac h) (flip'_covered hac h) ha hb hc
  rwa [flip'_flip' hac h.1] at this

/-! ## Chickering's theorem -/

/-- Between two different Markov equivalent DAGs there is a covered edge to reverse. -/
theorem exists_covered [Finite V] {F : V → V → Prop} (hE : Acyclic E) (hF : Acyclic F) (he : MarkovEquiv E F)
    {r : V → Nat} (hr : ∀ a b, E a b → r a < r b) (hd : ∃ a b, E a b ∧ F b a) : ∃ a b, Covered E a b ∧ F b a := by
  classical
  -- the first node with a differing edge into it
  obtain ⟨y, ⟨x0, hx0⟩, hmin⟩ : ∃ y, (∃ x, E x y ∧ F y x) ∧ ∀ z, (∃ x, E x z ∧ F z x) → r y ≤ r z := by
    have hne : ∃ m, ∃ y, (∃ x, E x y ∧ F y x) ∧ r y = m := by
      obtain ⟨a, b, h⟩ := hd
      exact ⟨r b, b, ⟨a, h⟩, rfl⟩
    obtain ⟨y, hy, hry⟩ := Nat.find_spec hne
    refine ⟨y, hy, fun z hz => ?_⟩
    rw [hry]
    exact Nat.find_min' hne ⟨z, hz, rfl⟩
  -- its last differing parent
  obtain ⟨x, hx, hmax⟩ : ∃ x, (E x y ∧ F y x) ∧ ∀ z, E z y ∧ F y z → r z ≤ r x := by
    have := Fintype.ofFinite V
    obtain ⟨x, hx, hm⟩ := Finset.exists_max_image (Finset.univ.filter fun x => E x y ∧ F y x) r ⟨x0, by simpa using hx0⟩
    exact ⟨x, by simpa using hx, fun z hz => hm z (by simpa using hz)⟩
  have adjF : ∀ {a b}, Adj E a b → Adj F a b := fun h => (he.1 _ _).1 h
  have hpar : ∀ {z}, E z x → F z x := by
    intro z hz
    rcases adjF (Or.inl hz) with h | h
    · exact h
    · have := hmin x ⟨z, hz, h⟩
      have := hr _ _ hx.1
      omega
  refine ⟨x, y, ⟨hx.1, fun z hzx => ⟨fun hzy => ?_, fun hz => ?_⟩⟩, hx.2⟩
  · -- another parent of `y`
    have hadj : Adj E x z := by
      by_contra hna
      have := (he.2 x y z).1 ⟨hzx.symm, hna, hx.1, hzy⟩
      exact hF.asymm this.2.2.1 hx.2
    rcases hadj with h | h
    · exfalso
      have hzD : ¬ F y z := fun q => by
        have := hmax z ⟨hzy, q⟩
        have := hr _ _ h
        omega
      have hzF : F z y := (adjF (Or.inl hzy)).resolve_right hzD
      have hzx' : F z x := by
        rcases adjF (Or.inl h) with q | q
        · exact absurd ((TransGen.single q).tail hzF |>.tail hx.2) (hF x)
        · exact q
      have := hmin z ⟨x, h, hzx'⟩
      have := hr _ _ hzy
      omega
    · exact h
  · -- a parent of `x`
    have hzy : z ≠ y := by
      rintro rfl
      exact hE.asymm hx.1 hz
    have hadj : Adj E z y := by
      by_contra hna
      have := (he.2 z x y).2 ⟨hzy, fun h => hna ((he.1 _ _).2 h), hpar hz, hx.2⟩
      exact hE.asymm hx.1 this.2.2.2
    rcases hadj with h | h
    · exact h
    · exact absurd ((TransGen.single h).tail hz |>.tail hx.1) (hE y)

/-- On finitely many nodes an acyclic graph has a topological rank. -/
theorem Acyclic.exists_rank [Finite V] (h : Acyclic E) : ∃ r : V → Nat, ∀ a b, E a b → r a < r b := by
  classical
  have := Fintype.ofFinite V
  refine ⟨fun a => (Finset.univ.filter fun u => TransGen E u a).card, fun a b hab => Finset.card_lt_card (Finset.ssubset_iff_subset_ne.2
    ⟨fun u hu => ?_, fun q => h a ?_⟩)⟩
  · simp only [Finset.mem_filter, Finset.mem_univ, true_and] at hu ⊢
    exact hu.tail hab
  · have : a ∈ Finset.univ.filter fun u => TransGen E u b := by simp only [Finset.mem_filter, Finset.mem_univ, true_and]; exact .single hab
    rw [← q] at this
    simpa using this

theorem MarkovEquiv.dConn [Finite V] {F : V → V → Prop} (hE : Acyclic E) (hF : Acyclic F) (he : MarkovEquiv E F) {a b : V}
    (ha : a ∉ Z) (hb : b ∉ Z) : DConn E Z a b ↔ DConn F Z a b := by
  classical
  have := Fintype.ofFinite V
  induction hm : (Finset.univ.filter fun p : V × V => E p.1 p.2 ∧ F p.2 p.1).card using Nat.strong_induction_on generalizing E with
  | _ m ih =>
    by_cases hd : ∃ a b, E a b ∧ F b a
    · obtain ⟨r, hr⟩ := hE.exists_rank
      obtain ⟨x, y, hcov, hyx⟩ := exists_covered hE hF he hr hd
      rw [flip'_dConn_iff hE hcov ha hb]
      have heq := flip'_equiv hE hcov
      refine ih _ ?_ (flip'_acyclic hE hcov) ⟨fun a b => (heq.1 a b).symm.trans (he.1 a b), fun a b c => (heq.2 a b c).symm.trans (he.2 a b c)⟩ rfl
      rw [← hm]
      apply Finset.card_lt_card
      rw [Finset.ssubset_iff_subset_ne]
      constructor
      · rintro ⟨p, q⟩ hp
        simp only [Finset.mem_filter, Finset.mem_univ, true_and] at hp ⊢
        rcases hp.1 with h | ⟨rfl, rfl⟩
        · exact ⟨h.1, hp.2⟩
        · exact absurd hp.2 (hF.asymm hyx)
      · intro q
        have : (x, y) ∈ Finset.univ.filter fun p : V × V => E p.1 p.2 ∧ F p.2 p.1 := by
          simp only [Finset.mem_filter, Finset.mem_univ, true_and]
          exact ⟨hcov.1, hyx⟩
        rw [← q] at this
        simp only [Finset.mem_filter, Finset.mem_univ, true_and] at this
        rcases this.1 with h | ⟨h, -⟩
        · exact h.2 ⟨rfl, rfl⟩
        · exact hE.irrefl x (h ▸ hcov.1)
    · push Not at hd
      have : E = F := by
        funext a b
        apply propext
        constructor
        · intro h
          exact ((he.1 a b).1 (Or.inl h)).resolve_right (hd a b h)
        · intro h
          exact ((he.1 a b).2 (Or.inl h)).resolve_right fun h' => hd b a h' h
      rw [this]

theorem adj_iff_not_separable (hE : Acyclic E) {a b : V} (hab : a ≠ b) :
    Adj E a b ↔ ∀ Z : Set V, a ∉ Z → b ∉ Z → ¬ DSep E Z a b := by
  refine ⟨fun h Z _ _ hs => hs (dConn_of_adj hab h), fun h => ?_⟩
  by_contra hna
  obtain ⟨Z, h1, h2, h3⟩ : ∃ Z : Set V, a ∉ Z ∧ b ∉ Z ∧ DSep E Z a b := by
    by_cases hd : TransGen E a b
    · have hd' : ¬ TransGen E b a := fun h' => hE a (hd.trans h')
      refine ⟨{p | E p b}, fun h => hna (Or.inl h), fun h => hE.irrefl b h, dSep_symm.1 (local_markov hE hab.symm (fun h => hna h.symm) hd')⟩
    · exact ⟨{p | E p a}, fun h => hE.irrefl a h, fun h => hna (Or.inr h), local_markov hE hab hna hd⟩
  exact h Z h1 h2 h3

theorem SameDSep.markov {F : V → V → Prop} (hE : Acyclic E) (hF : Acyclic F) (h : SameDSep E F) : MarkovEquiv E F := by
  have hadj : ∀ a b, Adj E a b ↔ Adj F a b := by
    intro a b
    by_cases hab : a = b
    · subst hab
      exact ⟨fun h => absurd rfl (hE.ne_of_adj h), fun h => absurd rfl (hF.ne_of_adj h)⟩
    · rw [adj_iff_not_separable hE hab, adj_iff_not_separable hF hab]
      exact forall_congr' fun Z => forall_congr' fun ha => forall_congr' fun hb => not_congr (h Z a b hab ha hb)
  have dir : ∀ {E F : V → V → Prop}, Acyclic E → Acyclic F → SameDSep E F → (∀ a b, Adj E a b ↔ Adj F a b) → ∀ {a b c},
      UnshieldedCollider E a b c → UnshieldedCollider F a b c := by
    intro E F hE hF h hadj a b c hv
    have hab : a ≠ b := hE.ne_of_adj (Or.inl hv.2.2.1)
    have hcb : c ≠ b := hE.ne_of_adj (Or.inl hv.2.2.2)
    have hn : ¬ ∀ Z : Set V, a ∉ Z → c ∉ Z → ¬ DSep E Z a c := fun q => hv.2.1 ((adj_iff_not_separable hE hv.1).2 q)
    push Not at hn
    obtain ⟨Z, h1, h2, h3⟩ := hn
    have hbZ : b ∉ Z := collider_not_mem hab hcb.symm hv.1 hv.2.2 h3
    refine ⟨hv.1, fun q => hv.2.1 ((hadj _ _).2 q), ?_⟩
    by_contra hnc
    exact hbZ (noncollider_mem hab hcb.symm hv.1 ((hadj _ _).1 (Or.inl hv.2.2.1)) ((hadj _ _).1 (Or.inr hv.2.2.2)) hnc ((h Z a c hv.1 h1 h2).1 h3))
  exact ⟨hadj, fun a b c => ⟨dir hE hF h hadj, dir hF hE (fun Z a b h1 h2 h3 => (h Z a b h1 h2 h3).symm) fun a b => (hadj a b).symm⟩⟩

/-- **Verma and Pearl.** Two DAGs have the same skeleton and v-structures exactly when they have the same d-separations. -/
theorem markovEquiv_iff_sameDSep [Finite V] {F : V → V → Prop} (hE : Acyclic E) (hF : Acyclic F) : MarkovEquiv E F ↔ SameDSep E F :=
  ⟨fun h _ _ _ _ ha hb => not_congr (h.dConn hE hF ha hb), SameDSep.markov hE hF⟩

end Spec
