import Verif.Proofs.VermaPearl
import Mathlib.Data.Nat.Find

/-!
# Independence maps: the local criterion and the theorem of Meek and Chickering
-/
namespace Spec
open Relation
variable {V : Type} {E : V → V → Prop} {Z : Set V}

/-! ## Graphoid properties of d-separation -/

/-- `moral_closed` for a set of nodes separated from `x`. -/
theorem moral_closed_set (hac : Acyclic E) {x : V} {Ys : Set V} (hsep : ∀ y ∈ Ys, DSep E Z x y) {k i j : V} (hk : AncOf E ({x} ∪ Ys ∪ Z) k)
    (hi : i = k ∨ E i k) (hj : j = k ∨ E j k) (hiZ : i ∉ Z) (hjZ : j ∉ Z) (hc : DConn E Z i x) : DConn E Z j x := by
  obtain ⟨t, ht, hp⟩ := hk
  by_cases hY : ∃ y ∈ Ys, True
  · obtain ⟨y0, hy0, -⟩ := hY
    rcases ht with (rfl | ht) | ht
    · exact moral_closed hac (hsep y0 hy0) ⟨t, Or.inl (Or.inl rfl), hp⟩ hi hj hiZ hjZ hc
    · exact moral_closed hac (hsep t ht) ⟨t, Or.inl (Or.inr rfl), hp⟩ hi hj hiZ hjZ hc
    · exact moral_closed hac (hsep y0 hy0) ⟨t, Or.inr ht, hp⟩ hi hj hiZ hjZ hc
  · -- no node to separate: `j` is d-connected to `x`, or `j` is separated and can play that role
    by_contra hjx
    have hs : DSep E Z x j := fun h => hjx h.symm
    rcases ht with (rfl | ht) | ht
    · exact hjx (moral_closed hac hs ⟨t, Or.inl (Or.inl rfl), hp⟩ hi hj hiZ hjZ hc)
    · exact hY ⟨t, ht, trivial⟩
    · exact hjx (moral_closed hac hs ⟨t, Or.inr ht, hp⟩ hi hj hiZ hjZ hc)

theorem moral_sep (hac : Acyclic E) {x : V} {Ys : Set V} (hsep : ∀ y ∈ Ys, DSep E Z x y) {j : V}
    (h : ReflTransGen (MStep E Z ({x} ∪ Ys ∪ Z)) x j) : j ∉ Ys := by
  have : DConn E Z j x := by
    induction h with
    | refl => exact ⟨[x], by simp, rfl, rfl, ActiveSeq.single x⟩
    | tail _ h ih =>
      obtain ⟨k, h1, h2, h3, h4, h5⟩ := h
      exact moral_closed_set hac hsep h1 h2 h3 h4 h5 ih
  exact fun hj => hsep j hj this.symm

/-- Comparing moral graphs: if the moral graph of `E'` for the query lies in the moral graph of `E` for a larger query, the separation carries
over. -/
theorem dSep_of_msteps {E' : V → V → Prop} (hac : Acyclic E) (hac' : Acyclic E') {i j : V} {Ys : Set V} (hsep : ∀ y ∈ Ys, DSep E Z i y) (hj : j ∈ Ys)
    {Z' : Set V} (hi : i ∉ Z') (hjZ : j ∉ Z')
    (hstep : ∀ u v, MStep E' Z' ({i, j} ∪ Z') u v → ReflTransGen (MStep E Z ({i} ∪ Ys ∪ Z)) u v) : DSep E' Z' i j := by
  intro hc
  rw [dConn_iff_moral hac' hi hjZ] at hc
  refine moral_sep hac hsep (j := j) ?_ hj
  have : ∀ v, ReflTransGen (MStep E' Z' ({i, j} ∪ Z')) i v → ReflTransGen (MStep E Z ({i} ∪ Ys ∪ Z)) i v := by
    intro v hv
    induction hv with
    | refl => exact .refl
    | tail _ h ih => exact ih.trans (hstep _ _ h)
  exact this j hc

theorem MStep.mono {Z Z' T T' : Set V} (hZ : Z ⊆ Z') (hT : T' ⊆ T) {u v : V} (h : MStep E Z' T' u v) : MStep E Z T u v := by
  obtain ⟨k, h1, h2, h3, h4, h5⟩ := h
  exact ⟨k, h1.mono hT, h2, h3, fun h => h4 (hZ h), fun h => h5 (hZ h)⟩

/-- Weak union and composition. -/
theorem dSep_union (hac : Acyclic E) {a b : V} {C : Set V} (hb : DSep E Z a b) (hC : ∀ c ∈ C, DSep E Z a c) (haZ : a ∉ Z ∪ C) (hbZ : b ∉ Z ∪ C) :
    DSep E (Z ∪ C) a b := by
  refine dSep_of_msteps (Ys := insert b C) hac hac ?_ (Or.inl rfl) haZ hbZ fun u v h => .single (h.mono Set.subset_union_left ?_)
  · rintro y (rfl | hy)
    · exact hb
    · exact hC y hy
  · rintro t ((rfl | rfl) | (ht | ht))
    · exact Or.inl (Or.inl rfl)
    · exact Or.inl (Or.inr (Or.inl rfl))
    · exact Or.inr ht
    · exact Or.inl (Or.inr (Or.inr ht))

/-- Contraction. -/
theorem dSep_contract {b y : V} {P : Set V} (h : DSep E (Z ∪ P) b y) (hp : ∀ p ∈ P, DSep E Z b p) : DSep E Z b y := by
  rintro ⟨l, hn, hh, hl, ha⟩
  by_cases hP : ∃ p ∈ l, p ∈ P
  · obtain ⟨p, hpl, hpP⟩ := hP
    obtain ⟨l1, l2, rfl⟩ := List.append_of_mem hpl
    refine hp p hpP ⟨l1 ++ [p], ?_, ?_, by simp, ha.infix ⟨[], l2, by simp⟩⟩
    · rw [show l1 ++ p :: l2 = (l1 ++ [p]) ++ l2 by simp] at hn
      exact (List.nodup_append.1 hn).1
    · rw [← hh]
      cases l1 <;> simp
  · push Not at hP
    refine h ⟨l, hn, hh, hl, ha.edge, fun a b c habc => ⟨fun hcol => ((ha.opened a b c habc).1 hcol).mono Set.subset_union_left, fun hnc => ?_⟩⟩
    rintro (hb | hb)
    · exact (ha.opened a b c habc).2 hnc hb
    · exact hP b (habc.subset (by simp)) hb

/-! ## The local criterion -/

theorem rank_le {H : V → V → Prop} {ρ : V → Nat} (hH : ∀ a b, H a b → ρ a < ρ b) {a b : V} (h : ReflTransGen H a b) : ρ a ≤ ρ b := by
  induction h with
  | refl => exact le_rfl
  | tail _ h ih => exact ih.trans (hH _ _ h).le

theorem rank_lt {H : V → V → Prop} {ρ : V → Nat} (hH : ∀ a b, H a b → ρ a < ρ b) {a b : V} (h : TransGen H a b) : ρ a < ρ b := by
  induction h with
  | single h => exact hH _ _ h
  | tail _ h ih => exact ih.trans (hH _ _ h)

theorem acyclic_of_rank {H : V → V → Prop} {ρ : V → Nat} (hH : ∀ a b, H a b → ρ a < ρ b) : Acyclic H :=
  fun x h => lt_irrefl _ (rank_lt hH h)

/-- The part of a walk before its target. -/
theorem last_step {R : V → V → Prop} {a y : V} (h : ReflTransGen R a y) (hne : a ≠ y) :
    ∃ m, ReflTransGen (fun u v => R u v ∧ u ≠ y ∧ v ≠ y) a m ∧ m ≠ y ∧ R m y := by
  induction h using ReflTransGen.head_induction_on with
  | refl => exact absurd rfl hne
  | @head a c hac _ ih =>
    by_cases hc : c = y
    · subst hc
      exact ⟨a, .refl, hne, hac⟩
    · obtain ⟨m, h1, h2, h3⟩ := ih hc
      exact ⟨m, .head ⟨hac, hne, hc⟩ h1, h2, h3⟩

theorem mpath_symm {T : Set V} {a b : V} (h : ReflTransGen (MStep E Z T) a b) : ReflTransGen (MStep E Z T) b a := by
  induction h with
  | refl => exact .refl
  | tail _ h ih => exact .head h.symm ih

/-- **The local criterion.** If every node is d-separated in `G` by its `H`-parents from the nodes before it in an order of `H`, then `H` is an
independence map of `G`. -/
theorem imap_of_local {G H : V → V → Prop} (hG : Acyclic G) {ρ : V → Nat} (hinj : ∀ a b, ρ a = ρ b → a = b) (hH : ∀ a b, H a b → ρ a < ρ b)
    {N : Nat} (hN : ∀ v, ρ v < N) (hloc : ∀ i j, ρ j < ρ i → ¬ H j i → DSep G {p | H p i} i j) : IMap G H := by
  have hHac := acyclic_of_rank hH
  have anc_rank : ∀ {T : Set V} {v : V} {k : Nat}, (∀ t ∈ T, ρ t ≤ k) → AncOf H T v → ρ v ≤ k := by
    rintro T v k hT ⟨t, ht, hp⟩
    exact (rank_le hH hp).trans (hT t ht)
  have key : ∀ k (Z : Set V) (a b : V), (∀ z ∈ Z, ρ z < k) → ρ a < k → ρ b < k → a ≠ b → a ∉ Z → b ∉ Z → DSep H Z a b → DSep G Z a b := by
    intro k
    induction k with
    | zero => intro Z a b _ h; exact absurd h (Nat.not_lt_zero _)
    | succ k ih =>
      -- the node of rank `k` is an end
      have end_case : ∀ (Z : Set V) (y b : V), ρ y = k → (∀ z ∈ Z, ρ z < k) → ρ b < k → y ∉ Z → b ∉ Z → DSep H Z y b → DSep G Z y b := by
        intro Z y b hy hZ hb hyZ hbZ hs
        have hyb : y ≠ b := fun e => by rw [e] at hy; omega
        have hnb : ¬ H b y := fun h => hs (dConn_of_adj hyb (Or.inr h))
        let P : Set V := {p | H p y ∧ p ∉ Z}
        rw [dSep_symm]
        refine dSep_contract (P := P) ?_ ?_
        · rw [dSep_symm]
          have hu : Z ∪ P = {p | H p y} ∪ {z | z ∈ Z ∧ ¬ H z y} := by
            ext v
            by_cases h1 : v ∈ Z <;> by_cases h2 : H v y <;> simp [P, h1, h2]
          rw [hu]
          refine dSep_union hG (hloc y b (by omega) hnb) (fun z hz => hloc y z (by have := hZ z hz.1; omega) hz.2) ?_ ?_
          · rw [← hu]
            rintro (h | h)
            · exact hyZ h
            · exact hHac.irrefl y h.1
          · rw [← hu]
            rintro (h | h)
            · exact hbZ h
            · exact hnb h.1
        · rintro p ⟨hp, hpZ⟩
          have hpb : p ≠ b := fun e => hnb (e ▸ hp)
          have hpk : ρ p < k := hy ▸ hH _ _ hp
          rw [dSep_symm]
          refine ih Z p b hZ hpk hb hpb hpZ hbZ fun hc => ?_
          obtain ⟨l, hl⟩ := exists_aWalk hc
          exact hs ((hl.cons_tail hHac hp hpZ).dConn hHac)
      intro Z a b hZ ha hb hab haZ hbZ hs
      by_cases hak : ρ a = k
      · have hne : ∀ v, v ≠ a → ρ v < k + 1 → ρ v < k := fun v h1 h2 => by
          have : ρ v ≠ k := fun e => h1 (hinj _ _ (e.trans hak.symm))
          omega
        exact end_case Z a b hak (fun z hz => hne z (fun e => haZ (e ▸ hz)) (hZ z hz)) (hne b hab.symm hb) haZ hbZ hs
      by_cases hbk : ρ b = k
      · have hne : ∀ v, v ≠ b → ρ v < k + 1 → ρ v < k := fun v h1 h2 => by
          have : ρ v ≠ k := fun e => h1 (hinj _ _ (e.trans hbk.symm))
          omega
        rw [dSep_symm] at hs ⊢
        exact end_case Z b a hbk (fun z hz => hne z (fun e => hbZ (e ▸ hz)) (hZ z hz)) (hne a hab ha) hbZ haZ hs
      by_cases hy : ∃ y ∈ Z, ρ y = k
      · obtain ⟨y, hyZ, hyk⟩ := hy
        have hya : y ≠ a := fun e => haZ (e ▸ hyZ)
        have hyb : y ≠ b := fun e => hbZ (e ▸ hyZ)
        let Z0 : Set V := {z | z ∈ Z ∧ z ≠ y}
        have hZe : Z = Z0 ∪ {y} := by
          ext v
          by_cases e : v = y
          · subst e; simp [hyZ]
          · simp [Z0, e]
        have hZ0 : ∀ z ∈ Z0, ρ z < k := fun z hz => by
          have : ρ z ≠ k := fun e => hz.2 (hinj _ _ (e.trans hyk.symm))
          have := hZ z hz.1
          omega
        have haZ0 : a ∉ Z0 := fun h => haZ h.1
        have hbZ0 : b ∉ Z0 := fun h => hbZ h.1
        have hyZ0 : y ∉ Z0 := fun h => h.2 rfl
        have ha' : ρ a < k := by omega
        have hb' : ρ b < k := by omega
        -- dropping `y` from the conditioning set
        have h1 : DSep H Z0 a b := by
          rintro ⟨l, hn, hh, hl, hact⟩
          have hyl : y ∉ l := fun h => by
            have h1 := active_anc hh hl hact y h
            obtain ⟨t, ht, hp⟩ := h1
            have := rank_le hH hp
            rcases ht with (rfl | rfl) | ht
            · omega
            · omega
            · have := hZ0 t ht
              omega
          refine hs ⟨l, hn, hh, hl, hact.edge, fun u v w huvw => ⟨fun hcol => ((hact.opened u v w huvw).1 hcol).mono (fun z hz => hz.1), fun hnc => ?_⟩⟩
          intro hvZ
          exact (hact.opened u v w huvw).2 hnc ⟨hvZ, fun e => hyl (e ▸ huvw.subset (by simp))⟩
        -- one of the ends is separated from `y`
        have hmid : ∀ c, c ≠ y → ρ c < k → c ∉ Z0 → DConn H Z0 c y → ∃ m, H m y ∧ m ∉ Z ∧
            ReflTransGen (MStep H Z ({c, y} ∪ Z0)) c m := by
          intro c hcy hck hcZ hc
          rw [dConn_iff_moral hHac hcZ hyZ0] at hc
          obtain ⟨m, h2, h3, h4⟩ := last_step hc hcy
          obtain ⟨q, hq, hm, hyq, hmZ, -⟩ := h4
          have hqk : ρ q ≤ k := anc_rank (by
            rintro t ((rfl | rfl) | ht)
            · exact hck.le
            · exact hyk.le
            · exact (hZ0 t ht).le) hq
          have hqy : q = y := by
            rcases hyq with e | e
            · exact e.symm
            · have := hH _ _ e
              omega
          subst hqy
          refine ⟨m, hm.resolve_left h3, ?_, ?_⟩
          · rw [hZe]
            rintro (h | h)
            · exact hmZ h
            · exact h3 h
          · refine ReflTransGen.mono ?_ _ _ h2
            rintro u v ⟨⟨r, h5, h6, h7, h8, h9⟩, hu, hv⟩
            refine ⟨r, h5, h6, h7, ?_, ?_⟩
            · rw [hZe]
              rintro (h | h)
              · exact h8 h
              · exact hu h
            · rw [hZe]
              rintro (h | h)
              · exact h9 h
              · exact hv h
        have h2 : DSep H Z0 a y ∨ DSep H Z0 b y := by
          by_contra hcon
          push Not at hcon
          obtain ⟨hA, hB⟩ := hcon
          obtain ⟨m, hm, hmZ, hpm⟩ := hmid a hya.symm ha' haZ0 (not_not.1 hA)
          obtain ⟨m', hm', hmZ', hpm'⟩ := hmid b hyb.symm hb' hbZ0 (not_not.1 hB)
          refine hs ((dConn_iff_moral hHac haZ hbZ).2 ?_)
          have sub : ∀ {c : V}, c = a ∨ c = b → ∀ {u v}, MStep H Z ({c, y} ∪ Z0) u v → MStep H Z ({a, b} ∪ Z) u v := by
            intro c hc u v h
            refine h.mono subset_rfl ?_
            rintro t ((rfl | rfl) | ht)
            · rcases hc with rfl | rfl
              · exact Or.inl (Or.inl rfl)
              · exact Or.inl (Or.inr rfl)
            · exact Or.inr hyZ
            · exact Or.inr ht.1
          have p1 : ReflTransGen (MStep H Z ({a, b} ∪ Z)) a m := ReflTransGen.mono (fun _ _ h => sub (Or.inl rfl) h) _ _ hpm
          have p2 : ReflTransGen (MStep H Z ({a, b} ∪ Z)) b m' := ReflTransGen.mono (fun _ _ h => sub (Or.inr rfl) h) _ _ hpm'
          have p3 : MStep H Z ({a, b} ∪ Z) m m' := ⟨y, ⟨y, Or.inr hyZ, .refl⟩, Or.inr hm, Or.inr hm', hmZ, hmZ'⟩
          exact (p1.tail p3).trans (mpath_symm p2)
        have g1 : DSep G Z0 a b := ih Z0 a b hZ0 ha' hb' hab haZ0 hbZ0 h1
        rw [hZe]
        rcases h2 with h2 | h2
        · have g2 : DSep G Z0 a y := dSep_symm.1 (end_case Z0 y a hyk hZ0 ha' hyZ0 haZ0 (dSep_symm.1 h2))
          exact dSep_union hG g1 (by rintro c rfl; exact g2) (hZe ▸ haZ) (hZe ▸ hbZ)
        · have g2 : DSep G Z0 b y := dSep_symm.1 (end_case Z0 y b hyk hZ0 hb' hyZ0 hbZ0 (dSep_symm.1 h2))
          rw [dSep_symm]
          exact dSep_union hG (dSep_symm.1 g1) (by rintro c rfl; exact g2) (hZe ▸ hbZ) (hZe ▸ haZ)
      · push Not at hy
        exact ih Z a b (fun z hz => by have := hZ z hz; have := hy z hz; omega) (by omega) (by omega) hab haZ hbZ hs
  exact fun Z a b hab ha hb hs => key N Z a b (fun z _ => hN z) (hN a) (hN b) hab ha hb hs

/-- The converse: an independence map satisfies the local criterion. -/
theorem IMap.local {G H : V → V → Prop} (h : IMap G H) {ρ : V → Nat} (hH : ∀ a b, H a b → ρ a < ρ b) {i j : V} (hij : ρ j < ρ i) (hn : ¬ H j i) :
    DSep G {p | H p i} i j := by
  have hac := acyclic_of_rank hH
  have hne : i ≠ j := by rintro rfl; omega
  refine h _ i j hne (fun h => hac.irrefl i h) hn (local_markov hac hne ?_ ?_)
  · rintro (h | h)
    · have := hH _ _ h; omega
    · exact hn h
  · intro h
    have := rank_lt hH h
    omega

theorem IMap.adj {G H : V → V → Prop} (hH : Acyclic H) (hG : Acyclic G) (h : IMap G H) {a b : V} (hab : Adj G a b) : Adj H a b := by
  have hne := hG.ne_of_adj hab
  rw [adj_iff_not_separable hH hne]
  intro Z ha hb hs
  exact (adj_iff_not_separable hG hne).1 hab Z ha hb (h Z a b hne ha hb hs)

theorem IMap.refl (G : V → V → Prop) : IMap G G := fun _ _ _ _ _ _ h => h

theorem IMap.trans {G H K : V → V → Prop} (h : IMap G H) (h' : IMap H K) : IMap G K :=
  fun Z a b hab ha hb hs => h Z a b hab ha hb (h' Z a b hab ha hb hs)

end Spec
