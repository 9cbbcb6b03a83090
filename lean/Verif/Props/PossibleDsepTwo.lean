import Verif.Props.PossibleDsep

/-!
# C55: the nodes two steps away that `getPossibleDsep` keeps
-/
namespace CL
open GG Relation
variable {n : Nat}
namespace Fci

/-- `r` was recorded as a predecessor of `c`. -/
def PdSt.Has (st : PdSt n) (c r : Fin n) : Prop := r ∈ (st.prev c).getD []

theorem has_addPrev {prev : Fin n → Option (List (Fin n))} {v b c r : Fin n} :
    r ∈ ((addPrev prev v b) c).getD [] ↔ r ∈ (prev c).getD [] ∨ (c = v ∧ r = b) := by
  unfold addPrev
  by_cases h : c = v
  · subst h; simp [or_comm]
  · simp [h]

theorem onePath_of {G : GG n} {prev : Fin n → Option (List (Fin n))} {x b r : Fin n} (hr : r ∈ (prev b).getD []) (h1 : r ≠ b) (h2 : r ≠ x)
    (h3 : existsSemi G r x = true ∨ existsSemi G r b = true) : onePath G prev b x b = true := by
  unfold onePath
  split
  · simp
  · cases hp : prev b with
    | none => rw [hp] at hr; simp at hr
    | some p =>
      rw [hp] at hr
      simp only [Option.getD_some] at hr
      simp only [Option.elim_some, List.any_eq_true, decide_eq_true_eq]
      exact ⟨r, hr, h1, h2, h3⟩

theorem of_onePath {G : GG n} {prev : Fin n → Option (List (Fin n))} {x b : Fin n} (hbx : b ≠ x) (h : onePath G prev b x b = true) :
    ∃ r, r ∈ (prev b).getD [] ∧ r ≠ b ∧ r ≠ x ∧ (existsSemi G r x = true ∨ existsSemi G r b = true) := by
  unfold onePath at h
  rw [if_neg hbx] at h
  cases hp : prev b with
  | none => rw [hp] at h; simp at h
  | some p =>
    rw [hp] at h
    simp only [Option.elim_some, List.any_eq_true, decide_eq_true_eq] at h
    simpa using h

/-- The queue holds the neighbours `L` still to be expanded, then the nodes `S` found so far. -/
structure Lvl1 (G : GG n) (x y : Fin n) (N L S : List (Fin n)) (st : PdSt n) : Prop where
  q : st.Q = L.map (Prod.mk x) ++ S.map (Prod.mk x)
  vis : ∀ v, (x, v) ∈ st.V ↔ v ∈ N ∨ v ∈ S
  new : ∀ v ∈ S, v ∉ N ∧ v ≠ x ∧ v ≠ y

theorem pdStep_lvl1 {G : GG n} {x y : Fin n} {N L : List (Fin n)} (hN : ∀ v, v ∈ N ↔ G.isAdj x v = true ∧ v ≠ y) (b : Fin n) :
    ∀ (cs S : List (Fin n)) (st : PdSt n), Lvl1 G x y N L S st → st.e = S.head?.map (Prod.mk x) →
    ∃ S', Lvl1 G x y N L S' (cs.foldl (pdStep G x y x b) st) ∧ (∀ v ∈ S, v ∈ S') ∧
      (cs.foldl (pdStep G x y x b) st).e = S'.head?.map (Prod.mk x) ∧ (cs.foldl (pdStep G x y x b) st).dist = st.dist ∧
      (∀ c r, PdSt.Has st c r → PdSt.Has (cs.foldl (pdStep G x y x b) st) c r) ∧
      (∀ c ∈ cs, c ≠ x → c ≠ y → PdSt.Has (cs.foldl (pdStep G x y x b) st) c b ∧ (G.isDefCollider x b c = true → c ∈ N ∨ c ∈ S')) ∧
      (∀ v ∈ st.dsep, v ∈ (cs.foldl (pdStep G x y x b) st).dsep) := by
  intro cs
  induction cs with
  | nil => intro S st h1 h2; exact ⟨S, h1, fun _ h => h, h2, by simp, fun _ _ h => h, by simp, fun _ h => h⟩
  | cons c cs ih =>
    intro S st h1 h2
    rw [List.foldl_cons]
    by_cases hc : c = x ∨ c = y
    · rw [show pdStep G x y x b st c = st by unfold pdStep; rw [if_pos (by tauto)]]
      obtain ⟨S', i1, i2, i3, i4, i5, i6, i7⟩ := ih S st h1 h2
      refine ⟨S', i1, i2, i3, i4, i5, fun c' hc' q1 q2 => ?_, i7⟩
      rcases List.mem_cons.1 hc' with rfl | hc'
      · tauto
      · exact i6 c' hc' q1 q2
    · push Not at hc
      have key : ∃ S1, Lvl1 G x y N L S1 (pdStep G x y x b st c) ∧ (∀ v ∈ S, v ∈ S1) ∧
          (pdStep G x y x b st c).e = S1.head?.map (Prod.mk x) ∧ (pdStep G x y x b st c).dist = st.dist ∧
          (pdStep G x y x b st c).prev = addPrev st.prev c b ∧ (G.isDefCollider x b c = true → c ∈ N ∨ c ∈ S1) ∧
          (pdStep G x y x b st c).dsep = st.dsep := by
        unfold pdStep
        rw [if_neg (by tauto)]
        dsimp only
        split
        · split
          · rename_i hm hv
            exact ⟨S, ⟨h1.q, h1.vis, h1.new⟩, fun _ h => h, h2, by simp, by simp, fun _ => (h1.vis c).1 hv, by simp⟩
          · rename_i hm hv
            have hnot : ¬ (c ∈ N ∨ c ∈ S) := fun h => hv ((h1.vis c).2 h)
            refine ⟨S ++ [c], ⟨by simp [h1.q], fun v => ?_, fun v hv' => ?_⟩, fun v hv' => by simp [hv'], ?_, by simp, by simp,
              fun _ => Or.inr (by simp), by simp⟩
            · simp only [List.mem_cons, Prod.mk.injEq, true_and, h1.vis, List.mem_append, List.mem_singleton]
              simp only [List.not_mem_nil, or_false]; tauto
            · rcases List.mem_append.1 hv' with hv' | hv'
              · exact h1.new v hv'
              · obtain rfl := List.mem_singleton.1 hv'; tauto
            · rw [h2]; cases S <;> simp
        · rename_i hm
          simp only [Bool.or_eq_true, not_or] at hm
          exact ⟨S, ⟨h1.q, h1.vis, h1.new⟩, fun _ h => h, h2, by simp, by simp, fun h => absurd h hm.1, by simp⟩
      obtain ⟨S1, j1, j2, j3, j4, j5, j6, j7⟩ := key
      obtain ⟨S', i1, i2, i3, i4, i5, i6, i7⟩ := ih S1 _ j1 j3
      refine ⟨S', i1, fun v hv => i2 v (j2 v hv), i3, i4.trans j4, fun c' r hr => i5 c' r ?_, fun c' hc' q1 q2 => ?_, fun v hv => i7 v (by rw [j7]; exact hv)⟩
      · unfold PdSt.Has; rw [j5, has_addPrev]; exact Or.inl hr
      · rcases List.mem_cons.1 hc' with rfl | hc'
        · refine ⟨i5 c' b ?_, fun hcol => (j6 hcol).imp id (i2 c')⟩
          unfold PdSt.Has; rw [j5, has_addPrev]; exact Or.inr ⟨Eq.refl _, Eq.refl _⟩
        · exact i6 c' hc' q1 q2

theorem pdLoop_lvl1 {G : GG n} {x y : Fin n} {N : List (Fin n)} (hN : ∀ v, v ∈ N ↔ G.isAdj x v = true ∧ v ≠ y) {maxPath : Int}
    (hmax : maxPath = -1 ∨ 2 ≤ maxPath) : ∀ (L S : List (Fin n)) (st : PdSt n), (∀ v ∈ L, v ∈ N) → L.Nodup → Lvl1 G x y N L S st →
    ((st.dist = 0 ∧ S = [] ∧ st.e = L.head?.map (Prod.mk x)) ∨ (st.dist = 1 ∧ st.e = S.head?.map (Prod.mk x))) →
    ∃ S' st', (∀ f, pdLoop G x y maxPath (L.length + f) st = pdLoop G x y maxPath f st') ∧ Lvl1 G x y N [] S' st' ∧ (∀ v ∈ S, v ∈ S') ∧
      st'.dist ≤ 1 ∧ st'.e = S'.head?.map (Prod.mk x) ∧ (∀ c r, PdSt.Has st c r → PdSt.Has st' c r) ∧
      (∀ b ∈ L, ∀ c ∈ G.adjacentNodes b, c ≠ x → c ≠ y → PdSt.Has st' c b ∧ (G.isDefCollider x b c = true → c ∈ N ∨ c ∈ S')) := by
  intro L
  induction L with
  | nil =>
    intro S st _ _ h1 h2
    refine ⟨S, st, by simp, h1, fun _ h => h, ?_, ?_, fun _ _ h => h, by simp⟩
    · rcases h2 with h2 | h2 <;> omega
    · rcases h2 with ⟨-, rfl, e⟩ | ⟨-, e⟩
      · simpa using e
      · exact e
  | cons b L ih =>
    intro S st hL hnd h1 h2
    rw [List.nodup_cons] at hnd
    have hQ : st.Q = (x, b) :: (L.map (Prod.mk x) ++ S.map (Prod.mk x)) := by simp [h1.q]
    have hbN := hL b (List.mem_cons_self ..)
    obtain ⟨v1, v2, v3, v4⟩ := tick_spec st (x, b) (L.map (Prod.mk x) ++ S.map (Prod.mk x))
    obtain ⟨w1, w2, w3, w4⟩ := member_spec (st.tick (x, b) (L.map (Prod.mk x) ++ S.map (Prod.mk x))) G x b
    have hes : (st.tick (x, b) (L.map (Prod.mk x) ++ S.map (Prod.mk x))).e = S.head?.map (Prod.mk x) ∧
        (st.tick (x, b) (L.map (Prod.mk x) ++ S.map (Prod.mk x))).dist = 1 ∧ st.tooFar (x, b) maxPath = false := by
      rcases h2 with ⟨d0, rfl, e⟩ | ⟨d1, e⟩
      · simp only [List.head?_cons, Option.map_some] at e
        refine ⟨?_, ?_, ?_⟩
        · simp [PdSt.tick, e]
        · simp [PdSt.tick, e, d0]
        · simp only [PdSt.tooFar, e, d0, true_and, decide_eq_false_iff_not]; split <;> simp <;> omega
      · have hne : st.e ≠ some (x, b) := by
          rw [e]
          cases S with
          | nil => simp
          | cons s S =>
            simp only [List.head?_cons, Option.map_some, ne_eq, Option.some.injEq, Prod.mk.injEq, true_and]
            rintro rfl
            exact (h1.new s (List.mem_cons_self ..)).1 hbN
        refine ⟨?_, ?_, ?_⟩
        · unfold PdSt.tick; rw [if_neg hne]; exact e
        · unfold PdSt.tick; rw [if_neg hne]; exact d1
        · simp [PdSt.tooFar, hne]
    have hme : ((st.tick (x, b) (L.map (Prod.mk x) ++ S.map (Prod.mk x))).member G x b).e = S.head?.map (Prod.mk x) ∧
        ((st.tick (x, b) (L.map (Prod.mk x) ++ S.map (Prod.mk x))).member G x b).dist = 1 := by
      unfold PdSt.member; split <;> exact ⟨hes.1, hes.2.1⟩
    obtain ⟨S1, i1, i2, i3, i4, i5, i6, i7⟩ := pdStep_lvl1 (L := L) hN b (G.adjacentNodes b) S _
      (show Lvl1 G x y N L S ((st.tick (x, b) (L.map (Prod.mk x) ++ S.map (Prod.mk x))).member G x b) from
        ⟨by rw [w2, v2], by rw [w1, v1]; exact h1.vis, h1.new⟩) hme.1
    obtain ⟨S', st', k1, k2, k3, k4, k5, k6, k7⟩ := ih S1 _ (fun v hv => hL v (List.mem_cons_of_mem _ hv)) hnd.2 i1 (Or.inr ⟨i4.trans hme.2, i3⟩)
    refine ⟨S', st', ?_, k2, fun v hv => k3 v (i2 v hv), k4, k5, fun c r hr => k6 c r (i5 c r ?_), fun b' hb' c hc q1 q2 => ?_⟩
    · intro f
      rw [← k1]
      rw [show (b :: L).length + f = (L.length + f) + 1 by simp; omega, pdLoop, hQ]
      simp [hes.2.2]
    · unfold PdSt.Has at hr ⊢; rw [w3, v3]; exact hr
    · rcases List.mem_cons.1 hb' with rfl | hb'
      · obtain ⟨m1, m2⟩ := i6 c hc q1 q2
        exact ⟨k6 c b' m1, fun hcol => (m2 hcol).imp id (k3 c)⟩
      · exact k7 b' hb' c hc q1 q2

/-- Level two adds nothing to the queue. -/
theorem pdStep_lvl2 {G : GG n} (h : G.Pag) {x y : Fin n} {N : List (Fin n)} (hN : ∀ v, v ∈ N ↔ G.isAdj x v = true ∧ v ≠ y) {s : Fin n}
    (hs : s ∉ N ∧ s ≠ x ∧ s ≠ y) : ∀ (cs : List (Fin n)) (st : PdSt n), (∀ v ∈ N, (x, v) ∈ st.V) →
    (cs.foldl (pdStep G x y x s) st).Q = st.Q ∧ (cs.foldl (pdStep G x y x s) st).V = st.V ∧ (cs.foldl (pdStep G x y x s) st).e = st.e ∧
    (cs.foldl (pdStep G x y x s) st).dist = st.dist ∧ (cs.foldl (pdStep G x y x s) st).dsep = st.dsep ∧
      (∀ c r, PdSt.Has st c r → PdSt.Has (cs.foldl (pdStep G x y x s) st) c r) := by
  intro cs
  induction cs with
  | nil => intro st _; exact ⟨Eq.refl _, Eq.refl _, Eq.refl _, Eq.refl _, Eq.refl _, fun _ _ h => h⟩
  | cons c cs ih =>
    intro st hV
    rw [List.foldl_cons]
    have key : (pdStep G x y x s st c).Q = st.Q ∧ (pdStep G x y x s st c).V = st.V ∧ (pdStep G x y x s st c).e = st.e ∧
        (pdStep G x y x s st c).dist = st.dist ∧ (pdStep G x y x s st c).dsep = st.dsep ∧
        ∀ c' r, PdSt.Has st c' r → PdSt.Has (pdStep G x y x s st c) c' r := by
      unfold pdStep
      split
      · exact ⟨Eq.refl _, Eq.refl _, Eq.refl _, Eq.refl _, Eq.refl _, fun _ _ h => h⟩
      · rename_i hc
        dsimp only
        have hp : ∀ c' r, PdSt.Has st c' r → r ∈ ((addPrev st.prev c s) c').getD [] := fun c' r hr => has_addPrev.2 (Or.inl hr)
        split
        · rename_i hm
          have hcN : c ∈ N := by
            simp only [Bool.or_eq_true] at hm
            rcases hm with hm | hm
            · have h1 := ((collider_iff h).1 hm).1
              have h2 := adj_symm h (not_null_of_eq h1 (by simp))
              exact absurd ((hN s).2 ⟨(isAdj_iff h).2 h2, hs.2.2⟩) hs.1
            · exact (hN c).2 ⟨hm, by tauto⟩
          rw [if_pos (hV c hcN)]
          exact ⟨Eq.refl _, Eq.refl _, Eq.refl _, Eq.refl _, Eq.refl _, hp⟩
        · exact ⟨Eq.refl _, Eq.refl _, Eq.refl _, Eq.refl _, Eq.refl _, hp⟩
    obtain ⟨k1, k2, k3, k4, k5, k6⟩ := key
    obtain ⟨i1, i2, i3, i4, i5, i6⟩ := ih _ (by rw [k2]; exact hV)
    exact ⟨i1.trans k1, i2.trans k2, i3.trans k3, i4.trans k4, i5.trans k5, fun c' r hr => i6 c' r (k6 c' r hr)⟩

theorem pdLoop_lvl2 {G : GG n} (h : G.Pag) {x y : Fin n} {N : List (Fin n)} (hN : ∀ v, v ∈ N ↔ G.isAdj x v = true ∧ v ≠ y) {maxPath : Int}
    (hmax : maxPath = -1 ∨ 2 ≤ maxPath) (f : Nat) : ∀ (S : List (Fin n)) (st : PdSt n), st.Q = S.map (Prod.mk x) →
    (∀ v ∈ S, v ∉ N ∧ v ≠ x ∧ v ≠ y) → (∀ v ∈ N, (x, v) ∈ st.V) → ((st.dist ≤ 1 ∧ st.e = S.head?.map (Prod.mk x)) ∨ st.e = none) →
    (∀ v ∈ st.dsep, v ∈ (pdLoop G x y maxPath (S.length + f) st).dsep) ∧
    ∀ s ∈ S, (∃ r, PdSt.Has st s r ∧ r ≠ s ∧ r ≠ x ∧ (existsSemi G r x = true ∨ existsSemi G r s = true)) →
      s ∈ (pdLoop G x y maxPath (S.length + f) st).dsep := by
  intro S
  induction S with
  | nil =>
    intro st hQ _ _ _
    rw [pdLoop_nil _ _ _ _ _ _ (by simpa using hQ)]
    exact ⟨fun _ h => h, by simp⟩
  | cons s S ih =>
    intro st hQ hS hV he
    have hQ' : st.Q = (x, s) :: S.map (Prod.mk x) := by simp [hQ]
    obtain ⟨v1, v2, v3, v4⟩ := tick_spec st (x, s) (S.map (Prod.mk x))
    obtain ⟨w1, w2, w3, w4⟩ := member_spec (st.tick (x, s) (S.map (Prod.mk x))) G x s
    have hes : (st.tick (x, s) (S.map (Prod.mk x))).e = none ∧ st.tooFar (x, s) maxPath = false := by
      rcases he with ⟨d1, e⟩ | e
      · simp only [List.head?_cons, Option.map_some] at e
        refine ⟨by simp [PdSt.tick, e], ?_⟩
        simp only [PdSt.tooFar, e, true_and, decide_eq_false_iff_not]; split <;> simp <;> omega
      · exact ⟨by simp [PdSt.tick, e], by simp [PdSt.tooFar, e]⟩
    have hme : ((st.tick (x, s) (S.map (Prod.mk x))).member G x s).e = none := by
      unfold PdSt.member; split <;> exact hes.1
    obtain ⟨i1, i2, i3, i4, i5, i6⟩ := pdStep_lvl2 h hN (hS s (List.mem_cons_self ..)) (G.adjacentNodes s)
      ((st.tick (x, s) (S.map (Prod.mk x))).member G x s) (by rw [w1, v1]; exact hV)
    obtain ⟨k1, k2⟩ := ih _ (by rw [i1, w2, v2]) (fun v hv => hS v (List.mem_cons_of_mem _ hv)) (by rw [i2, w1, v1]; exact hV)
      (Or.inr (by rw [i3, hme]))
    have hloop : pdLoop G x y maxPath ((s :: S).length + f) st = pdLoop G x y maxPath (S.length + f)
        ((G.adjacentNodes s).foldl (pdStep G x y x s) ((st.tick (x, s) (S.map (Prod.mk x))).member G x s)) := by
      rw [show (s :: S).length + f = (S.length + f) + 1 by simp; omega, pdLoop, hQ']
      simp [hes.2]
    rw [hloop]
    refine ⟨fun v hv => k1 v ?_, fun s' hs' hr => ?_⟩
    · rw [i5, w4, v4]; split
      · exact List.mem_cons_of_mem _ hv
      · exact hv
    · rcases List.mem_cons.1 hs' with rfl | hs'
      · obtain ⟨r, q1, q2, q3, q4⟩ := hr
        apply k1
        rw [i5, w4, v3, onePath_of q1 q2 q3 q4]
        simp
      · obtain ⟨r, q1, q2⟩ := hr
        exact k2 s' hs' ⟨r, i6 _ _ (by unfold PdSt.Has at q1 ⊢; rw [w3, v3]; exact q1), q2⟩

theorem pdInit_spec (x y : Fin n) : ∀ (bs : List (Fin n)) (st : PdSt n),
    (bs.foldl (pdInit x y) st).Q = st.Q ++ (bs.filter (· ≠ y)).map (Prod.mk x) ∧
    (∀ v, (x, v) ∈ (bs.foldl (pdInit x y) st).V ↔ v ∈ bs.filter (· ≠ y) ∨ (x, v) ∈ st.V) ∧
    (bs.foldl (pdInit x y) st).dist = st.dist ∧
    (bs.foldl (pdInit x y) st).e = st.e.or ((bs.filter (· ≠ y)).head?.map (Prod.mk x)) := by
  intro bs
  induction bs with
  | nil => intro st; simp
  | cons b bs ih =>
    intro st
    rw [List.foldl_cons]
    obtain ⟨i1, i2, i3, i4⟩ := ih (pdInit x y st b)
    rw [i1, i3, i4]
    simp only [i2]
    by_cases hb : b = y
    · simp [pdInit, hb]
    · simp only [pdInit, if_neg hb]
      refine ⟨by simp [hb], fun v => ?_, by simp, ?_⟩
      · simp [hb]; tauto
      · cases st.e <;> simp [hb]

/-- Why a node that is not a neighbour of `x` is kept. -/
def PdWhy (G : GG n) (x y v : Fin n) : Prop := ∃ r, r ≠ x ∧ r ≠ y ∧ G.isAdj r v = true ∧ (existsSemi G r x = true ∨ existsSemi G r v = true)

structure PdInv2 (G : GG n) (x y : Fin n) (st : PdSt n) : Prop where
  has : ∀ c r, c ≠ x → PdSt.Has st c r → r ≠ x ∧ r ≠ y ∧ G.isAdj r c = true
  dsep : ∀ v ∈ st.dsep, G.isAdj x v = true ∨ PdWhy G x y v

theorem pdLoop_inv2 {G : GG n} (h : G.Pag) {x y : Fin n} {nb : List (Fin n)} {maxPath : Int} : ∀ (f : Nat) (st : PdSt n), PdInv G x y nb st →
    PdInv2 G x y st → PdInv2 G x y (pdLoop G x y maxPath f st)
  | 0, st, _, hi => hi
  | f + 1, st, h0, hi => by
    unfold pdLoop
    cases hQ : st.Q with
    | nil => exact hi
    | cons t Q =>
      dsimp only
      obtain ⟨v1, v2, v3, v4⟩ := tick_spec st t Q
      have ha : PdInv G x y nb (st.tick t Q) := by
        refine ⟨?_, by rw [v4]; exact h0.dsep, by rw [v4]; exact h0.nbs⟩
        rw [v2]; intro u hu; exact h0.queue u (by rw [hQ]; exact List.mem_cons_of_mem _ hu)
      have hi1 : PdInv2 G x y (st.tick t Q) := ⟨by unfold PdSt.Has; rw [v3]; exact hi.has, by rw [v4]; exact hi.dsep⟩
      split
      · exact hi1
      · obtain ⟨ht1, ht2⟩ := h0.queue t (by rw [hQ]; exact List.mem_cons_self ..)
        obtain ⟨w1, w2, w3, w4⟩ := member_spec (st.tick t Q) G x t.2
        have hb : PdInv G x y nb ((st.tick t Q).member G x t.2) := by
          refine ⟨by rw [w2]; exact ha.queue, ?_, ?_⟩
          · rw [w4]; split
            · intro v hv
              rcases List.mem_cons.1 hv with rfl | hv
              · exact ht2
              · exact ha.dsep v hv
            · exact ha.dsep
          · rw [w4]; split
            · intro v hv; exact List.mem_cons_of_mem _ (ha.nbs v hv)
            · exact ha.nbs
        have hi2 : PdInv2 G x y ((st.tick t Q).member G x t.2) := by
          refine ⟨by unfold PdSt.Has; rw [w3]; exact hi1.has, ?_⟩
          rw [w4]; split
          · rename_i hone
            intro v hv
            rcases List.mem_cons.1 hv with rfl | hv
            · obtain ⟨r, q1, -, q3, q4⟩ := of_onePath ht2.1 hone
              obtain ⟨m1, m2, m3⟩ := hi1.has _ _ ht2.1 q1
              exact Or.inr ⟨r, m1, m2, m3, q4⟩
            · exact hi1.dsep v hv
          · exact hi1.dsep
        have both := foldl_inv (fun u => PdInv G x y nb u ∧ PdInv2 G x y u) (pdStep G x y t.1 t.2) (G.adjacentNodes t.2)
          (fun u hu c hc => by
            refine ⟨by rw [ht1]; exact pdStep_inv h ht2 hu.1 hc, ?_⟩
            have hadj := (isAdj_iff h).2 (adj_symm h ((mem_adjacentNodes h).1 hc))
            have key : ∀ c' r, c' ≠ x → r ∈ ((addPrev u.prev c t.2) c').getD [] → r ≠ x ∧ r ≠ y ∧ G.isAdj r c' = true := by
              intro c' r hc' hr
              rcases has_addPrev.1 hr with hr | ⟨rfl, rfl⟩
              · exact hu.2.has c' r hc' hr
              · exact ⟨ht2.1, ht2.2.1, hadj⟩
            unfold pdStep
            split
            · exact hu.2
            · dsimp only
              split
              · split
                · exact ⟨key, hu.2.dsep⟩
                · exact ⟨key, hu.2.dsep⟩
              · exact ⟨key, hu.2.dsep⟩) _ ⟨hb, hi2⟩
        exact pdLoop_inv2 h f _ both.1 both.2

theorem pdInit_inv2 {G : GG n} (h : G.Pag) {x y : Fin n} (bs : List (Fin n)) : ∀ (st : PdSt n), PdInv2 G x y st →
    (∀ b ∈ bs, b ∈ G.adjacentNodes x) → PdInv2 G x y (bs.foldl (pdInit x y) st) := by
  intro st hst hbs
  refine foldl_inv (PdInv2 G x y) _ _ (fun u hu b hb => ?_) _ hst
  unfold pdInit
  split
  · exact hu
  · refine ⟨fun c r hc hr => hu.has c r hc ?_, fun v hv => ?_⟩
    · rcases has_addPrev.1 hr with hr | ⟨rfl, rfl⟩
      · exact hr
      · exact absurd (Eq.refl _) hc
    · rcases List.mem_cons.1 hv with rfl | hv
      · exact Or.inl ((isAdj_iff h).2 (adj_symm h ((mem_adjacentNodes h).1 (hbs v hb))))
      · exact hu.dsep v hv

end Fci
open Fci

/-- **C55, why a node is kept.** A member that is not a neighbour of `x` lies across a collider and has an adjacent node `r` with a semi-directed
walk to `x` or to the member. -/
theorem C55_kept_for_a_reason {env : FciEnv n} (hk : env.Ok) {G : GG n} (h : G.Pag) {x y v : Fin n} {maxPath : Int}
    (hv : v ∈ possibleDsep env G x y maxPath) (ha : G.isAdj x v = false) :
    (∃ b, b ≠ y ∧ G.getEndpoint x b = some .arrow ∧ G.getEndpoint v b = some .arrow) ∧
    ∃ r, r ≠ x ∧ r ≠ y ∧ G.isAdj r v = true ∧ ((∃ l, G.SemiWalk r x l) ∨ ∃ l, G.SemiWalk r v l) := by
  constructor
  · obtain ⟨-, -, g⟩ := (possibleDsep_spec hk h x y maxPath).1 v hv
    rcases g with g | ⟨b, hb, g⟩
    · rw [ha] at g; simp at g
    · obtain ⟨c1, c2⟩ := (collider_iff h).1 g
      exact ⟨b, hb, (getEndpoint_iff h).2 ⟨by simp, c1⟩, (getEndpoint_iff h).2 ⟨by simp, c2⟩⟩
  · have hmem : ∀ b ∈ env.setOrder (G.adjacentNodes x), b ∈ G.adjacentNodes x := fun b hb => (hk.setOrder _).mem_iff.1 hb
    have hi := pdLoop_inv2 (maxPath := maxPath) h (n * n + 1) _ (pdInit_inv h (x := x) (y := y) (env.setOrder (G.adjacentNodes x)) []
      ⟨[], [], fun _ => none, none, 0, []⟩ ⟨by simp, by simp, by simp⟩ hmem)
      (pdInit_inv2 h _ _ ⟨fun c r _ hr => by simp [PdSt.Has] at hr, by simp⟩ hmem)
    unfold possibleDsep at hv
    dsimp only at hv
    rw [(hk.sorted _).mem_iff, List.mem_filter] at hv
    rcases hi.dsep v (of_decide_eq_true hv.2).1 with q | ⟨r, q1, q2, q3, q4⟩
    · rw [ha] at q; simp at q
    · exact ⟨r, q1, q2, q3, q4.imp (C30_semi_directed_exact h _ _).1 (C30_semi_directed_exact h _ _).1⟩

/-- **C55, two steps away.** Without a length bound (or with one of at least 2) the list contains each node `c` across a collider `x *→ b ←* c`
such that some neighbour `r ≠ y` of `x` that is adjacent to `c` has a semi-directed walk to `x` or to `c`. -/
theorem C55_two_steps_partial {env : FciEnv n} (hk : env.Ok) {G : GG n} (h : G.Pag) {x y b c r : Fin n} {maxPath : Int}
    (hmax : maxPath = -1 ∨ 2 ≤ maxPath) (hb : G.getEndpoint x b = some .arrow) (hbc : G.getEndpoint c b = some .arrow) (hby : b ≠ y)
    (hcx : c ≠ x) (hcy : c ≠ y) (hr : G.isAdj x r = true) (hry : r ≠ y) (hrc : G.isAdj r c = true)
    (hw : (∃ l, G.SemiWalk r x l) ∨ ∃ l, G.SemiWalk r c l) : c ∈ possibleDsep env G x y maxPath := by
  by_cases hadj : G.isAdj x c = true
  · exact (possibleDsep_spec hk h x y maxPath).2.1 c hadj hcy
  have hN : ∀ v, v ∈ (env.setOrder (G.adjacentNodes x)).filter (· ≠ y) ↔ G.isAdj x v = true ∧ v ≠ y := by
    intro v
    simp only [List.mem_filter, (hk.setOrder _).mem_iff, mem_adjacentNodes h, isAdj_iff h, decide_eq_true_eq]
    exact and_congr_left fun _ => not_congr (h.symm v x)
  have hnd : ((env.setOrder (G.adjacentNodes x)).filter (· ≠ y)).Nodup := ((hk.setOrder _).nodup_iff.2 (nodup_adjacentNodes G x)).filter _
  obtain ⟨p1, p2, p3, p4⟩ := pdInit_spec x y (env.setOrder (G.adjacentNodes x)) ⟨[], [], fun _ => none, none, 0, []⟩
  generalize hNd : (env.setOrder (G.adjacentNodes x)).filter (· ≠ y) = N at hN hnd p1 p2 p4
  have hst : Lvl1 G x y N N [] (pdStart env G x y) := ⟨by unfold pdStart; simp [p1], fun v => by unfold pdStart; rw [p2]; simp, by simp⟩
  obtain ⟨S, st', k1, k2, -, k4, k5, -, k7⟩ := pdLoop_lvl1 hN hmax N [] (pdStart env G x y) (fun _ h => h) hnd hst
    (Or.inl ⟨by unfold pdStart; rw [p3], Eq.refl _, by unfold pdStart; rw [p4]; simp⟩)
  have mb := (getEndpoint_iff h).1 hb
  have mc := (getEndpoint_iff h).1 hbc
  have hbN : b ∈ N := (hN b).2 ⟨(isAdj_iff h).2 (adj_symm h (not_null_of_eq mb.2 (by simp))), hby⟩
  have hrN : r ∈ N := (hN r).2 ⟨hr, hry⟩
  have hcN : c ∉ N := fun hc => hadj ((hN c).1 hc).1
  have hcb : c ∈ G.adjacentNodes b := (mem_adjacentNodes h).2 (adj_symm h (not_null_of_eq mc.2 (by simp)))
  have hcr : c ∈ G.adjacentNodes r := (mem_adjacentNodes h).2 (adj_symm h ((isAdj_iff h).1 hrc))
  have hrne : r ≠ c := ne_of_adj h ((isAdj_iff h).1 hrc)
  have hrx : r ≠ x := (ne_of_adj h ((isAdj_iff h).1 hr)).symm
  have fin : c ∈ (pdLoop G x y maxPath (n * n + 1) (pdStart env G x y)).dsep := by
    rw [← possibleDsep_fuel hk G x y maxPath (N.length + S.length),
      show n * n + 1 + (N.length + S.length) = N.length + (S.length + (n * n + 1)) by omega, k1]
    have hcS : c ∈ S := ((k7 b hbN c hcb hcx hcy).2 ((collider_iff h).2 ⟨mb.2, mc.2⟩)).resolve_left hcN
    refine (pdLoop_lvl2 h hN hmax _ S st' (by simpa using k2.q) k2.new (fun v hv => (k2.vis v).2 (Or.inl hv)) (Or.inl ⟨k4, k5⟩)).2 c hcS
      ⟨r, (k7 r hrN c hcr hcx hcy).1, hrne, hrx, ?_⟩
    exact hw.imp (C30_semi_directed_exact h _ _).2 (C30_semi_directed_exact h _ _).2
  unfold possibleDsep
  dsimp only
  rw [(hk.sorted _).mem_iff, List.mem_filter]
  exact ⟨List.mem_finRange c, decide_eq_true ⟨fin, hcx, hcy⟩⟩

/-- `0 ↔ 1 ↔ 2`, `1 o-o 3`, `3 → 2`, and the target `4` joined to `2`: the collider `1` has the semi-directed walk `1, 3, 2`. -/
def pdTwo : GG 5 := run [.addEdge 0 1 .arrow .arrow, .addEdge 1 2 .arrow .arrow, .addEdge 1 3 .circle .circle, .addEdge 3 2 .tail .arrow,
  .addEdge 2 4 .circle .arrow]

/-- A case with a kept node two steps away. -/
example : pdTwo.Pag ∧ 2 ∈ possibleDsep (exEnv (fun _ _ _ => false) Know.none) pdTwo 0 4 (-1) ∧ pdTwo.isAdj 0 2 = false := by
  have hp : pdTwo.Pag := ⟨by decide, by decide, by decide⟩
  exact ⟨hp, C55_two_steps_partial (exEnv_ok _ _) hp (b := 1) (r := 1) (Or.inl rfl) (by decide) (by decide) (by decide) (by decide) (by decide)
    (by decide) (by decide) (by decide) (Or.inr ((C30_semi_directed_exact hp 1 2).1 (by decide +kernel))), by decide⟩

end CL
