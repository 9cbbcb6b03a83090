import Verif.Props.PdsepTests

/-!
# C68: the collider step of FCI (`rule0`) and its separating-set table
-/
namespace CL
open GG
variable {n : Nat}

/-- `a – b – c` is unshielded and the table entry under `(a, c)` exists and leaves out `b`. -/
def GG.ColliderBySepset (G : GG n) (ss : SSet n) (a b c : Fin n) : Prop :=
  G.isAdj a b = true ∧ G.isAdj c b = true ∧ G.isAdj a c = false ∧ ∃ S, ss a c = some S ∧ b ∉ S

namespace Fci

theorem foldl_prefix {α β : Type} (P : List α → β → Prop) (f : β → α → β) :
    ∀ (xs pre : List α) (s : β), P pre s → (∀ pre x s, x ∈ xs → P pre s → P (pre ++ [x]) (f s x)) → P (pre ++ xs) (xs.foldl f s) := by
  intro xs
  induction xs with
  | nil => intro pre s h _; simpa using h
  | cons x xs ih =>
    intro pre s h hs
    have := ih (pre ++ [x]) (f s x) (hs pre x s (by simp) h) fun pre y s hy h => hs pre y s (by simp [hy]) h
    simpa using this

theorem mem_pairsOf_sorted {l : List (Fin n)} (h : l.Pairwise (· < ·)) {a c : Fin n} : (a, c) ∈ pairsOf l ↔ a ∈ l ∧ c ∈ l ∧ a < c := by
  induction l with
  | nil => simp [pairsOf]
  | cons x l ih =>
    rw [List.pairwise_cons] at h
    simp only [pairsOf, List.mem_append, List.mem_map, Prod.mk.injEq, ih h.2, List.mem_cons]
    constructor
    · rintro (⟨y, hy, rfl, rfl⟩ | ⟨h1, h2, h3⟩)
      · exact ⟨Or.inl rfl, Or.inr hy, h.1 _ hy⟩
      · exact ⟨Or.inr h1, Or.inr h2, h3⟩
    · rintro ⟨rfl | h1, rfl | h2, h3⟩
      · exact absurd h3 (lt_irrefl _)
      · exact Or.inl ⟨c, h2, rfl, rfl⟩
      · exact absurd (lt_trans h3 (h.1 _ h1)) (lt_irrefl _)
      · exact Or.inr ⟨h1, h2, h3⟩

/-- no tails: every mark is a circle or an arrowhead -/
def NoTail (G : GG n) : Prop := ∀ a b, G.g a b ≠ .tail

theorem allowed_none {G : GG n} (h : G.Pag) (ht : NoTail G) {x y : Fin n} (hn : G.g y x ≠ .null) : allowed Know.none G x y = true := by
  have h1 := h.marks y x
  have h2 := ht y x
  unfold allowed
  have e1 : ep G x y .tail = false := by
    by_contra hc
    exact h2 ((ep_iff h).1 (by simpa using hc)).2
  rcases h1 with h1 | h1 | h1 | h1
  · exact absurd h1 hn
  · exact absurd h1 h2
  · rw [(ep_iff h (m := .arrow)).2 ⟨by simp, h1⟩]; rfl
  · simp only [e1, (ep_iff h (m := .circle)).2 ⟨by simp, h1⟩, Know.none, Bool.and_false]
    split <;> rfl

theorem adjacentNodes_sorted (G : GG n) (b : Fin n) : (G.adjacentNodes b).Pairwise (· < ·) := by
  unfold adjacentNodes
  exact (List.pairwise_lt_finRange n).filter _

theorem fciOrientBk_none (G : GG n) : fciOrientBk Know.none G = G := by
  unfold fciOrientBk
  generalize G.graphEdges = l
  induction l with
  | nil => rfl
  | cons e l ih =>
    rw [List.foldl_cons, show orientBkStep Know.none G e = G by simp [orientBkStep, Know.none]]
    exact ih

theorem rule0Step_g {ss : SSet n} {b : Fin n} {G : GG n} (h : G.Pag) (ht : NoTail G) {p : Fin n × Fin n} (hp : p.1 ≠ p.2)
    (h1 : G.g p.1 b ≠ .null) (h2 : G.g p.2 b ≠ .null) [Decidable (G.ColliderBySepset ss p.1 b p.2)] :
    (rule0Step Know.none ss b G p).g = fun x y =>
      if G.ColliderBySepset ss p.1 b p.2 ∧ x = b ∧ (y = p.1 ∨ y = p.2) then .arrow else G.g x y := by
  have hA : G.isAdj p.1 b = true := (isAdj_iff h).2 h1
  have hC : G.isAdj p.2 b = true := (isAdj_iff h).2 h2
  have hb1 : b ≠ p.1 := (ne_of_adj h h1).symm
  have hb2 : b ≠ p.2 := (ne_of_adj h h2).symm
  by_cases hcol : G.ColliderBySepset ss p.1 b p.2
  · simp only [hcol, true_and]
    obtain ⟨-, -, c3, S, c4, c5⟩ := hcol
    unfold rule0Step
    by_cases hd : G.isDefCollider p.1 b p.2 = true
    · rw [if_pos (by simp [hd])]
      have := (collider_iff h).1 hd
      funext x y
      split
      · rename_i hx
        obtain ⟨rfl, rfl | rfl⟩ := hx
        · exact this.1
        · exact this.2
      · rfl
    · rw [if_neg (by simp [hd, c3]), c4]
      simp only [Option.elim_some]
      rw [if_neg c5, allowed_none h ht (adj_symm h h1), allowed_none h ht (adj_symm h h2)]
      simp only [Bool.not_true, Bool.or_self, Bool.false_eq_true, if_false]
      have hm := reorKeep_arrow h (allowed_marks h (allowed_none h ht (adj_symm h h1)))
      have e1 := reorKeep_g h h1 (m := .arrow) (by simp) (by simp)
      have hp1 := hm.1.pag h
      have h2' : (reorKeep G p.1 b .arrow).g p.2 b ≠ .null := by
        rw [e1]; unfold set2; grind
      rw [reorKeep_g hp1 h2' (by simp) (by simp), e1]
      funext x y
      unfold set2
      grind
  · simp only [hcol, false_and, if_false]
    have : rule0Step Know.none ss b G p = G := by
      unfold rule0Step
      split
      · rfl
      · rename_i hno
        simp only [Bool.or_eq_true, not_or, Bool.not_eq_true] at hno
        cases hs : ss p.1 p.2 with
        | none => rfl
        | some S =>
          simp only [Option.elim_some]
          split
          · rfl
          · rename_i hS
            exact absurd ⟨hA, hC, hno.1, S, hs, hS⟩ hcol
    rw [this]

/-- the state of the loop: adjacencies as in `G`; the processed triples decide the arrowheads -/
structure R0Inv (G : GG n) (ss : SSet n) (Done : Fin n → Fin n → Fin n → Prop) (H : GG n) : Prop where
  pag : H.Pag
  null : ∀ a b, H.g a b = .null ↔ G.g a b = .null
  arrow : ∀ a b, H.g b a = .arrow ↔ ∃ c, (Done a b c ∧ G.ColliderBySepset ss a b c) ∨ (Done c b a ∧ G.ColliderBySepset ss c b a)
  noTail : NoTail H

theorem cbs_congr {G H : GG n} {ss : SSet n} (h : ∀ a b, H.g a b = .null ↔ G.g a b = .null) (a b c : Fin n) :
    H.ColliderBySepset ss a b c ↔ G.ColliderBySepset ss a b c := by
  have e : ∀ a b, H.isAdj a b = G.isAdj a b := by
    intro a b
    have := h b a
    unfold isAdj
    by_cases hb : G.g b a = .null
    · rw [hb, this.2 hb]
    · have hb' : ¬ H.g b a = .null := fun hc => hb (this.1 hc)
      rw [bne_iff_ne.2 hb, bne_iff_ne.2 hb']
  unfold GG.ColliderBySepset
  rw [e, e, e]

theorem r0_step {G : GG n} (ss : SSet n) {Done : Fin n → Fin n → Fin n → Prop} {H : GG n} (hi : R0Inv G ss Done H) {b : Fin n}
    {p : Fin n × Fin n} (hp : p.1 ≠ p.2) (h1 : G.g p.1 b ≠ .null) (h2 : G.g p.2 b ≠ .null) :
    R0Inv G ss (fun x y z => Done x y z ∨ (x = p.1 ∧ y = b ∧ z = p.2)) (rule0Step Know.none ss b H p) := by
  classical
  have hH1 : H.g p.1 b ≠ .null := fun hc => h1 ((hi.null _ _).1 hc)
  have hH2 : H.g p.2 b ≠ .null := fun hc => h2 ((hi.null _ _).1 hc)
  have hr := rule0Step_refine (k := Know.none) (ss := ss) (b := b) hi.pag p
  have e := rule0Step_g (ss := ss) hi.pag hi.noTail hp hH1 hH2
  simp only [cbs_congr hi.null] at e
  refine ⟨hr.pag hi.pag, ?_, ?_, ?_⟩
  · intro x y
    rw [← hi.null x y]
    rcases hr.step x y with h | ⟨h, h'⟩
    · rw [h]
    · rw [h]; rcases h' with h' | h' <;> rw [h'] <;> simp
  · intro x y
    have := hi.arrow x y
    rw [e]
    dsimp only
    split
    · rename_i hc
      obtain ⟨c1, rfl, c2⟩ := hc
      refine iff_of_true rfl ?_
      rcases c2 with rfl | rfl
      · exact ⟨p.2, Or.inl ⟨Or.inr (by simp), c1⟩⟩
      · exact ⟨p.1, Or.inr ⟨Or.inr (by simp), c1⟩⟩
    · rename_i hc
      rw [this]
      constructor
      · rintro ⟨c, ⟨d, hh⟩ | ⟨d, hh⟩⟩
        · exact ⟨c, Or.inl ⟨Or.inl d, hh⟩⟩
        · exact ⟨c, Or.inr ⟨Or.inl d, hh⟩⟩
      · rintro ⟨c, ⟨d | ⟨rfl, rfl, rfl⟩, hh⟩ | ⟨d | ⟨rfl, rfl, rfl⟩, hh⟩⟩
        · exact ⟨c, Or.inl ⟨d, hh⟩⟩
        · exact absurd ⟨hh, by simp⟩ hc
        · exact ⟨c, Or.inr ⟨d, hh⟩⟩
        · exact absurd ⟨hh, by simp⟩ hc
  · intro x y
    rw [e]
    dsimp only
    split
    · simp
    · exact hi.noTail x y

theorem r0_node {G : GG n} (hG : G.Pag) (ss : SSet n) {Done : Fin n → Fin n → Fin n → Prop} {H : GG n} (hi : R0Inv G ss Done H) (b : Fin n) :
    R0Inv G ss (fun x y z => Done x y z ∨ (y = b ∧ x < z ∧ G.g x b ≠ .null ∧ G.g z b ≠ .null)) (rule0Node Know.none ss H b) := by
  have hs := adjacentNodes_sorted H b
  have hmem : ∀ p : Fin n × Fin n, p ∈ pairsOf (H.adjacentNodes b) ↔ p.1 < p.2 ∧ G.g p.1 b ≠ .null ∧ G.g p.2 b ≠ .null := by
    intro p
    rw [show p = (p.1, p.2) from rfl, mem_pairsOf_sorted hs, mem_adjacentNodes hi.pag, mem_adjacentNodes hi.pag]
    simp only [ne_eq, hi.null]
    tauto
  unfold rule0Node
  have := foldl_prefix (fun pre K => R0Inv G ss (fun x y z => Done x y z ∨ (y = b ∧ (x, z) ∈ pre)) K) (rule0Step Know.none ss b)
    (pairsOf (H.adjacentNodes b)) [] H (by simpa using hi) (by
      intro pre p K hp hK
      have hp' := (hmem p).1 hp
      have := r0_step ss hK (b := b) (ne_of_lt hp'.1) hp'.2.1 hp'.2.2
      refine ⟨this.pag, this.null, fun a b' => ?_, this.noTail⟩
      rw [this.arrow a b']
      apply exists_congr
      intro c
      simp only [List.mem_append, List.mem_singleton, Prod.ext_iff]
      tauto)
  refine ⟨this.pag, this.null, fun a b' => ?_, this.noTail⟩
  rw [this.arrow a b']
  apply exists_congr
  intro c
  simp only [List.nil_append, hmem]

end Fci

open Fci

/-- **C68 (the collider step, exactly).** Without background knowledge `rule0` keeps the adjacencies, puts an arrowhead at `b` on the
edge `a – b` exactly when, for some `c`, the triple `a – b – c` is unshielded and the separating set recorded under the pair in index
order (`(a, c)` if `a < c`, else `(c, a)`) leaves out `b`, and a circle everywhere else. -/
theorem C68_rule0_exact_partial {G : GG n} (h : G.Pag) (ss : SSet n) (a b : Fin n) :
    ((rule0 Know.none ss G).isAdj a b = G.isAdj a b) ∧
    ((rule0 Know.none ss G).getEndpoint a b = some .arrow ↔
      ∃ c, (a < c ∧ G.ColliderBySepset ss a b c) ∨ (c < a ∧ G.ColliderBySepset ss c b a)) ∧
    (G.isAdj a b = true → (rule0 Know.none ss G).getEndpoint a b ≠ some .arrow → (rule0 Know.none ss G).getEndpoint a b = some .circle) := by
  obtain ⟨p1, e1⟩ := reorientAll_spec h
  have hnull : ∀ a b, (reorientAll .circle G).g a b = .null ↔ G.g a b = .null := by
    intro a b; rw [e1]; by_cases hn : G.g a b = .null <;> simp [hn]
  have start : R0Inv G ss (fun _ _ _ => False) (reorientAll .circle G) := by
    refine ⟨p1, hnull, fun a b => ?_, fun a b => ?_⟩
    · rw [e1]; simp; split <;> simp
    · rw [e1]; split <;> simp
  have fin : R0Inv G ss (fun x y z => x < z ∧ G.g x y ≠ .null ∧ G.g z y ≠ .null) (rule0 Know.none ss G) := by
    unfold rule0
    rw [fciOrientBk_none]
    have := foldl_prefix (fun pre K => R0Inv G ss (fun x y z => y ∈ pre ∧ x < z ∧ G.g x y ≠ .null ∧ G.g z y ≠ .null) K) (rule0Node Know.none ss)
      (List.finRange n) [] _ (by simpa using start) (by
        intro pre b K _ hK
        have := r0_node h ss hK b
        refine ⟨this.pag, this.null, fun a b' => ?_, this.noTail⟩
        rw [this.arrow a b']
        apply exists_congr
        intro c
        simp only [List.mem_append, List.mem_singleton]
        constructor
        · rintro (⟨d | ⟨rfl, d⟩, hh⟩ | ⟨d | ⟨rfl, d⟩, hh⟩) <;> tauto
        · rintro (⟨⟨d | rfl, d2⟩, hh⟩ | ⟨⟨d | rfl, d2⟩, hh⟩) <;> tauto)
    simpa using this
  have hadj : (rule0 Know.none ss G).isAdj a b = G.isAdj a b := by
    rw [Bool.eq_iff_iff, isAdj_iff fin.pag, isAdj_iff h, ne_eq, ne_eq, fin.null]
  refine ⟨hadj, ?_, fun had hna => ?_⟩
  · rw [getEndpoint_iff fin.pag]
    simp only [ne_eq, reduceCtorEq, not_false_eq_true, true_and]
    rw [fin.arrow a b]
    apply exists_congr
    intro c
    constructor
    · rintro (⟨⟨d, -, -⟩, hh⟩ | ⟨⟨d, -, -⟩, hh⟩)
      · exact Or.inl ⟨d, hh⟩
      · exact Or.inr ⟨d, hh⟩
    · rintro (⟨d, hh⟩ | ⟨d, hh⟩)
      · exact Or.inl ⟨⟨d, (isAdj_iff h).1 hh.1, (isAdj_iff h).1 hh.2.1⟩, hh⟩
      · exact Or.inr ⟨⟨d, (isAdj_iff h).1 hh.1, (isAdj_iff h).1 hh.2.1⟩, hh⟩
  · rw [ne_eq, getEndpoint_iff fin.pag] at hna
    rw [getEndpoint_iff fin.pag]
    have hm := fin.pag.marks b a
    have ht := fin.noTail b a
    have hn : (rule0 Know.none ss G).g b a ≠ .null := by
      rw [ne_eq, fin.null]; exact adj_symm h ((isAdj_iff h).1 had)
    simp at hna ⊢
    tauto

/-- Answers of a CI test on six variables: `0`, `1` are separated only by sets with 3, 4 and without 2, 5. -/
def oInd : CI 6 := fun x y S =>
  let p := fun a b : Fin 6 => (x = a ∧ y = b) ∨ (x = b ∧ y = a)
  if p 0 1 then decide (3 ∈ S ∧ 4 ∈ S ∧ 2 ∉ S ∧ 5 ∉ S) else if p 0 3 then decide (1 ∈ S ∧ 4 ∉ S)
  else if p 1 4 then decide (2 ∈ S ∧ 3 ∉ S)
  else if p 0 2 ∨ p 5 3 ∨ p 5 2 then decide (1 ∈ S)
  else !decide (p 0 4 ∨ p 4 3 ∨ p 1 3 ∨ p 1 2 ∨ p 2 4 ∨ p 0 5 ∨ p 1 5)

/-- exchange the variables 0 and 1 -/
def sw01 (x : Fin 6) : Fin 6 := if x = 0 then 1 else if x = 1 then 0 else x

/-- **C68 violated.** The possible-d-sep step records its separating set under one order of the pair only. When the removed edge was
stored as `1 o→ 0`, the entry is under `(1, 0)`, the collider step looks under `(0, 1)`, and the unshielded triple `0 – 5 – 1`, whose
separating set `{3, 4}` leaves out 5, is not made a collider: `fci` returns `1 → 5 → 0`. With the variables 0 and 1 exchanged, the same
answers give arrowheads at 5 on both edges. -/
theorem C68_one_order_violated :
    (∃ s, prepare (⟨oInd, Know.none, false, -1, id, id⟩ : FciEnv 6) none = some s ∧ s.1.isAdj 0 1 = false ∧ s.2 1 0 = some [3, 4] ∧ s.2 0 1 = none) ∧
    (∃ H, fci (⟨oInd, Know.none, false, -1, id, id⟩ : FciEnv 6) none = some H ∧ H.isAdj 0 1 = false ∧
      H.getEndpoint 1 5 = some .arrow ∧ H.getEndpoint 5 1 = some .tail ∧ H.getEndpoint 0 5 = some .tail ∧ H.getEndpoint 5 0 = some .arrow) ∧
    (∃ H, fci (⟨fun x y S => oInd (sw01 x) (sw01 y) (S.map sw01), Know.none, false, -1, id, id⟩ : FciEnv 6) none = some H ∧ H.isAdj 0 1 = false ∧
      H.getEndpoint 1 5 = some .arrow ∧ H.getEndpoint 0 5 = some .arrow) := by
  refine ⟨?_, ?_, ?_⟩
  · exact elim_decide (P := fun s : GG 6 × SSet 6 => s.1.isAdj 0 1 = false ∧ s.2 1 0 = some [3, 4] ∧ s.2 0 1 = none) (by decide +kernel)
  · exact elim_decide (P := fun H : GG 6 => H.isAdj 0 1 = false ∧ H.getEndpoint 1 5 = some .arrow ∧ H.getEndpoint 5 1 = some .tail ∧
      H.getEndpoint 0 5 = some .tail ∧ H.getEndpoint 5 0 = some .arrow) (by decide +kernel)
  · exact elim_decide (P := fun H : GG 6 => H.isAdj 0 1 = false ∧ H.getEndpoint 1 5 = some .arrow ∧ H.getEndpoint 0 5 = some .arrow) (by decide +kernel)

end CL
