import Verif.Model.FCI
import Verif.Proofs.GraphBasic
import Mathlib.Data.Fintype.Card
import Mathlib.Data.Finset.Card
import Mathlib.Data.Fintype.Prod

/-!
# Basic facts about the FCI model
-/
namespace CL
open GG
variable {n : Nat}

/-- A partial ancestral graph as a mark matrix: symmetric adjacency, no loops, only the marks tail, arrowhead and circle. -/
structure GG.Pag (G : GG n) : Prop where
  symm : ∀ a b, G.g a b = .null ↔ G.g b a = .null
  diag : ∀ a, G.g a a = .null
  marks : ∀ a b, G.g a b = .null ∨ G.g a b = .tail ∨ G.g a b = .arrow ∨ G.g a b = .circle

namespace Fci

/-- The matrix with new marks on one pair. -/
def set2 (g : MMat n) (a b : Fin n) (m1 m2 : Mark) : MMat n :=
  fun x y => if x = a ∧ y = b then m1 else if x = b ∧ y = a then m2 else g x y

theorem ne_of_adj {G : GG n} (h : G.Pag) {a b : Fin n} (hab : G.g a b ≠ .null) : a ≠ b := by
  rintro rfl; exact hab (h.diag a)

theorem getEdge_eq {G : GG n} {a b : Fin n} (hab : G.g a b ≠ .null) :
    G.getEdge a b = some (mkEdge a b (G.g a b) (G.g b a)) := by simp [getEdge, hab]

theorem mkEdge_proximal {a b : Fin n} (hab : a ≠ b) (m1 m2 : Mark) :
    (mkEdge a b m1 m2).proximal a = some m1 ∧ (mkEdge a b m1 m2).proximal b = some m2 := by
  have hba : ¬ b = a := fun h => hab h.symm
  unfold mkEdge Edge.proximal
  split <;> simp [hab, hba]

theorem isAdj_iff {G : GG n} (h : G.Pag) {a b : Fin n} : G.isAdj a b = true ↔ G.g a b ≠ .null := by
  simp [isAdj, h.symm a b]

theorem ep_iff {G : GG n} (h : G.Pag) {a b : Fin n} {m : Mark} : ep G a b m = true ↔ m ≠ .null ∧ G.g b a = m := by
  unfold ep getEndpoint
  by_cases hab : G.g a b = .null
  · have := (h.symm a b).1 hab
    simp only [getEdge, hab, if_true, Option.bind_none, this]
    constructor
    · intro h; simp at h
    · rintro ⟨h1, h2⟩; exact absurd h2.symm h1
  · rw [getEdge_eq hab, Option.bind_some, (mkEdge_proximal (ne_of_adj h hab) _ _).2]
    have : G.g b a ≠ .null := fun hc => hab ((h.symm a b).2 hc)
    simp only [beq_iff_eq, Option.some.injEq]
    constructor
    · rintro rfl; exact ⟨this, rfl⟩
    · exact fun h => h.2

theorem collider_iff {G : GG n} (h : G.Pag) {a b c : Fin n} :
    G.isDefCollider a b c = true ↔ G.g b a = .arrow ∧ G.g b c = .arrow := by
  unfold isDefCollider
  by_cases hab : G.g a b = .null
  · have := (h.symm a b).1 hab
    simp [getEdge, hab, this]
  · by_cases hbc : G.g b c = .null
    · simp [getEdge, hbc, hab]
    · rw [getEdge_eq hab, getEdge_eq hbc]
      simp [(mkEdge_proximal (ne_of_adj h hab) _ _).2, (mkEdge_proximal (ne_of_adj h hbc) _ _).1]

theorem mem_adjacentNodes {G : GG n} (h : G.Pag) {a b : Fin n} : a ∈ G.adjacentNodes b ↔ G.g a b ≠ .null := by
  unfold adjacentNodes
  simp only [List.mem_filter, List.mem_finRange, true_and, Bool.and_eq_true, bne_iff_ne, ne_eq]
  rw [h.symm b a]; simp

theorem mem_nodesInto {G : GG n} (h : G.Pag) {a b : Fin n} {m : Mark} (hm : m = .tail ∨ m = .arrow ∨ m = .circle) :
    a ∈ G.nodesInto b m ↔ G.g b a = m := by
  have := h.marks b a
  unfold nodesInto
  rcases hm with rfl | rfl | rfl <;> simp <;> rcases this with e | e | e | e <;> simp [e]

theorem mem_nodesOutOf {G : GG n} (h : G.Pag) {a b : Fin n} {m : Mark} (hm : m = .tail ∨ m = .arrow ∨ m = .circle) :
    a ∈ G.nodesOutOf b m ↔ G.g a b = m := by
  have := h.marks a b
  unfold nodesOutOf
  rcases hm with rfl | rfl | rfl <;> simp <;> rcases this with e | e | e | e <;> simp [e]

theorem isParentOf_iff {G : GG n} (h : G.Pag) {a b : Fin n} : G.isParentOf a b = true ↔ G.g b a = .arrow ∧ G.g a b = .tail := by
  have := h.marks a b
  unfold isParentOf
  rcases this with e | e | e | e <;> simp [e]

theorem mem_parents {G : GG n} (h : G.Pag) {a b : Fin n} : a ∈ G.parents b ↔ G.g b a = .arrow ∧ G.g a b = .tail := by
  have := h.marks a b
  unfold parents
  simp only [List.mem_filter, List.mem_finRange, true_and]
  rcases this with e | e | e | e <;> simp [e]

theorem allowed_marks {k : Know n} {G : GG n} (h : G.Pag) {x y : Fin n} (ha : allowed k G x y = true) :
    G.g y x = .arrow ∨ G.g y x = .circle := by
  unfold allowed at ha
  by_cases h1 : ep G x y .arrow = true
  · exact Or.inl ((ep_iff h).1 h1).2
  · by_cases h2 : ep G x y .tail = true
    · simp [h1, h2] at ha
    · have : ep G x y .circle = true := by
        revert ha; simp only [h1, h2]; grind
      exact Or.inr ((ep_iff h).1 this).2

/-- Removing a fresh edge and adding new marks on the pair. -/
theorem remove_add_g {G : GG n} (h : G.Pag) {a b : Fin n} (hab : G.g a b ≠ .null) {m1 m2 : Mark}
    (h1 : m1 = .tail ∨ m1 = .arrow ∨ m1 = .circle) (h2 : m2 = .tail ∨ m2 = .arrow ∨ m2 = .circle)
    (hct : ¬ (m1 = .circle ∧ m2 = .tail)) :
    ((G.removeEdge (mkEdge a b (G.g a b) (G.g b a))).addEdge (mkEdge a b m1 m2)).2.g = set2 G.g a b m1 m2 := by
  have hne := ne_of_adj h hab
  have hba : ¬ b = a := fun h => hne h.symm
  have hnb : G.g b a ≠ .null := fun hc => hab ((h.symm a b).2 hc)
  have hm1 := h.marks a b
  have hm2 := h.marks b a
  have hrem : ∃ G0, G.removeEdge (mkEdge a b (G.g a b) (G.g b a)) = G0 ∧ G0.g = set2 G.g a b .null .null := by
    refine ⟨_, rfl, ?_⟩
    funext x y
    rcases hm1 with e1 | e1 | e1 | e1 <;> rcases hm2 with e2 | e2 | e2 | e2 <;>
      first
      | exact absurd e1 hab
      | exact absurd e2 hnb
      | (simp only [e1, e2, mkEdge, pointingLeft, removeEdge, isParentOf]
         simp [e1, e2, upd_apply, hne, hba, set2]
         try grind)
  obtain ⟨G0, e0, hG0⟩ := hrem
  rw [e0]
  have n1 : G0.g a b = .null := by rw [hG0]; simp [set2]
  have n2 : G0.g b a = .null := by rw [hG0]; simp [set2]
  have key : ((G0.addEdge (mkEdge a b m1 m2)).2).g = set2 G0.g a b m1 m2 := by
    funext x y
    rcases h1 with rfl | rfl | rfl <;> rcases h2 with rfl | rfl | rfl <;>
      first
      | exact absurd ⟨rfl, rfl⟩ hct
      | (simp only [mkEdge, pointingLeft]
         simp [addEdge, n1, n2, upd_apply, hne, hba, set2]
         try grind)
  rw [key, hG0]
  funext x y
  unfold set2
  grind

theorem reor_g {G : GG n} (h : G.Pag) {a b : Fin n} (hab : G.g a b ≠ .null) {m1 m2 : Mark}
    (h1 : m1 = .tail ∨ m1 = .arrow ∨ m1 = .circle) (h2 : m2 = .tail ∨ m2 = .arrow ∨ m2 = .circle)
    (hct : ¬ (m1 = .circle ∧ m2 = .tail)) : (reor G a b m1 m2).g = set2 G.g a b m1 m2 := by
  unfold reor
  rw [getEdge_eq hab]
  exact remove_add_g h hab h1 h2 hct

theorem reorKeep_g {G : GG n} (h : G.Pag) {a b : Fin n} (hab : G.g a b ≠ .null) {m : Mark}
    (h2 : m = .tail ∨ m = .arrow ∨ m = .circle) (hct : ¬ (G.g a b = .circle ∧ m = .tail)) :
    (reorKeep G a b m).g = set2 G.g a b (G.g a b) m := by
  unfold reorKeep
  rw [getEdge_eq hab]
  simp only [(mkEdge_proximal (ne_of_adj h hab) _ _).1, Option.getD_some]
  have := h.marks a b
  exact remove_add_g h hab (by tauto) h2 hct

theorem reorKeep2_g {G : GG n} (h : G.Pag) {a b : Fin n} (hab : G.g a b ≠ .null) {m : Mark}
    (h1 : m = .tail ∨ m = .arrow) : (reorKeep2 G a b m).g = set2 G.g a b m (G.g b a) := by
  unfold reorKeep2
  rw [getEdge_eq hab]
  simp only [(mkEdge_proximal (ne_of_adj h hab) _ _).2, Option.getD_some]
  have := h.marks b a
  have hnb : G.g b a ≠ .null := fun hc => hab ((h.symm a b).2 hc)
  exact remove_add_g h hab (by tauto) (by tauto) (by rintro ⟨rfl, -⟩; simp at h1)

theorem set2_pag {G H : GG n} (h : G.Pag) {a b : Fin n} (hab : G.g a b ≠ .null) {m1 m2 : Mark}
    (h1 : m1 = .tail ∨ m1 = .arrow ∨ m1 = .circle) (h2 : m2 = .tail ∨ m2 = .arrow ∨ m2 = .circle)
    (hH : H.g = set2 G.g a b m1 m2) : H.Pag := by
  have hne := ne_of_adj h hab
  refine ⟨fun x y => ?_, fun x => ?_, fun x y => ?_⟩
  · rw [hH]; unfold set2
    have := h.symm x y
    rcases h1 with rfl | rfl | rfl <;> rcases h2 with rfl | rfl | rfl <;> grind
  · rw [hH]; unfold set2
    have := h.diag x
    grind
  · rw [hH]; unfold set2
    have := h.marks x y
    grind

theorem mem_pairsOf {α : Type} {l : List α} {p : α × α} (h : p ∈ pairsOf l) : p.1 ∈ l ∧ p.2 ∈ l := by
  induction l with
  | nil => simp [pairsOf] at h
  | cons a l ih =>
    simp only [pairsOf, List.mem_append, List.mem_map] at h
    rcases h with ⟨b, hb, rfl⟩ | h
    · exact ⟨List.mem_cons_self .., List.mem_cons_of_mem _ hb⟩
    · exact ⟨List.mem_cons_of_mem _ (ih h).1, List.mem_cons_of_mem _ (ih h).2⟩

/-- In a duplicate-free list each unordered pair is listed (in one order). -/
theorem pairsOf_complete {α : Type} {l : List α} {a b : α} (ha : a ∈ l) (hb : b ∈ l) (hab : a ≠ b) :
    (a, b) ∈ pairsOf l ∨ (b, a) ∈ pairsOf l := by
  induction l with
  | nil => simp at ha
  | cons c l ih =>
    simp only [pairsOf, List.mem_append, List.mem_map, Prod.mk.injEq]
    rcases List.mem_cons.1 ha with rfl | ha' <;> rcases List.mem_cons.1 hb with rfl | hb'
    · exact absurd rfl hab
    · exact Or.inl (Or.inl ⟨b, hb', rfl, rfl⟩)
    · exact Or.inr (Or.inl ⟨a, ha', rfl, rfl⟩)
    · rcases ih ha' hb' with h | h
      · exact Or.inl (Or.inr h)
      · exact Or.inr (Or.inr h)

theorem foldl_inv {α β : Type} (Q : β → Prop) (f : β → α → β) (l : List α) (hf : ∀ b, Q b → ∀ t ∈ l, Q (f b t)) (b : β)
    (hb : Q b) : Q (l.foldl f b) := by
  induction l generalizing b with
  | nil => exact hb
  | cons a l ih =>
    exact ih (fun b hb t ht => hf b hb t (List.mem_cons_of_mem _ ht)) _ (hf b hb a (List.mem_cons_self ..))

/-- `H` arises from `G` by replacing circles: same adjacencies, tails and arrowheads stay. -/
structure Refine (G H : GG n) : Prop where
  pag : G.Pag → H.Pag
  step : ∀ a b, H.g a b = G.g a b ∨ (G.g a b = .circle ∧ (H.g a b = .tail ∨ H.g a b = .arrow))

/-- Same adjacencies and no new circles. -/
structure Keep (G H : GG n) : Prop where
  pag : G.Pag → H.Pag
  null : ∀ a b, H.g a b = .null ↔ G.g a b = .null
  circ : ∀ a b, H.g a b = .circle → G.g a b = .circle

theorem Refine.rfl {G : GG n} : Refine G G := ⟨id, fun _ _ => Or.inl (Eq.refl _)⟩
theorem Keep.rfl {G : GG n} : Keep G G := ⟨id, fun _ _ => Iff.rfl, fun _ _ h => h⟩

theorem Refine.trans {G H K : GG n} (h1 : Refine G H) (h2 : Refine H K) : Refine G K := by
  refine ⟨fun h => h2.pag (h1.pag h), fun a b => ?_⟩
  have := h1.step a b
  have := h2.step a b
  grind

theorem Keep.trans {G H K : GG n} (h1 : Keep G H) (h2 : Keep H K) : Keep G K :=
  ⟨fun h => h2.pag (h1.pag h), fun a b => (h2.null a b).trans (h1.null a b), fun a b h => h1.circ a b (h2.circ a b h)⟩

theorem Refine.keep {G H : GG n} (h : Refine G H) : Keep G H := by
  refine ⟨h.pag, fun a b => ?_, fun a b => ?_⟩ <;> have := h.step a b <;> grind

/-- The outcome of a rule relative to its start: circles are refined, and the flag is only raised when a circle is gone. -/
structure Step (s t : GG n × Bool) : Prop where
  ref : Refine s.1 t.1
  flag : t.2 = true → s.2 = true ∨ ∃ a b, s.1.g a b = .circle ∧ t.1.g a b ≠ .circle

/-- As `Step`, but marks other than circles may be overwritten. -/
structure StepK (s t : GG n × Bool) : Prop where
  keep : Keep s.1 t.1
  flag : t.2 = true → s.2 = true ∨ ∃ a b, s.1.g a b = .circle ∧ t.1.g a b ≠ .circle

theorem Step.rfl {s : GG n × Bool} : Step s s := ⟨Refine.rfl, Or.inl⟩
theorem StepK.rfl {s : GG n × Bool} : StepK s s := ⟨Keep.rfl, Or.inl⟩
theorem Step.toK {s t : GG n × Bool} (h : Step s t) : StepK s t := ⟨h.ref.keep, h.flag⟩

theorem StepK.trans {s t u : GG n × Bool} (h1 : StepK s t) (h2 : StepK t u) : StepK s u := by
  refine ⟨h1.keep.trans h2.keep, fun hu => ?_⟩
  rcases h2.flag hu with h | ⟨a, b, ha, hb⟩
  · rcases h1.flag h with h | ⟨a, b, ha, hb⟩
    · exact Or.inl h
    · exact Or.inr ⟨a, b, ha, fun hc => hb (h2.keep.circ a b hc)⟩
  · exact Or.inr ⟨a, b, h1.keep.circ a b ha, hb⟩

theorem Step.trans {s t u : GG n × Bool} (h1 : Step s t) (h2 : Step t u) : Step s u :=
  ⟨h1.ref.trans h2.ref, (h1.toK.trans h2.toK).flag⟩

/-- A step that certainly removed a circle of the starting graph may raise the flag. -/
theorem Step.set {s t : GG n × Bool} (h : Step s t) {H : GG n} (hr : Refine t.1 H)
    (hc : ∃ a b, s.1.g a b = .circle ∧ H.g a b ≠ .circle) : Step s (H, true) := ⟨h.ref.trans hr, fun _ => Or.inr hc⟩

/-- Composite of loops: each body is a step from every state. -/
theorem Step.fold {α : Type} {s t : GG n × Bool} (f : GG n × Bool → α → GG n × Bool) (l : List α) (h : Step s t) (hs : s.1.Pag)
    (hf : ∀ u, Step s u → u.1.Pag → ∀ x ∈ l, Step s (f u x)) : Step s (l.foldl f t) :=
  foldl_inv (Step s) f l (fun u hu x hx => hf u hu (hu.ref.pag hs) x hx) t h

theorem StepK.fold {α : Type} {s t : GG n × Bool} (f : GG n × Bool → α → GG n × Bool) (l : List α) (h : StepK s t) (hs : s.1.Pag)
    (hf : ∀ u, StepK s u → u.1.Pag → ∀ x ∈ l, StepK s (f u x)) : StepK s (l.foldl f t) :=
  foldl_inv (StepK s) f l (fun u hu x hx => hf u hu (hu.keep.pag hs) x hx) t h

theorem Refine.set2 {G H : GG n} (h : G.Pag) {a b : Fin n} (hab : G.g a b ≠ .null) {m1 m2 : Mark}
    (h1 : m1 = G.g a b ∨ (G.g a b = .circle ∧ (m1 = .tail ∨ m1 = .arrow)))
    (h2 : m2 = G.g b a ∨ (G.g b a = .circle ∧ (m2 = .tail ∨ m2 = .arrow))) (hH : H.g = set2 G.g a b m1 m2) : Refine G H := by
  have hnb : G.g b a ≠ .null := fun hc => hab ((h.symm a b).2 hc)
  have e1 := h.marks a b
  have e2 := h.marks b a
  refine ⟨fun _ => set2_pag h hab (by grind) (by grind) hH, fun x y => ?_⟩
  rw [hH]
  unfold Fci.set2
  grind

/-- All marks of a pair after `reor` etc. -/
theorem set2_left {g : MMat n} {a b : Fin n} {m1 m2 : Mark} : set2 g a b m1 m2 a b = m1 := by simp [set2]

theorem set2_right {g : MMat n} {a b : Fin n} (hab : a ≠ b) {m1 m2 : Mark} : set2 g a b m1 m2 b a = m2 := by
  have : ¬ b = a := fun h => hab h.symm
  simp [set2, this]

end Fci
end CL
