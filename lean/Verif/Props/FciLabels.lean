import Verif.Model.FciLabels
import Verif.Props.FciSound

/-!
# C113–C115: the labels `dd`, `pd`, `nl`, `pl` on the edges returned by `fci`
-/
namespace CL
open GG Relation Spec
variable {n : Nat} {V : Type}
namespace Fci

theorem remove_dir_g {G : GG n} (h : G.Pag) {a b : Fin n} (h1 : G.g a b = .tail) (h2 : G.g b a = .arrow) :
    (G.removeEdge (mkEdge a b .tail .arrow)).g = set2 G.g a b .null .null := by
  have hab : G.g a b ≠ .null := by simp [h1]
  have hne := ne_of_adj h hab
  have hba : ¬ b = a := fun h => hne h.symm
  funext x y
  simp only [h1, h2, mkEdge, pointingLeft, removeEdge, isParentOf]
  simp [h1, h2, upd_apply, hne, hba, set2]
  try grind

theorem readd_g {G : GG n} (h : G.Pag) {a b : Fin n} (h1 : G.g a b = .tail) (h2 : G.g b a = .arrow) :
    ((G.removeEdge (mkEdge a b .tail .arrow)).addEdge (mkEdge a b .tail .arrow)).2.g = G.g := by
  have hab : G.g a b ≠ .null := by simp [h1]
  have hne := ne_of_adj h hab
  have := remove_add_g h hab (m1 := .tail) (m2 := .arrow) (by simp) (by simp) (by simp)
  rw [h1, h2] at this
  rw [this]
  funext x y
  unfold set2
  split
  · rename_i e; rw [e.1, e.2, h1]
  · split
    · rename_i e; rw [e.1, e.2, h2]
    · rfl

theorem null2_pag {G H : GG n} (h : G.Pag) {a b : Fin n} (e : H.g = set2 G.g a b .null .null) : H.Pag := by
  refine ⟨fun x y => ?_, fun x => ?_, fun x y => ?_⟩
  · rw [e]; unfold set2; have := h.symm x y; grind
  · rw [e]; unfold set2; have := h.diag x; grind
  · rw [e]; unfold set2; have := h.marks x y; grind

theorem pag_of_g {G H : GG n} (h : G.Pag) (e : H.g = G.g) : H.Pag := by
  refine ⟨?_, ?_, ?_⟩ <;> rw [e]
  exacts [h.symm, h.diag, h.marks]

theorem two_of_nodup {α : Type} {l : List α} {a b u v : α} (hnd : l.Nodup) (hh : l.head? = some a) (hl : l.getLast? = some b) (hi : [u, v] <:+: l) :
    (u = a → v = b → l = [a, b]) ∧ ¬ (u = b ∧ v = a) := by
  obtain ⟨s, t, rfl⟩ := hi
  constructor
  · rintro rfl rfl
    rcases s with _ | ⟨x, s⟩
    · rcases t with _ | ⟨y, t⟩
      · rfl
      · exfalso
        have hv : v ∈ (y :: t) := by
          have : (y :: t).getLast? = some v := by
            rw [← hl]; simp [List.getLast?_append, List.getLast?_cons]
          exact List.mem_of_getLast? this
        simp at hnd hv
        tauto
    · simp at hh; subst hh; simp at hnd
  · rintro ⟨rfl, rfl⟩
    rcases s with _ | ⟨x, s⟩
    · simp at hh; subst hh; simp at hnd
    · simp at hh; subst hh; simp at hnd

theorem endp_iff {G : GG n} (h : G.Pag) {a b : Fin n} {m : Mark} (hm : m ≠ .null) : G.getEndpoint a b = some m ↔ G.g b a = m := by
  have := ep_iff h (a := a) (b := b) (m := m)
  simpa [ep, hm] using this

/-- a semi-directed path that is not the edge itself -/
theorem detour_iff {G G0 : GG n} (h : G.Pag) {a b : Fin n} (hab : a ≠ b) (e : G0.g = set2 G.g a b .null .null) :
    existsSemi G0 a b = true ↔ ∃ l, G.SemiWalk a b l ∧ l.Nodup ∧ l ≠ [a, b] := by
  have h0 := null2_pag h e
  rw [C30_semi_directed_path_exact h0 hab]
  have key : ∀ u v, ¬ (u = a ∧ v = b) → ¬ (u = b ∧ v = a) →
      ((G0.isAdj u v = true ∧ G0.getEndpoint v u ≠ some .arrow) ↔ (G.isAdj u v = true ∧ G.getEndpoint v u ≠ some .arrow)) := by
    intro u v q1 q2
    rw [← semi_iff h, ← semi_iff h0]
    unfold Semi
    rw [e]; unfold set2
    simp only [q1, q2, if_false]
  constructor
  · rintro ⟨l, ⟨a1, a2, a3, a4⟩, hnd⟩
    refine ⟨l, ⟨a1, a2, a3, fun u v hi => ?_⟩, hnd, ?_⟩
    · have hs := a4 u v hi
      refine (key u v ?_ ?_).1 hs
      · rintro ⟨rfl, rfl⟩
        have := (semi_iff h0).2 hs
        unfold Semi at this; rw [e] at this; simp [set2] at this
      · exact (two_of_nodup hnd a2 a3 hi).2
    · rintro rfl
      have := (semi_iff h0).2 (a4 a b ⟨[], [], rfl⟩)
      unfold Semi at this; rw [e] at this; simp [set2] at this
  · rintro ⟨l, ⟨a1, a2, a3, a4⟩, hnd, hne⟩
    refine ⟨l, ⟨a1, a2, a3, fun u v hi => (key u v ?_ ?_).2 (a4 u v hi)⟩, hnd⟩
    · rintro ⟨rfl, rfl⟩; exact hne ((two_of_nodup hnd a2 a3 hi).1 rfl rfl)
    · exact (two_of_nodup hnd a2 a3 hi).2

/-- the recursive search is entered with its start node already on the path -/
theorem helper_fold {G : GG n} {a b : Fin n} : ∀ (l : List (Fin n)) (s : Bool × List (Fin n)), a ∈ s.2 →
    ((l.foldl (helperStep G a b) s).1 = true ↔ s.1 = true ∨ ∃ c ∈ l, G.isParentOf c a = true) := by
  intro l
  induction l with
  | nil => intro s _; simp
  | cons c l ih =>
    intro s hs
    have hst : helperStep G a b s c = if s.1 then s else if G.isParentOf c a then (true, s.2) else (false, s.2) := by
      unfold helperStep visit
      simp [hs]
    rw [List.foldl_cons, hst]
    rcases s with ⟨s1, s2⟩
    cases s1
    · by_cases hp : G.isParentOf c a = true
      · rw [ih _ (by simpa [hp] using hs)]; simp [hp]
      · rw [ih _ (by simpa [hp] using hs)]; simp [hp]
    · rw [ih _ (by simpa using hs)]; simp

theorem visible_iff {G : GG n} (h : G.Pag) {a b : Fin n} (h1 : G.g a b = .tail) (h2 : G.g b a = .arrow) :
    ∃ v, defVisible G (mkEdge a b .tail .arrow) = some v ∧
      (v = true ↔ (∃ c, c ≠ b ∧ G.isAdj c b = false ∧ G.getEndpoint c a = some .arrow) ∨
        ∃ c, G.getEndpoint c a = some .arrow ∧ G.getEndpoint a c = some .tail) := by
  have he : mkEdge a b .tail .arrow = ⟨a, b, .tail, .arrow, .tail, .arrow⟩ := by simp [mkEdge, pointingLeft]
  refine ⟨_, by rw [defVisible, if_pos]; rw [he]; simp [containsEdge, h1, h2], ?_⟩
  rw [he]
  simp only [ends, if_true, Bool.or_eq_true, List.any_eq_true]
  have hh : visibleHelper G a b = true ↔ ∃ c, G.getEndpoint c a = some .arrow ∧ G.getEndpoint a c = some .tail := by
    unfold visibleHelper
    rw [helper_fold _ _ (by simp)]
    simp only [Bool.false_eq_true, false_or]
    constructor
    · rintro ⟨c, -, hc⟩
      rw [isParentOf_iff h] at hc
      exact ⟨c, (endp_iff h (by simp)).2 hc.1, (endp_iff h (by simp)).2 hc.2⟩
    · rintro ⟨c, q1, q2⟩
      rw [endp_iff h (by simp)] at q1 q2
      exact ⟨c, (mem_nodesInto h (by simp)).2 q1, (isParentOf_iff h).2 ⟨q1, q2⟩⟩
  rw [hh]
  refine or_congr ⟨?_, ?_⟩ Iff.rfl
  · rintro ⟨c, -, hc⟩
    unfold visibleBy at hc
    simp only [Bool.and_eq_true, decide_eq_true_eq, Bool.not_eq_true', beq_iff_eq] at hc
    exact ⟨c, hc.1.1, hc.1.2, hc.2⟩
  · rintro ⟨c, q1, q2, q3⟩
    refine ⟨c, (mem_adjacentNodes h).2 ?_, ?_⟩
    · have := (endp_iff h (by simp)).1 q3
      exact fun hc => by rw [(h.symm c a).1 hc] at this; simp at this
    · unfold visibleBy
      simp only [Bool.and_eq_true, decide_eq_true_eq, Bool.not_eq_true', beq_iff_eq]
      exact ⟨⟨q1, q2⟩, q3⟩

end Fci

/-- The two labels of a directed edge `a → b` and what they are decided by. -/
def GG.Labelled (G : GG n) (a b : Fin n) (ls : List Fci.Label) : Prop := ∃ x y, ls = [x, y] ∧ (x = .dd ∨ x = .pd) ∧ (y = .nl ∨ y = .pl) ∧
  (x = .dd ↔ ¬ ∃ l, G.SemiWalk a b l ∧ l.Nodup ∧ l ≠ [a, b]) ∧
  (y = .nl ↔ (∃ c, c ≠ b ∧ G.isAdj c b = false ∧ G.getEndpoint c a = some .arrow) ∨
    ∃ c, G.getEndpoint c a = some .arrow ∧ G.getEndpoint a c = some .tail)

namespace Fci

theorem labelled_congr {G H : GG n} (e : H.g = G.g) {a b : Fin n} {ls : List Label} : H.Labelled a b ls ↔ G.Labelled a b ls := by
  have e1 : ∀ x y, H.isAdj x y = G.isAdj x y := fun x y => by simp [isAdj, e]
  have e2 : ∀ x y, H.getEndpoint x y = G.getEndpoint x y := fun x y => by simp [getEndpoint, getEdge, e]
  have e3 : ∀ l, H.SemiWalk a b l ↔ G.SemiWalk a b l := fun l => by unfold GG.SemiWalk; simp only [e1, e2]
  unfold GG.Labelled
  simp only [e1, e2, e3]

theorem colorDirected_spec {G : GG n} (h : G.Pag) {a b : Fin n} (h1 : G.g a b = .tail) (h2 : G.g b a = .arrow) :
    ∃ H ls, colorDirected G (mkEdge a b .tail .arrow) = some (H, ls) ∧ H.g = G.g ∧ G.Labelled a b ls := by
  have hab : a ≠ b := ne_of_adj h (by simp [h1])
  have hg := readd_g h h1 h2
  obtain ⟨v, hv, hvi⟩ := visible_iff (pag_of_g h hg) (a := a) (b := b) (by rw [hg, h1]) (by rw [hg, h2])
  refine ⟨_, _, by rw [colorDirected, hv]; rfl, hg, ?_⟩
  rw [← labelled_congr hg]
  have hends : ends (mkEdge a b .tail .arrow) = (a, b) := by simp [ends, mkEdge, pointingLeft]
  refine ⟨_, _, rfl, ?_, ?_, ?_, ?_⟩
  · split <;> simp
  · split <;> simp
  · have hd := detour_iff h hab (remove_dir_g h h1 h2)
    have e3 : ∀ l, (((G.removeEdge (mkEdge a b .tail .arrow)).addEdge (mkEdge a b .tail .arrow)).2).SemiWalk a b l ↔ G.SemiWalk a b l := by
      intro l
      unfold GG.SemiWalk
      simp only [isAdj, getEndpoint, getEdge, hg]
    simp only [e3]
    rw [← hd, hends]
    split <;> simp_all
  · rw [← hvi]
    split <;> simp_all

theorem colorLoop_spec {G : GG n} (h : G.Pag) : ∀ (es : List (Edge n)) (K : GG n), K.g = G.g →
    (∀ e ∈ es, ∃ i j, i ≠ j ∧ G.g i j ≠ .null ∧ e = mkEdge i j (G.g i j) (G.g j i)) →
    ∃ H out, colorLoop K es = some (H, out) ∧ H.g = G.g ∧ out.map Prod.fst = es ∧
      ∀ p ∈ out, (p.1.end1 = .tail ∧ p.1.end2 = .arrow → G.Labelled p.1.node1 p.1.node2 p.2) ∧
        (¬ (p.1.end1 = .tail ∧ p.1.end2 = .arrow) → p.2 = []) := by
  intro es
  induction es with
  | nil => intro K hK _; exact ⟨K, [], rfl, hK, rfl, by simp⟩
  | cons e es ih =>
    intro K hK hes
    have hes' : ∀ e ∈ es, ∃ i j, i ≠ j ∧ G.g i j ≠ .null ∧ e = mkEdge i j (G.g i j) (G.g j i) := fun e he => hes e (List.mem_cons_of_mem _ he)
    obtain ⟨i, j, hij, hnn, he⟩ := hes e (by simp)
    have hflip : ¬ (e.end1 = .arrow ∧ e.end2 = .tail) := by
      rw [he]; unfold mkEdge pointingLeft; split <;> grind
    by_cases hd : e.end1 = .tail ∧ e.end2 = .arrow
    · have hsh : ∃ a b, G.g a b = .tail ∧ G.g b a = .arrow ∧ e = mkEdge a b .tail .arrow ∧ e.node1 = a ∧ e.node2 = b := by
        rw [he] at hd ⊢
        unfold mkEdge at hd ⊢
        split at hd
        · rename_i hp
          simp only at hd
          exact ⟨j, i, hd.1, hd.2, by simp [hp, hd.1, hd.2, pointingLeft], by simp [hp], by simp [hp]⟩
        · rename_i hp
          simp only at hd
          exact ⟨i, j, hd.1, hd.2, by simp [hp, hd.1, hd.2], by simp [hp], by simp [hp]⟩
      obtain ⟨a, b, h1, h2, rfl, n1, n2⟩ := hsh
      obtain ⟨K', ls, hc, hg, hl⟩ := colorDirected_spec (pag_of_g h hK) (a := a) (b := b) (by rw [hK, h1]) (by rw [hK, h2])
      obtain ⟨H, out, ho, hH, hm, hp⟩ := ih K' (hg.trans hK) hes'
      refine ⟨H, (mkEdge a b .tail .arrow, ls) :: out, ?_, hH, by simp [hm], ?_⟩
      · have : isDirectedEdge (mkEdge a b .tail .arrow) = true := by simp [isDirectedEdge, hd.1, hd.2]
        simp [colorLoop, this, hc, ho]
      · intro p hp'
        rcases List.mem_cons.1 hp' with rfl | hp'
        · refine ⟨fun _ => ?_, fun hn => absurd hd hn⟩
          dsimp only
          rw [n1, n2]
          exact (labelled_congr hK).1 hl
        · exact hp p hp'
    · have : isDirectedEdge e = false := by
        unfold isDirectedEdge
        grind
      obtain ⟨H, out, ho, hH, hm, hp⟩ := ih K hK hes'
      refine ⟨H, (e, []) :: out, by simp [colorLoop, this, ho], hH, by simp [hm], ?_⟩
      intro p hp'
      rcases List.mem_cons.1 hp' with rfl | hp'
      · exact ⟨fun hc => absurd hc hd, fun _ => rfl⟩
      · exact hp p hp'

end Fci

/-- **C113.** `get_color_edges` on every mixed graph: it raises nothing, leaves all marks of the graph as they were and returns
the edges of the graph in order. A directed edge `a → b` gets exactly two labels: `dd` or `pd`, then `nl` or `pl`; every other edge none.
`dd` says that the edge is the only semi-directed path from `a` to `b`; `nl` is given if some edge into `a` comes from a node not adjacent to `b`,
or if `a` has a parent. -/
theorem C113_labels {G : GG n} (h : G.Pag) : ∃ H out, Fci.colorEdges G = some (H, out) ∧ H.g = G.g ∧ out.map Prod.fst = G.graphEdges ∧
    ∀ p ∈ out, (p.1.end1 = .tail ∧ p.1.end2 = .arrow → G.Labelled p.1.node1 p.1.node2 p.2) ∧
      (¬ (p.1.end1 = .tail ∧ p.1.end2 = .arrow) → p.2 = []) := by
  refine Fci.colorLoop_spec h _ G rfl fun e he => ?_
  rw [graphEdges_eq h.wf h.simple, List.mem_map] at he
  obtain ⟨p, hp, rfl⟩ := he
  simp only [List.mem_filter, bne_iff_ne] at hp
  exact ⟨p.1, p.2, Fci.ne_of_adj h hp.2, hp.2, rfl⟩

/-! ## C114: `dd` -/

/-- A directed walk of the causal graph from `x` to `y` with the inner nodes `l`. -/
def _root_.Spec.CausalWalk (E : V → V → Prop) (x : V) (l : List V) (y : V) : Prop := (x :: (l ++ [y])).IsChain E

namespace Fci
variable {E : V → V → Prop} {o : Fin n → V} {Sel : Set V}

theorem walk_transGen {E : V → V → Prop} : ∀ (l : List V) (x y : V), CausalWalk E x l y → TransGen E x y
  | [], x, y, h => .single (by simpa [CausalWalk] using h)
  | z :: l, x, y, h => by
    have : E x z ∧ CausalWalk E z l y := by simpa [CausalWalk] using h
    exact .head this.1 (walk_transGen l z y this.2)

theorem walk_split {E : V → V → Prop} : ∀ (l1 l2 : List V) (x z y : V), CausalWalk E x (l1 ++ z :: l2) y → CausalWalk E x l1 z ∧ CausalWalk E z l2 y
  | [], l2, x, z, y, h => by
    have : E x z ∧ CausalWalk E z l2 y := by simpa [CausalWalk] using h
    exact ⟨by simpa [CausalWalk] using this.1, this.2⟩
  | w :: l1, l2, x, z, y, h => by
    have : E x w ∧ CausalWalk E w (l1 ++ z :: l2) y := by simpa [CausalWalk] using h
    obtain ⟨a1, a2⟩ := walk_split l1 l2 w z y this.2
    exact ⟨by simpa [CausalWalk] using ⟨this.1, a1⟩, a2⟩

/-- a directed walk around the conditioning set is active -/
theorem walk_aw {E : V → V → Prop} {Z : Set V} : ∀ (l : List V) (x y : V), CausalWalk E x l y → (∀ v ∈ l, v ∉ Z) → AW E Z x false y true
  | [], x, y, h, _ => .fwd (by simpa [CausalWalk] using h)
  | z :: l, x, y, h, hz => by
    have : E x z ∧ CausalWalk E z l y := by simpa [CausalWalk] using h
    exact .join (.fwd this.1) (walk_aw l z y this.2 fun v hv => hz v (List.mem_cons_of_mem _ hv)) (by simp) (fun _ => hz z (by simp))

/-- variables joined by a directed walk through unobserved variables cannot be separated -/
theorem latent_insep (hac : Acyclic E) {x y : Fin n} {l : List V} (h : CausalWalk E (o x) l (o y)) (hl : ∀ v ∈ l, v ∉ Sel ∧ ∀ i, o i ≠ v) :
    ¬ Separable E o Sel x y := by
  rintro ⟨S, -, -, hS⟩
  refine hS (AW.dConn hac (walk_aw l _ _ h fun v hv => ?_))
  rintro (⟨i, -, rfl⟩ | h')
  · exact (hl _ hv).2 i rfl
  · exact (hl v hv).1 h'

/-- a directed walk of the causal graph shows as a semi-directed walk, away from one pair of nodes -/
theorem semi_of_walk {G G0 : GG n} (h : G.Pag) (hac : Acyclic E) (hM : G.MarksTrue E o Sel)
    (hadj : ∀ x y, x ≠ y → ¬ Separable E o Sel x y → G.isAdj x y = true) {a b : Fin n} (e : G0.g = set2 G.g a b .null .null) :
    ∀ (k : Nat) (l : List V) (x y : Fin n), l.length ≤ k → CausalWalk E (o x) l (o y) → (∀ v ∈ l, v ∉ Sel) →
      ¬ (o a ∈ o x :: (l ++ [o y]) ∧ o b ∈ o x :: (l ++ [o y])) → TransGen (Semi G0) x y := by
  intro k
  induction k with
  | zero =>
    intro l x y hk hp hl hn
    have hl0 : l = [] := List.length_eq_zero_iff.1 (by omega)
    subst hl0
    exact step [] x y hp (by simp) hn (by simp)
  | succ k ih =>
    intro l x y hk hp hl hn
    by_cases hob : ∃ i, o i ∈ l
    · obtain ⟨i, hi⟩ := hob
      obtain ⟨l1, l2, rfl⟩ := List.append_of_mem hi
      obtain ⟨p1, p2⟩ := walk_split l1 l2 _ _ _ hp
      simp only [List.length_append, List.length_cons] at hk
      refine (ih l1 x i (by omega) p1 (fun v hv => hl v (by simp [hv])) ?_).trans (ih l2 i y (by omega) p2 (fun v hv => hl v (by simp [hv])) ?_)
      · rintro ⟨q1, q2⟩; apply hn; simp at q1 q2 ⊢; tauto
      · rintro ⟨q1, q2⟩; apply hn; simp at q1 q2 ⊢; tauto
    · exact step l x y hp hl hn hob
where
  step (l : List V) (x y : Fin n) (hp : CausalWalk E (o x) l (o y)) (hl : ∀ v ∈ l, v ∉ Sel)
      (hn : ¬ (o a ∈ o x :: (l ++ [o y]) ∧ o b ∈ o x :: (l ++ [o y]))) (hob : ¬ ∃ i, o i ∈ l) : TransGen (Semi G0) x y := by
    have ht := walk_transGen _ _ _ hp
    have hxy : x ≠ y := by rintro rfl; exact hac _ ht
    have hA := hadj x y hxy (latent_insep hac hp fun v hv => ⟨hl v hv, fun i q => hob ⟨i, q ▸ hv⟩⟩)
    have hc : Causes E Sel (o x) (o y) := ⟨o y, by simp, ht.to_reflTransGen⟩
    have hs : Semi G x y := (semi_iff h).2 ⟨hA, fun q => (hM y x).1 q hc⟩
    refine .single ?_
    unfold Semi at hs ⊢
    rw [e]
    unfold set2
    have q1 : ¬ (x = a ∧ y = b) := by rintro ⟨rfl, rfl⟩; exact hn (by simp)
    have q2 : ¬ (x = b ∧ y = a) := by rintro ⟨rfl, rfl⟩; exact hn (by simp)
    simp only [q1, q2, if_false]
    exact hs

end Fci

/-- **C114.** If the marks of the graph are true of the causal graph and pairs no set separates are adjacent (what FCI establishes), then on an edge
`a → b` labelled `dd` (definitely direct) every directed path of the causal graph from `a` to `b` (outside the selection variables) runs through unobserved variables only. -/
theorem C114_definitely_direct {E : V → V → Prop} {o : Fin n → V} {Sel : Set V} (hac : Acyclic E) {G : GG n} (h : G.Pag)
    (hM : G.MarksTrue E o Sel) (hadj : ∀ x y, x ≠ y → ¬ Separable E o Sel x y → G.isAdj x y = true)
    {H : GG n} {out : List (Edge n × List Fci.Label)} (hc : Fci.colorEdges G = some (H, out)) {p : Edge n × List Fci.Label} (hp : p ∈ out)
    (hdd : Fci.Label.dd ∈ p.2) : ∀ l, CausalWalk E (o p.1.node1) l (o p.1.node2) → (∀ v ∈ l, v ∉ Sel) → ∀ i, o i ∉ l := by
  obtain ⟨H', out', hc', -, hm, hlab⟩ := C113_labels h
  rw [hc] at hc'
  cases hc'
  obtain ⟨g1, g2⟩ := hlab p hp
  have hdir : p.1.end1 = .tail ∧ p.1.end2 = .arrow := by
    by_contra hcon
    rw [g2 hcon] at hdd
    simp at hdd
  obtain ⟨x, y, hxy, hx, hy, hxi, -⟩ := g1 hdir
  have hxd : x = .dd := by
    rw [hxy] at hdd
    rcases hx with rfl | rfl <;> rcases hy with rfl | rfl <;> simp at hdd ⊢
  intro l hl hsel i hi
  obtain ⟨l1, l2, rfl⟩ := List.append_of_mem hi
  obtain ⟨p1, p2⟩ := Fci.walk_split l1 l2 _ _ _ hl
  refine hxi.1 hxd ?_
  have hne : p.1.node1 ≠ p.1.node2 := by
    intro q
    rw [q] at hl
    exact hac _ (Fci.walk_transGen _ _ _ hl)
  obtain ⟨G0, e⟩ : ∃ G0 : GG n, G0.g = Fci.set2 G.g p.1.node1 p.1.node2 .null .null := ⟨⟨_, fun _ _ => false⟩, rfl⟩
  rw [← Fci.detour_iff h hne e, Fci.existsSemi_iff (Fci.null2_pag h e)]
  refine (Fci.semi_of_walk h hac hM hadj e _ l1 _ i le_rfl p1 (fun v hv => hsel v (by simp [hv])) ?_).trans
    (Fci.semi_of_walk h hac hM hadj e _ l2 i _ le_rfl p2 (fun v hv => hsel v (by simp [hv])) ?_)
  · rintro ⟨-, q2⟩
    -- the head is after `i` already
    have t2 := Fci.walk_transGen _ _ _ p2
    simp only [List.mem_cons, List.mem_append, List.not_mem_nil, or_false] at q2
    rcases q2 with q2 | q2 | q2
    · rw [q2] at t2
      exact hac _ ((Fci.walk_transGen _ _ _ p1).trans t2)
    · obtain ⟨m1, m2, rfl⟩ := List.append_of_mem q2
      exact hac _ ((Fci.walk_transGen _ _ _ (Fci.walk_split m1 m2 _ _ _ p1).2).trans t2)
    · rw [← q2] at t2; exact hac _ t2
  · rintro ⟨q1, -⟩
    have t1 := Fci.walk_transGen _ _ _ p1
    simp only [List.mem_cons, List.mem_append, List.not_mem_nil, or_false] at q1
    rcases q1 with q1 | q1 | q1
    · rw [q1] at t1; exact hac _ t1
    · obtain ⟨m1, m2, rfl⟩ := List.append_of_mem q1
      exact hac _ (t1.trans (Fci.walk_transGen _ _ _ (Fci.walk_split m1 m2 _ _ _ p2).1))
    · rw [← q1] at p2
      exact hac _ (t1.trans (Fci.walk_transGen _ _ _ p2))

namespace Fci

theorem walk_of_transGen {E : V → V → Prop} {x y : V} (h : TransGen E x y) : ∃ l, CausalWalk E x l y := by
  induction h using TransGen.head_induction_on with
  | single h => exact ⟨[], by simpa [CausalWalk] using h⟩
  | @head c d h _ ih =>
    obtain ⟨l, hl⟩ := ih
    exact ⟨d :: l, by simpa [CausalWalk] using ⟨h, hl⟩⟩

/-- what a label tells about the edge that carries it -/
theorem label_edge {G : GG n} (h : G.Pag) {H : GG n} {out : List (Edge n × List Label)} (hc : colorEdges G = some (H, out))
    {p : Edge n × List Label} (hp : p ∈ out) {x : Label} (hx : x ∈ p.2) :
    p.1.node1 ≠ p.1.node2 ∧ G.getEndpoint p.1.node2 p.1.node1 = some .tail ∧ G.getEndpoint p.1.node1 p.1.node2 = some .arrow ∧
      G.Labelled p.1.node1 p.1.node2 p.2 := by
  obtain ⟨H', out', hc', -, hm, hlab⟩ := C113_labels h
  rw [hc] at hc'
  cases hc'
  obtain ⟨g1, g2⟩ := hlab p hp
  have hdir : p.1.end1 = .tail ∧ p.1.end2 = .arrow := by
    by_contra hcon
    rw [g2 hcon] at hx
    simp at hx
  have hmem : p.1 ∈ G.graphEdges := by rw [← hm]; exact List.mem_map_of_mem hp
  rw [graphEdges_eq h.wf h.simple, List.mem_map] at hmem
  obtain ⟨q, hq, hqe⟩ := hmem
  simp only [List.mem_filter, bne_iff_ne] at hq
  have hne := ne_of_adj h hq.2
  refine ⟨?_, ?_, ?_, g1 hdir⟩
  all_goals
    rw [← hqe] at hdir ⊢
    try rw [endp_iff h (by simp)]
    unfold mkEdge at hdir ⊢
    split at hdir <;> rename_i hp' <;> simp only [hp', if_true, if_false, Bool.false_eq_true] at hdir ⊢
    first
      | exact hne.symm
      | exact hdir.1
      | exact hdir.2
    first
      | exact hne
      | exact hdir.1
      | exact hdir.2

end Fci

/-- **C114.** Without selection variables: an edge `a → b` labelled `dd` stands for a directed path of the causal graph from `a` to `b` whose inner nodes are
all unobserved. -/
theorem C114_direct_cause {E : V → V → Prop} {o : Fin n → V} (hac : Acyclic E) (ho : Function.Injective o) {G : GG n} (h : G.Pag)
    (hM : G.MarksTrue E o ∅) (hadj : ∀ x y, x ≠ y → ¬ Separable E o ∅ x y → G.isAdj x y = true)
    {H : GG n} {out : List (Edge n × List Fci.Label)} (hc : Fci.colorEdges G = some (H, out)) {p : Edge n × List Fci.Label} (hp : p ∈ out)
    (hdd : Fci.Label.dd ∈ p.2) : ∃ l, CausalWalk E (o p.1.node1) l (o p.1.node2) ∧ ∀ i, o i ∉ l := by
  obtain ⟨hne, ht, -, -⟩ := Fci.label_edge h hc hp hdd
  obtain ⟨z, hz, hr⟩ := (hM _ _).2 ht
  simp only [Set.union_empty, Set.mem_singleton_iff] at hz
  subst hz
  have htr : TransGen E (o p.1.node1) (o p.1.node2) := (reflTransGen_iff_eq_or_transGen.1 hr).resolve_left (fun e => hne (ho e.symm))
  obtain ⟨l, hl⟩ := Fci.walk_of_transGen htr
  exact ⟨l, hl, C114_definitely_direct hac h hM hadj hc hp hdd l hl (by simp)⟩

/-- `C114` on a run of `fci` with a latent variable: `0 → 2 ← 1`, `2 → 3 ← L → 4`. The edge `2 → 3` gets the labels `dd` and `nl`, the others none. -/
example : ∃ H out, Fci.fciLabelled (exEnv (oracleOf mE (Fin.castSucc : Fin 5 → Fin 6)) Know.none) none = some (H, out) ∧
    (out.map fun p => (p.1.node1, p.1.node2, p.2)) = [(0, 2, []), (1, 2, []), (2, 3, [.dd, .nl]), (4, 3, [])] := by
  obtain ⟨q, e, h⟩ := Fci.elim_decide (o := Fci.fciLabelled (exEnv (oracleOf mE (Fin.castSucc : Fin 5 → Fin 6)) Know.none) none)
    (P := fun q => (q.2.map fun p => (p.1.node1, p.1.node2, p.2)) = [((0 : Fin 5), (2 : Fin 5), []), (1, 2, []), (2, 3, [.dd, .nl]), (4, 3, [])]) (by decide +kernel)
  exact ⟨q.1, q.2, e, h⟩

/-! ## C115: `nl` -/

/-- `a` and `b` have an unobserved common cause that reaches both through unobserved variables only. -/
def _root_.Spec.Confounded (E : V → V → Prop) (o : Fin n → V) (Sel : Set V) (a b : Fin n) : Prop :=
  ∃ L l1 l2, (∀ v ∈ L :: (l1 ++ l2), v ∉ Sel ∧ ∀ i, o i ≠ v) ∧ CausalWalk E L l1 (o a) ∧ CausalWalk E L l2 (o b)

/-- **C115 (partial).** Under the hypotheses of C114, an edge `a → b` labelled `nl` (no latent confounder) has no latent confounder of `a` and `b` — *if every
parent of `a` in the graph is non-adjacent to `b`*. Without that condition the claim is false, see `C115_parent_violated`. -/
theorem C115_no_latent_partial {E : V → V → Prop} {o : Fin n → V} {Sel : Set V} (hac : Acyclic E) (ho : Function.Injective o) (hs : ∀ i, o i ∉ Sel)
    {G : GG n} (h : G.Pag) (hM : G.MarksTrue E o Sel) (hadj : ∀ x y, x ≠ y → ¬ Separable E o Sel x y → G.isAdj x y = true)
    (hins : ∀ x y, G.isAdj x y = true → ¬ Separable E o Sel x y)
    {H : GG n} {out : List (Edge n × List Fci.Label)} (hc : Fci.colorEdges G = some (H, out)) {p : Edge n × List Fci.Label} (hp : p ∈ out)
    (hnl : Fci.Label.nl ∈ p.2)
    (hpar : ∀ c, G.getEndpoint c p.1.node1 = some .arrow → G.getEndpoint p.1.node1 c = some .tail → G.isAdj c p.1.node2 = false) :
    ¬ Confounded E o Sel p.1.node1 p.1.node2 := by
  obtain ⟨hne, ht, harr, x, y, hxy, hx, hy, -, hyi⟩ := Fci.label_edge h hc hp hnl
  have hyn : y = .nl := by
    rw [hxy] at hnl
    rcases hx with rfl | rfl <;> rcases hy with rfl | rfl <;> simp at hnl ⊢
  have hcrit : ∃ c, c ≠ p.1.node2 ∧ G.isAdj c p.1.node2 = false ∧ G.getEndpoint c p.1.node1 = some .arrow := by
    rcases hyi.1 hyn with hq | ⟨c, q1, q2⟩
    · exact hq
    · refine ⟨c, ?_, hpar c q1 q2, q1⟩
      rintro rfl
      rw [Fci.endp_iff h (by simp)] at ht q1
      rw [ht] at q1; simp at q1
  obtain ⟨c, c1, c2, c3⟩ := hcrit
  rintro ⟨L, l1, l2, hlat, w1, w2⟩
  have hLZ : ∀ S : Set (Fin n), ∀ v ∈ L :: (l1 ++ l2), v ∉ o '' S ∪ Sel := by
    rintro S v hv (⟨i, -, rfl⟩ | hv')
    · exact (hlat _ hv).2 i rfl
    · exact (hlat v hv).1 hv'
  have hca : c ≠ p.1.node1 := by
    rintro rfl
    rw [Fci.endp_iff h (by simp), h.diag] at c3
    simp at c3
  have hcadj : G.isAdj c p.1.node1 = true := by
    rw [Fci.isAdj_iff h]
    intro q
    rw [Fci.endp_iff h (by simp), (h.symm _ _).1 q] at c3
    simp at c3
  have hncaus := (hM _ _).1 c3
  have hcaus := (hM _ _).2 ht
  have hnsep : ¬ Separable E o Sel c p.1.node2 := by
    rintro ⟨S, -, -, hS⟩
    obtain ⟨dx, dy, hw, -, hdy⟩ := induce hac ho hs hca (hins _ _ hcadj) S
    have hd := hdy hncaus
    subst hd
    refine hS (AW.dConn hac (dx := dx) (dy := true) ?_)
    by_cases hA : AncOf E (o '' S ∪ Sel) (o p.1.node1)
    · have v1 : AW E (o '' S ∪ Sel) L false (o p.1.node1) true := Fci.walk_aw l1 _ _ w1 fun v hv => hLZ S v (by simp [hv])
      have v2 : AW E (o '' S ∪ Sel) L false (o p.1.node2) true := Fci.walk_aw l2 _ _ w2 fun v hv => hLZ S v (by simp [hv])
      exact .join hw (.join v1.symm v2 (by simp) (fun _ => hLZ S L (by simp))) (fun _ _ => hA) (by simp)
    · obtain ⟨z, hz | hz, hr⟩ := hcaus
      · simp only [Set.mem_singleton_iff] at hz
        subst hz
        have htr : TransGen E (o p.1.node1) (o p.1.node2) := (reflTransGen_iff_eq_or_transGen.1 hr).resolve_left (fun e => hne (ho e.symm))
        exact .join hw (AW.of_dir htr hA) (by simp) (fun _ hm => hA ⟨_, hm, .refl⟩)
      · exact absurd ⟨z, Or.inr hz, hr⟩ hA
  rw [hadj _ _ c1 hnsep] at c2
  simp at c2

/-- `0 → 2 ← 1`, `2 → 3 → 4 → 5`, `2 → 5`, `6 → 4` with the latent common cause `7` of `3` and `5` -/
def confE : Fin 8 → Fin 8 → Bool := fun a b => (a == 0 && b == 2) || (a == 1 && b == 2) || (a == 2 && b == 3) || (a == 3 && b == 4) ||
  (a == 4 && b == 5) || (a == 6 && b == 4) || (a == 2 && b == 5) || (a == 7 && b == 3) || (a == 7 && b == 5)

theorem confOracle : CausalOracle (fun a b => confE a b = true) (Fin.castSucc : Fin 7 → Fin 8) ∅ (oracleOf confE Fin.castSucc) :=
  causalOracle_of (fun v => if v = 7 then 0 else if v = 6 then 0 else v.val + 1) (by decide) (by decide) (Fin.castSucc_injective 7)

/-- **C115 violated.** The CI test answers d-separation in a causal graph where 3 and 5 have a latent common cause; no knowledge is given. `fci` returns the edge `3 → 5`
with the label `nl`, "no latent confounder", because 3 has the parent 2: `visibleEdgeHelper` does not ask whether that parent is adjacent to 5. -/
theorem C115_parent_violated : Confounded (fun a b => confE a b = true) (Fin.castSucc : Fin 7 → Fin 8) ∅ 3 5 ∧
    CausalOracle (fun a b => confE a b = true) (Fin.castSucc : Fin 7 → Fin 8) ∅ (oracleOf confE Fin.castSucc) ∧
    ∃ H out, Fci.fciLabelled (exEnv (oracleOf confE (Fin.castSucc : Fin 7 → Fin 8)) Know.none) none = some (H, out) ∧
      (mkEdge 3 5 .tail .arrow, [.pd, .nl]) ∈ out := by
  refine ⟨⟨7, [], [], by decide, by unfold CausalWalk; decide, by unfold CausalWalk; decide⟩, confOracle, ?_⟩
  obtain ⟨q, e, h⟩ := Fci.elim_decide (o := Fci.fciLabelled (exEnv (oracleOf confE (Fin.castSucc : Fin 7 → Fin 8)) Know.none) none)
    (P := fun q => (mkEdge 3 5 .tail .arrow, [.pd, .nl]) ∈ q.2) (by decide +kernel)
  exact ⟨q.1, q.2, e, h⟩

/-- The edge `a → b` is visible by the second half of the published definition (Zhang 2008): a path `c, …, a` of colliders into `a`, its inner nodes parents of `b`, from a
node `c` that is not adjacent to `b`. -/
def GG.VisibleByPath (G : GG n) (a b : Fin n) : Prop := ∃ c l, c ≠ b ∧ G.isAdj c b = false ∧ (c :: (l ++ [a])).Nodup ∧
  (∀ x y, [x, y] <:+: c :: (l ++ [a]) → G.getEndpoint x y = some .arrow ∧ (x ≠ c → G.getEndpoint y x = some .arrow)) ∧
  ∀ x ∈ l, G.getEndpoint x b = some .arrow ∧ G.getEndpoint b x = some .tail

/-- `0 → 1 → 3`, `2 → 3`, `4 → 2`, `4 → 3` with the latent common cause `5` of `1` and `2` -/
def visE : Fin 6 → Fin 6 → Bool := fun a b => (a == 0 && b == 1) || (a == 5 && b == 1) || (a == 5 && b == 2) || (a == 1 && b == 3) ||
  (a == 2 && b == 3) || (a == 4 && b == 2) || (a == 4 && b == 3)

/-- **C115 violated (visible edges are missed).** `fci` on the d-separation answers of `visE` returns `2 → 3`, which is visible through the collider path `0 o→ 1 ↔ 2` with
`1 → 3`, with the label `pl`: the search for such a path starts with its start node on the list of visited nodes and gives up at once. -/
theorem C115_path_violated : ∃ H out, Fci.fciLabelled (exEnv (oracleOf visE (Fin.castSucc : Fin 5 → Fin 6)) Know.none) none = some (H, out) ∧
    H.VisibleByPath 2 3 ∧ (mkEdge 2 3 .tail .arrow, [.dd, .pl]) ∈ out := by
  obtain ⟨q, e, h, h1, h2, h3, h4, h5, h6⟩ := Fci.elim_decide (o := Fci.fciLabelled (exEnv (oracleOf visE (Fin.castSucc : Fin 5 → Fin 6)) Know.none) none)
    (P := fun q => (mkEdge 2 3 .tail .arrow, [.dd, .pl]) ∈ q.2 ∧ q.1.isAdj 0 3 = false ∧ q.1.getEndpoint 0 1 = some .arrow ∧ q.1.getEndpoint 1 2 = some .arrow ∧
      q.1.getEndpoint 2 1 = some .arrow ∧ q.1.getEndpoint 1 3 = some .arrow ∧ q.1.getEndpoint 3 1 = some .tail) (by decide +kernel)
  refine ⟨q.1, q.2, e, ⟨0, [1], by decide, h1, by decide, ?_, by simp [h5, h6]⟩, h⟩
  intro x y hi
  have : (x = 0 ∧ y = 1) ∨ (x = 1 ∧ y = 2) := by revert x y; decide
  rcases this with ⟨rfl, rfl⟩ | ⟨rfl, rfl⟩
  · exact ⟨h2, by simp⟩
  · exact ⟨h3, fun _ => h4⟩

/-- `C114` and `C115_no_latent_partial` applied to a run of `fci` with a latent variable (`mE`): the hypotheses hold, and 2 is a direct cause of 3 without a latent
confounder. -/
example : (∃ l, CausalWalk (fun a b => mE a b = true) 2 l 3 ∧ ∀ i : Fin 5, i.castSucc ∉ l) ∧
    ¬ Confounded (fun a b => mE a b = true) (Fin.castSucc : Fin 5 → Fin 6) ∅ 2 3 := by
  obtain ⟨⟨H, e1, hM⟩, -⟩ := mRun
  obtain ⟨H', e2, hadj⟩ := C69_inseparable_adjacent (env := exEnv (oracleOf mE (Fin.castSucc : Fin 5 → Fin 6)) Know.none) (exEnv_ok _ _) mOracle
    (by simp [exEnv, Know.none]) none
  rw [e1] at e2
  cases e2
  obtain ⟨-, H', -, -, -, e3, hp, -, -⟩ := Fci.fci_some (exEnv (oracleOf mE (Fin.castSucc : Fin 5 → Fin 6)) Know.none) none
  rw [e1] at e3
  cases e3
  obtain ⟨H', e4, hmem, hadj', hpar⟩ := Fci.elim_decide (o := Fci.fci (exEnv (oracleOf mE (Fin.castSucc : Fin 5 → Fin 6)) Know.none) none)
    (P := fun H => ((Fci.colorEdges H).elim false fun q => decide ((mkEdge 2 3 .tail .arrow, [.dd, .nl]) ∈ q.2)) = true ∧
      (∀ a b, H.isAdj a b = true → (a, b) ∈ [((0, 2) : Fin 5 × Fin 5), (2, 0), (1, 2), (2, 1), (2, 3), (3, 2), (3, 4), (4, 3)]) ∧
      ∀ c, ¬ (H.getEndpoint c 2 = some .arrow ∧ H.getEndpoint 2 c = some .tail)) (by decide +kernel)
  rw [e1] at e4
  cases e4
  obtain ⟨q, hq, hqm⟩ := Fci.elim_decide hmem
  have hins : ∀ x y, H.isAdj x y = true → ¬ Separable (fun a b => mE a b = true) (Fin.castSucc : Fin 5 → Fin 6) ∅ x y := by
    intro a b hab
    have hab' := hadj' a b hab
    refine not_separable_of (fun v => if v = 5 then 0 else if v = 3 ∨ v = 4 then 3 else if v = 2 then 1 else 0) (by decide) (by decide) ?_
    have : ∀ p ∈ [((0, 2) : Fin 5 × Fin 5), (2, 0), (1, 2), (2, 1), (2, 3), (3, 2), (3, 4), (4, 3)], ∀ T : Finset (Fin 5), p.1 ∉ T → p.2 ∉ T →
        dconnB mE (fun v => decide (∃ i ∈ T, i.castSucc = v)) p.1.castSucc p.2.castSucc = true := by decide +kernel
    exact this _ hab'
  exact ⟨C114_direct_cause mOracle.acyclic mOracle.inj hp hM hadj hq hqm (by decide),
    C115_no_latent_partial mOracle.acyclic mOracle.inj mOracle.sel hp hM hadj hins hq hqm (by decide) fun c h1 h2 => absurd ⟨h1, h2⟩ (hpar c)⟩

end CL
