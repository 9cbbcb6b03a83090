import Verif.Proofs.FciRules
import Verif.Props.GraphQueries
import Verif.Props.FAS

/-!
# The phases of FCI before the orientation loop
-/
namespace CL
open GG
variable {n : Nat}
namespace Fci

theorem _root_.CL.GG.Pag.wf {G : GG n} (h : G.Pag) : G.WF :=
  ⟨h.symm, fun a b => by rcases h.marks a b with e | e | e | e <;> simp [e]⟩

theorem _root_.CL.GG.Pag.simple {G : GG n} (h : G.Pag) : G.Simple := by
  intro a b
  rcases h.marks a b with e | e | e | e <;> simp [e]

theorem _root_.CL.Und.pag {G : GG n} (h : Und G) : G.Pag :=
  ⟨fun a b => by rw [h.symm a b], h.diag, fun a b => by rcases h.mark a b with e | e <;> simp [e]⟩

/-- Removing the fresh edge object of a pair deletes exactly its two marks. -/
theorem remove_g {G : GG n} (h : G.Pag) {a b : Fin n} (hab : G.g a b ≠ .null) :
    (G.removeEdge (mkEdge a b (G.g a b) (G.g b a))).g = set2 G.g a b .null .null := by
  have hne := ne_of_adj h hab
  have hba : ¬ b = a := fun h => hne h.symm
  have hnb : G.g b a ≠ .null := fun hc => hab ((h.symm a b).2 hc)
  have hm1 := h.marks a b
  have hm2 := h.marks b a
  funext x y
  rcases hm1 with e1 | e1 | e1 | e1 <;> rcases hm2 with e2 | e2 | e2 | e2 <;>
    first
    | exact absurd e1 hab
    | exact absurd e2 hnb
    | (simp only [e1, e2, mkEdge, pointingLeft, removeEdge, isParentOf]
       simp [e1, e2, upd_apply, hne, hba, set2]
       try grind)

theorem set2_null_pag {G H : GG n} (h : G.Pag) {a b : Fin n} (hH : H.g = set2 G.g a b .null .null) : H.Pag := by
  refine ⟨fun x y => ?_, fun x => ?_, fun x y => ?_⟩
  · rw [hH]; unfold set2
    have := h.symm x y
    grind
  · rw [hH]; unfold set2
    have := h.diag x
    grind
  · rw [hH]; unfold set2
    have := h.marks x y
    grind

theorem reorientStep_g {G : GG n} (h : G.Pag) {a b : Fin n} (hab : G.g a b ≠ .null) :
    (reorientStep .circle G (mkEdge a b (G.g a b) (G.g b a))).g = set2 G.g a b .circle .circle := by
  have hne := ne_of_adj h hab
  have hba : ¬ b = a := fun h => hne h.symm
  have hnb : G.g b a ≠ .null := fun hc => hab ((h.symm a b).2 hc)
  have hm1 := h.marks a b
  have hm2 := h.marks b a
  obtain ⟨G0, e0, hG0⟩ : ∃ G0, G.removeEdge (mkEdge a b (G.g a b) (G.g b a)) = G0 ∧ G0.g = set2 G.g a b .null .null :=
    ⟨_, rfl, remove_g h hab⟩
  unfold reorientStep
  rw [e0]
  have n1 : G0.g a b = .null := by rw [hG0]; simp [set2]
  have n2 : G0.g b a = .null := by rw [hG0]; simp [set2]
  have key : ((G0.addEdge (((mkEdge a b (G.g a b) (G.g b a)).setEndpoint1 .circle).setEndpoint2 .circle)).2).g = set2 G0.g a b .circle .circle := by
    funext x y
    rcases hm1 with e1 | e1 | e1 | e1 <;> rcases hm2 with e2 | e2 | e2 | e2 <;>
      first
      | exact absurd e1 hab
      | exact absurd e2 hnb
      | (simp only [e1, e2, mkEdge, pointingLeft, Edge.setEndpoint1, Edge.setEndpoint2, Edge.normalize]
         simp [addEdge, n1, n2, upd_apply, hne, hba, set2, pointingLeft]
         try grind)
  rw [key, hG0]
  funext x y
  unfold set2
  grind

/-- A loop over `get_graph_edges()` whose body only touches the pair of its edge. -/
theorem fold_graphEdges {β : Type} (π : β → GG n) (f : β → Edge n → β) (P : β → Prop)
    (Own : Fin n → Fin n → Mark → Mark → Mark → Mark → Prop)
    (hf : ∀ s, P s → (π s).Pag → ∀ i j, i < j → (π s).g i j ≠ .null →
      P (f s (mkEdge i j ((π s).g i j) ((π s).g j i))) ∧ (π (f s (mkEdge i j ((π s).g i j) ((π s).g j i)))).Pag ∧
      (∀ x y, ¬ (x = i ∧ y = j) → ¬ (x = j ∧ y = i) → (π (f s (mkEdge i j ((π s).g i j) ((π s).g j i)))).g x y = (π s).g x y) ∧
      Own i j ((π s).g i j) ((π s).g j i) ((π (f s (mkEdge i j ((π s).g i j) ((π s).g j i)))).g i j)
        ((π (f s (mkEdge i j ((π s).g i j) ((π s).g j i)))).g j i))
    (s : β) (hP : P s) (h : (π s).Pag) :
    P ((π s).graphEdges.foldl f s) ∧ (π ((π s).graphEdges.foldl f s)).Pag ∧
    (∀ i j, (π s).g i j = .null → (π ((π s).graphEdges.foldl f s)).g i j = .null) ∧
    (∀ i j, i < j → (π s).g i j ≠ .null → Own i j ((π s).g i j) ((π s).g j i) ((π ((π s).graphEdges.foldl f s)).g i j)
      ((π ((π s).graphEdges.foldl f s)).g j i)) := by
  rw [graphEdges_eq h.wf h.simple]
  have key : ∀ (l : List (Fin n × Fin n)), l.Nodup → (∀ p ∈ l, p.1 < p.2 ∧ (π s).g p.1 p.2 ≠ .null) → ∀ t, P t → (π t).Pag →
      (∀ p ∈ l, (π t).g p.1 p.2 = (π s).g p.1 p.2 ∧ (π t).g p.2 p.1 = (π s).g p.2 p.1) →
      let r := (l.map fun p => mkEdge p.1 p.2 ((π s).g p.1 p.2) ((π s).g p.2 p.1)).foldl f t
      P r ∧ (π r).Pag ∧ (∀ x y, (x, y) ∉ l → (y, x) ∉ l → (π r).g x y = (π t).g x y) ∧
      (∀ p ∈ l, Own p.1 p.2 ((π s).g p.1 p.2) ((π s).g p.2 p.1) ((π r).g p.1 p.2) ((π r).g p.2 p.1)) := by
    intro l
    induction l with
    | nil => intro _ _ t ht hp _; exact ⟨ht, hp, fun _ _ _ _ => rfl, by simp⟩
    | cons p l ih =>
      intro hnd hl t ht hp hcur r
      obtain ⟨hpl, hnd'⟩ := List.nodup_cons.1 hnd
      obtain ⟨hlt, hnn⟩ := hl p (List.mem_cons_self ..)
      obtain ⟨c1, c2⟩ := hcur p (List.mem_cons_self ..)
      obtain ⟨q1, q2, q3, q4⟩ := hf t ht hp p.1 p.2 hlt (by rw [c1]; exact hnn)
      rw [c1, c2] at q1 q2 q3 q4
      have hsw : (p.2, p.1) ∉ l := fun hm => absurd (hl _ (List.mem_cons_of_mem _ hm)).1 (by simp only; omega)
      obtain ⟨r1, r2, r3, r4⟩ := ih hnd' (fun q hq => hl q (List.mem_cons_of_mem _ hq)) _ q1 q2 (by
        intro q hq
        have hqlt := (hl q (List.mem_cons_of_mem _ hq)).1
        have hqp : q ≠ p := fun e => hpl (e ▸ hq)
        obtain ⟨d1, d2⟩ := hcur q (List.mem_cons_of_mem _ hq)
        rw [q3 q.1 q.2 (fun e => hqp (Prod.ext e.1 e.2)) (fun e => by omega),
          q3 q.2 q.1 (fun e => by omega) (fun e => hqp (Prod.ext e.2 e.1))]
        exact ⟨d1, d2⟩)
      refine ⟨r1, r2, ?_, ?_⟩
      · intro x y hx hy
        simp only [List.mem_cons, not_or] at hx hy
        simp only [r, List.map_cons, List.foldl_cons]
        rw [r3 x y hx.2 hy.2, q3 x y (fun e => hx.1 (Prod.ext e.1 e.2)) (fun e => hy.1 (Prod.ext e.2 e.1))]
      · intro q hq
        rcases List.mem_cons.1 hq with rfl | hq
        · simp only [r, List.map_cons, List.foldl_cons]
          rw [r3 _ _ hpl hsw, r3 _ _ hsw hpl]
          exact q4
        · exact r4 q hq
  have hmem : ∀ i j, (i, j) ∈ (upperPairs n).filter (fun p => (π s).g p.1 p.2 != .null) ↔ i < j ∧ (π s).g i j ≠ .null := by
    intro i j; simp [List.mem_filter, mem_upperPairs]
  obtain ⟨k1, k2, k3, k4⟩ := key _ (nodup_upperPairs.filter _) (fun p hp => (hmem p.1 p.2).1 hp) s hP h (fun _ _ => ⟨rfl, rfl⟩)
  refine ⟨k1, k2, ?_, ?_⟩
  · intro i j hij
    rw [k3 i j (fun hm => ((hmem i j).1 hm).2 hij) (fun hm => ((hmem j i).1 hm).2 ((h.symm i j).1 hij)), hij]
  · intro i j hlt hij
    exact k4 (i, j) ((hmem i j).2 ⟨hlt, hij⟩)

theorem reorientAll_spec {G : GG n} (h : G.Pag) : (reorientAll .circle G).Pag ∧
    ∀ a b, (reorientAll .circle G).g a b = if G.g a b = .null then .null else .circle := by
  obtain ⟨-, hp, hn, ho⟩ := fold_graphEdges id (reorientStep .circle) (fun _ => True)
    (fun _ _ _ _ m1 m2 => m1 = .circle ∧ m2 = .circle) (by
      intro s _ hs i j hij hne
      have e := reorientStep_g hs hne
      have hne' : i ≠ j := ne_of_lt hij
      simp only [id] at e ⊢
      refine ⟨trivial, set2_pag hs hne (by simp) (by simp) e, ?_, ?_⟩
      · intro x y h1 h2; rw [e]; simp [set2, h1, h2]
      · rw [e]; exact ⟨set2_left, set2_right hne'⟩) G trivial h
  refine ⟨hp, fun a b => ?_⟩
  split
  · exact hn a b ‹_›
  · rename_i hne
    rcases lt_trichotomy a b with hlt | rfl | hlt
    · exact (ho a b hlt hne).1
    · exact absurd (h.diag a) hne
    · exact (ho b a hlt (adj_symm h hne)).2

theorem orientBkStep_g {k : Know n} {G : GG n} (h : G.Pag) {a b : Fin n} (hab : G.g a b ≠ .null) :
    ∃ m1 m2, (orientBkStep k G (mkEdge a b (G.g a b) (G.g b a))).g = set2 G.g a b m1 m2 ∧
      ((m1 = .tail ∧ m2 = .arrow) ∨ (m1 = .arrow ∧ m2 = .tail) ∨ (m1 = G.g a b ∧ m2 = G.g b a)) := by
  have hne := ne_of_adj h hab
  have hba : ¬ b = a := fun h => hne h.symm
  obtain ⟨G0, e0, hG0⟩ : ∃ G0, G.removeEdge (mkEdge a b (G.g a b) (G.g b a)) = G0 ∧ G0.g = set2 G.g a b .null .null :=
    ⟨_, rfl, remove_g h hab⟩
  have d1 : (G0.addDirectedEdge a b).g = set2 G.g a b .tail .arrow := by
    funext x y; simp [addDirectedEdge, hG0, upd_apply, set2]; grind
  have d2 : (G0.addDirectedEdge b a).g = set2 G.g a b .arrow .tail := by
    funext x y; simp [addDirectedEdge, hG0, upd_apply, set2]; grind
  have d3 : G.g = set2 G.g a b (G.g a b) (G.g b a) := by
    funext x y; unfold set2; grind
  unfold orientBkStep
  rw [e0]
  have hn : ((mkEdge a b (G.g a b) (G.g b a)).node1 = a ∧ (mkEdge a b (G.g a b) (G.g b a)).node2 = b) ∨
      ((mkEdge a b (G.g a b) (G.g b a)).node1 = b ∧ (mkEdge a b (G.g a b) (G.g b a)).node2 = a) := by
    unfold mkEdge; split <;> simp
  rcases hn with ⟨e1, e2⟩ | ⟨e1, e2⟩ <;> rw [e1, e2] <;> repeat' split
  all_goals first
    | exact ⟨_, _, d1, Or.inl ⟨rfl, rfl⟩⟩
    | exact ⟨_, _, d2, Or.inr (Or.inl ⟨rfl, rfl⟩)⟩
    | exact ⟨_, _, d3, Or.inr (Or.inr ⟨rfl, rfl⟩)⟩

theorem fciOrientBk_spec {k : Know n} {G : GG n} (h : G.Pag) : (fciOrientBk k G).Pag ∧
    (∀ a b, (fciOrientBk k G).g a b = .null ↔ G.g a b = .null) ∧
    ∀ a b, G.g a b ≠ .null → ((fciOrientBk k G).g a b = .tail ∧ (fciOrientBk k G).g b a = .arrow) ∨
      ((fciOrientBk k G).g a b = .arrow ∧ (fciOrientBk k G).g b a = .tail) ∨
      ((fciOrientBk k G).g a b = G.g a b ∧ (fciOrientBk k G).g b a = G.g b a) := by
  obtain ⟨-, hp, hn, ho⟩ := fold_graphEdges id (orientBkStep k) (fun _ => True)
    (fun _ _ o1 o2 m1 m2 => (m1 = .tail ∧ m2 = .arrow) ∨ (m1 = .arrow ∧ m2 = .tail) ∨ (m1 = o1 ∧ m2 = o2)) (by
      intro s _ hs i j hij hne
      obtain ⟨m1, m2, e, hm⟩ := orientBkStep_g (k := k) hs hne
      have hne' : i ≠ j := ne_of_lt hij
      have q1 := hs.marks i j
      have q2 := hs.marks j i
      have q3 := adj_symm hs hne
      simp only [id] at e ⊢
      refine ⟨trivial, set2_pag hs hne (by grind) (by grind) e, ?_, ?_⟩
      · intro x y h1 h2; rw [e]; simp [set2, h1, h2]
      · rw [e, set2_left, set2_right hne']; exact hm) G trivial h
  have hall : ∀ a b, G.g a b ≠ .null → ((fciOrientBk k G).g a b = .tail ∧ (fciOrientBk k G).g b a = .arrow) ∨
      ((fciOrientBk k G).g a b = .arrow ∧ (fciOrientBk k G).g b a = .tail) ∨
      ((fciOrientBk k G).g a b = G.g a b ∧ (fciOrientBk k G).g b a = G.g b a) := by
    intro a b hne
    rcases lt_trichotomy a b with hlt | rfl | hlt
    · exact ho a b hlt hne
    · exact absurd (h.diag a) hne
    · have := ho b a hlt (adj_symm h hne)
      simp only [id] at this
      unfold fciOrientBk
      tauto
  refine ⟨hp, fun a b => ⟨fun hc => ?_, hn a b⟩, hall⟩
  by_contra hne
  have := hall a b hne
  rw [hc] at this
  simp only [reduceCtorEq, false_and, false_or] at this
  exact hne this.1.symm

theorem rule0Step_refine {k : Know n} {ss : SSet n} {b : Fin n} {G : GG n} (h : G.Pag) (p : Fin n × Fin n) :
    Refine G (rule0Step k ss b G p) := by
  unfold rule0Step
  split
  · exact Refine.rfl
  · cases hss : ss p.1 p.2 with
    | none => exact Refine.rfl
    | some S =>
      simp only [Option.elim_some]
      split
      · exact Refine.rfl
      · split
        · exact Refine.rfl
        · rename_i hal
          simp only [Bool.or_eq_true, Bool.not_eq_true', not_or, Bool.not_eq_false] at hal
          obtain ⟨r1, -⟩ := reorKeep_arrow h (allowed_marks h hal.1)
          have hm2 := allowed_marks h hal.2
          have h' := r1.pag h
          have hm2' : (reorKeep G p.1 b .arrow).g b p.2 = .arrow ∨ (reorKeep G p.1 b .arrow).g b p.2 = .circle := by
            have hba : ¬ G.g p.1 b = .null := fun hc => by
              have := allowed_marks h hal.1
              rw [(h.symm p.1 b).1 hc] at this; simp at this
            rw [reorKeep_g h hba (by simp) (by simp)]
            unfold set2
            grind
          exact r1.trans (reorKeep_arrow h' hm2').1

theorem rule0_keep {k : Know n} {ss : SSet n} {G : GG n} (h : G.Pag) : (rule0 k ss G).Pag ∧
    ∀ a b, (rule0 k ss G).g a b = .null ↔ G.g a b = .null := by
  obtain ⟨p1, e1⟩ := reorientAll_spec h
  obtain ⟨p2, e2, -⟩ := fciOrientBk_spec (k := k) p1
  have : Refine (fciOrientBk k (reorientAll .circle G)) (rule0 k ss G) := by
    unfold rule0
    refine foldl_inv (Refine (fciOrientBk k (reorientAll .circle G))) _ _ (fun u hu b _ => ?_) _ Refine.rfl
    unfold rule0Node
    exact foldl_inv (Refine (fciOrientBk k (reorientAll .circle G))) _ _ (fun v hv p _ => hv.trans (rule0Step_refine (hv.pag p2) p)) _ hu
  refine ⟨this.pag p2, fun a b => ?_⟩
  rw [this.keep.null, e2, e1]
  by_cases hn : G.g a b = .null <;> simp [hn]

theorem pdsepStep_spec {env : FciEnv n} {s : GG n × SSet n} (h : s.1.Pag) {i j : Fin n} (hij : i ≠ j) (hne : s.1.g i j ≠ .null) :
    (pdsepStep env s (mkEdge i j (s.1.g i j) (s.1.g j i))).1.Pag ∧
    (∀ x y, ¬ (x = i ∧ y = j) → ¬ (x = j ∧ y = i) →
      (pdsepStep env s (mkEdge i j (s.1.g i j) (s.1.g j i))).1.g x y = s.1.g x y) ∧
    (((pdsepStep env s (mkEdge i j (s.1.g i j) (s.1.g j i))).1.g i j = s.1.g i j ∧
      (pdsepStep env s (mkEdge i j (s.1.g i j) (s.1.g j i))).1.g j i = s.1.g j i) ∨
     ((pdsepStep env s (mkEdge i j (s.1.g i j) (s.1.g j i))).1.g i j = .null ∧
      (pdsepStep env s (mkEdge i j (s.1.g i j) (s.1.g j i))).1.g j i = .null)) := by
  have hrem := remove_g h hne
  have main : ∀ t : GG n × SSet n, (t.1 = s.1 ∨ t.1 = s.1.removeEdge (mkEdge i j (s.1.g i j) (s.1.g j i))) →
      t.1.Pag ∧ (∀ x y, ¬ (x = i ∧ y = j) → ¬ (x = j ∧ y = i) → t.1.g x y = s.1.g x y) ∧
      ((t.1.g i j = s.1.g i j ∧ t.1.g j i = s.1.g j i) ∨ (t.1.g i j = .null ∧ t.1.g j i = .null)) := by
    rintro t (e | e)
    · rw [e]; exact ⟨h, fun _ _ _ _ => rfl, Or.inl ⟨rfl, rfl⟩⟩
    · rw [e]
      refine ⟨set2_null_pag h hrem, ?_, Or.inr ?_⟩
      · intro x y h1 h2; rw [hrem]; simp [set2, h1, h2]
      · rw [hrem]; exact ⟨set2_left, set2_right hij⟩
  apply main
  generalize he : mkEdge i j (s.1.g i j) (s.1.g j i) = e at *
  have try_eq : ∀ (t : GG n × SSet n) pd, (pdsepTry env t e pd).1 = t.1 ∨ (pdsepTry env t e pd).1 = t.1.removeEdge e := by
    intro t pd
    unfold pdsepTry
    cases findSep env t.1 e.node1 e.node2 pd with
    | none => exact Or.inl rfl
    | some S => exact Or.inr rfl
  have hn : (s.1.removeEdge e).containsEdge e = false := by
    have q1 := hrem
    have q3 : (s.1.removeEdge e).g i j = .null := by rw [q1]; exact set2_left
    have q4 : (s.1.removeEdge e).g j i = .null := by rw [q1]; exact set2_right hij
    have hnd : (e.node1 = i ∧ e.node2 = j) ∨ (e.node1 = j ∧ e.node2 = i) := by
      rw [← he]; unfold mkEdge; split <;> simp
    unfold containsEdge
    rcases hnd with ⟨a1, a2⟩ | ⟨a1, a2⟩ <;> rw [a1, a2, q3, q4] <;> cases e.end1 <;> cases e.end2 <;> rfl
  have half := try_eq s (possibleDsep env s.1 e.node1 e.node2 (-1))
  unfold pdsepStep
  split
  · rename_i hc
    rcases half with h1 | h1
    · have h1' : (pdsepHalf env s e).1 = s.1 := h1
      rcases try_eq (pdsepHalf env s e) (possibleDsep env (pdsepHalf env s e).1 e.node2 e.node1 (-1)) with h2 | h2
      · exact Or.inl (h2.trans h1')
      · exact Or.inr (by rw [h2, h1'])
    · have h1' : (pdsepHalf env s e).1 = s.1.removeEdge e := h1
      rw [h1', hn] at hc
      simp at hc
  · exact half

theorem removeByPdsep_spec {env : FciEnv n} {s : GG n × SSet n} (h : s.1.Pag) : (removeByPdsep env s).1.Pag ∧
    ∀ a b, (removeByPdsep env s).1.g a b = s.1.g a b ∨ (removeByPdsep env s).1.g a b = .null := by
  obtain ⟨-, hp, hn, ho⟩ := fold_graphEdges (fun s : GG n × SSet n => s.1) (pdsepStep env) (fun _ => True)
    (fun _ _ o1 o2 m1 m2 => (m1 = o1 ∧ m2 = o2) ∨ (m1 = .null ∧ m2 = .null)) (by
      intro t _ ht i j hij hne
      exact ⟨trivial, pdsepStep_spec ht (ne_of_lt hij) hne⟩) s trivial h
  refine ⟨hp, fun a b => ?_⟩
  by_cases hne : s.1.g a b = .null
  · exact Or.inr (hn a b hne)
  · rcases lt_trichotomy a b with hlt | rfl | hlt
    · have := ho a b hlt hne
      unfold removeByPdsep
      tauto
    · exact absurd (h.diag a) hne
    · have := ho b a hlt (adj_symm h hne)
      unfold removeByPdsep
      tauto

theorem prepare_spec (env : FciEnv n) (depth : Option Nat) : ∃ s, prepare env depth = some s ∧ s.1.Pag := by
  obtain ⟨r, d, hr, hi, -⟩ := fas_spec true env.ind env.k depth
  refine ⟨_, by rw [prepare, hr]; rfl, ?_⟩
  have h1 := (reorientAll_spec hi.und.pag).1
  have h2 := (rule0_keep (k := env.k) (ss := r.ss) h1).1
  have h3 := (removeByPdsep_spec (env := env) (s := (rule0 env.k r.ss (reorientAll .circle r.G), r.ss)) h2).1
  exact (rule0_keep (reorientAll_spec h3).1).1

theorem fci_some (env : FciEnv n) (depth : Option Nat) : ∃ s H first, prepare env depth = some s ∧ s.1.Pag ∧
    fci env depth = some H ∧ H.Pag ∧ Keep s.1 H ∧ ∃ K, Keep s.1 K ∧ K.Pag ∧ (round env s.2 first K).1 = (H, false) := by
  obtain ⟨s, e, hs⟩ := prepare_spec env depth
  obtain ⟨H, first, e2, hk, K, hK, hp, eK⟩ := mainLoop_some (env := env) (ss := s.2) (n * n + 2) true s.1 hs
    (by have := circles_le s.1; omega)
  exact ⟨s, H, first, e, hs, by rw [fci, e]; exact e2, hk.pag hs, hk, K, hK, hp, eK⟩

end Fci
end CL
