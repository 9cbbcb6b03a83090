import Verif.Spec.GraphHistory
import Verif.Proofs.GraphBasic

/-!
# C01–C03: adding and removing edges
-/
namespace CL
open GG
variable {n : Nat}

/-- **C01 (partial).** Adding an edge between two distinct non-adjacent nodes makes the graph report exactly the given
marks on that pair and leaves every other pair unchanged — for every pair of marks except circle-at-`a`/tail-at-`b`
(and except for the marks NULL/STAR/doubled codes, which are not legal edge ends). The missing case is refuted by
`C01_circle_tail_violated`. -/
theorem C01_add_edge_faithful_partial (G : GG n) (a b : Fin n) (m1 m2 : Mark) (hab : a ≠ b)
    (hna : G.g a b = .null) (hnb : G.g b a = .null)
    (h1 : m1 = .tail ∨ m1 = .arrow ∨ m1 = .circle) (h2 : m2 = .tail ∨ m2 = .arrow ∨ m2 = .circle)
    (hct : ¬ (m1 = .circle ∧ m2 = .tail)) :
    let G' := (G.addEdge (mkEdge a b m1 m2)).2
    G'.getEndpoint b a = some m1 ∧ G'.getEndpoint a b = some m2 ∧ G'.isAdj a b = true ∧
      ∀ c d, ¬ (c = a ∧ d = b) → ¬ (c = b ∧ d = a) → G'.getEndpoint c d = G.getEndpoint c d ∧
        G'.isAdj c d = G.isAdj c d := by
  have hba : ¬ b = a := fun h => hab h.symm
  rcases h1 with rfl | rfl | rfl <;> rcases h2 with rfl | rfl | rfl <;>
    first
    | exact absurd ⟨rfl, rfl⟩ hct
    | (simp only [mkEdge, pointingLeft]
       simp [addEdge, hna, hnb, getEndpoint, getEdge, isAdj, upd_apply, hab, hba, mkEdge, pointingLeft, Edge.proximal]
       intro c d h1 h2
       by_cases hc : c = a <;> by_cases hd : d = b <;> by_cases hc' : c = b <;> by_cases hd' : d = a <;> simp_all)

/-- non-vacuity of C01: adding `0 o→ 2` to a graph that already has `0 → 1`. -/
example : let G := run (n := 3) [.addEdge 0 1 .tail .arrow]
    (0 : Fin 3) ≠ 2 ∧ G.g 0 2 = .null ∧ G.g 2 0 = .null ∧
    (G.addEdge (mkEdge 0 2 .circle .arrow)).2.getEndpoint 2 0 = some .circle := by decide

/-- **C01 violated** for circle–tail edges: on *every* graph and every pair, `add_edge(Edge(a, b, CIRCLE, TAIL))`
returns `False` and changes nothing, although the mirror image `Edge(b, a, TAIL, CIRCLE)` of the same edge is accepted
whenever the nodes are not adjacent. -/
theorem C01_circle_tail_violated (G : GG n) (a b : Fin n) :
    G.addEdge (mkEdge a b .circle .tail) = (some false, G) ∧
    (a ≠ b → G.g a b = .null → G.g b a = .null →
      (G.addEdge (mkEdge b a .tail .circle)).2.getEndpoint b a = some .circle) := by
  constructor
  · simp [mkEdge, pointingLeft, addEdge]
  · intro hab h1 h2
    have hba : ¬ b = a := fun h => hab h.symm
    simp [mkEdge, pointingLeft, addEdge, h1, h2, getEndpoint, getEdge, upd_apply, hab, hba, Edge.proximal]

example : (GG.empty 2).g 0 1 = .null ∧ (GG.empty 2).g 1 0 = .null ∧
    ((GG.empty 2).addEdge (mkEdge 0 1 .circle .tail)).2.isAdj 0 1 = false := by decide

theorem addEdge_symm (G : GG n) (e : Edge n) (h : ∀ a b, G.g a b = .null ↔ G.g b a = .null) (a b : Fin n) :
    (G.addEdge e).2.g a b = .null ↔ (G.addEdge e).2.g b a = .null := by
  have h0 := h a b
  have h1 := h e.node1 e.node2
  unfold addEdge
  dsimp only
  split
  · split
    · exact h0
    · split
      · split <;> simp [upd_apply] <;> grind
      · split <;> simp [upd_apply] <;> grind
      · split <;> simp [upd_apply] <;> grind
      · exact h0
  · split
    · split
      · split
        · exact h0
        · split <;> split <;> simp [upd_apply] <;> grind
      · simp [upd_apply]; grind
    · exact h0
  · split
    · exact h0
    · split
      · split <;> simp [upd_apply] <;> grind
      · split <;> simp [upd_apply] <;> grind
      · exact h0
  · exact h0

theorem removeEdge_symm (G : GG n) (e : Edge n) (h : ∀ a b, G.g a b = .null ↔ G.g b a = .null) (a b : Fin n) :
    (G.removeEdge e).g a b = .null ↔ (G.removeEdge e).g b a = .null := by
  have h0 := h a b
  have h1 := h e.node1 e.node2
  unfold removeEdge
  dsimp only
  split
  all_goals
    try simp only [reconstituteDpath_g]
    split
    · split
      · simp [upd_apply]; grind
      · split
        · simp [upd_apply]; grind
        · exact h0
    · split
      · split
        · simp [upd_apply]; grind
        · split
          · simp [upd_apply]; grind
          · exact h0
      · split
        · split
          · simp [upd_apply]; grind
          · split
            · simp [upd_apply]; grind
            · exact h0
        · split
          · simp [upd_apply]; grind
          · exact h0

theorem op_symm (G : GG n) (o : Op n) (h : ∀ a b, G.g a b = .null ↔ G.g b a = .null) (a b : Fin n) :
    (o.apply G).g a b = .null ↔ (o.apply G).g b a = .null := by
  cases o with
  | addEdge => exact addEdge_symm _ _ h _ _
  | addDirectedEdge => have := h a b; simp [Op.apply, addDirectedEdge, upd_apply]; grind
  | removeEdge => exact removeEdge_symm _ _ h _ _
  | removeConnectingEdge => have := h a b; simp [Op.apply, removeConnectingEdge, upd_apply]; grind

@[simp] theorem empty_g (a b : Fin n) : (GG.empty n).g a b = .null := by simp [GG.empty]

theorem fold_symm (hist : List (Op n)) (G : GG n) (h : ∀ a b, G.g a b = .null ↔ G.g b a = .null) :
    ∀ a b, (hist.foldl Op.apply G).g a b = .null ↔ (hist.foldl Op.apply G).g b a = .null := by
  induction hist generalizing G with
  | nil => exact h
  | cons o os ih => exact ih _ (op_symm G o h)

theorem mkEdge_nodes (a b : Fin n) (m1 m2 : Mark) :
    ((mkEdge a b m1 m2).node1 = a ∧ (mkEdge a b m1 m2).node2 = b) ∨
    ((mkEdge a b m1 m2).node1 = b ∧ (mkEdge a b m1 m2).node2 = a) := by
  unfold mkEdge; split <;> simp

/-- every mutator only writes the two cells of the pair it names -/
theorem op_other (G : GG n) (o : Op n) (c d : Fin n)
    (h1 : ¬ (c = o.ends.1 ∧ d = o.ends.2)) (h2 : ¬ (c = o.ends.2 ∧ d = o.ends.1)) :
    (o.apply G).g c d = G.g c d := by
  cases o with
  | addEdge a b m1 m2 =>
    simp only [Op.ends, Op.apply] at *
    rcases mkEdge_nodes a b m1 m2 with ⟨ha, hb⟩ | ⟨ha, hb⟩ <;>
    · unfold addEdge
      dsimp only
      rw [ha, hb]
      repeat' split
      all_goals simp [upd_apply]
      all_goals grind
  | addDirectedEdge a b =>
    simp only [Op.ends, Op.apply] at *
    simp [addDirectedEdge, upd_apply]; grind
  | removeEdge a b m1 m2 =>
    simp only [Op.ends, Op.apply] at *
    rcases mkEdge_nodes a b m1 m2 with ⟨ha, hb⟩ | ⟨ha, hb⟩ <;>
    · unfold removeEdge
      dsimp only
      rw [ha, hb]
      repeat' split
      all_goals simp [upd_apply]
      all_goals grind
  | removeConnectingEdge a b =>
    simp only [Op.ends, Op.apply] at *
    simp [removeConnectingEdge, upd_apply]; grind

theorem fold_diag (hist : List (Op n)) (G : GG n) (hop : ∀ o ∈ hist, o.ends.1 ≠ o.ends.2) (x : Fin n) :
    (hist.foldl Op.apply G).g x x = G.g x x := by
  induction hist generalizing G with
  | nil => rfl
  | cons o os ih =>
    rw [List.foldl_cons, ih _ (fun o' h' => hop o' (List.mem_cons_of_mem _ h'))]
    have := hop o (List.mem_cons_self ..)
    apply op_other <;> grind

/-- **C02.** After any history of edge operations from the edgeless graph, adjacency is symmetric; and if no call named
a self-edge, no node is adjacent to itself. -/
theorem C02_adjacency_symmetric (hist : List (Op n)) :
    (∀ a b, (run hist).isAdj a b = (run hist).isAdj b a) ∧
    ((∀ o ∈ hist, o.ends.1 ≠ o.ends.2) → ∀ a, (run hist).isAdj a a = false) := by
  constructor
  · intro a b
    have := fold_symm hist (GG.empty n) (by simp) a b
    simp only [run, isAdj]
    by_cases h : (List.foldl Op.apply (GG.empty n) hist).g a b = .null <;> grind
  · intro hop a
    have := fold_diag hist (GG.empty n) hop a
    simp only [run, isAdj, this]; simp

example : (run (n := 3) [.addEdge 0 1 .tail .arrow, .addEdge 1 2 .arrow .arrow, .removeEdge 0 1 .tail .arrow,
    .addEdge 1 2 .tail .arrow]).isAdj 1 2 = true := by decide

/-- **C03.** Adding an edge between two distinct non-adjacent nodes and removing the same edge restores every mark
(whether or not `add_edge` accepted the marks). -/
theorem C03_remove_undoes_add (G : GG n) (a b : Fin n) (m1 m2 : Mark) (hab : a ≠ b)
    (hna : G.g a b = .null) (hnb : G.g b a = .null)
    (h1 : m1 = .tail ∨ m1 = .arrow ∨ m1 = .circle) (h2 : m2 = .tail ∨ m2 = .arrow ∨ m2 = .circle) :
    let G' := ((G.addEdge (mkEdge a b m1 m2)).2).removeEdge (mkEdge a b m1 m2)
    ∀ c d, G'.getEndpoint c d = G.getEndpoint c d ∧ G'.isAdj c d = G.isAdj c d := by
  intro G'
  have hg : G'.g = G.g := by
    have hba : ¬ b = a := fun h => hab h.symm
    funext c d
    have e1 : ∀ c d, c = a → d = b → G.g c d = .null := by rintro _ _ rfl rfl; exact hna
    have e2 : ∀ c d, c = b → d = a → G.g c d = .null := by rintro _ _ rfl rfl; exact hnb
    have e1 := e1 c d
    have e2 := e2 c d
    simp only [G']
    rcases h1 with rfl | rfl | rfl <;> rcases h2 with rfl | rfl | rfl <;>
      simp [mkEdge, pointingLeft, addEdge, hna, hnb, removeEdge, upd_apply, hab, hba, isParentOf] <;> grind
  intro c d
  simp only [getEndpoint, getEdge, isAdj, hg, and_self]

example : let G := run (n := 3) [.addEdge 0 1 .tail .arrow]
    (1 : Fin 3) ≠ 2 ∧ G.g 1 2 = .null ∧ G.g 2 1 = .null ∧
    (G.addEdge (mkEdge 1 2 .arrow .tail)).2.isAdj 1 2 = true := by decide

end CL
