import Verif.Props.DagClass
import Verif.Props.GraphGrow

/-!
# C209: `Dag.transfer_nodes_and_edges`
-/
namespace CL
namespace DagC
open GG Relation
variable {n : Nat}

/-- `Dag.py:646-652` `transfer_nodes_and_edges` into a `Dag` without nodes: the nodes are added first, in their order (C208: this gives the empty graph on them), then
the edges that `get_graph_edges` of the source lists. -/
def transfer (edges : List (Edge n)) : GG n := edges.foldl (fun H e => (addEdge H e).2) (empty n)

theorem transfer_directed (es : List (Fin n × Fin n)) : transfer (es.map fun q => arrowEdge q.1 q.2) = run (addAll es) := by
  unfold transfer run addAll
  rw [List.foldl_map, List.foldl_map]
  rfl

theorem hasEdge_addAll_iff (es : List (Fin n × Fin n)) (h : es.Pairwise fun x y => y ≠ (x.2, x.1)) (a b : Fin n) :
    HasEdge (addAll es) a b ↔ (a, b) ∈ es := by
  induction es using List.reverseRecOn with
  | nil => simp [addAll, hasEdge_nil]
  | append_singleton es e ih =>
    obtain ⟨i, j⟩ := e
    have hall : addAll (es ++ [(i, j)]) = addAll es ++ [.addDirectedEdge i j] := by simp [addAll]
    rw [List.pairwise_append] at h
    rw [hall, hasEdge_snoc, ih h.1]
    have h3 := h.2.2
    simp only [Adds, Clears, List.mem_append, List.mem_singleton, Prod.mk.injEq]
    constructor
    · rintro (h1 | h1)
      · rcases h1 with h1 | h1 | h1 <;> cases h1
        exact .inr ⟨rfl, rfl⟩
      · exact .inl h1.1
    · rintro (h1 | ⟨rfl, rfl⟩)
      · refine .inr ⟨h1, ?_, ?_⟩
        · rintro (h2 | h2 | h2) <;> cases h2
          exact h3 _ h1 _ (by simp) rfl
        · simp
      · exact .inl (by simp)

/-- the edges of a `Dag`, as pairs -/
theorem graphEdges_pairs (h : List (Op n)) (hl : NoLoops h) :
    ∃ es : List (Fin n × Fin n), graphEdges (run h) = es.map (fun q => arrowEdge q.1 q.2) ∧ ∀ a b, (a, b) ∈ es ↔ HasEdge h a b := by
  obtain ⟨-, -, -, -, -, hmem, -⟩ := C105_edge_queries_exact h hl
  refine ⟨(graphEdges (run h)).map fun e => (e.node1, e.node2), ?_, fun a b => ?_⟩
  · rw [List.map_map]
    conv_lhs => rw [← List.map_id (graphEdges (run h))]
    refine List.map_congr_left fun e he => ?_
    obtain ⟨a, b, -, rfl⟩ := (hmem e).1 he
    rfl
  · rw [List.mem_map]
    constructor
    · rintro ⟨e, he, h2⟩
      obtain ⟨x, y, hxy, rfl⟩ := (hmem e).1 he
      simp only [arrowEdge, Prod.mk.injEq] at h2
      rw [← h2.1, ← h2.2]; exact hxy
    · intro hab
      exact ⟨arrowEdge a b, (hmem _).2 ⟨a, b, hab, rfl⟩, rfl⟩

theorem pairwise_of_mem {α : Type} {R : α → α → Prop} {l : List α} (h : ∀ x ∈ l, ∀ y ∈ l, R x y) : l.Pairwise R := by
  induction l with
  | nil => exact List.Pairwise.nil
  | cons a l ih => exact List.Pairwise.cons (fun y hy => h a (by simp) y (by simp [hy])) (ih fun x hx y hy => h x (by simp [hx]) y (by simp [hy]))

theorem no_reverse {h : List (Op n)} (hl : NoLoops h) {es : List (Fin n × Fin n)} (hes : ∀ a b, (a, b) ∈ es ↔ HasEdge h a b) :
    es.Pairwise fun x y => y ≠ (x.2, x.1) := by
  refine pairwise_of_mem fun x hx y hy e => ?_
  subst e
  exact holds_asymm (run_holds h hl) _ _ ((hes x.1 x.2).1 hx) ((hes x.2 x.1).1 hy)

theorem holds_g {G H : GG n} {E : Fin n → Fin n → Prop} (h1 : Holds G E) (h2 : Holds H E) : G.g = H.g := by
  funext a b
  by_cases hab : E a b
  · rw [((h1 a b).2.1).2 hab, ((h2 a b).2.1).2 hab]
  · by_cases hba : E b a
    · rw [((h1 b a).1).2 hba, ((h2 b a).1).2 hba]
    · rw [((h1 a b).2.2).2 ⟨hab, hba⟩, ((h2 a b).2.2).2 ⟨hab, hba⟩]

/-- **C209**, the edges: the graph that received the nodes and edges of a `Dag` has the same marks, after every history of the `Dag`. -/
theorem C209_transfer_marks (h : List (Op n)) (hl : NoLoops h) : (transfer (graphEdges (run h))).g = (run h).g := by
  obtain ⟨es, he, hes⟩ := graphEdges_pairs h hl
  rw [he, transfer_directed]
  have hloop : NoLoops (addAll es) := noLoops_addAll es fun e hx h2 => hasEdge_irrefl h hl e.1 (by
    have := (hes e.1 e.2).1 hx
    rwa [← h2] at this)
  refine holds_g (E := HasEdge h) ?_ (run_holds h hl)
  exact (run_holds (addAll es) hloop).congr fun a b => by rw [hasEdge_addAll_iff es (no_reverse hl hes), hes]

/-- the edges are listed by increasing row of the smaller node -/
theorem graphEdges_sorted (h : List (Op n)) (hl : NoLoops h) (hord : ∀ a b, HasEdge h a b → a < b) :
    (graphEdges (run h)).Pairwise fun e e' => e.node1 ≤ e'.node1 := by
  have hin : ∀ (i j : Fin n) e, i < j → e ∈ (if (run h).g j i ≠ .null then (getEdge (run h) i j).toList else []) → e.node1 = i := by
    intro i j e hij he
    split at he
    · obtain ⟨h1, h2, h3⟩ := getEdge_holds (run_holds h hl) i j
      by_cases ha : HasEdge h i j
      · rw [h1 ha] at he
        simp at he
        rw [he]; rfl
      · have hb : ¬ HasEdge h j i := fun hb => absurd (hord _ _ hb) (by omega)
        rw [h3 ha hb] at he
        simp at he
    · simp at he
  have hrow : ∀ (i : Fin n) e, e ∈ ((rangeFrom i).flatMap fun j => if (run h).g j i ≠ .null then (getEdge (run h) i j).toList else []) → e.node1 = i := by
    intro i e he
    obtain ⟨j, hj, he⟩ := List.mem_flatMap.1 he
    exact hin i j e ((mem_rangeFrom i j).1 hj) he
  unfold graphEdges
  rw [List.pairwise_flatMap]
  refine ⟨fun i _ => ?_, ?_⟩
  · refine pairwise_of_mem fun x hx y hy => ?_
    rw [hrow i x hx, hrow i y hy]
  · refine (List.pairwise_lt_finRange n).imp ?_
    intro a b hab x hx y hy
    rw [hrow a x hx, hrow b y hy]
    exact hab.le

/-- **C209**, the ancestors, what holds: if every edge leads to a later node, `is_ancestor_of` and `exists_trek` of the receiving graph are exact. -/
theorem C209_transfer_ancestors_partial (h : List (Op n)) (hl : NoLoops h) (hord : ∀ a b, HasEdge h a b → a < b) (x y : Fin n) :
    (isAncestorOf (transfer (graphEdges (run h))) x y = true ↔ ReflTransGen (HasEdge h) x y) ∧
    (existsTrek (transfer (graphEdges (run h))) x y = true ↔ ∃ v, ReflTransGen (HasEdge h) v x ∧ ReflTransGen (HasEdge h) v y) := by
  have hs := graphEdges_sorted h hl hord
  obtain ⟨es, he, hes⟩ := graphEdges_pairs h hl
  rw [he, transfer_directed]
  rw [he, List.pairwise_map] at hs
  have hlt : ∀ e ∈ es, e.1 < e.2 := fun e hx => hord _ _ ((hes e.1 e.2).1 hx)
  have hE : HasEdge (addAll es) = HasEdge h := by
    funext a b
    exact propext (by rw [hasEdge_addAll_iff es (no_reverse hl hes), hes])
  have := C106_is_ancestor_of_partial es (fun e hx => (hlt e hx).ne) (by
    refine List.Pairwise.imp_of_mem ?_ hs
    intro a b ha hb hab
    have h1 : a.1 ≤ b.1 := hab
    have h2 := hlt b hb
    exact fun e => absurd (e ▸ h1 : b.2 ≤ b.1) (by omega)) x y
  rw [hE] at this
  exact this

/-- the ancestors hypothesis is met by a chain -/
example : NoLoops (n := 3) (addAll [(0, 1), (1, 2)]) ∧ (∀ a b, HasEdge (n := 3) (addAll [(0, 1), (1, 2)]) a b → a < b) ∧
    ReflTransGen (HasEdge (n := 3) (addAll [(0, 1), (1, 2)])) 0 2 := by
  have hl := noLoops_addAll (n := 3) [(0, 1), (1, 2)] (by decide)
  have key : ∀ a b, HasEdge (n := 3) (addAll [(0, 1), (1, 2)]) a b ↔ (a, b) ∈ [((0 : Fin 3), (1 : Fin 3)), (1, 2)] :=
    hasEdge_addAll_iff _ (by decide)
  refine ⟨hl, fun a b hab => ?_, (ReflTransGen.single ((key 0 1).2 (by decide))).tail ((key 1 2).2 (by decide))⟩
  have := (key a b).1 hab
  clear hab key hl
  revert a b; decide

/-- **C209 is false** for the ancestors: in the chain 0 → 2 → 3 → 1, built from its first edge to its last, 0 is an ancestor of 1; in the graph the chain was transferred to,
which has the same edges, it is not. -/
theorem C209_transfer_ancestors_violated :
    isAncestorOf (run (n := 4) (addAll [(0, 2), (2, 3), (3, 1)])) 0 1 = true ∧
    (transfer (graphEdges (run (n := 4) (addAll [(0, 2), (2, 3), (3, 1)])))).g = (run (n := 4) (addAll [(0, 2), (2, 3), (3, 1)])).g ∧
    isAncestorOf (transfer (graphEdges (run (n := 4) (addAll [(0, 2), (2, 3), (3, 1)])))) 0 1 = false := by
  refine ⟨by decide, C209_transfer_marks _ (noLoops_addAll _ (by decide)), by decide⟩

/-- **C209 is false** for the edges of other graphs: whatever edges a `GeneralGraph` lists, only its directed ones arrive; nothing is raised. -/
theorem C209_other_edges_violated (edges : List (Edge n)) :
    transfer edges = transfer (edges.filter fun e => e.end1 = .tail ∧ e.end2 = .arrow) := by
  unfold transfer
  generalize empty n = G
  induction edges generalizing G with
  | nil => rfl
  | cons e es ih =>
    rw [List.foldl_cons, List.filter_cons]
    by_cases h : e.end1 = .tail ∧ e.end2 = .arrow
    · rw [if_pos (by simpa using h), List.foldl_cons, ih]
    · rw [if_neg (by simpa using h), ← ih]
      congr 1
      unfold addEdge
      rw [if_neg h]

end DagC
end CL
