import Verif.Model.GraphMore
import Verif.Props.GraphQueries
import Verif.Props.GraphAncestor
import Verif.Props.NamedGraph

/-!
# C181-C183: remaining graph queries, transfer, shared node lists
-/
namespace CL
open GG
variable {n : Nat}

/-! ## C181 -/

/-- **C181.** `get_directed_edge(a, b)` returns the edge `a → b` if the graph has it, and nothing for pairs that are not adjacent or joined by an undirected edge. -/
theorem C181_directed_edge_partial (G : GG n) (a b : Fin n) :
    (G.Arrow a b → ∃ e, G.getDirectedEdge a b = some e ∧ e.node1 = a ∧ e.node2 = b ∧ e.end1 = .tail ∧ e.end2 = .arrow) ∧
    (G.g a b = .null → G.getDirectedEdge a b = none) ∧ (G.g a b = .tail ∧ G.g b a = .tail → G.getDirectedEdge a b = none) := by
  unfold getDirectedEdge
  refine ⟨?_, ?_, ?_⟩
  · rintro ⟨h1, h2⟩
    simp [h1, h2, mkEdge, pointingLeft]
  · intro h
    simp [h]
  · rintro ⟨h1, h2⟩
    simp [h1, h2]

/-- **C181, violated.** `get_directed_edge(a, b)` also returns an edge — the opposite one — if the graph has `b → a`, and a bidirected edge if it has `a ↔ b`, although there is
no directed edge from `a` to `b`. -/
theorem C181_directed_edge_violated (G : GG n) (a b : Fin n) :
    (G.Arrow b a → ¬ G.Arrow a b ∧ ∃ e, G.getDirectedEdge a b = some e ∧ e.node1 = b ∧ e.node2 = a) ∧
    (G.g a b = .arrow ∧ G.g b a = .arrow → ¬ G.Arrow a b ∧ ∃ e, G.getDirectedEdge a b = some e ∧ e.end1 = .arrow ∧ e.end2 = .arrow) := by
  unfold getDirectedEdge Arrow
  constructor
  · rintro ⟨h1, h2⟩
    simp [h1, h2, mkEdge, pointingLeft]
  · rintro ⟨h1, h2⟩
    simp [h1, h2, mkEdge, pointingLeft]

theorem foldl_max_int {β : Type} (w : β → Int) : ∀ (l : List β) (m : Int),
    (m ≤ l.foldl (fun m v => if w v > m then w v else m) m ∧ ∀ v ∈ l, w v ≤ l.foldl (fun m v => if w v > m then w v else m) m) ∧
    (l.foldl (fun m v => if w v > m then w v else m) m = m ∨ ∃ v ∈ l, l.foldl (fun m v => if w v > m then w v else m) m = w v)
  | [], m => ⟨⟨le_refl _, by simp⟩, Or.inl rfl⟩
  | x :: l, m => by
    rw [List.foldl_cons]
    obtain ⟨⟨h1, h2⟩, h3⟩ := foldl_max_int w l (if w x > m then w x else m)
    have hx : w x ≤ (if w x > m then w x else m) ∧ m ≤ (if w x > m then w x else m) := by split <;> omega
    refine ⟨⟨hx.2.trans h1, ?_⟩, ?_⟩
    · rintro v (_ | ⟨_, hv⟩)
      · exact hx.1.trans h1
      · exact h2 v hv
    · rcases h3 with h3 | ⟨v, hv, h3⟩
      · by_cases hc : w x > m
        · rw [if_pos hc] at h3 ⊢
          exact Or.inr ⟨x, List.mem_cons_self, h3⟩
        · rw [if_neg hc] at h3 ⊢
          exact Or.inl h3
      · exact Or.inr ⟨v, List.mem_cons_of_mem _ hv, h3⟩

/-- **C181.** `get_max_degree` is the largest degree (and -1 without nodes). -/
theorem C181_max_degree (G : GG n) : (∀ v, (G.degree v : Int) ≤ G.getMaxDegree) ∧ (0 < n → ∃ v, G.getMaxDegree = G.degree v) ∧ (n = 0 → G.getMaxDegree = -1) := by
  obtain ⟨⟨h1, h2⟩, h3⟩ := foldl_max_int (fun v => (G.degree v : Int)) (List.finRange n) (-1)
  refine ⟨fun v => h2 v (List.mem_finRange v), fun hn => ?_, fun hn => ?_⟩
  · rcases h3 with h3 | ⟨v, -, h3⟩
    · have := h2 ⟨0, hn⟩ (List.mem_finRange _)
      rw [h3] at this
      omega
    · exact ⟨v, h3⟩
  · subst hn
    rfl

/-- **C181.** After any history that leaves no doubled edges, `get_num_connected_edges` is the number of adjacent nodes. -/
theorem C181_connected_edges (hist : List (Op n)) (hs : (run hist).Simple) (v : Fin n) :
    (run hist).numConnectedEdges v = ((run hist).adjacentNodes v).length := by
  have hw : (run hist).WF := run_wf hist
  unfold numConnectedEdges adjacentNodes
  rw [foldl_count (w := fun j => if (run hist).g j v != .null then 1 else 0) _ (fun d a => markWeight_simple hw hs a v d), sum_ite_filter]
  rw [Nat.zero_add]
  congr 1
  apply List.filter_congr
  intro j _
  have := hw.symm v j
  by_cases h : (run hist).g v j = .null
  · simp [h, this.1 h]
  · have : ¬ (run hist).g j v = .null := fun hh => h (this.2 hh)
    simp [h, this]

/-- **C181.** A trek that `exists_trek` reports exists: the two nodes have a common ancestor. -/
theorem C181_trek_sound_partial (hist : List (Op n)) (hop : ∀ o ∈ hist, o.plain) (a b : Fin n) (h : (run hist).existsTrek a b = true) :
    ∃ v, (run hist).DirPath v a ∧ (run hist).DirPath v b := by
  unfold existsTrek at h
  obtain ⟨v, -, hv⟩ := List.any_eq_true.1 h
  rw [Bool.and_eq_true] at hv
  exact ⟨v, C04_ancestor_sound_partial hist hop v a hv.1, C04_ancestor_sound_partial hist hop v b hv.2⟩

/-- **C181, violated.** `exists_trek` misses treks (the ancestor table is incomplete, C04): with the edges `0 → 1`, `2 → 3`, `1 → 2`, added in this order, there is a directed path
from 0 to 3 and no trek is reported. -/
theorem C181_trek_violated :
    let G := run (n := 4) [.addEdge 0 1 .tail .arrow, .addEdge 2 3 .tail .arrow, .addEdge 1 2 .tail .arrow]
    G.DirPath 0 3 ∧ G.existsTrek 0 3 = false := by
  refine ⟨C04_ancestor_incomplete_violated.1, by decide⟩

/-! ## C182 -/

theorem addEdge_frame (H : GG n) (e : Edge n) (a b : Fin n) (h1 : ¬ (a = e.node1 ∧ b = e.node2)) (h2 : ¬ (a = e.node2 ∧ b = e.node1)) :
    (H.addEdge e).2.g a b = H.g a b := by
  unfold addEdge
  dsimp only
  split
  · split
    · rfl
    · split
      · split <;> simp [upd_apply, h1, h2]
      · split <;> simp [upd_apply, h1, h2]
      · split <;> simp [upd_apply, h1, h2]
      · rfl
  · split
    · split
      · split
        · rfl
        · split <;> split <;> simp [upd_apply, h1, h2]
      · simp [upd_apply, h1, h2]
    · rfl
  · split
    · rfl
    · split
      · split <;> simp [upd_apply, h1, h2]
      · split <;> simp [upd_apply, h1, h2]
      · rfl
  · rfl

/-- An edge `add_edge` accepts: two single marks, not a circle at the first node with a tail at the second. -/
def Addable (m1 m2 : Mark) : Prop :=
  (m1 = .tail ∨ m1 = .arrow ∨ m1 = .circle) ∧ (m2 = .tail ∨ m2 = .arrow ∨ m2 = .circle) ∧ ¬ (m1 = .circle ∧ m2 = .tail)

theorem addEdge_put (H : GG n) {i j : Fin n} (hij : i ≠ j) (h1 : H.g i j = .null) (h2 : H.g j i = .null) {m1 m2 : Mark} (hm : Addable m1 m2) :
    (H.addEdge (mkEdge i j m1 m2)).2.g i j = m1 ∧ (H.addEdge (mkEdge i j m1 m2)).2.g j i = m2 := by
  have hji : ¬ j = i := fun e => hij e.symm
  obtain ⟨a1 | a1 | a1, b1 | b1 | b1, c1⟩ := hm <;> subst a1 <;> subst b1 <;> simp at c1 <;>
    simp [mkEdge, pointingLeft, addEdge, h1, h2, upd_apply, hij, hji]

theorem mkEdge_frame (H : GG n) (i j : Fin n) (m1 m2 : Mark) (a b : Fin n) (h1 : ¬ (a = i ∧ b = j)) (h2 : ¬ (a = j ∧ b = i)) :
    (H.addEdge (mkEdge i j m1 m2)).2.g a b = H.g a b := by
  apply addEdge_frame
  · unfold mkEdge
    split
    · exact h2
    · exact h1
  · unfold mkEdge
    split
    · exact h1
    · exact h2

theorem transfer_fold (G : GG n) (hG : ∀ i j, i < j → G.g i j ≠ .null → Addable (G.g i j) (G.g j i)) : ∀ (l : List (Fin n × Fin n)), l.Nodup → (∀ p ∈ l, p.1 < p.2 ∧ G.g p.1 p.2 ≠ .null) →
    ∀ H : GG n, (∀ p ∈ l, H.g p.1 p.2 = .null ∧ H.g p.2 p.1 = .null) →
    (∀ p ∈ l, ((l.map fun p => mkEdge p.1 p.2 (G.g p.1 p.2) (G.g p.2 p.1)).foldl (fun H e => (H.addEdge e).2) H).g p.1 p.2 = G.g p.1 p.2 ∧
      ((l.map fun p => mkEdge p.1 p.2 (G.g p.1 p.2) (G.g p.2 p.1)).foldl (fun H e => (H.addEdge e).2) H).g p.2 p.1 = G.g p.2 p.1) ∧
    ∀ a b, (a, b) ∉ l → (b, a) ∉ l → ((l.map fun p => mkEdge p.1 p.2 (G.g p.1 p.2) (G.g p.2 p.1)).foldl (fun H e => (H.addEdge e).2) H).g a b = H.g a b
  | [], _, _, _, _ => ⟨by simp, fun _ _ _ _ => rfl⟩
  | (i, j) :: l, hn, hl, H, hH => by
    rw [List.map_cons, List.foldl_cons]
    have hij := hl (i, j) List.mem_cons_self
    have h0 := hH (i, j) List.mem_cons_self
    obtain ⟨hni, hnl⟩ := List.nodup_cons.1 hn
    have hput := addEdge_put H (Fin.ne_of_lt hij.1) h0.1 h0.2 (hG i j hij.1 hij.2)
    have hother : ∀ a b, (a, b) ≠ (i, j) → (b, a) ≠ (i, j) → (H.addEdge (mkEdge i j (G.g i j) (G.g j i))).2.g a b = H.g a b := fun a b x y =>
      mkEdge_frame H i j _ _ a b (fun e => x (by rw [e.1, e.2])) (fun e => y (by rw [e.1, e.2]))
    have hpl : ∀ p ∈ l, p ≠ (i, j) ∧ (p.2, p.1) ≠ (i, j) := fun p hp => ⟨fun e => hni (e ▸ hp), fun e => by
      have h1 := (hl p (List.mem_cons_of_mem _ hp)).1
      have h2 := hij.1
      rw [Prod.mk.injEq] at e
      rw [e.1, e.2] at h1
      exact absurd h1 (not_lt.2 h2.le)⟩
    obtain ⟨h1, h2⟩ := transfer_fold G hG l hnl (fun p hp => hl p (List.mem_cons_of_mem _ hp)) (H.addEdge (mkEdge i j (G.g i j) (G.g j i))).2 (by
      intro p hp
      have hp' := hH p (List.mem_cons_of_mem _ hp)
      rw [hother p.1 p.2 (hpl p hp).1 (hpl p hp).2, hother p.2 p.1 (hpl p hp).2 (hpl p hp).1]
      exact hp')
    refine ⟨?_, ?_⟩
    · rintro p (_ | ⟨_, hp⟩)
      · have hji : (j, i) ∉ l := fun hp => (hpl (j, i) hp).2 rfl
        rw [h2 i j hni hji, h2 j i hji hni]
        exact hput
      · exact h1 p hp
    · intro a b x y
      rw [h2 a b (fun hp => x (List.mem_cons_of_mem _ hp)) (fun hp => y (List.mem_cons_of_mem _ hp))]
      exact hother a b (fun e => x (e ▸ List.mem_cons_self)) (fun e => y (e ▸ List.mem_cons_self))

/-- **C182.** `transfer_nodes_and_edges` into an empty graph copies every edge with its marks, after any history that leaves no doubled edges, no self-loops, and no edge with a circle at the
earlier and a tail at the later node. -/
theorem C182_transfer_partial (hist : List (Op n)) (hs : (run hist).Simple) (hl : ∀ v, (run hist).g v v = .null)
    (hc : ∀ i j : Fin n, i < j → ¬ ((run hist).g i j = .circle ∧ (run hist).g j i = .tail)) : (run hist).transfer.g = (run hist).g := by
  have hw : (run hist).WF := run_wf hist
  generalize run hist = G at *
  unfold transfer
  rw [graphEdges_eq hw hs]
  have hsingle : ∀ a b, G.g a b ≠ .null → (G.g a b = .tail ∨ G.g a b = .arrow ∨ G.g a b = .circle) := by
    intro a b h
    have h1 := hs a b
    have h2 := hw.noStar a b
    cases hm : G.g a b <;> simp_all
  obtain ⟨h1, h2⟩ := transfer_fold G (fun i j hij hne => ⟨hsingle i j hne, hsingle j i fun h => hne ((hw.symm i j).2 h), hc i j hij⟩)
    ((upperPairs n).filter fun p => G.g p.1 p.2 != .null) (nodup_upperPairs.filter _) (by
      intro p hp
      rw [List.mem_filter] at hp
      exact ⟨(mem_upperPairs p.1 p.2).1 hp.1, by simpa using hp.2⟩) (GG.empty n) (by intro p _; simp [GG.empty])
  have hmem : ∀ a b, (a, b) ∈ (upperPairs n).filter (fun p => G.g p.1 p.2 != .null) ↔ a < b ∧ G.g a b ≠ .null := fun a b => by
    rw [List.mem_filter, mem_upperPairs]
    simp
  funext a b
  by_cases hn : G.g a b = .null
  · have hn' := (hw.symm a b).1 hn
    rw [h2 a b (fun h => ((hmem a b).1 h).2 hn) (fun h => ((hmem b a).1 h).2 hn'), hn]
    simp [GG.empty]
  · rcases lt_trichotomy a b with hab | hab | hab
    · exact (h1 (a, b) ((hmem a b).2 ⟨hab, hn⟩)).1
    · subst hab
      exact (hn (hl a)).elim
    · exact (h1 (b, a) ((hmem b a).2 ⟨hab, fun h => hn ((hw.symm b a).1 h)⟩)).2

/-- **C182, violated.** An edge `1 --o 0` (circle at the node that comes first) is lost by the transfer: `add_edge` refuses the edge object that `get_graph_edges` makes of it. -/
theorem C182_circle_tail_violated : let G := run (n := 2) [.addEdge 1 0 .tail .circle]
    G.isAdj 0 1 = true ∧ G.transfer.isAdj 0 1 = false ∧ (run (n := 2) [.addEdge 0 1 .tail .circle]).transfer.isAdj 0 1 = true := by decide

/-- The hypotheses of the transfer theorem can be met by a graph with all kinds of edges. -/
example : let G := run (n := 4) [.addEdge 0 1 .tail .arrow, .addEdge 2 1 .tail .arrow, .addEdge 2 3 .circle .circle, .addEdge 0 3 .tail .circle, .addEdge 0 2 .arrow .arrow]
    (∀ a b, G.g a b ≠ .ta ∧ G.g a b ≠ .aa) ∧ (∀ v, G.g v v = .null) ∧ (∀ i j : Fin 4, i < j → ¬ (G.g i j = .circle ∧ G.g j i = .tail)) ∧ G.numEdges = 5 := by decide

/-! ## C183 -/

namespace GHeap
variable {α : Type} [LinearOrder α]

/-- The graph objects a call changes or compares. -/
def Call.targets : Call α → List Nat
  | .construct g _ => [g]
  | .addNode g _ => [g]
  | .removeNode g _ => [g]
  | .compare g g' => [g, g']
  | .putEdge g _ _ _ _ => [g]
  | .setNodes g _ => [g]

/-- The lists a call gives to a graph. -/
def Call.lists : Call α → List Nat
  | .construct _ c => [c]
  | .setNodes _ c => [c]
  | _ => []

theorem step_frame (h : GHeap α) (g : Nat) (hp : ∀ k, k ≠ g → (h.objs k).cell ≠ (h.objs g).cell) (call : Call α) (ht : g ∉ call.targets) (hl : (h.objs g).cell ∉ call.lists) :
    (h.apply call).view g = h.view g ∧ ((h.apply call).objs g).cell = (h.objs g).cell ∧ ∀ k, k ≠ g → ((h.apply call).objs k).cell ≠ (h.objs g).cell := by
  cases call with
  | construct k c =>
    have hk : g ≠ k := by simpa [Call.targets] using ht
    have hc : (h.objs g).cell ≠ c := by simpa [Call.lists] using hl
    simp only [apply, construct, view, putObj, if_neg hk, true_and]
    intro k' hk'
    split
    · exact fun e => hc e.symm
    · exact hp k' hk'
  | addNode k x =>
    have hk : g ≠ k := by simpa [Call.targets] using ht
    have hc : (h.objs g).cell ≠ (h.objs k).cell := fun e => hp k (fun e' => hk e'.symm) e.symm
    simp only [apply, addNode]
    split
    · exact ⟨rfl, rfl, hp⟩
    · simp only [view, putObj, putCell, if_neg hk, if_neg hc, true_and]
      intro k' hk'
      split
      · exact fun e => hc e.symm
      · exact hp k' hk'
  | removeNode k v =>
    have hk : g ≠ k := by simpa [Call.targets] using ht
    have hc : (h.objs g).cell ≠ (h.objs k).cell := fun e => hp k (fun e' => hk e'.symm) e.symm
    simp only [apply, removeNode]
    split
    · exact ⟨rfl, rfl, hp⟩
    · simp only [view, putObj, putCell, if_neg hk, if_neg hc, true_and]
      intro k' hk'
      split
      · exact fun e => hc e.symm
      · exact hp k' hk'
  | compare k k' =>
    have hk : g ≠ k ∧ g ≠ k' := by simpa [Call.targets] using ht
    have hc : (h.objs g).cell ≠ (h.objs k).cell := fun e => hp k (fun e' => hk.1 e'.symm) e.symm
    have hc' : (h.objs g).cell ≠ (h.objs k').cell := fun e => hp k' (fun e' => hk.2 e'.symm) e.symm
    simp only [apply, compare, view, putCell, if_neg hc, if_neg hc', true_and]
    exact hp
  | putEdge k a b m1 m2 =>
    have hk : g ≠ k := by simpa [Call.targets] using ht
    have hc : (h.objs g).cell ≠ (h.objs k).cell := fun e => hp k (fun e' => hk e'.symm) e.symm
    simp only [apply, putEdge, view, putObj, if_neg hk, true_and]
    intro k' hk'
    split
    · exact fun e => hc e.symm
    · exact hp k' hk'
  | setNodes k c =>
    have hk : g ≠ k := by simpa [Call.targets] using ht
    have hc : (h.objs g).cell ≠ c := by simpa [Call.lists] using hl
    simp only [apply, setNodes]
    split
    · simp only [view, putObj, if_neg hk, true_and]
      intro k' hk'
      split
      · exact fun e => hc e.symm
      · exact hp k' hk'
    · exact ⟨rfl, rfl, hp⟩

/-- **C183.** A graph whose node list is its own is not changed by any history of calls on other graphs, as long as its list is not given to another graph. -/
theorem C183_private_list_partial (h : GHeap α) (g : Nat) (hp : ∀ k, k ≠ g → (h.objs k).cell ≠ (h.objs g).cell) (hist : List (Call α))
    (ht : ∀ call ∈ hist, g ∉ call.targets ∧ (h.objs g).cell ∉ call.lists) : (hist.foldl apply h).view g = h.view g := by
  induction hist generalizing h with
  | nil => rfl
  | cons call hist ih =>
    obtain ⟨h1, h2, h3⟩ := step_frame h g hp call (ht call List.mem_cons_self).1 (ht call List.mem_cons_self).2
    rw [List.foldl_cons, ih (h.apply call) (fun k hk => by rw [h2]; exact h3 k hk) (fun c hc => by
      rw [h2]
      exact ht c (List.mem_cons_of_mem _ hc)), h1]

/-- **C183, violated.** Two graphs made from one node list (as by `dag2cpdag(G)`, whose result uses the node list of `G`): adding a node to one puts it into the node list of the other,
which then contains a node it has no row for; every query about it raises there (`node_map` has no entry), and `add_node` refuses to add it properly. -/
theorem C183_add_node_violated (h : GHeap α) (g g' c : Nat) (hg : g ≠ g') (hn : (h.cells c).Nodup) (x : α) (hx : x ∉ h.cells c) :
    let h' := ((h.construct g c).construct g' c).addNode g x
    (h'.view g').nodes = h.cells c ++ [x] ∧ (h'.view g').num = (h.cells c).length ∧ (h'.view g').map x = none ∧ h'.addNode g' x = h' := by
  have hg' : ¬ g' = g := fun e => hg e.symm
  intro h'
  have e1 : ((h.construct g c).construct g' c).cells = h.cells := rfl
  have e2 : (((h.construct g c).construct g' c).objs g) = ⟨c, buildMap (h.cells c), (h.cells c).length, fun _ _ => .null⟩ := by
    simp [construct, putObj, hg]
  have e3 : (((h.construct g c).construct g' c).objs g') = ⟨c, buildMap (h.cells c), (h.cells c).length, fun _ _ => .null⟩ := by
    simp [construct, putObj]
  have hcell : h'.cells c = h.cells c ++ [x] := by
    simp only [h', addNode, e1, e2]
    rw [if_neg hx]
    simp [putObj, putCell]
  have hobj : h'.objs g' = ⟨c, buildMap (h.cells c), (h.cells c).length, fun _ _ => .null⟩ := by
    simp only [h', addNode, e1, e2]
    rw [if_neg hx]
    simp only [putObj, putCell, if_neg hg']
    exact e3
  refine ⟨?_, ?_, ?_, ?_⟩
  · unfold view
    rw [hobj]
    exact hcell
  · unfold view
    rw [hobj]
  · unfold view
    rw [hobj]
    show buildMap (h.cells c) x = none
    by_contra hne
    obtain ⟨i, hi⟩ := Option.ne_none_iff_exists'.1 hne
    exact hx (List.mem_of_getElem? ((buildMap_spec _ hn x i).1 hi))
  · unfold addNode
    rw [hobj]
    dsimp only
    rw [hcell, if_pos (by simp)]

/-- **C183** (`add_node` on the graph itself): the new node comes last, gets the last index, and nothing else about the graph changes. -/
theorem C183_add_node (h : GHeap α) (g : Nat) (x : α) (hx : x ∉ (h.view g).nodes) :
    let h' := h.addNode g x
    (h'.view g).nodes = (h.view g).nodes ++ [x] ∧ (h'.view g).num = (h.view g).num + 1 ∧ (h'.view g).map x = some (h.view g).num ∧
      (∀ y, y ≠ x → (h'.view g).map y = (h.view g).map y) ∧
      (∀ a b, a < (h.view g).num → b < (h.view g).num → (h'.view g).mat a b = (h.view g).mat a b) ∧
      ∀ a b, a = (h.view g).num ∨ b = (h.view g).num → (h'.view g).mat a b = .null := by
  intro h'
  have hx' : ¬ x ∈ h.cells (h.objs g).cell := hx
  simp only [h', addNode, if_neg hx', view, putObj, putCell, if_true]
  refine ⟨trivial, trivial, trivial, fun y hy => if_neg hy, fun a b ha hb => if_pos ⟨ha, hb⟩, fun a b hab => if_neg ?_⟩
  rintro ⟨ha, hb⟩
  rcases hab with rfl | rfl
  · exact lt_irrefl _ ha
  · exact lt_irrefl _ hb

/-- **C183** (`==` on the graphs themselves): both node lists are sorted afterwards, while the dictionaries and the matrices, which refer to the old positions, stay. -/
theorem C183_compare_violated (h : GHeap α) (g g' : Nat) :
    let h' := h.compare g g'
    ∀ k, k = g ∨ k = g' → (h'.view k).nodes.Pairwise (· ≤ ·) ∧ (h'.view k).nodes.Perm (h.view k).nodes ∧ (h'.view k).map = (h.view k).map ∧
      (h'.view k).num = (h.view k).num ∧ (h'.view k).mat = (h.view k).mat := by
  have hs : ∀ l : List α, (l.mergeSort (fun a b => decide (a ≤ b))).Pairwise (· ≤ ·) := fun l => by
    have := List.pairwise_mergeSort (le := fun a b : α => decide (a ≤ b)) (fun a b c h1 h2 => by simp only [decide_eq_true_eq] at *; exact h1.trans h2)
      (fun a b => by simpa using le_total a b) l
    simpa using this
  intro h' k hk
  refine ⟨?_, ?_, rfl, rfl, rfl⟩
  · show (h'.cells (h.objs k).cell).Pairwise (· ≤ ·)
    by_cases hc : (h.objs k).cell = (h.objs g').cell
    · simp only [h', compare, putCell, hc, if_true]
      exact hs _
    · rcases hk with rfl | rfl
      · simp only [h', compare, putCell, if_neg hc, if_true]
        exact hs _
      · exact absurd rfl hc
  · show (h'.cells (h.objs k).cell).Perm (h.cells (h.objs k).cell)
    have hp : ∀ (h : GHeap α) c l, (h.putCell c l).cells = fun d => if d = c then l else h.cells d := fun _ _ _ => rfl
    have h1 : ∀ (h : GHeap α) c d, ((h.putCell c ((h.cells c).mergeSort (fun a b => decide (a ≤ b)))).cells d).Perm (h.cells d) := fun h c d => by
      rw [hp]
      dsimp only
      split
      · next e => subst e; exact List.mergeSort_perm _ _
      · exact List.Perm.refl _
    exact (h1 _ _ _).trans (h1 _ _ _)

/-- The dictionary is then wrong: after `G == G'`, a graph over `["b", "a"]` with the edge `"b" -> "a"` still has it, but the node in position 0 is `"a"`, which the dictionary puts at 1. -/
example : let h0 : GHeap Nat := ⟨fun _ => [1, 0], fun _ => ⟨9, fun _ => none, 0, fun _ _ => .null⟩⟩
    let h1 := h0.construct 0 0
    ((h1.view 0).nodes = [1, 0] ∧ (h1.view 0).map 0 = some 1) ∧ ∀ l, (((h1.compare 0 0).view 0).nodes = l → l.Pairwise (· ≤ ·) ∧ l.Perm [1, 0]) :=
  ⟨by decide, fun l hl => by
    have := C183_compare_violated ((⟨fun _ => [1, 0], fun _ => ⟨9, fun _ => none, 0, fun _ _ => .null⟩⟩ : GHeap Nat).construct 0 0) 0 0 0 (Or.inl rfl)
    exact hl ▸ ⟨this.1, this.2.1⟩⟩

/-- **C183, violated.** Removing a node from one of two graphs made from one list makes the other name wrong neighbours: graph 1 has the single edge `0 → 1`; after `remove_node(0)` on
graph 0 it reports that `0` is adjacent to `2`. -/
theorem C183_remove_node_violated :
    let h0 : GHeap Nat := ⟨fun _ => [0, 1, 2], fun _ => ⟨9, fun _ => none, 0, fun _ _ => .null⟩⟩
    let h1 := ((h0.construct 0 0).construct 1 0).putEdge 1 0 1 .tail .arrow
    let h2 := h1.removeNode 0 0
    (h1.view 1).adjacentNodes 0 = [1] ∧ (h2.view 1).adjacentNodes 0 = [2] := by decide

/-- Every second element, starting with the second. -/
def everySecond : List α → List α
  | _ :: b :: l => b :: everySecond l
  | _ => []

theorem removeNode_nodes (h : GHeap α) (g : Nat) (v : α) (i : Nat) (hm : (h.objs g).map v = some i) :
    (h.removeNode g v).cells ((h.removeNode g v).objs g).cell = (h.cells (h.objs g).cell).erase v ∧
    ((h.removeNode g v).objs g).map = buildMap ((h.cells (h.objs g).cell).erase v) := by
  unfold removeNode
  rw [hm]
  simp [putObj, putCell]

theorem removeOwn_nodes (g : Nat) : ∀ (f : Nat) (kept rest : List α) (h : GHeap α), h.cells (h.objs g).cell = kept ++ rest → (kept ++ rest).Nodup →
    (h.objs g).map = buildMap (kept ++ rest) → rest.length ≤ f →
    (removeOwn g f kept.length h).cells ((removeOwn g f kept.length h).objs g).cell = kept ++ everySecond rest
  | 0, kept, rest, h, hc, _, _, hf => by
    have : rest = [] := List.length_eq_zero_iff.1 (Nat.le_zero.1 hf)
    subst this
    exact hc
  | f + 1, kept, [], h, hc, _, _, hf => by
    unfold removeOwn
    rw [hc, List.append_nil, List.getElem?_eq_none (le_refl _)]
    rw [List.append_nil] at hc
    simpa [everySecond] using hc
  | f + 1, kept, v :: rest, h, hc, hn, hm, hf => by
    have hget : (kept ++ v :: rest)[kept.length]? = some v := by simp
    obtain ⟨r1, r2⟩ := removeNode_nodes h g v kept.length (by rw [hm]; exact (buildMap_spec _ hn v kept.length).2 hget)
    have hv : v ∉ kept := fun hv => by
      have := List.disjoint_of_nodup_append hn
      exact this hv List.mem_cons_self
    have her : (kept ++ v :: rest).erase v = kept ++ rest := by
      rw [List.erase_append_right _ hv, List.erase_cons_head]
    rw [hc, her] at r1 r2
    have hn' : (kept ++ rest).Nodup := her ▸ hn.erase v
    have hstep : removeOwn g (f + 1) kept.length h = removeOwn g f (kept.length + 1) (h.removeNode g v) := by
      show (match (h.cells (h.objs g).cell)[kept.length]? with
        | none => h
        | some v => removeOwn g f (kept.length + 1) (h.removeNode g v)) = _
      rw [hc, hget]
    rw [hstep]
    cases rest with
    | nil =>
      have e : removeOwn g f (kept.length + 1) (h.removeNode g v) = h.removeNode g v := by
        cases f with
        | zero => rfl
        | succ f =>
          show (match ((h.removeNode g v).cells ((h.removeNode g v).objs g).cell)[kept.length + 1]? with
            | none => (h.removeNode g v)
            | some v' => removeOwn g f (kept.length + 2) ((h.removeNode g v).removeNode g v')) = _
          rw [r1, List.append_nil, List.getElem?_eq_none (by omega)]
      rw [e, r1]
      rfl
    | cons b l =>
      have hlen : kept.length + 1 = (kept ++ [b]).length := by simp
      rw [hlen]
      rw [removeOwn_nodes g f (kept ++ [b]) l (h.removeNode g v) (by rw [r1]; simp) (by simpa using hn') (by rw [r2]; simp) (by simp at hf; omega)]
      simp [everySecond]

/-- **C183, violated.** `G.remove_nodes(G.get_nodes())` does not empty the graph: the list is shortened while it is read, and every second node stays. -/
theorem C183_remove_all_violated (h : GHeap α) (g c : Nat) (hn : (h.cells c).Nodup) :
    ((removeOwn g (h.cells c).length 0 (h.construct g c)).view g).nodes = everySecond (h.cells c) := by
  have e : (h.construct g c).objs g = ⟨c, buildMap (h.cells c), (h.cells c).length, fun _ _ => .null⟩ := by simp [construct, putObj]
  have := removeOwn_nodes g (h.cells c).length [] (h.cells c) (h.construct g c) (by rw [e]; rfl) hn (by rw [e]; rfl) (le_refl _)
  exact this

/-- Four nodes: two stay. -/
example : everySecond [0, 1, 2, 3] = [1, 3] := rfl

/-- **C183, violated.** `set_nodes` replaces the list but not the dictionary: the new names are unknown to every query, the old ones still work. -/
theorem C183_set_nodes_violated (h : GHeap α) (g c c' : Nat) (hlen : (h.cells c').length = (h.cells c).length) (hn : (h.cells c).Nodup) (x : α) (hx : x ∈ h.cells c') (hx' : x ∉ h.cells c) :
    let h' := (h.construct g c).setNodes g c'
    (h'.view g).nodes = h.cells c' ∧ (h'.view g).map x = none := by
  have e : (h.construct g c).objs g = ⟨c, buildMap (h.cells c), (h.cells c).length, fun _ _ => .null⟩ := by simp [construct, putObj]
  intro h'
  have e' : h'.objs g = ⟨c', buildMap (h.cells c), (h.cells c).length, fun _ _ => .null⟩ := by
    simp only [h', setNodes]
    rw [if_pos (by rw [e]; exact hlen)]
    simp [putObj, e]
  have ec : h'.cells = h.cells := by
    simp only [h', setNodes]
    rw [if_pos (by rw [e]; exact hlen)]
    rfl
  unfold view
  rw [e', ec]
  refine ⟨rfl, ?_⟩
  show buildMap (h.cells c) x = none
  by_contra hne
  obtain ⟨i, hi⟩ := Option.ne_none_iff_exists'.1 hne
  exact hx' (List.mem_of_getElem? ((buildMap_spec _ hn x i).1 hi))

end GHeap
end CL
