import Verif.Spec.GraphHistory
import Verif.Proofs.GraphBasic
import Verif.Props.GraphEdge
import Mathlib.Data.List.Nodup
import Mathlib.Data.List.Count
import Mathlib.Algebra.Order.BigOperators.Group.List
import Mathlib.Algebra.BigOperators.Group.Finset.Basic
import Mathlib.Algebra.BigOperators.Fin
import Mathlib.Tactic.Common

/-!
# C06 (edge lists), C07 (parent / child / degree queries), C56 (edge endpoint setters), C57 (degrees)
-/
namespace CL
open GG
variable {n : Nat}

/-- The mark STAR never enters a graph through the public mutators. -/
theorem op_noStar (G : GG n) (o : Op n) (h : ∀ a b, G.g a b ≠ .star) (c d : Fin n) : (o.apply G).g c d ≠ .star := by
  have h0 := h c d
  cases o with
  | addEdge a b m1 m2 =>
    simp only [Op.apply]
    unfold addEdge
    dsimp only
    repeat' split
    all_goals simp [upd_apply]
    all_goals grind
  | addDirectedEdge a b => simp [Op.apply, addDirectedEdge, upd_apply]; grind
  | removeEdge a b m1 m2 =>
    simp only [Op.apply]
    unfold removeEdge
    dsimp only
    repeat' split
    all_goals simp [upd_apply]
    all_goals grind
  | removeConnectingEdge a b => simp [Op.apply, removeConnectingEdge, upd_apply]; grind

theorem fold_noStar (hist : List (Op n)) (G : GG n) (h : ∀ a b, G.g a b ≠ .star) :
    ∀ a b, (hist.foldl Op.apply G).g a b ≠ .star := by
  induction hist generalizing G with
  | nil => exact h
  | cons o os ih => exact ih _ (op_noStar G o h)

theorem run_symm (hist : List (Op n)) (a b : Fin n) : (run hist).g a b = .null ↔ (run hist).g b a = .null :=
  fold_symm hist (GG.empty n) (by simp) a b

theorem run_noStar (hist : List (Op n)) (a b : Fin n) : (run hist).g a b ≠ .star :=
  fold_noStar hist (GG.empty n) (by simp) a b

/-- A well-formed graph: adjacency symmetric, no STAR. Every history yields one (`run_wf`). -/
structure GG.WF (G : GG n) : Prop where
  symm : ∀ a b, G.g a b = .null ↔ G.g b a = .null
  noStar : ∀ a b, G.g a b ≠ .star

theorem run_wf (hist : List (Op n)) : (run hist).WF := ⟨run_symm hist, run_noStar hist⟩

theorem mem_upperPairs (i j : Fin n) : (i, j) ∈ upperPairs n ↔ i < j := by
  simp [upperPairs, rangeFrom, List.mem_finRange]

theorem nodup_upperPairs : (upperPairs n).Nodup := by
  unfold upperPairs
  rw [List.nodup_flatMap]
  constructor
  · intro i _
    exact ((List.nodup_finRange n).filter _).map (fun a b h => by simpa using h)
  · refine (List.nodup_finRange n).pairwise_of_forall_ne ?_
    intro a _ b _ hab
    simp [Function.onFun, List.disjoint_left]
    intro x1 x2 y _ h1 _
    exact hab h1.symm

theorem pairEdges_simple {G : GG n} (hw : G.WF) (hs : G.Simple) (i j : Fin n) :
    G.pairEdges i j = if G.g i j = .null then [] else [mkEdge i j (G.g i j) (G.g j i)] := by
  have h1 := hw.symm i j
  have h2 := hw.noStar j i
  have h3 := hs j i
  have h4 := hs i j
  unfold pairEdges getEdge
  by_cases h : G.g i j = .null
  · have := h1.1 h
    simp [h, this]
  · have h5 : ¬ G.g j i = .null := fun hh => h (h1.2 hh)
    have : G.g j i = .arrow ∨ G.g j i = .tail ∨ G.g j i = .circle := by
      cases hm : G.g j i <;> simp_all
    simp [h, this]

theorem graphEdges_eq {G : GG n} (hw : G.WF) (hs : G.Simple) :
    G.graphEdges = ((upperPairs n).filter fun p => G.g p.1 p.2 != .null).map
      fun p => mkEdge p.1 p.2 (G.g p.1 p.2) (G.g p.2 p.1) := by
  have : G.graphEdges = (upperPairs n).flatMap fun p => G.pairEdges p.1 p.2 := by
    unfold graphEdges upperPairs
    rw [List.flatMap_assoc]
    congr 1
    funext i
    rw [List.flatMap_map]
  rw [this]
  induction upperPairs n with
  | nil => rfl
  | cons p l ih =>
    rw [List.flatMap_cons, ih, pairEdges_simple hw hs, List.filter_cons]
    by_cases h : G.g p.1 p.2 = .null <;> simp [h]

/-- The edge object connects exactly the two given nodes. -/
def Edge.connects (e : Edge n) (a b : Fin n) : Bool :=
  (e.node1 == a && e.node2 == b) || (e.node1 == b && e.node2 == a)

theorem mkEdge_connects {i j a b : Fin n} (m1 m2 : Mark) (hij : i < j) (hab : a < b) :
    (mkEdge i j m1 m2).connects a b = decide ((i, j) = (a, b)) := by
  unfold mkEdge Edge.connects
  split <;> simp <;> grind

theorem mkEdge_connects_symm (e : Edge n) (a b : Fin n) : e.connects a b = e.connects b a := by
  simp [Edge.connects, Bool.or_comm]

theorem mkEdge_proximal {i j : Fin n} (m1 m2 : Mark) (hij : i ≠ j) :
    (mkEdge i j m1 m2).proximal i = some m1 ∧ (mkEdge i j m1 m2).proximal j = some m2 := by
  have hji : j ≠ i := hij.symm
  unfold mkEdge Edge.proximal
  split <;> simp [hij, hji]

theorem getEndpoint_eq {G : GG n} (hw : G.WF) {a b : Fin n} (hab : a ≠ b) :
    G.getEndpoint a b = if G.g b a = .null then none else some (G.g b a) := by
  have := hw.symm a b
  unfold getEndpoint getEdge
  by_cases h : G.g a b = .null
  · simp [h, this.1 h]
  · have h' : ¬ G.g b a = .null := fun hh => h (this.2 hh)
    simp [h, h', (mkEdge_proximal _ _ hab).2]

theorem foldl_nested {α : Type} (f : Fin n → List α) (w : Fin n → α → Nat) (l : List (Fin n)) (s : Nat) :
    l.foldl (fun acc i => (f i).foldl (fun d j => d + w i j) acc) s = s + (l.flatMap fun i => (f i).map (w i)).sum := by
  induction l generalizing s with
  | nil => simp
  | cons a l ih =>
    rw [List.foldl_cons, ih, List.flatMap_cons, List.sum_append]
    have : ∀ (xs : List α) s, xs.foldl (fun d j => d + w a j) s = s + (xs.map (w a)).sum := by
      intro xs
      induction xs with
      | nil => simp
      | cons x xs ih => intro s; rw [List.foldl_cons, ih]; simp; omega
    rw [this]; omega

theorem markWeight_simple {G : GG n} (hw : G.WF) (hs : G.Simple) (i j : Fin n) (d : Nat) :
    (if G.g i j = .arrow ∨ G.g i j = .tail ∨ G.g i j = .circle then d + 1
      else if G.g i j ≠ .null then d + 2 else d) = d + (if G.g i j != .null then 1 else 0) := by
  have h2 := hw.noStar i j
  have h3 := hs i j
  cases hm : G.g i j <;> simp_all

theorem numEdges_eq {G : GG n} (hw : G.WF) (hs : G.Simple) :
    G.numEdges = ((upperPairs n).filter fun p => G.g p.1 p.2 != .null).length := by
  unfold numEdges
  have : (fun (acc : Nat) (i : Fin n) => (rangeFrom i).foldl (fun d j =>
      if G.g i j = .arrow ∨ G.g i j = .tail ∨ G.g i j = .circle then d + 1
      else if G.g i j ≠ .null then d + 2 else d) acc) =
      fun acc i => (rangeFrom i).foldl (fun d j => d + (if G.g i j != .null then 1 else 0)) acc := by
    funext acc i
    congr 1
    funext d j
    exact markWeight_simple hw hs i j d
  rw [this, foldl_nested]
  have h2 : (List.finRange n).flatMap (fun i => (rangeFrom i).map fun j => if G.g i j != .null then 1 else 0) =
      (upperPairs n).map fun p => if G.g p.1 p.2 != .null then 1 else 0 := by
    unfold upperPairs
    rw [List.map_flatMap]
    congr 1
    funext i
    simp
  rw [h2]
  generalize upperPairs n = l
  induction l with
  | nil => rfl
  | cons p l ih =>
    rw [List.filter_cons]
    by_cases h : G.g p.1 p.2 = .null
    · simp [h] at ih ⊢; omega
    · simp [h] at ih ⊢; omega

/-- **C06.** After any history of edge operations that leaves no doubled edge, `get_graph_edges()` contains exactly one
edge for each adjacent pair — carrying at each end the mark the graph reports there — none for a non-adjacent pair, and
`get_num_edges()` is the number of adjacent pairs, which is also the length of that list. -/
theorem C06_edge_list_exact (hist : List (Op n)) (hs : (run hist).Simple) :
    let G := run hist
    (∀ a b, a ≠ b → (G.graphEdges.countP fun e => e.connects a b) = if G.isAdj a b then 1 else 0) ∧
    (∀ e ∈ G.graphEdges, e.node1 ≠ e.node2 ∧ e.proximal e.node1 = G.getEndpoint e.node2 e.node1 ∧
      e.proximal e.node2 = G.getEndpoint e.node1 e.node2) ∧
    G.numEdges = G.graphEdges.length ∧
    G.numEdges = (Finset.univ.filter fun p : Fin n × Fin n => p.1 < p.2 ∧ G.isAdj p.1 p.2 = true).card := by
  intro G
  have hw : G.WF := run_wf hist
  have hs : G.Simple := hs
  have hE := graphEdges_eq hw hs
  have key : ∀ a b, a < b → (G.graphEdges.countP fun e => e.connects a b) = if G.isAdj a b then 1 else 0 := by
    intro a b hab
    rw [hE, List.countP_map]
    have : ((upperPairs n).filter fun p => G.g p.1 p.2 != .null).countP
        ((fun e => Edge.connects e a b) ∘ fun p => mkEdge p.1 p.2 (G.g p.1 p.2) (G.g p.2 p.1)) =
        ((upperPairs n).filter fun p => G.g p.1 p.2 != .null).countP fun p => p == (a, b) := by
      apply List.countP_congr
      intro p hp
      have hlt := (mem_upperPairs p.1 p.2).1 (List.mem_of_mem_filter hp)
      simp only [Function.comp]
      rw [mkEdge_connects _ _ hlt hab]
      simp
    rw [this]
    change List.count (a, b) _ = _
    have hnd := (nodup_upperPairs (n := n)).filter (fun p => G.g p.1 p.2 != .null)
    have hsym := hw.symm a b
    by_cases hadj : G.g a b = .null
    · rw [List.count_eq_zero_of_not_mem]
      · simp [isAdj, hsym.1 hadj]
      · simp [hadj]
    · have hadj' : ¬ G.g b a = .null := fun h => hadj (hsym.2 h)
      rw [List.count_eq_one_of_mem hnd]
      · simp [isAdj, hadj']
      · simp [mem_upperPairs, hab, hadj]
  refine ⟨?_, ?_, ?_, ?_⟩
  · intro a b hab
    rcases lt_or_gt_of_ne hab with h | h
    · exact key a b h
    · have hsym : G.isAdj a b = G.isAdj b a := (C02_adjacency_symmetric hist).1 a b
      rw [hsym, ← key b a h]
      congr 1
      funext e
      exact mkEdge_connects_symm e a b
  · intro e he
    rw [hE] at he
    simp only [List.mem_map, List.mem_filter] at he
    obtain ⟨⟨i, j⟩, ⟨hp, hne⟩, rfl⟩ := he
    have hlt := (mem_upperPairs i j).1 hp
    have hij : i ≠ j := ne_of_lt hlt
    have hn1 : ¬ G.g i j = .null := by simpa using hne
    have hn2 : ¬ G.g j i = .null := fun h => hn1 ((hw.symm i j).2 h)
    have e1 := mkEdge_proximal (G.g i j) (G.g j i) hij
    dsimp only
    rcases mkEdge_nodes i j (G.g i j) (G.g j i) with ⟨h1, h2⟩ | ⟨h1, h2⟩
    · rw [h1, h2, e1.1, e1.2, getEndpoint_eq hw hij, getEndpoint_eq hw hij.symm]
      simp [hn1, hn2, hij]
    · rw [h1, h2, e1.1, e1.2, getEndpoint_eq hw hij, getEndpoint_eq hw hij.symm]
      simp [hn1, hn2, hij.symm]
  · rw [hE, List.length_map, numEdges_eq hw hs]
  · rw [numEdges_eq hw hs]
    have hnd := (nodup_upperPairs (n := n)).filter (fun p => G.g p.1 p.2 != .null)
    rw [← List.toFinset_card_of_nodup hnd]
    congr 1
    ext ⟨a, b⟩
    have hsym : G.isAdj a b = G.isAdj b a := (C02_adjacency_symmetric hist).1 a b
    simp only [List.mem_toFinset, List.mem_filter, Finset.mem_filter, Finset.mem_univ, true_and, mem_upperPairs, hsym]
    simp [isAdj]

example : let G := run (n := 4) [.addEdge 0 1 .tail .arrow, .addEdge 2 1 .circle .circle, .addEdge 3 0 .arrow .arrow]
    (∀ a b, G.g a b ≠ .ta ∧ G.g a b ≠ .aa) ∧ G.graphEdges.length = 3 ∧ G.numEdges = 3 := by decide

/-- **C07 (partial).** Without doubled edges the four parent/child queries agree, and they mean "tail at the parent,
arrowhead at the child". What is missing is the doubled-edge case (`C07_doubled_violated`), and for the degree part the
graphs with bidirected, circle or undirected edges (`C07_degree_violated`). -/
theorem C07_parent_child_partial (G : GG n) (hs : G.Simple) (p c : Fin n) :
    (p ∈ G.parents c ↔ G.Arrow p c) ∧ (c ∈ G.children p ↔ G.Arrow p c) ∧
    (G.isParentOf p c = true ↔ G.Arrow p c) ∧ (G.isChildOf c p = true ↔ G.Arrow p c) := by
  have h1 := hs p c
  have h2 := hs c p
  simp [parents, children, isParentOf, isChildOf, GG.Arrow, List.mem_finRange]
  grind

theorem foldl_count {α : Type} (w : α → Nat) (f : Nat → α → Nat) (hf : ∀ d a, f d a = d + w a) (l : List α) (s : Nat) :
    l.foldl f s = s + (l.map w).sum := by
  induction l generalizing s with
  | nil => simp
  | cons a l ih => rw [List.foldl_cons, ih, hf]; simp; omega

theorem sum_ite_filter {α : Type} (p : α → Bool) (l : List α) :
    (l.map fun a => if p a then 1 else 0).sum = (l.filter p).length := by
  induction l with
  | nil => rfl
  | cons a l ih => rw [List.filter_cons]; by_cases h : p a <;> simp [h] at ih ⊢ <;> omega

/-- **C07 (partial, degrees).** If every edge of the graph is directed, in-degree and out-degree are the numbers of
reported parents and children. -/
theorem C07_degrees_partial (G : GG n) (hd : ∀ a b, G.g a b ≠ .null → G.Arrow a b ∨ G.Arrow b a) (v : Fin n) :
    G.indegree v = (G.parents v).length ∧ G.outdegree v = (G.children v).length := by
  constructor
  · unfold indegree parents
    rw [foldl_count (w := fun j => if ((G.g j v == .tail && G.g v j == .arrow) || (G.g j v == .ta && G.g v j == .aa)) then 1 else 0)]
    · rw [sum_ite_filter]; simp
    · intro d a
      have := hd v a
      unfold GG.Arrow at this
      by_cases h : G.g v a = .null
      · simp [h]
      · rcases this h with ⟨h1, h2⟩ | ⟨h1, h2⟩ <;> simp [h1, h2]
  · unfold outdegree children
    rw [foldl_count (w := fun j => if ((G.g j v == .arrow && G.g v j == .tail) || (G.g j v == .aa && G.g v j == .ta)) then 1 else 0)]
    · rw [sum_ite_filter]; simp
    · intro d a
      have := hd v a
      unfold GG.Arrow at this
      by_cases h : G.g v a = .null
      · simp [h]
      · rcases this h with ⟨h1, h2⟩ | ⟨h1, h2⟩ <;> simp [h1, h2]

example : let G := run (n := 3) [.addEdge 0 1 .tail .arrow, .addEdge 2 1 .tail .arrow]
    (∀ a b, G.g a b ≠ .null → G.Arrow a b ∨ G.Arrow b a) ∧ G.indegree 1 = 2 ∧ G.parents 1 = [0, 2] := by decide

/-- **C07 violated** by doubled edges: after adding `0 ↔ 1` and `0 — 1`, `is_parent_of` and `is_child_of` claim both
nodes to be a parent of the other, although `get_parents` reports none. -/
theorem C07_doubled_violated : let G := run (n := 2) [.addEdge 0 1 .arrow .arrow, .addEdge 0 1 .tail .tail]
    G.isParentOf 0 1 = true ∧ G.isParentOf 1 0 = true ∧ G.parents 1 = [] ∧ G.children 0 = [] := by decide

/-- **C07 violated** for degrees: an undirected edge counts as outgoing, a bidirected edge as incoming. -/
theorem C07_degree_violated : let G := run (n := 3) [.addEdge 0 1 .arrow .arrow, .addEdge 1 2 .tail .tail]
    G.indegree 1 = 1 ∧ G.parents 1 = [] ∧ G.outdegree 1 = 1 ∧ G.children 1 = [] := by decide

/-- **C57.** After any history that leaves no doubled edges, the degree of a node is its number of adjacent nodes, and
the degrees of all nodes sum to twice the number of edges (plus nothing for self-loops, which are excluded). -/
theorem C57_degree_handshake (hist : List (Op n)) (hs : (run hist).Simple) (hl : ∀ o ∈ hist, o.ends.1 ≠ o.ends.2) :
    let G := run hist
    (∀ v, G.degree v = (G.adjacentNodes v).length) ∧ (∑ v, G.degree v) = 2 * G.numEdges := by
  intro G
  have hw : G.WF := run_wf hist
  have hs : G.Simple := hs
  have hdeg : ∀ v, G.degree v = ((List.finRange n).filter fun j => G.g v j != .null).length := by
    intro v
    unfold degree
    rw [foldl_count (w := fun j => if G.g v j != .null then 1 else 0) _ (fun d a => markWeight_simple hw hs v a d),
      sum_ite_filter]
    simp
  refine ⟨?_, ?_⟩
  · intro v
    rw [hdeg, adjacentNodes]
    congr 1
    apply List.filter_congr
    intro j _
    have := hw.symm v j
    by_cases h : G.g v j = .null
    · simp [h]
    · have : ¬ G.g j v = .null := fun hh => h (this.2 hh)
      simp [h, this]
  · have hfin : ∀ v, G.degree v = (Finset.univ.filter fun j => G.g v j ≠ .null).card := by
      intro v
      rw [hdeg, ← List.toFinset_card_of_nodup ((List.nodup_finRange n).filter _)]
      congr 1
      ext j
      simp [List.mem_finRange]
    have hdiag : ∀ v, G.g v v = .null := by
      intro v
      have := (C02_adjacency_symmetric hist).2 hl v
      simpa [isAdj] using this
    have hnum := (C06_edge_list_exact hist hs).2.2.2
    have hnum : G.numEdges =
      (Finset.univ.filter fun p : Fin n × Fin n => p.1 < p.2 ∧ G.isAdj p.1 p.2 = true).card := hnum
    rw [hnum]
    have h1 : (∑ v, G.degree v) = (Finset.univ.filter fun p : Fin n × Fin n => G.g p.1 p.2 ≠ .null).card := by
      rw [Finset.card_filter, Fintype.sum_prod_type]
      apply Finset.sum_congr rfl
      intro v _
      rw [hfin v, Finset.card_filter]
    rw [h1]
    have hsplit : (Finset.univ.filter fun p : Fin n × Fin n => G.g p.1 p.2 ≠ .null) =
        (Finset.univ.filter fun p : Fin n × Fin n => p.1 < p.2 ∧ G.isAdj p.1 p.2 = true) ∪
        (Finset.univ.filter fun p : Fin n × Fin n => p.1 < p.2 ∧ G.isAdj p.1 p.2 = true).map
          (Equiv.prodComm _ _).toEmbedding := by
      ext ⟨a, b⟩
      simp only [Finset.mem_filter, Finset.mem_univ, true_and, Finset.mem_union, Finset.mem_map_equiv, isAdj]
      have := hw.symm a b
      have := hdiag a
      simp
      rcases lt_trichotomy a b with h | h | h
      · simp [h, not_lt_of_gt h]; grind
      · subst h; simp [hdiag]
      · simp [h, not_lt_of_gt h]
    rw [hsplit, Finset.card_union_of_disjoint, Finset.card_map]
    · omega
    · rw [Finset.disjoint_left]
      rintro ⟨a, b⟩ h1 h2
      simp only [Finset.mem_filter, Finset.mem_univ, true_and, Finset.mem_map_equiv] at h1 h2
      simp at h2
      exact absurd h1.1 (not_lt_of_gt h2.1)

example : let G := run (n := 4) [.addEdge 0 1 .tail .arrow, .addEdge 2 1 .circle .circle, .addEdge 3 0 .arrow .arrow]
    G.degree 1 = 2 ∧ G.degree 0 = 2 ∧ G.degree 3 = 1 := by decide

/-! ## C56: the endpoint setters of `Edge` -/

/-- numerical endpoints mirror the endpoints, and the edge does not point left -/
def Edge.InSync (e : Edge n) : Prop := e.num1 = e.end1 ∧ e.num2 = e.end2

theorem mkEdge_inSync (a b : Fin n) (m1 m2 : Mark) : (mkEdge a b m1 m2).InSync := by
  unfold mkEdge Edge.InSync; split <;> simp

/-- **C56 (partial).** `set_endpoint1` with a legal mark puts exactly that mark at the first node, leaves the other mark
alone and keeps the numerical endpoints in sync; `set_endpoint2` likewise unless it sets ARROW on an edge whose second
end already is ARROW while the first is not (`C56_set_endpoint2_violated`). -/
theorem C56_setters_partial (e : Edge n) (m : Mark) (hne : e.node1 ≠ e.node2) (hsync : e.InSync)
    (hm : m = .tail ∨ m = .arrow ∨ m = .circle) :
    (let e' := e.setEndpoint1 m
     e'.InSync ∧ e'.proximal e.node1 = some m ∧ e'.proximal e.node2 = some e.end2 ∧ e'.connects e.node1 e.node2) ∧
    (¬ (m = .arrow ∧ e.end2 = .arrow ∧ e.end1 ≠ .arrow) →
     let e' := e.setEndpoint2 m
     e'.InSync ∧ e'.proximal e.node2 = some m ∧ e'.proximal e.node1 = some e.end1 ∧ e'.connects e.node1 e.node2) := by
  obtain ⟨n1, n2, e1, e2, k1, k2⟩ := e
  simp only [Edge.InSync] at hsync hne
  obtain ⟨rfl, rfl⟩ := hsync
  have hne' := hne.symm
  simp only [Edge.setEndpoint1, Edge.setEndpoint2, Edge.normalize, Edge.InSync, Edge.proximal, Edge.connects]
  rcases hm with rfl | rfl | rfl <;> cases k1 <;> cases k2 <;> simp [pointingLeft, hne, hne']

example : (mkEdge (0 : Fin 2) 1 .circle .arrow).InSync ∧
    ((mkEdge (0 : Fin 2) 1 .circle .arrow).setEndpoint1 .tail).num1 = .tail := by
  constructor
  · exact mkEdge_inSync _ _ _ _
  · decide

/-- **C56 violated.** Re-setting the second endpoint of any directed edge `a → b` to ARROW — a no-op — corrupts its
numerical endpoints to (ARROW, ARROW); `remove_edge` with that edge object then leaves the edge in the graph. -/
theorem C56_set_endpoint2_violated (G : GG n) (a b : Fin n) (hab : a ≠ b) (h : G.Arrow a b) :
    let e := mkEdge a b .tail .arrow
    let e' := e.setEndpoint2 .arrow
    e'.end1 = e.end1 ∧ e'.end2 = e.end2 ∧ ¬ e'.InSync ∧
    (G.removeEdge e).isAdj a b = false ∧ (G.removeEdge e').isAdj a b = true := by
  have hba : b ≠ a := hab.symm
  unfold GG.Arrow at h
  simp [mkEdge, pointingLeft, Edge.setEndpoint2, Edge.normalize, Edge.InSync, removeEdge, h.1, h.2, isAdj, isParentOf,
    upd_apply, hab, hba]

end CL
