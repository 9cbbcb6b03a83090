import Verif.Model.GraphPatterns
import Verif.Proofs.PC
import Verif.Props.GraphQueries
import Verif.Props.DagClass
import Verif.Props.Metrics
import Mathlib.Tactic.Linarith
import Mathlib.Tactic.FieldSimp
import Mathlib.Algebra.Order.Field.Rat
import Mathlib.Algebra.Order.Field.Basic

/-!
# C133 (triangles, kites, unshielded triples), C134 (`GraphUtils.sdh`), C135 (precision and recall)
-/
namespace CL
open GG
variable {n : Nat}

theorem nodup_perm2 {α : Type} [DecidableEq α] {l : List α} (h : l.Nodup) : (perm2 l).Nodup := by
  unfold perm2
  rw [List.nodup_flatMap]
  refine ⟨fun p _ => (h.filter _).map fun a b e => by simpa using e, ?_⟩
  refine h.imp fun {a b} hab => ?_
  rw [Function.onFun, List.disjoint_left]
  intro x hx hx'
  simp only [List.mem_map] at hx hx'
  obtain ⟨q, -, rfl⟩ := hx
  obtain ⟨q', -, e⟩ := hx'
  exact hab (by simpa using (congrArg Prod.fst e).symm)

/-! ### The edges of a simple graph -/

theorem graphEdges_nodes {G : GG n} (hw : G.WF) (hs : G.Simple) {e : Edge n} (he : e ∈ G.graphEdges) :
    e.node1 ≠ e.node2 ∧ G.g e.node1 e.node2 ≠ .null := by
  rw [graphEdges_eq hw hs] at he
  simp only [List.mem_map, List.mem_filter, Prod.exists, mem_upperPairs, bne_iff_ne] at he
  obtain ⟨i, j, ⟨hij, hn⟩, rfl⟩ := he
  unfold mkEdge
  split
  · exact ⟨ne_of_gt hij, fun h => hn ((hw.symm j i).1 h)⟩
  · exact ⟨ne_of_lt hij, hn⟩

theorem graphEdges_exists {G : GG n} (hw : G.WF) (hs : G.Simple) (hl : ∀ v, G.g v v = .null) {a b : Fin n} (h : G.g a b ≠ .null) :
    ∃ e ∈ G.graphEdges, (e.node1 = a ∧ e.node2 = b) ∨ (e.node1 = b ∧ e.node2 = a) := by
  have hne : a ≠ b := fun h' => h (h' ▸ hl a)
  rw [graphEdges_eq hw hs]
  rcases lt_or_gt_of_ne hne with hab | hab
  · refine ⟨mkEdge a b (G.g a b) (G.g b a), ?_, ?_⟩
    · simp only [List.mem_map, List.mem_filter, Prod.exists, mem_upperPairs, bne_iff_ne]
      exact ⟨a, b, ⟨hab, h⟩, rfl⟩
    · unfold mkEdge; split <;> simp
  · refine ⟨mkEdge b a (G.g b a) (G.g a b), ?_, ?_⟩
    · simp only [List.mem_map, List.mem_filter, Prod.exists, mem_upperPairs, bne_iff_ne]
      exact ⟨b, a, ⟨hab, fun h' => h ((hw.symm b a).1 h')⟩, rfl⟩
    · unfold mkEdge; split <;> simp

theorem graphEdges_unique {G : GG n} (hw : G.WF) (hs : G.Simple) {e e' : Edge n} (he : e ∈ G.graphEdges) (he' : e' ∈ G.graphEdges)
    (h : (e.node1 = e'.node1 ∧ e.node2 = e'.node2) ∨ (e.node1 = e'.node2 ∧ e.node2 = e'.node1)) : e = e' := by
  rw [graphEdges_eq hw hs] at he he'
  simp only [List.mem_map, List.mem_filter, Prod.exists, mem_upperPairs, bne_iff_ne] at he he'
  obtain ⟨i, j, ⟨hij, -⟩, rfl⟩ := he
  obtain ⟨i', j', ⟨hij', -⟩, rfl⟩ := he'
  have : i = i' ∧ j = j' := by
    unfold mkEdge at h
    split at h <;> split at h <;> simp only at h <;> grind
  rw [this.1, this.2]

theorem graphEdges_nodup {G : GG n} (hw : G.WF) (hs : G.Simple) : G.graphEdges.Nodup := by
  rw [graphEdges_eq hw hs]
  refine List.Nodup.map_on ?_ (nodup_upperPairs.filter _)
  rintro ⟨i, j⟩ h ⟨i', j'⟩ h' e
  simp only [List.mem_filter, mem_upperPairs] at h h'
  have h1 := h.1
  have h2 := h'.1
  unfold mkEdge at e
  split at e <;> split at e <;> simp only [Edge.mk.injEq] at e <;> grind

/-- What a reported triangle says about the two edges. -/
theorem edgeTriangle_spec {G : GG n} {p q : Edge n} {x y z : Fin n} (h : G.edgeTriangle p q = some (x, y, z)) :
    ((p.node1 = x ∧ p.node2 = y) ∨ (p.node1 = y ∧ p.node2 = x)) ∧
    ((q.node1 = y ∧ q.node2 = z) ∨ (q.node1 = z ∧ q.node2 = y)) ∧ G.g z x ≠ .null := by
  unfold edgeTriangle at h
  simp only [isAdj, bne_iff_ne] at h
  split_ifs at h <;> simp only [Option.some.injEq, Prod.mk.injEq] at h <;> grind

theorem edgeTriangle_of {G : GG n} {p q : Edge n} {x y z : Fin n} (hxy : x ≠ y) (hyz : y ≠ z) (hxz : x ≠ z)
    (hp : (p.node1 = x ∧ p.node2 = y) ∨ (p.node1 = y ∧ p.node2 = x))
    (hq : (q.node1 = y ∧ q.node2 = z) ∨ (q.node1 = z ∧ q.node2 = y)) (h : G.g z x ≠ .null) :
    G.edgeTriangle p q = some (x, y, z) := by
  unfold edgeTriangle
  simp only [isAdj, bne_iff_ne]
  rcases hp with ⟨h1, h2⟩ | ⟨h1, h2⟩ <;> rcases hq with ⟨h3, h4⟩ | ⟨h3, h4⟩ <;> rw [h1, h2, h3, h4] <;> grind

theorem mem_guTriangles {G : GG n} (hw : G.WF) (hs : G.Simple) (hl : ∀ v, G.g v v = .null) (x y z : Fin n) :
    (x, y, z) ∈ G.guTriangles ↔ G.g x y ≠ .null ∧ G.g y z ≠ .null ∧ G.g x z ≠ .null := by
  unfold guTriangles
  simp only [List.mem_filterMap, Prod.exists, mem_perm2]
  constructor
  · rintro ⟨p, q, ⟨hp, hq, -⟩, h⟩
    obtain ⟨h1, h2, h3⟩ := edgeTriangle_spec h
    have e1 := (graphEdges_nodes hw hs hp).2
    have e2 := (graphEdges_nodes hw hs hq).2
    have s1 := hw.symm x y
    have s2 := hw.symm y z
    have s3 := hw.symm x z
    grind
  · rintro ⟨h1, h2, h3⟩
    have hxy : x ≠ y := fun h => h1 (h ▸ hl x)
    have hyz : y ≠ z := fun h => h2 (h ▸ hl y)
    have hxz : x ≠ z := fun h => h3 (h ▸ hl x)
    obtain ⟨p, hp, hp'⟩ := graphEdges_exists hw hs hl h1
    obtain ⟨q, hq, hq'⟩ := graphEdges_exists hw hs hl h2
    refine ⟨p, q, ⟨hp, hq, ?_⟩, edgeTriangle_of hxy hyz hxz hp' hq' fun h => h3 ((hw.symm x z).2 h)⟩
    rintro rfl
    grind

theorem nodup_guTriangles {G : GG n} (hw : G.WF) (hs : G.Simple) : G.guTriangles.Nodup := by
  unfold guTriangles
  rw [List.Nodup, List.pairwise_filterMap]
  refine (nodup_perm2 (graphEdges_nodup hw hs)).imp_of_mem fun {a b} ha hb hab t ht t' ht' he => hab ?_
  subst he
  obtain ⟨p, q⟩ := a
  obtain ⟨p', q'⟩ := b
  obtain ⟨x, y, z⟩ := t
  rw [mem_perm2] at ha hb
  obtain ⟨h1, h2, -⟩ := edgeTriangle_spec ht
  obtain ⟨h3, h4, -⟩ := edgeTriangle_spec ht'
  rw [graphEdges_unique hw hs ha.1 hb.1 (by grind), graphEdges_unique hw hs ha.2.1 hb.2.1 (by grind)]

/-! ### C133 -/

/-- **C133**, `GraphUtils.find_triangles`: on a simple graph without self-loops exactly the triangles, each listed once in
each of its six orders. -/
theorem C133_triangles_exact {G : GG n} (hw : G.WF) (hs : G.Simple) (hl : ∀ v, G.g v v = .null) :
    G.guTriangles.Nodup ∧ ∀ x y z, (x, y, z) ∈ G.guTriangles ↔ G.g x y ≠ .null ∧ G.g y z ≠ .null ∧ G.g x z ≠ .null :=
  ⟨nodup_guTriangles hw hs, mem_guTriangles hw hs hl⟩

/-- **C133**, `GraphUtils.find_kites`: exactly the pairs of triangles over a common edge `x – w` whose tips `y < z` are not
adjacent, each once for each order of `x, w`. -/
theorem C133_kites_exact {G : GG n} (hw : G.WF) (hs : G.Simple) (hl : ∀ v, G.g v v = .null) :
    G.guKites.Nodup ∧ ∀ x y z w, (x, y, z, w) ∈ G.guKites ↔ y < z ∧ G.g y z = .null ∧ G.g x w ≠ .null ∧
      G.g x y ≠ .null ∧ G.g y w ≠ .null ∧ G.g x z ≠ .null ∧ G.g z w ≠ .null := by
  constructor
  · unfold guKites
    refine List.Nodup.map_on ?_ ((nodup_perm2 (nodup_guTriangles hw hs)).filter _)
    rintro ⟨⟨a, b, c⟩, d, e, f⟩ h ⟨⟨a', b', c'⟩, d', e', f'⟩ h' he
    simp only [List.mem_filter, Bool.and_eq_true, decide_eq_true_eq] at h h'
    simp only [Prod.mk.injEq] at he ⊢
    grind
  · intro x y z w
    unfold guKites
    simp only [List.mem_map, List.mem_filter, Prod.exists, Bool.and_eq_true, decide_eq_true_eq, beq_iff_eq, Prod.mk.injEq,
      mem_perm2, mem_guTriangles hw hs hl]
    constructor
    · rintro ⟨a, b, c, d, e, f, ⟨⟨h1, h2, -⟩, ⟨rfl, rfl, h3⟩, h4⟩, rfl, rfl, rfl, rfl⟩
      exact ⟨h3, h4, h1.2.2, h1.1, h1.2.1, h2.1, h2.2.1⟩
    · rintro ⟨h1, h2, h3, h4, h5, h6, h7⟩
      refine ⟨x, y, w, x, z, w, ⟨⟨⟨h4, h5, h3⟩, ⟨h6, h7, h3⟩, ?_⟩, ⟨rfl, rfl, h1⟩, h2⟩, rfl, rfl, rfl, rfl⟩
      intro h
      simp only [Prod.mk.injEq] at h
      grind

/-- **C133**, `CausalGraph.find_unshielded_triples`, `find_triangles`, `find_kites`: the same, on the graphs of PC. -/
theorem C133_causal_graph_exact {G : GG n} (hp : PD G) :
    (G.unshieldedTriples.Nodup ∧ ∀ x y z, (x, y, z) ∈ G.unshieldedTriples ↔
      G.g x y ≠ .null ∧ G.g y z ≠ .null ∧ x ≠ z ∧ G.g x z = .null) ∧
    (G.triangles.Nodup ∧ ∀ x y z, (x, y, z) ∈ G.triangles ↔ G.g x y ≠ .null ∧ G.g y z ≠ .null ∧ G.g x z ≠ .null) ∧
    (G.kites.Nodup ∧ ∀ x y z w, (x, y, z, w) ∈ G.kites ↔ y < z ∧ G.g y z = .null ∧ G.g x w ≠ .null ∧
      G.g x y ≠ .null ∧ G.g y w ≠ .null ∧ G.g x z ≠ .null ∧ G.g z w ≠ .null) := by
  have hfm : ∀ m, (G.findMark m).Nodup := by
    intro m
    unfold findMark
    refine List.Nodup.map (fun a b h => by simpa using congrArg Prod.swap h) (List.Nodup.filter _ ?_)
    unfold allPairs
    rw [List.nodup_flatMap]
    refine ⟨fun i _ => (List.nodup_finRange n).map fun a b h => by simpa using h, ?_⟩
    refine (List.nodup_finRange n).imp fun {a b} hab => ?_
    rw [Function.onFun, List.disjoint_left]
    intro x hx hx'
    simp only [List.mem_map] at hx hx'
    obtain ⟨q, -, rfl⟩ := hx
    obtain ⟨q', -, e⟩ := hx'
    exact hab (by simpa using (congrArg Prod.fst e).symm)
  have hadj : G.findAdj.Nodup := by
    unfold findAdj
    refine (hfm _).append (hfm _) ?_
    rw [List.disjoint_left]
    rintro ⟨a, b⟩ h1 h2
    rw [mem_findMark] at h1 h2
    simp [h1] at h2
  have htri : G.triangles.Nodup := by
    unfold triangles
    refine List.Nodup.map_on ?_ ((nodup_perm2 hadj).filter _)
    rintro ⟨⟨a, b⟩, d, e⟩ h ⟨⟨a', b'⟩, d', e'⟩ h' he
    simp only [List.mem_filter, decide_eq_true_eq] at h h'
    simp only [Prod.mk.injEq] at he ⊢
    grind
  refine ⟨⟨?_, mem_unshieldedTriples hp⟩, ⟨htri, mem_triangles hp⟩, ?_, fun x y z w => ?_⟩
  · unfold unshieldedTriples
    refine List.Nodup.map_on ?_ ((nodup_perm2 hadj).filter _)
    rintro ⟨⟨a, b⟩, d, e⟩ h ⟨⟨a', b'⟩, d', e'⟩ h' he
    simp only [List.mem_filter, Bool.and_eq_true, decide_eq_true_eq] at h h'
    simp only [Prod.mk.injEq] at he ⊢
    grind
  · unfold kites
    refine List.Nodup.map_on ?_ ((nodup_perm2 htri).filter _)
    rintro ⟨⟨a, b, c⟩, d, e, f⟩ h ⟨⟨a', b', c'⟩, d', e', f'⟩ h' he
    simp only [List.mem_filter, Bool.and_eq_true, decide_eq_true_eq] at h h'
    simp only [Prod.mk.injEq] at he ⊢
    grind
  · rw [mem_kites hp]; tauto

/-- **C133** is violated by `GraphUtils.find_unshielded_triples`: whatever the DAG, the list is empty, because `node4` is read
from the wrong end of the second edge. -/
theorem C133_dag_triples_violated (h : List (Op n)) (hl : DagC.NoLoops h) : dagTriples (DagC.run h) = [] := by
  have H : DagC.Holds (DagC.run h) (DagC.HasEdge h) := DagC.run_holds h hl
  obtain ⟨-, -, -, -, -, hmem, -⟩ := DagC.C105_edge_queries_exact h hl
  unfold dagTriples
  rw [List.filterMap_eq_nil_iff]
  rintro ⟨p, q⟩ hpq
  rw [mem_perm2, hmem, hmem] at hpq
  obtain ⟨⟨a, b, hab, rfl⟩, ⟨c, d, hcd, rfl⟩, -⟩ := hpq
  have h1 : (DagC.run h).g a b ≠ .null := by rw [((H a b).2.1).2 hab]; decide
  have h2 : (DagC.run h).g b a ≠ .null := by rw [((H a b).1).2 hab]; decide
  unfold edgeTriple
  have e1 : (DagC.arrowEdge a b).node1 = a ∧ (DagC.arrowEdge a b).node2 = b := ⟨rfl, rfl⟩
  have e2 : (DagC.arrowEdge c d).node1 = c ∧ (DagC.arrowEdge c d).node2 = d := ⟨rfl, rfl⟩
  simp only [e1.1, e1.2, e2.1]
  grind

/-- … although the DAG `0 → 1 → 2` has the unshielded triple `(0, 1, 2)`. -/
example : let G := DagC.run (n := 3) [Op.addDirectedEdge 0 1, Op.addDirectedEdge 1 2]
    G.g 0 1 ≠ .null ∧ G.g 1 2 ≠ .null ∧ G.g 0 2 = .null ∧ dagTriples G = [] := by decide

/-- The hypotheses are met by a non-trivial graph: the kite `0 – 3` with tips `1, 2`, given by a history of edge additions. -/
example : let G := run (n := 4) [.addEdge 0 1 .tail .arrow, .addEdge 1 3 .tail .tail, .addEdge 0 2 .circle .arrow,
      .addEdge 2 3 .arrow .arrow, .addEdge 3 0 .tail .arrow]
    G.WF ∧ G.Simple ∧ (∀ v, G.g v v = .null) ∧ G.guKites = [(0, 1, 2, 3), (3, 1, 2, 0)] ∧ G.guTriangles.length = 12 :=
  ⟨run_wf _, by unfold GG.Simple; decide, by decide, by decide, by decide⟩

/-! ### C134 -/

/-- The kinds of connection between two nodes that the distance distinguishes. -/
inductive Kind | absent | undirected | directed | bidirected | other
  deriving DecidableEq

/-- The kind of connection, from the marks at the two ends. -/
def kind (G : GG n) (i j : Fin n) : Kind :=
  if G.g i j = .null then .absent
  else if G.g i j = .tail ∧ G.g j i = .tail then .undirected
  else if (G.g i j = .tail ∧ G.g j i = .arrow) ∨ (G.g i j = .arrow ∧ G.g j i = .tail) then .directed
  else if G.g i j = .arrow ∧ G.g j i = .arrow then .bidirected
  else .other

/-- What one pair contributes: `none` = the call raises. -/
def pairCost : Kind → Kind → Option Nat
  | .absent, .undirected | .undirected, .absent => some 1
  | .absent, .directed | .directed, .absent => some 2
  | .absent, _ | _, .absent => none
  | .undirected, .directed | .directed, .undirected => some 1
  | .directed, .directed => some 0
  | .bidirected, _ | _, .bidirected => some 2
  | _, _ => some 0

theorem shdOneEdge_eq (G H : GG n) (i j : Fin n) :
    shdOneEdge (G.getEdge i j) (H.getEdge i j) = pairCost (kind G i j) (kind H i j) := by
  unfold getEdge kind
  generalize G.g i j = a, G.g j i = b, H.g i j = c, H.g j i = d
  cases a <;> cases b <;> cases c <;> cases d <;> rfl

theorem mem_sdhPairs (i j : Fin n) : (i, j) ∈ sdhPairs n ↔ 1 ≤ i.val ∧ i < j := by
  simp [sdhPairs, GG.rangeFrom, List.mem_finRange]

theorem sdhFold {α : Type} (f : α → Option Nat) : ∀ (l : List α) (acc : Nat),
    l.foldlM (fun acc p => (f p).map fun k => acc + k) acc =
      if ∃ p ∈ l, f p = none then none else some (acc + (l.map fun p => (f p).getD 0).sum) := by
  intro l
  induction l with
  | nil => intro acc; simp
  | cons a l ih =>
    intro acc
    rw [List.foldlM_cons]
    cases h : f a with
    | none => simp [h]
    | some k =>
      simp only [Option.map_some, Option.bind_eq_bind, Option.bind_some, ih]
      simp only [List.mem_cons, exists_eq_or_imp, h, reduceCtorEq, false_or, List.map_cons, List.sum_cons, Option.getD_some]
      split <;> simp [Nat.add_assoc]

theorem sdh_eq (G H : GG n) : sdh G H =
    if ∃ p ∈ sdhPairs n, pairCost (kind G p.1 p.2) (kind H p.1 p.2) = none then none
    else some ((sdhPairs n).map fun p => (pairCost (kind G p.1 p.2) (kind H p.1 p.2)).getD 0).sum := by
  unfold sdh
  simp only [shdOneEdge_eq]
  rw [sdhFold (fun p : Fin n × Fin n => pairCost (kind G p.1 p.2) (kind H p.1 p.2))]
  simp

/-- **C134**, what the call does: it raises exactly when some pair of nodes other than the first is absent in both graphs, or
absent in one and neither directed nor undirected in the other. -/
theorem C134_sdh_raises_iff (G H : GG n) : sdh G H = none ↔ ∃ i j : Fin n, 1 ≤ i.val ∧ i < j ∧
    ((kind G i j = .absent ∧ kind H i j ∉ [.undirected, .directed]) ∨
      (kind H i j = .absent ∧ kind G i j ∉ [.undirected, .directed])) := by
  have hc : ∀ a b : Kind, pairCost a b = none ↔ (a = .absent ∧ b ∉ [Kind.undirected, Kind.directed]) ∨
      (b = .absent ∧ a ∉ [Kind.undirected, Kind.directed]) := by
    intro a b; cases a <;> cases b <;> simp [pairCost]
  rw [sdh_eq]
  simp only [hc]
  rw [ite_eq_left_iff]
  simp only [reduceCtorEq, imp_false, not_not, Prod.exists, mem_sdhPairs, and_assoc]

/-- **C134**, the value when it does not raise: the sum of the costs of the pairs that do not involve the first node. -/
theorem C134_sdh_value (G H : GG n) (v : Nat) (h : sdh G H = some v) :
    v = ((sdhPairs n).map fun p => (pairCost (kind G p.1 p.2) (kind H p.1 p.2)).getD 0).sum ∧
      ∀ i j, (i, j) ∈ sdhPairs n ↔ 1 ≤ i.val ∧ i < j := by
  rw [sdh_eq] at h
  split at h
  · cases h
  · exact ⟨by simpa using h.symm, mem_sdhPairs⟩

/-- **C134**, the part that holds: the distance is symmetric. -/
theorem C134_symmetric_partial (G H : GG n) : sdh G H = sdh H G := by
  have hc : ∀ a b : Kind, pairCost a b = pairCost b a := by intro a b; cases a <;> cases b <;> rfl
  rw [sdh_eq, sdh_eq]
  simp only [hc (kind G _ _)]

/-- **C134** is violated for sparse graphs: any two graphs that both lack the same edge (not at the first node) make the call
raise; in particular the distance of a graph to itself. -/
theorem C134_common_gap_raises_violated (G H : GG n) (i j : Fin n) (hi : 1 ≤ i.val) (hij : i < j) (h1 : G.g i j = .null)
    (h2 : H.g i j = .null) : sdh G H = none :=
  (C134_sdh_raises_iff G H).2 ⟨i, j, hi, hij, Or.inl ⟨by simp [kind, h1], by simp [kind, h2]⟩⟩

/-- **C134** is violated for reversed edges: two graphs that only have directed edges between the same pairs never have a
positive distance, whatever the directions are. -/
theorem C134_reversal_violated (G H : GG n) (h : ∀ i j : Fin n, i < j → kind G i j = .directed ∧ kind H i j = .directed) :
    sdh G H = some 0 := by
  rw [sdh_eq, if_neg]
  · congr 1
    apply List.sum_eq_zero
    intro x hx
    simp only [List.mem_map, Prod.exists, mem_sdhPairs] at hx
    obtain ⟨i, j, ⟨-, hij⟩, rfl⟩ := hx
    simp [(h i j hij).1, (h i j hij).2, pairCost]
  · rintro ⟨⟨i, j⟩, hp, hc⟩
    rw [mem_sdhPairs] at hp
    simp [(h i j hp.2).1, (h i j hp.2).2, pairCost] at hc

/-- The hypotheses are met by the complete DAGs `0 → 1 → 2, 0 → 2` and its reversal, which differ in every edge. -/
example : let G := run (n := 3) [.addDirectedEdge 0 1, .addDirectedEdge 0 2, .addDirectedEdge 1 2]
    let H := run (n := 3) [.addDirectedEdge 1 0, .addDirectedEdge 2 0, .addDirectedEdge 2 1]
    (∀ i j : Fin 3, i < j → kind G i j = .directed ∧ kind H i j = .directed) ∧ ∀ i j : Fin 3, i ≠ j → G.g i j ≠ H.g i j := by decide

/-- **C134** is violated at the first node: the edges of node 0 are not compared at all. -/
theorem C134_first_node_violated (G G' H : GG n) (h : ∀ i j : Fin n, 1 ≤ i.val → 1 ≤ j.val → G.g i j = G'.g i j) :
    sdh G H = sdh G' H := by
  unfold sdh
  have : ∀ p ∈ sdhPairs n, G.getEdge p.1 p.2 = G'.getEdge p.1 p.2 := by
    rintro ⟨i, j⟩ hp
    rw [mem_sdhPairs] at hp
    have hj : 1 ≤ j.val := by have := hp.2; rw [Fin.lt_def] at this; omega
    unfold getEdge
    simp only [h i j hp.1 hj, h j i hj hp.1]
  have key : ∀ (l : List (Fin n × Fin n)) (acc : Nat), (∀ p ∈ l, G.getEdge p.1 p.2 = G'.getEdge p.1 p.2) →
      l.foldlM (fun acc p => (shdOneEdge (G.getEdge p.1 p.2) (H.getEdge p.1 p.2)).map fun k => acc + k) acc =
      l.foldlM (fun acc p => (shdOneEdge (G'.getEdge p.1 p.2) (H.getEdge p.1 p.2)).map fun k => acc + k) acc := by
    intro l
    induction l with
    | nil => intro acc _; rfl
    | cons a l ih =>
      intro acc hl
      rw [List.foldlM_cons, List.foldlM_cons, hl a (by simp)]
      congr 1
      funext k
      exact ih k fun p hp => hl p (by simp [hp])
  exact key _ _ this

/-- **C134** is violated for bidirected edges: the distance of such a graph to itself is 2. -/
theorem C134_self_violated : ∃ G : GG 3, sdh G G = some 2 :=
  ⟨run [.addEdge 1 2 .arrow .arrow], by decide⟩

/-! ### C135 -/

section
variable {α : Type} [LinearOrder α]

theorem ratio_spec {a b : Int} (ha : 0 ≤ a) (hab : a ≤ b) :
    (ratio a b = none ↔ b = 0) ∧ ∀ q, ratio a b = some q → q * b = a ∧ 0 ≤ q ∧ q ≤ 1 ∧ (q = 1 ↔ a = b) := by
  unfold ratio
  by_cases hb : b = 0
  · simp [hb]
  · have hb' : (0 : Rat) < b := by exact_mod_cast lt_of_le_of_ne (ha.trans hab) (Ne.symm hb)
    have ha' : (0 : Rat) ≤ a := by exact_mod_cast ha
    have hab' : (a : Rat) ≤ b := by exact_mod_cast hab
    simp only [hb, if_false, reduceCtorEq, Option.some.injEq, true_and, iff_self]
    rintro q rfl
    refine ⟨div_mul_cancel₀ _ hb'.ne', div_nonneg ha' hb'.le, (div_le_one hb').2 hab', ?_⟩
    rw [div_eq_one_iff_eq hb'.ne']
    exact_mod_cast Iff.rfl

/-- What it means that `r` is the fraction of the pairs with `P` that also have `Q`; `none` when there is no pair with `P`. -/
def IsFraction (nodes : List α) (P Q : α → α → Prop) [∀ a b, Decidable (P a b)] [∀ a b, Decidable (Q a b)] (r : Option Rat) : Prop :=
  (r = none ↔ ∀ a ∈ nodes, ∀ b ∈ nodes, ¬ P a b) ∧
  ∀ q, r = some q → q * (ordPairs nodes P : Rat) = (ordPairs nodes (fun a b => P a b ∧ Q a b) : Rat) ∧ 0 ≤ q ∧ q ≤ 1 ∧
    (q = 1 ↔ ∀ a ∈ nodes, ∀ b ∈ nodes, P a b → Q a b)

theorem ordPairs_zero (nodes : List α) (P : α → α → Prop) [∀ a b, Decidable (P a b)] :
    ordPairs nodes P = 0 ↔ ∀ a ∈ nodes, ∀ b ∈ nodes, ¬ P a b := by
  unfold ordPairs
  rw [Finset.card_eq_zero, Finset.filter_eq_empty_iff]
  simp only [Finset.mem_product, List.mem_toFinset, Prod.forall]
  exact ⟨fun h a ha b hb => h a b ⟨ha, hb⟩, fun h a b hab => h a hab.1 b hab.2⟩

theorem ordPairs_and (nodes : List α) (P Q : α → α → Prop) [∀ a b, Decidable (P a b)] [∀ a b, Decidable (Q a b)] :
    ordPairs nodes (fun a b => P a b ∧ Q a b) + ordPairs nodes (fun a b => P a b ∧ ¬ Q a b) = ordPairs nodes P := by
  unfold ordPairs
  rw [← Finset.filter_filter, ← Finset.filter_filter (fun p : α × α => P p.1 p.2), Finset.card_filter_add_card_filter_not]

theorem ordPairs_iff (nodes : List α) (P P' : α → α → Prop) [∀ a b, Decidable (P a b)] [∀ a b, Decidable (P' a b)]
    (h : ∀ a b, P a b ↔ P' a b) : ordPairs nodes P = ordPairs nodes P' := by
  unfold ordPairs
  congr 1
  ext p
  simp [h]

theorem isFraction_of (nodes : List α) (P Q : α → α → Prop) [∀ a b, Decidable (P a b)] [∀ a b, Decidable (Q a b)] (k : Nat)
    (hk : k ≠ 0) (a b : Int) (ha : (k : Int) * a = ordPairs nodes (fun a b => P a b ∧ Q a b))
    (hb : (k : Int) * b = ordPairs nodes P) : IsFraction nodes P Q (ratio a b) := by
  have hsum := ordPairs_and nodes P Q
  have hk' : (0 : Int) < k := by exact_mod_cast Nat.pos_of_ne_zero hk
  have h0 : 0 ≤ a := by
    by_contra h
    have : (k : Int) * a < 0 := mul_neg_of_pos_of_neg hk' (by omega)
    omega
  have hab : a ≤ b := by
    have : (k : Int) * a ≤ k * b := by rw [ha, hb]; exact_mod_cast (by omega : ordPairs nodes (fun a b => P a b ∧ Q a b) ≤ ordPairs nodes P)
    exact le_of_mul_le_mul_left this hk'
  obtain ⟨h1, h2⟩ := ratio_spec h0 hab
  constructor
  · rw [h1, ← ordPairs_zero]
    constructor
    · rintro rfl; simp at hb; omega
    · intro h; rw [h] at hb; simpa [hk] using hb
  · intro q hq
    obtain ⟨e1, e2, e3, e4⟩ := h2 q hq
    have hbq : (k : Rat) * b = (ordPairs nodes P : Rat) := by exact_mod_cast hb
    have haq : (k : Rat) * a = (ordPairs nodes (fun a b => P a b ∧ Q a b) : Rat) := by exact_mod_cast ha
    refine ⟨by rw [← hbq, ← haq, ← e1]; ring, e2, e3, e4.trans ?_⟩
    have : a = b ↔ ordPairs nodes (fun a b => P a b ∧ ¬ Q a b) = 0 := by
      constructor
      · rintro rfl; omega
      · intro h
        have : (k : Int) * a = k * b := by rw [ha, hb]; exact_mod_cast (by omega : ordPairs nodes (fun a b => P a b ∧ Q a b) = ordPairs nodes P)
        exact mul_left_cancel₀ hk'.ne' this
    rw [this, ordPairs_zero]
    exact ⟨fun h a ha b hb hp => by_contra fun hq => h a ha b hb ⟨hp, hq⟩, fun h a ha b hb hpq => hpq.2 (h a ha b hb hpq.1)⟩

/-- **C135**, adjacency precision and recall: the fraction of the estimated adjacencies that are true, and of the true ones
that are estimated; ZeroDivisionError exactly when there is none. -/
theorem C135_adjacency_fractions (T E : NG α) (hT : T.Aligned) (pT : PairedMarks T) (pE : PairedMarks E) :
    IsFraction T.nodes (fun a b => a ≠ b ∧ JoinedIn E a b) (fun a b => JoinedIn T a b) (adjPrecision T E) ∧
    IsFraction T.nodes (fun a b => a ≠ b ∧ JoinedIn T a b) (fun a b => JoinedIn E a b) (adjRecall T E) := by
  obtain ⟨h1, h2, h3, -⟩ := C42_adjacency_counts_exact T E hT pT pE
  constructor
  · have e := ordPairs_and T.nodes (fun a b => a ≠ b ∧ JoinedIn E a b) (fun a b => JoinedIn T a b)
    rw [ordPairs_iff T.nodes (fun a b => (a ≠ b ∧ JoinedIn E a b) ∧ ¬ JoinedIn T a b)
      (fun a b => a ≠ b ∧ ¬ JoinedIn T a b ∧ JoinedIn E a b) (by tauto)] at e
    rw [ordPairs_iff T.nodes (fun a b => a ≠ b ∧ JoinedIn T a b ∧ JoinedIn E a b)
      (fun a b => (a ≠ b ∧ JoinedIn E a b) ∧ JoinedIn T a b) (by tauto)] at h1
    exact isFraction_of _ _ _ 2 (by decide) _ _ (by push_cast; omega) (by push_cast; omega)
  · have e := ordPairs_and T.nodes (fun a b => a ≠ b ∧ JoinedIn T a b) (fun a b => JoinedIn E a b)
    rw [ordPairs_iff T.nodes (fun a b => (a ≠ b ∧ JoinedIn T a b) ∧ ¬ JoinedIn E a b)
      (fun a b => a ≠ b ∧ JoinedIn T a b ∧ ¬ JoinedIn E a b) (by tauto)] at e
    rw [ordPairs_iff T.nodes (fun a b => a ≠ b ∧ JoinedIn T a b ∧ JoinedIn E a b)
      (fun a b => (a ≠ b ∧ JoinedIn T a b) ∧ JoinedIn E a b) (by tauto)] at h1
    exact isFraction_of _ _ _ 2 (by decide) _ _ (by push_cast; omega) (by push_cast; omega)

/-- **C135**, arrowhead precision and recall; not a number exactly when there is no arrowhead to judge. -/
theorem C135_arrow_fractions (T E : NG α) (hT : T.Aligned) :
    IsFraction T.nodes (ArrowAt E) (ArrowAt T) (arrowPrecision T E) ∧
    IsFraction T.nodes (ArrowAt T) (ArrowAt E) (arrowRecall T E) := by
  obtain ⟨h1, h2, h3, -, h4, h5⟩ := C42_arrow_counts_exact T E hT
  constructor
  · rw [ordPairs_iff T.nodes (fun a b => ArrowAt T a b ∧ ArrowAt E a b) (fun a b => ArrowAt E a b ∧ ArrowAt T a b) (by tauto)] at h1
    exact isFraction_of _ _ _ 1 (by decide) _ _ (by push_cast; omega) (by push_cast; omega)
  · exact isFraction_of _ _ _ 1 (by decide) _ _ (by push_cast; omega) (by push_cast; omega)

/-- **C135**, on the common edges: the same fractions among the arrowheads on edges that the other graph has too. -/
theorem C135_common_edge_fractions (T E : NG α) (hT : T.Aligned) (pT : PairedMarks T) (pE : PairedMarks E) :
    IsFraction T.nodes (fun a b => ArrowAt E a b ∧ JoinedIn T a b) (fun a b => ArrowAt T a b) (arrowPrecisionCE T E) ∧
    IsFraction T.nodes (fun a b => ArrowAt T a b ∧ JoinedIn E a b) (fun a b => ArrowAt E a b) (arrowRecallCE T E) := by
  obtain ⟨h1, -⟩ := C42_arrow_counts_exact T E hT
  obtain ⟨h2, h3, h4⟩ := C42_arrow_ce_counts_exact T E hT pT pE
  have join : ∀ (G : NG α) (_ : PairedMarks G) a b, ArrowAt G a b → JoinedIn G a b := by
    intro G pG a b h
    exact ⟨h.1, by rw [h.2]; decide⟩
  constructor
  · rw [ordPairs_iff T.nodes (fun a b => ArrowAt T a b ∧ ArrowAt E a b)
      (fun a b => (ArrowAt E a b ∧ JoinedIn T a b) ∧ ArrowAt T a b) (fun a b => ⟨fun h => ⟨⟨h.2, join T pT a b h.1⟩, h.1⟩, fun h => ⟨h.2, h.1.1⟩⟩)] at h1 h2
    exact isFraction_of _ _ _ 1 (by decide) _ _ (by push_cast; omega) (by push_cast; omega)
  · rw [ordPairs_iff T.nodes (fun a b => ArrowAt T a b ∧ ArrowAt E a b)
      (fun a b => (ArrowAt T a b ∧ JoinedIn E a b) ∧ ArrowAt E a b) (fun a b => ⟨fun h => ⟨⟨h.1, join E pE a b h.2⟩, h.2⟩, fun h => ⟨h.1.1, h.2⟩⟩)] at h1 h2
    exact isFraction_of _ _ _ 1 (by decide) _ _ (by push_cast; omega) (by push_cast; omega)

/-- The hypotheses are met, with fractions that are neither 0 nor 1, and by an empty estimate, where precision raises. -/
example :
    let T := (((NG.mk' [0, 1, 2]).putEdge 0 1 .tail .arrow).putEdge 1 2 .tail .tail)
    let E := ((NG.mk' [0, 1, 2]).putEdge 0 1 .tail .arrow).putEdge 0 2 .tail .arrow
    adjPrecision T E = some (1 / 2) ∧ adjRecall T E = some (1 / 2) ∧ arrowPrecision T E = some (1 / 2) ∧ arrowRecall T E = some 1 ∧
    arrowPrecisionCE T E = some 1 ∧ adjPrecision T (NG.mk' [0, 1, 2]) = none := by
  unfold adjPrecision adjRecall arrowPrecision arrowRecall arrowPrecisionCE
  decide +kernel

end
end CL
