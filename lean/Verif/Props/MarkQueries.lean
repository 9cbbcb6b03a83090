import Verif.Model.MarkQueries
import Verif.Props.GraphQueries

/-!
# C58, C59: queries about the marks of edges

`G.getEndpoint a b = some m` says that the graph reports mark `m` at `b` on the edge between `a` and `b`.
-/
namespace CL
open GG
variable {n : Nat}

theorem run_mark (hist : List (Op n)) (hs : (run hist).Simple) (a b : Fin n) :
    (run hist).g a b = .null ∨ (run hist).g a b = .tail ∨ (run hist).g a b = .arrow ∨ (run hist).g a b = .circle := by
  have h1 := run_noStar hist a b
  have h2 := hs a b
  cases h : (run hist).g a b <;> simp_all

/-- **C58 (partial).** In every graph reached by any history of edge operations that holds no doubled edges, for distinct
nodes and the marks tail, arrow and circle: `contains_edge(Edge(a, b, m1, m2))` holds exactly when the graph reports mark `m1`
at `a` and `m2` at `b` — except for circle-at-`a`/tail-at-`b`, where it always answers no (`C58_circle_tail_violated`). -/
theorem C58_contains_edge_partial (hist : List (Op n)) (hs : (run hist).Simple) {a b : Fin n} (hab : a ≠ b) {m1 m2 : Mark}
    (h1 : m1 = .tail ∨ m1 = .arrow ∨ m1 = .circle) (h2 : m2 = .tail ∨ m2 = .arrow ∨ m2 = .circle)
    (hct : ¬ (m1 = .circle ∧ m2 = .tail)) :
    (run hist).containsEdge (mkEdge a b m1 m2) = true ↔
      (run hist).getEndpoint b a = some m1 ∧ (run hist).getEndpoint a b = some m2 := by
  have hw := run_wf hist
  rw [getEndpoint_eq hw hab, getEndpoint_eq hw hab.symm]
  have ha := run_mark hist hs a b
  have hb := run_mark hist hs b a
  rcases h1 with rfl | rfl | rfl <;> rcases h2 with rfl | rfl | rfl <;>
    first
    | exact absurd ⟨rfl, rfl⟩ hct
    | (rcases ha with ha | ha | ha | ha <;> rcases hb with hb | hb | hb | hb <;>
        simp [mkEdge, pointingLeft, containsEdge, ha, hb])

/-- **C58 violated** for circle–tail edges: the graph holds the edge with a tail at `b` and a circle at `a`, `contains_edge`
confirms it when the edge is written `Edge(b, a, TAIL, CIRCLE)` and denies it when written `Edge(a, b, CIRCLE, TAIL)`. -/
theorem C58_circle_tail_violated : let G := run (n := 2) [.addEdge 1 0 .tail .circle]
    G.getEndpoint 1 0 = some .circle ∧ G.getEndpoint 0 1 = some .tail ∧
      G.containsEdge (mkEdge 1 0 .tail .circle) = true ∧ G.containsEdge (mkEdge 0 1 .circle .tail) = false := by decide

/-- **C58.** `is_def_collider(a, b, c)` holds exactly when `a` and `c` are both joined to `b` with an arrowhead at `b`, and
`is_def_unshielded_collider` exactly when moreover `a` and `c` are not adjacent. -/
theorem C58_collider (hist : List (Op n)) (hs : (run hist).Simple) {a b c : Fin n} (hab : a ≠ b) (hbc : b ≠ c) :
    ((run hist).isDefCollider a b c = true ↔
      (run hist).getEndpoint a b = some .arrow ∧ (run hist).getEndpoint c b = some .arrow) ∧
    ((run hist).isDefUnshieldedCollider a b c = true ↔ (run hist).getEndpoint a b = some .arrow ∧
      (run hist).getEndpoint c b = some .arrow ∧ (run hist).isAdj a c = false) := by
  have hw := run_wf hist
  have key : (run hist).isDefCollider a b c = true ↔
      (run hist).getEndpoint a b = some .arrow ∧ (run hist).getEndpoint c b = some .arrow := by
    rw [getEndpoint_eq hw hab, getEndpoint_eq hw hbc.symm]
    unfold isDefCollider getEdge
    have h1 := (hw.symm a b)
    have h2 := (hw.symm b c)
    by_cases p : (run hist).g a b = .null
    · simp [p, h1.1 p]
    · by_cases q : (run hist).g b c = .null
      · simp [q, p]
      · have e1 := mkEdge_proximal ((run hist).g a b) ((run hist).g b a) hab
        have e2 := mkEdge_proximal ((run hist).g b c) ((run hist).g c b) hbc
        have p' : (run hist).g b a ≠ .null := fun h => p (h1.2 h)
        simp [p, q, e1, e2, p']
  refine ⟨key, ?_⟩
  unfold isDefUnshieldedCollider
  rw [Bool.and_eq_true, key, and_assoc]
  refine and_congr_right fun _ => and_congr_right fun _ => ?_
  have h1 := hw.symm a c
  unfold isDirectlyConnectedTo isAdj
  by_cases p : (run hist).g a c = .null
  · simp [p, h1.1 p]
  · have p' : (run hist).g c a ≠ .null := fun h => p (h1.2 h)
    simp [p, p']

/-- **C58.** `get_nodes_into(v, m)` lists exactly the nodes joined to `v` by an edge with mark `m` at `v`, and
`get_nodes_out_of(v, m)` those joined to `v` by an edge with mark `m` at the other node; each node once. -/
theorem C58_nodes_into_out_of (hist : List (Op n)) (hs : (run hist).Simple) {u v : Fin n} (huv : u ≠ v) {m : Mark}
    (hm : m = .tail ∨ m = .arrow ∨ m = .circle) :
    (u ∈ (run hist).nodesInto v m ↔ (run hist).getEndpoint u v = some m) ∧
    (u ∈ (run hist).nodesOutOf v m ↔ (run hist).getEndpoint v u = some m) ∧
    ((run hist).nodesInto v m).Nodup ∧ ((run hist).nodesOutOf v m).Nodup := by
  have hw := run_wf hist
  rw [getEndpoint_eq hw huv, getEndpoint_eq hw huv.symm]
  have ha := run_mark hist hs u v
  have hb := run_mark hist hs v u
  have hnd := List.nodup_finRange n
  refine ⟨?_, ?_, ?_, ?_⟩
  · rcases hm with rfl | rfl | rfl <;> rcases hb with hb | hb | hb | hb <;> simp [nodesInto, hb]
  · rcases hm with rfl | rfl | rfl <;> rcases ha with ha | ha | ha | ha <;> simp [nodesOutOf, ha]
  · rcases hm with rfl | rfl | rfl <;> simp [nodesInto, hnd.filter]
  · rcases hm with rfl | rfl | rfl <;> simp [nodesOutOf, hnd.filter]

/-- non-vacuity: a graph with all three kinds of marks and no doubled edges. -/
example : let G := run (n := 4) [.addEdge 0 1 .tail .arrow, .addEdge 2 1 .circle .arrow, .addEdge 1 3 .tail .circle]
    G.Simple ∧ G.containsEdge (mkEdge 2 1 .circle .arrow) = true ∧ G.isDefUnshieldedCollider 0 1 2 = true ∧
      G.nodesInto 1 .arrow = [0, 2] ∧ G.nodesOutOf 1 .circle = [2, 3] := by
  refine ⟨fun a b => ?_, ?_⟩
  · revert a b; decide
  · decide

/-! ## C59: `is_def_noncollider` -/

theorem loop_iff {G : GG n} (a b c : Fin n) (hadj : G.isAdj a b = true) : ∀ (es : List (Edge n)) (c12 c23 : Bool),
    G.defNoncolliderLoop a b c es c12 c23 = true ↔
      ∃ e ∈ es, (e.distalNode b = some a ∧ e.pointsToward a = true) ∨ (e.distalNode b = some c ∧ e.pointsToward c = true) := by
  intro es
  induction es with
  | nil => intro c12 c23; simp [defNoncolliderLoop]
  | cons e es ih =>
    intro c12 c23
    simp only [defNoncolliderLoop, hadj, Bool.not_true, Bool.and_false, Bool.false_eq_true, if_false, List.mem_cons,
      exists_eq_or_imp]
    by_cases h1 : e.distalNode b = some a ∧ e.pointsToward a = true
    · simp [h1.1, h1.2]
    · by_cases h2 : e.distalNode b = some c ∧ e.pointsToward c = true
      · simp [h2.1, h2.2]
      · rw [if_neg (by simpa using h1), if_neg (by simpa using h2), ih]
        simp [h1, h2]

theorem pairEdges_point {G : GG n} (hw : G.WF) (hs : G.Simple) {x b v : Fin n} (hvb : v ≠ b) (hxb : x ≠ b) :
    (∃ e ∈ G.pairEdges b x, e.distalNode b = some v ∧ e.pointsToward v = true) ↔
      v = x ∧ G.g v b = .arrow ∧ (G.g b v = .tail ∨ G.g b v = .circle) := by
  rw [pairEdges_simple hw hs]
  by_cases h0 : G.g b x = .null
  · simp only [h0, if_true, List.not_mem_nil, false_and, exists_false, false_iff, not_and]
    rintro rfl
    simp [h0]
  · rw [if_neg h0]
    simp only [List.mem_singleton, exists_eq_left]
    have hbx : b ≠ x := hxb.symm
    unfold mkEdge Edge.distalNode Edge.pointsToward Edge.proximal Edge.distal
    by_cases hx : v = x
    · subst hx
      split <;> simp [hbx, hvb] <;> grind
    · split <;> simp [hbx, hxb, hvb, hx, Ne.symm hx] <;> grind

/-- What `is_def_noncollider(a, b, c)` computes for `a`, `c` adjacent to `b`: whether the edge between `b` and `a` (or `b` and
`c`) has an arrowhead at the far end and a tail *or circle* at `b`. -/
theorem C59_def_noncollider_computes (hist : List (Op n)) (hs : (run hist).Simple) {a b c : Fin n}
    (hab : a ≠ b) (hcb : c ≠ b) (hb : ∀ v, (run hist).g v v = .null) (hadj : (run hist).isAdj a b = true) :
    (run hist).isDefNoncollider a b c = true ↔ ∃ v, (v = a ∨ v = c) ∧ (run hist).getEndpoint b v = some .arrow ∧
      ((run hist).getEndpoint v b = some .tail ∨ (run hist).getEndpoint v b = some .circle) := by
  have hw := run_wf hist
  unfold isDefNoncollider
  rw [loop_iff a b c hadj]
  have key : ∀ v, v ≠ b → ((∃ e ∈ (run hist).nodeEdges b, e.distalNode b = some v ∧ e.pointsToward v = true) ↔
      (run hist).getEndpoint b v = some .arrow ∧
      ((run hist).getEndpoint v b = some .tail ∨ (run hist).getEndpoint v b = some .circle)) := by
    intro v hv
    rw [getEndpoint_eq hw hv, getEndpoint_eq hw hv.symm]
    unfold nodeEdges
    simp only [List.mem_flatMap, List.mem_finRange, true_and]
    constructor
    · rintro ⟨e, ⟨x, hx⟩, h1⟩
      by_cases hxb : x = b
      · subst hxb
        rw [pairEdges_simple hw hs] at hx
        simp [hb x] at hx
      · obtain ⟨rfl, h2, h3⟩ := (pairEdges_point hw hs hv hxb).1 ⟨e, hx, h1⟩
        rcases h3 with h3 | h3 <;> simp [h2, h3]
    · intro h1
      have : (run hist).g v b = .arrow ∧ ((run hist).g b v = .tail ∨ (run hist).g b v = .circle) := by
        grind
      obtain ⟨e, h2, h3⟩ := (pairEdges_point hw hs hv hv).2 ⟨rfl, this⟩
      exact ⟨e, ⟨v, h2⟩, h3⟩
  constructor
  · rintro ⟨e, he, h1 | h1⟩
    · exact ⟨a, Or.inl rfl, (key a hab).1 ⟨e, he, h1⟩⟩
    · exact ⟨c, Or.inr rfl, (key c hcb).1 ⟨e, he, h1⟩⟩
  · rintro ⟨v, rfl | rfl, h1⟩
    · obtain ⟨e, he, h2⟩ := (key v hab).2 h1
      exact ⟨e, he, Or.inl h2⟩
    · obtain ⟨e, he, h2⟩ := (key v hcb).2 h1
      exact ⟨e, he, Or.inr h2⟩

/-- **C59 (partial).** Without circles the answer is sound: if `is_def_noncollider(a, b, c)` holds, the edge to `a` or the edge
to `c` has a tail at `b`. -/
theorem C59_sound_partial (hist : List (Op n)) (hs : (run hist).Simple) {a b c : Fin n}
    (hab : a ≠ b) (hcb : c ≠ b) (hb : ∀ v, (run hist).g v v = .null) (hadj : (run hist).isAdj a b = true)
    (hnc : ∀ v, (run hist).getEndpoint v b ≠ some .circle) (h : (run hist).isDefNoncollider a b c = true) :
    (run hist).getEndpoint a b = some .tail ∨ (run hist).getEndpoint c b = some .tail := by
  obtain ⟨v, hv, -, h1 | h1⟩ := (C59_def_noncollider_computes hist hs hab hcb hb hadj).1 h
  · rcases hv with rfl | rfl
    · exact Or.inl h1
    · exact Or.inr h1
  · exact absurd h1 (hnc v)

/-- **C59 violated.** In `0 ←o 1 ← 2` the mark at 1 towards 0 is undetermined, and `0 ↔ 1 ← 2` (a collider at 1) is one of
its completions, yet `is_def_noncollider(0, 1, 2)` answers `True`. In `0 – 1 – 2` node 1 is a definite non-collider (both
marks at it are tails) and in `0 o-o 1 o-o 2` (0, 2 not adjacent) it is one by the unshielded-triple rule, yet it answers `False`. -/
theorem C59_violated :
    (let G := run (n := 3) [.addEdge 1 0 .circle .arrow, .addEdge 2 1 .tail .arrow]
     G.isDefNoncollider 0 1 2 = true ∧ G.getEndpoint 0 1 = some .circle ∧ G.getEndpoint 2 1 = some .arrow) ∧
    (let G := run (n := 3) [.addEdge 0 1 .tail .tail, .addEdge 1 2 .tail .tail]
     G.isDefNoncollider 0 1 2 = false ∧ G.getEndpoint 0 1 = some .tail ∧ G.getEndpoint 2 1 = some .tail) ∧
    (let G := run (n := 3) [.addEdge 0 1 .circle .circle, .addEdge 1 2 .circle .circle]
     G.isDefNoncollider 0 1 2 = false ∧ G.getEndpoint 0 1 = some .circle ∧ G.getEndpoint 2 1 = some .circle ∧
       G.isAdj 0 2 = false) := by decide

/-- non-vacuity of C59: `0 ← 1 → 2`. -/
example : let G := run (n := 3) [.addEdge 1 0 .tail .arrow, .addEdge 1 2 .tail .arrow]
    G.isDefNoncollider 0 1 2 = true ∧ G.isAdj 0 1 = true ∧ (∀ v, G.g v v = .null) ∧
      (∀ v, G.getEndpoint v 1 ≠ some .circle) := by decide

end CL
