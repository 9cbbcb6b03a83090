import Verif.Model.NxGraph
import Verif.Proofs.PC

/-!
# C146: conversion to networkx graphs and `matrix_diff`
-/
namespace CL
namespace Nx
open GG
variable {n : Nat}

theorem foldl_addEdge (c : Colour) (l : List (Fin n × Fin n)) (D : DiG n) (a b : Fin n) :
    l.foldl (addEdge c) D a b = if (a, b) ∈ l then some c else D a b := by
  induction l generalizing D with
  | nil => simp
  | cons e l ih =>
    rw [List.foldl_cons, ih]
    by_cases h1 : (a, b) ∈ l
    · simp [h1]
    · by_cases h2 : (a, b) = e <;> simp [h1, h2, addEdge]

theorem mem_undirected (G : GG n) (i j : Fin n) : (i, j) ∈ findUndirected G ↔ G.g i j = .tail ∧ G.g j i = .tail := by
  unfold findUndirected
  rw [List.mem_filter, mem_findMark]
  simp [and_comm]

theorem mem_directed (G : GG n) (i j : Fin n) : (i, j) ∈ findFullyDirected G ↔ G.g i j = .tail ∧ G.g j i = .arrow := by
  unfold findFullyDirected
  rw [List.mem_filter, mem_findMark]
  simp [and_comm]

theorem mem_bidirected (G : GG n) (i j : Fin n) : (i, j) ∈ findBiDirected G ↔ G.g i j = .arrow ∧ G.g j i = .arrow := by
  unfold findBiDirected
  rw [List.mem_map]
  constructor
  · rintro ⟨e, he, h⟩
    rw [List.mem_filter] at he
    simp only [Prod.mk.injEq] at h
    obtain ⟨rfl, rfl⟩ := h
    simpa using he.2
  · rintro ⟨h1, h2⟩
    exact ⟨(j, i), List.mem_filter.2 ⟨(mem_findMark G _ _ _).2 h1, by simp [h1, h2]⟩, rfl⟩

theorem toNxGraph_apply (G : GG n) (D : DiG n) (i j : Fin n) : toNxGraph G D i j =
    if G.g i j = .arrow ∧ G.g j i = .arrow then some .r else if G.g i j = .tail ∧ G.g j i = .arrow then some .b
    else if G.g i j = .tail ∧ G.g j i = .tail then some .g else D i j := by
  unfold toNxGraph
  rw [foldl_addEdge, foldl_addEdge, foldl_addEdge]
  simp only [mem_undirected, mem_directed, mem_bidirected]

/-- **C146, what holds.** `to_nx_graph` on a new object: the networkx graph has a blue edge `i → j` exactly for `i --> j`, green edges in both
directions exactly for `i --- j`, red ones in both directions exactly for `i <-> j`, and no others (edges with circle marks are left out). -/
theorem C146_nx_graph_partial (G : GG n) (i j : Fin n) :
    (toNxGraph G empty i j = some .b ↔ G.g i j = .tail ∧ G.g j i = .arrow) ∧
    (toNxGraph G empty i j = some .g ↔ G.g i j = .tail ∧ G.g j i = .tail) ∧
    (toNxGraph G empty i j = some .r ↔ G.g i j = .arrow ∧ G.g j i = .arrow) := by
  rw [toNxGraph_apply]
  cases h1 : G.g i j <;> cases h2 : G.g j i <;> simp [empty]

/-- **C146** `to_nx_skeleton` on a new object: exactly the adjacencies. -/
theorem C146_nx_skeleton {G : GG n} (hp : PD G) (i j : Fin n) :
    toNxSkeleton G (fun _ _ => false) i j = true ↔ i ≠ j ∧ G.g i j ≠ .null := by
  unfold toNxSkeleton
  have key : ∀ (l : List (Fin n × Fin n)) (S : Fin n → Fin n → Bool), l.foldl addSkelEdge S i j = true ↔
      (i, j) ∈ l ∨ (j, i) ∈ l ∨ S i j = true := by
    intro l
    induction l with
    | nil => simp
    | cons e l ih =>
      intro S
      rw [List.foldl_cons, ih]
      simp only [addSkelEdge, List.mem_cons, Bool.or_eq_true, decide_eq_true_eq]
      tauto
  rw [key]
  simp only [List.mem_filter, mem_findAdj hp, decide_eq_true_eq, Bool.false_eq_true, or_false]
  constructor
  · rintro (⟨h1, h2⟩ | ⟨h1, h2⟩)
    · exact ⟨ne_of_lt h2, h1⟩
    · exact ⟨(ne_of_lt h2).symm, fun h => h1 (hp.symm i j h)⟩
  · rintro ⟨h1, h2⟩
    rcases lt_or_gt_of_ne h1 with h | h
    · exact Or.inl ⟨h2, h⟩
    · exact Or.inr ⟨fun h' => h2 (hp.symm j i h'), h⟩

/-- the networkx graph of `G` has an edge from `i` to `j` -/
def Runs (G : GG n) (i j : Fin n) : Prop :=
  (G.g i j = .tail ∧ G.g j i = .arrow) ∨ (G.g i j = .tail ∧ G.g j i = .tail) ∨ (G.g i j = .arrow ∧ G.g j i = .arrow)

theorem isSome_iff (G : GG n) (i j : Fin n) : (toNxGraph G empty i j).isSome = true ↔ Runs G i j := by
  unfold Runs
  rw [toNxGraph_apply]
  cases h1 : G.g i j <;> cases h2 : G.g j i <;> simp [empty]

theorem matrixDiff_eq (D1 D2 : DiG n) : matrixDiff D1 D2 =
    (((allPairs n).filter fun e => adjacency D1 e.1 e.2 ≠ adjacency D2 e.1 e.2).length,
     (allPairs n).filter fun e => adjacency D1 e.1 e.2 ≠ adjacency D2 e.1 e.2) := by
  unfold matrixDiff
  suffices H : ∀ (l : List (Fin n × Fin n)) (s : Nat × List (Fin n × Fin n)),
      l.foldl (fun s e => if adjacency D1 e.1 e.2 ≠ adjacency D2 e.1 e.2 then (s.1 + 1, s.2 ++ [e]) else s) s =
        (s.1 + (l.filter fun e => adjacency D1 e.1 e.2 ≠ adjacency D2 e.1 e.2).length,
         s.2 ++ l.filter fun e => adjacency D1 e.1 e.2 ≠ adjacency D2 e.1 e.2) by
    rw [H]; simp
  intro l
  induction l with
  | nil => simp
  | cons e l ih =>
    intro s
    rw [List.foldl_cons, ih]
    by_cases h : adjacency D1 e.1 e.2 ≠ adjacency D2 e.1 e.2
    · rw [if_pos h, List.filter_cons_of_pos (by simpa using h)]
      simp [Nat.add_assoc, Nat.add_comm 1]
    · rw [if_neg h, List.filter_cons_of_neg (by simpa using h)]

theorem adjacency_ne (G1 G2 : GG n) (i j : Fin n) : adjacency (toNxGraph G1 empty) i j ≠ adjacency (toNxGraph G2 empty) i j ↔
    ¬ (Runs G1 i j ↔ Runs G2 i j) := by
  unfold adjacency
  rw [← isSome_iff, ← isSome_iff]
  cases (toNxGraph G1 empty i j).isSome <;> cases (toNxGraph G2 empty i j).isSome <;> simp

theorem allPairs_nodup (n : Nat) : (allPairs n).Nodup := by
  unfold allPairs
  rw [List.nodup_flatMap]
  refine ⟨fun i _ => (List.nodup_finRange n).map fun a b h => (Prod.mk.injEq _ _ _ _ ▸ h).2, ?_⟩
  refine List.Pairwise.imp_of_mem (R := fun a b => a ≠ b) ?_ (List.nodup_finRange n)
  intro a b _ _ hab
  rw [Function.onFun, List.disjoint_left]
  intro x hx hy
  obtain ⟨c, -, rfl⟩ := List.mem_map.1 hx
  obtain ⟨c', -, h⟩ := List.mem_map.1 hy
  exact hab (Prod.mk.injEq _ _ _ _ ▸ h).1.symm

/-- **C146, what holds** for `matrix_diff` (after `to_nx_graph` on both): it lists, once each, the ordered pairs `(i, j)` such that exactly one of the
graphs has an edge `i --> j`, `i --- j` or `i <-> j`, and returns half their number. For graphs with directed and undirected edges only it is zero
exactly when the graphs are equal. -/
theorem C146_matrix_diff_partial (G1 G2 : GG n) :
    let r := matrixDiff (toNxGraph G1 empty) (toNxGraph G2 empty)
    r.1 = r.2.length ∧ r.2.Nodup ∧ (∀ i j, (i, j) ∈ r.2 ↔ ¬ (Runs G1 i j ↔ Runs G2 i j)) ∧
    (PD G1 → PD G2 → (∀ i j, ¬ (G1.g i j = .arrow ∧ G1.g j i = .arrow)) → (∀ i j, ¬ (G2.g i j = .arrow ∧ G2.g j i = .arrow)) →
      (r.1 = 0 ↔ ∀ i j, G1.g i j = G2.g i j)) := by
  intro r
  have hr : r = _ := matrixDiff_eq (toNxGraph G1 empty) (toNxGraph G2 empty)
  have hmem : ∀ i j, (i, j) ∈ r.2 ↔ ¬ (Runs G1 i j ↔ Runs G2 i j) := by
    intro i j
    rw [hr, List.mem_filter]
    simp only [mem_allPairs, true_and, decide_eq_true_eq]
    exact adjacency_ne G1 G2 i j
  have hlen : r.1 = r.2.length := by rw [hr]
  refine ⟨hlen, ?_, hmem, fun hp1 hp2 hb1 hb2 => ?_⟩
  · rw [hr]; exact (allPairs_nodup n).filter _
  · rw [hlen, List.length_eq_zero_iff]
    constructor
    · intro h i j
      have hij : ∀ i j, Runs G1 i j ↔ Runs G2 i j := fun i j => by
        by_contra hc
        have := (hmem i j).2 hc
        rw [h] at this
        simp at this
      have h1 := hij i j
      have h2 := hij j i
      have m1 := hp1.mark i j
      have m2 := hp2.mark i j
      have m3 := hp1.mark j i
      have m4 := hp2.mark j i
      have s1 := hp1.symm i j
      have s2 := hp2.symm i j
      have s3 := hp1.symm j i
      have s4 := hp2.symm j i
      have b1 := hb1 i j
      have b2 := hb2 i j
      unfold Runs at h1 h2
      rcases m1 with e1 | e1 | e1 <;> rcases m2 with e2 | e2 | e2 <;> rcases m3 with e3 | e3 | e3 <;> rcases m4 with e4 | e4 | e4 <;>
        first
          | exact e1.trans e2.symm
          | (exfalso; simp [e1, e2, e3, e4] at h1 h2 s1 s2 s3 s4 b1 b2)
    · intro h
      refine List.eq_nil_iff_forall_not_mem.2 fun e he => ?_
      refine (hmem e.1 e.2).1 he ?_
      unfold Runs
      rw [h, h]

/-- an edge between 0 and 1 with the given marks -/
def exEdge (a b : Mark) : GG 2 := ⟨fun i j => if i = 0 ∧ j = 1 then a else if i = 1 ∧ j = 0 then b else .null, fun _ _ => false⟩

/-- **C146 violated.** `matrix_diff` cannot tell `0 <-> 1` from `0 --- 1`, and counts a missing directed edge as one half. -/
theorem C146_bidirected_violated :
    matrixDiff (toNxGraph (exEdge .arrow .arrow) empty) (toNxGraph (exEdge .tail .tail) empty) = (0, []) ∧
    matrixDiff (toNxGraph (exEdge .tail .arrow) empty) (toNxGraph (exEdge .null .null) empty) = (1, [(0, 1)]) := by
  constructor <;> decide

/-- **C146 violated.** A second call of `to_nx_graph`, after the edge `0 --- 1` was oriented into `0 --> 1`, keeps the old edge `1 → 0`. -/
theorem C146_stale_violated :
    toNxGraph (exEdge .tail .arrow) (toNxGraph (exEdge .tail .tail) empty) 1 0 = some .g ∧ toNxGraph (exEdge .tail .arrow) empty 1 0 = none := by
  constructor <;> decide

example : PD (exEdge .tail .arrow) := ⟨by decide, by decide, by decide⟩
example : matrixDiff (toNxGraph (exEdge .tail .arrow) empty) (toNxGraph (exEdge .arrow .tail) empty) = (2, [(0, 1), (1, 0)]) := by decide

end Nx
end CL
