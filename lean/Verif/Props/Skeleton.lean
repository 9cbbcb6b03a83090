import Verif.Proofs.Skeleton
import Mathlib.Logic.Equiv.Basic
import Mathlib.Data.Finset.Basic

/-!
# C14–C17: the skeleton phase (`skeleton_discovery`)
-/
namespace CL
open GG
variable {n : Nat}

/-- A CI test whose decision on a pair of different variables depends only on which other variables are in the
conditioning set. -/
def SetBased (ind : CI n) : Prop :=
  ∀ x y S T, x ≠ y → S.Nodup → T.Nodup → x ∉ S → y ∉ S → (∀ z, z ∈ S ↔ z ∈ T) → ind x y S = ind x y T

/-- `x` and `y` are adjacent in the graph held by `G`. -/
def IsEdge (G : GG n) (x y : Fin n) : Prop := G.g x y ≠ .null

theorem init_inv (ind : CI n) (k : Know n) : SkInv ind k (GG.complete n, fun _ _ => Option.none) := by
  obtain ⟨h1, h2, h3⟩ := complete_spec (n := n)
  refine ⟨h1, by intro x y L h; simp at h, fun x y => rfl, ?_, h3⟩
  intro x y hxy h
  exact absurd h ((h2 x y).2 hxy)

theorem skeleton_spec (stable : Bool) (ind : CI n) (k : Know n) :
    ∃ r, skeletonDiscovery stable ind k = some r ∧ SkInv ind k r ∧
      ((stable = true ∨ ∀ a b, k.ban a b = false) → ∀ e, ClosedAt ind e r.1) := by
  apply skLoop_spec stable (n + 1) 0 _ (by omega) (by omega) (init_inv ind k)
  intro _ e he; omega

/-! ## C15 -/

/-- Every edge missing from the result was removed because some call of the CI test on that pair (in one of the two
orders, with a conditioning set avoiding the pair) reported independence, or because knowledge forbids both directions. -/
theorem C15_deletions_justified (stable : Bool) (ind : CI n) (k : Know n) :
    ∃ r, skeletonDiscovery stable ind k = some r ∧ ∀ x y, x ≠ y → ¬ IsEdge r.1 x y →
      (∃ S : List (Fin n), S.Nodup ∧ x ∉ S ∧ y ∉ S ∧ (ind x y S = true ∨ ind y x S = true)) ∨
      (k.forb x y = true ∧ k.forb y x = true) := by
  obtain ⟨r, h, hi, -⟩ := skeleton_spec stable ind k
  refine ⟨r, h, fun x y hxy hn => ?_⟩
  obtain ⟨L, -, hg⟩ := hi.good x y hxy (by simpa [IsEdge] using hn)
  rcases hg with ⟨S, -, S', -, hS'⟩ | hb
  · exact Or.inl ⟨S', hS'⟩
  · right; simpa [Know.ban] using hb

/-- Local maximality: in the result no remaining edge `x – y` can be separated, according to the CI test, by any subset
(of any size) of the remaining neighbours of `x`. -/
theorem C15_remaining_edges_tested (stable : Bool) (ind : CI n) (k : Know n)
    (hk : stable = true ∨ ∀ a b, ¬ (k.forb a b = true ∧ k.forb b a = true)) (hset : SetBased ind) :
    ∃ r, skeletonDiscovery stable ind k = some r ∧ ∀ x y, IsEdge r.1 x y →
      ∀ S : List (Fin n), S.Nodup → (∀ z ∈ S, IsEdge r.1 x z ∧ z ≠ y) → ind x y S = false := by
  obtain ⟨r, h, hi, hc⟩ := skeleton_spec stable ind k
  refine ⟨r, h, fun x y hxy S hnd hS => ?_⟩
  have hk' : stable = true ∨ ∀ a b, k.ban a b = false := by
    rcases hk with h | h
    · exact Or.inl h
    · right; intro a b; have := h a b; simp only [Know.ban]; grind
  let T := ((r.1.neighbors x).filter (· ≠ y)).filter (· ∈ S)
  have hT : ∀ z, z ∈ T ↔ z ∈ S := by
    intro z
    simp only [T, List.mem_filter, mem_neighbors, decide_eq_true_eq]
    constructor
    · exact fun h => h.2
    · exact fun h => ⟨⟨(hS z h).1, (hS z h).2⟩, h⟩
  have hne : x ≠ y := by rintro rfl; exact hxy (hi.und.diag x)
  rw [hset x y S T hne hnd (((nodup_neighbors _ _).filter _).filter _)
    (fun hz => (hS x hz).1 (hi.und.diag x)) (fun hz => (hS y hz).2 rfl) (fun z => (hT z).symm)]
  exact hc hk' T.length x y hxy T List.filter_sublist rfl

/-- Exactness: let `A` be the adjacency relation of the true graph. If the CI test never separates an adjacent pair and
for every non-adjacent pair some subset of the true neighbours of one member makes the test (called from that member)
report independence, the algorithm returns exactly `A`, in both modes; every remaining edge is undirected. In stable mode
knowledge may forbid any truly non-adjacent pair; in eager mode see `C16_eager_violated`. -/
theorem C15_exact_skeleton (stable : Bool) (ind : CI n) (k : Know n) (A : Fin n → Fin n → Prop)
    (hsymm : ∀ x y, A x y → A y x) (hirr : ∀ x, ¬ A x x)
    (hk : stable = true ∨ ∀ a b, ¬ (k.forb a b = true ∧ k.forb b a = true))
    (hban : ∀ a b, k.forb a b = true → k.forb b a = true → ¬ A a b)
    (hset : SetBased ind)
    (hadj : ∀ x y (S : List (Fin n)), S.Nodup → x ∉ S → y ∉ S → A x y → ind x y S = false)
    (hsep : ∀ x y, x ≠ y → ¬ A x y → ∃ S : List (Fin n), S.Nodup ∧
      (((∀ z ∈ S, A x z) ∧ ind x y S = true) ∨ ((∀ z ∈ S, A y z) ∧ ind y x S = true))) :
    ∃ r, skeletonDiscovery stable ind k = some r ∧
      ∀ x y, (IsEdge r.1 x y ↔ A x y) ∧ (IsEdge r.1 x y → r.1.g x y = .tail ∧ r.1.g y x = .tail) := by
  obtain ⟨r, h, hd⟩ := C15_deletions_justified stable ind k
  obtain ⟨r', h', hi, -⟩ := skeleton_spec stable ind k
  obtain rfl : r = r' := by rw [h] at h'; exact Option.some.inj h'
  obtain ⟨r', h', ht⟩ := C15_remaining_edges_tested stable ind k hk hset
  obtain rfl : r = r' := by rw [h] at h'; exact Option.some.inj h'
  have hback : ∀ x y, A x y → IsEdge r.1 x y := by
    intro x y hxy
    by_contra hn
    have hne : x ≠ y := by rintro rfl; exact hirr x hxy
    rcases hd x y hne hn with ⟨S, h0, h1, h2, h3⟩ | ⟨h1, h2⟩
    · rw [hadj x y S h0 h1 h2 hxy, hadj y x S h0 h2 h1 (hsymm _ _ hxy)] at h3
      simp at h3
    · exact hban x y h1 h2 hxy
  refine ⟨r, h, fun x y => ⟨⟨fun he => ?_, hback x y⟩, fun he => ?_⟩⟩
  · by_contra hn
    have hne : x ≠ y := by rintro rfl; exact he (hi.und.diag x)
    have he' : IsEdge r.1 y x := by unfold IsEdge; rw [hi.und.symm]; exact he
    obtain ⟨S, hnd, ⟨h1, h2⟩ | ⟨h1, h2⟩⟩ := hsep x y hne hn
    · have := ht x y he S hnd fun z hz => ⟨hback x z (h1 z hz), by rintro rfl; exact hn (h1 z hz)⟩
      rw [h2] at this; simp at this
    · have := ht y x he' S hnd fun z hz => ⟨hback y z (h1 z hz), by rintro rfl; exact hn (hsymm _ _ (h1 z hz))⟩
      rw [h2] at this; simp at this
  · have h1 : r.1.g x y = .tail := (hi.und.mark x y).resolve_left he
    exact ⟨h1, by rw [← hi.und.symm]; exact h1⟩

/-! ## C14 -/

/-- Renaming the variables by `π`: the test and the knowledge seen through the new names. -/
def CI.rename (π : Equiv.Perm (Fin n)) (ind : CI n) : CI n := fun x y S => ind (π x) (π y) (S.map π)

def Know.rename (π : Equiv.Perm (Fin n)) (k : Know n) : Know n :=
  ⟨fun x y => k.forb (π x) (π y), fun x y => k.req (π x) (π y)⟩

/-- existence of a positive test, in terms of sets -/
theorem exists_combo_iff {ind : CI n} (hset : SetBased ind) (x y : Fin n) (hxy : x ≠ y) (l : List (Fin n)) (hl : l.Nodup)
    (hx : x ∉ l) (hy : y ∉ l) (d : Nat) :
    (∃ S ∈ combos l d, ind x y S = true) ↔
    ∃ S : List (Fin n), S.Nodup ∧ (∀ z ∈ S, z ∈ l) ∧ S.length = d ∧ ind x y S = true := by
  constructor
  · rintro ⟨S, hS, hi⟩
    obtain ⟨h1, h2⟩ := (combos_mem _ _ _).1 hS
    exact ⟨S, h1.nodup hl, fun z hz => h1.subset hz, h2, hi⟩
  · rintro ⟨S, h1, h2, h3, h4⟩
    have hm : ∀ z, z ∈ l.filter (· ∈ S) ↔ z ∈ S := by
      intro z; simp only [List.mem_filter, decide_eq_true_eq]; exact ⟨fun h => h.2, fun h => ⟨h2 z h, h⟩⟩
    have hp : (l.filter (· ∈ S)).Perm S := (List.perm_ext_iff_of_nodup (hl.filter _) h1).2 hm
    refine ⟨l.filter (· ∈ S), (combos_mem _ _ _).2 ⟨List.filter_sublist, hp.length_eq.trans h3⟩, ?_⟩
    rw [hset x y _ S hxy (hl.filter _) h1 (fun h => hx (List.mem_of_mem_filter h))
      (fun h => hy (List.mem_of_mem_filter h)) hm]
    exact h4

theorem neighbors_rename {G G' : GG n} (π : Equiv.Perm (Fin n)) (h : ∀ a b, IsEdge G' a b ↔ IsEdge G (π a) (π b))
    (x : Fin n) : ((G'.neighbors x).map π).Perm (G.neighbors (π x)) := by
  rw [List.perm_ext_iff_of_nodup ((nodup_neighbors _ _).map π.injective) (nodup_neighbors _ _)]
  intro z
  simp only [List.mem_map, mem_neighbors]
  constructor
  · rintro ⟨a, ha, rfl⟩; exact (h x a).1 ha
  · intro hz; exact ⟨π.symm z, (h x _).2 (by simpa [IsEdge] using hz), by simp⟩

theorem maxDegree_rename {G G' : GG n} (π : Equiv.Perm (Fin n)) (h : ∀ a b, IsEdge G' a b ↔ IsEdge G (π a) (π b)) :
    G'.maxDegree = G.maxDegree := by
  have hl : ∀ x, (G'.neighbors x).length = (G.neighbors (π x)).length := by
    intro x; have := (neighbors_rename π h x).length_eq; simpa using this
  apply le_antisymm
  · apply maxDegree_le; intro x; rw [hl]; exact length_neighbors_le _ _
  · apply maxDegree_le; intro x
    have := hl (π.symm x); simp at this; rw [← this]; exact length_neighbors_le _ _

theorem hit_rename {ind : CI n} (hset : SetBased ind) (k : Know n) (d : Nat) {G G' : GG n} (hu : Und G) (hu' : Und G') (π : Equiv.Perm (Fin n))
    (h : ∀ a b, IsEdge G' a b ↔ IsEdge G (π a) (π b)) (x y : Fin n) :
    Hit (ind.rename π) (k.rename π) d G' x y ↔ Hit ind k d G (π x) (π y) := by
  have hl : (G'.neighbors x).length = (G.neighbors (π x)).length := by
    have := (neighbors_rename π h x).length_eq; simpa using this
  have hset' : SetBased (ind.rename π) := by
    intro x y S T hxy hS hT hx hy hST
    apply hset _ _ _ _ (fun e => hxy (π.injective e)) (hS.map π.injective) (hT.map π.injective)
      (by simpa using hx) (by simpa using hy)
    intro z; simp only [List.mem_map]
    constructor <;> rintro ⟨a, ha, rfl⟩
    · exact ⟨a, (hST a).1 ha, rfl⟩
    · exact ⟨a, (hST a).2 ha, rfl⟩
  by_cases hxy0 : x = y
  · subst hxy0
    unfold Hit
    rw [mem_neighbors, mem_neighbors, hu.diag, hu'.diag]
    simp
  unfold Hit HitY
  rw [exists_combo_iff hset' x y hxy0 _ ((nodup_neighbors _ _).filter _)
      (by simp [mem_neighbors, hu'.diag]) (by simp),
    exists_combo_iff hset (π x) (π y) (fun e => hxy0 (π.injective e)) _ ((nodup_neighbors _ _).filter _)
      (by simp [mem_neighbors, hu.diag]) (by simp), hl, mem_neighbors, mem_neighbors]
  have hxy := h x y
  unfold IsEdge at hxy
  rw [hxy]
  have hS : (∃ S : List (Fin n), S.Nodup ∧ (∀ z ∈ S, z ∈ (G'.neighbors x).filter (· ≠ y)) ∧ S.length = d ∧
        ind.rename π x y S = true) ↔
      ∃ S : List (Fin n), S.Nodup ∧ (∀ z ∈ S, z ∈ (G.neighbors (π x)).filter (· ≠ π y)) ∧ S.length = d ∧
        ind (π x) (π y) S = true := by
    constructor
    · rintro ⟨S, h1, h2, h3, h4⟩
      refine ⟨S.map π, h1.map π.injective, ?_, by simpa using h3, h4⟩
      intro z hz
      obtain ⟨a, ha, rfl⟩ := List.mem_map.1 hz
      have := h2 a ha
      simp only [List.mem_filter, mem_neighbors, decide_eq_true_eq] at this ⊢
      exact ⟨(h x a).1 this.1, fun e => this.2 (π.injective e)⟩
    · rintro ⟨S, h1, h2, h3, h4⟩
      refine ⟨S.map π.symm, h1.map π.symm.injective, ?_, by simpa using h3, ?_⟩
      · intro z hz
        obtain ⟨a, ha, rfl⟩ := List.mem_map.1 hz
        have := h2 a ha
        simp only [List.mem_filter, mem_neighbors, decide_eq_true_eq] at this ⊢
        exact ⟨(h x _).2 (by simpa [IsEdge] using this.1), fun e => this.2 (by rw [← e]; simp)⟩
      · unfold CI.rename
        rw [List.map_map]
        simpa using h4
  rw [hS]
  rfl

/-- Order independence of the stable mode: renaming the variables by any permutation `π` renames the resulting graph by
`π` and changes nothing else in it. -/
theorem C14_stable_order_independent (ind : CI n) (k : Know n) (hset : SetBased ind) (π : Equiv.Perm (Fin n)) :
    ∃ r r', skeletonDiscovery true ind k = some r ∧ skeletonDiscovery true (ind.rename π) (k.rename π) = some r' ∧
      ∀ x y, r'.1.g x y = r.1.g (π x) (π y) := by
  obtain ⟨r, h, hi, -⟩ := skeleton_spec true ind k
  obtain ⟨r', h', hi', -⟩ := skeleton_spec true (ind.rename π) (k.rename π)
  refine ⟨r, r', h, h', ?_⟩
  have key : ∀ f d (s s' r r' : GG n × Sep n), Und s.1 → Und s'.1 →
      (∀ a b, IsEdge s'.1 a b ↔ IsEdge s.1 (π a) (π b)) →
      skLoop true ind k f d s = some r → skLoop true (ind.rename π) (k.rename π) f d s' = some r' →
      ∀ a b, IsEdge r'.1 a b ↔ IsEdge r.1 (π a) (π b) := by
    intro f
    induction f with
    | zero => intro d s s' r r' _ _ _ h; simp [skLoop] at h
    | succ f ih =>
      intro d s s' r r' hu hu' hs h h'
      rw [skLoop] at h h'
      rw [maxDegree_rename π hs] at h'
      by_cases hd : d < s.1.maxDegree
      · rw [if_pos hd] at h h'
        simp only [if_true] at h h'
        obtain ⟨a1, -, a3⟩ := stableDepth_adj ind k d hu s.2
        obtain ⟨b1, -, b3⟩ := stableDepth_adj (ind.rename π) (k.rename π) d hu' s'.2
        refine ih (d + 1) _ _ r r' a1 b1 ?_ h h'
        intro a b
        unfold IsEdge
        rw [a3, b3, hit_rename hset k d hu hu' π hs, hit_rename hset k d hu hu' π hs]
        have := hs a b
        unfold IsEdge at this
        rw [this]
      · rw [if_neg hd] at h h'
        obtain rfl := Option.some.inj h
        obtain rfl := Option.some.inj h'
        exact hs
  have hfin := key (n + 1) 0 _ _ r r' complete_spec.1 complete_spec.1 (by
    intro a b; simp only [IsEdge, complete_spec.2.1]; exact π.injective.ne_iff.symm) h h'
  intro x y
  have := hfin x y
  unfold IsEdge at this
  rcases hi.und.mark (π x) (π y) with h1 | h1 <;> rcases hi'.und.mark x y with h2 | h2 <;> simp_all

/-- The eager mode is not order independent: already with three variables the skeleton depends on the numbering, for a
test that is a function of the sets and symmetric in the pair. -/
theorem C14_eager_is_order_dependent :
    ∃ (ind : CI 3) (π : Equiv.Perm (Fin 3)) (r r' : GG 3 × Sep 3),
      (∀ x y S, ind x y S = ind y x S) ∧
      skeletonDiscovery false ind Know.none = some r ∧ skeletonDiscovery false (ind.rename π) Know.none = some r' ∧
      ∃ x y, r'.1.g x y ≠ r.1.g (π x) (π y) := by
  obtain ⟨ind, hind⟩ : ∃ ind : CI 3, ind = fun _ _ S => S.length == 1 := ⟨_, rfl⟩
  have hren : ind.rename ⟨Fin.rev, Fin.rev, Fin.rev_rev, Fin.rev_rev⟩ = ind := by
    funext x y S
    simp [hind, CI.rename]
  obtain ⟨r, h, -⟩ := skeleton_spec false ind Know.none
  have hr : (skeletonDiscovery false ind Know.none).any
      (fun r => decide (r.1.g 0 1 ≠ r.1.g (Fin.rev 0) (Fin.rev 1))) = true := by
    subst hind; decide
  rw [h] at hr
  refine ⟨ind, ⟨Fin.rev, Fin.rev, Fin.rev_rev, Fin.rev_rev⟩, r, r, ?_, h, by rw [hren]; exact h, 0, 1, ?_⟩
  · intro x y S
    simp only [hind]
  · simpa using hr

/-! ## C16 -/

/-- Stable mode: a pair forbidden in both directions is never adjacent in the result. -/
theorem C16_stable_banned_not_adjacent (ind : CI n) (k : Know n) :
    ∃ r, skeletonDiscovery true ind k = some r ∧
      ∀ x y, k.forb x y = true → k.forb y x = true → ¬ IsEdge r.1 x y := by
  obtain ⟨r, h, hi, -⟩ := skeleton_spec true ind k
  refine ⟨r, h, fun x y h1 h2 he => ?_⟩
  have hb : k.ban x y = true := by simp [Know.ban, h1, h2]
  have hne : x ≠ y := by rintro rfl; exact he (hi.und.diag x)
  have hsub : ∀ f d (s r : GG n × Sep n), Und s.1 → skLoop true ind k f d s = some r →
      ∀ a b, IsEdge r.1 a b → IsEdge s.1 a b := by
    intro f
    induction f with
    | zero => intro d s r _ h; simp [skLoop] at h
    | succ f ih =>
      intro d s r hu h a b hab
      rw [skLoop] at h
      split at h
      · simp only [if_true] at h
        obtain ⟨a1, -, a3⟩ := stableDepth_adj ind k d hu s.2
        exact ((a3 a b).1 (ih _ _ r a1 h a b hab)).1
      · obtain rfl := Option.some.inj h; exact hab
  unfold skeletonDiscovery at h
  rw [skLoop] at h
  have hx : y ∈ (GG.complete n).neighbors x := (mem_neighbors _ _ _).2 ((complete_spec.2.1 x y).2 hne)
  have hd : 0 < (GG.complete n).maxDegree :=
    lt_of_lt_of_le (List.length_pos_of_mem hx) (length_neighbors_le _ x)
  rw [if_pos hd] at h
  simp only [if_true] at h
  obtain ⟨a1, -, a3⟩ := stableDepth_adj ind k 0 (complete_spec (n := n)).1 (fun _ _ => Option.none)
  have := (a3 x y).1 (hsub _ _ _ r a1 h x y he)
  exact this.2.1 ⟨hx, by omega, Or.inl hb⟩

/-- Eager mode breaks the property: the `break` after removing a banned edge leaves the loop over the remaining
neighbours, so with four variables, pairs 0-2, 1-2, 0-3, 1-3 forbidden in both directions and all variables independent,
the edge 1 – 3 is returned. -/
theorem C16_eager_violated :
    ∃ (ind : CI 4) (k : Know 4) (r : GG 4 × Sep 4), skeletonDiscovery false ind k = some r ∧
      k.forb 1 3 = true ∧ k.forb 3 1 = true ∧ IsEdge r.1 1 3 := by
  refine ⟨fun _ _ _ => true, ⟨fun a b => (a < 2 && 2 ≤ b) || (b < 2 && 2 ≤ a), fun _ _ => false⟩, _, rfl,
    by decide, by decide, ?_⟩
  unfold IsEdge; decide

/-! ## C17 -/

/-- For every pair that is not adjacent in the result, something is recorded, the record is the same for both orders of
the pair, every member of a recorded set belongs to a set for which the test declared the pair independent, and some
recorded set contains such a set, unless the pair is banned by knowledge. Missing for the full property (see
`C17_stable_violated`, `C17_eager_violated`): that every recorded set itself was declared separating. -/
theorem C17_recorded_sets_partial (stable : Bool) (ind : CI n) (k : Know n) :
    ∃ r, skeletonDiscovery stable ind k = some r ∧ ∀ x y, x ≠ y → ¬ IsEdge r.1 x y →
      ∃ L, r.2 x y = some L ∧ r.2 y x = some L ∧
        (∀ S ∈ L, ∀ z ∈ S, ∃ S', z ∈ S' ∧ S'.Nodup ∧ x ∉ S' ∧ y ∉ S' ∧ (ind x y S' = true ∨ ind y x S' = true)) ∧
        ((∃ S ∈ L, ∃ S', S' ⊆ S ∧ S'.Nodup ∧ x ∉ S' ∧ y ∉ S' ∧ (ind x y S' = true ∨ ind y x S' = true)) ∨
          (k.forb x y = true ∧ k.forb y x = true)) := by
  obtain ⟨r, h, hi, -⟩ := skeleton_spec stable ind k
  refine ⟨r, h, fun x y hxy hn => ?_⟩
  obtain ⟨L, hL, hg⟩ := hi.good x y hxy (by simpa [IsEdge] using hn)
  refine ⟨L, hL, by rw [← hi.symm]; exact hL, fun S hS z hz => hi.sound x y L hL S hS z hz, ?_⟩
  rcases hg with hg | hg
  · exact Or.inl hg
  · right; simpa [Know.ban] using hg

/-- Stable mode records the union of the separating sets found at a depth: here `{2, 3}` is recorded for the pair 0, 1
although the test, which declares 0 and 1 independent given `{2}` and given `{3}`, declares them dependent given
`{2, 3}`, and there is no background knowledge. -/
theorem C17_stable_violated :
    ∃ (ind : CI 4) (r : GG 4 × Sep 4), skeletonDiscovery true ind Know.none = some r ∧ ¬ IsEdge r.1 0 1 ∧
      ∃ L, r.2 0 1 = some L ∧ [2, 3] ∈ L ∧ ind 0 1 [2, 3] = false ∧ ind 1 0 [2, 3] = false := by
  refine ⟨fun x y S => (x + y == 1) && (S == [2] || S == [3]), _, rfl, by unfold IsEdge; decide, _, rfl, by decide, by decide,
    by decide⟩

/-- Eager mode appends the empty set after the separating set it found. -/
theorem C17_eager_violated :
    ∃ (ind : CI 3) (r : GG 3 × Sep 3), skeletonDiscovery false ind Know.none = some r ∧ ¬ IsEdge r.1 0 1 ∧
      ∃ L, r.2 0 1 = some L ∧ [] ∈ L ∧ ind 0 1 [] = false ∧ ind 1 0 [] = false := by
  refine ⟨fun x y S => (x + y == 1) && (S == [2]), _, rfl, by unfold IsEdge; decide, _, rfl, by decide, by decide,
    by decide⟩

/-! ## The hypotheses are met by concrete cases -/

/-- chain 0 – 1 – 2: `0` and `2` are independent exactly given sets containing `1`. -/
def chainCI : CI 3 := fun x y S => ((x == 0 && y == 2) || (x == 2 && y == 0)) && decide (1 ∈ S)

example : SetBased chainCI := by
  intro x y S T _ _ _ _ _ h; unfold chainCI; simp [h 1]

example : ∃ A : Fin 3 → Fin 3 → Prop, (∀ x y, A x y → A y x) ∧ (∀ x, ¬ A x x) ∧
    (∀ x y (S : List (Fin 3)), S.Nodup → x ∉ S → y ∉ S → A x y → chainCI x y S = false) ∧
    (∀ x y, x ≠ y → ¬ A x y → ∃ S : List (Fin 3), S.Nodup ∧
      (((∀ z ∈ S, A x z) ∧ chainCI x y S = true) ∨ ((∀ z ∈ S, A y z) ∧ chainCI y x S = true))) := by
  refine ⟨fun x y => x ≠ y ∧ x.val + y.val ≠ 2, by intro x y h; omega, by simp, ?_, ?_⟩
  · intro x y S _ _ _ h
    have : ¬ (x = 0 ∧ y = 2) ∧ ¬ (x = 2 ∧ y = 0) := by
      constructor <;> rintro ⟨rfl, rfl⟩ <;> exact h.2 rfl
    unfold chainCI
    grind
  · intro x y hxy hn
    refine ⟨[1], by simp, Or.inl ⟨?_, ?_⟩⟩
    · revert hxy hn x y; decide
    · revert hxy hn x y; decide

end CL
