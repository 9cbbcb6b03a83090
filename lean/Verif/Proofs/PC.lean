import Verif.Model.PC
import Verif.Proofs.Skeleton
import Verif.Props.GraphAncestor

/-!
# Lemmas about the orientation phases of PC
-/
namespace CL
open GG Relation
variable {n : Nat} {P : Type} [LinearOrder P]

/-- A partially directed graph: only tails and arrowheads, symmetric adjacency, no self-loops. -/
structure PD (G : GG n) : Prop where
  mark : ∀ a b, G.g a b = .null ∨ G.g a b = .tail ∨ G.g a b = .arrow
  symm : ∀ a b, G.g a b = .null → G.g b a = .null
  diag : ∀ a, G.g a a = .null

theorem Und.pd {G : GG n} (h : Und G) : PD G :=
  ⟨fun a b => (h.mark a b).elim Or.inl (fun h => Or.inr (Or.inl h)), fun a b hab => by rw [← h.symm]; exact hab, h.diag⟩

/-- The matrix after writing `x → y`. -/
def oriented (g : MMat n) (x y : Fin n) : MMat n :=
  fun a b => if a = x ∧ b = y then .tail else if a = y ∧ b = x then .arrow else g a b

/-- The matrix after writing `x ↔ y`. -/
def bioriented (g : MMat n) (x y : Fin n) : MMat n :=
  fun a b => if (a = x ∧ b = y) ∨ (a = y ∧ b = x) then .arrow else g a b

/-- The matrix after deleting the edge between `x` and `y`. -/
def cleared (g : MMat n) (x y : Fin n) : MMat n :=
  fun a b => if (a = x ∧ b = y) ∨ (a = y ∧ b = x) then .null else g a b

theorem PD.of_cleared {G H : GG n} (hp : PD G) {x y : Fin n} (h : H.g = cleared G.g x y) : PD H := by
  constructor
  · intro a b; rw [h]; unfold cleared; have := hp.mark a b; split <;> simp_all
  · intro a b; rw [h]; unfold cleared; have := hp.symm a b; grind
  · intro a; rw [h]; unfold cleared; have := hp.diag a; grind

theorem PD.of_oriented {G H : GG n} (hp : PD G) {x y : Fin n} (hxy : x ≠ y) (h : H.g = oriented G.g x y) : PD H := by
  constructor
  · intro a b; rw [h]; unfold oriented; have := hp.mark a b; grind
  · intro a b; rw [h]; unfold oriented; have := hp.symm a b; grind
  · intro a; rw [h]; unfold oriented; have := hp.diag a; grind

theorem PD.of_bioriented {G H : GG n} (hp : PD G) {x y : Fin n} (hxy : x ≠ y) (h : H.g = bioriented G.g x y) : PD H := by
  constructor
  · intro a b; rw [h]; unfold bioriented; have := hp.mark a b; grind
  · intro a b; rw [h]; unfold bioriented; have := hp.symm a b; grind
  · intro a; rw [h]; unfold bioriented; have := hp.diag a; grind

theorem removeEdge_pd_g {G : GG n} (hp : PD G) {x y : Fin n} (h : G.g x y ≠ .null) :
    (G.removeEdge (mkEdge x y (G.g x y) (G.g y x))).g = cleared G.g x y := by
  have h1 := (hp.mark x y).resolve_left h
  have h2 : G.g y x = .tail ∨ G.g y x = .arrow := by
    rcases hp.mark y x with h' | h'
    · exact absurd (hp.symm _ _ h') h
    · exact h'
  funext a b
  have hw : ∀ (c : Bool) (H : GG n) es, (if c = true then H.reconstituteDpath es else H).g = H.g := by
    intro c H es; split <;> simp
  have hne : x ≠ y := by rintro rfl; exact h (hp.diag x)
  unfold removeEdge
  dsimp only
  rw [hw]
  rcases h1 with h1 | h1 <;> rcases h2 with h2 | h2 <;>
    simp [mkEdge, pointingLeft, h1, h2, upd_apply, cleared] <;> grind

theorem removeIfEdge_pd_g {G : GG n} (hp : PD G) (x y : Fin n) : (G.removeIfEdge x y).g = cleared G.g x y := by
  unfold removeIfEdge getEdge
  by_cases h : G.g x y = .null
  · rw [if_pos h]
    have := hp.symm x y h
    funext a b
    unfold cleared
    grind
  · rw [if_neg h]; exact removeEdge_pd_g hp h

theorem Sound.removeIfEdge {G : GG n} (hs : Sound G) (x y : Fin n) : Sound (G.removeIfEdge x y) := by
  unfold GG.removeIfEdge
  split
  · exact hs
  · exact hs.removeEdge _

theorem addDirected_g {G : GG n} {x y : Fin n} (hxy : x ≠ y) (h : G.g x y = .null) (h' : G.g y x = .null) :
    (G.addEdge (mkEdge x y .tail .arrow)).2.g = oriented G.g x y := by
  funext a b
  simp [addEdge, mkEdge, pointingLeft, h, h', upd_apply, oriented]

theorem addBi_g {G : GG n} {x y : Fin n} (h : G.g x y = .null) (h' : G.g y x = .null) :
    (G.addEdge (mkEdge x y .arrow .arrow)).2.g = bioriented G.g x y := by
  funext a b
  simp [addEdge, mkEdge, pointingLeft, h, h', upd_apply, bioriented]
  grind

theorem oriented_cleared (g : MMat n) (x y : Fin n) : oriented (cleared g x y) x y = oriented g x y := by
  funext a b; unfold oriented cleared; grind

theorem bioriented_cleared (g : MMat n) (x y : Fin n) : bioriented (cleared g x y) x y = bioriented g x y := by
  funext a b; unfold bioriented cleared; grind

theorem cleared_cleared (g : MMat n) (x y : Fin n) : cleared (cleared g x y) y x = cleared g x y := by
  funext a b; unfold cleared; grind

theorem cleared_symm (g : MMat n) (x y : Fin n) : cleared g x y = cleared g y x := by
  funext a b; unfold cleared; grind

theorem addDirected_cleared {G H : GG n} {x y : Fin n} (hxy : x ≠ y) (h : H.g = cleared G.g x y) :
    (H.addEdge (mkEdge x y .tail .arrow)).2.g = oriented G.g x y := by
  rw [addDirected_g hxy (by rw [h]; simp [cleared]) (by rw [h]; simp [cleared]), h, oriented_cleared]

theorem setDirected_g {G : GG n} (hp : PD G) {x y : Fin n} (hxy : x ≠ y) : (G.setDirected x y).g = oriented G.g x y := by
  unfold setDirected
  exact addDirected_cleared hxy (removeIfEdge_pd_g hp x y)

theorem overwriteDirected_g {G : GG n} (hp : PD G) {x y : Fin n} (hxy : x ≠ y) :
    (G.overwriteDirected x y).g = oriented G.g x y := by
  unfold overwriteDirected
  apply addDirected_cleared hxy
  rw [removeIfEdge_pd_g (hp.of_cleared (removeIfEdge_pd_g hp x y)), removeIfEdge_pd_g hp, cleared_cleared]

theorem Sound.setDirected {G : GG n} (hs : Sound G) (x y : Fin n) : Sound (G.setDirected x y) := by
  unfold GG.setDirected
  exact (hs.removeIfEdge x y).addEdge _

theorem Sound.overwriteDirected {G : GG n} (hs : Sound G) (x y : Fin n) : Sound (G.overwriteDirected x y) := by
  unfold GG.overwriteDirected
  exact ((hs.removeIfEdge x y).removeIfEdge y x).addEdge _

/-- `orientBi` on an existing edge -/
theorem orientBi_g {G : GG n} (hp : PD G) {x y : Fin n} (h : G.g x y ≠ .null) :
    (G.orientBi x y).g =
      if G.g x y = .tail ∧ G.g y x = .tail then oriented G.g x y
      else if G.g x y = .arrow ∧ G.g y x = .tail then bioriented G.g x y else G.g := by
  have hne : x ≠ y := by rintro rfl; exact h (hp.diag x)
  unfold orientBi getEdge
  rw [if_neg h]
  dsimp only
  split
  · exact addDirected_cleared hne (removeEdge_pd_g hp h)
  · split
    · rw [addBi_g, removeEdge_pd_g hp h, bioriented_cleared] <;> rw [removeEdge_pd_g hp h] <;> simp [cleared]
    · rfl

theorem Sound.orientBi {G : GG n} (hs : Sound G) (x y : Fin n) : Sound (G.orientBi x y) := by
  unfold GG.orientBi
  split
  · exact hs.addEdge _
  · split
    · exact (hs.removeEdge _).addEdge _
    · split
      · exact (hs.removeEdge _).addEdge _
      · exact hs

/-! ### graph scans -/

theorem mem_allPairs (p : Fin n × Fin n) : p ∈ allPairs n := by
  simp [allPairs, List.mem_finRange]

theorem mem_findMark (G : GG n) (m : Mark) (i j : Fin n) : (i, j) ∈ G.findMark m ↔ G.g j i = m := by
  simp only [findMark, List.mem_map, List.mem_filter, mem_allPairs, true_and, beq_iff_eq, Prod.exists]
  constructor
  · rintro ⟨a, b, h, he⟩; simp [Prod.swap] at he; rw [← he.1, ← he.2]; exact h
  · intro h; exact ⟨j, i, h, rfl⟩

theorem mem_findAdj {G : GG n} (hp : PD G) (i j : Fin n) : (i, j) ∈ G.findAdj ↔ G.g i j ≠ .null := by
  unfold findAdj
  rw [List.mem_append, mem_findMark, mem_findMark]
  have h1 := hp.mark j i
  have h2 := hp.symm i j
  have h3 := hp.symm j i
  grind

theorem mem_perm2 {α : Type} [DecidableEq α] (l : List α) (p q : α) : (p, q) ∈ perm2 l ↔ p ∈ l ∧ q ∈ l ∧ q ≠ p := by
  simp only [perm2, List.mem_flatMap, List.mem_map, List.mem_filter, Prod.mk.injEq, decide_eq_true_eq]
  constructor
  · rintro ⟨a, ha, b, ⟨hb, hne⟩, rfl, rfl⟩; exact ⟨ha, hb, hne⟩
  · rintro ⟨h1, h2, h3⟩; exact ⟨p, h1, q, ⟨h2, h3⟩, rfl, rfl⟩

theorem mem_unshieldedTriples {G : GG n} (hp : PD G) (i j k : Fin n) :
    (i, j, k) ∈ G.unshieldedTriples ↔ G.g i j ≠ .null ∧ G.g j k ≠ .null ∧ i ≠ k ∧ G.g i k = .null := by
  simp only [unshieldedTriples, List.mem_map, List.mem_filter, Prod.exists, Bool.and_eq_true, decide_eq_true_eq, beq_iff_eq,
    Prod.mk.injEq]
  constructor
  · rintro ⟨a, b, c, d, ⟨hpq, ⟨rfl, hne⟩, hn⟩, rfl, rfl, rfl⟩
    rw [mem_perm2, mem_findAdj hp, mem_findAdj hp] at hpq
    exact ⟨hpq.1, hpq.2.1, hne, hn⟩
  · rintro ⟨h1, h2, h3, h4⟩
    refine ⟨i, j, j, k, ⟨?_, ⟨rfl, h3⟩, h4⟩, rfl, rfl, rfl⟩
    rw [mem_perm2, mem_findAdj hp, mem_findAdj hp]
    refine ⟨h1, h2, ?_⟩
    intro he
    simp only [Prod.mk.injEq] at he
    obtain ⟨rfl, rfl⟩ := he
    exact h1 (hp.diag _)

theorem mem_triangles {G : GG n} (hp : PD G) (i j k : Fin n) :
    (i, j, k) ∈ G.triangles ↔ G.g i j ≠ .null ∧ G.g j k ≠ .null ∧ G.g i k ≠ .null := by
  simp only [triangles, List.mem_map, List.mem_filter, Prod.exists, decide_eq_true_eq, Prod.mk.injEq]
  constructor
  · rintro ⟨a, b, c, d, ⟨hpq, rfl, hne, hn⟩, rfl, rfl, rfl⟩
    rw [mem_perm2, mem_findAdj hp, mem_findAdj hp] at hpq
    rw [mem_findAdj hp] at hn
    exact ⟨hpq.1, hpq.2.1, hn⟩
  · rintro ⟨h1, h2, h4⟩
    have h3 : i ≠ k := by rintro rfl; exact h4 (hp.diag i)
    refine ⟨i, j, j, k, ⟨?_, rfl, h3, ?_⟩, rfl, rfl, rfl⟩
    · rw [mem_perm2, mem_findAdj hp, mem_findAdj hp]
      refine ⟨h1, h2, ?_⟩
      intro he
      simp only [Prod.mk.injEq] at he
      obtain ⟨rfl, rfl⟩ := he
      exact h1 (hp.diag _)
    · rw [mem_findAdj hp]; exact h4

theorem mem_kites {G : GG n} (hp : PD G) (i j k l : Fin n) :
    (i, j, k, l) ∈ G.kites ↔ j < k ∧ G.g j k = .null ∧ G.g i j ≠ .null ∧ G.g i k ≠ .null ∧ G.g i l ≠ .null ∧
      G.g j l ≠ .null ∧ G.g k l ≠ .null := by
  simp only [kites, List.mem_map, List.mem_filter, Prod.exists, Bool.and_eq_true, decide_eq_true_eq, beq_iff_eq,
    Prod.mk.injEq]
  constructor
  · rintro ⟨a, b, c, d, e, f, ⟨hpq, ⟨rfl, rfl, hlt⟩, hn⟩, rfl, rfl, rfl, rfl⟩
    rw [mem_perm2, mem_triangles hp, mem_triangles hp] at hpq
    exact ⟨hlt, hn, hpq.1.1, hpq.2.1.1, hpq.1.2.2, hpq.1.2.1, hpq.2.1.2.1⟩
  · rintro ⟨h1, h2, h3, h4, h5, h6, h7⟩
    refine ⟨i, j, l, i, k, l, ⟨?_, ⟨rfl, rfl, h1⟩, h2⟩, rfl, rfl, rfl, rfl⟩
    rw [mem_perm2, mem_triangles hp, mem_triangles hp]
    refine ⟨⟨h3, h6, h5⟩, ⟨h4, h7, h5⟩, ?_⟩
    intro he
    simp only [Prod.mk.injEq] at he
    exact absurd he.2.1 (ne_of_gt h1)

theorem mem_orderedUT {G : GG n} (hp : PD G) (i j k : Fin n) :
    (i, j, k) ∈ orderedUT G ↔ i < k ∧ G.g i j ≠ .null ∧ G.g j k ≠ .null ∧ G.g i k = .null := by
  unfold orderedUT
  rw [List.mem_filter, mem_unshieldedTriples hp]
  simp only [decide_eq_true_eq]
  constructor
  · rintro ⟨⟨h1, h2, -, h4⟩, h5⟩; exact ⟨h5, h1, h2, h4⟩
  · rintro ⟨h5, h1, h2, h4⟩; exact ⟨⟨h1, h2, ne_of_lt h5, h4⟩, h5⟩

/-! ### Meek -/

/-- `H` is `G` with some undirected edges directed. -/
structure Refines (G H : GG n) : Prop where
  adj : ∀ a b, H.g a b = .null ↔ G.g a b = .null
  keep : ∀ a b, ¬ (G.g a b = .tail ∧ G.g b a = .tail) → H.g a b = G.g a b
  dir : ∀ a b, G.g a b = .tail → G.g b a = .tail → (H.g a b = .tail ∧ H.g b a = .tail) ∨ H.Arrow a b ∨ H.Arrow b a

theorem Refines.refl (G : GG n) : Refines G G :=
  ⟨fun _ _ => Iff.rfl, fun _ _ _ => rfl, fun _ _ h1 h2 => Or.inl ⟨h1, h2⟩⟩

theorem Refines.trans {G H K : GG n} (h1 : Refines G H) (h2 : Refines H K) : Refines G K := by
  refine ⟨fun a b => (h2.adj a b).trans (h1.adj a b), ?_, ?_⟩
  · intro a b hn
    have e1 := h1.keep a b hn
    have e2 := h1.keep b a (fun h => hn ⟨h.2, h.1⟩)
    rw [h2.keep a b (by rw [e1, e2]; exact hn), e1]
  · intro a b ha hb
    rcases h1.dir a b ha hb with ⟨h, h'⟩ | ⟨h, h'⟩ | ⟨h, h'⟩
    · exact h2.dir a b h h'
    · right; left
      exact ⟨by rw [h2.keep a b (by rw [h']; simp)]; exact h, by rw [h2.keep b a (by rw [h']; simp)]; exact h'⟩
    · right; right
      exact ⟨by rw [h2.keep b a (by rw [h']; simp)]; exact h, by rw [h2.keep a b (by rw [h']; simp)]; exact h'⟩

/-- exact effect of `tryOrient` on an undirected edge -/
theorem tryOrient_spec {k : Know n} {st : GG n × Bool} (hp : PD st.1) (hs : Sound st.1) {a c : Fin n}
    (h : st.1.isUndirected a c = true) :
    (tryOrient k st a c = st ∧ (k.forb a c = true ∨ k.req c a = true ∨ st.1.isAncestorOf c a = true)) ∨
    ((tryOrient k st a c).2 = true ∧ (tryOrient k st a c).1.g = oriented st.1.g a c ∧ PD (tryOrient k st a c).1 ∧
      Sound (tryOrient k st a c).1 ∧ Refines st.1 (tryOrient k st a c).1 ∧ k.forb a c = false ∧ k.req c a = false ∧
      st.1.isAncestorOf c a = false) := by
  obtain ⟨h1, h2⟩ : st.1.g a c = .tail ∧ st.1.g c a = .tail := by simpa [isUndirected] using h
  have hne : a ≠ c := by rintro rfl; have := hp.diag a; rw [h1] at this; simp at this
  unfold tryOrient
  by_cases hk : k.forb a c || k.req c a
  · rw [if_pos hk]; left; refine ⟨rfl, ?_⟩; simp at hk; tauto
  · rw [if_neg hk]
    have hn : st.1.g a c ≠ .null := by rw [h1]; simp
    have hge : st.1.getEdge a c = some (mkEdge a c (st.1.g a c) (st.1.g c a)) := by
      unfold getEdge; rw [if_neg hn]
    rw [hge]
    dsimp only
    by_cases hanc : st.1.isAncestorOf c a = true
    · rw [if_pos hanc]; left; exact ⟨rfl, Or.inr (Or.inr hanc)⟩
    · rw [if_neg hanc]
      right
      have hg : (((st.1.removeEdge (mkEdge a c (st.1.g a c) (st.1.g c a))).addEdge (mkEdge a c .tail .arrow)).2).g =
          oriented st.1.g a c := addDirected_cleared hne (removeEdge_pd_g hp hn)
      refine ⟨rfl, hg, hp.of_oriented hne hg, (hs.removeEdge _).addEdge _, ?_, by simp at hk; exact hk.1, by simp at hk; exact hk.2,
        by simpa using hanc⟩
      dsimp only
      refine ⟨?_, ?_, ?_⟩
      · intro x y; rw [hg]; unfold oriented; grind
      · intro x y hxy; rw [hg]; unfold oriented; grind
      · intro x y hx hy
        unfold Arrow
        rw [hg]; unfold oriented; grind

/-- number of (ordered) undirected pairs -/
def undCount (G : GG n) : Nat := (allPairs n).countP fun p => G.isUndirected p.1 p.2

theorem length_allPairs : (allPairs n).length = n * n := by
  unfold allPairs
  rw [List.length_flatMap]
  simp [List.map_const', List.sum_replicate]

theorem undCount_le (G : GG n) : undCount G ≤ n * n := by
  unfold undCount
  exact le_trans List.countP_le_length (le_of_eq length_allPairs)

theorem countP_lt {α : Type} (l : List α) (p q : α → Bool) (hpq : ∀ a, p a = true → q a = true) (a : α) (ha : a ∈ l)
    (h1 : q a = true) (h2 : p a = false) : l.countP p < l.countP q := by
  induction l with
  | nil => simp at ha
  | cons b l ih =>
    have hle : l.countP p ≤ l.countP q := List.countP_mono_left (fun x _ => hpq x)
    rcases List.mem_cons.1 ha with rfl | ha
    · rw [List.countP_cons, List.countP_cons]; simp [h1, h2]; omega
    · have := ih ha
      rw [List.countP_cons, List.countP_cons]
      by_cases hb : p b = true
      · simp [hb, hpq b hb]; exact this
      · simp [hb]; omega

theorem undCount_oriented {G H : GG n} (hp : PD G) {a c : Fin n} (h : G.isUndirected a c = true) (hg : H.g = oriented G.g a c) :
    undCount H < undCount G := by
  unfold undCount
  have h' := h
  simp only [isUndirected, Bool.and_eq_true, beq_iff_eq] at h'
  have hne : a ≠ c := by rintro rfl; have := hp.diag a; rw [h'.1] at this; simp at this
  apply countP_lt _ _ _ ?_ (a, c) (mem_allPairs _) h
  · simp only [isUndirected, hg, oriented]; grind
  · rintro ⟨x, y⟩
    simp only [isUndirected, hg, oriented, Bool.and_eq_true, beq_iff_eq]
    grind

/-- A step of a Meek loop: it either changes nothing, or directs one undirected edge, raising the flag. -/
def StepOK (st st' : GG n × Bool) : Prop :=
  st' = st ∨ (st'.2 = true ∧ ∃ a c, st.1.isUndirected a c = true ∧ st'.1.g = oriented st.1.g a c ∧ PD st'.1 ∧ Sound st'.1 ∧
    Refines st.1 st'.1)

theorem tryOrient_ok {k : Know n} {st : GG n × Bool} (hp : PD st.1) (hs : Sound st.1) {a c : Fin n}
    (h : st.1.isUndirected a c = true) : StepOK st (tryOrient k st a c) := by
  rcases tryOrient_spec (k := k) hp hs h with ⟨h1, -⟩ | ⟨h1, h2, h3, h4, h5, -⟩
  · exact Or.inl h1
  · exact Or.inr ⟨h1, a, c, h, h2, h3, h4, h5⟩

theorem meek1_ok (k : Know n) (st : GG n × Bool) (hp : PD st.1) (hs : Sound st.1) (t) : StepOK st (meek1 k st t) := by
  unfold meek1; split
  · rename_i h; simp only [Bool.and_eq_true] at h; exact tryOrient_ok hp hs h.2
  · exact Or.inl rfl

theorem meek2_ok (k : Know n) (st : GG n × Bool) (hp : PD st.1) (hs : Sound st.1) (t) : StepOK st (meek2 k st t) := by
  unfold meek2; split
  · rename_i h; simp only [Bool.and_eq_true] at h; exact tryOrient_ok hp hs h.2
  · exact Or.inl rfl

theorem meek3_ok (k : Know n) (st : GG n × Bool) (hp : PD st.1) (hs : Sound st.1) (t) : StepOK st (meek3 k st t) := by
  unfold meek3; split
  · rename_i h; simp only [Bool.and_eq_true] at h; exact tryOrient_ok hp hs h.2
  · exact Or.inl rfl

theorem defMeek1_ok (k : Know n) (st : GG n × Bool) (hp : PD st.1) (hs : Sound st.1) (t) : StepOK st (defMeek1 k st t) := by
  unfold defMeek1; split
  · rename_i h; simp only [Bool.and_eq_true] at h; exact tryOrient_ok hp hs h.1.2
  · split
    · rename_i h; simp only [Bool.and_eq_true] at h; exact tryOrient_ok hp hs h.1.2
    · exact Or.inl rfl

theorem defMeek3_ok (k : Know n) (uc nuc) (st : GG n × Bool) (hp : PD st.1) (hs : Sound st.1) (t) :
    StepOK st (defMeek3 k uc nuc st t) := by
  unfold defMeek3; split
  · rename_i h; simp only [Bool.and_eq_true] at h; exact tryOrient_ok hp hs h.2
  · exact Or.inl rfl

/-- Folding good steps over a list. -/
theorem fold_ok {α : Type} (f : GG n × Bool → α → GG n × Bool)
    (hf : ∀ st, PD st.1 → Sound st.1 → ∀ t, StepOK st (f st t)) (l : List α) (st : GG n × Bool) (hp : PD st.1)
    (hs : Sound st.1) :
    PD (l.foldl f st).1 ∧ Sound (l.foldl f st).1 ∧ Refines st.1 (l.foldl f st).1 ∧
    ((l.foldl f st = st ∧ ∀ t ∈ l, f st t = st) ∨ ((l.foldl f st).2 = true ∧ undCount (l.foldl f st).1 < undCount st.1) ∨
      (st.2 = true ∧ l.foldl f st = st)) := by
  induction l generalizing st with
  | nil => exact ⟨hp, hs, Refines.refl _, Or.inl ⟨rfl, by simp⟩⟩
  | cons t l ih =>
    rw [List.foldl_cons]
    rcases hf st hp hs t with h | ⟨h1, a, c, h2, h3, h4, h5, h6⟩
    · rw [h]
      obtain ⟨i1, i2, i3, i4⟩ := ih st hp hs
      refine ⟨i1, i2, i3, ?_⟩
      rcases i4 with ⟨e, e'⟩ | i4 | i4
      · exact Or.inl ⟨e, by simpa [h] using e'⟩
      · exact Or.inr (Or.inl i4)
      · exact Or.inr (Or.inr i4)
    · obtain ⟨i1, i2, i3, i4⟩ := ih _ h4 h5
      refine ⟨i1, i2, h6.trans i3, ?_⟩
      have hlt := undCount_oriented hp h2 h3
      right; left
      rcases i4 with ⟨e, -⟩ | ⟨e1, e2⟩ | ⟨e1, e2⟩
      · rw [e]; exact ⟨h1, hlt⟩
      · exact ⟨e1, lt_trans e2 hlt⟩
      · rw [e2]; exact ⟨h1, hlt⟩

/-- Three folds in a row starting with the flag down: if the flag is still down nothing changed and no step was possible;
otherwise the number of undirected edges went down. -/
theorem pass_ok {α β γ : Type} (f : GG n × Bool → α → GG n × Bool) (g : GG n × Bool → β → GG n × Bool)
    (h : GG n × Bool → γ → GG n × Bool)
    (hf : ∀ st, PD st.1 → Sound st.1 → ∀ t, StepOK st (f st t))
    (hg : ∀ st, PD st.1 → Sound st.1 → ∀ t, StepOK st (g st t))
    (hh : ∀ st, PD st.1 → Sound st.1 → ∀ t, StepOK st (h st t)) (A : List α) (B : List β) (C : List γ)
    (G : GG n) (hp : PD G) (hs : Sound G) :
    let r := C.foldl h (B.foldl g (A.foldl f (G, false)))
    PD r.1 ∧ Sound r.1 ∧ Refines G r.1 ∧
    ((r = (G, false) ∧ (∀ t ∈ A, f (G, false) t = (G, false)) ∧ (∀ t ∈ B, g (G, false) t = (G, false)) ∧
      ∀ t ∈ C, h (G, false) t = (G, false)) ∨ (r.2 = true ∧ undCount r.1 < undCount G)) := by
  intro r
  obtain ⟨a1, a2, a3, a4⟩ := fold_ok f hf A (G, false) hp hs
  obtain ⟨b1, b2, b3, b4⟩ := fold_ok g hg B _ a1 a2
  obtain ⟨c1, c2, c3, c4⟩ := fold_ok h hh C _ b1 b2
  refine ⟨c1, c2, (a3.trans b3).trans c3, ?_⟩
  rcases a4 with ⟨ea, ea'⟩ | ⟨ea, ea'⟩ | ⟨ea, -⟩
  · rw [ea] at b4 c4
    rcases b4 with ⟨eb, eb'⟩ | ⟨eb, eb'⟩ | ⟨eb, -⟩
    · rw [eb] at c4
      rcases c4 with ⟨ec, ec'⟩ | ⟨ec, ec'⟩ | ⟨ec, -⟩
      · left
        refine ⟨?_, ea', eb', ec'⟩
        simp only [r, ea, eb, ec]
      · right; simp only [r, ea, eb]; exact ⟨ec, ec'⟩
      · simp at ec
    · right
      simp only [r, ea]
      rcases c4 with ⟨ec, -⟩ | ⟨ec, ec'⟩ | ⟨-, ec⟩
      · rw [ec]; exact ⟨eb, eb'⟩
      · exact ⟨ec, lt_trans ec' eb'⟩
      · rw [ec]; exact ⟨eb, eb'⟩
    · simp at eb
  · right
    simp only [r]
    have hb : (B.foldl g (A.foldl f (G, false))).2 = true ∧
        undCount (B.foldl g (A.foldl f (G, false))).1 < undCount G := by
      rcases b4 with ⟨eb, -⟩ | ⟨eb, eb'⟩ | ⟨-, eb⟩
      · rw [eb]; exact ⟨ea, ea'⟩
      · exact ⟨eb, lt_trans eb' ea'⟩
      · rw [eb]; exact ⟨ea, ea'⟩
    rcases c4 with ⟨ec, -⟩ | ⟨ec, ec'⟩ | ⟨-, ec⟩
    · rw [ec]; exact hb
    · exact ⟨ec, lt_trans ec' hb.2⟩
    · rw [ec]; exact hb
  · simp at ea

theorem meekLoop_spec (k : Know n) (UT Tri : List (Fin n × Fin n × Fin n)) (Kite : List (Fin n × Fin n × Fin n × Fin n))
    (f : Nat) (G : GG n) (hp : PD G) (hs : Sound G) (hf : undCount G < f) :
    ∃ H, meekLoop k UT Tri Kite f G = some H ∧ PD H ∧ Sound H ∧ Refines G H ∧
      (∀ t ∈ UT, meek1 k (H, false) t = (H, false)) ∧ (∀ t ∈ Tri, meek2 k (H, false) t = (H, false)) ∧
      ∀ t ∈ Kite, meek3 k (H, false) t = (H, false) := by
  induction f generalizing G with
  | zero => omega
  | succ f ih =>
    obtain ⟨h1, h2, h3, h4⟩ := pass_ok (meek1 k) (meek2 k) (meek3 k) (fun st hp hs t => meek1_ok k st hp hs t)
      (fun st hp hs t => meek2_ok k st hp hs t) (fun st hp hs t => meek3_ok k st hp hs t) UT Tri Kite G hp hs
    rw [meekLoop]
    change PD (meekPass k UT Tri Kite G).1 at h1
    change Sound (meekPass k UT Tri Kite G).1 at h2
    change Refines G (meekPass k UT Tri Kite G).1 at h3
    rcases h4 with ⟨e, ea, eb, ec⟩ | ⟨e, e'⟩
    · change meekPass k UT Tri Kite G = _ at e
      rw [e]
      exact ⟨G, by simp, hp, hs, Refines.refl G, ea, eb, ec⟩
    · change (meekPass k UT Tri Kite G).2 = true at e
      change undCount (meekPass k UT Tri Kite G).1 < _ at e'
      rw [if_pos e]
      obtain ⟨H, i1, i2, i3, i4, i5⟩ := ih _ h1 h2 (by omega)
      exact ⟨H, i1, i2, i3, h3.trans i4, i5⟩

theorem defMeekLoop_spec (k : Know n) (uc nuc Tri : List (Fin n × Fin n × Fin n))
    (Kite : List (Fin n × Fin n × Fin n × Fin n))
    (f : Nat) (G : GG n) (hp : PD G) (hs : Sound G) (hf : undCount G < f) :
    ∃ H, defMeekLoop k uc nuc Tri Kite f G = some H ∧ PD H ∧ Sound H ∧ Refines G H ∧
      (∀ t ∈ nuc, defMeek1 k (H, false) t = (H, false)) ∧ (∀ t ∈ Tri, meek2 k (H, false) t = (H, false)) ∧
      ∀ t ∈ Kite, defMeek3 k uc nuc (H, false) t = (H, false) := by
  induction f generalizing G with
  | zero => omega
  | succ f ih =>
    obtain ⟨h1, h2, h3, h4⟩ := pass_ok (defMeek1 k) (meek2 k) (defMeek3 k uc nuc) (fun st hp hs t => defMeek1_ok k st hp hs t)
      (fun st hp hs t => meek2_ok k st hp hs t) (fun st hp hs t => defMeek3_ok k uc nuc st hp hs t) nuc Tri Kite G hp hs
    rw [defMeekLoop]
    change PD (defMeekPass k uc nuc Tri Kite G).1 at h1
    change Sound (defMeekPass k uc nuc Tri Kite G).1 at h2
    change Refines G (defMeekPass k uc nuc Tri Kite G).1 at h3
    rcases h4 with ⟨e, ea, eb, ec⟩ | ⟨e, e'⟩
    · change defMeekPass k uc nuc Tri Kite G = _ at e
      rw [e]
      exact ⟨G, by simp, hp, hs, Refines.refl G, ea, eb, ec⟩
    · change (defMeekPass k uc nuc Tri Kite G).2 = true at e
      change undCount (defMeekPass k uc nuc Tri Kite G).1 < _ at e'
      rw [if_pos e]
      obtain ⟨H, i1, i2, i3, i4, i5⟩ := ih _ h1 h2 (by omega)
      exact ⟨H, i1, i2, i3, h3.trans i4, i5⟩

end CL
