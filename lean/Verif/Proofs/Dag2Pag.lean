import Verif.Model.Dag2Pag
import Verif.Props.FciSound

/-!
# Lemmas about `dag2pag`: skeleton, table, collider phase
-/
namespace CL
open GG Spec
variable {N n : Nat}

namespace Pag
open Fci

/-- The outcome of the test of `DAG2PAG.py:68` for one set that leaves out both nodes. -/
def Hit (I : PagInput N n) (x y : Fin n) (Z : List (Fin n)) : Prop :=
  x ∉ Z ∧ y ∉ Z ∧ I.nxDsep (digraph I.dag) (I.obs x) (I.obs y) (Z.map I.obs ++ I.sel) = true

/-- Only circles. -/
structure Circ (G : GG n) : Prop where
  symm : ∀ a b, G.g a b = G.g b a
  diag : ∀ a, G.g a a = .null
  mark : ∀ a b, G.g a b = .null ∨ G.g a b = .circle

theorem Circ.pag {G : GG n} (h : Circ G) : G.Pag :=
  ⟨fun a b => by rw [h.symm a b], h.diag, fun a b => by rcases h.mark a b with e | e <;> simp [e]⟩

theorem circ_start_step {G : GG n} (h : Circ G) {a b : Fin n} (hab : a ≠ b) (hn : G.g a b = .null) :
    ((G.addEdge (((mkEdge a b .circle .circle).setEndpoint1 .circle).setEndpoint2 .circle)).2).g = set2 G.g a b .circle .circle := by
  have hba : ¬ b = a := fun h => hab h.symm
  have hn2 : G.g b a = .null := by rw [← h.symm]; exact hn
  funext x y
  simp only [mkEdge, pointingLeft, Edge.setEndpoint1, Edge.setEndpoint2, Edge.normalize]
  simp [addEdge, hn, hn2, upd_apply, set2]

theorem circ_set2 {G H : GG n} (h : Circ G) {a b : Fin n} (hab : a ≠ b) {m : Mark} (hm : m = .null ∨ m = .circle)
    (e : H.g = set2 G.g a b m m) : Circ H := by
  refine ⟨fun x y => ?_, fun x => ?_, fun x y => ?_⟩ <;> rw [e] <;> unfold set2
  · have := h.symm x y; grind
  · have := h.diag x; grind
  · have := h.mark x y; grind

theorem start_spec (n : Nat) : Circ (start n) ∧ ∀ a b : Fin n, a ≠ b → (start n).g a b = .circle := by
  have hs : (List.finRange n).Pairwise (· < ·) := List.pairwise_lt_finRange n
  have key := foldl_prefix (fun (pre : List (Fin n × Fin n)) (G : GG n) => Circ G ∧ ∀ a b, a < b → (G.g a b = .circle ↔ (a, b) ∈ pre))
    (fun (G : GG n) (p : Fin n × Fin n) => (G.addEdge (((mkEdge p.1 p.2 .circle .circle).setEndpoint1 .circle).setEndpoint2 .circle)).2)
    (pairsOf (List.finRange n)) [] (GG.empty n)
    ⟨⟨fun a b => by simp, fun a => empty_g _ _, fun a b => Or.inl (empty_g _ _)⟩, fun a b _ => by simp⟩ (by
      rintro pre ⟨a, b⟩ G hp ⟨h1, h2⟩
      have hlt := ((mem_pairsOf_sorted hs).1 hp).2.2
      have hab := ne_of_lt hlt
      dsimp only
      by_cases hn : G.g a b = .null
      · have e := circ_start_step h1 hab hn
        refine ⟨circ_set2 h1 hab (Or.inr rfl) e, fun x y hxy => ?_⟩
        rw [e]; unfold set2
        have := h2 x y hxy
        simp only [List.mem_append, List.mem_singleton, Prod.mk.injEq]
        grind
      · have hc : G.g a b = .circle := (h1.mark a b).resolve_left hn
        have hc2 : G.g b a = .circle := by rw [← h1.symm]; exact hc
        have e : ((G.addEdge (((mkEdge a b .circle .circle).setEndpoint1 .circle).setEndpoint2 .circle)).2).g = G.g := by
          simp [mkEdge, pointingLeft, Edge.setEndpoint1, Edge.setEndpoint2, Edge.normalize, addEdge, hc, hc2]
        refine ⟨⟨by rw [e]; exact h1.symm, by rw [e]; exact h1.diag, by rw [e]; exact h1.mark⟩, fun x y hxy => ?_⟩
        rw [e, h2 x y hxy]
        simp only [List.mem_append, List.mem_singleton, Prod.mk.injEq]
        constructor
        · exact Or.inl
        · rintro (h | ⟨rfl, rfl⟩)
          · exact h
          · exact (h2 _ _ hlt).1 hc)
  simp only [List.nil_append] at key
  refine ⟨key.1, fun a b hab => ?_⟩
  rcases lt_or_gt_of_ne hab with h | h
  · exact (key.2 a b h).2 ((mem_pairsOf_sorted hs).2 ⟨List.mem_finRange _, List.mem_finRange _, h⟩)
  · have := key.1.symm a b
    unfold start at this ⊢
    rw [this]
    exact (key.2 b a h).2 ((mem_pairsOf_sorted hs).2 ⟨List.mem_finRange _, List.mem_finRange _, h⟩)

/-- What holds throughout the skeleton loop. -/
structure PagInv (I : PagInput N n) (s : GG n × SSet n) : Prop where
  circ : Circ s.1
  tsymm : ∀ x y, s.2 x y = s.2 y x
  total : ∀ x y, x ≠ y → ∃ T, s.2 x y = some T
  diag : ∀ x, s.2 x x = none
  mem : ∀ x y T, x < y → s.2 x y = some T → ∀ z ∈ T, ∃ Z, z ∈ Z ∧ Hit I x y Z
  sep : ∀ x y T, x < y → s.2 x y = some T → s.1.g x y = .null → ∃ Z, Hit I x y Z ∧ ∀ z ∈ Z, z ∈ T

theorem remove_again {G : GG n} {x y : Fin n} (h1 : G.g x y = .null) (h2 : G.g y x = .null) :
    (G.removeEdge (mkEdge x y .circle .circle)).g = G.g := by
  funext a b
  simp only [mkEdge, pointingLeft, removeEdge, isParentOf]
  simp [h1, h2, upd_apply]

theorem addSep_apply {ss : SSet n} {x y : Fin n} (hxy : x ≠ y) {T Z : List (Fin n)} (h1 : ss x y = some T) (h2 : ss y x = some T) (a b : Fin n) :
    addSep ss x y Z a b = if (a = x ∧ b = y) ∨ (a = y ∧ b = x) then some (T ++ Z) else ss a b := by
  unfold addSep
  simp only [upd_apply, h1, h2, Option.map_some]
  grind

theorem testPair_inv (I : PagInput N n) {s : GG n × SSet n} (h : PagInv I s) {x y : Fin n} (hxy : x < y) (l : Nat) :
    PagInv I (testPair I l s (x, y)) ∧ (∀ a b, (testPair I l s (x, y)).1.g a b ≠ .null → s.1.g a b ≠ .null) ∧
    ((testPair I l s (x, y)).1.g x y ≠ .null → ∀ Z ∈ combos (List.finRange n) l, ¬ Hit I x y Z) := by
  have hne := ne_of_lt hxy
  unfold testPair
  by_cases hn : s.1.g x y = .null
  · have : s.1.getEdge x y = none := by simp [getEdge, hn]
    simp only [this, Option.elim_none]
    exact ⟨h, fun _ _ h => h, fun h => absurd hn h⟩
  · have hc := (h.circ.mark x y).resolve_left hn
    have hc2 : s.1.g y x = .circle := by rw [← h.circ.symm]; exact hc
    have : s.1.getEdge x y = some (mkEdge x y .circle .circle) := by rw [getEdge_eq hn, hc, hc2]
    simp only [this, Option.elim_some]
    obtain ⟨T0, hT0⟩ := h.total x y hne
    have key := foldl_prefix (fun (pre : List (List (Fin n))) (u : GG n × SSet n) =>
        (u = s ∧ ∀ Z ∈ pre, ¬ Hit I x y Z) ∨
        (u.1.g = set2 s.1.g x y .null .null ∧ ∃ T, (∀ a b, u.2 a b = if (a = x ∧ b = y) ∨ (a = y ∧ b = x) then some T else s.2 a b) ∧
          (∀ z ∈ T, ∃ Z, z ∈ Z ∧ Hit I x y Z) ∧ ∃ Z, Hit I x y Z ∧ ∀ z ∈ Z, z ∈ T))
      (testZ I x y (mkEdge x y .circle .circle)) (combos (List.finRange n) l) [] s (Or.inl ⟨rfl, by simp⟩) (by
        intro pre Z u hZ hu
        unfold testZ
        split
        · rename_i hmem
          rcases hu with ⟨rfl, hu⟩ | hu
          · refine Or.inl ⟨rfl, fun Z' hZ' => ?_⟩
            simp only [List.mem_append, List.mem_singleton] at hZ'
            rcases hZ' with h' | rfl
            · exact hu _ h'
            · rintro ⟨p1, p2, -⟩; tauto
          · exact Or.inr hu
        · rename_i hmem
          split
          · rename_i ht
            have hHit : Hit I x y Z := ⟨fun h => hmem (Or.inl h), fun h => hmem (Or.inr h), ht⟩
            right
            rcases hu with ⟨rfl, hu⟩ | ⟨e, T, hT, hm, -⟩
            · refine ⟨?_, T0 ++ Z, fun a b => addSep_apply hne hT0 (h.tsymm x y ▸ hT0) a b, ?_, Z, hHit, by simp +contextual⟩
              · have := remove_g h.circ.pag hn
                rw [hc, hc2] at this
                exact this
              · intro z hz
                rcases List.mem_append.1 hz with hz | hz
                · exact h.mem x y T0 hxy hT0 z hz
                · exact ⟨Z, hz, hHit⟩
            · have t1 : u.2 x y = some T := by rw [hT]; simp
              have t2 : u.2 y x = some T := by rw [hT]; simp
              refine ⟨?_, T ++ Z, fun a b => ?_, ?_, Z, hHit, by simp +contextual⟩
              · dsimp only
                rw [remove_again (by rw [e]; exact set2_left) (by rw [e]; exact set2_right hne), e]
              · dsimp only
                rw [addSep_apply hne t1 t2, hT]
                grind
              · intro z hz
                rcases List.mem_append.1 hz with hz | hz
                · exact hm z hz
                · exact ⟨Z, hz, hHit⟩
          · rename_i ht
            rcases hu with ⟨rfl, hu⟩ | hu
            · refine Or.inl ⟨rfl, fun Z' hZ' => ?_⟩
              simp only [List.mem_append, List.mem_singleton] at hZ'
              rcases hZ' with h' | rfl
              · exact hu _ h'
              · rintro ⟨-, -, p⟩; exact ht p
            · exact Or.inr hu)
    simp only [List.nil_append] at key
    generalize (combos (List.finRange n) l).foldl (testZ I x y (mkEdge x y .circle .circle)) s = u at key
    rcases key with ⟨rfl, hu⟩ | ⟨e, T, hT, hm, Z, hZ, hZT⟩
    · exact ⟨h, fun _ _ h => h, fun _ => hu⟩
    · refine ⟨⟨circ_set2 h.circ hne (Or.inl rfl) e, fun a b => ?_, fun a b hab => ?_, fun a => ?_, fun a b T' hab hT' => ?_, fun a b T' hab hT' h0 => ?_⟩,
        fun a b hab => ?_, fun h0 => ?_⟩
      · rw [hT, hT, h.tsymm a b]; grind
      · rw [hT]; split
        · exact ⟨_, rfl⟩
        · exact h.total a b hab
      · rw [hT, h.diag]; grind
      · rw [hT] at hT'
        split at hT'
        · rename_i hab'
          have : a = x ∧ b = y := by
            rcases hab' with q | ⟨rfl, rfl⟩
            · exact q
            · exact absurd (lt_trans hab hxy) (lt_irrefl _)
          obtain ⟨rfl, rfl⟩ := this
          cases hT'
          exact hm
        · exact h.mem a b T' hab hT'
      · rw [hT] at hT'
        split at hT'
        · rename_i hab'
          have : a = x ∧ b = y := by
            rcases hab' with q | ⟨rfl, rfl⟩
            · exact q
            · exact absurd (lt_trans hab hxy) (lt_irrefl _)
          obtain ⟨rfl, rfl⟩ := this
          cases hT'
          exact ⟨Z, hZ, hZT⟩
        · rename_i hab'
          refine h.sep a b T' hab hT' ?_
          rw [e] at h0; unfold set2 at h0; grind
      · rw [e] at hab; unfold set2 at hab; grind
      · exact absurd (by rw [e]; exact set2_left) h0

theorem skeleton_spec (I : PagInput N n) : PagInv I (skeleton I) ∧
    ∀ x y, x < y → (skeleton I).1.g x y ≠ .null → ∀ l, l < n - 1 → ∀ Z ∈ combos (List.finRange n) l, ¬ Hit I x y Z := by
  have hs : (List.finRange n).Pairwise (· < ·) := List.pairwise_lt_finRange n
  have h0 : PagInv I (start n, emptyTable) := by
    obtain ⟨h1, h2⟩ := start_spec n
    refine ⟨h1, fun x y => ?_, fun x y hxy => ⟨[], by simp [emptyTable, hxy]⟩, fun x => by simp [emptyTable], fun x y T hxy hT => ?_,
      fun x y T hxy hT hn => ?_⟩
    · simp [emptyTable, eq_comm]
    · simp only [emptyTable, ne_of_lt hxy, if_false, Option.some.injEq] at hT
      subst hT; simp
    · exact absurd (h2 x y (ne_of_lt hxy)) (by simp only at hn; simp [hn])
  have inner : ∀ (l : Nat) (s : GG n × SSet n), PagInv I s → let u := (pairsOf (List.finRange n)).foldl (testPair I l) s
      PagInv I u ∧ (∀ a b, u.1.g a b ≠ .null → s.1.g a b ≠ .null) ∧
      ∀ x y, x < y → u.1.g x y ≠ .null → ∀ Z ∈ combos (List.finRange n) l, ¬ Hit I x y Z := by
    intro l s hsk
    have key := foldl_prefix (fun (pre : List (Fin n × Fin n)) (u : GG n × SSet n) => PagInv I u ∧ (∀ a b, u.1.g a b ≠ .null → s.1.g a b ≠ .null) ∧
        ∀ x y, (x, y) ∈ pre → u.1.g x y ≠ .null → ∀ Z ∈ combos (List.finRange n) l, ¬ Hit I x y Z)
      (testPair I l) (pairsOf (List.finRange n)) [] s ⟨hsk, fun _ _ h => h, by simp⟩ (by
        rintro pre ⟨a, b⟩ u hp ⟨k1, k2, k3⟩
        have hlt := ((mem_pairsOf_sorted hs).1 hp).2.2
        obtain ⟨q1, q2, q3⟩ := testPair_inv I k1 hlt l
        refine ⟨q1, fun x y hxy => k2 x y (q2 x y hxy), fun x y hxy hne => ?_⟩
        rcases List.mem_append.1 hxy with h | h
        · exact k3 x y h (q2 x y hne)
        · simp only [List.mem_singleton, Prod.mk.injEq] at h
          obtain ⟨rfl, rfl⟩ := h
          exact q3 hne)
    simp only [List.nil_append] at key
    exact ⟨key.1, key.2.1, fun x y hxy => key.2.2 x y ((mem_pairsOf_sorted hs).2 ⟨List.mem_finRange _, List.mem_finRange _, hxy⟩)⟩
  have outer := foldl_prefix (fun (pre : List Nat) (u : GG n × SSet n) => PagInv I u ∧
      ∀ x y, x < y → u.1.g x y ≠ .null → ∀ l ∈ pre, ∀ Z ∈ combos (List.finRange n) l, ¬ Hit I x y Z)
    (fun s l => (pairsOf (List.finRange n)).foldl (testPair I l) s) (List.range (n - 1)) [] (start n, emptyTable) ⟨h0, by simp⟩ (by
      rintro pre l u - ⟨k1, k2⟩
      obtain ⟨q1, q2, q3⟩ := inner l u k1
      refine ⟨q1, fun x y hxy hne l' hl' => ?_⟩
      rcases List.mem_append.1 hl' with h | h
      · exact k2 x y hxy (q2 x y hne) l' h
      · simp only [List.mem_singleton] at h
        subst h
        exact q3 x y hxy hne)
  simp only [List.nil_append] at outer
  exact ⟨outer.1, fun x y hxy hne l hl => outer.2 x y hxy hne l (List.mem_range.2 hl)⟩

/-! ### The collider phase -/

/-- no tails -/
theorem arrowAt_g {G : GG n} (h : G.Pag) (ht : NoTail G) {x z : Fin n} (hn : G.g x z ≠ .null) :
    (arrowAt G (mkEdge x z (G.g x z) (G.g z x)) z).g = set2 G.g x z (G.g x z) .arrow := by
  have hne := ne_of_adj h hn
  have hzx : ¬ z = x := fun h => hne h.symm
  have hm1 := h.marks x z
  have hm2 := h.marks z x
  have t1 := ht x z
  have t2 := ht z x
  have hn2 := adj_symm h hn
  obtain ⟨e0, hr⟩ : ∃ G0, G.removeEdge (mkEdge x z (G.g x z) (G.g z x)) = G0 := ⟨_, rfl⟩
  have hg := remove_g h hn
  rw [hr] at hg
  unfold arrowAt
  rw [hr]
  have n1 : e0.g x z = .null := by rw [hg]; exact set2_left
  have n2 : e0.g z x = .null := by rw [hg]; exact set2_right hne
  funext a b
  rcases hm1 with e1 | e1 | e1 | e1 <;> rcases hm2 with e2 | e2 | e2 | e2 <;>
    first
    | exact absurd e1 hn
    | exact absurd e2 hn2
    | exact absurd e1 t1
    | exact absurd e2 t2
    | (simp only [e1, e2, mkEdge, pointingLeft, modEndpoint, Edge.setEndpoint1, Edge.setEndpoint2, Edge.normalize]
       simp [hne, hzx, addEdge, n1, n2, upd_apply, set2, hg]
       try grind)

/-- `x – z – y` is unshielded and `z` is in none of the recorded sets. -/
def Col (K : GG n) (ss : SSet n) (x z y : Fin n) : Prop :=
  K.g x z ≠ .null ∧ K.g y z ≠ .null ∧ K.g x y = .null ∧ z ∉ (ss x y).getD []

/-- What holds throughout the collider phase: `A b a` says where the arrowheads are. -/
structure CoInv (K G : GG n) (A : Fin n → Fin n → Prop) : Prop where
  pag : G.Pag
  noTail : NoTail G
  null : ∀ a b, G.g a b = .null ↔ K.g a b = .null
  arrow : ∀ a b, G.g b a = .arrow ↔ A b a

theorem CoInv.put {K G : GG n} {A : Fin n → Fin n → Prop} (h : CoInv K G A) {x z : Fin n} (hn : G.g x z ≠ .null) :
    CoInv K (arrowAt G (mkEdge x z (G.g x z) (G.g z x)) z) fun b a => A b a ∨ (b = z ∧ a = x) := by
  have e := arrowAt_g h.pag h.noTail hn
  have hne := ne_of_adj h.pag hn
  have hn2 := adj_symm h.pag hn
  refine ⟨set2_pag h.pag hn (by have := h.pag.marks x z; tauto) (by simp) e, fun a b => ?_, fun a b => ?_, fun a b => ?_⟩
  · rw [e]; unfold set2
    have := h.noTail a b
    have := h.noTail x z
    grind
  · rw [e, ← h.null]; unfold set2
    have := h.pag.symm a b
    grind
  · rw [e, ← h.arrow]; unfold set2
    grind

theorem CoInv.congr {K G : GG n} {A B : Fin n → Fin n → Prop} (h : CoInv K G A) (he : ∀ b a, A b a ↔ B b a) : CoInv K G B :=
  ⟨h.pag, h.noTail, h.null, fun a b => (h.arrow a b).trans (he b a)⟩

theorem colliderZ_inv {K G : GG n} {A : Fin n → Fin n → Prop} (hK : K.Pag) (h : CoInv K G A) {ss : SSet n} {x y : Fin n} (hxy : x ≠ y) (hnull : K.g x y = .null) (z : Fin n) :
    CoInv K (colliderZ ss x y G z) fun b a => A b a ∨ (b = z ∧ (a = x ∨ a = y) ∧ Col K ss x z y) := by
  unfold colliderZ
  split
  · rename_i hz
    refine h.congr fun b a => ⟨Or.inl, ?_⟩
    rintro (h | ⟨-, -, h1, h2, -, -⟩)
    · exact h
    · rcases hz with rfl | rfl
      · exact absurd (hK.diag z) h1
      · exact absurd (hK.diag z) h2
  · rename_i hz
    split
    · rename_i hm
      refine h.congr fun b a => ⟨Or.inl, ?_⟩
      rintro (h | ⟨-, -, -, -, -, h4⟩)
      · exact h
      · exact absurd hm h4
    · rename_i hm
      by_cases h1 : G.g x z = .null
      · have : G.getEdge x z = none := by simp [getEdge, h1]
        simp only [this, Option.elim_none]
        refine h.congr fun b a => ⟨Or.inl, ?_⟩
        rintro (h | ⟨-, -, q1, -, -, -⟩)
        · exact h
        · exact absurd ((h.null x z).1 h1) q1
      · simp only [getEdge_eq h1, Option.elim_some]
        by_cases h2 : G.g y z = .null
        · have : G.getEdge y z = none := by simp [getEdge, h2]
          simp only [this, Option.elim_none]
          refine h.congr fun b a => ⟨Or.inl, ?_⟩
          rintro (h | ⟨-, -, -, q2, -, -⟩)
          · exact h
          · exact absurd ((h.null y z).1 h2) q2
        · simp only [getEdge_eq h2, Option.elim_some]
          have k1 := h.put h1
          have e := arrowAt_g h.pag h.noTail h1
          have hyz := ne_of_adj h.pag h2
          have e1 : (arrowAt G (mkEdge x z (G.g x z) (G.g z x)) z).g y z = G.g y z := by rw [e]; unfold set2; grind
          have e2 : (arrowAt G (mkEdge x z (G.g x z) (G.g z x)) z).g z y = G.g z y := by rw [e]; unfold set2; grind
          have k2 := k1.put (x := y) (z := z) (by rw [e1]; exact h2)
          rw [e1, e2] at k2
          refine k2.congr fun b a => ?_
          have hC : Col K ss x z y := ⟨fun q => h1 ((h.null x z).2 q), fun q => h2 ((h.null y z).2 q), hnull, hm⟩
          constructor
          · rintro ((q | q) | q)
            · exact Or.inl q
            · exact Or.inr ⟨q.1, Or.inl q.2, hC⟩
            · exact Or.inr ⟨q.1, Or.inr q.2, hC⟩
          · rintro (q | ⟨q1, q2 | q2, -⟩)
            · exact Or.inl (Or.inl q)
            · exact Or.inl (Or.inr ⟨q1, q2⟩)
            · exact Or.inr ⟨q1, q2⟩

theorem colliders_spec {K : GG n} (hK : Circ K) (ss : SSet n) :
    CoInv K (colliders (K, ss)) fun b a => ∃ c, (a < c ∧ Col K ss a b c) ∨ (c < a ∧ Col K ss c b a) := by
  have hs : (List.finRange n).Pairwise (· < ·) := List.pairwise_lt_finRange n
  have h0 : CoInv K K fun _ _ => False := by
    refine ⟨hK.pag, fun a b e => ?_, fun _ _ => Iff.rfl, fun a b => ?_⟩
    · rcases hK.mark a b with q | q <;> rw [q] at e <;> cases e
    · rcases hK.mark b a with q | q <;> simp [q]
  have outer := foldl_prefix (fun (pre : List (Fin n × Fin n)) (G : GG n) => CoInv K G fun b a =>
      ∃ p ∈ pre, (a = p.1 ∨ a = p.2) ∧ Col K ss p.1 b p.2) (colliderPair ss) (pairsOf (List.finRange n)) [] K (h0.congr (by simp)) (by
    rintro pre ⟨x, y⟩ G hp hG
    have hlt := ((mem_pairsOf_sorted hs).1 hp).2.2
    have hne := ne_of_lt hlt
    unfold colliderPair
    dsimp only
    by_cases hn : G.g x y = .null
    · have : G.getEdge x y = none := by simp [getEdge, hn]
      rw [this]
      simp only [Option.isSome_none, Bool.false_eq_true, if_false]
      have hnK := (hG.null x y).1 hn
      have inner := foldl_prefix (fun (pz : List (Fin n)) (H : GG n) => CoInv K H fun b a =>
          (∃ p ∈ pre, (a = p.1 ∨ a = p.2) ∧ Col K ss p.1 b p.2) ∨ (b ∈ pz ∧ (a = x ∨ a = y) ∧ Col K ss x b y))
        (colliderZ ss x y) (List.finRange n) [] G (hG.congr (by simp)) (by
          intro pz z H _ hH
          refine (colliderZ_inv hK.pag hH hne hnK z).congr fun b a => ?_
          simp only [List.mem_append, List.mem_singleton]
          constructor
          · rintro ((q | q) | ⟨rfl, q⟩)
            · exact Or.inl q
            · exact Or.inr ⟨Or.inl q.1, q.2⟩
            · exact Or.inr ⟨Or.inr rfl, q⟩
          · rintro (q | ⟨q1 | rfl, q⟩)
            · exact Or.inl (Or.inl q)
            · exact Or.inl (Or.inr ⟨q1, q⟩)
            · exact Or.inr ⟨rfl, q⟩)
      simp only [List.nil_append] at inner
      refine inner.congr fun b a => ?_
      simp only [List.mem_append, List.mem_singleton, List.mem_finRange, true_and]
      constructor
      · rintro (⟨p, q1, q2⟩ | q)
        · exact ⟨p, Or.inl q1, q2⟩
        · exact ⟨(x, y), Or.inr rfl, q⟩
      · rintro ⟨p, q1 | rfl, q2⟩
        · exact Or.inl ⟨p, q1, q2⟩
        · exact Or.inr q2
    · rw [getEdge_eq hn]
      simp only [Option.isSome_some, if_true]
      refine hG.congr fun b a => ⟨fun ⟨p, q1, q2⟩ => ⟨p, List.mem_append_left _ q1, q2⟩, fun ⟨p, q1, q2⟩ => ⟨p, ?_, q2⟩⟩
      rcases List.mem_append.1 q1 with q | q
      · exact q
      · simp only [List.mem_singleton] at q
        subst q
        exact absurd ((hG.null _ _).2 q2.2.2.2.1) hn)
  simp only [List.nil_append] at outer
  refine CoInv.congr (B := _) outer fun b a => ⟨?_, ?_⟩
  · rintro ⟨⟨x, y⟩, hp, rfl | rfl, hc⟩
    · exact ⟨y, Or.inl ⟨((mem_pairsOf_sorted hs).1 hp).2.2, hc⟩⟩
    · exact ⟨x, Or.inr ⟨((mem_pairsOf_sorted hs).1 hp).2.2, hc⟩⟩
  · rintro ⟨c, ⟨hlt, hc⟩ | ⟨hlt, hc⟩⟩
    · exact ⟨(a, c), (mem_pairsOf_sorted hs).2 ⟨List.mem_finRange _, List.mem_finRange _, hlt⟩, Or.inl rfl, hc⟩
    · exact ⟨(c, a), (mem_pairsOf_sorted hs).2 ⟨List.mem_finRange _, List.mem_finRange _, hlt⟩, Or.inr rfl, hc⟩

end Pag
end CL
