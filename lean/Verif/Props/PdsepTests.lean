import Verif.Props.PossibleDsep
import Verif.Props.Generators
import Mathlib.Data.Nat.Choose.Sum

/-!
# C29: which conditioning sets the possible-d-sep step tests
-/
namespace CL
open GG
variable {n : Nat}

namespace Fci
open Gen

theorem seen_mem (a : Nat) (c : List Int) : ∀ (f b : Nat) (_ : b ≤ a) (R : List (List Int)) (cur : List Int)
    (_ : cur.length = b) (_ : Trav a cur R) (_ : (R ++ later a a b).length < f),
    c ∈ seen f ⟨a, b, a, (a : Int) - b, cur, true⟩ cur ↔
      c ∈ R ∨ (R = [] ∧ c = cur) ∨ ∃ k, b < k ∧ k ≤ a ∧ c ∈ lex a 0 k ∧ (c ≠ ramp 0 k ∨ lex a 0 k = [ramp 0 k]) := by
  intro f
  induction f with
  | zero => intro b hb R cur hl h hf; simp at hf
  | succ f ih =>
    intro b hb R cur hl h hf
    obtain ⟨h1, h2⟩ := dgen_next a b a (le_refl _) hb R cur hl h
    unfold seen
    cases hR : R with
    | nil =>
      subst hR
      rcases Nat.lt_or_ge b a with hlt | hge
      · obtain ⟨tl, e1, e2⟩ := lex_trav a 0 (b + 1) hlt
        rw [zero_add] at e2
        obtain ⟨b', R', c1, c2, c3, c4, hg⟩ := h2 (ramp 0 (b + 1)) (tl ++ later a a (b + 1))
          (by rw [later_step a b a hlt, e1]; simp)
        have hb' : b' = b + 1 := by rw [← c2, length_ramp]
        subst hb'
        have hR' : tl = R' := List.append_cancel_right c4
        subst hR'
        rw [hg]
        dsimp only
        rw [if_neg (by omega), List.mem_cons, ih (b + 1) c1 tl _ c2 c3 (by
          rw [later_step a b a hlt, e1] at hf
          simp at hf ⊢; omega)]
        have hs := lex_sorted a 0 (b + 1)
        rw [e1, List.pairwise_cons] at hs
        constructor
        · rintro (h | h | ⟨h, rfl⟩ | ⟨k, h3, h4⟩)
          · exact Or.inr (Or.inl ⟨rfl, h⟩)
          · refine Or.inr (Or.inr ⟨b + 1, by omega, by omega, by rw [e1]; simp [h], Or.inl ?_⟩)
            rintro rfl
            exact lt_irrefl _ (hs.1 _ h)
          · exact Or.inr (Or.inr ⟨b + 1, by omega, by omega, by rw [e1]; simp, Or.inr (by rw [e1, h])⟩)
          · exact Or.inr (Or.inr ⟨k, by omega, h4⟩)
        · rintro (h | ⟨-, h⟩ | ⟨k, h3, h4, h5, h6⟩)
          · simp at h
          · exact Or.inl h
          · rcases Nat.lt_or_ge (b + 1) k with hk | hk
            · exact Or.inr (Or.inr (Or.inr ⟨k, hk, h4, h5, h6⟩))
            · obtain rfl : k = b + 1 := by omega
              rw [e1] at h5 h6
              rcases h6 with h6 | h6
              · simp [h6] at h5; exact Or.inr (Or.inl h5)
              · simp at h6; subst h6; simp at h5; exact Or.inr (Or.inr (Or.inl ⟨rfl, h5⟩))
      · obtain ⟨g, hg⟩ := h1 (by rw [later_end a b a hge]; rfl)
        rw [hg]
        simp
        intro k h3 h4
        omega
    | cons d R =>
      subst hR
      obtain ⟨b', R', c1, c2, c3, c4, hg⟩ := h2 d (R ++ later a a b) rfl
      have hb' : b' = b := by rw [← c2, nxt_length _ _ _ h.1, hl]
      subst hb'
      have hR' : R = R' := List.append_cancel_right c4
      subst hR'
      rw [hg]
      dsimp only
      rw [if_pos rfl, List.mem_cons, ih b' c1 R d c2 c3 (by simp at hf ⊢; omega), List.mem_cons]
      constructor
      · rintro (h | h | ⟨-, h⟩ | h)
        · exact Or.inl (Or.inl h)
        · exact Or.inl (Or.inr h)
        · exact Or.inl (Or.inl h)
        · exact Or.inr (Or.inr h)
      · rintro ((h | h) | ⟨h, -⟩ | h)
        · exact Or.inl h
        · exact Or.inr (Or.inl h)
        · simp at h
        · exact Or.inr (Or.inr (Or.inr h))

theorem length_lex (w : Nat) : ∀ (s : Int) (m : Nat), (lex w s m).length = w.choose m := by
  induction w with
  | zero => intro s m; cases m <;> simp [lex]
  | succ w ih => intro s m; cases m <;> simp [lex, ih, Nat.choose_succ_succ]

theorem length_later (a b : Nat) : ∀ k, b + k = a → (later a a b).length = ((List.range' (b + 1) k).map a.choose).sum := by
  intro k hk
  rw [later, List.length_flatMap, show a - b = k by omega]
  simp [length_lex]

theorem sum_range'_choose (a : Nat) : ∀ k, ((List.range' 1 k).map a.choose).sum + 1 = ∑ m ∈ Finset.range (k + 1), a.choose m := by
  intro k
  induction k with
  | zero => simp
  | succ k ih =>
    rw [Finset.sum_range_succ, ← ih, List.range'_concat]
    simp [Nat.add_comm 1 k]
    omega

theorem length_later_zero (a : Nat) : (later a a 0).length + 1 = 2 ^ a := by
  rw [length_later a 0 a (by omega), sum_range'_choose, Nat.sum_range_choose]

theorem lex_single (a k : Nat) (h0 : 0 < k) (hk : k ≤ a) : lex a 0 k = [ramp 0 k] ↔ k = a := by
  constructor
  · intro h
    have := length_lex a 0 k
    rw [h] at this
    simp at this
    have := (Nat.choose_eq_one_iff).1 this.symm
    omega
  · rintro rfl
    obtain ⟨tl, e, -⟩ := lex_trav k 0 k (le_refl _)
    have h2 := length_lex k 0 k
    rw [e] at h2 ⊢
    simp at h2
    simp [h2]

theorem mem_seenOf (m : Nat) (c : List Int) : c ∈ seenOf m ↔
    c.Pairwise (· < ·) ∧ (∀ x ∈ c, 0 ≤ x ∧ x < m) ∧ (c ≠ ramp 0 c.length ∨ c.length = 0 ∨ c.length = m) := by
  have e : (Gen.DGen.init m (some m)).next = some (some [], ⟨m, 0, m, (m : Int) - (0 : Nat), [], true⟩) := by
    simp [DGen.init, DGen.next, scan, initLocal]
  have hf : (([] : List (List Int)) ++ later m m 0).length < 2 ^ m + 1 := by
    rw [List.nil_append]; have := length_later_zero m; omega
  unfold seenOf
  rw [e]
  dsimp only
  rw [seen_mem m c (2 ^ m + 1) 0 (by omega) [] [] (by simp) (by simp [Trav, nxt]) hf]
  simp only [List.not_mem_nil, true_and, false_or]
  constructor
  · rintro (rfl | ⟨k, h1, h2, h3, h4⟩)
    · simp
    · obtain ⟨e1, e2, e3⟩ := (mem_lex _ _ _ _).1 h3
      subst e1
      refine ⟨e2, fun x hx => by have := e3 x hx; omega, ?_⟩
      rcases h4 with h4 | h4
      · exact Or.inl h4
      · exact Or.inr (Or.inr ((lex_single _ _ h1 h2).1 h4))
  · rintro ⟨h1, h2, h3⟩
    rcases Nat.eq_zero_or_pos c.length with h0 | h0
    · exact Or.inl (List.length_eq_zero_iff.1 h0)
    · right
      have hm : c ∈ lex m 0 c.length := (mem_lex _ _ _ _).2 ⟨rfl, h1, fun x hx => by have := h2 x hx; omega⟩
      have hk : c.length ≤ m := by
        by_contra hh
        rw [lex_nil 0 (by omega)] at hm
        simp at hm
      refine ⟨c.length, h0, hk, hm, ?_⟩
      rcases h3 with h3 | h3 | h3
      · exact Or.inl h3
      · omega
      · exact Or.inr ((lex_single _ _ h0 hk).2 h3)

theorem pick_shift (v : Fin n) (pd : List (Fin n)) : ∀ ix : List Int, (∀ x ∈ ix, 0 ≤ x) → pick (v :: pd) (ix.map (· + 1)) = pick pd ix := by
  intro ix h
  unfold pick
  rw [List.filterMap_map]
  apply List.filterMap_congr
  intro x hx
  have := h x hx
  simp only [Function.comp]
  rw [show (x + 1).toNat = x.toNat + 1 by omega]
  rfl

theorem pick_zero (v : Fin n) (pd : List (Fin n)) (ix : List Int) : pick (v :: pd) (0 :: ix) = v :: pick (v :: pd) ix := by
  simp [pick]

theorem exists_pick {S pd : List (Fin n)} (h : S.Sublist pd) : ∃ ix : List Int, ix.Pairwise (· < ·) ∧
    (∀ x ∈ ix, 0 ≤ x ∧ x < pd.length) ∧ pick pd ix = S := by
  induction h with
  | slnil => exact ⟨[], by simp, by simp, by simp [pick]⟩
  | @cons S pd v h ih =>
    obtain ⟨ix, h1, h2, h3⟩ := ih
    refine ⟨ix.map (· + 1), ?_, ?_, ?_⟩
    · rw [List.pairwise_map]; exact h1.imp (by intros; omega)
    · simp only [List.mem_map]; rintro x ⟨y, hy, rfl⟩; have := h2 y hy; simp; omega
    · rw [pick_shift _ _ _ fun x hx => (h2 x hx).1, h3]
  | @cons_cons S pd v h ih =>
    obtain ⟨ix, h1, h2, h3⟩ := ih
    refine ⟨0 :: ix.map (· + 1), ?_, ?_, ?_⟩
    · rw [List.pairwise_cons, List.pairwise_map]
      refine ⟨?_, h1.imp (by intros; omega)⟩
      simp only [List.mem_map]; rintro x ⟨y, hy, rfl⟩; have := h2 y hy; omega
    · simp only [List.mem_cons, List.mem_map]; rintro x (rfl | ⟨y, hy, rfl⟩)
      · simp
      · have := h2 y hy; simp; omega
    · rw [pick_zero, pick_shift _ _ _ fun x hx => (h2 x hx).1, h3]

theorem pick_length {pd : List (Fin n)} {ix : List Int} (h : ∀ x ∈ ix, 0 ≤ x ∧ x < pd.length) : (pick pd ix).length = ix.length := by
  induction ix with
  | nil => rfl
  | cons x ix ih =>
    have hx := h x (by simp)
    have hl : x.toNat < pd.length := by omega
    have := ih fun y hy => h y (by simp [hy])
    unfold pick at this ⊢
    rw [List.filterMap_cons, List.getElem?_eq_getElem hl]
    simp [this]

theorem pick_getElem {pd : List (Fin n)} : ∀ {ix : List Int} (_ : ∀ x ∈ ix, 0 ≤ x ∧ x < pd.length) (j : Nat) (hj : j < ix.length),
    (pick pd ix)[j]? = pd[ix[j].toNat]? := by
  intro ix
  induction ix with
  | nil => intro _ j hj; simp at hj
  | cons x ix ih =>
    intro h j hj
    have hx := h x (by simp)
    have hl : x.toNat < pd.length := by omega
    have e : pick pd (x :: ix) = pd[x.toNat] :: pick pd ix := by
      unfold pick
      rw [List.filterMap_cons, List.getElem?_eq_getElem hl]
    rw [e]
    cases j with
    | zero => simp [hl]
    | succ j => simpa using ih (fun y hy => h y (by simp [hy])) j (by simpa using hj)

theorem pick_ramp {pd : List (Fin n)} (hn : pd.Nodup) {ix : List Int} (h : ∀ x ∈ ix, 0 ≤ x ∧ x < pd.length) :
    pick pd ix = pd.take ix.length ↔ ix = ramp 0 ix.length := by
  have hle : ∀ j, j < ix.length → ix[j]?.map (fun x : Int => pd[x.toNat]?) = some ((pick pd ix)[j]?) := by
    intro j hj
    rw [pick_getElem h j hj, List.getElem?_eq_getElem hj]; rfl
  constructor
  · intro he
    apply List.ext_getElem (by rw [length_ramp])
    intro j hj hj'
    have h1 := pick_getElem h j hj
    have hx := h ix[j] (List.getElem_mem hj)
    rw [he, List.getElem?_take_of_lt hj] at h1
    have hl : ix[j].toNat < pd.length := by omega
    have hj2 : j < pd.length := by
      by_contra hc
      rw [List.getElem?_eq_none (by omega), List.getElem?_eq_getElem hl] at h1
      simp at h1
    have := (List.getElem?_inj hj2 hn).1 h1
    simp [ramp]
    omega
  · intro he
    apply List.ext_getElem?
    intro j
    rcases Nat.lt_or_ge j ix.length with hj | hj
    · rw [pick_getElem h j hj, List.getElem?_take_of_lt hj]
      have : ix[j] = (j : Int) := by
        have h2 : ix[j]? = (ramp 0 ix.length)[j]? := by rw [← he]
        rw [List.getElem?_eq_getElem hj] at h2
        simpa [ramp, hj] using h2
      rw [this]; simp
    · rw [List.getElem?_eq_none (by rw [pick_length h]; exact hj), List.getElem?_eq_none (by simp; omega)]

theorem pick_sublist {pd : List (Fin n)} : ∀ {ix : List Int}, ix.Pairwise (· < ·) → (∀ x ∈ ix, 0 ≤ x ∧ x < pd.length) → (pick pd ix).Sublist pd := by
  induction pd with
  | nil =>
    intro ix _ h2
    cases ix with
    | nil => simp [pick]
    | cons x ix => have := h2 x (by simp); simp at this; omega
  | cons v pd ih =>
    have key : ∀ ix : List Int, ix.Pairwise (· < ·) → (∀ x ∈ ix, 0 < x ∧ x < (v :: pd).length) → (pick (v :: pd) ix).Sublist pd := by
      intro ix h1 h2
      have e : ix = (ix.map (· - 1)).map (· + 1) := by simp [Function.comp_def]
      rw [e, pick_shift]
      · apply ih
        · rw [List.pairwise_map]; exact h1.imp (by intros; omega)
        · simp only [List.mem_map]; rintro x ⟨y, hy, rfl⟩; have := h2 y hy; simp at this; omega
      · simp only [List.mem_map]; rintro x ⟨y, hy, rfl⟩; have := h2 y hy; omega
    intro ix h1 h2
    cases ix with
    | nil => simp [pick]
    | cons x ix =>
      rw [List.pairwise_cons] at h1
      rcases eq_or_ne x 0 with rfl | hx
      · rw [pick_zero]
        exact (key ix h1.2 fun y hy => ⟨h1.1 y hy, (h2 y (by simp [hy])).2⟩).cons_cons _
      · have hx0 := h2 x (by simp)
        refine (key (x :: ix) (List.pairwise_cons.2 h1) fun y hy => ⟨?_, (h2 y hy).2⟩).cons _
        rcases List.mem_cons.1 hy with rfl | hy
        · omega
        · have := h1.1 y hy; omega

/-- The conditioning sets read by the loop: the sublists of `pd`, except its proper nonempty prefixes. -/
theorem mem_tested {pd : List (Fin n)} (hn : pd.Nodup) (S : List (Fin n)) : S ∈ (seenOf pd.length).map (pick pd) ↔
    S.Sublist pd ∧ (S.IsPrefix pd → S = [] ∨ S = pd) := by
  simp only [List.mem_map, mem_seenOf]
  constructor
  · rintro ⟨ix, ⟨h1, h2, h3⟩, rfl⟩
    refine ⟨pick_sublist h1 h2, fun hp => ?_⟩
    have hl := pick_length h2
    have : pick pd ix = pd.take ix.length := by rw [← hl]; exact List.prefix_iff_eq_take.1 hp
    rcases h3 with h3 | h3 | h3
    · exact absurd ((pick_ramp hn h2).1 this) h3
    · left; rw [← List.length_eq_zero_iff]; omega
    · right; rw [this, h3, List.take_length]
  · rintro ⟨h1, h2⟩
    obtain ⟨ix, i1, i2, rfl⟩ := exists_pick h1
    refine ⟨ix, ⟨i1, i2, ?_⟩, rfl⟩
    have hl := pick_length i2
    by_cases hr : ix = ramp 0 ix.length
    · have := (pick_ramp hn i2).2 hr
      right
      rcases h2 (by rw [this]; exact List.take_prefix _ _) with h | h
      · left; rw [h] at hl; simpa using hl.symm
      · right; rw [h] at hl; exact hl.symm
    · exact Or.inl hr

theorem possibleDsep_nodup {env : FciEnv n} (he : env.Ok) (G : GG n) (x y : Fin n) (m : Int) : (possibleDsep env G x y m).Nodup := by
  unfold possibleDsep
  exact (he.sorted _).nodup_iff.2 ((List.nodup_finRange n).filter _)

/-- In words: a set the loop of `removeByPossibleDsep` is meant to consider: at least two members, not all neighbours of `a`, not all
neighbours of `b`. -/
def Considered (G : GG n) (a b : Fin n) (S : List (Fin n)) : Prop := 2 ≤ S.length ∧
  (∃ v ∈ S, G.isAdj a v = false) ∧ ∃ v ∈ S, G.isAdj b v = false

theorem testable_iff {G : GG n} (h : G.Pag) (a b : Fin n) (S : List (Fin n)) : testable G a b S = true ↔ Considered G a b S := by
  have key : ∀ a v, (v ∈ G.adjacentNodes a) ↔ G.isAdj a v = true := by
    intro a v
    rw [mem_adjacentNodes h, isAdj_iff h]
    exact ⟨adj_symm h, adj_symm h⟩
  simp only [testable, Considered, key, Bool.and_eq_true, Bool.not_eq_true', decide_eq_false_iff_not, Nat.not_lt, and_assoc]
  simp only [List.all_eq_false, decide_eq_true_eq, Bool.not_eq_true]

/-- **C29 (which sets are tested).** Over a list `pd` of different nodes the search for a separating set of `a`, `b` returns a considered
sublist of `pd` judged independent; if it returns nothing then all considered sublists of `pd`, except its proper prefixes, were judged
dependent. -/
theorem C29_search_partial (env : FciEnv n) {G : GG n} (h : G.Pag) (a b : Fin n) {pd : List (Fin n)} (hn : pd.Nodup) :
    (∀ S, findSep env G a b pd = some S → S.Sublist pd ∧ Considered G a b S ∧ env.ind a b S = true) ∧
    (findSep env G a b pd = none → ∀ S, S.Sublist pd → Considered G a b S → (S.IsPrefix pd → S = pd) → env.ind a b S = false) := by
  unfold findSep
  constructor
  · intro S hS
    have h1 := List.find?_some hS
    have h2 := ((mem_tested hn S).1 (List.mem_of_find?_eq_some hS)).1
    simp only [Bool.and_eq_true] at h1
    exact ⟨h2, (testable_iff h a b S).1 h1.1, h1.2⟩
  · intro hN S h1 h2 h3
    rw [List.find?_eq_none] at hN
    have := hN S ((mem_tested hn S).2 ⟨h1, fun hp => Or.inr (h3 hp)⟩)
    rw [(testable_iff h a b S).2 h2] at this
    simpa using this

/-- **C29 (partial).** Processing the edge `a–b` of a graph: if the edge is still there afterwards then every considered set from
Possible-D-SEP of `a`, and from that of `b`, that is not a proper prefix of the sorted list was judged dependent; if it has gone, a
considered subset of one of the two was judged independent, and it is what is recorded for `(a, b)`. Missing: the proper prefixes. -/
theorem C29_every_set_partial {env : FciEnv n} (he : env.Ok) {G : GG n} (hG : G.Pag) (ss : SSet n) {e : Edge n} (hmem : e ∈ G.graphEdges)
    (hcon : G.containsEdge e = true) :
    ((pdsepStep env (G, ss) e).1.isAdj e.node1 e.node2 = true → ∀ S,
        (S.Sublist (possibleDsep env G e.node1 e.node2 (-1)) ∧ (S.IsPrefix (possibleDsep env G e.node1 e.node2 (-1)) → S = possibleDsep env G e.node1 e.node2 (-1)) ∨
         S.Sublist (possibleDsep env G e.node2 e.node1 (-1)) ∧ (S.IsPrefix (possibleDsep env G e.node2 e.node1 (-1)) → S = possibleDsep env G e.node2 e.node1 (-1))) →
        Considered G e.node1 e.node2 S → env.ind e.node1 e.node2 S = false) ∧
    ((pdsepStep env (G, ss) e).1.isAdj e.node1 e.node2 = false → ∃ S,
        (S.Sublist (possibleDsep env G e.node1 e.node2 (-1)) ∨ S.Sublist (possibleDsep env G e.node2 e.node1 (-1))) ∧
        Considered G e.node1 e.node2 S ∧ env.ind e.node1 e.node2 S = true ∧ (pdsepStep env (G, ss) e).2 e.node1 e.node2 = some S) := by
  obtain ⟨i, j, hij, rfl⟩ : ∃ i j, G.g i j ≠ .null ∧ e = mkEdge i j (G.g i j) (G.g j i) := by
    rw [graphEdges_eq hG.wf hG.simple] at hmem
    simp only [List.mem_map, List.mem_filter, bne_iff_ne] at hmem
    obtain ⟨p, ⟨-, h2⟩, h3⟩ := hmem
    exact ⟨p.1, p.2, h2, h3.symm⟩
  have hne := ne_of_adj hG hij
  have hr := remove_g hG hij
  have hnd : ((mkEdge i j (G.g i j) (G.g j i)).node1 = i ∧ (mkEdge i j (G.g i j) (G.g j i)).node2 = j) ∨
      ((mkEdge i j (G.g i j) (G.g j i)).node1 = j ∧ (mkEdge i j (G.g i j) (G.g j i)).node2 = i) := by
    unfold mkEdge; split <;> simp
  generalize mkEdge i j (G.g i j) (G.g j i) = e at *
  have q3 : (G.removeEdge e).g i j = .null := by rw [hr]; exact set2_left
  have q4 : (G.removeEdge e).g j i = .null := by rw [hr]; exact set2_right hne
  have hrem : (G.removeEdge e).g e.node1 e.node2 = .null ∧ (G.removeEdge e).g e.node2 e.node1 = .null := by
    rcases hnd with ⟨a1, a2⟩ | ⟨a1, a2⟩ <;> rw [a1, a2]
    · exact ⟨q3, q4⟩
    · exact ⟨q4, q3⟩
  have hadj : G.isAdj e.node1 e.node2 = true := by
    rw [isAdj_iff hG]
    rcases hnd with ⟨a1, a2⟩ | ⟨a1, a2⟩ <;> rw [a1, a2]
    · exact hij
    · exact adj_symm hG hij
  have hnot : (G.removeEdge e).containsEdge e = false := by
    unfold containsEdge
    rw [hrem.1, hrem.2]
    cases e.end1 <;> cases e.end2 <;> rfl
  have hnadj : (G.removeEdge e).isAdj e.node1 e.node2 = false := by simp [isAdj, hrem.2]
  obtain ⟨a1, a2⟩ := C29_search_partial env hG e.node1 e.node2 (possibleDsep_nodup he G e.node1 e.node2 (-1))
  obtain ⟨b1, b2⟩ := C29_search_partial env hG e.node1 e.node2 (possibleDsep_nodup he G e.node2 e.node1 (-1))
  cases hA : findSep env G e.node1 e.node2 (possibleDsep env G e.node1 e.node2 (-1)) with
  | some S =>
    have hh : pdsepHalf env (G, ss) e = (G.removeEdge e, upd ss e.node1 e.node2 (some S)) := by
      simp [pdsepHalf, pdsepTry, hA]
    have hs : pdsepStep env (G, ss) e = (G.removeEdge e, upd ss e.node1 e.node2 (some S)) := by
      simp [pdsepStep, hh, hnot]
    rw [hs]
    obtain ⟨c1, c2, c3⟩ := a1 S hA
    exact ⟨fun h => by simp [hnadj] at h, fun _ => ⟨S, Or.inl c1, c2, c3, by simp [upd]⟩⟩
  | none =>
    have hh : pdsepHalf env (G, ss) e = (G, ss) := by simp [pdsepHalf, pdsepTry, hA]
    cases hB : findSep env G e.node1 e.node2 (possibleDsep env G e.node2 e.node1 (-1)) with
    | some S =>
      have hs : pdsepStep env (G, ss) e = (G.removeEdge e, upd ss e.node1 e.node2 (some S)) := by
        simp [pdsepStep, hh, hcon, pdsepTry, hB]
      rw [hs]
      obtain ⟨c1, c2, c3⟩ := b1 S hB
      exact ⟨fun h => by simp [hnadj] at h, fun _ => ⟨S, Or.inr c1, c2, c3, by simp [upd]⟩⟩
    | none =>
      have hs : pdsepStep env (G, ss) e = (G, ss) := by simp [pdsepStep, hh, hcon, pdsepTry, hB]
      rw [hs]
      refine ⟨fun _ S hS hc => ?_, fun h => by simp [hadj] at h⟩
      rcases hS with ⟨s1, s2⟩ | ⟨s1, s2⟩
      · exact a2 hA S s1 hc s2
      · exact b2 hB S s1 hc s2

theorem elim_decide {α : Type} {o : Option α} {P : α → Prop} [DecidablePred P] (h : (o.elim false fun a => decide (P a)) = true) :
    ∃ a, o = some a ∧ P a := by
  cases o with
  | none => simp at h
  | some a => exact ⟨a, rfl, by simpa using h⟩

end Fci

open Fci

/-- The hypotheses are met by the first edge of `0 ↔ 1 ↔ 2 ↔ 3 ↔ 4`. -/
example : bidirChain.Pag ∧ (exEnv (fun _ _ _ => true) (Know.none : Know 5)).Ok ∧
    mkEdge 0 1 .arrow .arrow ∈ bidirChain.graphEdges ∧ bidirChain.containsEdge (mkEdge 0 1 .arrow .arrow) = true :=
  ⟨bidirChain_pag, exEnv_ok _ _, by decide, by decide⟩

/-- `0 – 1` are separated by `{4, 5}` only; `0 – 4` by sets with 2 and without 5, `1 – 5` by sets with 3 and without 4. -/
def pfInd : CI 6 := fun x y S =>
  let p := fun a b : Fin 6 => (x = a ∧ y = b) ∨ (x = b ∧ y = a)
  if p 0 1 then decide (4 ∈ S ∧ 5 ∈ S ∧ 2 ∉ S ∧ 3 ∉ S) else if p 0 4 then decide (2 ∈ S ∧ 5 ∉ S)
  else if p 1 5 then decide (3 ∈ S ∧ 4 ∉ S) else !decide (p 0 5 ∨ p 5 4 ∨ p 1 4 ∨ p 0 2 ∨ p 2 4 ∨ p 1 3 ∨ p 3 5)

/-- **C29 violated.** A proper prefix of the sorted Possible-D-SEP list is never tested: the generator returns one list object that the next
call overwrites, and the loop calls `next()` before reading it. Here Possible-D-SEP of 0 is `[5, 4, 2]` and that of 1 is `[5, 4, 3]`,
0 and 1 are independent given `{5, 4}`, which is to be considered, and yet `fci` keeps the edge. With the same answers but node names
that sort the other way round the edge is removed. -/
theorem C29_prefix_never_tested_violated :
    (∀ (pd S : List (Fin n)), pd.Nodup → S.IsPrefix pd → S ≠ [] → S ≠ pd → S ∉ (seenOf pd.length).map (pick pd)) ∧
    (∃ s, fas true pfInd Know.none none = some s ∧
      possibleDsep (exEnv pfInd Know.none) (rule0 Know.none s.2 (reorientAll .circle s.1)) 0 1 (-1) = [5, 4, 2] ∧
      possibleDsep (exEnv pfInd Know.none) (rule0 Know.none s.2 (reorientAll .circle s.1)) 1 0 (-1) = [5, 4, 3] ∧
      Considered (rule0 Know.none s.2 (reorientAll .circle s.1)) 0 1 [5, 4]) ∧
    pfInd 0 1 [5, 4] = true ∧
    (∃ H, fci (exEnv pfInd Know.none) none = some H ∧ H.isAdj 0 1 = true) ∧
    (∃ H, fci ⟨pfInd, Know.none, false, -1, id, id⟩ none = some H ∧ H.isAdj 0 1 = false) := by
  refine ⟨?_, ?_, by decide, ?_, ?_⟩
  · intro pd S hn hp h1 h2 hm
    rcases ((mem_tested hn S).1 hm).2 hp with h | h
    · exact h1 h
    · exact h2 h
  · have d : ((fas true pfInd Know.none none).elim false fun s =>
      decide (possibleDsep (exEnv pfInd Know.none) (rule0 Know.none s.2 (reorientAll .circle s.1)) 0 1 (-1) = [5, 4, 2] ∧
      possibleDsep (exEnv pfInd Know.none) (rule0 Know.none s.2 (reorientAll .circle s.1)) 1 0 (-1) = [5, 4, 3] ∧
      (rule0 Know.none s.2 (reorientAll .circle s.1)).isAdj 0 4 = false ∧ (rule0 Know.none s.2 (reorientAll .circle s.1)).isAdj 1 5 = false)) = true := by
      decide +kernel
    obtain ⟨s, hs, d1, d2, d3, d4⟩ := elim_decide d
    exact ⟨s, hs, d1, d2, by decide, ⟨4, by decide, d3⟩, ⟨5, by decide, d4⟩⟩
  · exact elim_decide (P := fun H : GG 6 => H.isAdj 0 1 = true) (by decide +kernel)
  · exact elim_decide (P := fun H : GG 6 => H.isAdj 0 1 = false) (by decide +kernel)

end CL
