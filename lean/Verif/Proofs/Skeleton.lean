import Verif.Model.Skeleton
import Verif.Props.GraphQueries

/-!
# Lemmas about the skeleton phase
-/
namespace CL
open GG
variable {n : Nat}

theorem combos_mem {α : Type} (l : List α) (d : Nat) (S : List α) :
    S ∈ combos l d ↔ S.Sublist l ∧ S.length = d := by
  induction l generalizing d S with
  | nil =>
    cases d with
    | zero => simp [combos]
    | succ d =>
      simp only [combos, List.not_mem_nil, List.sublist_nil, false_iff]
      rintro ⟨rfl, h⟩; simp at h
  | cons a l ih =>
    cases d with
    | zero => simp [combos]; rintro rfl; simp
    | succ d =>
      simp only [combos, List.mem_append, List.mem_map, ih]
      constructor
      · rintro (⟨T, ⟨h1, h2⟩, rfl⟩ | ⟨h1, h2⟩)
        · exact ⟨h1.cons_cons a, by simp [h2]⟩
        · exact ⟨h1.cons a, h2⟩
      · rintro ⟨h1, h2⟩
        rcases List.sublist_cons_iff.1 h1 with h | ⟨T, rfl, h⟩
        · exact Or.inr ⟨h, h2⟩
        · exact Or.inl ⟨T, ⟨h, by simpa using h2⟩, rfl⟩

/-- A graph with only undirected edges, symmetric, without self-loops. -/
structure Und (G : GG n) : Prop where
  mark : ∀ a b, G.g a b = .null ∨ G.g a b = .tail
  symm : ∀ a b, G.g a b = G.g b a
  diag : ∀ a, G.g a a = .null

theorem removeIfEdge_g {G : GG n} (hu : Und G) (x y a b : Fin n) :
    (G.removeIfEdge x y).g a b = if (a = x ∧ b = y) ∨ (a = y ∧ b = x) then .null else G.g a b := by
  have hs := hu.symm x y
  have hab := hu.symm a b
  unfold removeIfEdge getEdge
  rcases hu.mark x y with h | h
  · rw [if_pos h]
    change G.g a b = _
    split
    · rename_i hc
      rcases hc with ⟨rfl, rfl⟩ | ⟨rfl, rfl⟩
      · exact h
      · rw [← hs]; exact h
    · rfl
  · rw [h] at hs
    rw [if_neg (by simp [h])]
    have h2 : G.g y x = .tail := hs.symm
    simp [removeEdge, mkEdge, pointingLeft, h, h2, isParentOf, upd_apply]
    grind

theorem removeIfEdge_dp {G : GG n} (hu : Und G) (x y : Fin n) : (G.removeIfEdge x y).dp = G.dp := by
  have hs := hu.symm x y
  unfold removeIfEdge getEdge
  rcases hu.mark x y with h | h
  · rw [if_pos h]
  · rw [h] at hs
    rw [if_neg (by simp [h])]
    have h2 : G.g y x = .tail := hs.symm
    simp [removeEdge, mkEdge, pointingLeft, h, h2, isParentOf]

theorem removeIfEdge_und {G : GG n} (hu : Und G) (x y : Fin n) : Und (G.removeIfEdge x y) := by
  constructor
  · intro a b; rw [removeIfEdge_g hu]; split
    · simp
    · exact hu.mark a b
  · intro a b; rw [removeIfEdge_g hu, removeIfEdge_g hu, hu.symm a b]; grind
  · intro a; rw [removeIfEdge_g hu]; split
    · rfl
    · exact hu.diag a

theorem removeAll_spec (ps : List (Fin n × Fin n)) {G : GG n} (hu : Und G) :
    Und (ps.foldl (fun G p => G.removeIfEdge p.1 p.2) G) ∧
    (ps.foldl (fun G p => G.removeIfEdge p.1 p.2) G).dp = G.dp ∧
    ∀ a b, (ps.foldl (fun G p => G.removeIfEdge p.1 p.2) G).g a b ≠ .null ↔
      G.g a b ≠ .null ∧ (a, b) ∉ ps ∧ (b, a) ∉ ps := by
  induction ps generalizing G with
  | nil => simp [hu]
  | cons p ps ih =>
    obtain ⟨h1, h2, h3⟩ := ih (removeIfEdge_und hu p.1 p.2)
    refine ⟨h1, h2.trans (removeIfEdge_dp hu _ _), ?_⟩
    intro a b
    rw [List.foldl_cons, h3, removeIfEdge_g hu]
    obtain ⟨p1, p2⟩ := p
    simp only [List.mem_cons, Prod.mk.injEq]
    by_cases hc : (a = p1 ∧ b = p2) ∨ (a = p2 ∧ b = p1)
    · rw [if_pos hc]; grind
    · rw [if_neg hc]; grind

theorem empty_dp (a b : Fin n) : (GG.empty n).dp a b = decide (a = b) := by
  have key : ∀ (l : List (Fin n)) (G : GG n), (∀ a b, G.dp a b = true → a = b) →
      (∀ a b, (l.foldl (fun H i => H.adjustDpath i i) G).dp a b = true ↔ (G.dp a b = true ∨ (a = b ∧ a ∈ l))) := by
    intro l
    induction l with
    | nil => simp
    | cons i l ih =>
      intro G hG a b
      have hstep : ∀ a b, (G.adjustDpath i i).dp a b = true ↔ (G.dp a b = true ∨ (a = i ∧ b = i)) := by
        intro a b
        have hgen : ∀ (l : List (Fin n)) (dp : Fin n → Fin n → Bool), dp i i = true → (∀ a b, dp a b = true → a = b) →
            l.foldl (adjustStep i i) dp = dp := by
          intro l
          induction l with
          | nil => simp
          | cons k l ih2 =>
            intro dp h1 h2
            have : adjustStep i i dp k = dp := by
              unfold adjustStep
              have e1 := h2 i k
              have e2 := h2 k i
              have hup : ∀ a b, dp a b = true → upd dp a b true = dp := by
                intro a b hab
                funext u v
                simp only [upd]
                grind
              by_cases hk : dp i k = true
              · have hik := e1 hk
                subst hik
                simp [h1, hup]
              · have hk' : ¬ dp k i = true := fun h => hk (by rw [e2 h]; exact h1)
                simp [hk, hk']
            rw [List.foldl_cons, this, ih2 dp h1 h2]
        unfold adjustDpath
        simp only
        rw [hgen _ _ (by simp) (by intro u v; simp only [upd]; have := hG u v; grind)]
        simp only [upd]; grind
      rw [List.foldl_cons, ih _ (by intro u v h; rcases (hstep u v).1 h with h | h; exact hG u v h; rw [h.1, h.2])]
      rw [hstep]
      simp only [List.mem_cons]
      grind
  unfold GG.empty reconstituteDpath
  simp only [List.reverse_nil, List.foldl_nil]
  have := key (List.finRange n) ⟨fun _ _ => .null, fun _ _ => false⟩ (by simp) a b
  simp only [List.mem_finRange, and_true] at this
  by_cases h : a = b
  · subst h; simp at this; simp [this]
  · have h2 : ¬ _ := fun hh => h (by simpa using this.1 hh)
    simp only [h, decide_false]
    simpa using h2

theorem complete_spec : Und (GG.complete n) ∧ (∀ a b, (GG.complete n).g a b ≠ .null ↔ a ≠ b) ∧
    ∀ a b, (GG.complete n).dp a b = decide (a = b) := by
  have key : ∀ (ps : List (Fin n × Fin n)) (G : GG n), Und G → (∀ p ∈ ps, p.1 ≠ p.2) →
      (∀ p ∈ ps, G.g p.1 p.2 = .null) → ps.Nodup → (∀ p ∈ ps, (p.2, p.1) ∉ ps) →
      let H := ps.foldl (fun G p => (G.addEdge (mkEdge p.1 p.2 .tail .tail)).2) G
      Und H ∧ H.dp = G.dp ∧ ∀ a b, H.g a b ≠ .null ↔ G.g a b ≠ .null ∨ (a, b) ∈ ps ∨ (b, a) ∈ ps := by
    intro ps
    induction ps with
    | nil => intro G hu; simp [hu]
    | cons p ps ih =>
      intro G hu h1 h2 h3 h4
      obtain ⟨p1, p2⟩ := p
      have hne : p1 ≠ p2 := h1 (p1, p2) (by simp)
      have hnull : G.g p1 p2 = .null := h2 (p1, p2) (by simp)
      have hnull' : G.g p2 p1 = .null := by rw [← hu.symm]; exact hnull
      have hadd : (G.addEdge (mkEdge p1 p2 .tail .tail)).2 = (G.setG p2 p1 .tail).setG p1 p2 .tail := by
        simp [addEdge, mkEdge, pointingLeft, hnull, hnull']
      have hg : ∀ a b, ((G.setG p2 p1 .tail).setG p1 p2 .tail).g a b =
          if (a = p1 ∧ b = p2) ∨ (a = p2 ∧ b = p1) then .tail else G.g a b := by
        intro a b
        simp only [setG_g, upd]
        grind
      have hu' : Und ((G.setG p2 p1 .tail).setG p1 p2 .tail) := by
        constructor
        · intro a b; rw [hg]; split
          · simp
          · exact hu.mark a b
        · intro a b; rw [hg, hg, hu.symm a b]; grind
        · intro a; rw [hg, if_neg (by grind)]; exact hu.diag a
      have hn' : ∀ q ∈ ps, ((G.setG p2 p1 .tail).setG p1 p2 .tail).g q.1 q.2 = .null := by
        intro q hq
        rw [hg, if_neg, h2 q (by simp [hq])]
        rintro (⟨ha, hb⟩ | ⟨ha, hb⟩)
        · have : q = (p1, p2) := Prod.ext ha hb
          rw [List.nodup_cons] at h3
          exact h3.1 (this ▸ hq)
        · have : q = (p2, p1) := Prod.ext ha hb
          exact h4 (p1, p2) (by simp) (by simp [← this, hq])
      obtain ⟨r1, r2, r3⟩ := ih _ hu' (fun q hq => h1 q (by simp [hq])) hn' (List.nodup_cons.1 h3).2
        (fun q hq hq' => h4 q (by simp [hq]) (by simp [hq']))
      simp only [List.foldl_cons, hadd]
      refine ⟨r1, r2, ?_⟩
      intro a b
      rw [r3, hg]
      simp only [List.mem_cons, Prod.mk.injEq]
      by_cases hc : (a = p1 ∧ b = p2) ∨ (a = p2 ∧ b = p1)
      · rw [if_pos hc]; grind
      · rw [if_neg hc]; grind
  have hE : Und (GG.empty n) := ⟨by simp, by simp, by simp⟩
  obtain ⟨h1, h2, h3⟩ := key (upperPairs n) (GG.empty n) hE
    (fun p hp => ne_of_lt ((mem_upperPairs p.1 p.2).1 hp)) (by simp) nodup_upperPairs
    (fun p hp hp' => by
      have := (mem_upperPairs p.1 p.2).1 hp
      have := (mem_upperPairs p.2 p.1).1 hp'
      exact absurd this (not_lt_of_gt ‹p.1 < p.2›))
  refine ⟨h1, ?_, ?_⟩
  · intro a b
    unfold GG.complete
    rw [h3]
    simp only [empty_g, ne_eq, not_true_eq_false, false_or, mem_upperPairs]
    exact ne_iff_lt_or_gt.symm
  · intro a b
    unfold GG.complete
    rw [h2]
    exact empty_dp a b

theorem mem_neighbors (G : GG n) (x y : Fin n) : y ∈ G.neighbors x ↔ G.g x y ≠ .null := by
  simp [neighbors, List.mem_finRange]

theorem nodup_neighbors (G : GG n) (x : Fin n) : (G.neighbors x).Nodup := (List.nodup_finRange n).filter _

theorem neighbors_sublist {G H : GG n} (h : ∀ a b, H.g a b ≠ .null → G.g a b ≠ .null) (x : Fin n) :
    (H.neighbors x).Sublist (G.neighbors x) := by
  unfold neighbors
  have : (List.finRange n).filter (fun y => H.g x y != .null) =
      ((List.finRange n).filter (fun y => G.g x y != .null)).filter (fun y => H.g x y != .null) := by
    rw [List.filter_filter]
    apply List.filter_congr
    intro y _
    have := h x y
    by_cases h1 : H.g x y = .null
    · simp [h1]
    · simp [h1, this h1]
  rw [this]
  exact List.filter_sublist

theorem le_foldl_max (l : List Nat) (s : Nat) : s ≤ l.foldl max s ∧ ∀ a ∈ l, a ≤ l.foldl max s := by
  induction l generalizing s with
  | nil => simp
  | cons b l ih =>
    obtain ⟨h1, h2⟩ := ih (max s b)
    simp only [List.foldl_cons]
    refine ⟨le_trans (le_max_left _ _) h1, ?_⟩
    intro a ha
    rcases List.mem_cons.1 ha with rfl | ha
    · exact le_trans (le_max_right _ _) h1
    · exact h2 a ha

theorem foldl_max_le (l : List Nat) (s m : Nat) (hs : s ≤ m) (h : ∀ a ∈ l, a ≤ m) : l.foldl max s ≤ m := by
  induction l generalizing s with
  | nil => exact hs
  | cons b l ih => exact ih _ (max_le hs (h b (by simp))) fun a ha => h a (by simp [ha])

theorem length_neighbors_le (G : GG n) (x : Fin n) : (G.neighbors x).length ≤ G.maxDegree := by
  unfold maxDegree
  apply (le_foldl_max _ 0).2
  simp only [List.mem_map]
  exact ⟨x, List.mem_finRange x, rfl⟩

theorem maxDegree_le (G : GG n) (m : Nat) (h : ∀ x, (G.neighbors x).length ≤ m) : G.maxDegree ≤ m := by
  unfold maxDegree
  apply foldl_max_le _ _ _ (Nat.zero_le _)
  intro a ha
  simp only [List.mem_map] at ha
  obtain ⟨x, -, rfl⟩ := ha
  exact h x

theorem maxDegree_le_n (G : GG n) : G.maxDegree ≤ n := by
  apply maxDegree_le
  intro x
  unfold neighbors
  exact le_trans (List.length_filter_le _ _) (by simp)

/-! ### stable mode -/

/-- tested independent (at depth `d`, from `x`'s side, with neighbourhood list `nx`) or banned by knowledge -/
def HitY (ind : CI n) (k : Know n) (d : Nat) (nx : List (Fin n)) (x y : Fin n) : Prop :=
  k.ban x y = true ∨ ∃ S ∈ combos (nx.filter (· ≠ y)) d, ind x y S = true

/-- the edge `x – y` is scheduled for removal from `x`'s side at depth `d` -/
def Hit (ind : CI n) (k : Know n) (d : Nat) (G : GG n) (x y : Fin n) : Prop :=
  y ∈ G.neighbors x ∧ ¬ (G.neighbors x).length + 1 < d ∧ HitY ind k d (G.neighbors x) x y

theorem stableTests_spec (ind : CI n) (x y : Fin n) (Ss : List (List (Fin n))) (rem : List (Fin n × Fin n)) :
    (∀ p, p ∈ (stableTests ind x y Ss rem).1 ↔
      p ∈ rem ∨ ((p = (x, y) ∨ p = (y, x)) ∧ ∃ S ∈ Ss, ind x y S = true)) ∧
    (∀ z, z ∈ (stableTests ind x y Ss rem).2 ↔ ∃ S ∈ Ss, ind x y S = true ∧ z ∈ S) := by
  unfold stableTests
  have key : ∀ (Ss : List (List (Fin n))) (a : List (Fin n × Fin n) × List (Fin n)),
      let r := Ss.foldl (fun a S => if ind x y S then (a.1 ++ [(x, y), (y, x)], a.2 ++ S) else a) a
      (∀ p, p ∈ r.1 ↔ p ∈ a.1 ∨ ((p = (x, y) ∨ p = (y, x)) ∧ ∃ S ∈ Ss, ind x y S = true)) ∧
      (∀ z, z ∈ r.2 ↔ z ∈ a.2 ∨ ∃ S ∈ Ss, ind x y S = true ∧ z ∈ S) := by
    intro Ss
    induction Ss with
    | nil => simp
    | cons S Ss ih =>
      intro a
      simp only [List.foldl_cons]
      by_cases h : ind x y S = true
      · rw [if_pos h]
        obtain ⟨h1, h2⟩ := ih (a.1 ++ [(x, y), (y, x)], a.2 ++ S)
        refine ⟨fun p => ?_, fun z => ?_⟩
        · rw [h1]; simp [h]; grind
        · rw [h2]; simp [h]; grind
      · rw [if_neg h]
        obtain ⟨h1, h2⟩ := ih a
        refine ⟨fun p => ?_, fun z => ?_⟩
        · rw [h1]; simp [h]
        · rw [h2]; simp [h]
  obtain ⟨h1, h2⟩ := key Ss (rem, [])
  exact ⟨h1, fun z => by rw [h2]; simp⟩

theorem stableY_eq (ind : CI n) (k : Know n) (d : Nat) (x : Fin n) (nx : List (Fin n)) (st : SkSt n) (y : Fin n)
    (r : List (Fin n × Fin n) × List (Fin n))
    (hr : stableTests ind x y (combos (nx.filter (· ≠ y)) d)
      (if k.ban x y then st.rem ++ [(x, y), (y, x)] else st.rem) = r) :
    stableY ind k d x nx st y = ⟨st.G, appendBoth st.sep x y r.2, r.1⟩ ∨
    (stableY ind k d x nx st y = ⟨st.G, st.sep, r.1⟩ ∧ (x, y) ∉ r.1) := by
  unfold stableY
  dsimp only
  rw [hr]
  split
  · exact Or.inl rfl
  · rename_i h; exact Or.inr ⟨rfl, fun h' => h (Or.inl h')⟩

theorem stableY_rem (ind : CI n) (k : Know n) (d : Nat) (x : Fin n) (nx : List (Fin n)) (st : SkSt n) (y : Fin n) :
    (stableY ind k d x nx st y).G = st.G ∧
    ∀ p, p ∈ (stableY ind k d x nx st y).rem ↔
      p ∈ st.rem ∨ ((p = (x, y) ∨ p = (y, x)) ∧ HitY ind k d nx x y) := by
  have hr := (stableTests_spec ind x y (combos (nx.filter (· ≠ y)) d)
    (if k.ban x y then st.rem ++ [(x, y), (y, x)] else st.rem)).1
  have main : ∀ p, p ∈ (stableTests ind x y (combos (nx.filter (· ≠ y)) d)
      (if k.ban x y then st.rem ++ [(x, y), (y, x)] else st.rem)).1 ↔
      p ∈ st.rem ∨ ((p = (x, y) ∨ p = (y, x)) ∧ HitY ind k d nx x y) := by
    intro p
    rw [hr]
    unfold HitY
    by_cases hb : k.ban x y = true
    · rw [if_pos hb]; simp [hb]; grind
    · rw [if_neg hb]; simp [hb]
  rcases stableY_eq ind k d x nx st y _ rfl with h | ⟨h, -⟩
  · rw [h]; exact ⟨rfl, main⟩
  · rw [h]; exact ⟨rfl, main⟩

theorem stableX_rem (ind : CI n) (k : Know n) (d : Nat) (st : SkSt n) (x : Fin n) :
    (stableX ind k d st x).G = st.G ∧
    ∀ p, p ∈ (stableX ind k d st x).rem ↔
      p ∈ st.rem ∨ ∃ y, (p = (x, y) ∨ p = (y, x)) ∧ Hit ind k d st.G x y := by
  have key : ∀ (nx ys : List (Fin n)) (st : SkSt n),
      (ys.foldl (stableY ind k d x nx) st).G = st.G ∧
      ∀ p, p ∈ (ys.foldl (stableY ind k d x nx) st).rem ↔
        p ∈ st.rem ∨ ∃ y ∈ ys, (p = (x, y) ∨ p = (y, x)) ∧ HitY ind k d nx x y := by
    intro nx ys
    induction ys with
    | nil => simp
    | cons y ys ih =>
      intro st
      obtain ⟨h1, h2⟩ := ih (stableY ind k d x nx st y)
      obtain ⟨h3, h4⟩ := stableY_rem ind k d x nx st y
      refine ⟨h1.trans h3, fun p => ?_⟩
      rw [List.foldl_cons, h2, h4]
      simp only [List.mem_cons]
      grind
  unfold stableX Hit
  dsimp only
  split
  · rename_i hlt
    simp [hlt]
  · rename_i hlt
    obtain ⟨h1, h2⟩ := key (st.G.neighbors x) (st.G.neighbors x) st
    refine ⟨h1, fun p => ?_⟩
    rw [h2]
    simp only [hlt, not_false_eq_true, true_and]
    grind

theorem stableAll_rem (ind : CI n) (k : Know n) (d : Nat) (xs : List (Fin n)) (st : SkSt n) :
    (xs.foldl (stableX ind k d) st).G = st.G ∧
    ∀ p, p ∈ (xs.foldl (stableX ind k d) st).rem ↔
      p ∈ st.rem ∨ ∃ x ∈ xs, ∃ y, (p = (x, y) ∨ p = (y, x)) ∧ Hit ind k d st.G x y := by
  induction xs generalizing st with
  | nil => simp
  | cons x xs ih =>
    obtain ⟨h1, h2⟩ := ih (stableX ind k d st x)
    obtain ⟨h3, h4⟩ := stableX_rem ind k d st x
    refine ⟨h1.trans h3, fun p => ?_⟩
    rw [List.foldl_cons, h2, h4, h3]
    simp only [List.mem_cons]
    grind

/-- exact effect of one stable depth on the adjacencies -/
theorem stableDepth_adj (ind : CI n) (k : Know n) (d : Nat) {G : GG n} (hu : Und G) (sep : Sep n) :
    Und (stableDepth ind k d G sep).1 ∧ (stableDepth ind k d G sep).1.dp = G.dp ∧
    ∀ a b, (stableDepth ind k d G sep).1.g a b ≠ .null ↔
      G.g a b ≠ .null ∧ ¬ Hit ind k d G a b ∧ ¬ Hit ind k d G b a := by
  obtain ⟨h1, h2⟩ := stableAll_rem ind k d (List.finRange n) ⟨G, sep, []⟩
  have hu' : Und ((List.finRange n).foldl (stableX ind k d) ⟨G, sep, []⟩).G := by rw [h1]; exact hu
  obtain ⟨r1, r2, r3⟩ := removeAll_spec ((List.finRange n).foldl (stableX ind k d) ⟨G, sep, []⟩).rem hu'
  unfold stableDepth
  dsimp only
  refine ⟨r1, r2.trans (by rw [h1]), fun a b => ?_⟩
  rw [r3, h2, h2, h1]
  simp only [List.not_mem_nil, false_or, List.mem_finRange, true_and, Prod.mk.injEq]
  grind

/-! ### separating sets -/

/-- `S` is a duplicate-free set of other nodes for which the test, called on the pair in one of the two orders, declared
independence. -/
def Ind2 (ind : CI n) (x y : Fin n) (S : List (Fin n)) : Prop :=
  S.Nodup ∧ x ∉ S ∧ y ∉ S ∧ (ind x y S = true ∨ ind y x S = true)

theorem Ind2.symm {ind : CI n} {x y : Fin n} {S : List (Fin n)} (h : Ind2 ind x y S) : Ind2 ind y x S :=
  ⟨h.1, h.2.2.1, h.2.1, Or.symm h.2.2.2⟩

theorem ind2_of_combo {ind : CI n} {d : Nat} {x y : Fin n} {nx S : List (Fin n)} (hx : x ∉ nx) (hn : nx.Nodup)
    (hS : S ∈ combos (nx.filter (· ≠ y)) d) (hi : ind x y S = true) : Ind2 ind x y S := by
  have hs := ((combos_mem _ _ _).1 hS).1
  refine ⟨hs.nodup (hn.filter _), fun h => hx (List.mem_of_mem_filter (hs.subset h)), fun h => ?_, Or.inl hi⟩
  have := hs.subset h
  simp at this

/-- every node in a recorded set belongs to a set that the test declared separating -/
def SepSound (ind : CI n) (sep : Sep n) : Prop :=
  ∀ x y L, sep x y = some L → ∀ S ∈ L, ∀ z ∈ S, ∃ S', z ∈ S' ∧ Ind2 ind x y S'

/-- something is recorded for the pair, and it covers a set the test declared separating, unless the pair is banned -/
def SepGood (ind : CI n) (k : Know n) (sep : Sep n) (x y : Fin n) : Prop :=
  ∃ L, sep x y = some L ∧ ((∃ S ∈ L, ∃ S', S' ⊆ S ∧ Ind2 ind x y S') ∨ k.ban x y = true)

def SepSymm (sep : Sep n) : Prop := ∀ x y, sep x y = sep y x

theorem appendBoth_apply (s : Sep n) {x y : Fin n} (hxy : x ≠ y) (hs : SepSymm s) (v : List (Fin n)) (a b : Fin n) :
    appendBoth s x y v a b =
      if (a = x ∧ b = y) ∨ (a = y ∧ b = x) then some ((s a b).getD [] ++ [v]) else s a b := by
  unfold appendBoth appendValue
  have h := hs x y
  by_cases h1 : a = y ∧ b = x
  · obtain ⟨rfl, rfl⟩ := h1
    simp [upd]
    grind
  · by_cases h2 : a = x ∧ b = y
    · obtain ⟨rfl, rfl⟩ := h2
      simp [upd, hxy]
    · simp [upd]; grind

theorem appendBoth_symm {s : Sep n} {x y : Fin n} (hxy : x ≠ y) (hs : SepSymm s) (v : List (Fin n)) :
    SepSymm (appendBoth s x y v) := by
  intro a b
  rw [appendBoth_apply s hxy hs, appendBoth_apply s hxy hs, hs a b]
  grind

theorem appendBoth_sound {ind : CI n} {s : Sep n} {x y : Fin n} (hxy : x ≠ y) (hs : SepSymm s) (h : SepSound ind s)
    (v : List (Fin n)) (hv : ∀ z ∈ v, ∃ S', z ∈ S' ∧ Ind2 ind x y S') : SepSound ind (appendBoth s x y v) := by
  intro a b L hL S hS z hz
  rw [appendBoth_apply s hxy hs] at hL
  split at hL
  · rename_i hc
    simp at hL
    subst hL
    rcases List.mem_append.1 hS with hS | hS
    · cases hab : s a b with
      | none => simp [hab] at hS
      | some L0 => simp [hab] at hS; exact h a b L0 hab S hS z hz
    · simp at hS
      subst hS
      obtain ⟨S', h1, h2⟩ := hv z hz
      rcases hc with ⟨rfl, rfl⟩ | ⟨rfl, rfl⟩
      · exact ⟨S', h1, h2⟩
      · exact ⟨S', h1, h2.symm⟩
  · exact h a b L hL S hS z hz

theorem appendBoth_good_old {ind : CI n} {k : Know n} {s : Sep n} {x y : Fin n} (hxy : x ≠ y) (hs : SepSymm s)
    (v : List (Fin n)) {a b : Fin n} (h : SepGood ind k s a b) : SepGood ind k (appendBoth s x y v) a b := by
  obtain ⟨L, hL, hg⟩ := h
  by_cases hc : (a = x ∧ b = y) ∨ (a = y ∧ b = x)
  · refine ⟨L ++ [v], ?_, ?_⟩
    · rw [appendBoth_apply s hxy hs, if_pos hc, hL]; rfl
    · rcases hg with ⟨S, hS, hS'⟩ | hg
      · exact Or.inl ⟨S, by simp [hS], hS'⟩
      · exact Or.inr hg
  · exact ⟨L, by rw [appendBoth_apply s hxy hs, if_neg hc, hL], hg⟩

theorem Know.ban_symm (k : Know n) (x y : Fin n) : k.ban x y = k.ban y x := by
  unfold Know.ban; rw [Bool.and_comm]

theorem appendBoth_good_new {ind : CI n} {k : Know n} {s : Sep n} {x y : Fin n} (hxy : x ≠ y) (hs : SepSymm s)
    (v : List (Fin n)) (hv : (∃ S', S' ⊆ v ∧ Ind2 ind x y S') ∨ k.ban x y = true) :
    SepGood ind k (appendBoth s x y v) x y ∧ SepGood ind k (appendBoth s x y v) y x := by
  constructor
  · refine ⟨(s x y).getD [] ++ [v], by rw [appendBoth_apply s hxy hs, if_pos (Or.inl ⟨rfl, rfl⟩)], ?_⟩
    rcases hv with ⟨S', h1, h2⟩ | h
    · exact Or.inl ⟨v, by simp, S', h1, h2⟩
    · exact Or.inr h
  · refine ⟨(s y x).getD [] ++ [v], by rw [appendBoth_apply s hxy hs, if_pos (Or.inr ⟨rfl, rfl⟩)], ?_⟩
    rcases hv with ⟨S', h1, h2⟩ | h
    · exact Or.inl ⟨v, by simp, S', h1, h2.symm⟩
    · exact Or.inr (by rw [k.ban_symm]; exact h)

/-- invariant during a stable depth -/
structure StInv (ind : CI n) (k : Know n) (st : SkSt n) : Prop where
  und : Und st.G
  sound : SepSound ind st.sep
  symm : SepSymm st.sep
  good : ∀ x y, x ≠ y → (st.G.g x y = .null ∨ (x, y) ∈ st.rem) → SepGood ind k st.sep x y

theorem stableY_inv {ind : CI n} {k : Know n} {d : Nat} {x : Fin n} {nx : List (Fin n)} {st : SkSt n} {y : Fin n}
    (hxy : x ≠ y) (hnx : x ∉ nx) (hnd : nx.Nodup) (h : StInv ind k st) : StInv ind k (stableY ind k d x nx st y) := by
  obtain ⟨hG, hrem⟩ := stableY_rem ind k d x nx st y
  have hr := stableTests_spec ind x y (combos (nx.filter (· ≠ y)) d)
    (if k.ban x y then st.rem ++ [(x, y), (y, x)] else st.rem)
  have heq := stableY_eq ind k d x nx st y _ rfl
  generalize stableTests ind x y (combos (nx.filter (· ≠ y)) d)
      (if k.ban x y then st.rem ++ [(x, y), (y, x)] else st.rem) = r at hr heq
  refine ⟨by rw [hG]; exact h.und, ?_, ?_, ?_⟩
  · rcases heq with heq | ⟨heq, -⟩
    · rw [heq]
      apply appendBoth_sound hxy h.symm h.sound
      intro z hz
      obtain ⟨S, hS, hi, hz⟩ := (hr.2 z).1 hz
      exact ⟨S, hz, ind2_of_combo hnx hnd hS hi⟩
    · rw [heq]; exact h.sound
  · rcases heq with heq | ⟨heq, -⟩
    · rw [heq]; exact appendBoth_symm hxy h.symm _
    · rw [heq]; exact h.symm
  · intro a b hab hor
    rw [hG, hrem] at hor
    by_cases hhit : HitY ind k d nx x y
    · -- the pair is appended
      have hcond : (x, y) ∈ r.1 := by
        rw [hr.1]
        rcases hhit with hb | hh
        · left; rw [if_pos hb]; simp
        · right; exact ⟨Or.inl rfl, hh⟩
      rcases heq with heq | ⟨-, heq⟩
      swap
      · exact absurd hcond heq
      rw [heq]
      have hnew := appendBoth_good_new (ind := ind) (k := k) hxy h.symm r.2 (by
          rcases hhit with hb | ⟨S, hS, hi⟩
          · exact Or.inr hb
          · left
            exact ⟨S, fun z hz => (hr.2 z).2 ⟨S, hS, hi, hz⟩, ind2_of_combo hnx hnd hS hi⟩)
      rcases hor with ho | ho | ⟨ho, -⟩
      · exact appendBoth_good_old hxy h.symm _ (h.good a b hab (Or.inl ho))
      · exact appendBoth_good_old hxy h.symm _ (h.good a b hab (Or.inr ho))
      · simp only [Prod.mk.injEq] at ho
        rcases ho with ⟨rfl, rfl⟩ | ⟨rfl, rfl⟩
        · exact hnew.1
        · exact hnew.2
    · have hor' : st.G.g a b = .null ∨ (a, b) ∈ st.rem := by tauto
      rcases heq with heq | ⟨heq, -⟩
      · rw [heq]; exact appendBoth_good_old hxy h.symm _ (h.good a b hab hor')
      · rw [heq]; exact h.good a b hab hor'

theorem stableX_inv {ind : CI n} {k : Know n} {d : Nat} {st : SkSt n} (x : Fin n) (h : StInv ind k st) :
    StInv ind k (stableX ind k d st x) := by
  unfold stableX
  dsimp only
  split
  · exact h
  · have hne : ∀ y ∈ st.G.neighbors x, x ≠ y := by
      rintro y hy rfl
      rw [mem_neighbors] at hy
      exact hy (h.und.diag x)
    have hnd := nodup_neighbors st.G x
    generalize st.G.neighbors x = nx at hne hnd
    have : ∀ ys : List (Fin n), (∀ y ∈ ys, x ≠ y) → ∀ st, StInv ind k st → StInv ind k (ys.foldl (stableY ind k d x nx) st) := by
      intro ys
      induction ys with
      | nil => intro _ st h; exact h
      | cons y ys ih =>
        intro hy st h
        exact ih (fun y' hy' => hy y' (by simp [hy'])) _ (stableY_inv (hy y (by simp)) (fun h => hne x h rfl) hnd h)
    exact this nx hne st h

/-- invariant between depths -/
structure SkInv (ind : CI n) (k : Know n) (s : GG n × Sep n) : Prop where
  und : Und s.1
  sound : SepSound ind s.2
  symm : SepSymm s.2
  good : ∀ x y, x ≠ y → s.1.g x y = .null → SepGood ind k s.2 x y
  dp : ∀ a b, s.1.dp a b = decide (a = b)

theorem stableDepth_inv {ind : CI n} {k : Know n} (d : Nat) {s : GG n × Sep n} (h : SkInv ind k s) :
    SkInv ind k (stableDepth ind k d s.1 s.2) := by
  have h0 : StInv ind k ⟨s.1, s.2, []⟩ := ⟨h.und, h.sound, h.symm, fun x y hxy hor => h.good x y hxy (by simpa using hor)⟩
  have hall : ∀ (xs : List (Fin n)) st, StInv ind k st → StInv ind k (xs.foldl (stableX ind k d) st) := by
    intro xs
    induction xs with
    | nil => intro st h; exact h
    | cons x xs ih => intro st h; exact ih _ (stableX_inv x h)
  have h1 := hall (List.finRange n) _ h0
  obtain ⟨r1, r2, r3⟩ := removeAll_spec ((List.finRange n).foldl (stableX ind k d) ⟨s.1, s.2, []⟩).rem h1.und
  have hG := (stableAll_rem ind k d (List.finRange n) ⟨s.1, s.2, []⟩).1
  have hsymm : ∀ a b, (b, a) ∈ ((List.finRange n).foldl (stableX ind k d) ⟨s.1, s.2, []⟩).rem →
      (a, b) ∈ ((List.finRange n).foldl (stableX ind k d) ⟨s.1, s.2, []⟩).rem := by
    intro a b
    rw [(stableAll_rem ind k d (List.finRange n) ⟨s.1, s.2, []⟩).2, (stableAll_rem ind k d (List.finRange n) ⟨s.1, s.2, []⟩).2]
    simp only [List.not_mem_nil, false_or, Prod.mk.injEq]
    grind
  refine ⟨r1, h1.sound, h1.symm, ?_, ?_⟩
  · intro x y hxy hnull
    apply h1.good x y hxy
    have := r3 x y
    unfold stableDepth at hnull
    dsimp only at hnull
    rw [hnull] at this
    simp only [ne_eq, not_true_eq_false, false_iff] at this
    by_cases hg : ((List.finRange n).foldl (stableX ind k d) ⟨s.1, s.2, []⟩).G.g x y = .null
    · exact Or.inl hg
    · right
      by_contra hc
      exact this ⟨hg, hc, fun h' => hc (hsymm _ _ h')⟩
  · intro a b
    unfold stableDepth
    dsimp only
    rw [r2, hG]
    exact h.dp a b

/-! ### eager (non-stable) mode -/

theorem getEdge_isNone {G : GG n} (x y : Fin n) : (G.getEdge x y).isNone = true ↔ G.g x y = .null := by
  unfold getEdge; split <;> simp_all

theorem removeTwice_g {G : GG n} (hu : Und G) (x y a b : Fin n) :
    ((G.removeIfEdge x y).removeIfEdge y x).g a b = if (a = x ∧ b = y) ∨ (a = y ∧ b = x) then .null else G.g a b := by
  rw [removeIfEdge_g (removeIfEdge_und hu x y), removeIfEdge_g hu]
  grind

theorem removeTwice_und {G : GG n} (hu : Und G) (x y : Fin n) : Und ((G.removeIfEdge x y).removeIfEdge y x) :=
  removeIfEdge_und (removeIfEdge_und hu x y) y x

theorem removeTwice_dp {G : GG n} (hu : Und G) (x y : Fin n) : ((G.removeIfEdge x y).removeIfEdge y x).dp = G.dp :=
  (removeIfEdge_dp (removeIfEdge_und hu x y) y x).trans (removeIfEdge_dp hu x y)

theorem removeTwice_inv {ind : CI n} {k : Know n} {G : GG n} {sep : Sep n} {x y : Fin n} (hxy : x ≠ y)
    (h : SkInv ind k (G, sep)) (v : List (Fin n)) (hs : ∀ z ∈ v, ∃ S', z ∈ S' ∧ Ind2 ind x y S')
    (hv : (∃ S', S' ⊆ v ∧ Ind2 ind x y S') ∨ k.ban x y = true) :
    SkInv ind k ((G.removeIfEdge x y).removeIfEdge y x, appendBoth sep x y v) := by
  refine ⟨removeTwice_und h.und x y, appendBoth_sound hxy h.symm h.sound v hs, appendBoth_symm hxy h.symm v, ?_, ?_⟩
  · intro a b hab hnull
    dsimp only at hnull
    rw [removeTwice_g h.und] at hnull
    have hnew := appendBoth_good_new (ind := ind) (k := k) hxy h.symm v hv
    split at hnull
    · rename_i hc
      rcases hc with ⟨rfl, rfl⟩ | ⟨rfl, rfl⟩
      · exact hnew.1
      · exact hnew.2
    · exact appendBoth_good_old hxy h.symm v (h.good a b hab hnull)
  · intro a b
    dsimp only
    rw [removeTwice_dp h.und]
    exact h.dp a b

theorem eagerYs_inv {ind : CI n} {k : Know n} {d : Nat} {x : Fin n} {nx : List (Fin n)} (ys : List (Fin n))
    (hy : ∀ y ∈ ys, x ≠ y) (hnx : x ∉ nx) (hnd : nx.Nodup) (s : GG n × Sep n) (h : SkInv ind k s) : SkInv ind k (eagerYs ind k d x nx ys s) := by
  induction ys generalizing s with
  | nil => exact h
  | cons y ys ih =>
    obtain ⟨G, sep⟩ := s
    have hxy : x ≠ y := hy y (by simp)
    rw [eagerYs]
    split
    · rename_i hb
      exact removeTwice_inv hxy h [] (by simp) (Or.inr hb)
    · apply ih (fun y' hy' => hy y' (by simp [hy']))
      have hfin : ∀ r : GG n × Sep n, SkInv ind k r →
          SkInv ind k (r.1, if (r.1.getEdge x y).isNone then appendBoth r.2 x y [] else r.2) := by
        intro r hr
        split
        · refine ⟨hr.und, appendBoth_sound hxy hr.symm hr.sound [] (by simp), appendBoth_symm hxy hr.symm [], ?_, hr.dp⟩
          intro a b hab hnull
          exact appendBoth_good_old hxy hr.symm [] (hr.good a b hab hnull)
        · exact hr
      apply hfin
      split
      · rename_i S hS
        have hi : Ind2 ind x y S := ind2_of_combo hnx hnd (List.mem_of_find?_eq_some hS) (List.find?_some hS)
        exact removeTwice_inv hxy h S (fun z hz => ⟨S, hz, hi⟩) (Or.inl ⟨S, fun z hz => hz, hi⟩)
      · exact h

theorem eagerX_inv {ind : CI n} {k : Know n} {d : Nat} (s : GG n × Sep n) (x : Fin n) (h : SkInv ind k s) :
    SkInv ind k (eagerX ind k d s x) := by
  unfold eagerX
  dsimp only
  split
  · exact h
  · have hx : x ∉ s.1.neighbors x := fun hy => (mem_neighbors _ _ _).1 hy (h.und.diag x)
    exact eagerYs_inv _ (by rintro y hy rfl; exact hx hy) hx (nodup_neighbors _ _) s h

theorem eagerDepth_inv {ind : CI n} {k : Know n} (d : Nat) {s : GG n × Sep n} (h : SkInv ind k s) :
    SkInv ind k (eagerDepth ind k d s.1 s.2) := by
  unfold eagerDepth
  have : ∀ (xs : List (Fin n)) s, SkInv ind k s → SkInv ind k (xs.foldl (eagerX ind k d) s) := by
    intro xs
    induction xs with
    | nil => intro s h; exact h
    | cons x xs ih => intro s h; exact ih _ (eagerX_inv s x h)
  exact this _ _ h

/-- in eager mode without bans, edges only disappear, and a surviving edge of `x` passed every test of this depth -/
theorem eagerYs_closure {ind : CI n} {k : Know n} (hk : ∀ a b, k.ban a b = false) {d : Nat} {x : Fin n}
    {nx : List (Fin n)} (ys : List (Fin n)) (s : GG n × Sep n) (hu : Und s.1) :
    Und (eagerYs ind k d x nx ys s).1 ∧
    (∀ a b, (eagerYs ind k d x nx ys s).1.g a b ≠ .null → s.1.g a b ≠ .null) ∧
    (∀ y ∈ ys, (eagerYs ind k d x nx ys s).1.g x y ≠ .null → ∀ S ∈ combos (nx.filter (· ≠ y)) d, ind x y S = false) := by
  induction ys generalizing s with
  | nil => simp [eagerYs, hu]
  | cons y ys ih =>
    obtain ⟨G, sep⟩ := s
    rw [eagerYs, if_neg (by simp [hk])]
    dsimp only at hu ⊢
    cases hf : (combos (nx.filter (· ≠ y)) d).find? (ind x y) with
    | some S =>
      dsimp only
      obtain ⟨h1, h2, h3⟩ := ih ((G.removeIfEdge x y).removeIfEdge y x,
        if (((G.removeIfEdge x y).removeIfEdge y x).getEdge x y).isNone = true then
          appendBoth (appendBoth sep x y S) x y [] else appendBoth sep x y S) (removeTwice_und hu x y)
      have hsub : ∀ a b, ((G.removeIfEdge x y).removeIfEdge y x).g a b ≠ .null → G.g a b ≠ .null := by
        intro a b hab; rw [removeTwice_g hu] at hab; grind
      refine ⟨h1, fun a b hab => hsub a b (h2 a b hab), ?_⟩
      intro y' hy' hne
      rcases List.mem_cons.1 hy' with rfl | hy'
      · exfalso
        have := h2 x y' hne
        dsimp only at this
        rw [removeTwice_g hu] at this
        simp at this
      · exact h3 y' hy' hne
    | none =>
      dsimp only
      obtain ⟨h1, h2, h3⟩ := ih (G, if (G.getEdge x y).isNone = true then appendBoth sep x y [] else sep) hu
      refine ⟨h1, h2, ?_⟩
      intro y' hy' hne
      rcases List.mem_cons.1 hy' with rfl | hy'
      · intro S hS
        rw [List.find?_eq_none] at hf
        simpa using hf S hS
      · exact h3 y' hy' hne

/-- every surviving edge passed every test of size `d` within the surviving neighbourhood -/
def ClosedAt (ind : CI n) (d : Nat) (G : GG n) : Prop :=
  ∀ x y, G.g x y ≠ .null → ∀ S, S.Sublist ((G.neighbors x).filter (· ≠ y)) → S.length = d → ind x y S = false

theorem ClosedAt.mono {ind : CI n} {d : Nat} {G H : GG n} (h : ClosedAt ind d G)
    (hs : ∀ a b, H.g a b ≠ .null → G.g a b ≠ .null) : ClosedAt ind d H := by
  intro x y hxy S hS hl
  exact h x y (hs x y hxy) S (hS.trans ((neighbors_sublist hs x).filter _)) hl

theorem length_of_sub {G : GG n} {x y : Fin n} {S : List (Fin n)} (hxy : G.g x y ≠ .null)
    (hS : S.Sublist ((G.neighbors x).filter (· ≠ y))) : S.length + 1 ≤ (G.neighbors x).length := by
  have h1 : ((G.neighbors x).filter (· ≠ y)).length + 1 ≤ (G.neighbors x).length := by
    have hy := (mem_neighbors G x y).2 hxy
    have : ((G.neighbors x).filter (· ≠ y)).length < (G.neighbors x).length :=
      List.length_filter_lt_length_iff_exists.2 ⟨y, hy, by simp⟩
    omega
  have := hS.length_le
  omega

theorem eagerDepth_closure {ind : CI n} {k : Know n} (hk : ∀ a b, k.ban a b = false) (d : Nat) (G : GG n) (sep : Sep n)
    (hu : Und G) :
    (∀ a b, (eagerDepth ind k d G sep).1.g a b ≠ .null → G.g a b ≠ .null) ∧
    ClosedAt ind d (eagerDepth ind k d G sep).1 := by
  have key : ∀ (xs : List (Fin n)) (s : GG n × Sep n), Und s.1 →
      Und (xs.foldl (eagerX ind k d) s).1 ∧
      (∀ a b, (xs.foldl (eagerX ind k d) s).1.g a b ≠ .null → s.1.g a b ≠ .null) ∧
      (∀ x ∈ xs, ∀ y, (xs.foldl (eagerX ind k d) s).1.g x y ≠ .null →
        ∀ S, S.Sublist (((xs.foldl (eagerX ind k d) s).1.neighbors x).filter (· ≠ y)) → S.length = d → ind x y S = false) := by
    intro xs
    induction xs with
    | nil => intro s hu; simp [hu]
    | cons x xs ih =>
      intro s hu
      have hX : Und (eagerX ind k d s x).1 ∧ (∀ a b, (eagerX ind k d s x).1.g a b ≠ .null → s.1.g a b ≠ .null) ∧
          (∀ y, (eagerX ind k d s x).1.g x y ≠ .null → ∀ S, S.Sublist ((s.1.neighbors x).filter (· ≠ y)) →
            S.length = d → ind x y S = false) := by
        unfold eagerX
        dsimp only
        split
        · rename_i hlt
          refine ⟨hu, fun a b h => h, ?_⟩
          intro y hy S hS hl
          have := length_of_sub hy hS
          omega
        · obtain ⟨h1, h2, h3⟩ := eagerYs_closure (ind := ind) hk (d := d) (x := x) (nx := s.1.neighbors x)
            (s.1.neighbors x) s hu
          refine ⟨h1, h2, ?_⟩
          intro y hy S hS hl
          exact h3 y ((mem_neighbors _ _ _).2 (h2 x y hy)) hy S ((combos_mem _ _ _).2 ⟨hS, hl⟩)
      obtain ⟨h1, h2, h3⟩ := ih _ hX.1
      refine ⟨h1, fun a b h => hX.2.1 a b (h2 a b h), ?_⟩
      intro x' hx' y hy S hS hl
      rcases List.mem_cons.1 hx' with rfl | hx'
      · refine hX.2.2 y (h2 x' y hy) S (hS.trans ?_) hl
        exact (neighbors_sublist (fun a b h => hX.2.1 a b (h2 a b h)) x').filter _
      · exact h3 x' hx' y hy S hS hl
  obtain ⟨-, h2, h3⟩ := key (List.finRange n) (G, sep) hu
  exact ⟨h2, fun x y hxy S hS hl => h3 x (List.mem_finRange x) y hxy S hS hl⟩

theorem stableDepth_closure {ind : CI n} {k : Know n} (d : Nat) (G : GG n) (sep : Sep n) (hu : Und G) :
    (∀ a b, (stableDepth ind k d G sep).1.g a b ≠ .null → G.g a b ≠ .null) ∧
    ClosedAt ind d (stableDepth ind k d G sep).1 := by
  obtain ⟨h1, -, h3⟩ := stableDepth_adj ind k d hu sep
  have hsub : ∀ a b, (stableDepth ind k d G sep).1.g a b ≠ .null → G.g a b ≠ .null := fun a b h => ((h3 a b).1 h).1
  refine ⟨hsub, ?_⟩
  intro x y hxy S hS hl
  have h := (h3 x y).1 hxy
  by_contra hi
  have hS' : S.Sublist ((G.neighbors x).filter (· ≠ y)) := hS.trans ((neighbors_sublist hsub x).filter _)
  apply h.2.1
  refine ⟨(mem_neighbors _ _ _).2 h.1, ?_, Or.inr ⟨S, (combos_mem _ _ _).2 ⟨hS', hl⟩, by simpa using hi⟩⟩
  have := length_of_sub h.1 hS'
  omega

/-- the whole loop: invariant, termination, and the closure property at every size -/
theorem skLoop_spec (stable : Bool) {ind : CI n} {k : Know n}
    (f d : Nat) (s : GG n × Sep n) (hf : n < f + d) (hf0 : 0 < f) (h : SkInv ind k s)
    (hc : (stable = true ∨ ∀ a b, k.ban a b = false) → ∀ e < d, ClosedAt ind e s.1) :
    ∃ r, skLoop stable ind k f d s = some r ∧ SkInv ind k r ∧
      ((stable = true ∨ ∀ a b, k.ban a b = false) → ∀ e, ClosedAt ind e r.1) := by
  induction f generalizing d s with
  | zero => omega
  | succ f ih =>
    rw [skLoop]
    by_cases hd : d < s.1.maxDegree
    · rw [if_pos hd]
      have hn := maxDegree_le_n s.1
      apply ih
      · omega
      · omega
      · cases stable
        · exact eagerDepth_inv d h
        · exact stableDepth_inv d h
      · intro hk e he
        have hstep : (∀ a b, (if stable = true then stableDepth ind k d s.1 s.2 else eagerDepth ind k d s.1 s.2).1.g a b
            ≠ .null → s.1.g a b ≠ .null) ∧
            ClosedAt ind d (if stable = true then stableDepth ind k d s.1 s.2 else eagerDepth ind k d s.1 s.2).1 := by
          cases stable
          · exact eagerDepth_closure (by simpa using hk) d s.1 s.2 h.und
          · exact stableDepth_closure d s.1 s.2 h.und
        rcases Nat.lt_succ_iff_lt_or_eq.1 he with he | rfl
        · exact (hc hk e he).mono hstep.1
        · exact hstep.2
    · rw [if_neg hd]
      refine ⟨s, rfl, h, fun hk e => ?_⟩
      by_cases he : e < d
      · exact hc hk e he
      · intro x y hxy S hS hl
        have h1 := length_of_sub hxy hS
        have h2 := length_neighbors_le s.1 x
        omega

end CL
