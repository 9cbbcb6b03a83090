import Verif.Props.BkOrient

/-!
# PC with a d-separation oracle: the MaxP and Definite-MaxP collider rules, and the whole pipeline
-/
namespace CL
open GG Relation Spec
variable {n : Nat} {P : Type} [LinearOrder P]

/-- The CI test answers exactly like d-separation in `D` (on the queries that make sense: two different variables outside
a conditioning set without repetitions). -/
def DSepOracle (D : Fin n → Fin n → Prop) (ind : CI n) : Prop :=
  ∀ x y (S : List (Fin n)), x ≠ y → S.Nodup → x ∉ S → y ∉ S → (ind x y S = true ↔ DSep D {z | z ∈ S} x y)

theorem foldl_max_le_iff {L : Type} [LinearOrder L] (l : List L) (b c : L) : l.foldl max b ≤ c ↔ b ≤ c ∧ ∀ x ∈ l, x ≤ c := by
  induction l generalizing b with
  | nil => simp
  | cons a l ih => rw [List.foldl_cons, ih]; simp [and_assoc]

theorem maxP_le (T : TestFn n P) (x z : Fin n) (Ss : List (List (Fin n))) (c : P) :
    maxP T x z Ss ≤ (c : WithBot P) ↔ ∀ S ∈ Ss, T.pval x z S ≤ c := by
  unfold maxP
  rw [foldl_max_le_iff]
  simp

theorem lt_maxP (T : TestFn n P) (x z : Fin n) (Ss : List (List (Fin n))) (c : P) :
    (c : WithBot P) < maxP T x z Ss ↔ ∃ S ∈ Ss, c < T.pval x z S := by
  rw [← not_le, maxP_le]; push Not; rfl

theorem mem_powersetList {α : Type} (l S : List α) : S ∈ powersetList l ↔ S.Sublist l := by
  simp only [powersetList, List.mem_flatMap, List.mem_range, combos_mem]
  constructor
  · rintro ⟨d, -, h, -⟩; exact h
  · intro h; exact ⟨S.length, Nat.lt_succ_of_le h.length_le, h, rfl⟩

theorem mem_condSets (G : GG n) (i j : Fin n) (S : List (Fin n)) :
    S ∈ condSets G i j ↔ S.Sublist (G.neighbors i) ∨ S.Sublist (G.neighbors j) := by
  simp [condSets, mem_powersetList]

/-- a candidate conditioning set of a non-adjacent pair is a legal query -/
theorem condSet_legal {D : Fin n → Fin n → Prop} {G : GG n} (h : PInv D G) {x z : Fin n} (hna : ¬ Adj D x z)
    {S : List (Fin n)} (hS : S ∈ condSets G x z) : S.Nodup ∧ x ∉ S ∧ z ∉ S := by
  rw [mem_condSets] at hS
  have hxz : G.g x z = .null := by by_contra hc; exact hna ((h.adj _ _).1 hc)
  have hzx := h.pd.symm _ _ hxz
  rcases hS with hS | hS
  · refine ⟨hS.nodup (nodup_neighbors _ _), fun hx => ?_, fun hz => ?_⟩
    · exact (mem_neighbors _ _ _).1 (hS.subset hx) (h.pd.diag x)
    · exact (mem_neighbors _ _ _).1 (hS.subset hz) hxz
  · refine ⟨hS.nodup (nodup_neighbors _ _), fun hx => ?_, fun hz => ?_⟩
    · exact (mem_neighbors _ _ _).1 (hS.subset hx) hzx
    · exact (mem_neighbors _ _ _).1 (hS.subset hz) (h.pd.diag z)

/-- Non-adjacent pairs are separated by one of the candidate sets. -/
theorem exists_condSet {D : Fin n → Fin n → Prop} (hac : Acyclic D) {ind : CI n} (ho : DSepOracle D ind) {G : GG n}
    (h : PInv D G) {x z : Fin n} (hne : x ≠ z) (hna : ¬ Adj D x z) : ∃ S ∈ condSets G x z, ind x z S = true := by
  classical
  have key : ∀ v, (v = x ∨ v = z) → DSep D {p | D p v} x z → ∃ S ∈ condSets G x z, ind x z S = true := by
    intro v hv hs
    have hm : ∀ p, p ∈ (G.neighbors v).filter (fun p => decide (D p v)) ↔ D p v := by
      intro p
      simp only [List.mem_filter, mem_neighbors, decide_eq_true_eq]
      exact ⟨fun h => h.2, fun hp => ⟨(h.adj v p).2 (Or.inr hp), hp⟩⟩
    have hmem : (G.neighbors v).filter (fun p => decide (D p v)) ∈ condSets G x z := by
      rw [mem_condSets]
      rcases hv with rfl | rfl
      · exact Or.inl List.filter_sublist
      · exact Or.inr List.filter_sublist
    obtain ⟨l1, l2, l3⟩ := condSet_legal h hna hmem
    refine ⟨_, hmem, (ho x z _ hne l1 l2 l3).2 ?_⟩
    convert hs using 1
    ext p; exact hm p
  rcases exists_parents_sep hac hne hna with hs | hs
  · exact key x (Or.inl rfl) hs
  · exact key z (Or.inr rfl) hs

/-- On an unshielded triple: a candidate set containing the middle separates only at a non-collider, one avoiding it only
at a collider. -/
theorem condSet_middle {D : Fin n → Fin n → Prop} (hac : Acyclic D) {ind : CI n} (ho : DSepOracle D ind) {G : GG n}
    (h : PInv D G) {x y z : Fin n} (hne : x ≠ z) (hxy : Adj D x y) (hzy : Adj D z y) (hna : ¬ Adj D x z)
    {S : List (Fin n)} (hS : S ∈ condSets G x z) (hi : ind x z S = true) : y ∈ S ↔ ¬ Collider D x y z := by
  obtain ⟨l1, l2, l3⟩ := condSet_legal h hna hS
  have hs := (ho x z S hne l1 l2 l3).1 hi
  have h1 := hac.ne_of_adj hxy
  have h2 := (hac.ne_of_adj hzy).symm
  constructor
  · intro hy hc; exact collider_not_mem (Z := {p | p ∈ S}) h1 h2 hne hc hs hy
  · intro hc; exact noncollider_mem (Z := {p | p ∈ S}) h1 h2 hne hxy hzy.symm hc hs

theorem ind_false {T : TestFn n P} {x y : Fin n} {S : List (Fin n)} : T.ind x y S = false ↔ T.pval x y S ≤ T.alpha := by
  simp [TestFn.ind]

theorem ind_true {T : TestFn n P} {x y : Fin n} {S : List (Fin n)} : T.ind x y S = true ↔ T.alpha < T.pval x y S := by
  simp [TestFn.ind]

/-- The MaxP comparison is right on every unshielded triple. -/
theorem maxp_rule {D : Fin n → Fin n → Prop} (hac : Acyclic D) {T : TestFn n P} (ho : DSepOracle D T.ind) {G : GG n}
    (h : PInv D G) {x y z : Fin n} (hne : x ≠ z) (hxy : Adj D x y) (hzy : Adj D z y) (hna : ¬ Adj D x z) :
    maxP T x z ((condSets G x z).filter fun S => decide (y ∈ S)) <
      maxP T x z ((condSets G x z).filter fun S => decide (y ∉ S)) ↔ Collider D x y z := by
  obtain ⟨S, hS, hi⟩ := exists_condSet hac ho h hne hna
  have hy := condSet_middle hac ho h hne hxy hzy hna hS hi
  have hall : ∀ S' ∈ condSets G x z, ¬ (y ∈ S' ↔ ¬ Collider D x y z) → T.pval x z S' ≤ T.alpha := by
    intro S' hS' hn
    by_contra hc
    exact hn (condSet_middle hac ho h hne hxy hzy hna hS' (ind_true.2 (not_le.1 hc)))
  by_cases hc : Collider D x y z
  · simp only [hc, iff_true]
    apply lt_of_le_of_lt (b := ((T.alpha : P) : WithBot P))
    · rw [maxP_le]
      intro S' hS'
      simp only [List.mem_filter, decide_eq_true_eq] at hS'
      exact hall S' hS'.1 (by simp [hS'.2, hc])
    · rw [lt_maxP]
      refine ⟨S, ?_, ind_true.1 hi⟩
      simp only [List.mem_filter, decide_eq_true_eq]
      exact ⟨hS, by simpa [hc] using hy⟩
  · simp only [hc, iff_false, not_lt]
    apply le_of_lt
    apply lt_of_le_of_lt (b := ((T.alpha : P) : WithBot P))
    · rw [maxP_le]
      intro S' hS'
      simp only [List.mem_filter, decide_eq_true_eq] at hS'
      exact hall S' hS'.1 (by simp [hS'.2, hc])
    · rw [lt_maxP]
      refine ⟨S, ?_, ind_true.1 hi⟩
      simp only [List.mem_filter, decide_eq_true_eq]
      exact ⟨hS, by simpa [hc] using hy⟩

/-- folding over all ordered triples, accepting exactly the colliders -/
theorem ucDone_of_filter_fold {D : Fin n → Fin n → Prop} (hac : Acyclic D) (step : GG n → Fin n × Fin n × Fin n → GG n)
    {G : GG n} (h : PInv D G) (hs : Sound G)
    (hacc : ∀ H, PInv D H → Sound H → ∀ x y z, x ≠ z → Adj D x y → Adj D z y → ¬ Adj D x z → Collider D x y z →
      (step H (x, y, z)).g = oriented (oriented H.g x y) z y ∧ Sound (step H (x, y, z)))
    (hrej : ∀ H, PInv D H → Sound H → ∀ x y z, x ≠ z → Adj D x y → Adj D z y → ¬ Adj D x z → ¬ Collider D x y z →
      step H (x, y, z) = H) : UCDone D G ((orderedUT G).foldl step G) := by
  classical
  have hfil := listsUC_of_filter h (fun t => decide (Collider D t.1 t.2.1 t.2.2)) (by intro x y z _ _ _ _; simp)
  have hall : ∀ t ∈ orderedUT G, t.1 ≠ t.2.2 ∧ Adj D t.1 t.2.1 ∧ Adj D t.2.2 t.2.1 ∧ ¬ Adj D t.1 t.2.2 := by
    rintro ⟨x, y, z⟩ ht
    obtain ⟨hlt, h3, h4, h5⟩ := (mem_orderedUT h.pd x y z).1 ht
    exact ⟨ne_of_lt hlt, (h.adj _ _).1 h3, ((h.adj _ _).1 h4).symm, fun ha => (h.adj x z).2 ha h5⟩
  have hstep : ∀ H, PInv D H → Sound H → ∀ t ∈ (orderedUT G).filter (fun t => decide (Collider D t.1 t.2.1 t.2.2)),
      (step H t).g = oriented (oriented H.g t.1 t.2.1) t.2.2 t.2.1 ∧ Sound (step H t) := by
    intro H hH hsH t ht
    simp only [List.mem_filter, decide_eq_true_eq] at ht
    obtain ⟨h1, h2, h3, h4⟩ := hall t ht.1
    exact hacc H hH hsH t.1 t.2.1 t.2.2 h1 h2 h3 h4 ht.2
  have e : (orderedUT G).foldl step G =
      ((orderedUT G).filter fun t => decide (Collider D t.1 t.2.1 t.2.2)).foldl step G := by
    have gen : ∀ (l : List (Fin n × Fin n × Fin n)), (∀ t ∈ l, t ∈ orderedUT G) → ∀ H, PInv D H → Sound H →
        l.foldl step H = (l.filter fun t => decide (Collider D t.1 t.2.1 t.2.2)).foldl step H := by
      intro l
      induction l with
      | nil => intros; rfl
      | cons t l ih =>
        intro hl H hH hsH
        obtain ⟨h1, h2, h3, h4⟩ := hall t (hl t (by simp))
        have hl' : ∀ t' ∈ l, t' ∈ orderedUT G := fun t' ht' => hl t' (by simp [ht'])
        by_cases hc : Collider D t.1 t.2.1 t.2.2
        · rw [List.filter_cons_of_pos (by simpa using hc), List.foldl_cons, List.foldl_cons]
          obtain ⟨g1, g2⟩ := hacc H hH hsH t.1 t.2.1 t.2.2 h1 h2 h3 h4 hc
          refine ih hl' _ ?_ g2
          have a1 : PInv D (⟨oriented H.g t.1 t.2.1, H.dp⟩ : GG n) := hH.of_oriented hac hc.1 rfl
          exact a1.of_oriented hac hc.2 g1
        · rw [List.filter_cons_of_neg (by simpa using hc), List.foldl_cons]
          rw [show step H t = H from hrej H hH hsH t.1 t.2.1 t.2.2 h1 h2 h3 h4 hc]
          exact ih hl' H hH hsH
    exact gen _ (fun t ht => ht) G h hs
  rw [e]
  exact ucDone_of_fold hac step _ hfil hstep G h hs

theorem maxp_done {D : Fin n → Fin n → Prop} (hac : Acyclic D) {k : Know n} (hk : k.TrueOf D) {T : TestFn n P}
    (ho : DSepOracle D T.ind) (prio : Nat) {G : GG n} (h : PInv D G) (hs : Sound G) : UCDone D G (maxp T prio k G) := by
  unfold maxp
  dsimp only
  split
  · apply ucDone_of_filter_fold hac _ h hs
    · intro H hH hsH x y z hne hxy hzy hna hc
      dsimp only
      rw [blocksUC_false hac hk hc, if_neg (by simp), if_pos ((maxp_rule hac ho hH hne hxy hzy hna).2 hc)]
      exact ⟨colliderBy_exact hac prio hH hc, hsH.colliderBy prio _⟩
    · intro H hH hsH x y z hne hxy hzy hna hc
      dsimp only
      split
      · rfl
      · rw [if_neg (fun hh => hc ((maxp_rule hac ho hH hne hxy hzy hna).1 hh))]
  · have hl : ListsUC D ((orderedUT G).filter fun t => !k.blocksUC t.1 t.2.1 t.2.2 &&
        decide (maxP T t.1 t.2.2 ((condSets G t.1 t.2.2).filter fun S => decide (t.2.1 ∈ S)) <
          maxP T t.1 t.2.2 ((condSets G t.1 t.2.2).filter fun S => decide (t.2.1 ∉ S)))) := by
      apply listsUC_of_filter h
      intro x y z hxz hxy hzy hna
      rw [Bool.and_eq_true, decide_eq_true_eq]
      dsimp only
      rw [maxp_rule hac ho h hxz hxy hzy hna]
      constructor
      · exact fun h => h.2
      · intro hc
        exact ⟨by simp [blocksUC_false hac hk hc], hc⟩
    split
    · exact lateLoop_done hac hk _ (hl.congr fun t => mem_sortAsc_fst _ _ t) G h hs
    · exact lateLoop_done hac hk _ (hl.congr fun t => mem_sortDesc_fst _ _ t) G h hs

/-! ### Definite-MaxP -/

theorem defScan_uc {D : Fin n → Fin n → Prop} (hac : Acyclic D) {T : TestFn n P} (ho : DSepOracle D T.ind) {G : GG n}
    (h : PInv D G) {x y z : Fin n} (zero : P) (hne : x ≠ z) (hxy : Adj D x y) (hzy : Adj D z y) (hna : ¬ Adj D x z) :
    ((defScan T zero G (x, y, z)).1 = true ↔ Collider D x y z) ∧
    ((defScan T zero G (x, y, z)).2.1 = true ↔ ¬ Collider D x y z) := by
  obtain ⟨S, hS, hi⟩ := exists_condSet hac ho h hne hna
  have hy := condSet_middle hac ho h hne hxy hzy hna hS hi
  unfold defScan
  simp only [List.all_eq_true, List.mem_filter, decide_eq_true_eq, Bool.not_eq_true', and_imp]
  constructor
  · constructor
    · intro hall
      by_contra hc
      rw [hall S hS (hy.2 hc)] at hi; simp at hi
    · intro hc S' hS' hy'
      by_contra hi'
      exact (condSet_middle hac ho h hne hxy hzy hna hS' (by simpa using hi')).1 hy' hc
  · constructor
    · intro hall hc
      rw [hall S hS (fun hyS => hy.1 hyS hc)] at hi; simp at hi
    · intro hc S' hS' hy'
      by_contra hi'
      exact hy' ((condSet_middle hac ho h hne hxy hzy hna hS' (by simpa using hi')).2 hc)

/-- Outcome of `definite_maxp`: the graph is as after `maxp`, and the two lists are correct. -/
structure DefDone (D : Fin n → Fin n → Prop) (G : GG n) (st : DefSt n) : Prop where
  done : UCDone D G st.G
  uc : ∀ t ∈ st.uc, UnshieldedCollider D t.1 t.2.1 t.2.2
  nonUC : ∀ t ∈ st.nonUC, (t.1 ≠ t.2.2 ∧ ¬ Adj D t.1 t.2.2) ∧ Adj D t.1 t.2.1 ∧ Adj D t.2.2 t.2.1 ∧ ¬ Collider D t.1 t.2.1 t.2.2

theorem definiteMaxp_done {D : Fin n → Fin n → Prop} (hac : Acyclic D) {k : Know n} (hk : k.TrueOf D) {T : TestFn n P}
    (ho : DSepOracle D T.ind) (zero : P) (prio : Nat) {G : GG n} (h : PInv D G) (hs : Sound G) :
    DefDone D G (definiteMaxp T zero prio k G) := by
  have hall : ∀ t ∈ orderedUT G, t.1 ≠ t.2.2 ∧ Adj D t.1 t.2.1 ∧ Adj D t.2.2 t.2.1 ∧ ¬ Adj D t.1 t.2.2 := by
    rintro ⟨x, y, z⟩ ht
    obtain ⟨hlt, h3, h4, h5⟩ := (mem_orderedUT h.pd x y z).1 ht
    exact ⟨ne_of_lt hlt, (h.adj _ _).1 h3, ((h.adj _ _).1 h4).symm, fun ha => (h.adj x z).2 ha h5⟩
  let isUC (t : Fin n × Fin n × Fin n) : Bool :=
    (defScan T zero G t).1 &&
      (!(defScan T zero G t).2.1 || decide ((defScan T zero G t).2.2.1 < (defScan T zero G t).2.2.2))
  let isNonUC (t : Fin n × Fin n × Fin n) : Bool := (defScan T zero G t).2.1 && !isUC t
  have hUC : ∀ x y z, x ≠ z → Adj D x y → Adj D z y → ¬ Adj D x z → (isUC (x, y, z) = true ↔ Collider D x y z) := by
    intro x y z h1 h2 h3 h4
    obtain ⟨e1, e2⟩ := defScan_uc hac ho h zero h1 h2 h3 h4
    simp only [isUC, Bool.and_eq_true, e1, Bool.or_eq_true, Bool.not_eq_true']
    constructor
    · exact fun h => h.1
    · intro hc
      refine ⟨hc, Or.inl ?_⟩
      by_contra hh
      exact e2.1 (by simpa using hh) hc
  have hl : ListsUC D ((orderedUT G).filter isUC) := listsUC_of_filter h isUC hUC
  let f (st : DefSt n) (t : Fin n × Fin n × Fin n) : DefSt n :=
      if k.blocksUC t.1 t.2.1 t.2.2 then st
      else if !st.G.isFullyDirected t.2.1 t.1 && !st.G.isFullyDirected t.2.1 t.2.2 then
        ⟨(st.G.setDirected t.1 t.2.1).setDirected t.2.2 t.2.1, st.uc ++ [t], st.nonUC⟩
      else st
  let items := ((orderedUT G).filter isUC).map fun t =>
    (t, if prio = 4 then (defScan T zero G t).2.2.2 else (defScan T zero G t).2.2.1)
  let l := ((if prio = 3 then sortAsc items else if prio = 4 then sortDesc items else items).map Prod.fst)
  have hl' : ListsUC D l := by
    apply hl.congr
    intro t
    simp only [l, items]
    split
    · exact mem_sortAsc_fst _ _ t
    · split
      · exact mem_sortDesc_fst _ _ t
      · simp
  have hfold : ∀ (l : List (Fin n × Fin n × Fin n)) (st : DefSt n),
      (l.foldl f st).G = l.foldl (fun G t => if k.blocksUC t.1 t.2.1 t.2.2 then G else G.collider2 t.1 t.2.1 t.2.2) st.G ∧
      (l.foldl f st).nonUC = st.nonUC ∧ ∀ t ∈ (l.foldl f st).uc, t ∈ st.uc ∨ t ∈ l := by
    intro l
    induction l with
    | nil => intro st; exact ⟨rfl, rfl, fun t ht => Or.inl ht⟩
    | cons t l ih =>
      intro st
      obtain ⟨i1, i2, i3⟩ := ih (f st t)
      have hf : (f st t).G = (if k.blocksUC t.1 t.2.1 t.2.2 then st.G else st.G.collider2 t.1 t.2.1 t.2.2) ∧
          (f st t).nonUC = st.nonUC ∧ ∀ t' ∈ (f st t).uc, t' ∈ st.uc ∨ t' = t := by
        simp only [f, collider2]
        split
        · exact ⟨rfl, rfl, fun t' h => Or.inl h⟩
        · split
          · refine ⟨rfl, rfl, fun t' h => ?_⟩
            simpa using h
          · exact ⟨rfl, rfl, fun t' h => Or.inl h⟩
      rw [List.foldl_cons, List.foldl_cons]
      refine ⟨by rw [i1, hf.1], by rw [i2, hf.2.1], fun t' ht' => ?_⟩
      rcases i3 t' ht' with h | h
      · rcases hf.2.2 t' h with h | rfl
        · exact Or.inl h
        · exact Or.inr (by simp)
      · exact Or.inr (by simp [h])
  obtain ⟨r1, r2, r3⟩ := hfold l ⟨G, [], (orderedUT G).filter isNonUC⟩
  have e : definiteMaxp T zero prio k G = l.foldl f ⟨G, [], (orderedUT G).filter isNonUC⟩ := rfl
  rw [e]
  refine ⟨?_, ?_, ?_⟩
  · rw [r1]; exact lateLoop_done hac hk l hl' G h hs
  · intro t ht
    rcases r3 t ht with h | h
    · simp at h
    · exact hl'.1 t h
  · intro t ht
    rw [r2] at ht
    simp only [List.mem_filter, isNonUC, Bool.and_eq_true] at ht
    obtain ⟨h1, h2, h3, h4⟩ := hall t ht.1
    exact ⟨⟨h1, h4⟩, h2, h3, (defScan_uc hac ho h zero h1 h2 h3 h4).2.1 ht.2.1⟩

/-! ### definite_meek -/

theorem defMeek1_minv {D : Fin n → Fin n → Prop} (hac : Acyclic D) {k : Know n} {nonUC : List (Fin n × Fin n × Fin n)}
    (hn : ∀ t ∈ nonUC, Adj D t.1 t.2.1 ∧ Adj D t.2.2 t.2.1 ∧ ¬ Collider D t.1 t.2.1 t.2.2)
    (st : GG n × Bool) (h : MInv D st.1) (t) (ht : t ∈ nonUC) : MInv D (defMeek1 k st t).1 := by
  obtain ⟨x, y, z⟩ := t
  obtain ⟨h1, h2, h3⟩ := hn _ ht
  dsimp only at h1 h2 h3
  unfold defMeek1
  dsimp only
  split
  · rename_i hc
    simp only [Bool.and_eq_true] at hc
    have := hc.1.1
    simp only [isFullyDirected, Bool.and_eq_true, beq_iff_eq] at this
    refine h.tryOrient hac hc.1.2 (h2.symm.resolve_right fun h' => h3 ⟨h.inv.arrow _ _ this.2, h'⟩)
  · split
    · rename_i hc
      simp only [Bool.and_eq_true] at hc
      have := hc.1.1
      simp only [isFullyDirected, Bool.and_eq_true, beq_iff_eq] at this
      refine h.tryOrient hac hc.1.2 (h1.symm.resolve_right fun h' => h3 ⟨h', h.inv.arrow _ _ this.2⟩)
    · exact h

theorem defMeek3_minv {D : Fin n → Fin n → Prop} (hac : Acyclic D) {k : Know n} {uc nonUC : List (Fin n × Fin n × Fin n)}
    (hu : ∀ t ∈ uc, Collider D t.1 t.2.1 t.2.2)
    (hn : ∀ t ∈ nonUC, Adj D t.1 t.2.1 ∧ Adj D t.2.2 t.2.1 ∧ ¬ Collider D t.1 t.2.1 t.2.2)
    (st : GG n × Bool) (h : MInv D st.1) (t) : MInv D (defMeek3 k uc nonUC st t).1 := by
  obtain ⟨i, j, l, m⟩ := t
  unfold defMeek3
  dsimp only
  split
  · rename_i hc
    simp only [Bool.and_eq_true, decide_eq_true_eq] at hc
    obtain ⟨⟨c1, c2⟩, c3⟩ := hc
    have hcol : D j m ∧ D l m := by
      rcases c1 with c | c
      · exact hu _ c
      · exact (hu _ c).symm
    have hnon : D i j ∨ D i l := by
      rcases c2 with c | c
      · obtain ⟨a1, a2, a3⟩ := hn _ c
        dsimp only at a1 a2 a3
        by_contra hcon
        push Not at hcon
        exact a3 ⟨a1.resolve_right hcon.1, a2.resolve_right hcon.2⟩
      · obtain ⟨a1, a2, a3⟩ := hn _ c
        dsimp only at a1 a2 a3
        by_contra hcon
        push Not at hcon
        exact a3 ⟨a1.resolve_right hcon.2, a2.resolve_right hcon.1⟩
    have c3' := c3
    simp only [isUndirected, Bool.and_eq_true, beq_iff_eq] at c3'
    have him : Adj D i m := (h.inv.adj i m).1 (by rw [c3'.1]; simp)
    refine h.tryOrient hac c3 (him.resolve_right fun hmi => ?_)
    rcases hnon with hij | hil
    · exact hac i (((TransGen.single hij).tail hcol.1).tail hmi)
    · exact hac i (((TransGen.single hil).tail hcol.2).tail hmi)
  · exact h

theorem defMeekLoop_minv {D : Fin n → Fin n → Prop} (hac : Acyclic D) {k : Know n} 
    {uc nonUC Tri : List (Fin n × Fin n × Fin n)} {Kite : List (Fin n × Fin n × Fin n × Fin n)}
    (hu : ∀ t ∈ uc, Collider D t.1 t.2.1 t.2.2)
    (hn : ∀ t ∈ nonUC, Adj D t.1 t.2.1 ∧ Adj D t.2.2 t.2.1 ∧ ¬ Collider D t.1 t.2.1 t.2.2)
    (f : Nat) (G H : GG n) (h : MInv D G) (hr : defMeekLoop k uc nonUC Tri Kite f G = some H) : MInv D H := by
  induction f generalizing G with
  | zero => simp [defMeekLoop] at hr
  | succ f ih =>
    have hpass : MInv D (defMeekPass k uc nonUC Tri Kite G).1 := by
      unfold defMeekPass
      apply fold_inv (fun st : GG n × Bool => MInv D st.1) _ _ (fun st hst t ht => defMeek3_minv hac hu hn st hst t)
      apply fold_inv (fun st : GG n × Bool => MInv D st.1) _ _ (fun st hst t _ => meek2_minv hac st hst t)
      exact fold_inv (fun st : GG n × Bool => MInv D st.1) _ _ (fun st hst t ht => defMeek1_minv hac hn st hst t ht) _ h
    rw [defMeekLoop] at hr
    split at hr
    · exact ih _ hpass hr
    · simp at hr; rw [← hr]; exact hpass

theorem definiteMeek_oracle {D : Fin n → Fin n → Prop} (hac : Acyclic D) {k : Know n} {G : GG n} {st : DefSt n}
    (h : DefDone D G st) : ∃ H, definiteMeek k st = some H ∧ MInv D H ∧ Refines st.G H := by
  obtain ⟨H, h1, -, -, h4, -⟩ := defMeekLoop_spec k st.uc st.nonUC st.G.triangles st.G.kites (n * n + 1) st.G
    h.done.inv.pd h.done.sound (Nat.lt_succ_of_le (undCount_le _))
  exact ⟨H, h1, defMeekLoop_minv hac (fun t ht => (h.uc t ht).2.2) (fun t ht => (h.nonUC t ht).2) _ _ _ h.done.minv h1, h4⟩

/-! ### the skeleton phase -/

theorem DSepOracle.setBased {D : Fin n → Fin n → Prop} {ind : CI n} (ho : DSepOracle D ind) : SetBased ind := by
  intro x y S T hne hS hT hx hy hST
  have e : {z | z ∈ S} = {z | z ∈ T} := by ext z; exact hST z
  have h1 := ho x y S hne hS hx hy
  have h2 := ho x y T hne hT (fun h => hx ((hST x).2 h)) (fun h => hy ((hST y).2 h))
  rw [e] at h1
  rw [Bool.eq_iff_iff, h1, h2]

theorem skeleton_oracle {D : Fin n → Fin n → Prop} (hac : Acyclic D) {ind : CI n} (ho : DSepOracle D ind)
    (stable : Bool) (k : Know n) (hk : k.TrueOf D)
    (hst : stable = true ∨ ∀ a b, ¬ (k.forb a b = true ∧ k.forb b a = true)) :
    ∃ r, skeletonDiscovery stable ind k = some r ∧ PInv D r.1 ∧ Sound r.1 ∧
      (∀ a b, r.1.g a b ≠ .arrow) ∧
      ∀ x y z, x ≠ z → Adj D x y → Adj D z y → ¬ Adj D x z → (sepAvoids r.2 (x, y, z) = true ↔ Collider D x y z ∨
        (k.forb x z = true ∧ k.forb z x = true ∧ sepAvoids r.2 (x, y, z) = true)) := by
  classical
  obtain ⟨r, h, hr⟩ := C15_exact_skeleton stable ind k (Adj D) (fun _ _ h => h.symm)
    (fun x h => hac.ne_of_adj h rfl) hst
    (fun a b h1 h2 h => h.elim (hk.forb _ _ h1) (hk.forb _ _ h2)) ho.setBased
    (by
      intro x y S hS hx hy ha
      by_contra hc
      have hne := hac.ne_of_adj ha
      exact (ho x y S hne hS hx hy).1 (by simpa using hc) (dConn_of_adj hne ha))
    (by
      intro x y hne hna
      have key : ∀ v w : Fin n, v ≠ w → ¬ Adj D v w → DSep D {p | D p v} v w →
          ∃ S : List (Fin n), S.Nodup ∧ (∀ z ∈ S, Adj D v z) ∧ ind v w S = true := by
        intro v w hvw hna hs
        have hm : ∀ p, p ∈ (List.finRange n).filter (fun p => decide (D p v)) ↔ D p v := by
          intro p; simp
        have hnd : ((List.finRange n).filter (fun p => decide (D p v))).Nodup := (List.nodup_finRange n).filter _
        refine ⟨_, hnd, fun z hz => Or.inr ((hm z).1 hz), (ho v w _ hvw hnd ?_ ?_).2 ?_⟩
        · intro hv; exact hac.irrefl _ ((hm v).1 hv)
        · intro hw; exact hna (Or.inr ((hm w).1 hw))
        · convert hs using 1
          ext p; exact hm p
      rcases exists_parents_sep hac hne hna with hs | hs
      · obtain ⟨S, h1, h2, h3⟩ := key x y hne hna hs
        exact ⟨S, h1, Or.inl ⟨h2, h3⟩⟩
      · obtain ⟨S, h1, h2, h3⟩ := key y x hne.symm (fun h => hna h.symm) (dSep_symm.1 hs)
        exact ⟨S, h1, Or.inr ⟨h2, h3⟩⟩)
  obtain ⟨r', h', hi, -⟩ := skeleton_spec stable ind k
  obtain rfl : r = r' := by rw [h] at h'; exact Option.some.inj h'
  have hno : ∀ a b, r.1.g a b ≠ .arrow := by
    intro a b hab
    have := (hr a b).2 (by unfold IsEdge; rw [hab]; simp)
    rw [this.1] at hab; simp at hab
  refine ⟨r, h, ⟨hi.und.pd, fun a b => (hr a b).1, fun a b hab => absurd hab (hno _ _)⟩, ?_, hno, ?_⟩
  · refine ⟨fun a => by simp [isAncestorOf, hi.dp], fun a b hab => ?_⟩
    simp only [isAncestorOf, hi.dp, decide_eq_true_eq] at hab
    rw [hab]; exact ReflTransGen.refl
  · intro x y z hne hxy hzy hna
    have hnull : r.1.g x z = .null := by
      by_contra hc; exact hna ((hr x z).1.1 hc)
    obtain ⟨L, hL, hg⟩ := hi.good x z hne hnull
    have hL1 : sepAvoids r.2 (x, y, z) = true ↔ ∀ S ∈ L, y ∉ S := by
      unfold sepAvoids; dsimp only; rw [hL]; simp
    have h1 := hac.ne_of_adj hxy
    have h2 := (hac.ne_of_adj hzy).symm
    have hds : ∀ S', Ind2 ind x z S' → DSep D {p | p ∈ S'} x z := by
      rintro S' ⟨a1, a2, a3, a4⟩
      rcases a4 with a4 | a4
      · exact (ho x z S' hne a1 a2 a3).1 a4
      · exact dSep_symm.1 ((ho z x S' hne.symm a1 a3 a2).1 a4)
    constructor
    · intro ha
      rcases hg with ⟨S, hS, S', hsub, hS'⟩ | hb
      · left
        by_contra hc
        have : y ∈ S' := noncollider_mem (Z := {p | p ∈ S'}) h1 h2 hne hxy hzy.symm hc (hds S' hS')
        exact hL1.1 ha S hS (hsub this)
      · right
        simp only [Know.ban, Bool.and_eq_true] at hb
        exact ⟨hb.1, hb.2, ha⟩
    · rintro (hc | h)
      · rw [hL1]
        intro S hS hy
        obtain ⟨S', hyS', hS'⟩ := hi.sound x z L hL S hS y hy
        exact collider_not_mem (Z := {p | p ∈ S'}) h1 h2 hne hc (hds S' hS') hyS'
      · exact h.2.2

end CL
