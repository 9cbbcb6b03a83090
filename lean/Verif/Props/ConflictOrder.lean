import Verif.Proofs.PCOracle2

/-!
# C157: conflicting colliders — with the priorities 3 and 4 the strongest evidence wins (`UCSepset.py`)
-/
namespace CL
open GG
variable {n : Nat} {P : Type} [LinearOrder P]

/-- the triple `t' = (x', y', z')` would turn around an edge that `t = (x, y, z)` wants to point at `y` -/
def Conflict (t' t : Fin n × Fin n × Fin n) : Prop :=
  (t'.2.1 = t.1 ∨ t'.2.1 = t.2.2) ∧ (t'.1 = t.2.1 ∨ t'.2.2 = t.2.1)

instance (t' t : Fin n × Fin n × Fin n) : Decidable (Conflict t' t) := by unfold Conflict; infer_instance

/-- the middle differs from the ends -/
def TripleOf (t : Fin n × Fin n × Fin n) : Prop := t.1 ≠ t.2.1 ∧ t.2.2 ≠ t.2.1

theorem collider2_g {G : GG n} (hp : PD G) {x y z : Fin n} (hxy : x ≠ y) (hzy : z ≠ y) :
    PD (G.collider2 x y z) ∧ (G.collider2 x y z).g =
      if G.Arrow y x ∨ G.Arrow y z then G.g else oriented (oriented G.g x y) z y := by
  have e : ∀ a b, G.isFullyDirected a b = true ↔ G.Arrow a b := by
    intro a b; simp [isFullyDirected, GG.Arrow]
  unfold collider2
  by_cases h : G.Arrow y x ∨ G.Arrow y z
  · rw [if_pos h, if_neg]
    · exact ⟨hp, rfl⟩
    · intro h'
      simp only [Bool.and_eq_true, Bool.not_eq_true', ← Bool.not_eq_true, e] at h'
      tauto
  · rw [if_neg h, if_pos]
    · have g1 := setDirected_g hp hxy
      have p1 := hp.of_oriented hxy g1
      have g2 := setDirected_g p1 hzy
      exact ⟨p1.of_oriented hzy g2, by rw [g2, g1]⟩
    · simp only [Bool.and_eq_true, Bool.not_eq_true', ← Bool.not_eq_true, e]
      tauto

theorem lateLoop_cons (k : Know n) (t : Fin n × Fin n × Fin n) (l : List (Fin n × Fin n × Fin n)) (G : GG n) :
    lateLoop k (t :: l) G = lateLoop k l (if k.blocksUC t.1 t.2.1 t.2.2 then G else G.collider2 t.1 t.2.1 t.2.2) := rfl

/-- triples that do not conflict with `t` do not point an edge of `t` away from its middle -/
theorem lateLoop_free (k : Know n) (t : Fin n × Fin n × Fin n) (l : List (Fin n × Fin n × Fin n))
    (hl : ∀ t' ∈ l, TripleOf t' ∧ ¬ Conflict t' t) : ∀ {H : GG n}, PD H → ¬ H.Arrow t.2.1 t.1 → ¬ H.Arrow t.2.1 t.2.2 →
      PD (lateLoop k l H) ∧ ¬ (lateLoop k l H).Arrow t.2.1 t.1 ∧ ¬ (lateLoop k l H).Arrow t.2.1 t.2.2 := by
  induction l with
  | nil => intro H hp h1 h2; exact ⟨hp, h1, h2⟩
  | cons s l ih =>
    intro H hp h1 h2
    rw [lateLoop_cons]
    have hs := hl s (List.mem_cons_self ..)
    have ih' := @ih fun t' ht' => hl t' (List.mem_cons_of_mem _ ht')
    split
    · exact ih' hp h1 h2
    · obtain ⟨p, g⟩ := collider2_g hp hs.1.1 hs.1.2
      have hc := hs.2
      have ht := hs.1
      unfold TripleOf at ht
      unfold Conflict at hc
      refine ih' p ?_ ?_
      · unfold GG.Arrow at h1 ⊢
        rw [g]
        split
        · exact h1
        · unfold oriented; grind
      · unfold GG.Arrow at h2 ⊢
        rw [g]
        split
        · exact h2
        · unfold oriented; grind

/-- an edge that points at the middle of `t` keeps doing so -/
theorem lateLoop_keep (k : Know n) (x y : Fin n) (l : List (Fin n × Fin n × Fin n)) (hl : ∀ t' ∈ l, TripleOf t') :
    ∀ {H : GG n}, PD H → H.Arrow x y → PD (lateLoop k l H) ∧ (lateLoop k l H).Arrow x y := by
  induction l with
  | nil => intro H hp h1; exact ⟨hp, h1⟩
  | cons s l ih =>
    intro H hp h1
    rw [lateLoop_cons]
    have hs := hl s (List.mem_cons_self ..)
    have ih' := @ih fun t' ht' => hl t' (List.mem_cons_of_mem _ ht')
    split
    · exact ih' hp h1
    · obtain ⟨p, g⟩ := collider2_g hp hs.1 hs.2
      unfold TripleOf at hs
      refine ih' p ?_
      unfold GG.Arrow at h1 ⊢
      rw [g]
      split
      · exact h1
      · rename_i hn
        unfold GG.Arrow at hn
        unfold oriented; grind

theorem lateLoop_wins (k : Know n) {l1 l2 : List (Fin n × Fin n × Fin n)} {t : Fin n × Fin n × Fin n} {G : GG n} (hu : Und G)
    (hl : ∀ t' ∈ l1 ++ t :: l2, TripleOf t') (hc : ∀ t' ∈ l1, ¬ Conflict t' t) (hb : k.blocksUC t.1 t.2.1 t.2.2 = false) :
    (lateLoop k (l1 ++ t :: l2) G).Arrow t.1 t.2.1 ∧ (lateLoop k (l1 ++ t :: l2) G).Arrow t.2.2 t.2.1 := by
  have hna : ∀ a b, ¬ G.Arrow a b := by
    intro a b h
    unfold GG.Arrow at h
    have := hu.mark b a
    rw [h.2] at this
    simp at this
  obtain ⟨p1, a1, a2⟩ := lateLoop_free k t l1 (fun t' ht' => ⟨hl t' (by simp [ht']), hc t' ht'⟩) hu.pd (hna _ _) (hna _ _)
  have ht := hl t (by simp)
  have e : lateLoop k (l1 ++ t :: l2) G = lateLoop k l2 ((lateLoop k l1 G).collider2 t.1 t.2.1 t.2.2) := by
    unfold lateLoop
    rw [List.foldl_append, List.foldl_cons, hb]
    rfl
  rw [e]
  obtain ⟨p2, g2⟩ := collider2_g p1 ht.1 ht.2
  rw [if_neg (by tauto)] at g2
  have hl2 : ∀ t' ∈ l2, TripleOf t' := fun t' ht' => hl t' (by simp [ht'])
  unfold TripleOf at ht
  refine ⟨(lateLoop_keep k _ _ l2 hl2 p2 ?_).2, (lateLoop_keep k _ _ l2 hl2 p2 ?_).2⟩
  · unfold GG.Arrow; rw [g2]; unfold oriented; grind
  · unfold GG.Arrow; rw [g2]; unfold oriented; grind

/-- splitting a sorted list at `t` -/
theorem sorted_split {α K : Type} [LinearOrder K] (r : K → K → Prop) (l : List (α × K)) (hl : l.Pairwise fun a b => r a.2 b.2) {p : α × K} (hp : p ∈ l) :
    ∃ l1 l2, l.map Prod.fst = l1 ++ p.1 :: l2 ∧ ∀ a ∈ l1, ∃ q ∈ l, q.1 = a ∧ r q.2 p.2 := by
  obtain ⟨s, t, rfl⟩ := List.append_of_mem hp
  refine ⟨s.map Prod.fst, t.map Prod.fst, by simp, fun a ha => ?_⟩
  obtain ⟨q, hq, rfl⟩ := List.mem_map.1 ha
  rw [List.pairwise_append] at hl
  exact ⟨q, by simp [hq], rfl, hl.2.2 q hq p (by simp)⟩

theorem pairwise_sortAsc {α K : Type} [LinearOrder K] (l : List (α × K)) : (sortAsc l).Pairwise fun a b => a.2 ≤ b.2 := by
  haveI : Std.Total (fun a b : α × K => a.2 ≤ b.2) := ⟨fun a b => le_total _ _⟩
  haveI : IsTrans (α × K) (fun a b => a.2 ≤ b.2) := ⟨fun a b c h1 h2 => le_trans h1 h2⟩
  exact List.pairwise_insertionSort _ l

theorem pairwise_sortDesc {α K : Type} [LinearOrder K] (l : List (α × K)) : (sortDesc l).Pairwise fun a b => b.2 ≤ a.2 := by
  haveI : Std.Total (fun a b : α × K => b.2 ≤ a.2) := ⟨fun a b => le_total _ _⟩
  haveI : IsTrans (α × K) (fun a b => b.2 ≤ a.2) := ⟨fun a b c h1 h2 => le_trans h2 h1⟩
  exact List.pairwise_insertionSort _ l

/-- both sorted orders at once: `asc` says which -/
theorem late_sorted (asc : Bool) {K : Type} [LinearOrder K] (k : Know n) (cands : List (Fin n × Fin n × Fin n)) (key : Fin n × Fin n × Fin n → K)
    {G : GG n} (hu : Und G) (hl : ∀ t ∈ cands, TripleOf t) {t : Fin n × Fin n × Fin n} (ht : t ∈ cands) (hb : k.blocksUC t.1 t.2.1 t.2.2 = false)
    (hs : ∀ t' ∈ cands, Conflict t' t → if asc then key t < key t' else key t' < key t) (l : List (Fin n × Fin n × Fin n))
    (hL : l = ((if asc then sortAsc (cands.map fun t => (t, key t)) else sortDesc (cands.map fun t => (t, key t))).map Prod.fst)) :
    (lateLoop k l G).Arrow t.1 t.2.1 ∧ (lateLoop k l G).Arrow t.2.2 t.2.1 := by
  subst hL
  cases asc
  · simp only [Bool.false_eq_true, if_false] at hs ⊢
    have hm : (t, key t) ∈ sortDesc (cands.map fun t => (t, key t)) := (mem_sortDesc _ _).2 (List.mem_map.2 ⟨t, ht, rfl⟩)
    obtain ⟨l1, l2, e, h1⟩ := sorted_split (fun a b => b ≤ a) _ (pairwise_sortDesc _) hm
    rw [e]
    refine lateLoop_wins k hu (fun t' ht' => ?_) (fun t' ht' hc => ?_) hb
    · rw [← e, mem_sortDesc_fst] at ht'; exact hl t' ht'
    · obtain ⟨q, hq, rfl, hle⟩ := h1 t' ht'
      rw [mem_sortDesc, List.mem_map] at hq
      obtain ⟨u, hu', rfl⟩ := hq
      exact absurd (hs u hu' hc) (not_lt.2 hle)
  · simp only [if_true] at hs ⊢
    have hm : (t, key t) ∈ sortAsc (cands.map fun t => (t, key t)) := (mem_sortAsc _ _).2 (List.mem_map.2 ⟨t, ht, rfl⟩)
    obtain ⟨l1, l2, e, h1⟩ := sorted_split (fun a b => a ≤ b) _ (pairwise_sortAsc _) hm
    rw [e]
    refine lateLoop_wins k hu (fun t' ht' => ?_) (fun t' ht' hc => ?_) hb
    · rw [← e, mem_sortAsc_fst] at ht'; exact hl t' ht'
    · obtain ⟨q, hq, rfl, hle⟩ := h1 t' ht'
      rw [mem_sortAsc, List.mem_map] at hq
      obtain ⟨u, hu', rfl⟩ := hq
      exact absurd (hs u hu' hc) (not_lt.2 hle)

theorem tripleOf_ut {G : GG n} (hu : Und G) {t : Fin n × Fin n × Fin n} (h : t ∈ orderedUT G) : TripleOf t := by
  obtain ⟨_, h1, h2, _⟩ := (mem_orderedUT hu.pd t.1 t.2.1 t.2.2).1 h
  exact ⟨fun e => h1 (by rw [e]; exact hu.pd.diag _), fun e => h2 (by rw [e]; exact hu.pd.diag _)⟩

/-- an unshielded triple `x – y – z` of the skeleton `G` (with `x < z`) that the background knowledge lets be a collider -/
def Triple (k : Know n) (G : GG n) (t : Fin n × Fin n × Fin n) : Prop :=
  t.1 < t.2.2 ∧ G.g t.1 t.2.1 ≠ .null ∧ G.g t.2.1 t.2.2 ≠ .null ∧ G.g t.1 t.2.2 = .null ∧ k.blocksUC t.1 t.2.1 t.2.2 = false

/-- the largest p-value of the end points given the tested sets with (`b`) or without the middle -/
def evidence (T : TestFn n P) (G : GG n) (b : Bool) (t : Fin n × Fin n × Fin n) : WithBot P :=
  maxP T t.1 t.2.2 ((condSets G t.1 t.2.2).filter fun S => decide (t.2.1 ∈ S) == b)

/-- `t` has stronger evidence than `t'`: with priority 3 a smaller p-value given the middle, with priority 4 a larger one without it -/
def Stronger (T : TestFn n P) (G : GG n) (prio : Nat) (t t' : Fin n × Fin n × Fin n) : Prop :=
  if prio = 3 then evidence T G true t < evidence T G true t' else evidence T G false t' < evidence T G false t

/-- C157. `uc_sepset` with priority 3 or 4, on any skeleton and with any test results, consistent or not: a candidate (no recorded separating set contains
the middle) whose evidence is stronger than that of every candidate in conflict with it becomes a collider. -/
theorem C157_uc_sepset (T : TestFn n P) (prio : Nat) (h34 : prio = 3 ∨ prio = 4) (k : Know n) (G : GG n) (hu : Und G) (sep : Sep n)
    (t : Fin n × Fin n × Fin n) (ht : Triple k G t ∧ ∀ S ∈ (sep t.1 t.2.2).getD [], t.2.1 ∉ S)
    (hs : ∀ t', Triple k G t' → (∀ S ∈ (sep t'.1 t'.2.2).getD [], t'.2.1 ∉ S) → Conflict t' t → Stronger T G prio t t') :
    (ucSepset T prio k G sep).Arrow t.1 t.2.1 ∧ (ucSepset T prio k G sep).Arrow t.2.2 t.2.1 := by
  have hmem : ∀ t, t ∈ (orderedUT G).filter (fun t => !k.blocksUC t.1 t.2.1 t.2.2 && sepAvoids sep t) ↔
      Triple k G t ∧ ∀ S ∈ (sep t.1 t.2.2).getD [], t.2.1 ∉ S := by
    intro t
    rw [List.mem_filter, show t ∈ orderedUT G ↔ _ from mem_orderedUT hu.pd t.1 t.2.1 t.2.2]
    simp only [Bool.and_eq_true, Bool.not_eq_true', sepAvoids, List.all_eq_true, decide_eq_true_eq, Triple]
    tauto
  have hl : ∀ t ∈ (orderedUT G).filter (fun t => !k.blocksUC t.1 t.2.1 t.2.2 && sepAvoids sep t), TripleOf t :=
    fun t ht => tripleOf_ut hu (List.mem_of_mem_filter ht)
  unfold ucSepset
  dsimp only
  rcases h34 with rfl | rfl
  · refine late_sorted true k _ (evidence T G true) hu hl ((hmem t).2 ht) ht.1.2.2.2.2 (fun t' ht' hc => ?_) _ ?_
    · exact hs t' ((hmem t').1 ht').1 ((hmem t').1 ht').2 hc
    · simp [evidence]
  · refine late_sorted false k _ (evidence T G false) hu hl ((hmem t).2 ht) ht.1.2.2.2.2 (fun t' ht' hc => ?_) _ ?_
    · exact hs t' ((hmem t').1 ht').1 ((hmem t').1 ht').2 hc
    · simp [evidence]

/-- C157. The same for `maxp`, whose candidates are the triples with a larger p-value without the middle than with it. -/
theorem C157_maxp (T : TestFn n P) (prio : Nat) (h34 : prio = 3 ∨ prio = 4) (k : Know n) (G : GG n) (hu : Und G)
    (t : Fin n × Fin n × Fin n) (ht : Triple k G t ∧ evidence T G true t < evidence T G false t)
    (hs : ∀ t', Triple k G t' → evidence T G true t' < evidence T G false t' → Conflict t' t → Stronger T G prio t t') :
    (maxp T prio k G).Arrow t.1 t.2.1 ∧ (maxp T prio k G).Arrow t.2.2 t.2.1 := by
  have e1 : ∀ t, maxP T t.1 t.2.2 ((condSets G t.1 t.2.2).filter fun S => decide (t.2.1 ∈ S)) = evidence T G true t := by
    intro t; simp [evidence]
  have e2 : ∀ t, maxP T t.1 t.2.2 ((condSets G t.1 t.2.2).filter fun S => decide (t.2.1 ∉ S)) = evidence T G false t := by
    intro t; simp [evidence]
  have hmem : ∀ t, t ∈ (orderedUT G).filter (fun t => !k.blocksUC t.1 t.2.1 t.2.2 && decide (evidence T G true t < evidence T G false t)) ↔
      Triple k G t ∧ evidence T G true t < evidence T G false t := by
    intro t
    rw [List.mem_filter, show t ∈ orderedUT G ↔ _ from mem_orderedUT hu.pd t.1 t.2.1 t.2.2]
    simp only [Bool.and_eq_true, Bool.not_eq_true', decide_eq_true_eq, Triple]
    tauto
  have hl : ∀ t ∈ (orderedUT G).filter (fun t => !k.blocksUC t.1 t.2.1 t.2.2 && decide (evidence T G true t < evidence T G false t)), TripleOf t :=
    fun t ht => tripleOf_ut hu (List.mem_of_mem_filter ht)
  unfold maxp
  dsimp only
  simp only [e1, e2]
  rcases h34 with rfl | rfl
  · exact late_sorted true k _ (evidence T G true) hu hl ((hmem t).2 ht) ht.1.2.2.2.2
      (fun t' ht' hc => hs t' ((hmem t').1 ht').1 ((hmem t').1 ht').2 hc) _ rfl
  · exact late_sorted false k _ (evidence T G false) hu hl ((hmem t).2 ht) ht.1.2.2.2.2
      (fun t' ht' hc => hs t' ((hmem t').1 ht').1 ((hmem t').1 ht').2 hc) _ rfl

/-- as `evidence`, but `definite_maxp` starts its maxima at 0 -/
def evidence0 (T : TestFn n P) (zero : P) (G : GG n) (b : Bool) (t : Fin n × Fin n × Fin n) : P :=
  (((condSets G t.1 t.2.2).filter fun S => decide (t.2.1 ∈ S) == b).map (T.pval t.1 t.2.2)).foldl max zero

/-- what `definite_maxp` takes as a collider: the ends are dependent given every tested set with the middle, and independent given some tested set
without it or at least with a larger p-value -/
def DefCand (T : TestFn n P) (zero : P) (G : GG n) (t : Fin n × Fin n × Fin n) : Prop :=
  (∀ S ∈ condSets G t.1 t.2.2, t.2.1 ∈ S → T.ind t.1 t.2.2 S = false) ∧
    ((∃ S ∈ condSets G t.1 t.2.2, t.2.1 ∉ S ∧ T.ind t.1 t.2.2 S = true) ∨ evidence0 T zero G true t < evidence0 T zero G false t)

/-- C157. The same for `definite_maxp`. -/
theorem C157_definite_maxp (T : TestFn n P) (zero : P) (prio : Nat) (h34 : prio = 3 ∨ prio = 4) (k : Know n) (G : GG n) (hu : Und G)
    (t : Fin n × Fin n × Fin n) (ht : Triple k G t ∧ DefCand T zero G t)
    (hs : ∀ t', t'.1 < t'.2.2 → G.g t'.1 t'.2.1 ≠ .null → G.g t'.2.1 t'.2.2 ≠ .null → G.g t'.1 t'.2.2 = .null → DefCand T zero G t' → Conflict t' t →
      if prio = 3 then evidence0 T zero G true t < evidence0 T zero G true t' else evidence0 T zero G false t' < evidence0 T zero G false t) :
    (definiteMaxp T zero prio k G).G.Arrow t.1 t.2.1 ∧ (definiteMaxp T zero prio k G).G.Arrow t.2.2 t.2.1 := by
  let isUC (t : Fin n × Fin n × Fin n) : Bool :=
    (defScan T zero G t).1 &&
      (!(defScan T zero G t).2.1 || decide ((defScan T zero G t).2.2.1 < (defScan T zero G t).2.2.2))
  let isNonUC (t : Fin n × Fin n × Fin n) : Bool := (defScan T zero G t).2.1 && !isUC t
  have e1 : ∀ t, (defScan T zero G t).2.2.1 = evidence0 T zero G true t := by intro t; simp [evidence0, defScan]
  have e2 : ∀ t, (defScan T zero G t).2.2.2 = evidence0 T zero G false t := by intro t; simp [evidence0, defScan]
  have hmem : ∀ t, t ∈ (orderedUT G).filter isUC ↔
      (t.1 < t.2.2 ∧ G.g t.1 t.2.1 ≠ .null ∧ G.g t.2.1 t.2.2 ≠ .null ∧ G.g t.1 t.2.2 = .null) ∧ DefCand T zero G t := by
    intro t
    rw [List.mem_filter, show t ∈ orderedUT G ↔ _ from mem_orderedUT hu.pd t.1 t.2.1 t.2.2]
    simp only [isUC, e1, e2, Bool.and_eq_true, Bool.or_eq_true, Bool.not_eq_true', decide_eq_true_eq, DefCand]
    simp only [defScan, List.all_eq_true, List.mem_filter, decide_eq_true_eq, Bool.not_eq_true', and_imp, ← Bool.not_eq_true (List.all _ _),
      not_forall, Bool.not_eq_false, exists_prop]
  have hl : ∀ t ∈ (orderedUT G).filter isUC, TripleOf t := fun t ht => tripleOf_ut hu (List.mem_of_mem_filter ht)
  let f (st : DefSt n) (t : Fin n × Fin n × Fin n) : DefSt n :=
      if k.blocksUC t.1 t.2.1 t.2.2 then st
      else if !st.G.isFullyDirected t.2.1 t.1 && !st.G.isFullyDirected t.2.1 t.2.2 then
        ⟨(st.G.setDirected t.1 t.2.1).setDirected t.2.2 t.2.1, st.uc ++ [t], st.nonUC⟩
      else st
  let items := ((orderedUT G).filter isUC).map fun t =>
    (t, if prio = 4 then (defScan T zero G t).2.2.2 else (defScan T zero G t).2.2.1)
  let l := ((if prio = 3 then sortAsc items else if prio = 4 then sortDesc items else items).map Prod.fst)
  have hfold : ∀ (l : List (Fin n × Fin n × Fin n)) (st : DefSt n), (l.foldl f st).G = lateLoop k l st.G := by
    intro l
    induction l with
    | nil => intro st; rfl
    | cons t l ih =>
      intro st
      rw [List.foldl_cons, ih, lateLoop_cons]
      congr 1
      simp only [f, collider2]
      split
      · rfl
      · split <;> rfl
  have e : definiteMaxp T zero prio k G = l.foldl f ⟨G, [], (orderedUT G).filter isNonUC⟩ := rfl
  rw [e, hfold]
  have htm := (hmem t).2 ⟨⟨ht.1.1, ht.1.2.1, ht.1.2.2.1, ht.1.2.2.2.1⟩, ht.2⟩
  have hb := ht.1.2.2.2.2
  rcases h34 with rfl | rfl
  · refine late_sorted true k _ (evidence0 T zero G true) hu hl htm hb (fun t' ht' hc => ?_) l ?_
    · obtain ⟨⟨h1, h2, h3, h4⟩, h5⟩ := (hmem t').1 ht'
      exact hs t' h1 h2 h3 h4 h5 hc
    · simp [l, items, e1]
  · refine late_sorted false k _ (evidence0 T zero G false) hu hl htm hb (fun t' ht' hc => ?_) l ?_
    · obtain ⟨⟨h1, h2, h3, h4⟩, h5⟩ := (hmem t').1 ht'
      exact hs t' h1 h2 h3 h4 h5 hc
    · simp [l, items, e2]

/-- the chain `0 – 1 – 2 – 3` -/
def conflictG : GG 4 := ⟨fun a b => if a.val + 1 = b.val ∨ b.val + 1 = a.val then .tail else .null, fun a b => a == b⟩

/-- both `0 – 1 – 2` and `1 – 2 – 3` look like colliders, the second one more strongly (smaller p-values given the middle) -/
def conflictT : TestFn 4 Nat := ⟨fun x z S => if 1 ∈ S ∧ x + z = 2 then 2 else if 2 ∈ S ∧ x + z = 4 then 1 else 9, 5⟩

theorem chainG_und : Und conflictG := ⟨by decide, by decide, by decide⟩

/-- the hypotheses hold for `(1, 2, 3)`, which wins against `(0, 1, 2)` -/
example : (Triple Know.none conflictG (1, 2, 3) ∧ evidence conflictT conflictG true (1, 2, 3) < evidence conflictT conflictG false (1, 2, 3)) ∧
    (∀ t', Triple Know.none conflictG t' → evidence conflictT conflictG true t' < evidence conflictT conflictG false t' → Conflict t' (1, 2, 3) →
      Stronger conflictT conflictG 3 (1, 2, 3) t') ∧ Conflict (0, 1, 2) ((1, 2, 3) : Fin 4 × Fin 4 × Fin 4) ∧
    (maxp conflictT 3 Know.none conflictG).Arrow 1 2 ∧ ¬ (maxp conflictT 3 Know.none conflictG).Arrow 2 1 := by
  unfold Triple Stronger
  decide +kernel

end CL
