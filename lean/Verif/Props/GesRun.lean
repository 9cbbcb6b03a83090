import Verif.Props.Ges
import Mathlib.Data.Fintype.Prod
import Mathlib.Data.Fintype.Card

/-!
# C36: every state of GES is an essential graph, its score is right, and both phases end in a local optimum
-/
namespace CL
namespace Ges
open GG Spec Relation
variable {n : Nat}

/-! ## Specification -/

/-- `P` is the essential graph (CPDAG) of the DAG `E`: same adjacencies; directed exactly where all Markov-equivalent DAGs
agree. -/
structure Essential (P : GG n) (E : Fin n → Fin n → Prop) : Prop where
  acyclic : Acyclic E
  null : ∀ a b, P.g a b = .null ↔ ¬ Adj E a b
  arrow : ∀ a b, P.Arrow a b ↔ Compelled E a b
  und : ∀ a b, P.Und a b ↔ UndE E a b

variable {K : Type} [AddCommGroup K]

open Classical in
/-- the score of a DAG: the sum of the local scores of its nodes given their parents -/
noncomputable def dagScore (sc : Fin n → Finset (Fin n) → K) (D : Fin n → Fin n → Prop) : K :=
  ∑ v, sc v (Finset.univ.filter fun w => D w v)

/-- Markov-equivalent DAGs have the same score -/
def ScoreEquiv (sc : Fin n → Finset (Fin n) → K) : Prop :=
  ∀ D F : Fin n → Fin n → Prop, Acyclic D → Acyclic F → MarkovEquiv D F → dagScore sc D = dagScore sc F

open Classical in
/-- the number of ordered pairs of adjacent nodes (twice the number of edges) -/
noncomputable def adjCount (D : Fin n → Fin n → Prop) : Nat := (Finset.univ.filter fun p : Fin n × Fin n => Adj D p.1 p.2).card

/-! ## Basic facts -/

theorem Essential.congr {P : GG n} {E F : Fin n → Fin n → Prop} (h : Essential P E) (hF : Acyclic F) (he : MarkovEquiv E F) :
    Essential P F := by
  have hc := compelled_congr h.acyclic hF he
  refine ⟨hF, fun a b => by rw [h.null, he.1], fun a b => by rw [h.arrow, hc], fun a b => ?_⟩
  rw [h.und]; unfold UndE; rw [he.1, hc, hc]

theorem Essential.equiv {P : GG n} {E F : Fin n → Fin n → Prop} (h : Essential P E) (h' : Essential P F) : MarkovEquiv E F := by
  have hadj : ∀ a b, Adj E a b ↔ Adj F a b := fun a b => by
    have h1 := h.null a b; have h2 := h'.null a b; rw [h1] at h2; exact not_iff_not.1 h2
  have hcm : ∀ a b, Compelled E a b ↔ Compelled F a b := fun a b => by rw [← h.arrow, ← h'.arrow]
  refine ⟨hadj, fun a b c => ⟨fun hv => ?_, fun hv => ?_⟩⟩
  · exact ⟨hv.1, fun hc => hv.2.1 ((hadj a c).2 hc),
      ((hcm a b).1 ⟨hv.2.2.1, fun K _ he => ((he.2 a b c).1 hv).2.2.1⟩).1,
      ((hcm c b).1 ⟨hv.2.2.2, fun K _ he => ((he.2 a b c).1 hv).2.2.2⟩).1⟩
  · exact ⟨hv.1, fun hc => hv.2.1 ((hadj a c).1 hc),
      ((hcm a b).2 ⟨hv.2.2.1, fun K _ he => ((he.2 a b c).1 hv).2.2.1⟩).1,
      ((hcm c b).2 ⟨hv.2.2.2, fun K _ he => ((he.2 a b c).1 hv).2.2.2⟩).1⟩

theorem Essential.isPdag {P : GG n} {E : Fin n → Fin n → Prop} (h : Essential P E) : P.IsPdag := by
  refine ⟨fun a b hab => ?_, fun a => (h.null a a).2 ?_⟩
  · have ha : Adj E a b := by by_contra hc; exact hab ((h.null a b).2 hc)
    rcases adj_cases a b ha with h1 | h1 | h1
    · exact Or.inl ((h.arrow a b).2 h1)
    · exact Or.inr (Or.inl ((h.arrow b a).2 h1))
    · exact Or.inr (Or.inr ((h.und a b).2 h1))
  · rintro (hc | hc) <;> exact h.acyclic.irrefl _ hc

theorem Essential.arrow' {P : GG n} {E : Fin n → Fin n → Prop} (h : Essential P E) (a b : Fin n) :
    P.g b a = .arrow ↔ Compelled E a b := by
  rw [← h.arrow]
  unfold GG.Arrow
  rcases h.isPdag.cases a b with h1 | h1 | h1 | h1 <;> simp [h1]

theorem Essential.semi {P : GG n} {E : Fin n → Fin n → Prop} (h : Essential P E) (a b : Fin n) : SemiP P a b ↔ Semi E a b := by
  unfold SemiP Semi
  rw [h.arrow', ← h.und]
  rfl

theorem Essential.mem_undN {P : GG n} {E : Fin n → Fin n → Prop} (h : Essential P E) (j k : Fin n) : k ∈ undN P j ↔ UndE E k j := by
  rw [← h.und]; simp [undN, GG.Und]

theorem Essential.mem_adjN {P : GG n} {E : Fin n → Fin n → Prop} (h : Essential P E) (i k : Fin n) : k ∈ adjN P i ↔ Adj E k i := by
  have h1 := h.null k i
  have h2 := h.null i k
  have h3 : Adj E i k ↔ Adj E k i := ⟨fun h => h.symm, fun h => h.symm⟩
  simp only [adjN, Finset.mem_filter, Finset.mem_univ, true_and, ne_eq, h1, h2, h3, or_self, not_not]

theorem Essential.mem_parN {P : GG n} {E : Fin n → Fin n → Prop} (h : Essential P E) (j k : Fin n) : k ∈ parN P j ↔ Compelled E k j := by
  rw [← h.arrow']; simp [parN]

theorem Essential.mem_naN {P : GG n} {E : Fin n → Fin n → Prop} (h : Essential P E) (i j k : Fin n) :
    k ∈ naN P i j ↔ UndE E k j ∧ Adj E k i := by
  unfold naN; rw [Finset.mem_inter, h.mem_undN, h.mem_adjN]

/-- two consistent extensions of one partially directed graph are Markov equivalent -/
theorem ext_equiv {P : GG n} {D F : Fin n → Fin n → Prop} (h : ConsistentExt P D) (h' : ConsistentExt P F) : MarkovEquiv D F := by
  have hadj : ∀ a b, Adj D a b ↔ Adj F a b := fun a b => by rw [h.skel, h'.skel]
  refine ⟨hadj, fun a b c => ⟨fun hv => ?_, fun hv => ?_⟩⟩
  · have := h.colliders a b c hv
    exact ⟨hv.1, fun hc => hv.2.1 ((hadj a c).2 hc), h'.keeps _ _ this.1, h'.keeps _ _ this.2⟩
  · have := h'.colliders a b c hv
    exact ⟨hv.1, fun hc => hv.2.1 ((hadj a c).1 hc), h.keeps _ _ this.1, h.keeps _ _ this.2⟩

/-- `pdag2dag` followed by `dag2cpdag` turns an extendable graph into the essential graph of its extensions -/
theorem convert {P : GG n} (hP : P.IsPdag) {F : Fin n → Fin n → Prop} (hF : ConsistentExt P F) :
    ∃ D H, P.pdag2dag n = some D ∧ D.dag2cpdag (n * n + n + 1) = .ok H ∧ Essential H F := by
  obtain ⟨D, hD⟩ := (C24_terminates_iff_extendable hP).1 ⟨F, hF⟩
  have hD' := hD n (le_refl n)
  obtain ⟨hdag, hext⟩ := C23_consistent_extension hP hD'
  obtain ⟨H, hH, sH⟩ := C25_essential_graph hdag
  refine ⟨D, H, hD', hH _ (by omega), ?_⟩
  have : Essential H D.Arrow := ⟨hdag.acyclic, fun a b => (sH a b).1, fun a b => (sH a b).2.1, fun a b => (sH a b).2.2⟩
  exact this.congr hF.acyclic (ext_equiv hext hF)

/-! ## The operators on the matrix -/

theorem pd_of_isPdag {P : GG n} (h : P.IsPdag) : PD P := by
  refine ⟨fun a b => ?_, fun a b hab => (h.symm a b).1 hab, h.noLoop⟩
  rcases h.cases a b with h1 | h1 | h1 | h1 <;> simp [h1.1]

theorem addArrow_g {G : GG n} {x y : Fin n} (h : G.g x y = .null) (h' : G.g y x = .null) :
    (G.addEdge (mkEdge x y .tail .arrow)).2.g = oriented G.g x y := by
  funext a b
  have := addTail_g h h' true a b
  simpa [oriented] using this

theorem insertDirect_g {G : GG n} (hG : PD G) {t j : Fin n} (htj : t ≠ j) : (insertDirect j G t).g = oriented G.g t j := by
  unfold insertDirect
  have hr := removeIfEdge_pd_g hG t j
  rw [addArrow_g (by rw [hr]; simp [cleared]) (by rw [hr]; simp [cleared]), hr]
  funext a b
  unfold oriented cleared
  grind

theorem insertDirect_fold {j : Fin n} : ∀ (T : List (Fin n)) (G : GG n), PD G → j ∉ T → ∀ a b,
    (T.foldl (insertDirect j) G).g a b = if a ∈ T ∧ b = j then .tail else if a = j ∧ b ∈ T then .arrow else G.g a b := by
  intro T
  induction T with
  | nil => intro G _ _ a b; simp
  | cons t T ih =>
    intro G hG hj a b
    have htj : t ≠ j := by rintro rfl; simp at hj
    have hg := insertDirect_g hG htj
    rw [List.foldl_cons, ih _ (hG.of_oriented htj hg) (fun h => hj (by simp [h])), hg]
    unfold oriented
    simp only [List.mem_cons]
    have hjT : j ∉ T := fun h => hj (by simp [h])
    grind

theorem insertOp_g {P : GG n} (hP : P.IsPdag) {d : Desc n} (h0 : P.g d.1 d.2.1 = .null) (hne : d.1 ≠ d.2.1) (hj : d.2.1 ∉ d.2.2)
    (a b : Fin n) : (insertOp P d).g a b = if (a = d.1 ∨ a ∈ d.2.2) ∧ b = d.2.1 then .tail
      else if a = d.2.1 ∧ (b = d.1 ∨ b ∈ d.2.2) then .arrow else P.g a b := by
  have hg := addArrow_g h0 ((hP.symm _ _).1 h0)
  unfold insertOp
  rw [insertDirect_fold d.2.2 _ ((pd_of_isPdag hP).of_oriented hne hg) hj, hg]
  unfold oriented
  grind

theorem deleteDirect_g {G : GG n} (hG : PD G) {i j h : Fin n} (hij : i ≠ j) (hi : h ≠ i) (hj : h ≠ j) :
    (deleteDirect i j G h).g = fun a b => if b = h ∧ (a = i ∨ a = j) then .tail else if a = h ∧ (b = i ∨ b = j) then .arrow
      else G.g a b := by
  unfold deleteDirect
  have h1 := removeIfEdge_pd_g hG j h
  have h2 := removeIfEdge_pd_g (hG.of_cleared h1) i h
  rw [h1] at h2
  have h3 := addArrow_g (G := (G.removeIfEdge j h).removeIfEdge i h) (x := j) (y := h) (by rw [h2]; unfold cleared; grind)
    (by rw [h2]; unfold cleared; grind)
  rw [h2] at h3
  rw [addArrow_g (by rw [h3]; unfold oriented cleared; grind) (by rw [h3]; unfold oriented cleared; grind), h3]
  funext a b
  unfold oriented cleared
  grind

theorem deleteDirect_fold {i j : Fin n} (hij : i ≠ j) : ∀ (H : List (Fin n)) (G : GG n), PD G → i ∉ H → j ∉ H → ∀ a b,
    (H.foldl (deleteDirect i j) G).g a b = if b ∈ H ∧ (a = i ∨ a = j) then .tail
      else if a ∈ H ∧ (b = i ∨ b = j) then .arrow else G.g a b := by
  intro H
  induction H with
  | nil => intro G _ _ _ a b; simp
  | cons h H ih =>
    intro G hG hi hj a b
    have hhi : h ≠ i := by rintro rfl; simp at hi
    have hhj : h ≠ j := by rintro rfl; simp at hj
    have hg := deleteDirect_g hG hij hhi hhj
    have hpd : PD (deleteDirect i j G h) := by
      constructor
      · intro a b; rw [hg]; have := hG.mark a b; grind
      · intro a b; rw [hg]; have := hG.symm a b; grind
      · intro a; rw [hg]; have := hG.diag a; grind
    rw [List.foldl_cons, ih _ hpd (fun h => hi (by simp [h])) (fun h => hj (by simp [h])), hg]
    simp only [List.mem_cons]
    have hiH : i ∉ H := fun h => hi (by simp [h])
    have hjH : j ∉ H := fun h => hj (by simp [h])
    grind

theorem deleteOp_g {P : GG n} (hP : P.IsPdag) {d : Desc n} (hne : d.1 ≠ d.2.1) (hi : d.1 ∉ d.2.2) (hj : d.2.1 ∉ d.2.2)
    (a b : Fin n) : (deleteOp P d).g a b = if b ∈ d.2.2 ∧ (a = d.1 ∨ a = d.2.1) then .tail
      else if a ∈ d.2.2 ∧ (b = d.1 ∨ b = d.2.1) then .arrow
      else if (a = d.1 ∧ b = d.2.1) ∨ (a = d.2.1 ∧ b = d.1) then .null else P.g a b := by
  have hg := removeIfEdge_pd_g (pd_of_isPdag hP) d.1 d.2.1
  unfold deleteOp
  rw [deleteDirect_fold hne d.2.2 _ ((pd_of_isPdag hP).of_cleared hg) hi hj, hg]
  rfl

/-! ## Scores and counts -/

theorem dagScore_change {sc : Fin n → Finset (Fin n) → K} {D D' : Fin n → Fin n → Prop} {j : Fin n}
    (h : ∀ a b, b ≠ j → (D a b ↔ D' a b)) {A A' : Finset (Fin n)} (hA : ∀ w, D w j ↔ w ∈ A) (hA' : ∀ w, D' w j ↔ w ∈ A') :
    dagScore sc D' = dagScore sc D + (sc j A' - sc j A) := by
  classical
  unfold dagScore
  rw [← Finset.add_sum_erase _ _ (Finset.mem_univ j), ← Finset.add_sum_erase (f := fun v => sc v (Finset.univ.filter fun w => D w v)) _
    (Finset.mem_univ j)]
  have e1 : (Finset.univ.filter fun w => D w j) = A := by ext w; simp [hA]
  have e2 : (Finset.univ.filter fun w => D' w j) = A' := by ext w; simp [hA']
  rw [e1, e2]
  have e3 : ∑ v ∈ Finset.univ.erase j, sc v (Finset.univ.filter fun w => D' w v) =
      ∑ v ∈ Finset.univ.erase j, sc v (Finset.univ.filter fun w => D w v) := by
    refine Finset.sum_congr rfl fun v hv => ?_
    congr 1
    ext w
    simp [h w v (Finset.ne_of_mem_erase hv)]
  rw [e3]
  abel

theorem adjCount_congr {D F : Fin n → Fin n → Prop} (h : ∀ a b, Adj D a b ↔ Adj F a b) : adjCount D = adjCount F := by
  unfold adjCount
  congr 1
  ext p
  simp [h]

theorem adjCount_add {D : Fin n → Fin n → Prop} {i j : Fin n} (hij : i ≠ j) (hna : ¬ Adj D i j) :
    adjCount (addArc D i j) = adjCount D + 2 := by
  classical
  unfold adjCount
  have e : (Finset.univ.filter fun p : Fin n × Fin n => Adj (addArc D i j) p.1 p.2) =
      insert (i, j) (insert (j, i) (Finset.univ.filter fun p : Fin n × Fin n => Adj D p.1 p.2)) := by
    ext ⟨a, b⟩
    rw [Finset.mem_filter, Finset.mem_insert, Finset.mem_insert, Finset.mem_filter]
    simp only [Finset.mem_univ, true_and, Prod.mk.injEq, Adj, addArc]
    tauto
  rw [e, Finset.card_insert_of_notMem, Finset.card_insert_of_notMem]
  · simp only [Finset.mem_filter, Finset.mem_univ, true_and]
    exact fun h => hna h.symm
  · simp only [Finset.mem_insert, Finset.mem_filter, Finset.mem_univ, true_and, Prod.mk.injEq]
    rintro (h | h)
    · exact hij h.1
    · exact hna h

theorem adjCount_del {D : Fin n → Fin n → Prop} (hD : Acyclic D) {i j : Fin n} (h : D i j) :
    adjCount (delArc D i j) + 2 = adjCount D := by
  have hij : i ≠ j := by rintro rfl; exact hD.irrefl _ h
  rw [← adjCount_add hij (D := delArc D i j)]
  · apply adjCount_congr
    intro a b
    have : ∀ a b, addArc (delArc D i j) i j a b ↔ D a b := by
      intro a b
      unfold addArc delArc
      constructor
      · rintro (h' | ⟨rfl, rfl⟩)
        · exact h'.1
        · exact h
      · intro h'
        by_cases he : a = i ∧ b = j
        · exact Or.inr he
        · exact Or.inl ⟨h', he⟩
    unfold Adj
    rw [this, this]
  · rintro (h1 | h1)
    · exact h1.2 ⟨rfl, rfl⟩
    · exact hD.asymm h h1.1

theorem adjCount_le (D : Fin n → Fin n → Prop) : adjCount D ≤ n * n := by
  classical
  unfold adjCount
  refine le_trans (Finset.card_le_univ _) ?_
  simp

/-! ## One step -/

variable [LinearOrder K]

theorem insert_step {sc : Fin n → Finset (Fin n) → K} {maxP : Nat} {P : GG n} {E : Fin n → Fin n → Prop} (h : Essential P E) {d : Desc n}
    (hv : ValidInsert P maxP d) :
    ∃ F F', Acyclic F ∧ MarkovEquiv E F ∧ F' = addArc F d.1 d.2.1 ∧ Acyclic F' ∧ dagScore sc F' = dagScore sc F + insertDelta sc P d ∧
      (insertOp P d).IsPdag ∧ ConsistentExt (insertOp P d) F' ∧ adjCount F' = adjCount F + 2 := by
  obtain ⟨i, j, T⟩ := d
  have hP := h.isPdag
  have hpair := hv.pair
  simp only [insertPair, Bool.and_eq_true, beq_iff_eq, bne_iff_ne] at hpair
  obtain ⟨⟨⟨h0, h0'⟩, hij⟩, -⟩ := hpair
  have hna : ¬ Adj E i j := (h.null i j).1 h0
  have hsub := (subset_of_combinatorial hv.sub).2
  dsimp only at hsub h0 h0' hij hna
  have hT : ∀ t ∈ T, UndE E t j ∧ ¬ Adj E t i := by
    intro t ht
    have := hsub (List.mem_toFinset.2 ht)
    simp only [Finset.mem_inter, Finset.mem_sdiff, Finset.mem_univ, true_and, h.mem_undN, h.mem_adjN] at this
    exact this
  have hjT : j ∉ T := fun hj => (hT j hj).1.ne h.acyclic rfl
  have hiT : i ∉ T := fun hi => hna (hT i hi).1.1
  have hK : ∀ a ∈ naN P i j ∪ T.toFinset, UndE E a j := by
    intro a ha
    rcases Finset.mem_union.1 ha with ha | ha
    · exact ((h.mem_naN i j a).1 ha).1
    · exact (hT a (List.mem_toFinset.1 ha)).1
  have hc : ∀ a ∈ naN P i j ∪ T.toFinset, ∀ b ∈ naN P i j ∪ T.toFinset, a ≠ b → Adj E a b := by
    intro a ha b hb hab
    by_contra hc
    exact hv.clique a ha b hb hab ((h.null a b).2 hc)
  have hpath : ¬ ReflTransGen (fun a b => Semi E a b ∧ b ∉ naN P i j ∪ T.toFinset) j i := by
    intro hr
    exact hv.path (ReflTransGen.mono (fun a b hab => ⟨(h.semi a b).2 hab.1, hab.2⟩) j i hr)
  obtain ⟨F, hF, heq, hpar, hadd⟩ := insert_member h.acyclic hK hc hpath
  have hnaF : ¬ Adj F i j := fun hc => hna ((heq.1 i j).2 hc)
  have hg := insertOp_g hP (d := (i, j, T)) h0 hij hjT
  dsimp only at hg
  have hTm : ∀ t ∈ T, P.g t j = .tail ∧ P.g j t = .tail := fun t ht => (h.und t j).2 (hT t ht).1
  have hArr : ∀ a b, (insertOp P (i, j, T)).Arrow a b ↔ P.Arrow a b ∨ (b = j ∧ (a = i ∨ a ∈ T)) := by
    intro a b
    unfold GG.Arrow
    rw [hg a b, hg b a]
    have h1 := hTm a
    have h2 := hTm b
    clear hg hpath hc hK hsub hv hT
    grind
  have hAdj : ∀ a b, (insertOp P (i, j, T)).g a b ≠ .null ↔ P.g a b ≠ .null ∨ (a = i ∧ b = j) ∨ (a = j ∧ b = i) := by
    intro a b
    rw [hg a b]
    have h1 := hTm a
    have h2 := hTm b
    clear hg hpath hc hK hsub hv hT hArr
    grind
  have hP' : (insertOp P (i, j, T)).IsPdag := by
    constructor
    · intro a b hab
      unfold GG.Adjacent GG.Und GG.Arrow
      rw [hAdj] at hab
      have h1 := hTm a
      have h2 := hTm b
      have h3 := hP.cases a b
      rw [hg a b, hg b a]
      clear hg hpath hc hK hsub hv hT hArr hAdj
      grind
    · intro a
      rw [hg a a]
      have h3 := hP.noLoop a
      clear hg hpath hc hK hsub hv hT hArr hAdj
      grind
  refine ⟨F, _, hF, heq, rfl, hadd, ?_, hP', ⟨hadd, ?_, ?_, ?_⟩, adjCount_add hij hnaF⟩
  · unfold insertDelta
    dsimp only
    refine dagScore_change (j := j) ?_ ?_ ?_
    · intro a b hb
      unfold addArc
      tauto
    · intro w
      simp only [hpar, Finset.mem_union, h.mem_parN]
      tauto
    · intro w
      unfold addArc
      simp only [hpar, Finset.mem_union, h.mem_parN, Finset.mem_singleton]
      tauto
  · intro a b
    rw [hP'.adj_iff, hAdj]
    have h1 := h.null a b
    have h2 := heq.1 a b
    unfold Adj at *
    unfold addArc
    tauto
  · intro a b hab
    rcases (hArr a b).1 hab with h1 | ⟨rfl, rfl | h1⟩
    · exact Or.inl (((h.arrow a b).1 h1).2 F hF heq)
    · exact Or.inr ⟨rfl, rfl⟩
    · exact Or.inl ((hpar a).2 (Or.inr (by simp [h1])))
  · intro a b c hcol
    rw [hArr, hArr]
    obtain ⟨hne, hnadj, hab, hcb⟩ := hcol
    have hnF : ¬ Adj F a c := by
      rintro (h1 | h1)
      · exact hnadj (Or.inl (Or.inl h1))
      · exact hnadj (Or.inr (Or.inl h1))
    have side : ∀ c, c ≠ i → ¬ Adj F c i → F c j → P.Arrow c j ∨ (j = j ∧ (c = i ∨ c ∈ T)) := by
      intro c _ hn hcj
      rcases (hpar c).1 hcj with h1 | h1
      · exact Or.inl ((h.arrow _ _).2 h1)
      · rcases Finset.mem_union.1 h1 with h2 | h2
        · exact absurd ((heq.1 _ _).1 ((h.mem_naN i j c).1 h2).2) hn
        · exact Or.inr ⟨rfl, Or.inr (List.mem_toFinset.1 h2)⟩
    rcases hab with hab | ⟨rfl, rfl⟩
    · rcases hcb with hcb | ⟨rfl, rfl⟩
      · have hvE := (heq.2 a b c).2 ⟨hne, hnF, hab, hcb⟩
        exact ⟨Or.inl ((h.arrow a b).2 ⟨hvE.2.2.1, fun F _ he => ((he.2 a b c).1 hvE).2.2.1⟩),
          Or.inl ((h.arrow c b).2 ⟨hvE.2.2.2, fun F _ he => ((he.2 a b c).1 hvE).2.2.2⟩)⟩
      · exact ⟨side a hne hnF hab, Or.inr ⟨rfl, Or.inl rfl⟩⟩
    · rcases hcb with hcb | ⟨rfl, _⟩
      · exact ⟨Or.inr ⟨rfl, Or.inl rfl⟩, side c (Ne.symm hne) (fun h => hnF h.symm) hcb⟩
      · exact absurd rfl hne

set_option maxHeartbeats 1000000 in
theorem delete_step {sc : Fin n → Finset (Fin n) → K} {P : GG n} {E : Fin n → Fin n → Prop} (h : Essential P E) {d : Desc n}
    (hv : ValidDelete P d) :
    ∃ F F', Acyclic F ∧ MarkovEquiv E F ∧ F' = delArc F d.1 d.2.1 ∧ Acyclic F' ∧ dagScore sc F' = dagScore sc F + deleteDelta sc P d ∧
      (deleteOp P d).IsPdag ∧ ConsistentExt (deleteOp P d) F' ∧ adjCount F' + 2 = adjCount F := by
  obtain ⟨i, j, T⟩ := d
  have hP := h.isPdag
  have hpair := hv.pair
  simp only [deletePair, Bool.and_eq_true, Bool.or_eq_true, beq_iff_eq] at hpair
  have hsemi : Semi E i j := by
    rw [← h.semi]
    unfold SemiP
    tauto
  have hsub := (subset_of_combinatorial hv.sub).2
  dsimp only at hsub
  have hT : ∀ t ∈ T, UndE E t j ∧ Adj E t i := by
    intro t ht
    have := hsub (List.mem_toFinset.2 ht)
    simp only [Finset.mem_inter, h.mem_undN, h.mem_adjN] at this
    exact this
  have hirr : ∀ a, ¬ Adj E a a := by rintro a (hc | hc) <;> exact h.acyclic.irrefl _ hc
  have hjT : j ∉ T := fun hj => (hT j hj).1.ne h.acyclic rfl
  have hiT : i ∉ T := fun hi => hirr i (hT i hi).2
  have hij : i ≠ j := by
    rintro rfl
    rcases hsemi with hs | hs
    · exact h.acyclic.irrefl _ hs.1
    · exact hirr _ hs.1
  have hN : ∀ a ∈ naN P i j \ T.toFinset, UndE E a j ∧ Adj E a i := fun a ha =>
    (h.mem_naN i j a).1 (Finset.mem_sdiff.1 ha).1
  have hc : ∀ a ∈ naN P i j \ T.toFinset, ∀ b ∈ naN P i j \ T.toFinset, a ≠ b → Adj E a b := by
    intro a ha b hb hab
    by_contra hc
    exact hv.clique a ha b hb hab ((h.null a b).2 hc)
  obtain ⟨F, hF, heq, hpar, hout⟩ := delete_member h.acyclic hsemi hN hc
  have hFij : F i j := (hpar i).2 (Or.inr (Or.inl rfl))
  have hTF : ∀ t ∈ T, F j t ∧ F i t := by
    intro t ht
    refine hout t (hT t ht).1 (fun he => hiT (he ▸ ht)) ?_ (hT t ht).2
    simp [ht]
  have hg := deleteOp_g hP (d := (i, j, T)) hij hiT hjT
  dsimp only at hg
  have hTm : ∀ t ∈ T, P.g t j = .tail ∧ P.g j t = .tail ∧ P.g i t = .tail ∧ P.g t i ≠ .null := by
    intro t ht
    obtain ⟨u1, u2⟩ := (h.und t j).2 (hT t ht).1
    have hn : P.g t i ≠ .null := fun h0 => (h.null t i).1 h0 (hT t ht).2
    refine ⟨u1, u2, ?_, hn⟩
    have hna : ¬ P.g i t = .arrow := by
      rw [h.arrow']
      exact fun hc => hF.asymm (hTF t ht).2 (hc.2 F hF heq)
    rcases hP.cases t i with h1 | h1 | h1 | h1
    · exact absurd h1.1 hn
    · exact absurd h1.2 hna
    · exact h1.2
    · exact h1.2
  have hnji : P.g i j ≠ .arrow := by
    rw [Ne, h.arrow']
    exact fun hc => hF.asymm hFij (hc.2 F hF heq)
  have hnot : ¬ Compelled E j i := fun hc => hF.asymm hFij (hc.2 F hF heq)
  have hArr : ∀ a b, (deleteOp P (i, j, T)).Arrow a b ↔ (P.Arrow a b ∧ ¬ (a = i ∧ b = j)) ∨ (b ∈ T ∧ (a = i ∨ a = j)) := by
    intro a b
    unfold GG.Arrow
    rw [hg a b, hg b a]
    have h1 := hTm a
    have h2 := hTm b
    clear hg hc hN hsub hv hT hTF hout
    grind
  have hAdj : ∀ a b, (deleteOp P (i, j, T)).g a b ≠ .null ↔ P.g a b ≠ .null ∧ ¬ ((a = i ∧ b = j) ∨ (a = j ∧ b = i)) := by
    intro a b
    rw [hg a b]
    have h1 := hTm a
    have h2 := hTm b
    clear hg hc hN hsub hv hT hTF hout hArr
    grind
  have hP' : (deleteOp P (i, j, T)).IsPdag := by
    constructor
    · intro a b hab
      unfold GG.Adjacent GG.Und GG.Arrow
      rw [hAdj] at hab
      have h1 := hTm a
      have h2 := hTm b
      have h3 := hP.cases a b
      rw [hg a b, hg b a]
      clear hg hc hN hsub hv hT hTF hout hArr hAdj
      grind
    · intro a
      rw [hg a a]
      have h3 := hP.noLoop a
      clear hg hc hN hsub hv hT hTF hout hArr hAdj
      grind
  refine ⟨F, delArc F i j, hF, heq, rfl, delArc_acyclic hF, ?_, hP', ⟨delArc_acyclic hF, ?_, ?_, ?_⟩, adjCount_del hF hFij⟩
  · unfold deleteDelta
    dsimp only
    refine dagScore_change (j := j) ?_ ?_ ?_
    · intro a b hb
      unfold delArc
      tauto
    · intro w
      simp only [hpar, Finset.mem_union, h.mem_parN, Finset.mem_singleton]
      tauto
    · intro w
      unfold delArc
      simp only [hpar, Finset.mem_sdiff, Finset.mem_union, h.mem_parN, Finset.mem_singleton]
      tauto
  · intro a b
    rw [hP'.adj_iff, hAdj]
    have h1 := h.null a b
    have h2 := heq.1 a b
    have h3 : F i j → ¬ F j i := hF.asymm
    unfold Adj at *
    unfold delArc
    clear hg hc hN hsub hv hT hTF hout hArr hAdj hpar hP'
    grind
  · intro a b hab
    rcases (hArr a b).1 hab with ⟨h1, h2⟩ | ⟨h1, rfl | rfl⟩
    · exact ⟨((h.arrow a b).1 h1).2 F hF heq, h2⟩
    · exact ⟨(hTF b h1).2, fun he => hjT ((show b = j from he.2) ▸ h1)⟩
    · exact ⟨(hTF b h1).1, fun he => hjT ((show b = a from he.2) ▸ h1)⟩
  · intro a b c hcol
    rw [hArr, hArr]
    obtain ⟨hne, hnadj, ⟨hab, hab'⟩, ⟨hcb, hcb'⟩⟩ := hcol
    by_cases hadj : Adj F a c
    · -- the pair is `i, j`
      have hpairs : (a = i ∧ c = j) ∨ (a = j ∧ c = i) := by
        unfold Adj delArc at hnadj
        unfold Adj at hadj
        tauto
      have key : F i b → F j b → ((P.Arrow i b ∧ ¬ (i = i ∧ b = j)) ∨ (b ∈ T ∧ (i = i ∨ i = j))) ∧
          ((P.Arrow j b ∧ ¬ (j = i ∧ b = j)) ∨ (b ∈ T ∧ (j = i ∨ j = j))) := by
        intro hib hjb
        have hbj : b ≠ j := by rintro rfl; exact hF.irrefl _ hjb
        have adj1 : Adj E b i := (heq.1 b i).2 (Or.inr hib)
        have adj2 : Adj E j b := (heq.1 j b).2 (Or.inl hjb)
        rcases adj_cases j b adj2 with c1 | c1 | c1
        · refine ⟨Or.inl ⟨?_, fun he => hbj he.2⟩, Or.inl ⟨(h.arrow j b).2 c1, fun he => hbj he.2⟩⟩
          rcases adj_cases b i adj1 with c2 | c2 | c2
          · exact absurd (c2.2 F hF heq) (hF.asymm hib)
          · exact (h.arrow i b).2 c2
          · exact absurd ((compelled_parents h.acyclic c2 j).1 c1) hnot
        · exact absurd (c1.2 F hF heq) (hF.asymm hjb)
        · have hbT : b ∈ T := by
            by_contra hbT
            have : b ∈ naN P i j \ T.toFinset := by
              rw [Finset.mem_sdiff, h.mem_naN, List.mem_toFinset]
              exact ⟨⟨c1.symm, adj1⟩, hbT⟩
            exact hF.asymm hjb ((hpar b).2 (Or.inr (Or.inr this)))
          exact ⟨Or.inr ⟨hbT, Or.inl rfl⟩, Or.inr ⟨hbT, Or.inr rfl⟩⟩
      rcases hpairs with ⟨rfl, rfl⟩ | ⟨rfl, rfl⟩
      · exact key hab hcb
      · exact (key hcb hab).symm
    · have hvE := (heq.2 a b c).2 ⟨hne, hadj, hab, hcb⟩
      exact ⟨Or.inl ⟨(h.arrow a b).2 ⟨hvE.2.2.1, fun F _ he => ((he.2 a b c).1 hvE).2.2.1⟩, hab'⟩,
        Or.inl ⟨(h.arrow c b).2 ⟨hvE.2.2.2, fun F _ he => ((he.2 a b c).1 hvE).2.2.2⟩, hcb'⟩⟩

/-! ## Local optimality in terms of DAGs -/

variable [IsOrderedAddMonoid K]

theorem insert_optimal {sc : Fin n → Finset (Fin n) → K} {maxP : Nat} {P : GG n} {E : Fin n → Fin n → Prop} (h : Essential P E)
    (hopt : ∀ d, ValidInsert P maxP d → 0 ≤ insertDelta sc P d) {D : Fin n → Fin n → Prop} (hD : Essential P D) {i j : Fin n}
    (hij : i ≠ j) (hna : ¬ Adj D i j) (hadd : Acyclic (addArc D i j)) (hmax : (parN P j).card ≤ maxP) :
    dagScore sc D ≤ dagScore sc (addArc D i j) := by
  classical
  have heq := h.equiv hD
  have hna' : ¬ Adj E i j := fun hc => hna ((heq.1 i j).1 hc)
  obtain ⟨K', hK⟩ : ∃ K' : Finset (Fin n), ∀ w, w ∈ K' ↔ UndE E w j ∧ D w j :=
    ⟨Finset.univ.filter fun w => UndE E w j ∧ D w j, fun w => by simp⟩
  obtain ⟨c1, c2, c3⟩ := insert_necessary h.acyclic hD.acyclic heq hij hna' hadd hK
  have hna1 : naN P i j ⊆ K' := fun w hw => by
    rw [h.mem_naN] at hw; exact c1 w hw.1 hw.2
  obtain ⟨t, ht, htK⟩ := combinatorial_of_subset (A := undN P j ∩ (Finset.univ \ adjN P i)) (B := K' \ naN P i j) (by
    intro w hw
    rw [Finset.mem_sdiff, h.mem_naN] at hw
    simp only [Finset.mem_inter, Finset.mem_sdiff, Finset.mem_univ, true_and, h.mem_undN, h.mem_adjN]
    exact ⟨((hK w).1 hw.1).1, fun hc => hw.2 ⟨((hK w).1 hw.1).1, hc⟩⟩)
  have hun : naN P i j ∪ t.toFinset = K' := by rw [htK, Finset.union_sdiff_of_subset hna1]
  have hval : ValidInsert P maxP (i, j, t) := by
    refine ⟨?_, ht, ?_, ?_⟩
    · have h1 := (h.null i j).2 hna'
      simp only [insertPair, Bool.and_eq_true, beq_iff_eq, bne_iff_ne, decide_eq_true_eq]
      exact ⟨⟨⟨h1, (h.isPdag.symm i j).1 h1⟩, hij⟩, hmax⟩
    · dsimp only
      rw [hun]
      intro a ha b hb hab h0
      exact (h.null a b).1 h0 (c2 a ha b hb hab)
    · dsimp only
      rw [hun]
      intro hr
      exact c3 (ReflTransGen.mono (fun a b hab => ⟨(h.semi a b).1 hab.1, hab.2⟩) j i hr)
  have hle := hopt _ hval
  unfold insertDelta at hle
  dsimp only at hle
  rw [hun] at hle
  rw [dagScore_change (D := D) (D' := addArc D i j) (j := j) (A := K' ∪ parN P j) (A' := K' ∪ parN P j ∪ {i})]
  · exact le_add_of_nonneg_right hle
  · intro a b hb; unfold addArc; tauto
  · intro w
    rw [Finset.mem_union, h.mem_parN, hK]
    constructor
    · intro hw
      rcases semi_of_equiv h.acyclic hD.acyclic heq hw with h1 | h1
      · exact Or.inr h1
      · exact Or.inl ⟨h1, hw⟩
    · rintro (hw | hw)
      · exact hw.2
      · exact hw.2 D hD.acyclic heq
  · intro w
    unfold addArc
    rw [Finset.mem_union, Finset.mem_union, h.mem_parN, hK, Finset.mem_singleton]
    constructor
    · rintro (hw | hw)
      · rcases semi_of_equiv h.acyclic hD.acyclic heq hw with h1 | h1
        · exact Or.inl (Or.inr h1)
        · exact Or.inl (Or.inl ⟨h1, hw⟩)
      · exact Or.inr hw.1
    · rintro ((hw | hw) | hw)
      · exact Or.inl hw.2
      · exact Or.inl (hw.2 D hD.acyclic heq)
      · exact Or.inr ⟨hw, rfl⟩

theorem delete_optimal {sc : Fin n → Finset (Fin n) → K} {P : GG n} {E : Fin n → Fin n → Prop} (h : Essential P E)
    (hopt : ∀ d, ValidDelete P d → 0 ≤ deleteDelta sc P d) {D : Fin n → Fin n → Prop} (hD : Essential P D) {i j : Fin n}
    (hd : D i j) : dagScore sc D ≤ dagScore sc (delArc D i j) := by
  classical
  have heq := h.equiv hD
  obtain ⟨N, hN⟩ : ∃ N : Finset (Fin n), ∀ w, w ∈ N ↔ UndE E w j ∧ D w j ∧ w ≠ i :=
    ⟨Finset.univ.filter fun w => UndE E w j ∧ D w j ∧ w ≠ i, fun w => by simp⟩
  have hsub : N ⊆ naN P i j := by
    intro w hw
    rw [hN] at hw
    rw [h.mem_naN]
    exact ⟨hw.1, delete_necessary h.acyclic hD.acyclic heq hd hw.1 hw.2.1 hw.2.2⟩
  obtain ⟨t, ht, htK⟩ := combinatorial_of_subset (A := undN P j ∩ adjN P i) (B := naN P i j \ N) Finset.sdiff_subset
  have hun : naN P i j \ t.toFinset = N := by rw [htK, Finset.sdiff_sdiff_eq_self hsub]
  have hval : ValidDelete P (i, j, t) := by
    refine ⟨?_, ht, ?_⟩
    · have := (h.semi i j).2 (semi_of_equiv h.acyclic hD.acyclic heq hd)
      unfold SemiP at this
      simp only [deletePair, Bool.or_eq_true, Bool.and_eq_true, beq_iff_eq]
      tauto
    · dsimp only
      rw [hun]
      intro a ha b hb hab h0
      rw [hN] at ha hb
      exact (h.null a b).1 h0 (delete_necessary h.acyclic hD.acyclic heq hb.2.1 ha.1 ha.2.1 hab)
  have hle := hopt _ hval
  unfold deleteDelta at hle
  dsimp only at hle
  rw [hun] at hle
  have hpar : ∀ w, D w j ↔ w ∈ N ∪ (parN P j ∪ {i}) := by
    intro w
    rw [Finset.mem_union, Finset.mem_union, h.mem_parN, hN, Finset.mem_singleton]
    constructor
    · intro hw
      by_cases hwi : w = i
      · exact Or.inr (Or.inr hwi)
      · rcases semi_of_equiv h.acyclic hD.acyclic heq hw with h1 | h1
        · exact Or.inr (Or.inl h1)
        · exact Or.inl ⟨h1, hw, hwi⟩
    · rintro (hw | hw | rfl)
      · exact hw.2.1
      · exact hw.2 D hD.acyclic heq
      · exact hd
  rw [dagScore_change (D := D) (D' := delArc D i j) (j := j) (A := N ∪ (parN P j ∪ {i})) (A' := (N ∪ (parN P j ∪ {i})) \ {i})]
  · exact le_add_of_nonneg_right hle
  · intro a b hb; unfold delArc; tauto
  · exact hpar
  · intro w
    unfold delArc
    rw [Finset.mem_sdiff, ← hpar, Finset.mem_singleton]
    tauto

end Ges
end CL
