import Verif.Props.LingamData
import Mathlib.Tactic.FinCases

/-!
# C150: prior knowledge applied softly in DirectLiNGAM
-/
namespace CL.Lingam

/-! ## Specification: what soft prior knowledge says about the variables `R` not placed yet -/

/-- It is known that none of the other variables causes `i`. -/
def KnownExogenous (pk : Prior) (R : List Nat) (i : Nat) : Prop := ∀ j ∈ R, j ≠ i → pk i j = some 0

/-- Some other variable is known to cause `i`. -/
def KnownCaused (pk : Prior) (R : List Nat) (i : Nat) : Prop := ∃ j ∈ R, j ≠ i ∧ ∃ v, pk i j = some v ∧ 0 < v

/-- It is known that `i` causes none of the other variables. -/
def KnownSink (pk : Prior) (R : List Nat) (i : Nat) : Prop := ∀ j ∈ R, j ≠ i → pk j i = some 0

/-- The candidates for the next place: the variables known to be exogenous if there are any, otherwise those that are neither known to be
caused nor known to be sinks. -/
def SoftCandidate (pk : Prior) (R : List Nat) (i : Nat) : Prop :=
  i ∈ R ∧ ((∃ j ∈ R, KnownExogenous pk R j) → KnownExogenous pk R i) ∧
    ((¬ ∃ j ∈ R, KnownExogenous pk R j) → ¬ KnownCaused pk R i ∧ ¬ KnownSink pk R i)

/-- `j` is not a candidate, and it is known that no candidate causes `j`. -/
def NotInfluenced (pk : Prior) (R : List Nat) (j : Nat) : Prop :=
  j ∈ R ∧ ¬ SoftCandidate pk R j ∧ ∀ u, SoftCandidate pk R u → pk j u = some 0

open Classical in
/-- The evidence for `i → j` where a variable that is known not to be influenced by the candidates is its own residual. -/
noncomputable def softEvidence {n : Nat} (pk : Prior) (R : List Nat) (X : Nat → Fin n → ℝ) (i j : Nat) : ℝ :=
  (entropy (standardize (X j)) + entropy (overStd (residual (standardize (X i)) (standardize (X j))))) -
    (entropy (standardize (X i)) + entropy (overStd
      (if NotInfluenced pk R j then standardize (X j) else residual (standardize (X j)) (standardize (X i)))))

/-- the evidence against `i`, squared and summed -/
noncomputable def softAgainst {n : Nat} (pk : Prior) (R : List Nat) (X : Nat → Fin n → ℝ) (i : Nat) : ℝ :=
  ((R.filter (· ≠ i)).map fun j => (min 0 (softEvidence pk R X i j)) ^ 2).sum

/-- the mutual information of `j` with the residuals of the other variables, summed -/
noncomputable def kernelAgainst {n : Nat} (R : List Nat) (X : Nat → Fin n → ℝ) (j : Nat) : ℝ :=
  ((R.filter (· ≠ j)).map fun i => mutualInfo (kernelKappa n) (kernelSigma n) (X j) (residual (X i) (X j))).sum

/-! ## Proofs -/

theorem softCandidate_congr {pk : Prior} {R R' : List Nat} (h : ∀ x, x ∈ R ↔ x ∈ R') (i : Nat) : SoftCandidate pk R i ↔ SoftCandidate pk R' i := by
  unfold SoftCandidate KnownExogenous KnownCaused KnownSink
  simp only [h]

theorem notInfluenced_congr {pk : Prior} {R R' : List Nat} (h : ∀ x, x ∈ R ↔ x ∈ R') (i : Nat) : NotInfluenced pk R i ↔ NotInfluenced pk R' i := by
  unfold NotInfluenced
  simp only [h, softCandidate_congr h]

theorem softAgainst_perm {n : Nat} {pk : Prior} {R R' : List Nat} (h : R.Perm R') (X : Nat → Fin n → ℝ) (i : Nat) :
    softAgainst pk R X i = softAgainst pk R' X i := by
  have : ∀ j, softEvidence pk R X i j = softEvidence pk R' X i j := fun j => by
    unfold softEvidence
    have hc := notInfluenced_congr (pk := pk) (fun x => h.mem_iff (a := x)) j
    by_cases hj : NotInfluenced pk R j
    · rw [if_pos hj, if_pos (hc.1 hj)]
    · rw [if_neg hj, if_neg fun h => hj (hc.2 h)]
  unfold softAgainst
  simp only [this]
  exact ((h.filter _).map _).sum_eq

theorem kernelAgainst_perm {n : Nat} {R R' : List Nat} (h : R.Perm R') (X : Nat → Fin n → ℝ) (i : Nat) :
    kernelAgainst R X i = kernelAgainst R' X i := by
  unfold kernelAgainst
  exact ((h.filter _).map _).sum_eq

theorem mem_searchCandidate {M : Model} {pk : Prior} (hM : M.aknw = some pk) (hs : M.soft = true) (U : List Nat) (i : Nat) :
    i ∈ searchCandidate M U ↔ SoftCandidate pk U i := by
  have hex : ∀ j, ((U.filter (· ≠ j)).all fun i => decide (pk j i = some 0)) = true ↔ KnownExogenous pk U j := by
    intro j
    simp [KnownExogenous, List.all_eq_true, or_iff_not_imp_left]
  have hsk : ∀ i, ((U.filter (· ≠ i)).all fun j => decide (pk j i = some 0)) = true ↔ KnownSink pk U i := by
    intro j
    simp [KnownSink, List.all_eq_true, or_iff_not_imp_left]
  have hca : ∀ j, ((U.filter (· ≠ j)).any fun i => (pk j i).any fun v => decide (0 < v)) = true ↔ KnownCaused pk U j := by
    intro j
    simp [KnownCaused, List.any_eq_true, Option.any_eq_true, and_assoc]
  unfold searchCandidate
  rw [hM]
  simp only [hs, Bool.not_true, Bool.false_eq_true, if_false, hex, hsk, hca]
  have hlen : (U.filter fun j => (U.filter (· ≠ j)).all fun i => decide (pk j i = some 0)).length = 0 ↔ ¬ ∃ j ∈ U, KnownExogenous pk U j := by
    rw [List.length_eq_zero_iff, List.filter_eq_nil_iff]
    simp only [hex]
    push Not
    rfl
  unfold SoftCandidate
  split_ifs with h0
  · rw [hlen] at h0
    simp only [List.mem_filter, List.mem_append, hca, hsk, decide_eq_true_eq]
    constructor
    · rintro ⟨h1, h2⟩
      exact ⟨h1, fun h => absurd h h0, fun _ => ⟨fun h => h2 (Or.inl ⟨h1, h⟩), fun h => h2 (Or.inr ⟨h1, h⟩)⟩⟩
    · rintro ⟨h1, -, h2⟩
      exact ⟨h1, fun h => h.elim (fun h => (h2 h0).1 h.2) fun h => (h2 h0).2 h.2⟩
  · rw [hlen, not_not] at h0
    rw [List.mem_filter, hex]
    exact ⟨fun h => ⟨h.1, fun _ => h.2, fun h' => absurd h0 h'⟩, fun h => ⟨h.1, h.2.1 h0⟩⟩

theorem mem_searchVj {M : Model} {pk : Prior} (hM : M.aknw = some pk) (hs : M.soft = true) (U : List Nat) (i : Nat) :
    i ∈ searchVj M U ↔ NotInfluenced pk U i := by
  unfold searchVj
  rw [hM]
  simp only [hs, Bool.not_true, Bool.false_eq_true, if_false]
  rw [List.mem_filter]
  unfold NotInfluenced
  simp only [List.all_eq_true, decide_eq_true_eq, mem_searchCandidate hM hs]

theorem fitOrder_split_soft {S : Type} [LinearOrder S] {score : List Nat → List Nat → Nat → S} {p : Nat} {M M' : Model} {pk : Prior}
    (hM : M.aknw = some pk) (hsoft : M.soft = true) {K1 K2 : List Nat} {m : Nat}
    (h : fitOrder score p M = some (M', K1 ++ m :: K2)) : ∃ U, U.Perm (m :: K2) ∧ SoftCandidate pk U m ∧
      ∀ c, SoftCandidate pk U c → score K1 U c ≤ score K1 U m := by
  obtain ⟨hperm, -⟩ := fitOrder_inv h
  unfold fitOrder at h
  rw [Option.map_eq_some_iff] at h
  obtain ⟨st, h1, h2⟩ := h
  simp only [Prod.mk.injEq] at h2
  obtain ⟨L, hL, -, hs⟩ := fitLoop_split _ _ _ _ _ _ h1
  rw [h2.2, List.nil_append] at hL
  obtain ⟨M1, ha, hb, hsc⟩ := hs K1 m K2 hL.symm
  rw [List.nil_append] at hsc
  have hnd : (K1 ++ m :: K2).Nodup := hperm.nodup_iff.2 List.nodup_range
  have hmem : ∀ x, x ∈ (List.range p).filter (· ∉ K1) ↔ x ∈ m :: K2 := by
    intro x
    rw [List.mem_filter, decide_eq_true_eq, ← hperm.mem_iff, List.mem_append]
    have hd := (List.nodup_append.1 hnd).2.2
    refine ⟨fun h => h.1.resolve_left h.2, fun h => ⟨.inr h, fun hk => hd x hk x h rfl⟩⟩
  have hpm : ((List.range p).filter (· ∉ K1)).Perm (m :: K2) :=
    (List.perm_ext_iff_of_nodup (List.nodup_range.filter _) (List.nodup_append.1 hnd).2.1).2 hmem
  unfold searchCausalOrder at hsc
  dsimp only at hsc
  have hcand := mem_searchCandidate (ha.trans hM) (hb.trans hsoft) ((List.range p).filter (· ∉ K1))
  refine ⟨_, hpm, ?_, fun c hc => ?_⟩
  · rw [← hcand]
    split at hsc
    · exact List.mem_of_mem_head? hsc
    · exact argmaxFirst_mem _ _ _ hsc
  · rw [← hcand] at hc
    split at hsc
    · rename_i hl
      obtain ⟨a, hl⟩ := List.length_eq_one_iff.1 hl
      rw [hl] at hsc hc
      simp only [List.head?_cons, Option.some_inj] at hsc
      rw [List.mem_singleton] at hc
      rw [hc, hsc]
    · exact argmaxFirst_max _ _ _ hsc c hc

theorem pwSum_soft {n : Nat} {M : Model} {pk : Prior} (hM : M.aknw = some pk) (hs : M.soft = true) (X : Nat → Col n) (U : List Nat) (i : Nat)
    (hi : SoftCandidate pk U i) : pwSum M X U i = softAgainst pk U X i := by
  unfold pwSum softAgainst
  refine congrArg List.sum (List.map_congr_left fun j _ => ?_)
  have h1 : ¬ (i ∈ searchVj M U ∧ j ∈ searchCandidate M U) := fun h => ((mem_searchVj hM hs U i).1 h.1).2.1 hi
  have h2 : (j ∈ searchVj M U ∧ i ∈ searchCandidate M U) ↔ NotInfluenced pk U j := by
    rw [mem_searchVj hM hs, mem_searchCandidate hM hs]
    exact ⟨fun h => h.1, fun h => ⟨h, hi⟩⟩
  unfold pairTerm pairResidual softEvidence diffMI
  rw [if_neg h1]
  by_cases hj : NotInfluenced pk U j
  · rw [if_pos hj, if_pos (h2.2 hj)]
  · rw [if_neg hj, if_neg fun h => hj (h2.1 h)]

/-- **C150** (`measure='pwling'`): whenever `fit` with soft prior knowledge returns the order `K1 ++ m :: K2`, then `m` is a candidate among the variables not
placed yet and minimises, among the candidates, the squared evidence against it, computed on the data from which the effects of `K1` have been removed;
a variable that is known not to be influenced by the candidates counts as its own residual. -/
theorem C150_soft_pwling {n : Nat} (p : Nat) (M M' : Model) (pk : Prior) (hM : M.aknw = some pk) (hs : M.soft = true) (X : Nat → Fin n → ℝ)
    (K1 K2 : List Nat) (m : Nat) (h : directOrder p M X = some (M', K1 ++ m :: K2)) :
    SoftCandidate pk (m :: K2) m ∧ ∀ c, SoftCandidate pk (m :: K2) c →
      softAgainst pk (m :: K2) (stage X (List.range p) K1) m ≤ softAgainst pk (m :: K2) (stage X (List.range p) K1) c := by
  obtain ⟨U, hpm, hc, hmax⟩ := fitOrder_split_soft hM hs h
  have hcg := softCandidate_congr (pk := pk) (fun x => hpm.mem_iff (a := x))
  refine ⟨(hcg m).1 hc, fun c hc' => ?_⟩
  have hcU := (hcg c).2 hc'
  have := hmax c hcU
  unfold pwScore at this
  rw [pwSum_soft hM hs _ _ _ hcU, pwSum_soft hM hs _ _ _ hc] at this
  rw [← softAgainst_perm hpm, ← softAgainst_perm hpm]
  linarith

/-- **C150 violated** (`measure='kernel'`): the candidate chosen minimises the measure computed from plain residuals: that a variable is known not to be
influenced by the candidates is never used (line 254 asks whether the candidate itself is such a variable). -/
theorem C150_kernel_ignores_violated {n : Nat} (p : Nat) (M M' : Model) (pk : Prior) (hM : M.aknw = some pk) (hs : M.soft = true) (X : Nat → Fin n → ℝ)
    (K1 K2 : List Nat) (m : Nat) (h : kernelOrder p M X = some (M', K1 ++ m :: K2)) :
    SoftCandidate pk (m :: K2) m ∧ ∀ c, SoftCandidate pk (m :: K2) c →
      kernelAgainst (m :: K2) (stage (fun i => scaleCol (X i)) (List.range p) K1) m ≤
        kernelAgainst (m :: K2) (stage (fun i => scaleCol (X i)) (List.range p) K1) c := by
  obtain ⟨U, hpm, hc, hmax⟩ := fitOrder_split_soft hM hs h
  have hcg := softCandidate_congr (pk := pk) (fun x => hpm.mem_iff (a := x))
  refine ⟨(hcg m).1 hc, fun c hc' => ?_⟩
  have hcU := (hcg c).2 hc'
  have := hmax c hcU
  have hk : ∀ (Y : Nat → Col n) (i : Nat), SoftCandidate pk U i → kernelSum M Y U i = kernelAgainst U Y i := by
    intro Y i hi
    unfold kernelSum kernelAgainst kernelResidual
    have hn : i ∉ searchVj M U := fun h => ((mem_searchVj hM hs U i).1 h).2.1 hi
    simp [hn]
  unfold kernelScore at this
  rw [hk _ _ hcU, hk _ _ hc] at this
  rw [← kernelAgainst_perm hpm, ← kernelAgainst_perm hpm]
  linarith

/-- prior knowledge on four variables: 0 causes 3, 2 causes nothing, neither 0 nor 1 causes 2 -/
def exSoft : Prior := fun i j =>
  if (i, j) = (3, 0) then some 1 else if (i, j) ∈ [(0, 2), (1, 2), (3, 2), (2, 0), (2, 1)] then some 0 else none

/-- There are two candidates, and a variable known not to be influenced by them. -/
example : (∀ i ∈ [0, 1, 2, 3], SoftCandidate exSoft [0, 1, 2, 3] i ↔ i = 0 ∨ i = 1) ∧ NotInfluenced exSoft [0, 1, 2, 3] 2 := by
  have h : ∀ i ∈ [0, 1, 2, 3], SoftCandidate exSoft [0, 1, 2, 3] i ↔ i = 0 ∨ i = 1 := by
    intro i hi
    unfold SoftCandidate KnownExogenous KnownCaused KnownSink
    fin_cases hi <;> simp [exSoft]
  refine ⟨h, by simp, fun h2 => by simpa using (h 2 (by simp)).1 h2, fun u hu => ?_⟩
  rcases (h u hu.1).1 hu with rfl | rfl <;> decide

end CL.Lingam
