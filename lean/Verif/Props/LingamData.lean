import Verif.Proofs.LingamData
import Verif.Props.Lingam
import Mathlib.Analysis.SpecialFunctions.Trigonometric.Bounds
import Mathlib.Analysis.Complex.ExponentialBounds
import Mathlib.Analysis.SpecialFunctions.Trigonometric.DerivHyp
import Mathlib.Analysis.SpecialFunctions.Trigonometric.Series

/-!
# C123 - C127: what DirectLiNGAM and MultiGroupDirectLiNGAM do with the data

A data set is a family of columns `X i : Fin n → ℝ`; `directOrder p M X` / `kernelOrder p M X` are the causal orders `fit` computes from the first `p` columns
with `measure='pwling'` / `'kernel'` (`M` is the object: prior knowledge), together with the changed object; `groupOrder p M Xs` is the multi-group version.
-/
namespace CL.Lingam

/-! ## C123: units, signs, offsets and the order of the samples do not matter -/

/-- **C123** (`measure='pwling'`): measuring every variable in other units — `a i * x + b i` with `a i ≠ 0`, so also with the opposite sign — and listing the samples
in another order does not change the causal order `fit` returns (nor what it leaves in the object), with or without prior knowledge. -/
theorem C123_pwling_units {n : Nat} (p : Nat) (M : Model) (X Y : Nat → Fin n → ℝ) (π : Equiv.Perm (Fin n)) (a b : Nat → ℝ) (ha : ∀ i, a i ≠ 0)
    (h : ∀ i s, Y i s = a i * X i (π s) + b i) : directOrder p M Y = directOrder p M X := by
  have hY : AffRel (fun k => X k ∘ π) Y := fun i => ⟨a i, b i, ha i, funext fun s => h i s⟩
  unfold directOrder
  rw [pwScore_aff p M hY, pwScore_comp]

/-- **C123** (`measure='kernel'`). -/
theorem C123_kernel_units {n : Nat} (p : Nat) (M : Model) (X Y : Nat → Fin n → ℝ) (π : Equiv.Perm (Fin n)) (a b : Nat → ℝ) (ha : ∀ i, a i ≠ 0)
    (h : ∀ i s, Y i s = a i * X i (π s) + b i) : kernelOrder p M Y = kernelOrder p M X := by
  have hY : AffRel (fun k => X k ∘ π) Y := fun i => ⟨a i, b i, ha i, funext fun s => h i s⟩
  unfold kernelOrder
  rw [kernelScore_aff p M hY, kernelScore_comp]

/-! ## C124: residuals -/

theorem cov_self {n : Nat} (hn : 2 ≤ n) (x : Col n) : cov x x = (n : ℝ) / (n - 1) * var x := by
  have h0 : (n : ℝ) ≠ 0 := by positivity
  have h1 : (n : ℝ) - 1 ≠ 0 := by
    have : (2 : ℝ) ≤ n := by exact_mod_cast hn
    linarith
  unfold cov var
  rw [Finset.sum_congr rfl fun s _ => (sq (x s - mean x)).symm]
  field_simp

theorem cov_sub_mul {n : Nat} (hn : n ≠ 0) (x y : Col n) (b : ℝ) : cov (fun s => x s - b * y s) y = cov x y - b * cov y y := by
  have hm : mean (fun s => x s - b * y s) = mean x - b * mean y := by
    unfold mean
    rw [Finset.sum_sub_distrib, ← Finset.mul_sum]; ring
  unfold cov
  rw [hm, ← mul_div_assoc, ← sub_div, Finset.mul_sum, ← Finset.sum_sub_distrib]
  congr 1
  exact Finset.sum_congr rfl fun s _ => by ring

/-- **C124**, what is true: the residual of `x` on `y` has covariance `-cov(x, y) / (n - 1)` with `y` — for every `n ≥ 2` and every `y` that is not constant. -/
theorem C124_residual_cov_partial {n : Nat} (hn : 2 ≤ n) (x y : Fin n → ℝ) (hy : var y ≠ 0) : cov (residual x y) y = -cov x y / ((n : ℝ) - 1) := by
  have h1 : (n : ℝ) - 1 ≠ 0 := by
    have : (2 : ℝ) ≤ n := by exact_mod_cast hn
    linarith
  unfold residual
  rw [cov_sub_mul (by omega), cov_self hn]
  field_simp
  ring

/-- **C124** is false: the residual is uncorrelated with the regressor only if `x` was already (`np.cov` divides by `n - 1`, `np.var` by `n`). -/
theorem C124_residual_correlated_violated {n : Nat} (hn : 2 ≤ n) (x y : Fin n → ℝ) (hy : var y ≠ 0) : cov (residual x y) y = 0 ↔ cov x y = 0 := by
  have h1 : (n : ℝ) - 1 ≠ 0 := by
    have : (2 : ℝ) ≤ n := by exact_mod_cast hn
    linarith
  rw [C124_residual_cov_partial hn x y hy, div_eq_zero_iff, neg_eq_zero, or_iff_left h1]

/-- A concrete case: with two samples, the residual of a variable on itself is its negative instead of zero. -/
theorem C124_residual_self_violated : residual (n := 2) ![1, -1] ![1, -1] = ![-1, 1] ∧ var (n := 2) ![1, -1] ≠ 0 ∧
    cov (n := 2) (residual ![1, -1] ![1, -1]) ![1, -1] ≠ 0 := by
  have hm : mean (n := 2) ![1, -1] = 0 := by simp [mean]
  have hv : var (n := 2) ![1, -1] = 1 := by simp [var, hm]
  have hc : cov (n := 2) ![1, -1] ![1, -1] = 2 := by rw [cov_self le_rfl, hv]; norm_num
  refine ⟨?_, by rw [hv]; norm_num, ?_⟩
  · funext s; fin_cases s <;> simp [residual, hv, hc] <;> norm_num
  · rw [C124_residual_cov_partial le_rfl _ _ (by rw [hv]; norm_num), hc]; norm_num

/-! ## C125: which variable is chosen -/

/-- The evidence in the data for `i → j` against `j → i`: the entropies of `x_j` and of the residual of `x_i` on `x_j`, minus those of `x_i` and of the residual
of `x_j` on `x_i` (all standardised). -/
noncomputable def evidence {n : Nat} (X : Nat → Fin n → ℝ) (i j : Nat) : ℝ :=
  (entropy (standardize (X j)) + entropy (overStd (residual (standardize (X i)) (standardize (X j))))) -
    (entropy (standardize (X i)) + entropy (overStd (residual (standardize (X j)) (standardize (X i)))))

/-- **C125**: the evidence for `i → j` is the negative of the evidence for `j → i`. -/
theorem C125_antisymmetric {n : Nat} (X : Nat → Fin n → ℝ) (i j : Nat) : evidence X j i = -evidence X i j := by unfold evidence; ring

theorem searchVj_none {M : Model} (hM : M.aknw = none) (U : List Nat) : searchVj M U = [] := by unfold searchVj; rw [hM]

theorem searchCandidate_none {M : Model} (hM : M.aknw = none) (U : List Nat) : searchCandidate M U = U := by unfold searchCandidate; rw [hM]

theorem searchVj_hard {M : Model} (hM : M.soft = false) (U : List Nat) : searchVj M U = [] := by
  unfold searchVj
  cases M.aknw <;> simp [hM]

theorem pairTerm_nil {n : Nat} (uc : List Nat) (X : Nat → Col n) (i j : Nat) : pairTerm uc [] X i j = (min 0 (evidence X i j)) ^ 2 := by
  unfold pairTerm pairResidual evidence diffMI
  simp

/-- `M` of `_search_causal_order` for candidate `i`: the evidence against `i`, squared and summed. -/
noncomputable def against {n : Nat} (X : Nat → Fin n → ℝ) (U : List Nat) (i : Nat) : ℝ :=
  ((U.filter (· ≠ i)).map fun j => (min 0 (evidence X i j)) ^ 2).sum

theorem pwSum_hard {n : Nat} {M : Model} (h : searchVj M U = []) (X : Nat → Col n) (i : Nat) : pwSum M X U i = against X U i := by
  unfold pwSum against
  rw [h]
  exact congrArg List.sum (List.map_congr_left fun j _ => pairTerm_nil _ X i j)

theorem fitLoop_split {S : Type} [LinearOrder S] (score : List Nat → List Nat → Nat → S) (k : Nat) :
    ∀ (M : Model) (K0 U : List Nat) (st' : Model × List Nat × List Nat), fitLoop score k (M, K0, U) = some st' →
      ∃ L, st'.2.1 = K0 ++ L ∧ L.length = k ∧ ∀ K1 m K2, L = K1 ++ m :: K2 → ∃ M1 : Model, M1.aknw = M.aknw ∧ M1.soft = M.soft ∧
        searchCausalOrder score M1 (K0 ++ K1) (U.filter (· ∉ K1)) = some m := by
  induction k with
  | zero =>
    intro M K0 U st' h
    simp only [fitLoop, Option.some_inj] at h
    subst h
    exact ⟨[], by simp, rfl, by simp⟩
  | succ k ih =>
    intro M K0 U st' h
    simp only [fitLoop, Option.bind_eq_some_iff, fitStep, Option.map_eq_some_iff] at h
    obtain ⟨s1, ⟨m, hm, rfl⟩, h⟩ := h
    obtain ⟨L, h1, h2, h3⟩ := ih _ _ _ _ h
    refine ⟨m :: L, by rw [h1]; simp, by simp [h2], ?_⟩
    intro K1 m' K2 hL
    cases K1 with
    | nil =>
      simp only [List.nil_append, List.cons.injEq] at hL
      refine ⟨M, rfl, rfl, ?_⟩
      simp only [List.append_nil, List.not_mem_nil, not_false_eq_true, decide_true, List.filter_true]
      rw [hm, hL.1]
    | cons c K1 =>
      simp only [List.cons_append, List.cons.injEq] at hL
      obtain ⟨rfl, hL⟩ := hL
      obtain ⟨M1, ha, hs, hc⟩ := h3 K1 m' K2 hL
      refine ⟨M1, ha.trans ?_, hs.trans ?_, ?_⟩
      · split <;> rfl
      · split <;> rfl
      · have : (U.filter (· ≠ m)).filter (· ∉ K1) = U.filter (· ∉ m :: K1) := by
          rw [List.filter_filter]
          refine List.filter_congr fun x _ => ?_
          simp only [List.mem_cons, not_or, Bool.decide_and, decide_not, Bool.and_comm]
        rw [← this]
        simpa using hc

theorem argmaxFirst_max {S : Type} [LinearOrder S] (score : Nat → S) (l : List Nat) (m : Nat) (h : argmaxFirst score l = some m) :
    ∀ c ∈ l, score c ≤ score m := by
  cases l with
  | nil => cases h
  | cons a l =>
    simp only [argmaxFirst, Option.some_inj] at h
    have key : ∀ (l : List Nat) (a : Nat), score a ≤ score (l.foldl (fun best b => if score best < score b then b else best) a) ∧
        ∀ c ∈ l, score c ≤ score (l.foldl (fun best b => if score best < score b then b else best) a) := by
      intro l
      induction l with
      | nil => intro a; simp
      | cons b l ih =>
        intro a
        simp only [List.foldl_cons, List.mem_cons, forall_eq_or_imp]
        obtain ⟨h1, h2⟩ := ih (if score a < score b then b else a)
        split at h1 <;> rename_i hab <;> simp only [hab, if_true, if_false] at h1 h2 ⊢
        · exact ⟨hab.le.trans h1, h1, h2⟩
        · exact ⟨h1, (not_lt.1 hab).trans h1, h2⟩
    subst h
    intro c hc
    rcases List.mem_cons.1 hc with rfl | hc
    · exact (key l c).1
    · exact (key l a).2 c hc

theorem fitOrder_split {S : Type} [LinearOrder S] {score : List Nat → List Nat → Nat → S} {p : Nat} {M M' : Model} (hM : M.aknw = none) {K1 K2 : List Nat} {m : Nat}
    (h : fitOrder score p M = some (M', K1 ++ m :: K2)) : ∃ U, U.Perm (m :: K2) ∧ U.Nodup ∧ ∀ c ∈ m :: K2, score K1 U c ≤ score K1 U m := by
  obtain ⟨hperm, -⟩ := fitOrder_inv h
  unfold fitOrder at h
  rw [Option.map_eq_some_iff] at h
  obtain ⟨st, h1, h2⟩ := h
  simp only [Prod.mk.injEq] at h2
  obtain ⟨L, hL, -, hs⟩ := fitLoop_split _ _ _ _ _ _ h1
  rw [h2.2, List.nil_append] at hL
  obtain ⟨M1, ha, -, hsc⟩ := hs K1 m K2 hL.symm
  rw [List.nil_append] at hsc
  have hnd : (K1 ++ m :: K2).Nodup := hperm.nodup_iff.2 List.nodup_range
  have hmem : ∀ x, x ∈ (List.range p).filter (· ∉ K1) ↔ x ∈ m :: K2 := by
    intro x
    rw [List.mem_filter, decide_eq_true_eq, ← hperm.mem_iff, List.mem_append]
    have hd := (List.nodup_append.1 hnd).2.2
    refine ⟨fun h => h.1.resolve_left h.2, fun h => ⟨.inr h, fun hk => hd x hk x h rfl⟩⟩
  have hpm : ((List.range p).filter (· ∉ K1)).Perm (m :: K2) :=
    (List.perm_ext_iff_of_nodup (List.nodup_range.filter _) (List.nodup_append.1 hnd).2.1).2 hmem
  refine ⟨_, hpm, List.nodup_range.filter _, fun c hc => ?_⟩
  unfold searchCausalOrder at hsc
  rw [searchCandidate_none (ha.trans hM)] at hsc
  by_cases hl : ((List.range p).filter (· ∉ K1)).length = 1
  · have : (m :: K2).length = 1 := by rw [← hpm.length_eq, hl]
    have hK : K2 = [] := by simpa using this
    subst hK
    rw [List.mem_singleton] at hc
    rw [hc]
  · simp only [hl, if_false] at hsc
    exact argmaxFirst_max _ _ _ hsc c ((hmem c).2 hc)

theorem against_perm {n : Nat} (X : Nat → Fin n → ℝ) {U V : List Nat} (h : U.Perm V) (c : Nat) : against X U c = against X V c := by
  unfold against
  exact ((h.filter _).map _).sum_eq

/-- **C125** (no prior knowledge): whenever `fit` returns the order `K1 ++ m :: K2`, the variable `m` minimises, among the variables not placed yet, the sum of the
squared evidence against it, computed on the data from which the effects of `K1` have been removed. -/
theorem C125_chosen_minimises {n : Nat} (p : Nat) (M M' : Model) (hM : M.aknw = none) (X : Nat → Fin n → ℝ) (K1 K2 : List Nat) (m : Nat)
    (h : directOrder p M X = some (M', K1 ++ m :: K2)) (c : Nat) (hc : c ∈ m :: K2) :
    against (stage X (List.range p) K1) (m :: K2) m ≤ against (stage X (List.range p) K1) (m :: K2) c := by
  obtain ⟨U, hpm, -, hs⟩ := fitOrder_split hM h
  have := hs c hc
  unfold pwScore at this
  rw [pwSum_hard (searchVj_none hM _), pwSum_hard (searchVj_none hM _), against_perm _ hpm, against_perm _ hpm] at this
  linarith

theorem against_nonneg {n : Nat} (X : Nat → Fin n → ℝ) (U : List Nat) (i : Nat) : 0 ≤ against X U i :=
  List.sum_nonneg (by simp only [List.mem_map, forall_exists_index, and_imp]; rintro _ _ _ rfl; exact sq_nonneg _)

theorem against_zero {n : Nat} (X : Nat → Fin n → ℝ) (U : List Nat) (i : Nat) : against X U i = 0 ↔ ∀ j ∈ U, j ≠ i → 0 ≤ evidence X i j := by
  unfold against
  constructor
  · intro h j hj hne
    have h0 : (min 0 (evidence X i j)) ^ 2 = 0 := by
      have hle := List.single_le_sum (l := (U.filter (· ≠ i)).map fun j => (min 0 (evidence X i j)) ^ 2)
        (by simp only [List.mem_map, forall_exists_index, and_imp]; rintro _ _ _ rfl; exact sq_nonneg _) _
        (List.mem_map.2 ⟨j, List.mem_filter.2 ⟨hj, by simpa using hne⟩, rfl⟩)
      rw [h] at hle
      exact le_antisymm hle (sq_nonneg _)
    have := pow_eq_zero_iff (two_ne_zero) |>.1 h0
    exact this ▸ min_le_right _ _
  · intro h
    refine List.sum_eq_zero ?_
    simp only [List.mem_map, List.mem_filter, decide_eq_true_eq, forall_exists_index, and_imp]
    rintro _ j hj hne rfl
    rw [min_eq_left (h j hj hne)]; norm_num

/-- **C125** (no prior knowledge): if, at some stage, one of the variables not placed yet has positive evidence of being the cause against each of the others, then
it is the one chosen. -/
theorem C125_dominant_chosen {n : Nat} (p : Nat) (M M' : Model) (hM : M.aknw = none) (X : Nat → Fin n → ℝ) (K1 K2 : List Nat) (m : Nat)
    (h : directOrder p M X = some (M', K1 ++ m :: K2)) (c : Nat) (hc : c ∈ m :: K2)
    (hd : ∀ j ∈ m :: K2, j ≠ c → 0 < evidence (stage X (List.range p) K1) c j) : m = c := by
  by_contra hne
  have h1 := C125_chosen_minimises p M M' hM X K1 K2 m h c hc
  rw [(against_zero _ _ c).2 fun j hj hjc => (hd j hj hjc).le] at h1
  have h2 := (against_zero _ (m :: K2) m).1 (le_antisymm h1 (against_nonneg _ _ _)) c hc (Ne.symm hne)
  have h3 := hd m (by simp) hne
  rw [C125_antisymmetric] at h2
  linarith

/-- **C125** (two variables, no prior knowledge): the direction is decided by the sign of the evidence; column 0 is first in a tie. -/
theorem C125_two_variables {n : Nat} (M : Model) (hM : M.aknw = none) (X : Nat → Fin n → ℝ) :
    (directOrder 2 M X).map Prod.snd = some (if 0 ≤ evidence X 0 1 then [0, 1] else [1, 0]) := by
  obtain ⟨r, hr⟩ := C43_returns_without_prior (pwScore 2 M X) (fun _ _ _ => (0 : ℝ)) 2 M hM
  unfold fit at hr
  rw [Option.map_eq_some_iff] at hr
  obtain ⟨⟨M', K⟩, hr, -⟩ := hr
  obtain ⟨hperm, -⟩ := fitOrder_inv hr
  have hs : searchCausalOrder (pwScore 2 M X) M [] [0, 1] = K.head? := by
    unfold fitOrder at hr
    rw [Option.map_eq_some_iff] at hr
    obtain ⟨st, h1, h2⟩ := hr
    simp only [Prod.mk.injEq] at h2
    simp only [fitLoop, fitStep, Option.bind_eq_some_iff, Option.map_eq_some_iff] at h1
    obtain ⟨s1, ⟨a, ha, rfl⟩, s2, ⟨b, hb, rfl⟩, h3⟩ := h1
    rw [← h2.2, ← Option.some_inj.1 h3]
    simp only [List.nil_append, List.cons_append, List.head?_cons]
    exact ha
  have hsum (i j : Nat) (hij : [0, 1].filter (· ≠ i) = [j]) : pwScore 2 M X [] [0, 1] i = -(min 0 (evidence X i j)) ^ 2 := by
    unfold pwScore
    rw [pwSum_hard (searchVj_none hM _)]
    unfold against
    rw [hij]
    simp [stage]
  have hsc : searchCausalOrder (pwScore 2 M X) M [] [0, 1] = some (if 0 ≤ evidence X 0 1 then 0 else 1) := by
    unfold searchCausalOrder
    rw [searchCandidate_none hM]
    simp only [List.length_cons, List.length_nil, Nat.reduceAdd, OfNat.ofNat_ne_one, if_false, argmaxFirst, List.foldl_cons, List.foldl_nil]
    rw [hsum 0 1 (by decide), hsum 1 0 (by decide), C125_antisymmetric X 0 1]
    congr 1
    by_cases h : 0 ≤ evidence X 0 1
    · rw [if_pos h, if_neg]
      rw [min_eq_left h]
      have := sq_nonneg (min 0 (-evidence X 0 1))
      linarith
    · rw [if_neg h, if_pos]
      push Not at h
      rw [min_eq_right h.le, min_eq_left (by linarith : (0 : ℝ) ≤ -evidence X 0 1)]
      nlinarith
  rw [hsc] at hs
  show Option.map Prod.snd (fitOrder _ _ _) = _
  rw [hr, Option.map_some, Option.some_inj]
  dsimp only
  have hl : K.length = 2 := by simpa using hperm.length_eq
  match K, hl, hs, hperm with
  | [a, b], _, hs, hperm =>
    simp only [List.head?_cons, Option.some_inj] at hs
    have h1 := (hperm.mem_iff (a := a)).1 (by simp)
    have h2 := (hperm.mem_iff (a := b)).1 (by simp)
    have h3 := hperm.nodup_iff.2 List.nodup_range
    rw [List.mem_range] at h1 h2
    simp only [List.nodup_cons, List.mem_singleton] at h3
    split at hs <;> subst hs
    · have : b = 1 := by omega
      rw [this, if_pos ‹_›]
    · have : b = 0 := by omega
      rw [this, if_neg ‹_›]

theorem stage_relabel {n : Nat} (σ : Equiv.Perm Nat) (K : List Nat) : ∀ (U U' : List Nat) (X Y : Nat → Col n), (∀ i, σ i ∈ U' ↔ i ∈ U) → (∀ i, Y (σ i) = X i) →
    ∀ i, stage Y U' (K.map σ) (σ i) = stage X U K i := by
  induction K with
  | nil => intro U U' X Y _ h i; exact h i
  | cons m K ih =>
    intro U U' X Y hU h i
    simp only [List.map_cons, stage]
    refine ih _ _ _ _ (fun j => ?_) (fun j => ?_) i
    · simp [List.mem_filter, hU]
    · unfold removeEffect
      simp only [hU, ne_eq, EmbeddingLike.apply_eq_iff_eq, h]

theorem against_relabel {n : Nat} (σ : Equiv.Perm Nat) (X Y : Nat → Fin n → ℝ) (h : ∀ i, Y (σ i) = X i) (U : List Nat) (c : Nat) :
    against Y (U.map σ) (σ c) = against X U c := by
  unfold against
  rw [List.filter_map, List.map_map]
  have : (fun x => decide (x ≠ σ c)) ∘ σ = fun x => decide (x ≠ c) := by funext x; simp
  rw [this]
  refine congrArg List.sum (List.map_congr_left fun j _ => ?_)
  simp only [Function.comp_apply, evidence, h]

/-- **C125** (no prior knowledge): the result does not depend on the order of the columns, unless two variables tie at some stage: if column `i` of `X` is column `σ i` of
`Y`, then `fit(Y)` returns the relabelled order. -/
theorem C125_relabel {n : Nat} (p : Nat) (M : Model) (hM : M.aknw = none) (X Y : Nat → Fin n → ℝ) (σ : Equiv.Perm Nat) (hσ : ∀ i, σ i < p ↔ i < p)
    (h : ∀ i, Y (σ i) = X i)
    (hties : ∀ K U : List Nat, (K ++ U).Perm (List.range p) → ∀ i ∈ U, ∀ j ∈ U, i ≠ j →
      against (stage X (List.range p) K) U i ≠ against (stage X (List.range p) K) U j) :
    (directOrder p M Y).map Prod.snd = (directOrder p M X).map fun r => r.2.map σ := by
  have hret (Z : Nat → Col n) : ∃ M' K, directOrder p M Z = some (M', K) := by
    obtain ⟨r, hr⟩ := C43_returns_without_prior (pwScore p M Z) (fun _ _ _ => (0 : ℝ)) p M hM
    unfold fit at hr
    rw [Option.map_eq_some_iff] at hr
    obtain ⟨⟨M', K⟩, hr, -⟩ := hr
    exact ⟨M', K, hr⟩
  obtain ⟨M1, K, hK⟩ := hret X
  obtain ⟨M2, K', hK'⟩ := hret Y
  have pK := (fitOrder_inv hK).1
  have pK' := (fitOrder_inv hK').1
  rw [hK, hK', Option.map_some, Option.map_some, Option.some_inj]
  dsimp only
  have key : ∀ (L1 L2 L1' L2' : List Nat), K = L1 ++ L2 → K' = L1' ++ L2' → L1' = L1.map σ → L2.length = L2'.length → L2' = L2.map σ := by
    intro L1 L2
    induction L2 generalizing L1 with
    | nil => intro L1' L2' _ _ _ hl; simpa using (List.length_eq_zero_iff.1 hl.symm)
    | cons m L2 ih =>
      intro L1' L2' h1 h2 h3 hl
      cases L2' with
      | nil => simp at hl
      | cons m' L2' =>
        have hnd : (L1 ++ m :: L2).Nodup := h1 ▸ pK.nodup_iff.2 List.nodup_range
        have hpr : (m' :: L2').Perm ((m :: L2).map σ) := by
          have hp1 : (K.map σ).Perm (List.range p) := by
            refine (List.perm_ext_iff_of_nodup ((pK.nodup_iff.2 List.nodup_range).map σ.injective) List.nodup_range).2 fun x => ?_
            rw [List.mem_map, List.mem_range]
            constructor
            · rintro ⟨y, hy, rfl⟩; exact (hσ y).2 (List.mem_range.1 (pK.mem_iff.1 hy))
            · intro hx
              refine ⟨σ.symm x, pK.mem_iff.2 (List.mem_range.2 ((hσ _).1 (by simpa using hx))), by simp⟩
          have hp2 : (L1.map σ ++ m' :: L2').Perm (L1.map σ ++ (m :: L2).map σ) := by
            rw [← h3, ← h2, h3, ← List.map_append, ← h1]
            exact pK'.trans hp1.symm
          exact (List.perm_append_left_iff _).1 hp2
        have hst : ∀ i, stage Y (List.range p) L1' (σ i) = stage X (List.range p) L1 i := by
          rw [h3]
          exact stage_relabel σ L1 _ _ X Y (fun i => by simp [hσ]) h
        have hag (c : Nat) : against (stage Y (List.range p) L1') (m' :: L2') (σ c) = against (stage X (List.range p) L1) (m :: L2) c := by
          rw [against_perm _ hpr]
          exact against_relabel σ _ _ hst _ _
        have hm' : ∃ c ∈ m :: L2, σ c = m' := by
          have : m' ∈ (m :: L2).map σ := hpr.mem_iff.1 (by simp)
          exact List.mem_map.1 this
        obtain ⟨c, hc, rfl⟩ := hm'
        have hmc : c = m := by
          by_contra hne
          have a1 := C125_chosen_minimises p M M1 hM X L1 L2 m (h1 ▸ hK) c hc
          have a2 := C125_chosen_minimises p M M2 hM Y L1' L2' (σ c) (h2 ▸ hK') (σ m)
            (hpr.mem_iff.2 (List.mem_map.2 ⟨m, by simp, rfl⟩))
          rw [hag, hag] at a2
          exact hties L1 (m :: L2) (h1 ▸ pK) m (by simp) c hc (Ne.symm hne) (le_antisymm a1 a2)
        subst hmc
        rw [List.map_cons, List.cons.injEq]
        refine ⟨rfl, ih (L1 ++ [c]) (L1' ++ [σ c]) L2' (by rw [h1]; simp) (by rw [h2]; simp) (by rw [h3]; simp) (by simpa using hl)⟩
  exact key [] K [] K' rfl rfl rfl (by rw [pK.length_eq, pK'.length_eq])

/-! ### A concrete data set: `x₁ = x₀ + e` -/

/-- Four samples of a cause `x₀` and its effect `x₁ = x₀ + e`, with `e = (1, -1, 1, -1)` uncorrelated with `x₀`. -/
def exX : Nat → Fin 4 → ℝ := fun i => if i = 0 then ![1, 1, -1, -1] else ![2, 0, 0, -2]

theorem ex0 : standardize (exX 0) = ![1, 1, -1, -1] := by
  have hm : mean (n := 4) ![1, 1, -1, -1] = 0 := by simp [mean, Fin.sum_univ_four]
  have hv : var (n := 4) ![1, 1, -1, -1] = 1 := by simp [var, hm, Fin.sum_univ_four]; norm_num
  funext s
  simp only [standardize, exX, if_true, hm, std, hv, Real.sqrt_one]
  simp

theorem ex1 : standardize (exX 1) = ![√2, 0, 0, -√2] := by
  have hm : mean (n := 4) ![2, 0, 0, -2] = 0 := by simp [mean, Fin.sum_univ_four]
  have hv : var (n := 4) ![2, 0, 0, -2] = 2 := by simp [var, hm, Fin.sum_univ_four]; norm_num
  have h2 : (2 : ℝ) / √2 = √2 := by rw [div_eq_iff (by positivity)]; exact (Real.mul_self_sqrt (by norm_num)).symm
  funext s
  simp only [standardize, exX, one_ne_zero, if_false, hm, std, hv]
  fin_cases s <;> simp [h2, neg_div]

theorem mean_odd (a b : ℝ) : mean (n := 4) ![a, b, -b, -a] = 0 := by simp [mean, Fin.sum_univ_four]

theorem var_odd (a b : ℝ) : var (n := 4) ![a, b, -b, -a] = (a ^ 2 + b ^ 2) / 2 := by
  simp [var, mean_odd, Fin.sum_univ_four]; ring

theorem cov_odd (a b c d : ℝ) : cov (n := 4) ![a, b, -b, -a] ![c, d, -d, -c] = 2 * (a * c + b * d) / 3 := by
  unfold cov
  rw [mean_odd, mean_odd]
  simp [Fin.sum_univ_four]; ring

/-- Entropy of a column symmetric about zero. -/
theorem entropy_odd (a b : ℝ) : entropy (n := 4) ![a, b, -b, -a] =
    (1 + Real.log (2 * Real.pi)) / 2 - 79.047 * (Real.log (Real.cosh a * Real.cosh b) / 2 - 0.37457) ^ 2 := by
  unfold entropy
  have h1 : mean (fun s : Fin 4 => Real.log (Real.cosh ((![a, b, -b, -a] : Col 4) s))) = Real.log (Real.cosh a * Real.cosh b) / 2 := by
    rw [Real.log_mul (Real.cosh_pos a).ne' (Real.cosh_pos b).ne']
    simp [mean, Fin.sum_univ_four]; ring
  have h2 : mean (fun s : Fin 4 => (![a, b, -b, -a] : Col 4) s * Real.exp (-((![a, b, -b, -a] : Col 4) s) ^ 2 / 2)) = 0 := by
    simp [mean, Fin.sum_univ_four]
  rw [h1, h2]; ring

theorem overStd_odd (a b : ℝ) : overStd (n := 4) ![a, b, -b, -a] =
    ![a / √((a ^ 2 + b ^ 2) / 2), b / √((a ^ 2 + b ^ 2) / 2), -(b / √((a ^ 2 + b ^ 2) / 2)), -(a / √((a ^ 2 + b ^ 2) / 2))] := by
  funext s
  simp only [overStd, std, var_odd]
  fin_cases s <;> simp [neg_div]

theorem residual_odd (a b c d : ℝ) : residual (n := 4) ![a, b, -b, -a] ![c, d, -d, -c] =
    ![a - 4 * (a * c + b * d) / (3 * (c ^ 2 + d ^ 2)) * c, b - 4 * (a * c + b * d) / (3 * (c ^ 2 + d ^ 2)) * d,
      -(b - 4 * (a * c + b * d) / (3 * (c ^ 2 + d ^ 2)) * d), -(a - 4 * (a * c + b * d) / (3 * (c ^ 2 + d ^ 2)) * c)] := by
  have h : 2 * (a * c + b * d) / 3 / ((c ^ 2 + d ^ 2) / 2) = 4 * (a * c + b * d) / (3 * (c ^ 2 + d ^ 2)) := by
    by_cases h0 : c ^ 2 + d ^ 2 = 0
    · simp [h0]
    · field_simp; ring
  funext s
  simp only [residual, var_odd, cov_odd, h]
  fin_cases s <;> simp <;> ring

theorem cosh_lower (x : ℝ) : 1 + x ^ 2 / 2 + x ^ 4 / 32 ≤ Real.cosh x := by
  have h (y : ℝ) : 1 + y ^ 2 / 2 ≤ Real.cosh y := by
    have h1 := Real.cosh_two_mul (y / 2)
    have h2 := Real.cosh_sq (y / 2)
    have h3 : (y / 2) ^ 2 ≤ Real.sinh (y / 2) ^ 2 := by
      rw [sq_le_sq, Real.abs_sinh]
      exact Real.self_le_sinh_iff.2 (abs_nonneg _)
    rw [show 2 * (y / 2) = y by ring] at h1
    nlinarith
  have h1 := Real.cosh_two_mul (x / 2)
  have h2 := Real.cosh_sq (x / 2)
  have h3 := h (x / 2)
  rw [show 2 * (x / 2) = x by ring] at h1
  have h4 : (1 + (x / 2) ^ 2 / 2) ^ 2 ≤ Real.cosh (x / 2) ^ 2 := by
    have : 0 ≤ 1 + (x / 2) ^ 2 / 2 := by positivity
    exact pow_le_pow_left₀ this h3 2
  nlinarith

theorem cosh_double (x : ℝ) : Real.cosh (2 * x) = 2 * Real.cosh x ^ 2 - 1 := by
  have h1 := Real.cosh_two_mul x
  have h2 := Real.cosh_sq x
  linarith

theorem exp_tenth : Real.exp (1 / 10) < 1.1052 := by
  refine lt_of_pow_lt_pow_left₀ 10 (by norm_num) ?_
  rw [← Real.exp_nat_mul]
  have := Real.exp_one_lt_d9
  norm_num at this ⊢
  linarith

theorem exp_half : Real.exp (1 / 2) < 1.6488 := by
  refine lt_of_pow_lt_pow_left₀ 2 (by norm_num) ?_
  rw [← Real.exp_nat_mul]
  have := Real.exp_one_lt_d9
  norm_num at this ⊢
  linarith

theorem exp_gamma : Real.exp 0.74914 < 2.118 := by
  refine lt_of_pow_lt_pow_left₀ 4 (by norm_num) ?_
  rw [← Real.exp_nat_mul]
  have h1 := Real.exp_one_lt_d9
  have h2 : Real.exp (((4 : ℕ) : ℝ) * 0.74914) < Real.exp 1 ^ 3 := by
    rw [← Real.exp_nat_mul]
    exact Real.exp_lt_exp.2 (by norm_num)
  have h3 : Real.exp 1 ^ 3 < 2.7182818286 ^ 3 := pow_lt_pow_left₀ h1 (Real.exp_pos 1).le (by norm_num)
  exact h2.trans (h3.trans (by norm_num))

theorem ex_C_lower : 2.118 < Real.cosh √2 := by
  have h := cosh_lower √2
  have h2 : √2 ^ 2 = 2 := Real.sq_sqrt (by norm_num)
  have h4 : √2 ^ 4 = 4 := by rw [show √2 ^ 4 = (√2 ^ 2) ^ 2 by ring, h2]; norm_num
  rw [h2, h4] at h
  norm_num at h ⊢
  linarith

theorem ex_C_upper : Real.cosh √2 < 2.2976 := by
  have h1 := cosh_double (√2 / 2)
  rw [show 2 * (√2 / 2) = √2 by ring] at h1
  have h2 := Real.cosh_le_exp_half_sq (√2 / 2)
  rw [show (√2 / 2) ^ 2 / 2 = 1 / 4 by rw [div_pow, Real.sq_sqrt (by norm_num)]; norm_num] at h2
  have h3 : Real.cosh (√2 / 2) ^ 2 ≤ Real.exp (1 / 4) ^ 2 := pow_le_pow_left₀ (Real.cosh_pos _).le h2 2
  rw [← Real.exp_nat_mul, show ((2 : ℕ) : ℝ) * (1 / 4) = 1 / 2 by norm_num] at h3
  have := exp_half
  norm_num at this ⊢
  linarith

theorem ex_B_lower {t : ℝ} (ht : t ^ 2 = 2 / 5) : 2.3 < Real.cosh t * Real.cosh (2 * t) := by
  have h1 := cosh_lower (t / 2)
  have h2 := cosh_double (t / 2)
  rw [show 2 * (t / 2) = t by ring] at h2
  have h3 := cosh_double t
  have e2 : (t / 2) ^ 2 = 1 / 10 := by rw [div_pow, ht]; norm_num
  have e4 : (t / 2) ^ 4 = 1 / 100 := by rw [show (t / 2) ^ 4 = ((t / 2) ^ 2) ^ 2 by ring, e2]; norm_num
  rw [e2, e4] at h1
  have h4 : (1.0503 : ℝ) ^ 2 ≤ Real.cosh (t / 2) ^ 2 := pow_le_pow_left₀ (by norm_num) (by norm_num at h1 ⊢; linarith) 2
  have h5 : (1.206 : ℝ) ≤ Real.cosh t := by norm_num at h4 ⊢; linarith
  have h6 : (1.206 : ℝ) ^ 2 ≤ Real.cosh t ^ 2 := pow_le_pow_left₀ (by norm_num) h5 2
  have h7 : (1.908 : ℝ) ≤ Real.cosh (2 * t) := by norm_num at h6 ⊢; linarith
  have := mul_le_mul h5 h7 (by norm_num) (Real.cosh_pos t).le
  norm_num at this ⊢
  linarith

theorem ex_D {t : ℝ} (ht : t ^ 2 = 1 / 5) : 2.118 < Real.cosh t * Real.cosh (3 * t) ∧ Real.cosh t * Real.cosh (3 * t) < 2.304 := by
  have h3 := Real.cosh_three_mul t
  have h1 := Real.cosh_le_exp_half_sq t
  rw [ht, show (1 : ℝ) / 5 / 2 = 1 / 10 by norm_num] at h1
  have h2 : Real.cosh t < 1.1052 := lt_of_le_of_lt h1 exp_tenth
  have h4 := cosh_lower t
  have e4 : t ^ 4 = 1 / 25 := by rw [show t ^ 4 = (t ^ 2) ^ 2 by ring, ht]; norm_num
  rw [ht, e4] at h4
  have h5 : (1.1 : ℝ) ≤ Real.cosh t := by norm_num at h4 ⊢; linarith
  rw [h3]
  set c := Real.cosh t
  constructor
  · have : (1.1 : ℝ) ^ 2 ≤ c ^ 2 := pow_le_pow_left₀ (by norm_num) h5 2
    norm_num at this ⊢
    nlinarith
  · have h6 : c ^ 2 ≤ 1.1052 ^ 2 := pow_le_pow_left₀ (by linarith) h2.le 2
    have h7 : (1.1 : ℝ) ^ 2 ≤ c ^ 2 := pow_le_pow_left₀ (by norm_num) h5 2
    norm_num at h6 h7 ⊢
    nlinarith

theorem ex_A_lower : 2.37 < Real.cosh 1 * Real.cosh 1 := by
  have h1 := cosh_lower (1 / 4)
  have h2 := cosh_double (1 / 4)
  have h3 := cosh_double (1 / 2)
  rw [show (2 : ℝ) * (1 / 4) = 1 / 2 by norm_num] at h2
  rw [show (2 : ℝ) * (1 / 2) = 1 by norm_num] at h3
  have h4 : (1.0313 : ℝ) ^ 2 ≤ Real.cosh (1 / 4) ^ 2 := pow_le_pow_left₀ (by norm_num) (by norm_num at h1 ⊢; linarith) 2
  have h5 : (1.127 : ℝ) ≤ Real.cosh (1 / 2) := by norm_num at h2 h4 ⊢; linarith
  have h6 : (1.127 : ℝ) ^ 2 ≤ Real.cosh (1 / 2) ^ 2 := pow_le_pow_left₀ (by norm_num) h5 2
  have h7 : (1.54 : ℝ) ≤ Real.cosh 1 := by norm_num at h3 h6 ⊢; linarith
  have := mul_le_mul h7 h7 (by norm_num) (by linarith)
  norm_num at this ⊢
  linarith

theorem gamma_lt_log {x : ℝ} (h : 2.118 < x) : 0.74914 < Real.log x :=
  (Real.lt_log_iff_exp_lt (by linarith)).2 (exp_gamma.trans h)

/-- The measure decides the concrete data set for the true direction. -/
theorem exX_evidence : 0 < evidence exX 0 1 := by
  have h5 : (0 : ℝ) < √5 := by positivity
  have hs2 : √2 ^ 2 = 2 := Real.sq_sqrt (by norm_num)
  have hs5 : √5 ^ 2 = 5 := Real.sq_sqrt (by norm_num)
  have r01 : overStd (residual (standardize (exX 0)) (standardize (exX 1))) = ![-(1 / √5), 3 * (1 / √5), -(3 * (1 / √5)), -(-(1 / √5))] := by
    rw [ex0, ex1]
    have := residual_odd 1 1 √2 0
    rw [neg_zero] at this
    rw [this, overStd_odd]
    have e1 : (1 : ℝ) - 4 * (1 * √2 + 1 * 0) / (3 * (√2 ^ 2 + 0 ^ 2)) * √2 = -1 / 3 := by
      rw [hs2, show 4 * (1 * √2 + 1 * 0) / (3 * (2 + 0 ^ 2)) * √2 = 4 * √2 ^ 2 / 6 by ring, hs2]; norm_num
    have e3 : √(((-1 / 3 : ℝ) ^ 2 + (1 - 4 * (1 * √2 + 1 * 0) / (3 * (√2 ^ 2 + 0 ^ 2)) * 0) ^ 2) / 2) = √5 / 3 := by
      rw [mul_zero, sub_zero, Real.sqrt_eq_iff_mul_self_eq (by norm_num) (by positivity)]
      nlinarith
    rw [e1, e3, mul_zero, sub_zero]
    funext s
    fin_cases s <;> simp <;> field_simp
  have r10 : overStd (residual (standardize (exX 1)) (standardize (exX 0))) =
      ![√2 / √5, -(2 * (√2 / √5)), -(-(2 * (√2 / √5))), -(√2 / √5)] := by
    rw [ex0, ex1]
    have := residual_odd √2 0 1 1
    rw [neg_zero] at this
    rw [this, overStd_odd]
    have e1 : √2 - 4 * (√2 * 1 + 0 * 1) / (3 * (1 ^ 2 + 1 ^ 2)) * 1 = √2 / 3 := by ring
    have e2 : (0 : ℝ) - 4 * (√2 * 1 + 0 * 1) / (3 * (1 ^ 2 + 1 ^ 2)) * 1 = -(2 * √2 / 3) := by ring
    have e3 : √(((√2 / 3 : ℝ) ^ 2 + (-(2 * √2 / 3)) ^ 2) / 2) = √5 / 3 := by
      rw [Real.sqrt_eq_iff_mul_self_eq (by positivity) (by positivity)]
      nlinarith
    rw [e1, e2, e3]
    funext s
    fin_cases s <;> simp <;> field_simp
  unfold evidence
  rw [r01, r10, ex0, ex1, entropy_odd, entropy_odd, entropy_odd]
  have := entropy_odd √2 0
  rw [neg_zero, Real.cosh_zero, mul_one] at this
  rw [this, Real.cosh_neg, Real.cosh_neg]
  have hB := ex_B_lower (t := √2 / √5) (by rw [div_pow, hs2, hs5])
  obtain ⟨hD1, hD2⟩ := ex_D (t := 1 / √5) (by rw [div_pow, hs5]; norm_num)
  have hA := ex_A_lower
  have hC1 := ex_C_lower
  have hC2 := ex_C_upper
  have l1 := gamma_lt_log hC1
  have l2 := gamma_lt_log hD1
  have l3 := Real.log_lt_log (by linarith) (hC2.trans (by linarith : (2.2976 : ℝ) < Real.cosh (√2 / √5) * Real.cosh (2 * (√2 / √5))))
  have l4 := Real.log_lt_log (by linarith) (hD2.trans (by linarith : (2.304 : ℝ) < Real.cosh 1 * Real.cosh 1))
  norm_num at l1 l2 l3 l4 ⊢
  nlinarith

/-- The hypotheses of the C125 theorems are met: on the concrete data set `fit` returns the true order, and the variable placed first dominates the other. -/
example : (directOrder 2 ⟨none, false, []⟩ exX).map Prod.snd = some [0, 1] := by
  rw [C125_two_variables _ rfl, if_pos exX_evidence.le]

/-- The hypotheses of `C125_relabel` are met by the concrete data set: there are no ties. -/
example : ∀ K U : List Nat, (K ++ U).Perm (List.range 2) → ∀ i ∈ U, ∀ j ∈ U, i ≠ j →
    against (stage exX (List.range 2) K) U i ≠ against (stage exX (List.range 2) K) U j := by
  intro K U hp i hi j hj hne
  have hl := hp.length_eq
  rw [List.length_append, List.length_range] at hl
  have hnd := (List.nodup_append.1 (hp.nodup_iff.2 List.nodup_range)).2.1
  have hU : 2 ≤ U.length := by
    have := (List.cons_perm_iff_perm_erase.2 ⟨hi, List.Perm.refl _⟩).length_eq
    have hj' : j ∈ U.erase i := (List.mem_erase_of_ne (Ne.symm hne)).2 hj
    have := List.length_pos_of_mem hj'
    simp only [List.length_cons] at *
    omega
  have hK : K = [] := List.length_eq_zero_iff.1 (by omega)
  subst hK
  rw [List.nil_append] at hp
  have hlt (x : Nat) (hx : x ∈ U) : x < 2 := List.mem_range.1 (hp.mem_iff.1 hx)
  have h0 : against exX [0, 1] 0 = 0 := (against_zero _ _ _).2 (by
    intro j hj hne
    have : j = 1 := by simp at hj; omega
    rw [this]; exact exX_evidence.le)
  have h1 : against exX [0, 1] 1 ≠ 0 := by
    rw [Ne, against_zero]
    intro h
    have := h 0 (by simp) (by norm_num)
    rw [C125_antisymmetric] at this
    have := exX_evidence
    linarith
  show against exX U i ≠ against exX U j
  rw [against_perm _ (show U.Perm [0, 1] from hp), against_perm _ (show U.Perm [0, 1] from hp)]
  have := hlt i hi
  have := hlt j hj
  rcases (by omega : i = 0 ∧ j = 1 ∨ i = 1 ∧ j = 0) with ⟨rfl, rfl⟩ | ⟨rfl, rfl⟩
  · rw [h0]; exact h1.symm
  · rw [h0]; exact h1

/-- **C44** on real data: with the prior knowledge "1 has a path to 0", the first fit of the concrete data set obeys it and the second fit of the same object to the
same data does not. -/
theorem C44_second_fit_data_violated : ∃ M M' M'' : Model, mkModel 2 (some pk10) false = some M ∧ MustPrecede 2 pk10 1 0 ∧
    directOrder 2 M exX = some (M', [1, 0]) ∧ directOrder 2 M' exX = some (M'', [0, 1]) := by
  refine ⟨⟨some pk10, false, [(1, 0)]⟩, ⟨some pk10, false, []⟩, ⟨some pk10, false, []⟩, rfl, by unfold MustPrecede; decide, ?_, ?_⟩
  · rfl
  · have hM : ∀ U, searchVj ⟨some pk10, false, []⟩ U = [] := fun U => searchVj_hard rfl U
    have hsum (i j : Nat) (hij : [0, 1].filter (· ≠ i) = [j]) :
        pwScore 2 ⟨some pk10, false, []⟩ exX [] [0, 1] i = -(min 0 (evidence exX i j)) ^ 2 := by
      unfold pwScore
      rw [pwSum_hard (hM _)]
      unfold against
      rw [hij]
      simp [stage]
    have h0 : ¬ pwScore 2 ⟨some pk10, false, []⟩ exX [] [0, 1] 0 < pwScore 2 ⟨some pk10, false, []⟩ exX [] [0, 1] 1 := by
      rw [hsum 0 1 (by decide), hsum 1 0 (by decide), min_eq_left exX_evidence.le]
      have := sq_nonneg (min 0 (evidence exX 1 0))
      linarith
    have hs : searchCausalOrder (pwScore 2 ⟨some pk10, false, []⟩ exX) ⟨some pk10, false, []⟩ [] [0, 1] = some 0 := by
      show argmaxFirst _ [0, 1] = _
      simp only [argmaxFirst, List.foldl_cons, List.foldl_nil, if_neg h0]
    show (fitLoop _ 2 (_, [], [0, 1])).map _ = _
    simp only [fitLoop, fitStep, hs, Option.map_some, Option.bind_some]
    rfl

/-! ## C126: the kernel measure -/

/-- **C126**: the kernel measure of two columns is non-negative, as an (empirical) mutual information must be, for every positive `κ`. -/
theorem C126_kernel_nonneg {n : Nat} (hn : 0 < n) (κ σ : ℝ) (hκ : 0 < κ) (x y : Fin n → ℝ) : 0 ≤ mutualInfo κ σ x y :=
  mutualInfo_nonneg hn.ne' hκ σ x y

/-- **C126**: it is symmetric. -/
theorem C126_kernel_symmetric {n : Nat} (hn : 0 < n) (κ σ : ℝ) (hκ : 0 < κ) (x y : Fin n → ℝ) : mutualInfo κ σ x y = mutualInfo κ σ y x :=
  mutualInfo_comm hn.ne' hκ σ x y

/-- **C126**: the logarithms taken are those of non-zero singular values: both block matrices are invertible, and the value is half the logarithm of the quotient
`det(D_κ) / det(K_κ)`. -/
theorem C126_kernel_log_det {n : Nat} (hn : 0 < n) (κ σ : ℝ) (hκ : 0 < κ) (x y : Fin n → ℝ) :
    0 < (kKappa κ (gramK σ x) (gramK σ y)).det ∧ 0 < (dKappa κ (gramK σ x) (gramK σ y)).det ∧
    mutualInfo κ σ x y = Real.log ((dKappa κ (gramK σ x) (gramK σ y)).det / (kKappa κ (gramK σ x) (gramK σ y)).det) / 2 := by
  have h1 := (kKappa_posDef hn.ne' hκ (psd_gramK σ x) (psd_gramK σ y)).det_pos
  have h2 := (dKappa_posDef hn.ne' hκ (psd_gramK σ x) (psd_gramK σ y)).det_pos
  refine ⟨h1, h2, ?_⟩
  rw [mutualInfo_eq hn.ne' hκ, Real.log_div h2.ne' h1.ne']
  unfold dKappa
  rw [Matrix.det_fromBlocks_zero₂₁]
  ring

/-- **C126**: shifting a column or changing its sign does not change its measure. -/
theorem C126_kernel_shift {n : Nat} (κ σ : ℝ) (x y : Fin n → ℝ) (a b : ℝ) :
    mutualInfo κ σ (fun s => x s + a) (fun s => b - y s) = mutualInfo κ σ x y := by
  have h1 : gramK σ (fun s => x s + a) = gramK σ x := by
    ext s t; simp only [gramK, Matrix.of_apply]; congr 2; ring
  have h2 : gramK σ (fun s => b - y s) = gramK σ y := by
    ext s t; simp only [gramK, Matrix.of_apply]; congr 2; ring
  unfold mutualInfo
  rw [h1, h2]

/-- The parameters of the code satisfy the hypotheses: `κ` is 0.002 or 0.02. -/
example {n : Nat} (hn : 0 < n) (x y : Fin n → ℝ) : 0 ≤ mutualInfo (kernelKappa n) (kernelSigma n) x y :=
  C126_kernel_nonneg hn _ _ kernelKappa_pos x y

/-! ## C127: several groups -/

theorem pwSum_group (p : Nat) (M : Model) (X : Group) (K U : List Nat) (i : Nat) :
    pwSum M (stageGroup p K X).col U i = pwSum M (stage X.col (List.range p) K) U i := rfl

/-- The order of the data sets in `X_list` does not matter. -/
theorem C127_group_order (p : Nat) (M : Model) (Xs Ys : List Group) (h : Xs.Perm Ys) : groupOrder p M Xs = groupOrder p M Ys := by
  unfold groupOrder
  rw [h.length_eq]
  have hs : groupScore p M Xs = groupScore p M Ys := by
    funext K U i
    unfold groupScore groupSum
    have ht : totalSize (Xs.map (stageGroup p K)) = totalSize (Ys.map (stageGroup p K)) := ((h.map _).map _).sum_eq
    rw [ht, ((h.map _).map _).sum_eq]
  rw [hs]

/-- Giving the same data set several times is the same as `DirectLiNGAM` on it. -/
theorem C127_replicate {n : Nat} (hn : 0 < n) (g : Nat) (hg : 2 ≤ g) (p : Nat) (M : Model) (X : Nat → Fin n → ℝ) :
    groupOrder p M (List.replicate g ⟨n, X⟩) = directOrder p M X := by
  unfold groupOrder directOrder
  rw [List.length_replicate, if_neg (by omega)]
  have hs : groupScore p M (List.replicate g ⟨n, X⟩) = pwScore p M X := by
    funext K U i
    unfold groupScore groupSum pwScore totalSize
    simp only [List.map_replicate, List.sum_replicate, smul_eq_mul, nsmul_eq_mul, pwSum_group]
    have h1 : (n : ℝ) ≠ 0 := by positivity
    have h2 : (g : ℝ) ≠ 0 := by positivity
    simp only [stageGroup]
    push_cast
    field_simp
  rw [hs]

/-- The data set in other units and with its samples in another order. -/
def Group.rescale (X : Group) (π : Equiv.Perm (Fin X.n)) (a b : Nat → ℝ) : Group := ⟨X.n, fun i s => a i * X.col i (π s) + b i⟩

/-- Every group may be measured in its own units and list its samples in any order. -/
theorem C127_group_units (p : Nat) (M : Model) (Xs : List Group) (π : (X : Group) → Equiv.Perm (Fin X.n)) (a b : Group → Nat → ℝ)
    (ha : ∀ X i, a X i ≠ 0) : groupOrder p M (Xs.map fun X => X.rescale (π X) (a X) (b X)) = groupOrder p M Xs := by
  unfold groupOrder
  rw [List.length_map]
  have hs : groupScore p M (Xs.map fun X => X.rescale (π X) (a X) (b X)) = groupScore p M Xs := by
    funext K U i
    have hsz : totalSize ((Xs.map fun X => X.rescale (π X) (a X) (b X)).map (stageGroup p K)) = totalSize (Xs.map (stageGroup p K)) := by
      unfold totalSize
      rw [List.map_map, List.map_map, List.map_map]
      rfl
    unfold groupScore groupSum
    rw [hsz, List.map_map, List.map_map, List.map_map]
    congr 2
    refine List.map_congr_left fun X _ => ?_
    simp only [Function.comp_apply]
    have h2 : pwSum M (stageGroup p K (X.rescale (π X) (a X) (b X))).col U i = pwSum M (stageGroup p K X).col U i := by
      have := congrFun (congrFun (congrFun ((pwScore_aff p M (X := fun k => X.col k ∘ π X) (Y := (X.rescale (π X) (a X) (b X)).col)
        (fun i => ⟨a X i, b X i, ha X i, rfl⟩)).trans (pwScore_comp (π X) p M X.col)) K) U) i
      unfold pwScore at this
      rw [neg_one_mul, neg_one_mul, neg_inj] at this
      exact this
    rw [h2]
    rfl
  rw [hs]

/-- **C127** (no prior knowledge): whenever `fit` returns the common order `K1 ++ m :: K2`, the variable `m` minimises, among the variables not placed yet, the sum over
the groups of the evidence against it in the group, weighted with the number of samples of the group. -/
theorem C127_chosen_minimises (p : Nat) (M M' : Model) (hM : M.aknw = none) (Xs : List Group) (K1 K2 : List Nat) (m : Nat)
    (h : groupOrder p M Xs = some (M', K1 ++ m :: K2)) (c : Nat) (hc : c ∈ m :: K2) :
    (Xs.map fun X => (X.n : ℝ) * against (stage X.col (List.range p) K1) (m :: K2) m).sum ≤
      (Xs.map fun X => (X.n : ℝ) * against (stage X.col (List.range p) K1) (m :: K2) c).sum := by
  unfold groupOrder at h
  split at h
  · cases h
  obtain ⟨U, hpm, -, hs⟩ := fitOrder_split hM h
  have key := hs c hc
  have hsum (c : Nat) : groupScore p M Xs K1 U c =
      -((Xs.map fun X => (X.n : ℝ) * against (stage X.col (List.range p) K1) (m :: K2) c).sum / (totalSize Xs : ℝ)) := by
    unfold groupScore groupSum
    have ht : totalSize (Xs.map (stageGroup p K1)) = totalSize Xs := by
      unfold totalSize; rw [List.map_map]; rfl
    rw [ht, List.map_map, neg_one_mul, div_eq_mul_inv, ← List.sum_map_mul_right]
    refine congrArg Neg.neg (congrArg List.sum (List.map_congr_left fun X _ => ?_))
    simp only [Function.comp_apply]
    rw [pwSum_group, pwSum_hard (searchVj_none hM _), against_perm _ hpm, div_eq_mul_inv]
    simp only [stageGroup]
    ring
  rw [hsum, hsum, neg_le_neg_iff] at key
  by_cases h0 : totalSize Xs = 0
  · have hz : ∀ X ∈ Xs, X.n = 0 := by
      intro X hX
      unfold totalSize at h0
      exact List.sum_eq_zero_iff.1 h0 _ (List.mem_map.2 ⟨X, hX, rfl⟩)
    have hz' (c : Nat) : (Xs.map fun X => (X.n : ℝ) * against (stage X.col (List.range p) K1) (m :: K2) c).sum = 0 := by
      refine List.sum_eq_zero ?_
      simp only [List.mem_map, forall_exists_index, and_imp]
      rintro _ X hX rfl
      have : (X.n : ℝ) = 0 := by exact_mod_cast hz X hX
      exact mul_eq_zero_of_left this _
    rw [hz', hz']
  · have : (0 : ℝ) < totalSize Xs := Nat.cast_pos.2 (Nat.pos_of_ne_zero h0)
    rwa [div_le_div_iff_of_pos_right this] at key

theorem groupFit_fit {R : Type} [Zero R] {coef : Group → Nat → List Nat → Nat → R} {p : Nat} {M M' : Model} {Xs : List Group} {K : List Nat}
    {Bs : List (Nat → Nat → R)} (h : groupFit coef p M Xs = some (M', K, Bs)) :
    2 ≤ Xs.length ∧ Bs = Xs.map (fun X => estimateAdjacency (coef X) M'.aknw K) ∧
      ∀ c : Nat → List Nat → Nat → R, fit (groupScore p M Xs) c p M = some (M', K, estimateAdjacency c M'.aknw K) := by
  unfold groupFit groupOrder at h
  rw [Option.map_eq_some_iff] at h
  obtain ⟨⟨M1, K1⟩, h1, h2⟩ := h
  simp only [Prod.mk.injEq] at h2
  obtain ⟨rfl, rfl, rfl⟩ := h2
  split at h1
  · cases h1
  · exact ⟨by omega, rfl, fun c => by unfold fit; rw [h1]; rfl⟩

/-- **C127**: whenever `fit` returns, the causal order is one permutation of the variables for all groups, there is one adjacency matrix per group (in the order of the
groups), and in each of them every non-zero coefficient goes forward in the common order, so each is acyclic. -/
theorem C127_common_order {R : Type} [Zero R] (coef : Group → Nat → List Nat → Nat → R) (p : Nat) (M M' : Model) (Xs : List Group) (K : List Nat)
    (Bs : List (Nat → Nat → R)) (h : groupFit coef p M Xs = some (M', K, Bs)) :
    K.Perm (List.range p) ∧ Bs.length = Xs.length ∧ ∀ B ∈ Bs, (∀ i j, B j i ≠ 0 → Before K i j) ∧ AcyclicB B := by
  obtain ⟨-, rfl, hf⟩ := groupFit_fit h
  refine ⟨(C43_direct_lingam _ _ _ _ _ _ _ (hf fun _ _ _ => 0)).1, by simp, ?_⟩
  intro B hB
  obtain ⟨X, -, rfl⟩ := List.mem_map.1 hB
  exact (C43_direct_lingam _ _ _ _ _ _ _ (hf (coef X))).2

/-- **C127**: the first fit of a new object obeys the prior knowledge in all groups. -/
theorem C127_first_fit_prior_partial {R : Type} [Zero R] (coef : Group → Nat → List Nat → Nat → R) (p : Nat) (pk : Prior) (M M' : Model) (Xs : List Group)
    (K : List Nat) (Bs : List (Nat → Nat → R)) (hM : mkModel p (some pk) false = some M) (h : groupFit coef p M Xs = some (M', K, Bs)) :
    (∀ i j, MustPrecede p pk i j → Before K i j) ∧
    ((∃ i j, MustPrecede p pk i j) → ∀ B ∈ Bs, ∀ i j, i < p → j < p → pk j i = some 0 → B j i = 0) := by
  obtain ⟨-, rfl, hf⟩ := groupFit_fit h
  refine ⟨(C44_first_fit_obeys_prior_partial _ _ _ _ _ _ _ _ hM (hf fun _ _ _ => 0)).1, fun he B hB => ?_⟩
  obtain ⟨X, -, rfl⟩ := List.mem_map.1 hB
  exact (C44_first_fit_obeys_prior_partial _ _ _ _ _ _ _ _ hM (hf (coef X))).2 he

/-- **C127** is false for later fits, hence for `bootstrap`, which fits the same object again and again: the second fit to the same groups contradicts the prior
knowledge the first one obeys. -/
theorem C127_second_fit_violated : ∃ M M' M'' : Model, mkModel 2 (some pk10) false = some M ∧ MustPrecede 2 pk10 1 0 ∧
    groupOrder 2 M [⟨4, exX⟩, ⟨4, exX⟩] = some (M', [1, 0]) ∧ groupOrder 2 M' [⟨4, exX⟩, ⟨4, exX⟩] = some (M'', [0, 1]) := by
  obtain ⟨M, M', M'', h1, h2, h3, h4⟩ := C44_second_fit_data_violated
  have hr (N : Model) : groupOrder 2 N [⟨4, exX⟩, ⟨4, exX⟩] = directOrder 2 N exX := C127_replicate (by norm_num) 2 le_rfl 2 N exX
  exact ⟨M, M', M'', h1, h2, by rw [hr, h3], by rw [hr, h4]⟩

/-- The hypotheses of `C127_common_order` are met by the concrete data. -/
example : ∃ M' Bs, groupFit (R := ℝ) (fun _ _ _ _ => 1) 2 ⟨none, false, []⟩ [⟨4, exX⟩, ⟨4, exX⟩] = some (M', [0, 1], Bs) := by
  have h := C125_two_variables ⟨none, false, []⟩ rfl exX
  rw [if_pos exX_evidence.le, Option.map_eq_some_iff] at h
  obtain ⟨⟨M', K⟩, h1, h2⟩ := h
  have hr : groupOrder 2 ⟨none, false, []⟩ [⟨4, exX⟩, ⟨4, exX⟩] = directOrder 2 ⟨none, false, []⟩ exX :=
    C127_replicate (by norm_num) 2 le_rfl 2 _ exX
  dsimp only at h2
  subst h2
  exact ⟨M', _, by unfold groupFit; rw [hr, h1, Option.map_some]⟩

end CL.Lingam
