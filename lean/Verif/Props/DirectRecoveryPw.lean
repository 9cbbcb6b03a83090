import Verif.Props.DirectRecovery

/-!
# C207: DirectLiNGAM (`measure='pwling'`) with ideal entropies
-/
namespace CL.Lingam
open Spec Filter Topology
variable {N p : Nat}

/-- `pairTerm` with the difference of mutual informations `d` in place of `diffMI` (`direct_lingam.py:212-213`). -/
noncomputable def idealTerm (d : Col N → Col N → Col N → Col N → ℝ) (uc vj : List Nat) (X : Nat → Col N) (i j : Nat) : ℝ :=
  (min 0 (d (standardize (X i)) (standardize (X j)) (pairResidual uc vj X i j) (pairResidual uc vj X j i))) ^ 2

/-- `pwScore` with `d` (`direct_lingam.py:195-214`). -/
noncomputable def diffScore (d : Col N → Col N → Col N → Col N → ℝ) (p : Nat) (M : Model) (X : Nat → Col N) (K U : List Nat) (i : Nat) : ℝ :=
  -1 * ((U.filter (· ≠ i)).map (idealTerm d (searchCandidate M U) (searchVj M U) (stage X (List.range p) K) i)).sum

/-- `fit` with `measure='pwling'` and the difference of mutual informations `d`. -/
noncomputable def diffOrder (d : Col N → Col N → Col N → Col N → ℝ) (p : Nat) (M : Model) (X : Nat → Col N) : Option (Model × List Nat) :=
  fitOrder (diffScore d p M X) p M

/-- With the entropies of the code this is the order of the code. -/
theorem C207_is_directOrder (p : Nat) (M : Model) (X : Nat → Col N) : diffOrder diffMI p M X = directOrder p M X := rfl

/-- coefficients divided by their standard deviation -/
noncomputable def scl (s : Fin p → ℝ) (a : Fin p → ℝ) : Fin p → ℝ := fun l => a l / √(ipw s a a)

theorem standardize_coef {e : Fin p → Fin N → ℝ} {s : Fin p → ℝ} (he : Errors e) (hs : ∀ i, ∑ k, e i k ^ 2 = N * s i) (hN : N ≠ 0) (a : Fin p → ℝ) (c : ℝ) :
    standardize (comb e a c) = comb e (scl s a) 0 := by
  funext k
  unfold standardize std
  rw [var_coef he hs hN, mean_coef he hN]
  unfold comb scl
  simp only [zero_add, add_sub_cancel_left, Finset.sum_div]
  exact Finset.sum_congr rfl fun l _ => by ring

/-- the difference of mutual informations as a function of the coefficients of the two variables -/
noncomputable def pairD (F : (Fin p → ℝ) → (Fin p → ℝ) → ℝ) (s : Fin p → ℝ) (r : ℝ) (a b : Fin p → ℝ) : ℝ :=
  F (scl s b) (cres s r (scl s a) (scl s b)) - F (scl s a) (cres s r (scl s b) (scl s a))

/-- total effects as coefficients -/
def coefT (T : Fin p → Fin p → ℝ) (i : Nat) : Fin p → ℝ := fun l => if h : i < p then T l ⟨i, h⟩ else 0

/-- the (negated) score of `i` as a function of the coefficients -/
noncomputable def diffG (F : (Fin p → ℝ) → (Fin p → ℝ) → ℝ) (s : Fin p → ℝ) (T : Fin p → Fin p → ℝ) (r : ℝ) (K : List Nat) (i : Nat) : ℝ :=
  (((List.range p).filter fun j => j ∉ K ∧ j ≠ i).map fun j =>
    (min 0 (pairD F s r (cstage s r (coefT T) (List.range p) K i) (cstage s r (coefT T) (List.range p) K j))) ^ 2).sum

section
variable {B T : Fin p → Fin p → ℝ} {s : Fin p → ℝ} {F : (Fin p → ℝ) → (Fin p → ℝ) → ℝ}

theorem coefT_scaled (T : Fin p → Fin p → ℝ) : Scaled T (coefT T) := fun i => ⟨1, one_ne_zero, fun l => by unfold coefT; rw [dif_pos i.2, one_mul]⟩

theorem coefT_val (T : Fin p → Fin p → ℝ) (i l : Fin p) : coefT T i.val l = T l i := by unfold coefT; rw [dif_pos i.2]

theorem sqrt_ipw_ne (hs : ∀ i, 0 < s i) {a : Fin p → ℝ} (h : ipw s a a ≠ 0) : √(ipw s a a) ≠ 0 := by
  have hnn : 0 ≤ ipw s a a := Finset.sum_nonneg fun l _ => mul_nonneg (mul_self_nonneg _) (hs l).le
  exact Real.sqrt_ne_zero'.2 (lt_of_le_of_ne hnn (Ne.symm h))

theorem scl_cont (hs : ∀ i, 0 < s i) {f : ℝ → Fin p → ℝ} (hf : ContinuousAt f 1) (h : ipw s (f 1) (f 1) ≠ 0) : ContinuousAt (fun r => scl s (f r)) 1 := by
  have hf' : ∀ l, ContinuousAt (fun r => f r l) 1 := fun l => continuousAt_pi.1 hf l
  have i1 : ContinuousAt (fun r => ipw s (f r) (f r)) 1 := by
    unfold ipw
    exact tendsto_finsetSum _ fun l _ => ((hf' l).mul (hf' l)).mul continuousAt_const
  exact continuousAt_pi.2 fun l => (hf' l).div i1.sqrt (sqrt_ipw_ne hs h)

theorem scl_self_ne (hs : ∀ i, 0 < s i) {a : Fin p → ℝ} {j : Fin p} (h : a j ≠ 0) : scl s a j ≠ 0 := div_ne_zero h (sqrt_ipw_ne hs (ipw_self_ne hs h))

theorem pairD_cont (hF : IdealInfo F) (hs : ∀ i, 0 < s i) {f g : ℝ → Fin p → ℝ} (hf : ContinuousAt f 1) (hg : ContinuousAt g 1) {i j : Fin p} (hi : f 1 i ≠ 0)
    (hj : g 1 j ≠ 0) : ContinuousAt (fun r => pairD F s r (f r) (g r)) 1 := by
  have a := scl_cont hs hf (ipw_self_ne hs hi)
  have b := scl_cont hs hg (ipw_self_ne hs hj)
  have c1 := cres_cont a b (ipw_self_ne hs (scl_self_ne hs hj))
  have c2 := cres_cont b a (ipw_self_ne hs (scl_self_ne hs hi))
  refine ContinuousAt.sub ?_ ?_
  · exact ContinuousAt.comp (f := fun r => (scl s (g r), cres s r (scl s (f r)) (scl s (g r)))) (g := fun q : (Fin p → ℝ) × (Fin p → ℝ) => F q.1 q.2)
      hF.cont.continuousAt (b.prodMk c1)
  · exact ContinuousAt.comp (f := fun r => (scl s (f r), cres s r (scl s (g r)) (scl s (f r)))) (g := fun q : (Fin p → ℝ) × (Fin p → ℝ) => F q.1 q.2)
      hF.cont.continuousAt (a.prodMk c2)

theorem maskedT (hac : Acyclic fun p i => B p i ≠ 0) (hT : TotalEffects B T) (hs : ∀ i, 0 < s i) {K : List Nat} (hn : K.Nodup) (hK : ∀ m ∈ K, m < p)
    (hc : CausalPrefix B K) : Masked (coefT T) (cstage s 1 (coefT T) (List.range p) K) K :=
  masked_stage hac hT hs (coefT_scaled T) K [] _ _ (fun i _ _ l => by simp) hn hK hc range_iff

theorem maskedT_self (hac : Acyclic fun p i => B p i ≠ 0) (hT : TotalEffects B T) {K : List Nat} {t : Nat → Fin p → ℝ} (hm : Masked (coefT T) t K)
    {j : Fin p} (hj : j.val ∉ K) : t j.val j ≠ 0 := by
  rw [hm j.val j.2 hj, if_neg hj, coefT_val, (total_zero hac hT).1]
  exact one_ne_zero

theorem maskedT_source (hac : Acyclic fun p i => B p i ≠ 0) (hT : TotalEffects B T) {K : List Nat} (hc : CausalPrefix B K) {t : Nat → Fin p → ℝ}
    (hm : Masked (coefT T) t K) {j : Fin p} (hj : j.val ∉ K) (hp : ∀ q, B q j ≠ 0 → q.val ∈ K) (l : Fin p) (hl : l ≠ j) : t j.val l = 0 := by
  rw [hm j.val j.2 hj]
  split
  · rfl
  · next hlK =>
    rw [coefT_val, (total_zero hac hT).2 l j hl]
    intro ha
    obtain ⟨x, hlx, hb⟩ := Relation.TransGen.tail'_iff.1 ha
    rcases Relation.reflTransGen_iff_eq_or_transGen.1 hlx with h | hlx
    · exact hlK (h ▸ hp x hb)
    · exact hlK (hc.closed (hp x hb) hlx)

theorem diffG_cont (hF : IdealInfo F) (hac : Acyclic fun p i => B p i ≠ 0) (hT : TotalEffects B T) (hs : ∀ i, 0 < s i) (K : List Nat) (hn : K.Nodup)
    (hK : ∀ m ∈ K, m < p) (hc : CausalPrefix B K) (i : Nat) (hi : i < p) (hiK : i ∉ K) : ContinuousAt (fun r => diffG F s T r K i) 1 := by
  have hst := stage_cont hac hT hs (coefT_scaled T) K [] (List.range p) (fun _ => coefT T) (fun i _ _ l => by simp) (fun _ _ => continuousAt_const) hn hK hc range_iff
  have hm := maskedT hac hT hs hn hK hc
  unfold diffG
  have : ∀ L : List Nat, (∀ j ∈ L, j < p ∧ j ∉ K) → ContinuousAt (fun r => (L.map fun j =>
      (min 0 (pairD F s r (cstage s r (coefT T) (List.range p) K i) (cstage s r (coefT T) (List.range p) K j))) ^ 2).sum) 1 := by
    intro L
    induction L with
    | nil => intro _; exact continuousAt_const
    | cons j L ih =>
      intro hL
      simp only [List.map_cons, List.sum_cons]
      refine ContinuousAt.add ?_ (ih fun x hx => hL x (by simp [hx]))
      obtain ⟨hj, hjK⟩ := hL j (by simp)
      have := pairD_cont hF hs (hst i hi) (hst j hj) (i := ⟨i, hi⟩) (j := ⟨j, hj⟩) (maskedT_self hac hT hm (j := ⟨i, hi⟩) hiK) (maskedT_self hac hT hm (j := ⟨j, hj⟩) hjK)
      exact (continuousAt_const.min this).pow 2
  refine this _ fun j hj => ?_
  rw [List.mem_filter, decide_eq_true_eq] at hj
  exact ⟨List.mem_range.1 hj.1, hj.2.1⟩

/-- a variable that is its own error is independent of the residuals on it -/
theorem source_info (hF : IdealInfo F) (hs : ∀ i, 0 < s i) {a b : Fin p → ℝ} {j : Fin p} (hb : ∀ l, l ≠ j → b l = 0) (hj : b j ≠ 0) :
    F (scl s b) (cres s 1 (scl s a) (scl s b)) = 0 := by
  rw [hF.zero]
  have h0 : ∀ l, l ≠ j → scl s b l = 0 := fun l hl => by unfold scl; rw [hb l hl, zero_div]
  intro l
  by_cases hl : l = j
  · subst hl
    exact .inr (cres_self_zero hs h0 (scl_self_ne hs hj))
  · exact .inl (h0 l hl)

theorem diffG_zero (hF : IdealInfo F) (hac : Acyclic fun p i => B p i ≠ 0) (hT : TotalEffects B T) (hs : ∀ i, 0 < s i) (K : List Nat) (hn : K.Nodup)
    (hK : ∀ m ∈ K, m < p) (hc : CausalPrefix B K) (i : Fin p) (hiK : i.val ∉ K) (hp : ∀ q, B q i ≠ 0 → q.val ∈ K) : diffG F s T 1 K i.val = 0 := by
  have hm := maskedT hac hT hs hn hK hc
  unfold diffG
  apply List.sum_eq_zero
  intro x hx
  obtain ⟨j, -, rfl⟩ := List.mem_map.1 hx
  unfold pairD
  rw [source_info hF hs (maskedT_source hac hT hc hm hiK hp) (maskedT_self hac hT hm hiK), sub_zero, min_eq_left (hF.nonneg _ _)]
  norm_num

/-- an unplaced ancestor all of whose parents have been placed -/
theorem exists_source_anc (hac : Acyclic fun p i => B p i ≠ 0) {K : List Nat} {q j : Fin p} (hb : B q j ≠ 0) (hq : q.val ∉ K) (hc : CausalPrefix B K) :
    ∃ x : Fin p, x.val ∉ K ∧ Anc B x j ∧ ∀ y, B y x ≠ 0 → y.val ∈ K := by
  classical
  obtain ⟨ρ, hρ⟩ := acyclic_rank hac
  obtain ⟨x, hx, hmin⟩ := Finset.exists_min_image (Finset.univ.filter fun x : Fin p => x.val ∉ K ∧ Anc B x j) ρ
    ⟨q, by simp only [Finset.mem_filter, Finset.mem_univ, true_and]; exact ⟨hq, .single hb⟩⟩
  rw [Finset.mem_filter] at hx
  refine ⟨x, hx.2.1, hx.2.2, fun y hy => ?_⟩
  by_contra hyK
  have := hmin y (by simp only [Finset.mem_filter, Finset.mem_univ, true_and]; exact ⟨hyK, .head hy hx.2.2⟩)
  have := hρ _ _ hy
  omega

theorem diffG_pos (hF : IdealInfo F) (hac : Acyclic fun p i => B p i ≠ 0) (hT : TotalEffects B T) (hf : ∀ q i, Anc B q i → T q i ≠ 0) (hs : ∀ i, 0 < s i)
    (K : List Nat) (hn : K.Nodup) (hK : ∀ m ∈ K, m < p) (hc : CausalPrefix B K) (i : Fin p) (hiK : i.val ∉ K) (hp : ∃ q, B q i ≠ 0 ∧ q.val ∉ K) :
    0 < diffG F s T 1 K i.val := by
  have hm := maskedT hac hT hs hn hK hc
  obtain ⟨q, hb, hqK⟩ := hp
  obtain ⟨x, hxK, hxa, hxp⟩ := exists_source_anc hac hb hqK hc
  have hxi : x ≠ i := fun h => hac i (h ▸ hxa)
  have hix : ¬ Anc B i x := fun h => hac x (hxa.trans h)
  unfold diffG
  have hmem : x.val ∈ (List.range p).filter fun j => j ∉ K ∧ j ≠ i.val := by
    rw [List.mem_filter, decide_eq_true_eq]
    exact ⟨List.mem_range.2 x.2, hxK, fun h => hxi (Fin.ext h)⟩
  refine lt_of_lt_of_le ?_ (List.single_le_sum ?_ _ (List.mem_map_of_mem hmem))
  · have h0 : F (scl s (cstage s 1 (coefT T) (List.range p) K x.val)) (cres s 1 (scl s (cstage s 1 (coefT T) (List.range p) K i.val))
        (scl s (cstage s 1 (coefT T) (List.range p) K x.val))) = 0 :=
      source_info hF hs (maskedT_source hac hT hc hm hxK hxp) (maskedT_self hac hT hm hxK)
    have hpos : 0 < F (scl s (cstage s 1 (coefT T) (List.range p) K i.val)) (cres s 1 (scl s (cstage s 1 (coefT T) (List.range p) K x.val))
        (scl s (cstage s 1 (coefT T) (List.range p) K i.val))) := by
      refine lt_of_le_of_ne (hF.nonneg _ _) (Ne.symm ?_)
      rw [Ne, hF.zero]
      push Not
      set a := scl s (cstage s 1 (coefT T) (List.range p) K i.val) with ha
      set b := scl s (cstage s 1 (coefT T) (List.range p) K x.val) with hbd
      have hai : a i ≠ 0 := scl_self_ne hs (maskedT_self hac hT hm hiK)
      have hbx : b x ≠ 0 := scl_self_ne hs (maskedT_self hac hT hm hxK)
      have hax : a x ≠ 0 := by
        refine scl_self_ne hs ?_
        rw [hm i.val i.2 hiK, if_neg hxK, coefT_val]
        exact hf x i hxa
      have hbi : b i = 0 := by
        rw [hbd]
        unfold scl
        rw [maskedT_source hac hT hc hm hxK hxp i (Ne.symm hxi), zero_div]
      by_cases hcoef : ipw s b a = 0
      · exact ⟨x, hax, by unfold cres; rw [hcoef]; simpa using hbx⟩
      · refine ⟨i, hai, ?_⟩
        unfold cres
        rw [hbi, zero_sub, neg_ne_zero, one_mul]
        exact mul_ne_zero (div_ne_zero hcoef (ipw_self_ne hs hai)) hai
    unfold pairD
    rw [h0, zero_sub, min_eq_right (by linarith), neg_sq]
    exact pow_pos hpos 2
  · intro y hy
    obtain ⟨j, -, rfl⟩ := List.mem_map.1 hy
    exact sq_nonneg _

theorem crepT {b0 : Fin p → ℝ} {e : Fin p → Fin N → ℝ} {X : Nat → Col N} (hg : Generated (fun k (i : Fin p) => X i k) b0 B e) (hT : TotalEffects B T) :
    CRep e X (coefT T) := by
  intro i hi
  obtain ⟨c, hc⟩ := rep_of_generated hg hT ⟨i, hi⟩
  refine ⟨c, ?_⟩
  have : coefT T i = fun q => T q ⟨i, hi⟩ := by funext l; unfold coefT; rw [dif_pos hi]
  rw [this]
  exact hc

/-- the score of the code is minus `diffG` at `r = N / (N - 1)` -/
theorem diffScore_eq {b0 : Fin p → ℝ} {e : Fin p → Fin N → ℝ} {X : Nat → Col N} {d : Col N → Col N → Col N → Col N → ℝ} {M : Model} (hM : M.aknw = none)
    (hg : Generated (fun k (i : Fin p) => X i k) b0 B e) (hT : TotalEffects B T) (hes : ∀ i, ∑ k, e i k ^ 2 = N * s i) (hN : N ≠ 0)
    (hd : ∀ a b a' b' c1 c2 c3 c4, d (comb e a c1) (comb e b c2) (comb e a' c3) (comb e b' c4) = F b a' - F a b') {K U : List Nat} (hK : ∀ m ∈ K, m < p)
    (hU : U.Perm ((List.range p).filter (· ∉ K))) {i : Nat} (hi : i < p) :
    diffScore d p M X K U i = -diffG F s T (N / ((N : ℝ) - 1)) K i := by
  have hr := stage_rep hg.errors hes hN K (List.range p) _ _ hK (crepT hg hT)
  unfold diffScore diffG
  rw [searchVj_none hM, neg_one_mul, neg_inj]
  have hp : (U.filter (· ≠ i)).Perm ((List.range p).filter fun j => j ∉ K ∧ j ≠ i) := by
    have := hU.filter (· ≠ i)
    rw [List.filter_filter] at this
    refine this.trans (List.Perm.of_eq (List.filter_congr fun x _ => ?_))
    simp only [Bool.decide_and, decide_not, Bool.and_comm]
  rw [(hp.map _).sum_eq]
  refine congrArg List.sum (List.map_congr_left fun j hj => ?_)
  have hjp : j < p := List.mem_range.1 (List.mem_filter.1 hj).1
  unfold idealTerm pairResidual
  rw [if_neg (by simp), if_neg (by simp)]
  obtain ⟨c, h1⟩ := hr i hi
  obtain ⟨c', h2⟩ := hr j hjp
  rw [h1, h2, standardize_coef hg.errors hes hN, standardize_coef hg.errors hes hN]
  obtain ⟨c3, h3⟩ := residual_coef hg.errors hes hN (scl s (cstage s (N / ((N : ℝ) - 1)) (coefT T) (List.range p) K i))
    (scl s (cstage s (N / ((N : ℝ) - 1)) (coefT T) (List.range p) K j)) 0 0
  obtain ⟨c4, h4⟩ := residual_coef hg.errors hes hN (scl s (cstage s (N / ((N : ℝ) - 1)) (coefT T) (List.range p) K j))
    (scl s (cstage s (N / ((N : ℝ) - 1)) (coefT T) (List.range p) K i)) 0 0
  rw [h3, h4, hd]
  rfl
end

/-- **C207**: data of an acyclic linear model with independent errors in which no cause has total effect zero, and an ideal estimate of the difference of the mutual
informations (`x_j` with the residual of `x_i` on it, against `x_i` with the residual of `x_j`): from some number of samples on (which depends on the model and the
measure only, not on the data), `fit` with `measure='pwling'` and without prior knowledge returns an order in which every cause precedes its effects. -/
theorem C207_large_samples {B T : Fin p → Fin p → ℝ} (hac : Acyclic fun p i => B p i ≠ 0) (hT : TotalEffects B T) (hf : ∀ q i, Anc B q i → T q i ≠ 0)
    {s : Fin p → ℝ} (hs : ∀ i, 0 < s i) {F : (Fin p → ℝ) → (Fin p → ℝ) → ℝ} (hF : IdealInfo F) :
    ∃ N0, ∀ N ≥ N0, ∀ (X : Nat → Fin N → ℝ) (b0 : Fin p → ℝ) (e : Fin p → Fin N → ℝ)
      (d : (Fin N → ℝ) → (Fin N → ℝ) → (Fin N → ℝ) → (Fin N → ℝ) → ℝ) (M : Model), M.aknw = none →
      Generated (fun k (i : Fin p) => X i k) b0 B e → (∀ i, ∑ k, e i k ^ 2 = N * s i) →
      (∀ a b a' b' c1 c2 c3 c4, d (comb e a c1) (comb e b c2) (comb e a' c3) (comb e b' c4) = F b a' - F a b') →
        ∃ M' K, diffOrder d p M X = some (M', K) ∧ K.Perm (List.range p) ∧ ∀ q i : Fin p, B q i ≠ 0 → Before K q i := by
  have hev := eventually_causal hac (fun r K j => diffG F s T r K j) (fun K a b c j d e => diffG_cont hF hac hT hs K a b c j d e)
    (fun K a b c j d e => diffG_zero hF hac hT hs K a b c j d e) (fun K a b c j d e => diffG_pos hF hac hT hf hs K a b c j d e)
  obtain ⟨N0, hN0⟩ := Filter.eventually_atTop.1 ((ratio_tendsto.eventually hev).and (Filter.eventually_ge_atTop 1))
  refine ⟨N0, fun N hN X b0 e d M hM hg hes hd => ?_⟩
  obtain ⟨hcausal, hN1⟩ := hN0 N hN
  exact order_of_scores hM (fun K j => diffG F s T (N / ((N : ℝ) - 1)) K j)
    (fun K U j hK hU hj => diffScore_eq hM hg hT hes (by omega) hd hK hU hj) hcausal

/-- The estimate `d` exists whenever the estimate of the mutual information of C206 does (for which a case is given there). -/
example {e : Fin p → Fin N → ℝ} {F : (Fin p → ℝ) → (Fin p → ℝ) → ℝ} (mi : (Fin N → ℝ) → (Fin N → ℝ) → ℝ)
    (h : ∀ a c a' c', mi (comb e a c) (comb e a' c') = F a a') :
    ∀ a b a' b' c1 c2 c3 c4, (fun xi xj ri rj => mi xj ri - mi xi rj) (comb e a c1) (comb e b c2) (comb e a' c3) (comb e b' c4) = F b a' - F a b' := by
  intro a b a' b' c1 c2 c3 c4
  simp only [h]

/-- A chain in which no cause has total effect zero. -/
example : ∃ B T : Fin 3 → Fin 3 → ℝ, (Acyclic fun p i => B p i ≠ 0) ∧ TotalEffects B T ∧ (∃ q i, Anc B q i) ∧ ∀ q i, Anc B q i → T q i ≠ 0 := by
  have hB : ∀ q i : Fin 3, (if i.val = q.val + 1 then (1 : ℝ) else 0) ≠ 0 ↔ i.val = q.val + 1 := fun q i => by split <;> simp_all
  refine ⟨fun q i => if i.val = q.val + 1 then 1 else 0, fun q i => if q.val ≤ i.val then 1 else 0, ?_, ?_, ⟨0, 1, .single (by simp)⟩, ?_⟩
  · refine Spec.acyclic_of_rank (ρ := fun i : Fin 3 => i.val) fun q i h => ?_
    have := (hB q i).1 h
    omega
  · intro j i
    simp only [Fin.sum_univ_three]
    fin_cases j <;> fin_cases i <;> norm_num
  · intro q i h
    have : q.val < i.val := by
      unfold Anc at h
      induction h with
      | single h => have := (hB _ _).1 h; omega
      | tail _ h ih => have := (hB _ _).1 h; omega
    show (if q.val ≤ i.val then (1 : ℝ) else 0) ≠ 0
    rw [if_pos this.le]
    exact one_ne_zero

end CL.Lingam
