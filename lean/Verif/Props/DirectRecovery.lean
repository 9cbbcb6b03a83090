import Verif.Props.LingamData
import Verif.Proofs.NonGaussian
import Verif.Proofs.IMap
import Mathlib.Topology.Algebra.Order.Field
import Mathlib.Topology.Order.Basic
import Mathlib.Topology.Instances.Real.Lemmas
import Mathlib.Analysis.SpecificLimits.Basic
import Mathlib.Data.Fintype.List
import Mathlib.Data.Set.Finite.List

/-!
# C206: DirectLiNGAM with ideal measures of dependence
-/
namespace CL.Lingam
open Spec Filter Topology
variable {N p : Nat}

/-! ## Coefficients of the stages -/

/-- inner product of coefficient vectors with weights `s` (the variances of the errors) -/
def ipw (s : Fin p → ℝ) (a b : Fin p → ℝ) : ℝ := ∑ l, a l * b l * s l

/-- coefficients of the residual of `a` on `b` when the regression coefficient is multiplied by `r` -/
noncomputable def cres (s : Fin p → ℝ) (r : ℝ) (a b : Fin p → ℝ) : Fin p → ℝ := fun l => a l - r * (ipw s a b / ipw s b b) * b l

/-- coefficients after `removeEffect` -/
noncomputable def cremove (s : Fin p → ℝ) (r : ℝ) (t : Nat → Fin p → ℝ) (U : List Nat) (m : Nat) : Nat → Fin p → ℝ :=
  fun i => if i ∈ U ∧ i ≠ m then cres s r (t i) (t m) else t i

/-- coefficients after `stage` -/
noncomputable def cstage (s : Fin p → ℝ) (r : ℝ) (t : Nat → Fin p → ℝ) : List Nat → List Nat → (Nat → Fin p → ℝ)
  | _, [] => t
  | U, m :: K => cstage s r (cremove s r t U m) (U.filter (· ≠ m)) K

section rep
variable {e : Fin p → Fin N → ℝ} {s : Fin p → ℝ}

theorem ip_eq_ipw (hs : ∀ i, ∑ k, e i k ^ 2 = N * s i) (a b : Fin p → ℝ) : ip e a b = N * ipw s a b := by
  unfold ip ipw ss
  rw [Finset.mul_sum]
  exact Finset.sum_congr rfl fun l _ => by rw [hs]; ring

theorem cov_coef (he : Errors e) (hs : ∀ i, ∑ k, e i k ^ 2 = N * s i) (a b : Fin p → ℝ) (c d : ℝ) :
    cov (comb e a c) (comb e b d) = N * ipw s a b / ((N : ℝ) - 1) := by
  unfold cov mean
  rw [cov_comb he, ip_eq_ipw hs]

theorem var_coef (he : Errors e) (hs : ∀ i, ∑ k, e i k ^ 2 = N * s i) (hN : N ≠ 0) (a : Fin p → ℝ) (c : ℝ) :
    var (comb e a c) = ipw s a a := by
  unfold var mean
  have := cov_comb he a a c c
  simp only [← sq] at this
  rw [this, ip_eq_ipw hs]
  have : (N : ℝ) ≠ 0 := by exact_mod_cast hN
  field_simp

theorem residual_coef (he : Errors e) (hs : ∀ i, ∑ k, e i k ^ 2 = N * s i) (hN : N ≠ 0) (a b : Fin p → ℝ) (c d : ℝ) :
    ∃ c', residual (comb e a c) (comb e b d) = comb e (cres s (N / ((N : ℝ) - 1)) a b) c' := by
  unfold residual
  rw [cov_coef he hs, var_coef he hs hN]
  refine ⟨c - N / ((N : ℝ) - 1) * (ipw s a b / ipw s b b) * d, ?_⟩
  funext k
  unfold comb cres
  have h : (∑ i, (a i - N / ((N : ℝ) - 1) * (ipw s a b / ipw s b b) * b i) * e i k) =
      ∑ i, a i * e i k - N / ((N : ℝ) - 1) * (ipw s a b / ipw s b b) * ∑ i, b i * e i k := by
    rw [Finset.mul_sum, ← Finset.sum_sub_distrib]
    exact Finset.sum_congr rfl fun i _ => by ring
  rw [h]
  ring

/-- `X` is represented by the coefficients `t` -/
def CRep (e : Fin p → Fin N → ℝ) (X : Nat → Col N) (t : Nat → Fin p → ℝ) : Prop := ∀ i < p, ∃ c, X i = comb e (t i) c

theorem stage_rep (he : Errors e) (hs : ∀ i, ∑ k, e i k ^ 2 = N * s i) (hN : N ≠ 0) : ∀ (K U : List Nat) (X : Nat → Col N) (t : Nat → Fin p → ℝ),
    (∀ m ∈ K, m < p) → CRep e X t → CRep e (stage X U K) (cstage s (N / ((N : ℝ) - 1)) t U K) := by
  intro K
  induction K with
  | nil => intro U X t _ h; exact h
  | cons m K ih =>
    intro U X t hK h
    unfold stage cstage
    refine ih _ _ _ (fun x hx => hK x (by simp [hx])) ?_
    intro i hi
    unfold removeEffect cremove
    by_cases hc : i ∈ U ∧ i ≠ m
    · rw [if_pos hc, if_pos hc]
      obtain ⟨c, h1⟩ := h i hi
      obtain ⟨d, h2⟩ := h m (hK m (by simp))
      rw [h1, h2]
      exact residual_coef he hs hN _ _ _ _
    · rw [if_neg hc, if_neg hc]
      exact h i hi
end rep

/-! ## The limit coefficients -/

section limit
variable {B T : Fin p → Fin p → ℝ} {s : Fin p → ℝ}

/-- `K` contains the parents of its members, before them. -/
def CausalPrefix (B : Fin p → Fin p → ℝ) (K : List Nat) : Prop :=
  ∀ K1 m K2, K = K1 ++ m :: K2 → ∀ (i q : Fin p), i.val = m → B q i ≠ 0 → q.val ∈ K1

theorem CausalPrefix.closed {K : List Nat} (h : CausalPrefix B K) {i q : Fin p} (hi : i.val ∈ K) (hq : Anc B q i) : q.val ∈ K := by
  unfold Anc at hq
  induction hq using Relation.TransGen.head_induction_on with
  | single hb =>
    obtain ⟨K1, K2, rfl⟩ := List.append_of_mem hi
    exact List.mem_append_left _ (h K1 _ K2 rfl _ _ rfl hb)
  | head hb _ ih =>
    obtain ⟨K1, K2, e⟩ := List.append_of_mem ih
    rw [e]
    exact List.mem_append_left _ (h K1 _ K2 e _ _ rfl hb)

theorem ipw_self_ne (hs : ∀ i, 0 < s i) {a : Fin p → ℝ} {j : Fin p} (h : a j ≠ 0) : ipw s a a ≠ 0 := by
  have hn : ∀ l ∈ (Finset.univ : Finset (Fin p)), 0 ≤ a l * a l * s l := fun l _ => mul_nonneg (mul_self_nonneg _) (hs l).le
  have h1 : 0 < a j * a j * s j := mul_pos (mul_self_pos.2 h) (hs j)
  exact (Finset.sum_pos' hn ⟨j, Finset.mem_univ _, h1⟩).ne'

/-- `t` are the coefficients `t0` with the coordinates in `K` removed, for the variables outside `K`. -/
def Masked (t0 t : Nat → Fin p → ℝ) (K : List Nat) : Prop :=
  ∀ i < p, i ∉ K → ∀ l : Fin p, t i l = if l.val ∈ K then 0 else t0 i l

/-- scaled total effects: `t0 i l` is a multiple of `T l i` -/
def Scaled (T : Fin p → Fin p → ℝ) (t0 : Nat → Fin p → ℝ) : Prop := ∀ i : Fin p, ∃ w, w ≠ 0 ∧ ∀ l, t0 i.val l = w * T l i

theorem masked_step (hac : Acyclic fun p i => B p i ≠ 0) (hT : TotalEffects B T) (hs : ∀ i, 0 < s i) {t0 t : Nat → Fin p → ℝ} (h0 : Scaled T t0) {K : List Nat}
    (hm : Masked t0 t K) {m : Nat} (hmp : m < p) (hmK : m ∉ K) (hanc : ∀ q : Fin p, Anc B q ⟨m, hmp⟩ → q.val ∈ K) {U : List Nat}
    (hU : ∀ i < p, i ∈ U ↔ i ∉ K) : Masked t0 (cremove s 1 t U m) (K ++ [m]) := by
  obtain ⟨h1, h2⟩ := total_zero hac hT
  obtain ⟨w, hw, hw'⟩ := h0 ⟨m, hmp⟩
  have htm : ∀ l : Fin p, t m l = if l.val = m then w else 0 := by
    intro l
    rw [hm m hmp hmK]
    by_cases hl : l.val = m
    · rw [if_pos hl, if_neg (hl ▸ hmK), hw']
      have : l = ⟨m, hmp⟩ := Fin.ext hl
      subst this
      rw [h1, mul_one]
    · rw [if_neg hl]
      split
      · rfl
      · next hlK =>
        rw [hw', h2 l _ (fun h => hl (congrArg Fin.val h)) (fun ha => hlK (hanc l ha)), mul_zero]
  intro i hi hiK l
  rw [List.mem_append, not_or, List.mem_singleton] at hiK
  unfold cremove
  rw [if_pos ⟨(hU i hi).2 hiK.1, hiK.2⟩]
  have e1 : ipw s (t i) (t m) = t i ⟨m, hmp⟩ * w * s ⟨m, hmp⟩ := by
    unfold ipw
    rw [Finset.sum_eq_single ⟨m, hmp⟩]
    · rw [htm, if_pos rfl]
    · intro l _ hl
      rw [htm, if_neg (fun h => hl (Fin.ext h))]; ring
    · intro h; exact absurd (Finset.mem_univ _) h
  have e2 : ipw s (t m) (t m) = w * w * s ⟨m, hmp⟩ := by
    unfold ipw
    rw [Finset.sum_eq_single ⟨m, hmp⟩]
    · rw [htm, if_pos rfl]
    · intro l _ hl
      rw [htm, if_neg (fun h => hl (Fin.ext h))]; ring
    · intro h; exact absurd (Finset.mem_univ _) h
  unfold cres
  rw [e1, e2, htm, one_mul]
  by_cases hl : l.val = m
  · have : l = ⟨m, hmp⟩ := Fin.ext hl
    subst this
    have := (hs ⟨m, hmp⟩).ne'
    simp only [if_true, List.mem_append, List.mem_singleton, or_true]
    field_simp
    ring
  · rw [if_neg hl, hm i hi hiK.1]
    simp only [List.mem_append, List.mem_singleton, hl, or_false]
    ring

theorem masked_stage (hac : Acyclic fun p i => B p i ≠ 0) (hT : TotalEffects B T) (hs : ∀ i, 0 < s i) {t0 : Nat → Fin p → ℝ} (h0 : Scaled T t0) :
    ∀ (K K0 U : List Nat) (t : Nat → Fin p → ℝ), Masked t0 t K0 → (K0 ++ K).Nodup → (∀ m ∈ K, m < p) → CausalPrefix B (K0 ++ K) →
      (∀ i < p, i ∈ U ↔ i ∉ K0) → Masked t0 (cstage s 1 t U K) (K0 ++ K) := by
  intro K
  induction K with
  | nil => intro K0 U t hm _ _ _ _; rw [List.append_nil]; exact hm
  | cons m K ih =>
    intro K0 U t hm hn hK hc hU
    have hmp : m < p := hK m (by simp)
    have hmK : m ∉ K0 := fun h => (List.nodup_append.1 hn).2.2 m h m (by simp) rfl
    have hanc : ∀ q : Fin p, Anc B q ⟨m, hmp⟩ → q.val ∈ K0 := by
      intro q hq
      obtain ⟨x, hqx, hb⟩ := Relation.TransGen.tail'_iff.1 hq
      have hx : x.val ∈ K0 := hc K0 m K rfl ⟨m, hmp⟩ x rfl hb
      rcases Relation.reflTransGen_iff_eq_or_transGen.1 hqx with rfl | hqx
      · exact hx
      · have hc0 : CausalPrefix B K0 := by
          intro K1 m' K2 e
          exact hc K1 m' (K2 ++ m :: K) (by rw [e]; simp)
        exact hc0.closed hx hqx
    have := ih (K0 ++ [m]) (U.filter (· ≠ m)) _ (masked_step hac hT hs h0 hm hmp hmK hanc hU) (by simpa using hn)
      (fun x hx => hK x (by simp [hx])) (by simpa using hc) (by
        intro i hi
        rw [List.mem_filter, hU i hi, decide_eq_true_iff, List.mem_append, List.mem_singleton, not_or])
    unfold cstage
    simpa using this

/-- continuity of the residual coefficients -/
theorem cres_cont {f g : ℝ → Fin p → ℝ} (hf : ContinuousAt f 1) (hg : ContinuousAt g 1) (h : ipw s (g 1) (g 1) ≠ 0) :
    ContinuousAt (fun r => cres s r (f r) (g r)) 1 := by
  have hf' : ∀ l, ContinuousAt (fun r => f r l) 1 := fun l => continuousAt_pi.1 hf l
  have hg' : ∀ l, ContinuousAt (fun r => g r l) 1 := fun l => continuousAt_pi.1 hg l
  have i1 : ContinuousAt (fun r => ipw s (f r) (g r)) 1 := by
    unfold ipw
    exact tendsto_finsetSum _ fun l _ => ((hf' l).mul (hg' l)).mul continuousAt_const
  have i2 : ContinuousAt (fun r => ipw s (g r) (g r)) 1 := by
    unfold ipw
    exact tendsto_finsetSum _ fun l _ => ((hg' l).mul (hg' l)).mul continuousAt_const
  refine continuousAt_pi.2 fun l => ?_
  unfold cres
  exact (hf' l).sub ((continuousAt_id.mul (i1.div i2 h)).mul (hg' l))

theorem stage_cont (hac : Acyclic fun p i => B p i ≠ 0) (hT : TotalEffects B T) (hs : ∀ i, 0 < s i) {t0 : Nat → Fin p → ℝ} (h0 : Scaled T t0) :
    ∀ (K K0 U : List Nat) (t : ℝ → Nat → Fin p → ℝ), Masked t0 (t 1) K0 → (∀ i < p, ContinuousAt (fun r => t r i) 1) → (K0 ++ K).Nodup → (∀ m ∈ K, m < p) →
      CausalPrefix B (K0 ++ K) → (∀ i < p, i ∈ U ↔ i ∉ K0) → ∀ i < p, ContinuousAt (fun r => cstage s r (t r) U K i) 1 := by
  intro K
  induction K with
  | nil => intro K0 U t _ h _ _ _ _ i hi; exact h i hi
  | cons m K ih =>
    intro K0 U t hm hcont hn hK hc hU i hi
    have hmp : m < p := hK m (by simp)
    have hmK : m ∉ K0 := fun h => (List.nodup_append.1 hn).2.2 m h m (by simp) rfl
    obtain ⟨h1, h2⟩ := total_zero hac hT
    have hanc : ∀ q : Fin p, Anc B q ⟨m, hmp⟩ → q.val ∈ K0 := by
      intro q hq
      obtain ⟨x, hqx, hb⟩ := Relation.TransGen.tail'_iff.1 hq
      have hx : x.val ∈ K0 := hc K0 m K rfl ⟨m, hmp⟩ x rfl hb
      rcases Relation.reflTransGen_iff_eq_or_transGen.1 hqx with rfl | hqx
      · exact hx
      · have hc0 : CausalPrefix B K0 := by
          intro K1 m' K2 e
          exact hc K1 m' (K2 ++ m :: K) (by rw [e]; simp)
        exact hc0.closed hx hqx
    have hne : ipw s (t 1 m) (t 1 m) ≠ 0 := by
      refine ipw_self_ne hs (j := ⟨m, hmp⟩) ?_
      rw [hm m hmp hmK, if_neg hmK]
      obtain ⟨w, hw, hw'⟩ := h0 ⟨m, hmp⟩
      rw [hw', h1, mul_one]; exact hw
    refine ih (K0 ++ [m]) (U.filter (· ≠ m)) (fun r => cremove s r (t r) U m) (masked_step hac hT hs h0 hm hmp hmK hanc hU) ?_ (by simpa using hn)
      (fun x hx => hK x (by simp [hx])) (by simpa using hc) (by
        intro i hi
        rw [List.mem_filter, hU i hi, decide_eq_true_iff, List.mem_append, List.mem_singleton, not_or]) i hi
    intro i hi
    unfold cremove
    by_cases hc : i ∈ U ∧ i ≠ m
    · simp only [if_pos hc]
      exact cres_cont (hcont i hi) (hcont m hmp) hne
    · simp only [if_neg hc]
      exact hcont i hi

/-- A variable with a parent outside the causal prefix `K` has a non-zero total effect from a variable outside `K`. -/
theorem exists_effect (hac : Acyclic fun p i => B p i ≠ 0) (hT : TotalEffects B T) {K : List Nat} (hK : CausalPrefix B K) {q j : Fin p}
    (hb : B q j ≠ 0) (hq : q.val ∉ K) : ∃ q' : Fin p, q'.val ∉ K ∧ q' ≠ j ∧ T q' j ≠ 0 ∧ ¬ Anc B j q' := by
  classical
  obtain ⟨r, hr⟩ := acyclic_rank hac
  obtain ⟨h1, h2⟩ := total_zero hac hT
  have hancr : ∀ a b, Anc B a b → r a < r b := by
    intro a b h
    unfold Anc at h
    induction h with
    | single h => exact hr _ _ h
    | tail _ h ih => exact ih.trans (hr _ _ h)
  obtain ⟨x, hx, hmax⟩ := Finset.exists_max_image (Finset.univ.filter fun x : Fin p => x.val ∉ K ∧ B x j ≠ 0) r ⟨q, by simp [hq, hb]⟩
  rw [Finset.mem_filter] at hx
  have hxj : x ≠ j := fun e => by have := hr _ _ hx.2.2; rw [e] at this; omega
  refine ⟨x, hx.2.1, hxj, ?_, fun h => by have := hancr _ _ h; have := hr _ _ hx.2.2; omega⟩
  rw [hT, if_neg hxj, zero_add, Finset.sum_eq_single x]
  · rw [h1, mul_one]; exact hx.2.2
  · intro y _ hyx
    by_cases hyb : B y j = 0
    · rw [hyb, zero_mul]
    · rw [h2 x y (Ne.symm hyx), mul_zero]
      intro ha
      by_cases hyK : y.val ∈ K
      · exact hx.2.1 (hK.closed hyK ha)
      · have := hmax y (by simp [hyK, hyb])
        have := hancr _ _ ha
        omega
  · intro h; exact absurd (Finset.mem_univ _) h
end limit

/-! ## From the limit to large samples -/

/-- all lists that can be prefixes of a causal order -/
theorem prefixes_finite (p : Nat) : {K : List Nat | K.Nodup ∧ ∀ m ∈ K, m < p}.Finite := by
  have h : {K : List Nat | K.Nodup ∧ ∀ m ∈ K, m < p} ⊆ (List.map Fin.val) '' {L : List (Fin p) | L.length ≤ p} := by
    rintro K ⟨hn, hK⟩
    refine ⟨K.attach.map fun x => ⟨x.1, hK x.1 x.2⟩, ?_, ?_⟩
    · show List.length _ ≤ p
      rw [List.length_map, List.length_attach]
      have := (List.subperm_of_subset hn fun x hx => List.mem_range.2 (hK x hx)).length_le
      rwa [List.length_range] at this
    · rw [List.map_map]
      exact List.attach_map_subtype_val K
  exact ((List.finite_length_le (Fin p) p).image _).subset h

/-- If the scores are, up to the sign, a function `G r` of the coefficients with `r` close to 1, and `G 1` vanishes exactly at the variables whose parents
have all been placed, the order is causal for `r` close to 1. -/
theorem eventually_causal {B : Fin p → Fin p → ℝ} (hac : Acyclic fun p i => B p i ≠ 0) (G : ℝ → List Nat → Nat → ℝ)
    (hcont : ∀ K, K.Nodup → (∀ m ∈ K, m < p) → CausalPrefix B K → ∀ j < p, j ∉ K → ContinuousAt (fun r => G r K j) 1)
    (hzero : ∀ K, K.Nodup → (∀ m ∈ K, m < p) → CausalPrefix B K → ∀ j : Fin p, j.val ∉ K → (∀ q, B q j ≠ 0 → q.val ∈ K) → G 1 K j.val = 0)
    (hpos : ∀ K, K.Nodup → (∀ m ∈ K, m < p) → CausalPrefix B K → ∀ j : Fin p, j.val ∉ K → (∃ q, B q j ≠ 0 ∧ q.val ∉ K) → 0 < G 1 K j.val) :
    ∀ᶠ r in 𝓝 (1 : ℝ), ∀ (L : List Nat), L.Perm (List.range p) →
      (∀ K1 m K2, L = K1 ++ m :: K2 → ∀ c ∈ m :: K2, G r K1 m ≤ G r K1 c) → CausalPrefix B L := by
  have key : ∀ K ∈ {K : List Nat | K.Nodup ∧ ∀ m ∈ K, m < p}, ∀ᶠ r in 𝓝 (1 : ℝ), CausalPrefix B K → ∀ i j : Fin p, i.val ∉ K → j.val ∉ K →
      (∀ q, B q i ≠ 0 → q.val ∈ K) → (∃ q, B q j ≠ 0 ∧ q.val ∉ K) → G r K i.val < G r K j.val := by
    rintro K ⟨hn, hK⟩
    by_cases hc : CausalPrefix B K
    · simp only [hc, true_imp_iff]
      rw [Filter.eventually_all]; intro i
      rw [Filter.eventually_all]; intro j
      by_cases hcond : i.val ∉ K ∧ j.val ∉ K ∧ (∀ q, B q i ≠ 0 → q.val ∈ K) ∧ ∃ q, B q j ≠ 0 ∧ q.val ∉ K
      · obtain ⟨a, b, c, d⟩ := hcond
        have hlt : G 1 K i.val < G 1 K j.val := by rw [hzero K hn hK hc i a c]; exact hpos K hn hK hc j b d
        filter_upwards [(hcont K hn hK hc i i.2 a).eventually_lt (hcont K hn hK hc j j.2 b) hlt] with r hr _ _ _ _
        exact hr
      · refine Filter.Eventually.of_forall fun r a b c d => absurd ⟨a, b, c, d⟩ hcond
    · exact Filter.Eventually.of_forall fun r h => absurd h hc
  have hall := (Set.Finite.eventually_all (prefixes_finite p)).2 key
  filter_upwards [hall] with r hr L hL hmin
  have hn : L.Nodup := hL.nodup_iff.2 List.nodup_range
  have hlt : ∀ m ∈ L, m < p := fun m hm => List.mem_range.1 (hL.mem_iff.1 hm)
  suffices H : ∀ d K1 m K2, K1.length ≤ d → L = K1 ++ m :: K2 → ∀ (i q : Fin p), i.val = m → B q i ≠ 0 → q.val ∈ K1 from
    fun K1 m K2 e => H _ K1 m K2 (le_refl _) e
  intro d
  induction d using Nat.strong_induction_on with
  | _ d ih =>
  intro K1 m K2 hd e i q him hb
  have hc : CausalPrefix B K1 := by
    rintro A x C hA i' q' hi' hb'
    exact ih A.length (by have := congrArg List.length hA; simp at this; omega) A x (C ++ m :: K2) (le_refl _) (by rw [e, hA]; simp) i' q' hi' hb'
  by_contra hq
  have hnK : (K1 ++ m :: K2).Nodup := e ▸ hn
  have hiK : i.val ∉ K1 := fun h => (List.nodup_append.1 hnK).2.2 _ h _ (by rw [him]; simp) rfl
  -- a variable outside `K1` whose parents are all inside
  obtain ⟨ρ, hρ⟩ := acyclic_rank hac
  obtain ⟨x, hx, hxmin⟩ := Finset.exists_min_image (Finset.univ.filter fun x : Fin p => x.val ∉ K1) ρ ⟨i, by simp [hiK]⟩
  rw [Finset.mem_filter] at hx
  have hxp : ∀ q, B q x ≠ 0 → q.val ∈ K1 := by
    intro y hy
    by_contra hyK
    have := hxmin y (by simp [hyK])
    have := hρ _ _ hy
    omega
  have hxm : x.val ∈ m :: K2 := by
    have : x.val ∈ L := hL.mem_iff.2 (List.mem_range.2 x.2)
    rw [e] at this
    exact (List.mem_append.1 this).resolve_left hx.2
  have h1 := hmin K1 m K2 e x.val hxm
  have h2 := hr K1 ⟨(List.nodup_append.1 hnK).1, fun y hy => hlt y (by rw [e]; simp [hy])⟩ hc x i hx.2 hiK hxp ⟨q, hb, hq⟩
  rw [him] at h2
  linarith

/-! ## C206: the kernel measure with an ideal estimate of the mutual information -/

/-- `kernelSum` with the estimate `mi` of the mutual information in place of `mutualInfo` (`direct_lingam.py:250-257`). -/
noncomputable def infoSum (mi : Col N → Col N → ℝ) (M : Model) (X : Nat → Col N) (U : List Nat) (j : Nat) : ℝ :=
  ((U.filter (· ≠ j)).map fun i => mi (X j) (kernelResidual (searchCandidate M U) (searchVj M U) X i j)).sum

/-- `kernelScore` with the estimate `mi` of the mutual information (`direct_lingam.py:238-259`). -/
noncomputable def infoScore (mi : Col N → Col N → ℝ) (p : Nat) (M : Model) (X : Nat → Col N) (K U : List Nat) (j : Nat) : ℝ :=
  -infoSum mi M (stage (fun i => scaleCol (X i)) (List.range p) K) U j

/-- `fit` with `measure='kernel'` and the estimate `mi` of the mutual information. -/
noncomputable def infoOrder (mi : Col N → Col N → ℝ) (p : Nat) (M : Model) (X : Nat → Col N) : Option (Model × List Nat) := fitOrder (infoScore mi p M X) p M

/-- With the estimate of the code this is the order of the code. -/
theorem C206_is_kernelOrder (p : Nat) (M : Model) (X : Nat → Col N) :
    infoOrder (mutualInfo (kernelKappa N) (kernelSigma N)) p M X = kernelOrder p M X := rfl

/-- A measure of the dependence of two combinations of independent errors: a continuous function of their coefficients, never negative, and zero iff they have
no error in common (the theorem of Darmois and Skitovich). -/
structure IdealInfo (F : (Fin p → ℝ) → (Fin p → ℝ) → ℝ) : Prop where
  cont : Continuous fun q : (Fin p → ℝ) × (Fin p → ℝ) => F q.1 q.2
  nonneg : ∀ a a', 0 ≤ F a a'
  zero : ∀ a a', F a a' = 0 ↔ ∀ i, a i = 0 ∨ a' i = 0

/-- coefficients of the standardised data -/
noncomputable def coef0 (s : Fin p → ℝ) (T : Fin p → Fin p → ℝ) (i : Nat) : Fin p → ℝ :=
  fun l => if h : i < p then 1 / √(ipw s (fun q => T q ⟨i, h⟩) fun q => T q ⟨i, h⟩) * T l ⟨i, h⟩ else 0

theorem coef0_scaled {B T : Fin p → Fin p → ℝ} {s : Fin p → ℝ} (hac : Acyclic fun p i => B p i ≠ 0) (hT : TotalEffects B T) (hs : ∀ i, 0 < s i) :
    Scaled T (coef0 s T) := by
  intro i
  refine ⟨1 / √(ipw s (fun q => T q i) fun q => T q i), ?_, fun l => by unfold coef0; rw [dif_pos i.2]⟩
  have h1 := (total_zero hac hT).1 i
  have hne : ipw s (fun q => T q i) (fun q => T q i) ≠ 0 := ipw_self_ne hs (j := i) (by rw [h1]; exact one_ne_zero)
  have hnn : 0 ≤ ipw s (fun q => T q i) (fun q => T q i) := Finset.sum_nonneg fun l _ => mul_nonneg (mul_self_nonneg _) (hs l).le
  exact one_div_ne_zero (Real.sqrt_ne_zero'.2 (lt_of_le_of_ne hnn (Ne.symm hne)))

theorem mean_coef {e : Fin p → Fin N → ℝ} (he : Errors e) (hN : N ≠ 0) (a : Fin p → ℝ) (c : ℝ) : mean (comb e a c) = c := by
  unfold mean
  rw [sum_comb he]
  have : (N : ℝ) ≠ 0 := by exact_mod_cast hN
  field_simp

theorem crep_scaled {B T : Fin p → Fin p → ℝ} {s : Fin p → ℝ} {b0 : Fin p → ℝ} {e : Fin p → Fin N → ℝ} {X : Nat → Col N}
    (hg : Generated (fun k (i : Fin p) => X i k) b0 B e) (hT : TotalEffects B T) (hs : ∀ i, 0 < s i) (hes : ∀ i, ∑ k, e i k ^ 2 = N * s i) (hN : N ≠ 0) :
    CRep e (fun i => scaleCol (X i)) (coef0 s T) := by
  intro i hi
  obtain ⟨c, hc⟩ := rep_of_generated hg hT ⟨i, hi⟩
  have hX : X i = comb e (fun q => T q ⟨i, hi⟩) c := hc
  have h1 := (total_zero hg.acyclic hT).1 ⟨i, hi⟩
  have hne : ipw s (fun q => T q ⟨i, hi⟩) (fun q => T q ⟨i, hi⟩) ≠ 0 := ipw_self_ne hs (j := ⟨i, hi⟩) (by rw [h1]; exact one_ne_zero)
  have hnn : 0 ≤ ipw s (fun q => T q ⟨i, hi⟩) (fun q => T q ⟨i, hi⟩) := Finset.sum_nonneg fun l _ => mul_nonneg (mul_self_nonneg _) (hs l).le
  have hstd : std (X i) = √(ipw s (fun q => T q ⟨i, hi⟩) fun q => T q ⟨i, hi⟩) := by
    unfold std
    rw [hX, var_coef hg.errors hes hN]
  refine ⟨0, ?_⟩
  funext k
  show scaleCol (X i) k = _
  unfold scaleCol
  rw [hstd, if_neg (Real.sqrt_ne_zero'.2 (lt_of_le_of_ne hnn (Ne.symm hne))), hX, mean_coef hg.errors hN]
  unfold comb coef0
  simp only [dif_pos hi, zero_add, add_sub_cancel_left, Finset.sum_div]
  exact Finset.sum_congr rfl fun l _ => by ring

/-- the (negated) score of `j` as a function of the coefficients -/
noncomputable def infoG (F : (Fin p → ℝ) → (Fin p → ℝ) → ℝ) (s : Fin p → ℝ) (T : Fin p → Fin p → ℝ) (r : ℝ) (K : List Nat) (j : Nat) : ℝ :=
  (((List.range p).filter fun i => i ∉ K ∧ i ≠ j).map fun i =>
    F (cstage s r (coef0 s T) (List.range p) K j) (cres s r (cstage s r (coef0 s T) (List.range p) K i) (cstage s r (coef0 s T) (List.range p) K j))).sum

section kernel
variable {B T : Fin p → Fin p → ℝ} {s : Fin p → ℝ} {F : (Fin p → ℝ) → (Fin p → ℝ) → ℝ}

theorem range_iff : ∀ i < p, i ∈ List.range p ↔ i ∉ ([] : List Nat) := by intro i hi; simp [hi]

theorem masked_range (hac : Acyclic fun p i => B p i ≠ 0) (hT : TotalEffects B T) (hs : ∀ i, 0 < s i) {K : List Nat} (hn : K.Nodup) (hK : ∀ m ∈ K, m < p)
    (hc : CausalPrefix B K) : Masked (coef0 s T) (cstage s 1 (coef0 s T) (List.range p) K) K :=
  masked_stage hac hT hs (coef0_scaled hac hT hs) K [] _ _ (fun i _ _ l => by simp) hn hK hc range_iff

theorem stage_cont_range (hac : Acyclic fun p i => B p i ≠ 0) (hT : TotalEffects B T) (hs : ∀ i, 0 < s i) {K : List Nat} (hn : K.Nodup) (hK : ∀ m ∈ K, m < p)
    (hc : CausalPrefix B K) : ∀ i < p, ContinuousAt (fun r => cstage s r (coef0 s T) (List.range p) K i) 1 :=
  stage_cont hac hT hs (coef0_scaled hac hT hs) K [] _ _ (fun i _ _ l => by simp) (fun _ _ => continuousAt_const) hn hK hc range_iff

theorem masked_self_ne (hac : Acyclic fun p i => B p i ≠ 0) (hT : TotalEffects B T) (hs : ∀ i, 0 < s i) {K : List Nat} {t : Nat → Fin p → ℝ}
    (hm : Masked (coef0 s T) t K) {j : Fin p} (hj : j.val ∉ K) : t j.val j ≠ 0 := by
  rw [hm j.val j.2 hj, if_neg hj]
  obtain ⟨w, hw, hw'⟩ := coef0_scaled hac hT hs j
  rw [hw', (total_zero hac hT).1, mul_one]
  exact hw

theorem infoG_cont (hF : IdealInfo F) (hac : Acyclic fun p i => B p i ≠ 0) (hT : TotalEffects B T) (hs : ∀ i, 0 < s i) (K : List Nat) (hn : K.Nodup)
    (hK : ∀ m ∈ K, m < p) (hc : CausalPrefix B K) (j : Nat) (hj : j < p) (hjK : j ∉ K) : ContinuousAt (fun r => infoG F s T r K j) 1 := by
  have hst := stage_cont_range hac hT hs hn hK hc
  have hne : ipw s (cstage s 1 (coef0 s T) (List.range p) K j) (cstage s 1 (coef0 s T) (List.range p) K j) ≠ 0 :=
    ipw_self_ne hs (masked_self_ne hac hT hs (masked_range hac hT hs hn hK hc) (j := ⟨j, hj⟩) hjK)
  unfold infoG
  have : ∀ L : List Nat, (∀ i ∈ L, i < p) → ContinuousAt (fun r => (L.map fun i =>
      F (cstage s r (coef0 s T) (List.range p) K j) (cres s r (cstage s r (coef0 s T) (List.range p) K i) (cstage s r (coef0 s T) (List.range p) K j))).sum) 1 := by
    intro L
    induction L with
    | nil => intro _; exact continuousAt_const
    | cons i L ih =>
      intro hL
      simp only [List.map_cons, List.sum_cons]
      refine ContinuousAt.add ?_ (ih fun x hx => hL x (by simp [hx]))
      exact ContinuousAt.comp (f := fun r => (cstage s r (coef0 s T) (List.range p) K j,
        cres s r (cstage s r (coef0 s T) (List.range p) K i) (cstage s r (coef0 s T) (List.range p) K j))) (g := fun q : (Fin p → ℝ) × (Fin p → ℝ) => F q.1 q.2)
        hF.cont.continuousAt ((hst j hj).prodMk (cres_cont (hst i (hL i (by simp))) (hst j hj) hne))
  exact this _ fun i hi => List.mem_range.1 (List.mem_filter.1 hi).1

/-- a variable whose parents have been placed is its own error -/
theorem masked_source (hac : Acyclic fun p i => B p i ≠ 0) (hT : TotalEffects B T) (hs : ∀ i, 0 < s i) {K : List Nat} (hc : CausalPrefix B K) {t : Nat → Fin p → ℝ}
    (hm : Masked (coef0 s T) t K) {j : Fin p} (hj : j.val ∉ K) (hp : ∀ q, B q j ≠ 0 → q.val ∈ K) (l : Fin p) (hl : l ≠ j) : t j.val l = 0 := by
  rw [hm j.val j.2 hj]
  split
  · rfl
  · next hlK =>
    obtain ⟨w, -, hw'⟩ := coef0_scaled hac hT hs j
    rw [hw', (total_zero hac hT).2 l j hl, mul_zero]
    intro ha
    obtain ⟨x, hlx, hb⟩ := Relation.TransGen.tail'_iff.1 ha
    rcases Relation.reflTransGen_iff_eq_or_transGen.1 hlx with h | hlx
    · exact hlK (h ▸ hp x hb)
    · exact hlK (hc.closed (hp x hb) hlx)

theorem cres_self_zero (hs : ∀ i, 0 < s i) {a b : Fin p → ℝ} {j : Fin p} (hb : ∀ l, l ≠ j → b l = 0) (hj : b j ≠ 0) : cres s 1 a b j = 0 := by
  have h1 : ∀ a : Fin p → ℝ, ipw s a b = a j * b j * s j := by
    intro a
    unfold ipw
    rw [Finset.sum_eq_single j]
    · intro l _ hl; rw [hb l hl]; ring
    · intro h; exact absurd (Finset.mem_univ _) h
  unfold cres
  rw [h1, h1]
  have := (hs j).ne'
  field_simp
  ring

theorem infoG_zero (hF : IdealInfo F) (hac : Acyclic fun p i => B p i ≠ 0) (hT : TotalEffects B T) (hs : ∀ i, 0 < s i) (K : List Nat) (hn : K.Nodup)
    (hK : ∀ m ∈ K, m < p) (hc : CausalPrefix B K) (j : Fin p) (hjK : j.val ∉ K) (hp : ∀ q, B q j ≠ 0 → q.val ∈ K) : infoG F s T 1 K j.val = 0 := by
  have hm := masked_range hac hT hs hn hK hc
  unfold infoG
  apply List.sum_eq_zero
  intro x hx
  obtain ⟨i, -, rfl⟩ := List.mem_map.1 hx
  rw [hF.zero]
  intro l
  by_cases hl : l = j
  · subst hl
    exact .inr (cres_self_zero hs (masked_source hac hT hs hc hm hjK hp) (masked_self_ne hac hT hs hm hjK))
  · exact .inl (masked_source hac hT hs hc hm hjK hp l hl)

theorem infoG_pos (hF : IdealInfo F) (hac : Acyclic fun p i => B p i ≠ 0) (hT : TotalEffects B T) (hs : ∀ i, 0 < s i) (K : List Nat) (hn : K.Nodup)
    (hK : ∀ m ∈ K, m < p) (hc : CausalPrefix B K) (j : Fin p) (hjK : j.val ∉ K) (hp : ∃ q, B q j ≠ 0 ∧ q.val ∉ K) : 0 < infoG F s T 1 K j.val := by
  have hm := masked_range hac hT hs hn hK hc
  obtain ⟨q, hb, hqK⟩ := hp
  obtain ⟨x, hxK, hxj, hTx, hanc⟩ := exists_effect hac hT hc hb hqK
  unfold infoG
  have hmem : x.val ∈ (List.range p).filter fun i => i ∉ K ∧ i ≠ j.val := by
    rw [List.mem_filter, decide_eq_true_eq]
    exact ⟨List.mem_range.2 x.2, hxK, fun h => hxj (Fin.ext h)⟩
  refine lt_of_lt_of_le ?_ (List.single_le_sum ?_ _ (List.mem_map_of_mem hmem))
  · refine lt_of_le_of_ne (hF.nonneg _ _) (Ne.symm ?_)
    rw [Ne, hF.zero]
    push Not
    obtain ⟨w, hw, hw'⟩ := coef0_scaled hac hT hs j
    obtain ⟨w', hw1, hw1'⟩ := coef0_scaled hac hT hs x
    obtain ⟨h1, h2⟩ := total_zero hac hT
    have hjx : cstage s 1 (coef0 s T) (List.range p) K j.val x ≠ 0 := by
      rw [hm j.val j.2 hjK, if_neg hxK, hw']
      exact mul_ne_zero hw hTx
    have hjj := masked_self_ne hac hT hs hm hjK
    have hxx := masked_self_ne hac hT hs hm hxK
    have hxj0 : cstage s 1 (coef0 s T) (List.range p) K x.val j = 0 := by
      rw [hm x.val x.2 hxK, if_neg hjK, hw1', h2 j x (Ne.symm hxj) hanc, mul_zero]
    by_cases hcoef : ipw s (cstage s 1 (coef0 s T) (List.range p) K x.val) (cstage s 1 (coef0 s T) (List.range p) K j.val) = 0
    · exact ⟨x, hjx, by unfold cres; rw [hcoef]; simpa using hxx⟩
    · refine ⟨j, hjj, ?_⟩
      unfold cres
      rw [hxj0, zero_sub, neg_ne_zero, one_mul]
      exact mul_ne_zero (div_ne_zero hcoef (ipw_self_ne hs hjj)) hjj
  · intro y hy
    obtain ⟨i, -, rfl⟩ := List.mem_map.1 hy
    exact hF.nonneg _ _

/-- the score of the code is minus `infoG` at `r = N / (N - 1)` -/
theorem infoScore_eq {b0 : Fin p → ℝ} {e : Fin p → Fin N → ℝ} {X : Nat → Col N} {mi : Col N → Col N → ℝ} {M : Model} (hM : M.aknw = none)
    (hg : Generated (fun k (i : Fin p) => X i k) b0 B e) (hT : TotalEffects B T) (hs : ∀ i, 0 < s i) (hes : ∀ i, ∑ k, e i k ^ 2 = N * s i) (hN : N ≠ 0)
    (hmi : ∀ a c a' c', mi (comb e a c) (comb e a' c') = F a a') {K U : List Nat} (hK : ∀ m ∈ K, m < p)
    (hU : U.Perm ((List.range p).filter (· ∉ K))) {j : Nat} (hj : j < p) :
    infoScore mi p M X K U j = -infoG F s T (N / ((N : ℝ) - 1)) K j := by
  have hr := stage_rep hg.errors hes hN K (List.range p) _ _ hK (crep_scaled hg hT hs hes hN)
  unfold infoScore infoSum infoG
  rw [searchVj_none hM, neg_inj]
  have hp : (U.filter (· ≠ j)).Perm ((List.range p).filter fun i => i ∉ K ∧ i ≠ j) := by
    have := hU.filter (· ≠ j)
    rw [List.filter_filter] at this
    refine this.trans (List.Perm.of_eq (List.filter_congr fun x _ => ?_))
    simp only [Bool.decide_and, decide_not, Bool.and_comm]
  rw [(hp.map _).sum_eq]
  refine congrArg List.sum (List.map_congr_left fun i hi => ?_)
  have hip : i < p := List.mem_range.1 (List.mem_filter.1 hi).1
  unfold kernelResidual
  rw [if_neg (by simp)]
  obtain ⟨c, h1⟩ := hr j hj
  obtain ⟨d, h2⟩ := hr i hip
  rw [h1, h2]
  obtain ⟨c', h3⟩ := residual_coef hg.errors hes hN (cstage s (N / ((N : ℝ) - 1)) (coef0 s T) (List.range p) K i)
    (cstage s (N / ((N : ℝ) - 1)) (coef0 s T) (List.range p) K j) d c
  rw [h3, hmi]
end kernel

theorem ratio_tendsto : Tendsto (fun N : ℕ => (N : ℝ) / ((N : ℝ) - 1)) atTop (𝓝 1) := by
  have h := tendsto_one_div_add_atTop_nhds_zero_nat (𝕜 := ℝ)
  have h2 : Tendsto (fun N : ℕ => 1 + 1 / ((N : ℝ) + 1)) atTop (𝓝 1) := by simpa using h.const_add 1
  refine (tendsto_add_atTop_iff_nat (f := fun N : ℕ => (N : ℝ) / ((N : ℝ) - 1)) 2).1 ?_
  refine h2.congr fun N => ?_
  have : (N : ℝ) + 1 ≠ 0 := by positivity
  have h4 : ((N + 2 : ℕ) : ℝ) - 1 = N + 1 := by push_cast; ring
  rw [h4]
  push_cast
  field_simp
  ring

/-- An order computed from scores that are minus a function `g` whose minimal choices are causal, is causal. -/
theorem order_of_scores {B : Fin p → Fin p → ℝ} {score : List Nat → List Nat → Nat → ℝ} {M : Model} (hM : M.aknw = none) (g : List Nat → Nat → ℝ)
    (hg : ∀ (K U : List Nat) (j : Nat), (∀ m ∈ K, m < p) → U.Perm ((List.range p).filter (· ∉ K)) → j < p → score K U j = -g K j)
    (hcausal : ∀ (L : List Nat), L.Perm (List.range p) → (∀ K1 m K2, L = K1 ++ m :: K2 → ∀ c ∈ m :: K2, g K1 m ≤ g K1 c) → CausalPrefix B L) :
    ∃ M' K, fitOrder score p M = some (M', K) ∧ K.Perm (List.range p) ∧ ∀ q i : Fin p, B q i ≠ 0 → Before K q i := by
  obtain ⟨⟨M', K, Bm⟩, hr⟩ := C43_returns_without_prior score (fun _ _ _ => (0 : ℝ)) p M hM
  unfold fit at hr
  rw [Option.map_eq_some_iff] at hr
  obtain ⟨⟨M1, K1⟩, h1, h2⟩ := hr
  simp only [Prod.mk.injEq] at h2
  obtain ⟨rfl, rfl, -⟩ := h2
  obtain ⟨hperm, -⟩ := fitOrder_inv h1
  have hlt : ∀ m ∈ K1, m < p := fun m hm => List.mem_range.1 (hperm.mem_iff.1 hm)
  refine ⟨M1, K1, h1, hperm, ?_⟩
  have hcp : CausalPrefix B K1 := by
    refine hcausal K1 hperm ?_
    intro A m C e c hc
    rw [e] at h1
    obtain ⟨U, hU, -, hsc⟩ := fitOrder_split hM h1
    have hU' : U.Perm ((List.range p).filter (· ∉ A)) := by
      refine hU.trans ?_
      have hnd : (A ++ m :: C).Nodup := e ▸ hperm.nodup_iff.2 List.nodup_range
      refine (List.perm_ext_iff_of_nodup (List.nodup_append.1 hnd).2.1 (List.nodup_range.filter _)).2 fun x => ?_
      rw [List.mem_filter, decide_eq_true_eq, ← hperm.mem_iff, e, List.mem_append]
      have hd := (List.nodup_append.1 hnd).2.2
      exact ⟨fun h => ⟨.inr h, fun hk => hd x hk x h rfl⟩, fun h => h.1.resolve_left h.2⟩
    have hA : ∀ x ∈ A, x < p := fun x hx => hlt x (by rw [e]; simp [hx])
    have := hsc c hc
    rw [hg A U _ hA hU' (hlt c (by rw [e]; exact List.mem_append_right _ hc)),
      hg A U _ hA hU' (hlt m (by rw [e]; simp)), neg_le_neg_iff] at this
    exact this
  intro q i hb
  obtain ⟨A, C, e⟩ := List.append_of_mem (hperm.mem_iff.2 (List.mem_range.2 i.2) : i.val ∈ K1)
  have hq := hcp A i.val C e i q rfl hb
  unfold Before
  rw [e]
  exact List.Sublist.append (List.singleton_sublist.2 hq) (List.singleton_sublist.2 (by simp))


/-- **C206**: data of an acyclic linear model with independent errors and an ideal measure of dependence: from some number of samples on (which depends on the model
and on the measure only, not on the data), `fit` with the kernel measure and without prior knowledge returns an order in which every cause precedes its effects. -/
theorem C206_large_samples {B : Fin p → Fin p → ℝ} (hac : Acyclic fun p i => B p i ≠ 0) {s : Fin p → ℝ} (hs : ∀ i, 0 < s i)
    {F : (Fin p → ℝ) → (Fin p → ℝ) → ℝ} (hF : IdealInfo F) :
    ∃ N0, ∀ N ≥ N0, ∀ (X : Nat → Fin N → ℝ) (b0 : Fin p → ℝ) (e : Fin p → Fin N → ℝ) (mi : (Fin N → ℝ) → (Fin N → ℝ) → ℝ) (M : Model), M.aknw = none →
      Generated (fun k (i : Fin p) => X i k) b0 B e → (∀ i, ∑ k, e i k ^ 2 = N * s i) → (∀ a c a' c', mi (comb e a c) (comb e a' c') = F a a') →
        ∃ M' K, infoOrder mi p M X = some (M', K) ∧ K.Perm (List.range p) ∧ ∀ q i : Fin p, B q i ≠ 0 → Before K q i := by
  obtain ⟨T, hT⟩ := exists_total hac
  have hev := eventually_causal hac (fun r K j => infoG F s T r K j) (fun K a b c j d e => infoG_cont hF hac hT hs K a b c j d e)
    (fun K a b c j d e => infoG_zero hF hac hT hs K a b c j d e) (fun K a b c j d e => infoG_pos hF hac hT hs K a b c j d e)
  obtain ⟨N0, hN0⟩ := Filter.eventually_atTop.1 ((ratio_tendsto.eventually hev).and (Filter.eventually_ge_atTop 1))
  refine ⟨N0, fun N hN X b0 e mi M hM hg hes hmi => ?_⟩
  obtain ⟨hcausal, hN1⟩ := hN0 N hN
  exact order_of_scores hM (fun K j => infoG F s T (N / ((N : ℝ) - 1)) K j)
    (fun K U j hK hU hj => infoScore_eq hM hg hT hs hes (by omega) hmi hK hU hj) hcausal

/-- an ideal measure: the sum of the squared products of the coefficients -/
theorem ideal_sq : IdealInfo (p := p) fun a a' => ∑ i, (a i * a' i) ^ 2 where
  cont := by fun_prop
  nonneg a a' := Finset.sum_nonneg fun i _ => sq_nonneg _
  zero a a' := by
    rw [Finset.sum_eq_zero_iff_of_nonneg fun i _ => sq_nonneg _]
    simp

/-- the same, magnified and cut off at one -/
theorem ideal_cut {C : ℝ} (hC : 0 < C) : IdealInfo (p := p) fun a a' => min 1 (C * ∑ i, (a i * a' i) ^ 2) where
  cont := by fun_prop
  nonneg a a' := le_min zero_le_one (mul_nonneg hC.le (ideal_sq.nonneg a a'))
  zero a a' := by
    rw [← (ideal_sq (p := p)).zero a a']
    constructor
    · intro h
      rcases min_choice (1 : ℝ) (C * ∑ i, (a i * a' i) ^ 2) with h1 | h1
      · rw [h1] at h; exact absurd h one_ne_zero
      · rw [h1] at h; exact (mul_eq_zero.1 h).resolve_left hC.ne'
    · intro h
      show min 1 (C * ∑ i, (a i * a' i) ^ 2) = 0
      rw [h, mul_zero]
      exact min_eq_right zero_le_one

/-- **C206** needs large samples: for every number of samples, two variables of which the second is the cause of the first, and whatever the (independent) errors, there is
an ideal measure of dependence for which `fit` returns the effect before its cause. The residual on the true cause is not independent of it: its coefficient is
too large by `N / (N - 1)`. -/
theorem C206_any_size_violated (hN : 2 ≤ N) {B : Fin 2 → Fin 2 → ℝ} (hB : ∀ q i, B q i ≠ 0 ↔ q = 1 ∧ i = 0) {s : Fin 2 → ℝ} (hs : ∀ i, 0 < s i)
    (X : Nat → Fin N → ℝ) (b0 : Fin 2 → ℝ) (e : Fin 2 → Fin N → ℝ) (hg : Generated (fun k (i : Fin 2) => X i k) b0 B e)
    (hes : ∀ i, ∑ k, e i k ^ 2 = N * s i) : ∃ F : (Fin 2 → ℝ) → (Fin 2 → ℝ) → ℝ, IdealInfo F ∧
      ∀ (mi : (Fin N → ℝ) → (Fin N → ℝ) → ℝ) (M : Model), M.aknw = none → (∀ a c a' c', mi (comb e a c) (comb e a' c') = F a a') →
        infoOrder mi 2 M X = some (M, [0, 1]) := by
  obtain ⟨T, hT⟩ := exists_total hg.acyclic
  obtain ⟨t1, t2⟩ := total_zero hg.acyclic hT
  have hN0 : N ≠ 0 := by omega
  have hNr : (2 : ℝ) ≤ N := by exact_mod_cast hN
  have hr1 : (N : ℝ) / ((N : ℝ) - 1) ≠ 1 := by
    rw [Ne, div_eq_one_iff_eq (by linarith)]
    linarith
  have hr0 : (N : ℝ) / ((N : ℝ) - 1) ≠ 0 := div_ne_zero (by linarith) (by linarith)
  have hB0 : ∀ q i, ¬ (q = 1 ∧ i = 0) → B q i = 0 := fun q i h => by by_contra hb; exact h ((hB q i).1 hb)
  have hb : B 1 0 ≠ 0 := (hB 1 0).2 ⟨rfl, rfl⟩
  have T10 : T 1 0 = B 1 0 := by
    rw [hT, if_neg (by decide), zero_add, Fin.sum_univ_two, hB0 0 0 (by simp), t1]; ring
  have T01 : T 0 1 = 0 := by
    rw [hT, if_neg (by decide), zero_add, Fin.sum_univ_two, hB0 0 1 (by simp), hB0 1 1 (by simp)]; ring
  obtain ⟨w0, hw0, h0⟩ := coef0_scaled hg.acyclic hT hs 0
  obtain ⟨w1, hw1, h1⟩ := coef0_scaled hg.acyclic hT hs 1
  have c00 : coef0 s T 0 0 = w0 := by have := h0 0; rw [t1, mul_one] at this; exact this
  have c01 : coef0 s T 0 1 = w0 * B 1 0 := by have := h0 1; rw [T10] at this; exact this
  have c10 : coef0 s T 1 0 = 0 := by have := h1 0; rw [T01, mul_zero] at this; exact this
  have c11 : coef0 s T 1 1 = w1 := by have := h1 1; rw [t1, mul_one] at this; exact this
  set r := (N : ℝ) / ((N : ℝ) - 1) with hr
  let Q : (Fin 2 → ℝ) → (Fin 2 → ℝ) → ℝ := fun a a' => ∑ i, (a i * a' i) ^ 2
  have ip01 : ipw s (coef0 s T 0) (coef0 s T 1) = w0 * B 1 0 * w1 * s 1 := by
    unfold ipw; rw [Fin.sum_univ_two, c00, c01, c10, c11]; ring
  have ip10 : ipw s (coef0 s T 1) (coef0 s T 0) = w0 * B 1 0 * w1 * s 1 := by
    unfold ipw; rw [Fin.sum_univ_two, c00, c01, c10, c11]; ring
  have ip11 : ipw s (coef0 s T 1) (coef0 s T 1) = w1 * w1 * s 1 := by
    unfold ipw; rw [Fin.sum_univ_two, c10, c11]; ring
  have ip00 : ipw s (coef0 s T 0) (coef0 s T 0) ≠ 0 := ipw_self_ne hs (j := 0) (by rw [c00]; exact hw0)
  have hs1 := (hs 1).ne'
  have p1 : 0 < Q (coef0 s T 1) (cres s r (coef0 s T 0) (coef0 s T 1)) := by
    refine lt_of_le_of_ne (ideal_sq.nonneg _ _) (Ne.symm fun h => ?_)
    have := (ideal_sq.zero _ _).1 h 1
    rw [c11, or_iff_right hw1] at this
    unfold cres at this
    rw [ip01, ip11, c01, c11] at this
    have h2 : w0 * B 1 0 - r * (w0 * B 1 0 * w1 * s 1 / (w1 * w1 * s 1)) * w1 = w0 * B 1 0 * (1 - r) := by field_simp
    rw [h2] at this
    exact mul_ne_zero (mul_ne_zero hw0 hb) (sub_ne_zero.2 (Ne.symm hr1)) this
  have p0 : 0 < Q (coef0 s T 0) (cres s r (coef0 s T 1) (coef0 s T 0)) := by
    refine lt_of_le_of_ne (ideal_sq.nonneg _ _) (Ne.symm fun h => ?_)
    have := (ideal_sq.zero _ _).1 h 0
    rw [c00, or_iff_right hw0] at this
    unfold cres at this
    rw [ip10, c10, c00, zero_sub, neg_eq_zero] at this
    exact mul_ne_zero (mul_ne_zero hr0 (div_ne_zero (mul_ne_zero (mul_ne_zero (mul_ne_zero hw0 hb) hw1) hs1) ip00)) hw0 this
  generalize hq1 : Q (coef0 s T 1) (cres s r (coef0 s T 0) (coef0 s T 1)) = q1 at p1
  generalize hq0 : Q (coef0 s T 0) (cres s r (coef0 s T 1) (coef0 s T 0)) = q0 at p0
  have hC : 0 < 1 / q0 + 1 / q1 := by positivity
  refine ⟨fun a a' => min 1 ((1 / q0 + 1 / q1) * Q a a'), ideal_cut hC, fun mi M hM hmi => ?_⟩
  have sc : ∀ j < 2, infoScore mi 2 M X [] [0, 1] j = -1 := by
    intro j hj
    rw [infoScore_eq hM hg hT hs hes hN0 hmi (by simp) (by simp [List.range_succ]) hj, neg_inj]
    unfold infoG
    have : j = 0 ∨ j = 1 := by omega
    rcases this with rfl | rfl
    · have : (List.range 2).filter (fun i => i ∉ ([] : List Nat) ∧ i ≠ 0) = [1] := by decide
      rw [this]
      simp only [List.map_cons, List.map_nil, List.sum_cons, List.sum_nil, add_zero, cstage]
      rw [hq0]
      refine min_eq_left ?_
      rw [add_mul, one_div_mul_cancel p0.ne']
      have : 0 ≤ 1 / q1 * q0 := by positivity
      linarith
    · have : (List.range 2).filter (fun i => i ∉ ([] : List Nat) ∧ i ≠ 1) = [0] := by decide
      rw [this]
      simp only [List.map_cons, List.map_nil, List.sum_cons, List.sum_nil, add_zero, cstage]
      rw [hq1]
      refine min_eq_left ?_
      rw [add_mul, one_div_mul_cancel p1.ne']
      have : 0 ≤ 1 / q0 * q1 := by positivity
      linarith
  have s0 := sc 0 (by omega)
  have s1 := sc 1 (by omega)
  unfold infoOrder fitOrder
  have hr2 : List.range 2 = [0, 1] := rfl
  rw [hr2]
  simp [fitLoop, fitStep, searchCausalOrder, searchCandidate, hM, argmaxFirst, s0, s1]

/-- two uncorrelated errors, repeated `m` times -/
def exErr (m : Nat) (i : Fin 2) : Fin (m * 4) → ℝ :=
  fun k => (![![1, 1, -1, -1], ![1, -1, 1, -1]] : Fin 2 → Fin 4 → ℝ) i (finProdFinEquiv.symm k).2

theorem exErr_sum (m : Nat) (f : Fin 4 → ℝ) : ∑ k : Fin (m * 4), f (finProdFinEquiv.symm k).2 = m * ∑ x, f x := by
  rw [Equiv.sum_comp finProdFinEquiv.symm fun q : Fin m × Fin 4 => f q.2, Fintype.sum_prod_type]
  simp

/-- A case that meets the hypotheses of both theorems, at every size `4 m`: the second variable is the cause of the first, and the measure is the sum of the squared
products of the coefficients, computed from the data. -/
example (m : Nat) (hm : 0 < m) : ∃ (B : Fin 2 → Fin 2 → ℝ) (X : Nat → Fin (m * 4) → ℝ) (mi : (Fin (m * 4) → ℝ) → (Fin (m * 4) → ℝ) → ℝ) (M : Model), M.aknw = none ∧
    (∀ q i, B q i ≠ 0 ↔ q = 1 ∧ i = 0) ∧ Generated (fun k (i : Fin 2) => X i k) (fun _ => 0) B (exErr m) ∧
    (∀ i, ∑ k, exErr m i k ^ 2 = (m * 4 : ℕ) * (1 : ℝ)) ∧
    ∀ a c a' c', mi (comb (exErr m) a c) (comb (exErr m) a' c') = ∑ i, (a i * a' i) ^ 2 := by
  classical
  have hm' : (0 : ℝ) < m := by exact_mod_cast hm
  have hsq : ∀ i, ∑ k, exErr m i k ^ 2 = (m * 4 : ℕ) * (1 : ℝ) := by
    intro i
    unfold exErr
    rw [exErr_sum m fun x => (![![1, 1, -1, -1], ![1, -1, 1, -1]] : Fin 2 → Fin 4 → ℝ) i x ^ 2, Fin.sum_univ_four]
    fin_cases i <;> simp <;> norm_num
  have he : Errors (exErr m) := by
    refine ⟨fun i => ?_, fun i => ?_, fun i j hij => ?_⟩
    · unfold exErr
      rw [exErr_sum m fun x => (![![1, 1, -1, -1], ![1, -1, 1, -1]] : Fin 2 → Fin 4 → ℝ) i x, Fin.sum_univ_four]
      fin_cases i <;> simp
    · rw [hsq i]; push_cast; positivity
    · unfold exErr
      rw [exErr_sum m fun x => (![![1, 1, -1, -1], ![1, -1, 1, -1]] : Fin 2 → Fin 4 → ℝ) i x *
        (![![1, 1, -1, -1], ![1, -1, 1, -1]] : Fin 2 → Fin 4 → ℝ) j x, Fin.sum_univ_four]
      fin_cases i <;> fin_cases j <;> first | exact absurd rfl hij | simp
  have hBiff : ∀ q i : Fin 2, (if q = 1 ∧ i = 0 then (1 : ℝ) else 0) ≠ 0 ↔ q = 1 ∧ i = 0 := fun q i => by split <;> simp_all
  refine ⟨fun q i => if q = 1 ∧ i = 0 then 1 else 0, fun i => if i = 0 then fun k => exErr m 0 k + exErr m 1 k else exErr m 1,
    fun u v => if h : ∃ q : ((Fin 2 → ℝ) × ℝ) × ((Fin 2 → ℝ) × ℝ), comb (exErr m) q.1.1 q.1.2 = u ∧ comb (exErr m) q.2.1 q.2.2 = v then
      ∑ i, (h.choose.1.1 i * h.choose.2.1 i) ^ 2 else 0, ⟨none, false, []⟩, rfl, hBiff, ⟨he, ?_, ?_⟩, hsq, ?_⟩
  · refine Spec.acyclic_of_rank (ρ := fun i : Fin 2 => 1 - i.val) fun q i h => ?_
    obtain ⟨rfl, rfl⟩ := (hBiff q i).1 h
    simp
  · intro k i
    fin_cases i <;> simp [Fin.sum_univ_two] <;> ring
  · intro a c a' c'
    have h : ∃ q : ((Fin 2 → ℝ) × ℝ) × ((Fin 2 → ℝ) × ℝ), comb (exErr m) q.1.1 q.1.2 = comb (exErr m) a c ∧
        comb (exErr m) q.2.1 q.2.2 = comb (exErr m) a' c' := ⟨((a, c), (a', c')), rfl, rfl⟩
    simp only
    rw [dif_pos h]
    have h1 := comb_inj he h.choose_spec.1
    have h2 := comb_inj he h.choose_spec.2
    rw [h1, h2]

end CL.Lingam
