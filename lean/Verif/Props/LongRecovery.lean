import Verif.Props.VarRecovery

/-!
# C212: LongitudinalLiNGAM recovers the model of a panel
-/
namespace CL.TS
open Matrix Spec
open CL.Lingam (Model diffOrder IdealInfo Before)
variable {p N : Nat}

/-- One time point of a panel: `x s u` is the row of individual `s` at time `u`; at time `t` every individual obeys
`x_t = c + B0 x_t + B_1 x_{t-1} + … + B_k x_{t-k} + e_t`. -/
structure PanelModel (B0 : Mat p ℝ) (Bs : Nat → Mat p ℝ) (k t : Nat) (c : Fin p → ℝ) (x : Fin N → Nat → Fin p → ℝ) (e : Fin p → Fin N → ℝ) : Prop where
  eqn : ∀ s i, x s t i = c i + ∑ j, B0 i j * x s t j + ∑ l ∈ Finset.range k, ∑ j, Bs l i j * x s (t - (l + 1)) j + e i s
  errors : Errors e
  /-- the errors are uncorrelated with the past -/
  past : ∀ i j, ∀ l < k, ∑ s, e i s * x s (t - (l + 1)) j = 0
  /-- no linear relation between the past values (and the constant) -/
  indep : ∀ (c0 : ℝ) (b : Nat → Fin p → ℝ), (∀ s, c0 + ∑ l ∈ Finset.range k, ∑ j, b l j * x s (t - (l + 1)) j = 0) → ∀ l < k, ∀ j, b l j = 0

/-- The error of the linear prediction of variable `i` at time `t`. -/
noncomputable def panelErr (x : Fin N → Nat → Fin p → ℝ) (k t : Nat) (i : Fin p) (c0 : ℝ) (b : Nat → Fin p → ℝ) (s : Fin N) : ℝ :=
  x s t i - (c0 + ∑ l ∈ Finset.range k, ∑ j, b l j * x s (t - (l + 1)) j)

/-- What `LinearRegression` guarantees (`longitudinal_lingam.py:258-264`): for every variable the coefficients, with some intercept, minimise the sum of squares. -/
def PanelLeastSquares (x : Fin N → Nat → Fin p → ℝ) (k t : Nat) (M : Nat → Mat p ℝ) : Prop :=
  ∀ i, ∃ c0, ∀ c0' b', ∑ s, panelErr x k t i c0 (fun l => M l i) s ^ 2 ≤ ∑ s, panelErr x k t i c0' b' s ^ 2

theorem panel_unique {x : Fin N → Nat → Fin p → ℝ} {k t : Nat} {i : Fin p} {c0 c1 : ℝ} {b b1 : Nat → Fin p → ℝ}
    (hmean : ∑ s, panelErr x k t i c0 b s = 0) (horth : ∀ j, ∀ l < k, ∑ s, panelErr x k t i c0 b s * x s (t - (l + 1)) j = 0)
    (hind : ∀ (c0 : ℝ) (b : Nat → Fin p → ℝ), (∀ s, c0 + ∑ l ∈ Finset.range k, ∑ j, b l j * x s (t - (l + 1)) j = 0) → ∀ l < k, ∀ j, b l j = 0)
    (h : ∑ s, panelErr x k t i c1 b1 s ^ 2 ≤ ∑ s, panelErr x k t i c0 b s ^ 2) : ∀ l < k, ∀ j, b1 l j = b l j := by
  obtain ⟨δ, hδ⟩ : ∃ δ : Fin N → ℝ, δ = fun s => (c0 - c1) + ∑ l ∈ Finset.range k, ∑ j, (b l j - b1 l j) * x s (t - (l + 1)) j := ⟨_, rfl⟩
  have hres : ∀ s, panelErr x k t i c1 b1 s = panelErr x k t i c0 b s + δ s := by
    intro s
    rw [hδ]
    unfold panelErr
    simp only [sub_mul, Finset.sum_sub_distrib]
    ring
  have hcross : ∑ s, panelErr x k t i c0 b s * δ s = 0 := by
    simp only [hδ, mul_add, Finset.sum_add_distrib]
    rw [← Finset.sum_mul, hmean, zero_mul, zero_add]
    simp only [Finset.mul_sum]
    rw [Finset.sum_comm]
    refine Finset.sum_eq_zero fun l hl => ?_
    rw [Finset.sum_comm]
    refine Finset.sum_eq_zero fun j _ => ?_
    have := horth j l (Finset.mem_range.1 hl)
    have e1 : ∑ s, panelErr x k t i c0 b s * ((b l j - b1 l j) * x s (t - (l + 1)) j) =
        (b l j - b1 l j) * ∑ s, panelErr x k t i c0 b s * x s (t - (l + 1)) j := by
      rw [Finset.mul_sum]; exact Finset.sum_congr rfl fun s _ => by ring
    rw [e1, this, mul_zero]
  have hsum : ∑ s, panelErr x k t i c1 b1 s ^ 2 = ∑ s, panelErr x k t i c0 b s ^ 2 + 2 * ∑ s, panelErr x k t i c0 b s * δ s + ∑ s, δ s ^ 2 := by
    rw [Finset.mul_sum, ← Finset.sum_add_distrib, ← Finset.sum_add_distrib]
    exact Finset.sum_congr rfl fun s _ => by rw [hres]; ring
  rw [hcross, mul_zero, add_zero] at hsum
  have h0 : ∑ s, δ s ^ 2 ≤ 0 := by linarith
  have hz : ∀ s, δ s = 0 := fun s => pow_eq_zero_iff two_ne_zero |>.1 ((Finset.sum_eq_zero_iff_of_nonneg (fun s _ => sq_nonneg (δ s))).1
    (le_antisymm h0 (Finset.sum_nonneg fun s _ => sq_nonneg (δ s))) s (Finset.mem_univ _))
  intro l hl j
  have := hind (c0 - c1) (fun l j => b l j - b1 l j) (fun s => by have := hz s; rw [hδ] at this; exact this) l hl j
  linarith

/-- the prediction errors of the reduced form -/
theorem PanelModel.err {B0 : Mat p ℝ} {Bs : Nat → Mat p ℝ} {k t : Nat} {c : Fin p → ℝ} {x : Fin N → Nat → Fin p → ℝ} {e : Fin p → Fin N → ℝ}
    (h : PanelModel B0 Bs k t c x e) {A : Mat p ℝ} (hA : (1 - B0) * A = 1 ∧ A * (1 - B0) = 1) (s : Fin N) (i : Fin p) :
    panelErr x k t i ((A *ᵥ c) i) (fun l => (A * Bs l) i) s = (A *ᵥ fun q => e q s) i := by
  have key : (1 - B0) *ᵥ x s t = c + (∑ l ∈ Finset.range k, Bs l *ᵥ x s (t - (l + 1))) + fun q => e q s := by
    funext q
    rw [Matrix.sub_mulVec, Matrix.one_mulVec, Pi.sub_apply, Pi.add_apply, Pi.add_apply, Finset.sum_apply]
    have := h.eqn s q
    have e3 : (B0 *ᵥ x s t) q = ∑ j, B0 q j * x s t j := rfl
    have e2 : ∑ l ∈ Finset.range k, (Bs l *ᵥ x s (t - (l + 1))) q = ∑ l ∈ Finset.range k, ∑ j, Bs l q j * x s (t - (l + 1)) j := rfl
    rw [e3, e2]
    linarith
  have h2 : x s t = A *ᵥ c + (∑ l ∈ Finset.range k, (A * Bs l) *ᵥ x s (t - (l + 1))) + A *ᵥ fun q => e q s := by
    calc x s t = (A * (1 - B0)) *ᵥ x s t := by rw [hA.2, Matrix.one_mulVec]
      _ = _ := by
        rw [← Matrix.mulVec_mulVec, key, Matrix.mulVec_add, Matrix.mulVec_add, Matrix.mulVec_sum]
        simp only [Matrix.mulVec_mulVec]
  have h3 := congrFun h2 i
  rw [Pi.add_apply, Pi.add_apply, Finset.sum_apply] at h3
  unfold panelErr
  have e2 : ∑ l ∈ Finset.range k, ((A * Bs l) *ᵥ x s (t - (l + 1))) i = ∑ l ∈ Finset.range k, ∑ j, (A * Bs l) i j * x s (t - (l + 1)) j := rfl
  rw [e2] at h3
  linarith

theorem PanelModel.least_squares {B0 : Mat p ℝ} {Bs : Nat → Mat p ℝ} {k t : Nat} {c : Fin p → ℝ} {x : Fin N → Nat → Fin p → ℝ} {e : Fin p → Fin N → ℝ}
    (h : PanelModel B0 Bs k t c x e) {A : Mat p ℝ} (hA : (1 - B0) * A = 1 ∧ A * (1 - B0) = 1) {M : Nat → Mat p ℝ} (hls : PanelLeastSquares x k t M) :
    ∀ l < k, M l = A * Bs l := by
  intro l hl
  ext i j
  obtain ⟨c1, h1⟩ := hls i
  have herr := fun s => h.err hA s i
  refine panel_unique (c0 := (A *ᵥ c) i) (b := fun l => (A * Bs l) i) ?_ ?_ h.indep (h1 _ _) l hl j
  · rw [Finset.sum_congr rfl fun s _ => herr s]
    simp only [Matrix.mulVec, dotProduct]
    rw [Finset.sum_comm]
    exact Finset.sum_eq_zero fun q _ => by rw [← Finset.mul_sum, h.errors.mean, mul_zero]
  · intro j l hl
    rw [Finset.sum_congr rfl fun s _ => congrArg (· * _) (herr s)]
    simp only [Matrix.mulVec, dotProduct, Finset.sum_mul]
    rw [Finset.sum_comm]
    refine Finset.sum_eq_zero fun q _ => ?_
    have := h.past q j l hl
    simp only [mul_assoc]
    rw [← Finset.mul_sum, this, mul_zero]

/-- **C212.** A panel whose time point `t` (with enough past) obeys a linear model with intercept, instantaneous effects without cycles and without effects that cancel
out, and errors that are uncorrelated with each other and with the past: with least squares coefficients `M t`, the residuals handed to DirectLiNGAM are the total
effects of the errors plus a constant; from some number of individuals on (which depends on the instantaneous model and the measure only) DirectLiNGAM with an ideal
measure gives an order in which every instantaneous cause precedes its effects; and if the instantaneous matrix reported for `t` is right, so is every lagged one. -/
theorem C212_recovers {B0 : Mat p ℝ} (hac : Acyclic fun q i => B0 i q ≠ 0) {T : Fin p → Fin p → ℝ} (hT : TotalEffects (fun q i => B0 i q) T)
    (hf : ∀ q i, Anc (fun q i => B0 i q) q i → T q i ≠ 0) {v : Fin p → ℝ} (hv : ∀ i, 0 < v i) {F : (Fin p → ℝ) → (Fin p → ℝ) → ℝ} (hF : IdealInfo F) :
    ∃ N0, ∀ N ≥ N0, ∀ (times nLags t : Nat), t < times → 1 ≤ t → nLags ≤ t → ∀ (Bs : Nat → Mat p ℝ) (c : Fin p → ℝ) (x : Fin N → Nat → Fin p → ℝ)
      (e : Fin p → Fin N → ℝ), PanelModel B0 Bs nLags t c x e → (∀ i, ∑ k, e i k ^ 2 = N * v i) →
      ∀ M : Nat → Nat → Mat p ℝ, PanelLeastSquares x nLags t (M t) →
      ∀ d : (Fin N → ℝ) → (Fin N → ℝ) → (Fin N → ℝ) → (Fin N → ℝ) → ℝ,
        (∀ a b a' b' c1 c2 c3 c4, d (comb e a c1) (comb e b c2) (comb e a' c3) (comb e b' c4) = F b a' - F a b') →
        ∃ R : Fin N → Fin p → ℝ,
          (∀ s, ∃ preds, predictors times nLags (x s) t = some preds ∧ R s = residualAt ((List.range nLags).map (M t)) (x s t) preds) ∧
          (∀ s i, R s i = ∑ q, T q i * (c q + e q s)) ∧
          (∃ M' K, diffOrder d p ⟨none, false, []⟩ (fun i s => if h : i < p then R s ⟨i, h⟩ else 0) = some (M', K) ∧ K.Perm (List.range p) ∧
            ∀ q i : Fin p, B0 i q ≠ 0 → Before K q i) ∧
          ∀ B : Nat → Mat p ℝ, B t = B0 → ∀ l < nLags, laggedEntry B M t l = some (Bs l) := by
  obtain ⟨N0, h0⟩ := CL.Lingam.C207_large_samples hac hT hf hv hF
  refine ⟨N0, fun N hN times nLags t ht h1 hn Bs c x e h hes M hls d hd => ?_⟩
  have hA := total_inv hT
  set A : Mat p ℝ := Matrix.of fun i q => T q i with hAdef
  have hM := h.least_squares hA hls
  have hR : ∀ s i, residualAt ((List.range nLags).map (M t)) (x s t) ((List.range nLags).map fun tau => x s (t - (tau + 1))) i = ∑ q, T q i * (c q + e q s) := by
    intro s i
    rw [residualAt_eq, List.zip_map', List.map_map]
    have e1 : ((List.range nLags).map ((fun m : Mat p ℝ × (Fin p → ℝ) => m.1 *ᵥ m.2) ∘ fun l => (M t l, x s (t - (l + 1))))).sum =
        ∑ l ∈ Finset.range nLags, (A * Bs l) *ᵥ x s (t - (l + 1)) := by
      rw [← List.sum_toFinset _ List.nodup_range, List.toFinset_range]
      refine Finset.sum_congr rfl fun l hl => ?_
      simp only [Function.comp]
      rw [hM l (Finset.mem_range.1 hl)]
    rw [e1, Pi.sub_apply, Finset.sum_apply]
    have h2 := h.err hA s i
    unfold panelErr at h2
    have e2 : ∑ l ∈ Finset.range nLags, ((A * Bs l) *ᵥ x s (t - (l + 1))) i = ∑ l ∈ Finset.range nLags, ∑ j, (A * Bs l) i j * x s (t - (l + 1)) j := rfl
    have e3 : (A *ᵥ c) i = ∑ q, T q i * c q := rfl
    have e4 : (A *ᵥ fun q => e q s) i = ∑ q, T q i * e q s := rfl
    rw [e3, e4] at h2
    rw [e2]
    simp only [mul_add, Finset.sum_add_distrib]
    linarith
  refine ⟨fun s => residualAt ((List.range nLags).map (M t)) (x s t) ((List.range nLags).map fun tau => x s (t - (tau + 1))), ?_, hR, ?_, ?_⟩
  · exact fun s => ⟨_, (C103_lagged_regressors_partial (x s)).2 times nLags t ht hn, rfl⟩
  · refine h0 N hN _ c e d ⟨none, false, []⟩ rfl ⟨h.errors, hac, ?_⟩ hes hd
    intro s i
    have hc : ∀ i : Fin p, (if h : i.val < p then residualAt ((List.range nLags).map (M t)) (x s t) ((List.range nLags).map fun tau => x s (t - (tau + 1))) ⟨i.val, h⟩
        else 0) = (A *ᵥ fun q => c q + e q s) i := fun i => by rw [dif_pos i.2, hR]; rfl
    simp only [hc]
    have h2 : (1 - B0) *ᵥ (A *ᵥ fun q => c q + e q s) = fun q => c q + e q s := by rw [Matrix.mulVec_mulVec, hA.1, Matrix.one_mulVec]
    have h3 := congrFun h2 i
    rw [Matrix.sub_mulVec, Matrix.one_mulVec, Pi.sub_apply] at h3
    have h4 : (B0 *ᵥ (A *ᵥ fun q => c q + e q s)) i = ∑ j, B0 i j * (A *ᵥ fun q => c q + e q s) j := rfl
    rw [h4] at h3
    linarith
  · intro B hB l hl
    unfold laggedEntry
    rw [if_pos h1, if_neg (by omega), hB, hM l hl, ← Matrix.mul_assoc, hA.1, Matrix.one_mul]

/-- A panel of five individuals, two variables and one lag that meets the definition: `x1_t = 1 - x1_{t-1} + e1`, `x2_t = x1_t + e2`. -/
example : PanelModel (N := 5) !![0, 0; 1, 0] (fun _ => !![-1, 0; 0, 0]) 1 1 ![1, 0]
    (fun s t i => if t = 0 then (![![1, 1, -3, 3, -3], ![1, 1, -3, 1, -3]] : Fin 2 → Fin 5 → ℝ) i s else (![![2, -2, 4, -2, 4], ![2, -2, 2, -2, 6]] : Fin 2 → Fin 5 → ℝ) i s)
    ![![2, -2, 0, 0, 0], ![0, 0, -2, 0, 2]] := by
  refine ⟨?_, ⟨?_, ?_, ?_⟩, ?_, ?_⟩
  · intro s i
    fin_cases s <;> fin_cases i <;> simp <;> norm_num
  · intro i
    fin_cases i <;> simp [Fin.sum_univ_five]
  · intro i
    fin_cases i <;> simp [Fin.sum_univ_five] <;> norm_num
  · intro i j hij
    fin_cases i <;> fin_cases j <;> first | exact absurd rfl hij | simp [Fin.sum_univ_five]
  · intro i j l hl
    have : l = 0 := by simpa using hl
    subst this
    fin_cases i <;> fin_cases j <;> simp [Fin.sum_univ_five] <;> norm_num
  · intro c b h l hl j
    have : l = 0 := by simpa using hl
    subst this
    have h0 := h 0
    have h2 := h 2
    have h3 := h 3
    simp at h0 h2 h3
    fin_cases j
    · show b 0 0 = 0
      linarith
    · show b 0 1 = 0
      linarith

end CL.TS
