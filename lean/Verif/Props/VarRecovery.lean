import Verif.Props.TimeSeries
import Verif.Props.DirectRecoveryPw

/-!
# C211: VARLiNGAM recovers a structural vector autoregression
-/
namespace CL.TS
open Matrix Spec
open CL.Lingam (Model diffOrder IdealInfo Before)
variable {p N : Nat}

/-- What the VAR estimator minimises: the sum of the squared residuals of the `N` rows that have enough past (no intercept, `trend='n'`). -/
noncomputable def rss (x : Series p ℝ) (N : Nat) (M : List (Mat p ℝ)) : ℝ := ∑ s : Fin N, ∑ i, (calcResiduals M x s i) ^ 2

/-- `M` are least squares coefficients among all lists with as many lags. -/
def VarLeastSquares (x : Series p ℝ) (N : Nat) (M : List (Mat p ℝ)) : Prop := ∀ M' : List (Mat p ℝ), M'.length = M.length → rss x N M ≤ rss x N M'

/-- A structural vector autoregression without intercept: `x_t = B0 x_t + B_1 x_{t-1} + … + B_k x_{t-k} + e_t` (row `s` of the errors belongs to time `s + k`). -/
structure Svar (B0 : Mat p ℝ) (Bs : List (Mat p ℝ)) (x : Series p ℝ) (e : Fin p → Fin N → ℝ) : Prop where
  eqn : ∀ (s : Fin N) (i : Fin p), x (s + Bs.length) i =
    ∑ j, B0 i j * x (s + Bs.length) j + ∑ l ∈ Finset.range Bs.length, ∑ j, Bs.getD l 0 i j * x (s + Bs.length - (l + 1)) j + e i s
  errors : Errors e
  /-- the errors are uncorrelated with the past -/
  past : ∀ (i j : Fin p), ∀ l < Bs.length, ∑ s : Fin N, e i s * x (s + Bs.length - (l + 1)) j = 0
  /-- the past values are linearly independent -/
  indep : ∀ c : Nat → Fin p → ℝ, (∀ s : Fin N, ∑ l ∈ Finset.range Bs.length, ∑ j, c l j * x (s + Bs.length - (l + 1)) j = 0) →
    ∀ l < Bs.length, ∀ j, c l j = 0

theorem calcResiduals_apply {M : List (Mat p ℝ)} {k : Nat} (hk : M.length = k) (x : Series p ℝ) (s : Nat) (i : Fin p) :
    calcResiduals M x s i = x (s + k) i - ∑ l ∈ Finset.range k, ∑ j, M.getD l 0 i j * x (s + k - (l + 1)) j := by
  subst hk
  unfold calcResiduals
  rw [lagSum_eq, Pi.sub_apply, Finset.sum_apply]
  rfl

/-- Coefficients whose residuals are orthogonal to linearly independent regressors are the only least squares coefficients. -/
theorem least_squares_unique {x : Series p ℝ} {M M' : List (Mat p ℝ)} {k : Nat} (hk : M.length = k) (hk' : M'.length = k)
    (horth : ∀ (i j : Fin p), ∀ l < k, ∑ s : Fin N, calcResiduals M x s i * x (s + k - (l + 1)) j = 0)
    (hind : ∀ c : Nat → Fin p → ℝ, (∀ s : Fin N, ∑ l ∈ Finset.range k, ∑ j, c l j * x (s + k - (l + 1)) j = 0) → ∀ l < k, ∀ j, c l j = 0)
    (h : VarLeastSquares x N M') : M' = M := by
  obtain ⟨δ, hδ⟩ : ∃ δ : Fin p → Fin N → ℝ, δ = fun i (s : Fin N) => ∑ l ∈ Finset.range k, ∑ j, (M.getD l 0 i j - M'.getD l 0 i j) * x (s + k - (l + 1)) j := ⟨_, rfl⟩
  have hres : ∀ (s : Fin N) i, calcResiduals M' x s i = calcResiduals M x s i + δ i s := by
    intro s i
    rw [calcResiduals_apply hk, calcResiduals_apply hk', hδ]
    simp only [sub_mul, Finset.sum_sub_distrib]
    ring
  have hcross : ∀ i, ∑ s : Fin N, calcResiduals M x s i * δ i s = 0 := by
    intro i
    simp only [hδ, Finset.mul_sum]
    rw [Finset.sum_comm]
    refine Finset.sum_eq_zero fun l hl => ?_
    rw [Finset.sum_comm]
    refine Finset.sum_eq_zero fun j _ => ?_
    have := horth i j l (Finset.mem_range.1 hl)
    have e1 : ∑ s : Fin N, calcResiduals M x s i * ((M.getD l 0 i j - M'.getD l 0 i j) * x (s + k - (l + 1)) j) =
        (M.getD l 0 i j - M'.getD l 0 i j) * ∑ s : Fin N, calcResiduals M x s i * x (s + k - (l + 1)) j := by
      rw [Finset.mul_sum]; exact Finset.sum_congr rfl fun s _ => by ring
    rw [e1, this, mul_zero]
  have hrss : rss x N M' = rss x N M + ∑ i, ∑ s, δ i s ^ 2 := by
    unfold rss
    rw [Finset.sum_comm, Finset.sum_comm (s := Finset.univ (α := Fin N)), ← Finset.sum_add_distrib]
    refine Finset.sum_congr rfl fun i _ => ?_
    have : ∑ s : Fin N, calcResiduals M' x s i ^ 2 =
        ∑ s : Fin N, calcResiduals M x s i ^ 2 + 2 * ∑ s : Fin N, calcResiduals M x s i * δ i s + ∑ s, δ i s ^ 2 := by
      rw [Finset.mul_sum, ← Finset.sum_add_distrib, ← Finset.sum_add_distrib]
      exact Finset.sum_congr rfl fun s _ => by rw [hres]; ring
    rw [this, hcross, mul_zero, add_zero]
  have h0 : ∑ i, ∑ s, δ i s ^ 2 ≤ 0 := by have := h M (hk.trans hk'.symm); linarith
  have hz : ∀ i s, δ i s = 0 := by
    intro i s
    have h1 := (Finset.sum_eq_zero_iff_of_nonneg (fun i _ => Finset.sum_nonneg fun s _ => sq_nonneg (δ i s))).1
      (le_antisymm h0 (Finset.sum_nonneg fun i _ => Finset.sum_nonneg fun s _ => sq_nonneg (δ i s))) i (Finset.mem_univ _)
    have h2 := (Finset.sum_eq_zero_iff_of_nonneg (fun s _ => sq_nonneg (δ i s))).1 h1 s (Finset.mem_univ _)
    exact pow_eq_zero_iff (two_ne_zero) |>.1 h2
  refine List.ext_getElem (hk'.trans hk.symm) fun l h1 h2 => ?_
  ext i j
  have := hind (fun l j => M.getD l 0 i j - M'.getD l 0 i j) (fun s => by have := hz i s; rw [hδ] at this; exact this) l (hk ▸ h2) j
  rw [List.getD_eq_getElem _ _ h1, List.getD_eq_getElem _ _ h2] at this
  linarith

/-- `1 - B0` is invertible: the inverse holds the total effects -/
theorem total_inv {B0 : Mat p ℝ} {T : Fin p → Fin p → ℝ} (hT : TotalEffects (fun q i => B0 i q) T) :
    (1 - B0) * (Matrix.of fun i q => T q i) = 1 ∧ (Matrix.of fun i q => T q i) * (1 - B0) = 1 := by
  have h : (1 - B0) * (Matrix.of fun i q => T q i) = 1 := by
    ext i q
    rw [Matrix.sub_mul, Matrix.one_mul, Matrix.sub_apply, Matrix.mul_apply, Matrix.one_apply]
    simp only [Matrix.of_apply]
    have := hT q i
    simp only [eq_comm (a := q) (b := i)] at this
    linarith
  exact ⟨h, mul_eq_one_comm.1 h⟩

/-- the reduced form of the model -/
theorem Svar.residuals {B0 : Mat p ℝ} {Bs : List (Mat p ℝ)} {x : Series p ℝ} {e : Fin p → Fin N → ℝ} (h : Svar B0 Bs x e) {A : Mat p ℝ}
    (hA : (1 - B0) * A = 1 ∧ A * (1 - B0) = 1) (s : Fin N) : calcResiduals (Bs.map fun b => A * b) x s = A *ᵥ fun i => e i s := by
  have key : (1 - B0) *ᵥ calcResiduals (Bs.map fun b => A * b) x s = fun i => e i s := by
    have hm : calcResiduals (Bs.map fun b => A * b) x s = x (s + Bs.length) - ∑ l ∈ Finset.range Bs.length, (A * Bs.getD l 0) *ᵥ x (s + Bs.length - (l + 1)) := by
      unfold calcResiduals
      rw [lagSum_eq, sum_get_map (fun b => A * b) Bs fun i => x (s + (Bs.map fun b => A * b).length - (i + 1)), List.length_map]
    rw [hm, Matrix.mulVec_sub, Matrix.mulVec_sum]
    simp only [Matrix.mulVec_mulVec, ← Matrix.mul_assoc, hA.1, Matrix.one_mul]
    funext i
    rw [Pi.sub_apply, Finset.sum_apply, Matrix.sub_mulVec, Matrix.one_mulVec, Pi.sub_apply]
    have := h.eqn s i
    have e2 : ∑ l ∈ Finset.range Bs.length, (Bs.getD l 0 *ᵥ x (s + Bs.length - (l + 1))) i =
        ∑ l ∈ Finset.range Bs.length, ∑ j, Bs.getD l 0 i j * x (s + Bs.length - (l + 1)) j := rfl
    rw [e2]
    have e3 : (B0 *ᵥ x (s + Bs.length)) i = ∑ j, B0 i j * x (s + Bs.length) j := rfl
    rw [e3]
    linarith
  calc calcResiduals (Bs.map fun b => A * b) x s = (A * (1 - B0)) *ᵥ calcResiduals (Bs.map fun b => A * b) x s := by rw [hA.2, Matrix.one_mulVec]
    _ = _ := by rw [← Matrix.mulVec_mulVec, key]

/-- Least squares finds the reduced form of the model. -/
theorem Svar.least_squares {B0 : Mat p ℝ} {Bs : List (Mat p ℝ)} {x : Series p ℝ} {e : Fin p → Fin N → ℝ} (h : Svar B0 Bs x e) {A : Mat p ℝ}
    (hA : (1 - B0) * A = 1 ∧ A * (1 - B0) = 1) {M : List (Mat p ℝ)} (hlen : M.length = Bs.length) (hls : VarLeastSquares x N M) : M = Bs.map fun b => A * b := by
  refine least_squares_unique (List.length_map _) hlen ?_ h.indep hls
  intro i j l hl
  have : ∀ s : Fin N, calcResiduals (Bs.map fun b => A * b) x s i * x (s + Bs.length - (l + 1)) j = ∑ q, A i q * (e q s * x (s + Bs.length - (l + 1)) j) := by
    intro s
    rw [h.residuals hA]
    unfold Matrix.mulVec dotProduct
    rw [Finset.sum_mul]
    exact Finset.sum_congr rfl fun q _ => by ring
  simp only [this]
  rw [Finset.sum_comm]
  refine Finset.sum_eq_zero fun q _ => ?_
  rw [← Finset.mul_sum, h.past q j l hl, mul_zero]

/-- The columns handed to DirectLiNGAM. -/
def columns (r : Series p ℝ) (N : Nat) : Nat → Fin N → ℝ := fun i s => if h : i < p then r s ⟨i, h⟩ else 0

/-- **C211.** Data of a structural vector autoregression (instantaneous effects without cycles and without effects that cancel out, any number of lags) whose errors
are uncorrelated with each other and with the past: `fit` with the right number of lags and least squares estimates has the true residuals, and from some sample size
on (which depends on the instantaneous model and the measure only) DirectLiNGAM with an ideal measure, on these residuals, gives an order in which every
instantaneous cause precedes its effects. If the matrix of instantaneous effects is estimated correctly, so is every matrix of lagged effects. -/
theorem C211_recovers {B0 : Mat p ℝ} (hac : Acyclic fun q i => B0 i q ≠ 0) {T : Fin p → Fin p → ℝ} (hT : TotalEffects (fun q i => B0 i q) T)
    (hf : ∀ q i, Anc (fun q i => B0 i q) q i → T q i ≠ 0) {s : Fin p → ℝ} (hs : ∀ i, 0 < s i) {F : (Fin p → ℝ) → (Fin p → ℝ) → ℝ} (hF : IdealInfo F) :
    ∃ N0, ∀ N ≥ N0, ∀ (Bs : List (Mat p ℝ)) (x : Series p ℝ) (e : Fin p → Fin N → ℝ), Svar B0 Bs x e → (∀ i, ∑ k, e i k ^ 2 = N * s i) →
      ∀ (E : Env p ℝ) (M : List (Mat p ℝ)), E.estimate (x, N + Bs.length) Bs.length = (M, calcResiduals M x) → M.length = Bs.length → VarLeastSquares x N M →
      ∀ d : (Fin N → ℝ) → (Fin N → ℝ) → (Fin N → ℝ) → (Fin N → ℝ) → ℝ,
        (∀ a b a' b' c1 c2 c3 c4, d (comb e a c1) (comb e b c2) (comb e a' c3) (comb e b' c4) = F b a' - F a b') →
        let r := (fit E false ⟨none, Bs.length⟩ (x, N + Bs.length)).2
        (∀ (k : Fin N) (i : Fin p), r.residuals k i = ∑ q, T q i * e q k) ∧
        (∃ M' K, diffOrder d p ⟨none, false, []⟩ (columns r.residuals N) = some (M', K) ∧ K.Perm (List.range p) ∧ ∀ q i : Fin p, B0 i q ≠ 0 → Before K q i) ∧
        ((E.lingam r.residuals).2 = B0 → r.B = B0 :: Bs) := by
  obtain ⟨N0, h0⟩ := CL.Lingam.C207_large_samples hac hT hf hs hF
  refine ⟨N0, fun N hN Bs x e h hes E M hE hlen hls d hd => ?_⟩
  have hA := total_inv hT
  have hM := h.least_squares hA hlen hls
  have hr : (fit E false ⟨none, Bs.length⟩ (x, N + Bs.length)).2 = ⟨(E.lingam (calcResiduals M x)).1, calcB (E.lingam (calcResiduals M x)).2 M, calcResiduals M x⟩ := by
    unfold fit
    simp only [hE]
    rfl
  simp only [hr]
  have hres : ∀ (k : Fin N) (i : Fin p), calcResiduals M x k i = ∑ q, T q i * e q k := by
    intro k i
    rw [hM, h.residuals hA]
    rfl
  refine ⟨hres, ?_, ?_⟩
  · refine h0 N hN _ (fun _ => 0) e d ⟨none, false, []⟩ rfl ⟨h.errors, hac, ?_⟩ hes hd
    intro k i
    have hc : ∀ i : Fin p, columns (calcResiduals M x) N i.val k = calcResiduals M x k i := fun i => by unfold columns; rw [dif_pos i.2]
    simp only [hc, zero_add]
    have h1 : (1 - B0) *ᵥ calcResiduals M x k = fun i => e i k := by
      rw [hM, h.residuals hA, Matrix.mulVec_mulVec, hA.1, Matrix.one_mulVec]
    have h2 := congrFun h1 i
    rw [Matrix.sub_mulVec, Matrix.one_mulVec, Pi.sub_apply] at h2
    have h3 : (B0 *ᵥ calcResiduals M x k) i = ∑ j, B0 i j * calcResiduals M x k j := rfl
    rw [h3] at h2
    linarith
  · intro hB
    rw [hB, hM]
    unfold calcB
    rw [List.map_map]
    congr 1
    refine (List.map_congr_left fun b _ => ?_).trans (List.map_id _)
    show (1 - B0) * (_ * b) = b
    rw [← Matrix.mul_assoc, hA.1, Matrix.one_mul]

/-- Two variables and one lag that meet the definition: `x1_t = -x1_{t-1} + e1`, `x2_t = x1_t + e2`. -/
example : Svar (N := 5) !![0, 0; 1, 0] [!![-1, 0; 0, 0]] (fun t i => if i = 0 then [1, 1, -3, 3, -3, 3].getD t 0 else [1, 1, -3, 1, -3, 5].getD t 0)
    ![![2, -2, 0, 0, 0], ![0, 0, -2, 0, 2]] := by
  refine ⟨?_, ⟨?_, ?_, ?_⟩, ?_, ?_⟩
  · intro s i
    fin_cases s <;> fin_cases i <;> simp <;> norm_num
  · intro i
    fin_cases i <;> simp [Fin.sum_univ_five]
  · intro i
    fin_cases i <;> simp [Fin.sum_univ_five] <;> norm_num
  · intro i j hij
    fin_cases i <;> fin_cases j <;> first | exact absurd rfl hij | simp [Fin.sum_univ_five]
  · intro i j l hl
    have : l = 0 := by simpa using hl
    subst this
    fin_cases i <;> fin_cases j <;> simp [Fin.sum_univ_five] <;> norm_num
  · intro c h l hl j
    have : l = 0 := by simpa using hl
    subst this
    have h0 := h 0
    have h3 := h 3
    simp at h0 h3
    fin_cases j
    · show c 0 0 = 0
      linarith
    · show c 0 1 = 0
      linarith

/-- **C211, data with an offset.** There is no intercept in the regression (`trend='n'`): data that obey the model exactly, with lagged effect 0, get the coefficient 1/2
when every value is measured from another origin (one unit lower). -/
theorem C211_offset_violated : ∃ (x : Series 1 ℝ) (e : Fin 1 → Fin 4 → ℝ), Svar 0 [0] x e ∧
    (∀ M, M.length = 1 → VarLeastSquares x 4 M → M = [0]) ∧
    ∀ M, M.length = 1 → VarLeastSquares (fun t i => x t i + 1) 4 M → M = [Matrix.of fun _ _ => 1 / 2] := by
  have hS : Svar (N := 4) (0 : Mat 1 ℝ) [0] (fun t _ => [-1, 1, 1, -1, -1].getD t 0) ![![1, 1, -1, -1]] := by
    refine ⟨?_, ⟨?_, ?_, ?_⟩, ?_, ?_⟩
    · intro s i
      fin_cases s <;> fin_cases i <;> simp
    · intro i
      fin_cases i; simp [Fin.sum_univ_four]
    · intro i
      fin_cases i; simp [Fin.sum_univ_four]; norm_num
    · intro i j hij
      exact absurd (Subsingleton.elim i j) hij
    · intro i j l hl
      have : l = 0 := by simpa using hl
      subst this
      fin_cases i; fin_cases j; simp [Fin.sum_univ_four]
    · intro c h l hl j
      have : l = 0 := by simpa using hl
      subst this
      have h0 := h 1
      simp at h0
      fin_cases j
      exact h0
  refine ⟨_, _, hS, ?_, ?_⟩
  · intro M hM hls
    have := hS.least_squares (A := 1) ⟨by simp, by simp⟩ (by simpa using hM) hls
    simpa using this
  · intro M hM hls
    refine least_squares_unique (k := 1) rfl hM ?_ ?_ hls
    · intro i j l hl
      have : l = 0 := by omega
      subst this
      fin_cases i; fin_cases j
      simp only [calcResiduals_apply (M := [Matrix.of fun (_ _ : Fin 1) => (1 / 2 : ℝ)]) (k := 1) rfl]
      simp [Fin.sum_univ_four]
      try norm_num
    · intro c h l hl j
      have : l = 0 := by omega
      subst this
      have h0 := h 1
      norm_num at h0
      fin_cases j
      exact h0

end CL.TS
