import Verif.Model.Rcit
import Verif.Props.Kci

/-!
# C171–C174: the randomised tests RIT and RCIT
-/
namespace CL.Rcit
open Kci Matrix
variable {n d e dz f g : Nat}

/-! ## C171: units -/

theorem standardise_affine (X : Data n d) (a b : Fin d → ℝ) (ha : ∀ j, 0 < a j) : standardise (fun i j => a j * X i j + b j) = standardise X := by
  rcases Nat.eq_zero_or_pos n with rfl | hn
  · have : (fun i j => a j * X i j + b j) = X := funext fun i => i.elim0
    rw [this]
  · have hz : zscore (fun i j => a j * X i j + b j) = zscore X := by
      rw [zscore_affine X a b fun j => (ha j).ne']
      funext i j
      rw [abs_of_pos (ha j), div_self (ha j).ne', one_mul]
    unfold standardise
    rw [hz]
    have hv : (∃ j, colVar (fun i j => a j * X i j + b j) j = 0) ↔ ∃ j, colVar X j = 0 := by
      refine exists_congr fun j => ?_
      rw [colVar_affine X a b hn]
      simp [(ha j).ne']
    by_cases h : ∃ j, colVar X j = 0
    · rw [if_pos h, if_pos (hv.2 h)]
    · rw [if_neg h, if_neg (mt hv.1 h)]

/-- **C171** with the same random numbers, shifting variables and scaling them by positive factors (other units) changes neither p-value nor statistic, for RIT, RCIT and RCoT. -/
theorem C171_units (X : Data n d) (Y : Data n e) (Z : Data n dz) (a b : Fin d → ℝ) (a' b' : Fin e → ℝ) (a'' b'' : Fin dz → ℝ) (ha : ∀ j, 0 < a j) (ha' : ∀ j, 0 < a' j)
    (ha'' : ∀ j, 0 < a'' j) (perms : List (Fin n → Fin n)) (ap : Approx) :
    (∀ (L : Lib 5 5) Dx Dy, rit L ap perms Dx Dy (fun i j => a j * X i j + b j) (fun i j => a' j * Y i j + b' j) = rit L ap perms Dx Dy X Y) ∧
    (∀ (L : Lib f f) Dx Dy (Dz : Draw g dz), rcit L ap perms Dx Dy Dz (fun i j => a j * X i j + b j) (fun i j => a' j * Y i j + b' j) (fun i j => a'' j * Z i j + b'' j) =
      rcit L ap perms Dx Dy Dz X Y Z) ∧
    (∀ (L : Lib f f) Dx Dy (Dz : Draw g dz), rcot L ap perms Dx Dy Dz (fun i j => a j * X i j + b j) (fun i j => a' j * Y i j + b' j) (fun i j => a'' j * Z i j + b'' j) =
      rcot L ap perms Dx Dy Dz X Y Z) := by
  refine ⟨fun L Dx Dy => ?_, fun L Dx Dy Dz => ?_, fun L Dx Dy Dz => ?_⟩
  · unfold rit; rw [standardise_affine X a b ha, standardise_affine Y a' b' ha']
  · unfold rcit; rw [standardise_affine X a b ha, standardise_affine Y a' b' ha', standardise_affine Z a'' b'' ha'']
  · unfold rcot; rw [standardise_affine X a b ha, standardise_affine Y a' b' ha', standardise_affine Z a'' b'' ha'']

/-! ## C172: order of the samples -/

/-- Reordered samples, where there are any. -/
def reord (σ : Equiv.Perm (Fin n)) (r : Res (Data n d)) : Res (Data n d) := r.bind fun X => .val fun i => X (σ i)

theorem bind_reord {α : Type} (σ : Equiv.Perm (Fin n)) (r : Res (Data n d)) (F : Data n d → Res α) : (reord σ r).bind F = r.bind fun X => F fun i => X (σ i) := by
  cases r <;> rfl

theorem standardise_perm (X : Data n d) (σ : Equiv.Perm (Fin n)) : standardise (fun i => X (σ i)) = reord σ (standardise X) := by
  unfold standardise
  rw [zscore_perm]
  have hv : (∃ j, colVar (fun i => X (σ i)) j = 0) ↔ ∃ j, colVar X j = 0 := exists_congr fun j => by rw [colVar_perm]
  by_cases h : ∃ j, colVar X j = 0
  · rw [if_pos h, if_pos (hv.2 h)]; rfl
  · rw [if_neg h, if_neg (mt hv.1 h)]; rfl

theorem sigma_small (hn : n ≤ 500) (X : Data n d) : sigma X = npMedian (posDists X (List.finRange n)) := by
  unfold sigma
  rw [if_neg (by omega), List.take_of_length_le (by simp)]

theorem sigma_perm (hn : n ≤ 500) (X : Data n d) (σ : Equiv.Perm (Fin n)) : sigma (fun i => X (σ i)) = sigma X := by
  rw [sigma_small hn, sigma_small hn, npMedian_perm (posDists_perm X σ)]

theorem features_perm (hn : n ≤ 500) (D : Draw f d) (X : Data n d) (σ : Equiv.Perm (Fin n)) : features D (fun i => X (σ i)) = reord σ (features D X) := by
  unfold features
  rw [sigma_perm hn]
  cases sigma X with
  | raises => rfl
  | nan => rfl
  | val s => exact standardise_perm (fourier D s X) σ

theorem matrixCov_perm (A : Data n f) (B : Data n g) (σ : Equiv.Perm (Fin n)) : matrixCov (fun i => A (σ i)) (fun i => B (σ i)) = matrixCov A B := by
  ext a b
  unfold matrixCov
  simp only [of_apply, colMean_perm]
  rw [Equiv.sum_comp σ fun i => (A i a - colMean A a) * (B i b - colMean B b)]

theorem crossProd_perm (A : Data n f) (B : Data n g) (σ : Equiv.Perm (Fin n)) : crossProd (fun i => A (σ i)) (fun i => B (σ i)) = crossProd A B := by
  ext a b
  unfold crossProd
  simp only [of_apply]
  rw [Equiv.sum_comp σ fun i => A i a * B i b]

theorem prodCov_perm (A : Data n f) (B : Data n g) (σ : Equiv.Perm (Fin n)) : prodCov (fun i => A (σ i)) (fun i => B (σ i)) = prodCov A B := by
  ext x y
  unfold prodCov
  simp only [of_apply]
  rw [Equiv.sum_comp σ fun i => A i x.1 * B i x.2 * (A i y.1 * B i y.2)]

theorem centred_perm (A : Data n f) (σ : Equiv.Perm (Fin n)) : centred (fun i => A (σ i)) = fun i => centred A (σ i) := by
  funext i a
  unfold centred
  rw [colMean_perm]

theorem iCzz_perm (A : Data n f) (σ : Equiv.Perm (Fin n)) : iCzz (fun i => A (σ i)) = iCzz A := by
  unfold iCzz
  rw [matrixCov_perm]

theorem resid_perm (A : Data n f) (B : Data n g) (σ : Equiv.Perm (Fin n)) : resid (fun i => A (σ i)) (fun i => B (σ i)) = fun i => resid A B (σ i) := by
  funext i a
  unfold resid
  rw [iCzz_perm, crossProd_perm]

/-- **C172** with at most 500 samples (and the same random numbers) the order of the samples does not matter for the analytic approximations. Missing: more samples, see below. -/
theorem C172_order_partial (hn : n ≤ 500) (σ : Equiv.Perm (Fin n)) (X : Data n d) (Y : Data n e) (Z : Data n dz) (perms : List (Fin n → Fin n)) (ap : Approx) (hap : ap ≠ .perm) :
    (∀ (L : Lib 5 5) Dx Dy, rit L ap perms Dx Dy (fun i => X (σ i)) (fun i => Y (σ i)) = rit L ap perms Dx Dy X Y) ∧
    (∀ (L : Lib f f) Dx Dy (Dz : Draw g dz), rcit L ap perms Dx Dy Dz (fun i => X (σ i)) (fun i => Y (σ i)) (fun i => Z (σ i)) = rcit L ap perms Dx Dy Dz X Y Z) ∧
    (∀ (L : Lib f f) Dx Dy (Dz : Draw g dz), rcot L ap perms Dx Dy Dz (fun i => X (σ i)) (fun i => Y (σ i)) (fun i => Z (σ i)) = rcot L ap perms Dx Dy Dz X Y Z) := by
  have hcore : ∀ {d e : Nat} (L : Lib f f) Dx Dy (Dz : Draw g dz) (X : Data n d) (Y : Data n e) (Z : Data n dz),
      rcitCore L ap perms Dx Dy Dz (fun i => X (σ i)) (fun i => Y (σ i)) (fun i => Z (σ i)) = rcitCore L ap perms Dx Dy Dz X Y Z := by
    intro d e L Dx Dy Dz X Y Z
    have hch : chosen f ap ≠ .perm := by unfold chosen; split <;> simp_all
    unfold rcitCore
    simp only [features_perm hn, bind_reord]
    unfold rcitFeatures
    simp only [if_neg hch, resid_perm, prodCov_perm]
    unfold condCov
    simp only [crossProd_perm, iCzz_perm]
  refine ⟨fun L Dx Dy => ?_, fun L Dx Dy Dz => ?_, fun L Dx Dy Dz => ?_⟩
  · unfold rit
    simp only [standardise_perm, bind_reord, features_perm hn]
    unfold ritFeatures
    simp only [if_neg hap, centred_perm, prodCov_perm, matrixCov_perm]
  · unfold rcit
    simp only [standardise_perm, bind_reord]
    exact congrArg _ (funext fun X => congrArg _ (funext fun Y => congrArg _ (funext fun Z => hcore L Dx Dy Dz X (fun i => Fin.append (Y i) (Z i)) Z)))
  · unfold rcot
    simp only [standardise_perm, bind_reord]
    exact congrArg _ (funext fun X => congrArg _ (funext fun Y => congrArg _ (funext fun Z => hcore L Dx Dy Dz X Y Z)))

theorem colVar_ne {X : Data n d} {j : Fin d} (h : ∃ i k, X i j ≠ X k j) : colVar X j ≠ 0 := by
  obtain ⟨i, k, hik⟩ := h
  have hn : 2 ≤ n := by
    by_contra hc
    have : n = 1 := by have := i.pos; omega
    subst this
    exact hik (by rw [Subsingleton.elim i k])
  unfold colVar
  intro h0
  rw [div_eq_zero_iff] at h0
  rcases h0 with h0 | h0
  · rw [Finset.sum_eq_zero_iff_of_nonneg fun i _ => sq_nonneg _] at h0
    have h1 := pow_eq_zero_iff (two_ne_zero) |>.1 (h0 i (Finset.mem_univ _))
    have h2 := pow_eq_zero_iff (two_ne_zero) |>.1 (h0 k (Finset.mem_univ _))
    exact hik (by linarith)
  · have : (2 : ℝ) ≤ n := by exact_mod_cast hn
    linarith

/-- A variable that differs only in the last of 501 samples. -/
def lastOne : Data 501 1 := fun i _ => if i.val = 500 then 1 else 0

/-- A library for the example. -/
def trivLib : Lib 5 5 := ⟨fun _ _ => 0, fun _ _ => .val 0, fun _ _ => .val 0, fun _ _ => .val 0, fun _ => [], id⟩

theorem rit_nan (L : Lib 5 5) (ap : Approx) (perms : List (Fin n → Fin n)) (Dx : Draw 5 d) (Dy : Draw 5 e) {X X' : Data n d} {Y Y' : Data n e} (hX : standardise X = .val X')
    (hY : standardise Y = .val Y') (h : features Dx X' = .nan) : rit L ap perms Dx Dy X Y = .nan := by
  unfold rit
  rw [hX, hY]
  simp only [Res.bind]
  rw [h]

theorem rit_val (L : Lib 5 5) (ap : Approx) (perms : List (Fin n → Fin n)) (Dx : Draw 5 d) (Dy : Draw 5 e) {X X' : Data n d} {Y Y' : Data n e} (hX : standardise X = .val X')
    (hY : standardise Y = .val Y') {fx fy : Data n 5} (h : features Dx X' = .val fx) (h' : features Dy Y' = .val fy) : rit L ap perms Dx Dy X Y = ritFeatures L ap perms fx fy := by
  unfold rit
  rw [hX, hY]
  simp only [Res.bind]
  rw [h, h']

/-- **C172 is false for more than 500 samples**: the width of the kernel is taken from the first 500 samples; the same samples in two orders give no number and a number. -/
theorem C172_order_violated : ∃ (σ : Equiv.Perm (Fin 501)) (D : Draw 5 1), rit trivLib .chi2 [] D D lastOne lastOne = .nan ∧
    ∃ v, rit trivLib .chi2 [] D D (fun i => lastOne (σ i)) (fun i => lastOne (σ i)) = .val v := by
  have hst : standardise lastOne = .val (zscore lastOne) := by
    unfold standardise
    rw [if_neg]
    rintro ⟨j, hj⟩
    refine colVar_ne (X := lastOne) (j := j) ⟨0, 500, ?_⟩ hj
    simp [lastOne]
  have hst' : ∀ σ : Equiv.Perm (Fin 501), standardise (fun i => lastOne (σ i)) = .val (fun i => zscore lastOne (σ i)) := fun σ => by rw [standardise_perm, hst]; rfl
  have hz : ∀ i k : Fin 501, i.val ≠ 500 → k.val ≠ 500 → ∀ j, zscore lastOne i j = zscore lastOne k j := by
    intro i k hi hk j
    unfold zscore
    rw [show lastOne i j = lastOne k j by simp [lastOne, hi, hk]]
  have hne : zscore lastOne 0 0 ≠ zscore lastOne 500 0 := by
    intro h
    have : ConstData (zscore lastOne) := by
      intro i k j
      have hj : j = 0 := Subsingleton.elim _ _
      subst hj
      have hall : ∀ i, zscore lastOne i 0 = zscore lastOne 0 0 := by
        intro i
        by_cases hi : i.val = 500
        · rw [h, show i = 500 from Fin.ext hi]
        · exact hz i 0 hi (by decide) 0
      rw [hall i, hall k]
    have := zscore_const.1 this 0 500 0
    simp [lastOne] at this
  -- the width in the second order
  let σ : Equiv.Perm (Fin 501) := Equiv.swap 0 500
  let W : Data 501 1 := fun i => zscore lastOne (σ i)
  have hW0 : W 0 = zscore lastOne 500 := by simp [W, σ]
  have hW1 : W 1 = zscore lastOne 1 := by
    show zscore lastOne (Equiv.swap 0 500 1) = _
    rw [Equiv.swap_apply_of_ne_of_ne (by decide) (by decide)]
  have hdist : posDists W ((List.finRange 501).take (if 501 > 500 then 500 else 501)) ≠ [] := by
    intro h
    have hmem : ∀ i : Fin 501, i.val < 500 → i ∈ (List.finRange 501).take (if 501 > 500 then 500 else 501) := by
      intro i hi
      rw [List.mem_take_iff_getElem]
      exact ⟨i.val, by simpa using hi, by simp⟩
    have hin : √(sqDist W 0 1) ∈ posDists W ((List.finRange 501).take (if 501 > 500 then 500 else 501)) := by
      simp only [posDists, List.mem_filter, List.mem_flatMap, List.mem_map, decide_eq_true_eq]
      refine ⟨⟨0, hmem 0 (by decide), 1, hmem 1 (by decide), rfl⟩, ?_⟩
      apply Real.sqrt_pos.2
      unfold sqDist
      rw [Fin.sum_univ_one, hW0, hW1, hz 1 0 (by decide) (by decide)]
      have : zscore lastOne 500 0 - zscore lastOne 0 0 ≠ 0 := sub_ne_zero.2 hne.symm
      positivity
    rw [h] at hin
    simp at hin
  obtain ⟨s, hs, hspos⟩ := npMedian_pos (fun t ht => posDists_pos ht) hdist
  have hsig : sigma W = .val s := hs
  set z0 := zscore lastOne 0 0
  set z1 := zscore lastOne 500 0
  have hδ : z1 - z0 ≠ 0 := sub_ne_zero.2 (Ne.symm hne)
  let D : Draw 5 1 := ⟨fun _ _ => s * (Real.pi / 2 / (z1 - z0)), fun _ => -(1 / (2 * Real.pi)) * (Real.pi / 2 / (z1 - z0) * z0)⟩
  have harg : ∀ (x : Data 501 1) i k, fourier D s x i k = √2 * Real.cos (Real.pi / 2 / (z1 - z0) * (x i 0 - z0)) := by
    intro x i k
    unfold fourier
    have hsum : (∑ c, 1 / s * D.w k c * x i c) + 2 * Real.pi * D.u k = Real.pi / 2 / (z1 - z0) * (x i 0 - z0) := by
      rw [Fin.sum_univ_one]
      have hw : D.w k 0 = s * (Real.pi / 2 / (z1 - z0)) := rfl
      have hu : D.u k = -(1 / (2 * Real.pi)) * (Real.pi / 2 / (z1 - z0) * z0) := rfl
      rw [hw, hu]
      generalize z1 - z0 = δ at hδ
      have := Real.pi_ne_zero
      field_simp
      ring
    rw [hsum]
  refine ⟨σ, D, ?_, ?_⟩
  · have hnil : posDists (zscore lastOne) ((List.finRange 501).take (if 501 > 500 then 500 else 501)) = [] := by
      rw [List.eq_nil_iff_forall_not_mem]
      intro t ht
      have hpos := posDists_pos ht
      simp only [posDists, List.mem_filter, List.mem_flatMap, List.mem_map] at ht
      obtain ⟨⟨i, hi, k, hk, rfl⟩, -⟩ := ht
      have hlt : ∀ i : Fin 501, i ∈ (List.finRange 501).take (if 501 > 500 then 500 else 501) → i.val ≠ 500 := by
        intro i hi
        rw [List.mem_take_iff_getElem] at hi
        obtain ⟨m, hm, he⟩ := hi
        simp only [List.getElem_finRange] at he
        rw [← he]
        simp at hm ⊢
        omega
      have : sqDist (zscore lastOne) i k = 0 := Finset.sum_eq_zero fun j _ => by rw [hz i k (hlt i hi) (hlt k hk) j]; ring
      rw [this, Real.sqrt_zero] at hpos
      exact lt_irrefl _ hpos
    have : features D (zscore lastOne) = .nan := by
      unfold features
      have : sigma (zscore lastOne) = .nan := by
        unfold sigma
        rw [hnil]
        simp [npMedian]
      rw [this]; rfl
    exact rit_nan _ _ _ _ _ hst hst this
  · have hf : features D W = .val (zscore (fourier D s W)) := by
      unfold features
      rw [hsig]
      show standardise (fourier D s W) = _
      unfold standardise
      rw [if_neg]
      rintro ⟨j, hj⟩
      refine colVar_ne (X := fourier D s W) (j := j) ⟨0, 1, ?_⟩ hj
      rw [harg, harg, hW0, hW1, hz 1 0 (by decide) (by decide)]
      show √2 * Real.cos (Real.pi / 2 / (z1 - z0) * (z1 - z0)) ≠ √2 * Real.cos (Real.pi / 2 / (z1 - z0) * (z0 - z0))
      rw [div_mul_cancel₀ _ hδ, sub_self, mul_zero, Real.cos_pi_div_two, Real.cos_zero, mul_zero, mul_one]
      exact (Real.sqrt_pos.2 (by norm_num)).ne
    exact ⟨_, rit_val _ _ _ _ _ (hst' σ) (hst' σ) hf hf⟩

/-! ## C173: the conditional covariance -/

theorem matrixCov_psd (A : Data n f) : (matrixCov A A).PosSemidef := by
  rcases Nat.lt_or_ge n 2 with hn | hn
  · have : matrixCov A A = 0 := by
      ext a b
      unfold matrixCov
      simp only [of_apply, Matrix.zero_apply]
      interval_cases n
      · simp
      · simp
    rw [this]
    exact PosSemidef.zero
  · rw [psd_iff]
    constructor
    · ext a b
      unfold matrixCov
      simp only [transpose_apply, of_apply]
      congr 1
      exact Finset.sum_congr rfl fun i _ => mul_comm _ _
    · intro x
      have hpos : (0 : ℝ) < (n : ℝ) - 1 := by
        have : (2 : ℝ) ≤ n := by exact_mod_cast hn
        linarith
      have : x ⬝ᵥ (matrixCov A A *ᵥ x) = (∑ i, (∑ a, x a * (A i a - colMean A a)) ^ 2) / ((n : ℝ) - 1) := by
        unfold matrixCov
        simp only [dotProduct, mulVec, of_apply]
        rw [Finset.sum_div]
        have e : ∀ i, (∑ a, x a * (A i a - colMean A a)) ^ 2 = ∑ a, ∑ b, x a * ((A i a - colMean A a) * (A i b - colMean A b) * x b) := by
          intro i
          rw [sq, Finset.sum_mul_sum]
          exact Finset.sum_congr rfl fun a _ => Finset.sum_congr rfl fun b _ => by ring
        simp only [e]
        simp only [Finset.mul_sum, Finset.sum_div, Finset.sum_mul]
        have h1 : (∑ i : Fin n, ∑ a, ∑ b, x a * ((A i a - colMean A a) * (A i b - colMean A b) * x b) / ((n : ℝ) - 1)) =
            ∑ a, ∑ b, ∑ i : Fin n, x a * ((A i a - colMean A a) * (A i b - colMean A b) * x b) / ((n : ℝ) - 1) := by
          rw [Finset.sum_comm]
          exact Finset.sum_congr rfl fun a _ => Finset.sum_comm
        rw [h1]
        refine Finset.sum_congr rfl fun a _ => Finset.sum_congr rfl fun b _ => Finset.sum_congr rfl fun i _ => ?_
        ring
      rw [this]
      exact div_nonneg (Finset.sum_nonneg fun i _ => sq_nonneg _) hpos.le

/-- **C173** the regularised covariance of the features of `Z` is positive definite for all data (also if there are more features than samples), so its Cholesky factor exists, and
`inv(L).T inv(L)` is its inverse. -/
theorem C173_regularised (fz : Data n dz) : (matrixCov fz fz + (1 / 10 ^ 10 : ℝ) • (1 : Matrix (Fin dz) (Fin dz) ℝ)).PosDef ∧
    ∀ L : Matrix (Fin dz) (Fin dz) ℝ, L * Lᵀ = matrixCov fz fz + (1 / 10 ^ 10 : ℝ) • 1 → (L⁻¹)ᵀ * L⁻¹ = iCzz fz := by
  refine ⟨kz_posDef (matrixCov_psd fz) (by norm_num), fun L hL => ?_⟩
  unfold iCzz
  rw [← hL, Matrix.mul_inv_rev, transpose_nonsing_inv]

theorem iCzz_symm (fz : Data n dz) : (iCzz fz)ᵀ = iCzz fz := by
  unfold iCzz
  rw [transpose_nonsing_inv, transpose_add, symm_of_psd (matrixCov_psd fz), transpose_smul, transpose_one]

theorem crossProd_transpose (A : Data n f) (B : Data n g) : (crossProd A B)ᵀ = crossProd B A := by
  ext a b
  unfold crossProd
  simp only [transpose_apply, of_apply]
  congr 1
  exact Finset.sum_congr rfl fun i _ => mul_comm _ _

theorem crossProd_resid (fz : Data n dz) (A : Data n f) (B : Data n g) : crossProd (resid fz A) B = crossProd A B - crossProd A fz * iCzz fz * crossProd fz B := by
  ext a b
  have hs : ∀ c k, iCzz fz c k = iCzz fz k c := fun c k => congrFun (congrFun (iCzz_symm fz) k) c
  have h1 : crossProd A fz = (crossProd fz A)ᵀ := (crossProd_transpose fz A).symm
  rw [h1]
  simp only [Matrix.sub_apply, Matrix.mul_apply, transpose_apply]
  have h2 : crossProd (resid fz A) B a b = (∑ i, A i a * B i b) / ((n : ℝ) - 1) - (∑ i, (∑ c, (∑ k, fz i k * iCzz fz k c) * crossProd fz A c a) * B i b) / ((n : ℝ) - 1) := by
    unfold crossProd resid
    simp only [of_apply]
    rw [← sub_div, ← Finset.sum_sub_distrib]
    congr 1
    refine Finset.sum_congr rfl fun i _ => ?_
    unfold crossProd
    simp only [of_apply]
    ring
  rw [h2]
  congr 1
  have h3 : ∀ k, crossProd fz B k b = (∑ i, fz i k * B i b) / ((n : ℝ) - 1) := fun k => rfl
  simp only [h3]
  rw [Finset.sum_div]
  simp only [Finset.sum_mul, Finset.mul_sum, Finset.sum_div]
  -- left: i, c, k; right: k, c, i
  rw [Finset.sum_comm]
  rw [Finset.sum_comm (s := Finset.univ) (t := Finset.univ) (f := fun c i => ∑ k, fz i k * iCzz fz k c * crossProd fz A c a * B i b / ((n : ℝ) - 1))]
  have h4 : (∑ i : Fin n, ∑ c : Fin dz, ∑ k : Fin dz, fz i k * iCzz fz k c * crossProd fz A c a * B i b / ((n : ℝ) - 1)) =
      ∑ k : Fin dz, ∑ c : Fin dz, ∑ i : Fin n, fz i k * iCzz fz k c * crossProd fz A c a * B i b / ((n : ℝ) - 1) := by
    calc _ = ∑ i : Fin n, ∑ k : Fin dz, ∑ c : Fin dz, fz i k * iCzz fz k c * crossProd fz A c a * B i b / ((n : ℝ) - 1) :=
          Finset.sum_congr rfl fun i _ => Finset.sum_comm
      _ = ∑ k : Fin dz, ∑ i : Fin n, ∑ c : Fin dz, fz i k * iCzz fz k c * crossProd fz A c a * B i b / ((n : ℝ) - 1) := Finset.sum_comm
      _ = _ := Finset.sum_congr rfl fun k _ => Finset.sum_comm
  rw [h4]
  refine Finset.sum_congr rfl fun k _ => ?_
  rw [Finset.sum_comm]
  refine Finset.sum_congr rfl fun i _ => Finset.sum_congr rfl fun c _ => ?_
  rw [hs c k]
  ring

/-- **C173** the matrix whose squares the conditional statistic sums up is the covariance of the residuals of the features of `X` (ridge regression on the features of `Z`) with the features of
`Y`, and equally of the features of `X` with the residuals of `Y`; exchanging `X` and `Y` transposes it, so the statistic is symmetric. -/
theorem C173_conditional (fx : Data n f) (fy : Data n g) (fz : Data n dz) :
    condCov fx fy fz = crossProd (resid fz fx) fy ∧ condCov fx fy fz = crossProd fx (resid fz fy) ∧ condCov fy fx fz = (condCov fx fy fz)ᵀ ∧
    frob n (condCov fx fy fz) = frob n (condCov fy fx fz) := by
  have h1 : condCov fx fy fz = crossProd (resid fz fx) fy := (crossProd_resid fz fx fy).symm
  have h3 : condCov fy fx fz = (condCov fx fy fz)ᵀ := by
    unfold condCov
    rw [transpose_sub, transpose_mul, transpose_mul, crossProd_transpose, crossProd_transpose, crossProd_transpose, iCzz_symm, Matrix.mul_assoc]
  have h2 : condCov fx fy fz = crossProd fx (resid fz fy) := by
    have : condCov fy fx fz = crossProd (resid fz fy) fx := (crossProd_resid fz fy fx).symm
    rw [h3] at this
    rw [← transpose_transpose (condCov fx fy fz), this, crossProd_transpose]
  refine ⟨h1, h2, h3, ?_⟩
  rw [h3]
  unfold frob
  rw [Finset.sum_comm]
  rfl

/-! ## C174: p-values -/

theorem clamp_range {p : ℝ} (h : p ≤ 1) : 0 ≤ clamp p ∧ clamp p ≤ 1 := by
  unfold clamp
  split <;> constructor <;> linarith

open Classical in
theorem permP_eq (sta : ℝ) {stas : List ℝ} (h : stas ≠ []) : permP sta stas = ((stas.filter fun s => decide (s > sta)).length : ℝ) / stas.length := by
  have hl : (0 : ℝ) < stas.length := by exact_mod_cast List.length_pos_of_ne_nil h
  unfold permP
  rw [eq_div_iff hl.ne', sub_mul, div_mul_cancel₀ _ hl.ne', one_mul, sub_eq_iff_eq_add]
  have := List.length_eq_length_filter_add (l := stas) (f := fun s => decide (s > sta))
  rw [← Nat.cast_add]
  congr 1
  rw [this]
  congr 2
  refine List.filter_congr fun s _ => ?_
  rw [← decide_not]
  simp

theorem analytic_range (L : Lib f g) (hchi : ∀ x k, 0 ≤ L.chi2 x k) (hsw : ∀ l x c, L.sw l x = .val c → 0 ≤ c) (hhbe : ∀ l x c, L.hbe l x = .val c → 0 ≤ c)
    (hlpb : ∀ l x c, L.lpb4 l x = .val c → 0 ≤ c) (a : Approx) (m : Nat) (C : Matrix (Fin f) (Fin g) ℝ) (cov : Matrix (Fin f × Fin g) (Fin f × Fin g) ℝ) (p t : ℝ)
    (h : analytic L a m C cov = .val (p, t)) : 0 ≤ p ∧ p ≤ 1 ∧ (a ≠ .chi2 → 0 ≤ t) := by
  have hfrob : 0 ≤ frob m C := mul_nonneg (Nat.cast_nonneg _) (Finset.sum_nonneg fun a _ => Finset.sum_nonneg fun b _ => sq_nonneg _)
  have key : ∀ r : Res ℝ, (∀ c, r = .val c → c ≤ 1) → (r.bind fun p => .val (clamp p, frob m C)) = .val (p, t) → 0 ≤ p ∧ p ≤ 1 ∧ 0 ≤ t := by
    intro r hr hb
    cases r with
    | raises => cases hb
    | nan => cases hb
    | val c =>
      simp only [Res.bind, Res.val.injEq, Prod.mk.injEq] at hb
      obtain ⟨rfl, rfl⟩ := hb
      have := clamp_range (hr c rfl)
      exact ⟨this.1, this.2, hfrob⟩
  have hcompl : ∀ r : Res ℝ, (∀ c, r = .val c → 0 ≤ c) → ∀ c, compl r = .val c → c ≤ 1 := by
    intro r hr c hc
    cases r with
    | raises => cases hc
    | nan => cases hc
    | val q =>
      simp only [compl, Res.bind, Res.val.injEq] at hc
      have := hr q rfl
      linarith
  cases a with
  | chi2 =>
    simp only [analytic, Res.val.injEq, Prod.mk.injEq] at h
    obtain ⟨rfl, -⟩ := h
    have := clamp_range (p := 1 - L.chi2 (chi2Stat L m C cov) (f * g)) (by linarith [hchi (chi2Stat L m C cov) (f * g)])
    exact ⟨this.1, this.2, fun hh => absurd rfl hh⟩
  | gamma => obtain ⟨h1, h2, h3⟩ := key _ (hcompl _ (hsw _ _)) h; exact ⟨h1, h2, fun _ => h3⟩
  | hbe => obtain ⟨h1, h2, h3⟩ := key _ (hcompl _ (hhbe _ _)) h; exact ⟨h1, h2, fun _ => h3⟩
  | lpd4 =>
    obtain ⟨h1, h2, h3⟩ := key _ (fun c hc => by
      unfold lpd4 at hc
      split at hc
      · rename_i c' hc'
        simp only [Res.val.injEq] at hc
        have := hlpb _ _ _ hc'
        linarith
      · exact hcompl _ (hhbe _ _) c hc) h
    exact ⟨h1, h2, fun _ => h3⟩
  | perm => cases h
  | other => cases h

theorem permTest_range (perms : List (Fin n → Fin n)) (hp : perms ≠ []) (A : Data n f) (B : Data n g) :
    0 ≤ (permTest perms A B).1 ∧ (permTest perms A B).1 ≤ 1 ∧ 0 ≤ (permTest perms A B).2 := by
  have hl : (0 : ℝ) < (perms.map fun σ => frob n (matrixCov (fun i => A (σ i)) B)).length := by
    rw [List.length_map]; exact_mod_cast List.length_pos_of_ne_nil hp
  have hle : permP (frob n (matrixCov A B)) (perms.map fun σ => frob n (matrixCov (fun i => A (σ i)) B)) ≤ 1 := by
    rw [permP_eq _ (by simpa using hp), div_le_one hl]
    exact_mod_cast List.length_filter_le _ _
  have := clamp_range hle
  exact ⟨this.1, this.2, mul_nonneg (Nat.cast_nonneg _) (Finset.sum_nonneg fun a _ => Finset.sum_nonneg fun b _ => sq_nonneg _)⟩

/-- The approximations are distribution functions where they give a number. -/
def Lib.Nonneg (L : Lib f g) : Prop := (∀ x k, 0 ≤ L.chi2 x k) ∧ (∀ l x c, L.sw l x = .val c → 0 ≤ c) ∧ (∀ l x c, L.hbe l x = .val c → 0 ≤ c) ∧ ∀ l x c, L.lpb4 l x = .val c → 0 ≤ c

theorem bind_val {α β : Type} {r : Res α} {F : α → Res β} {b : β} (h : r.bind F = .val b) : ∃ a, r = .val a ∧ F a = .val b := by
  cases r with
  | raises => cases h
  | nan => cases h
  | val a => exact ⟨a, rfl, h⟩

theorem ritFeatures_range (L : Lib f g) (hL : L.Nonneg) (a : Approx) (perms : List (Fin n → Fin n)) (hp : perms ≠ []) (fx : Data n f) (fy : Data n g) (p t : ℝ)
    (h : ritFeatures L a perms fx fy = .val (p, t)) : 0 ≤ p ∧ p ≤ 1 ∧ (a ≠ .chi2 → 0 ≤ t) := by
  unfold ritFeatures at h
  split at h
  · have := permTest_range perms hp fx fy
    rw [Res.val.injEq] at h
    rw [h] at this
    exact ⟨this.1, this.2.1, fun _ => this.2.2⟩
  · exact analytic_range L hL.1 hL.2.1 hL.2.2.1 hL.2.2.2 a n _ _ p t h

theorem rcitFeatures_range (L : Lib f f) (hL : L.Nonneg) (a : Approx) (perms : List (Fin n → Fin n)) (hp : perms ≠ []) (fx fy : Data n f) (fz : Data n dz) (p t : ℝ)
    (h : rcitFeatures L a perms fx fy fz = .val (p, t)) : 0 ≤ p ∧ p ≤ 1 ∧ (a ≠ .chi2 → 0 ≤ t) := by
  unfold rcitFeatures at h
  split at h
  · have := permTest_range perms hp (resid fz fx) (resid fz fy)
    rw [Res.val.injEq] at h
    rw [h] at this
    exact ⟨this.1, this.2.1, fun _ => this.2.2⟩
  · obtain ⟨h1, h2, h3⟩ := analytic_range L hL.1 hL.2.1 hL.2.2.1 hL.2.2.2 (chosen f a) n _ _ p t h
    refine ⟨h1, h2, fun ha => h3 ?_⟩
    unfold chosen
    split
    · simp
    · exact ha

/-- **C174** whenever RIT, RCIT or RCoT return a number as p-value, it lies in [0, 1] (if the library's distribution functions are not negative), and except for `chi2` the statistic is
not negative. -/
theorem C174_range_partial (a : Approx) (perms : List (Fin n → Fin n)) (hp : perms ≠ []) (X : Data n d) (Y : Data n e) (Z : Data n dz) (p t : ℝ) :
    (∀ (L : Lib 5 5) Dx Dy, L.Nonneg → rit L a perms Dx Dy X Y = .val (p, t) → 0 ≤ p ∧ p ≤ 1 ∧ (a ≠ .chi2 → 0 ≤ t)) ∧
    (∀ (L : Lib f f) Dx Dy (Dz : Draw g dz), L.Nonneg → rcit L a perms Dx Dy Dz X Y Z = .val (p, t) → 0 ≤ p ∧ p ≤ 1 ∧ (a ≠ .chi2 → 0 ≤ t)) ∧
    (∀ (L : Lib f f) Dx Dy (Dz : Draw g dz), L.Nonneg → rcot L a perms Dx Dy Dz X Y Z = .val (p, t) → 0 ≤ p ∧ p ≤ 1 ∧ (a ≠ .chi2 → 0 ≤ t)) := by
  have hcore : ∀ {d e : Nat} (L : Lib f f) Dx Dy (Dz : Draw g dz) (X : Data n d) (Y : Data n e) (Z : Data n dz), L.Nonneg → rcitCore L a perms Dx Dy Dz X Y Z = .val (p, t) →
      0 ≤ p ∧ p ≤ 1 ∧ (a ≠ .chi2 → 0 ≤ t) := by
    intro d e L Dx Dy Dz X Y Z hL h
    unfold rcitCore at h
    obtain ⟨fx, -, h⟩ := bind_val h
    obtain ⟨fy, -, h⟩ := bind_val h
    obtain ⟨fz, -, h⟩ := bind_val h
    exact rcitFeatures_range L hL a perms hp fx fy fz p t h
  refine ⟨fun L Dx Dy hL h => ?_, fun L Dx Dy Dz hL h => ?_, fun L Dx Dy Dz hL h => ?_⟩
  · unfold rit at h
    obtain ⟨_, -, h⟩ := bind_val h
    obtain ⟨_, -, h⟩ := bind_val h
    obtain ⟨fx, -, h⟩ := bind_val h
    obtain ⟨fy, -, h⟩ := bind_val h
    exact ritFeatures_range L hL a perms hp fx fy p t h
  · unfold rcit at h
    obtain ⟨_, -, h⟩ := bind_val h
    obtain ⟨_, -, h⟩ := bind_val h
    obtain ⟨_, -, h⟩ := bind_val h
    exact hcore _ _ _ _ _ _ _ hL h
  · unfold rcot at h
    obtain ⟨_, -, h⟩ := bind_val h
    obtain ⟨_, -, h⟩ := bind_val h
    obtain ⟨_, -, h⟩ := bind_val h
    exact hcore _ _ _ _ _ _ _ hL h

/-- **C174 is false for a constant variable**: RIT and RCIT give no number, for any approximation. -/
theorem C174_constant_violated (a : Approx) (perms : List (Fin n → Fin n)) (hd : 0 < d) (X : Data n d) (hX : ConstData X) (Y : Data n e) (Z : Data n dz) (p t : ℝ) :
    (∀ (L : Lib 5 5) Dx Dy, rit L a perms Dx Dy X Y ≠ .val (p, t)) ∧ (∀ (L : Lib f f) Dx Dy (Dz : Draw g dz), rcit L a perms Dx Dy Dz X Y Z ≠ .val (p, t)) := by
  have h : standardise X = .nan := by
    unfold standardise
    rw [if_pos]
    refine ⟨⟨0, hd⟩, ?_⟩
    unfold colVar
    rw [Finset.sum_eq_zero, zero_div]
    intro i _
    have hn : (n : ℝ) ≠ 0 := by have := i.pos; positivity
    have : colMean X ⟨0, hd⟩ = X i ⟨0, hd⟩ := by
      unfold colMean
      rw [Finset.sum_congr rfl fun k _ => hX k i ⟨0, hd⟩]
      simp only [Finset.sum_const, Finset.card_univ, Fintype.card_fin, nsmul_eq_mul]
      field_simp
    rw [this]; ring
  constructor
  · intro L Dx Dy hc
    unfold rit at hc
    rw [h] at hc
    cases hc
  · intro L Dx Dy Dz hc
    unfold rcit at hc
    rw [h] at hc
    cases hc

theorem frob_neg (m : Nat) (C : Matrix (Fin f) (Fin g) ℝ) : frob m (-C) = frob m C := by
  unfold frob
  simp

/-- **C174 is false for the permutation test**: only strictly larger statistics count, so with two samples (where every permutation gives the same statistic) the p-value is 0 for any
features: independence is always rejected. -/
theorem C174_perm_violated (perms : List (Fin 2 → Fin 2)) (hp : perms ≠ []) (hbij : ∀ σ ∈ perms, Function.Injective σ) (A : Data 2 f) (B : Data 2 g) :
    (permTest perms A B).1 = 0 := by
  have hsame : ∀ σ ∈ perms, frob 2 (matrixCov (fun i => A (σ i)) B) = frob 2 (matrixCov A B) := by
    intro σ hσ
    have hi := hbij σ hσ
    have hcases : (σ 0 = 0 ∧ σ 1 = 1) ∨ (σ 0 = 1 ∧ σ 1 = 0) := by
      have h01 : σ 0 ≠ σ 1 := fun h => absurd (hi h) (by decide)
      generalize σ 0 = x at *
      generalize σ 1 = y at *
      revert h01
      revert x y
      decide
    rcases hcases with ⟨h0, h1⟩ | ⟨h0, h1⟩
    · have : (fun i => A (σ i)) = A := by
        funext i
        fin_cases i
        · exact congrArg A h0
        · exact congrArg A h1
      rw [this]
    · have : matrixCov (fun i => A (σ i)) B = -matrixCov A B := by
        ext a b
        unfold matrixCov colMean
        simp only [of_apply, Matrix.neg_apply, Fin.sum_univ_two, h0, h1]
        push_cast
        ring
      rw [this, frob_neg]
  unfold permTest
  dsimp only
  rw [permP_eq _ (by simpa using hp), List.filter_eq_nil_iff.2]
  · simp [clamp]
  · simp only [List.mem_map]
    rintro x ⟨σ, hσ, rfl⟩
    rw [hsame σ hσ]
    simp

/-- **C174 is false for a single feature** (`num_f2 = 1`): the approximation the user asked for is replaced by `hbe`, whatever it was, and so is the permutation test. -/
theorem C174_single_feature_violated (L : Lib 1 1) (a : Approx) (perms : List (Fin n → Fin n)) (fx fy : Data n 1) (fz : Data n dz) :
    rcitFeatures L a perms fx fy fz = rcitFeatures L .hbe [] fx fy fz := by
  unfold rcitFeatures chosen
  simp

/-- Concrete cases: a library meeting the condition, and a permutation of two samples. -/
example : trivLib.Nonneg := by refine ⟨fun _ _ => le_rfl, ?_, ?_, ?_⟩ <;> · intro l x c h; simp only [trivLib, Res.val.injEq] at h; exact h.le
example : Function.Injective (fun i : Fin 2 => 1 - i) := by decide

end CL.Rcit
