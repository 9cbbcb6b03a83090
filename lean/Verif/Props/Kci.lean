import Verif.Proofs.Kci
import Mathlib.Tactic.FinCases
import Mathlib.Data.Fin.VecNotation

/-!
# C116–C122: the kernel independence tests (`utils/KCI/*.py`, `lingam/hsic.py`, `lingam/hsic2.py`)

`ConstData X`: all samples of `X` are equal. `Eigen K l`: `l` lists the eigenvalues of the symmetric matrix `K`.
-/
namespace CL
namespace Kci
open Matrix
variable {n d e : Nat}

/-! ## C116: kernel matrices are symmetric and positive semidefinite -/

/-- C116. Whatever the kernel, the width rule and the data: when a kernel matrix is computed at all, it is symmetric and positive semidefinite, and a
Gaussian one has entries in `(0, 1]` and ones on the diagonal. -/
theorem C116_kernel_psd (k : Kind) (w : Width) (manual : Option ℝ) (sub : List (Fin n)) (polyd : Nat) (X : Data n d) (K : Mat n)
    (hK : kernelOf k (thetaU w manual sub X) polyd (zscore X) = .val K) :
    K.PosSemidef ∧ (k = .gaussian → ∀ i j, 0 < K i j ∧ K i j ≤ 1 ∧ K i i = 1) := by
  cases k
  · have hθ : ∀ t, thetaU w manual sub X = .val t → 0 ≤ t := by
      intro t ht
      cases w
      · cases manual with
        | none => cases ht
        | some m =>
          simp only [thetaU, widthManual] at ht
          split at ht
          · cases ht
          · cases ht; positivity
      · simp only [thetaU, widthMedian] at ht
        cases hm : npMedian (posDists X (if n > 1000 then sub else List.finRange n)) with
        | raises => rw [hm] at ht; cases ht
        | nan => rw [hm] at ht; cases ht
        | val m => rw [hm] at ht; cases ht; positivity
      · simp only [thetaU] at ht
        cases ht
        unfold widthHsic
        positivity
      · cases ht
    cases ht : thetaU w manual sub X with
    | raises => rw [ht] at hK; cases hK
    | nan => rw [ht] at hK; cases hK
    | val t =>
      rw [ht] at hK
      cases hK
      exact ⟨psd_gauss (hθ t ht) _, fun _ i j => ⟨(gauss_entry (hθ t ht) _ i j).1, (gauss_entry (hθ t ht) _ i j).2, gauss_diag _ _ _⟩⟩
  · cases hK
    exact ⟨psd_poly _ zero_le_one _, fun h => by cases h⟩
  · cases hK
    exact ⟨psd_lin _, fun h => by cases h⟩
  · cases hK

/-- C116. For two different samples the Gaussian entry is less than one, and it decreases with the distance. -/
theorem C116_gauss_strict {θ : ℝ} (hθ : 0 < θ) (Z : Data n d) (i j k l : Fin n) :
    (gaussK θ Z i j = 1 ↔ Z i = Z j) ∧ (gaussK θ Z i j < gaussK θ Z k l ↔ sqDist Z k l < sqDist Z i j) := by
  constructor
  · constructor
    · intro h
      simp only [gaussK, of_apply, Real.exp_eq_one_iff] at h
      have h0 : sqDist Z i j = 0 := by
        rcases mul_eq_zero.1 h with h2 | h2
        · rcases mul_eq_zero.1 h2 with h3 | h3
          · norm_num at h3
          · exact h3
        · exact absurd h2 hθ.ne'
      exact funext (sqDist_zero h0)
    · intro h
      simp [gaussK, sqDist, h]
  · simp only [gaussK, of_apply, Real.exp_lt_exp]
    constructor
    · intro h
      by_contra hc
      nlinarith
    · intro h
      nlinarith

/-- C116, a case: three samples, the default configuration. -/
theorem C116_case : ∃ K, kernelOf .gaussian (thetaU .empirical none [] (fun i _ => (i.val : ℝ) : Data 3 1)) 2 (zscore (fun i _ => (i.val : ℝ) : Data 3 1)) = .val K :=
  ⟨_, rfl⟩

/-! ## C117: the three ways of centring -/

/-- C117. `center_kernel_matrix` is `H K H` for every symmetric matrix (the only ones it is given, C116), its rows and columns sum to zero, it keeps
positive semidefiniteness and centring again changes nothing. -/
theorem C117_center (K : Mat n) (hK : Kᵀ = K) :
    center K = centering n * K * centering n ∧ (∀ i, ∑ j, center K i j = 0) ∧ (∀ j, ∑ i, center K i j = 0) ∧ center (center K) = center K ∧
      (K.PosSemidef → (center K).PosSemidef) := by
  have h := center_eq_hkh hK
  have hs : (center K)ᵀ = center K := by
    rw [h, transpose_mul, transpose_mul, centering_symm, hK, mul_assoc]
  refine ⟨h, fun i => by rw [h]; exact hkh_row K i, fun j => by rw [h]; exact hkh_col K j, ?_, psd_center⟩
  rw [center_eq_hkh hs, h]
  calc _ = (centering n * centering n) * K * (centering n * centering n) := by simp only [Matrix.mul_assoc]
    _ = _ := by rw [centering_idem]

/-- C117. The centring of `hsic.py` (row and column sums) and of `hsic2.py` (matrix products) agree for every square matrix, and are `H K H`. -/
theorem C117_gram_center (K : Mat n) : gramCenter K = centering n * K * centering n ∧ gamCenter K = centering n * K * centering n :=
  ⟨gramCenter_eq K, rfl⟩

/-- C117. The kernel of the HSIC files is the Gaussian kernel with `1/width²`. -/
theorem C117_rbf (X : Data n d) (w : ℝ) : rbfDot X w = gaussK (1 / w ^ 2) X := by
  ext i k
  simp only [rbfDot, gaussK, of_apply]
  rw [sqDist_eq]
  simp only [linK, of_apply]
  congr 1
  ring

/-- C117. With the same kernel widths, `hsic_test_gamma` and `hsic_gam` compute the same statistic and the same two parameters of the gamma distribution, so the same p-value. -/
theorem C117_hsic_agree (X : Data n d) (Y : Data n e) (wx wy : ℝ) : hsicTest X Y wx wy = hsicGam X Y wx wy := by
  have hmu : ∀ M : Mat n, 1 / (n : ℝ) / ((n : ℝ) - 1) * (∑ i, ∑ j, if i = j then 0 else M i j) =
      (∑ j, (∑ i, (M i j - (if i = j then M i j else 0))) * 1) / n / ((n : ℝ) - 1) := by
    intro M
    rw [Finset.sum_comm]
    have : ∀ i j, (if i = j then 0 else M i j) = (M i j - (if i = j then M i j else 0)) := fun i j => by split <;> simp
    simp only [this, mul_one]
    ring
  have hmean : ∀ K L : Mat n, gammaMean K L =
      (1 + (∑ j, (∑ i, (K i j - (if i = j then K i j else 0))) * 1) / n / ((n : ℝ) - 1) *
          ((∑ j, (∑ i, (L i j - (if i = j then L i j else 0))) * 1) / n / ((n : ℝ) - 1)) -
        (∑ j, (∑ i, (K i j - (if i = j then K i j else 0))) * 1) / n / ((n : ℝ) - 1) -
        (∑ j, (∑ i, (L i j - (if i = j then L i j else 0))) * 1) / n / ((n : ℝ) - 1)) / n := by
    intro K L
    simp only [gammaMean, hmu]
    ring
  have hvar : ∀ Kc Lc : Mat n, gammaVar Kc Lc =
      ((∑ i, ∑ j, (Kc i j * Lc i j / 6) ^ 2) - ∑ i, (Kc i i * Lc i i / 6) ^ 2) / n / ((n : ℝ) - 1) * 72 * (n - 4) * (n - 5) / n / (n - 1) / (n - 2) / (n - 3) := by
    intro Kc Lc
    have : ∀ i j, (1 / 6 * Kc i j * Lc i j) ^ 2 = (Kc i j * Lc i j / 6) ^ 2 := fun i j => by ring
    simp only [gammaVar, this]
    ring
  have hst : ∀ Kc Lc : Mat n, testStat Kc Lc = (∑ i, ∑ j, Kcᵀ i j * Lc i j) / n := by
    intro Kc Lc
    rw [testStat]
    ring
  unfold hsicTest hsicGam
  dsimp only
  rw [hmean, hvar, hst, gramCenter_eq, gramCenter_eq]

/-- C117. The statistic of the HSIC files is the V-statistic of the raw data divided by the number of samples, hence never negative. -/
theorem C117_hsic_stat (X : Data n d) (Y : Data n e) (wx wy : ℝ) :
    (hsicTest X Y wx wy).1 = hsicV (gaussK (1 / wx ^ 2) X) (gaussK (1 / wy ^ 2) Y) / n ∧ 0 ≤ (hsicTest X Y wx wy).1 := by
  have hx := psd_gauss (show (0:ℝ) ≤ 1 / wx ^ 2 by positivity) X
  have hy := psd_gauss (show (0:ℝ) ≤ 1 / wy ^ 2 by positivity) Y
  have h : (hsicTest X Y wx wy).1 = hsicV (gaussK (1 / wx ^ 2) X) (gaussK (1 / wy ^ 2) Y) / n := by
    simp only [hsicTest, C117_rbf, gramCenter_eq, gamCenter]
    rw [hsicV, center_eq_hkh (symm_of_psd hx), center_eq_hkh (symm_of_psd hy)]
    have : (centering n * gaussK (1 / wx ^ 2) X * centering n)ᵀ = centering n * gaussK (1 / wx ^ 2) X * centering n := by
      rw [← center_eq_hkh (symm_of_psd hx)]
      exact symm_of_psd (psd_center hx)
    rw [testStat, this]
    simp only [sumProd]
    ring
  refine ⟨h, ?_⟩
  rw [h]
  exact div_nonneg (sumProd_nonneg (psd_center hx) (psd_center hy)) (Nat.cast_nonneg _)

/-! ## C118: the statistic of the unconditional test -/

theorem kernels_psd (c : UCfg) (sx sy : List (Fin n)) (X : Data n d) (Y : Data n e) (K : Mat n × Mat n) (h : c.kernels sx sy X Y = .val K) :
    K.1.PosSemidef ∧ K.2.PosSemidef := by
  unfold UCfg.kernels at h
  cases hx : kernelOf c.kernelX (thetaU c.width c.kwidthx sx X) c.polyd (zscore X) with
  | raises => rw [hx] at h; cases h
  | nan => rw [hx] at h; cases h
  | val Kx =>
    rw [hx] at h
    cases hy : kernelOf c.kernelY (thetaU c.width c.kwidthy sy Y) c.polyd (zscore Y) with
    | raises => rw [hy] at h; cases h
    | nan => rw [hy] at h; cases h
    | val Ky =>
      rw [hy] at h
      cases h
      exact ⟨(C116_kernel_psd _ _ _ _ _ _ _ hx).1, (C116_kernel_psd _ _ _ _ _ _ _ hy).1⟩

/-- C118. The statistic is never negative. -/
theorem C118_nonneg (c : UCfg) (sx sy : List (Fin n)) (X : Data n d) (Y : Data n e) (v : ℝ) (h : c.stat sx sy X Y = .val v) : 0 ≤ v := by
  unfold UCfg.stat at h
  cases hk : c.kernels sx sy X Y with
  | raises => rw [hk] at h; cases h
  | nan => rw [hk] at h; cases h
  | val K =>
    rw [hk] at h
    cases h
    obtain ⟨h1, h2⟩ := kernels_psd c sx sy X Y K hk
    exact sumProd_nonneg (psd_center h1) (psd_center h2)

/-- The configuration with the roles of `x` and `y` exchanged. -/
def UCfg.swap (c : UCfg) : UCfg := { c with kernelX := c.kernelY, kernelY := c.kernelX, kwidthx := c.kwidthy, kwidthy := c.kwidthx }

/-- C118. Exchanging `x` and `y` (and their kernels) changes neither the statistic nor the p-value. An exception or a `nan` stays one of the two. -/
theorem C118_symmetric (c : UCfg) (sx sy : List (Fin n)) (X : Data n d) (Y : Data n e) :
    (∀ v, c.swap.stat sy sx Y X = .val v ↔ c.stat sx sy X Y = .val v) ∧ (∀ p, c.swap.pApprox sy sx Y X = .val p ↔ c.pApprox sx sy X Y = .val p) := by
  have hm : ∀ A B : Mat n, meanAppr A B = meanAppr B A := fun A B => by simp only [meanAppr]; ring
  have hv : ∀ A B : Mat n, varAppr A B = varAppr B A := fun A B => by simp only [varAppr]; ring
  have hh : ∀ A B : Mat n, hsicV A B = hsicV B A := fun A B => sumProd_comm _ _
  unfold UCfg.stat UCfg.pApprox UCfg.kernels
  have e1 : c.swap.kernelX = c.kernelY := rfl
  have e2 : c.swap.kernelY = c.kernelX := rfl
  have e3 : c.swap.width = c.width := rfl
  have e4 : c.swap.kwidthx = c.kwidthy := rfl
  have e5 : c.swap.kwidthy = c.kwidthx := rfl
  have e6 : c.swap.polyd = c.polyd := rfl
  have e7 : c.swap.cdf = c.cdf := rfl
  rw [e1, e2, e3, e4, e5, e6, e7]
  generalize kernelOf c.kernelX (thetaU c.width c.kwidthx sx X) c.polyd (zscore X) = a
  generalize kernelOf c.kernelY (thetaU c.width c.kwidthy sy Y) c.polyd (zscore Y) = b
  cases a <;> cases b <;> simp [Res.bind] <;> (try rw [hm, hv]) <;> (try rw [hh]) <;> (try simp)

/-- C118. The order of the samples does not matter: reordering the rows of both arrays in the same way gives the same statistic and p-value (for the median rule with more than
1000 samples the width depends on a random choice of rows, so it is left out). -/
theorem C118_reorder (c : UCfg) (σ : Equiv.Perm (Fin n)) (sx sy sx' sy' : List (Fin n)) (X : Data n d) (Y : Data n e) (h : n ≤ 1000 ∨ c.width ≠ .median) :
    c.stat sx' sy' (fun i => X (σ i)) (fun i => Y (σ i)) = c.stat sx sy X Y ∧
      c.pApprox sx' sy' (fun i => X (σ i)) (fun i => Y (σ i)) = c.pApprox sx sy X Y := by
  have hV : ∀ A B : Mat n, hsicV (A.submatrix σ σ) (B.submatrix σ σ) = hsicV A B := fun A B => by
    rw [hsicV, center_perm, center_perm, sumProd_perm]; rfl
  have ht : ∀ A : Mat n, trace (A.submatrix σ σ) = trace A := fun A => by
    simp only [trace, diag_apply, submatrix_apply]
    exact Equiv.sum_comp σ fun i => A i i
  have hq : ∀ A : Mat n, (∑ i, ∑ j, (A.submatrix σ σ) i j ^ 2) = ∑ i, ∑ j, A i j ^ 2 := fun A => by
    have := sumProd_perm A A σ
    simpa only [sumProd, sq] using this
  have hm : ∀ A B : Mat n, meanAppr (center (A.submatrix σ σ)) (center (B.submatrix σ σ)) = meanAppr (center A) (center B) := fun A B => by
    simp only [meanAppr, center_perm, ht]
  have hv : ∀ A B : Mat n, varAppr (center (A.submatrix σ σ)) (center (B.submatrix σ σ)) = varAppr (center A) (center B) := fun A B => by
    simp only [varAppr, center_perm, hq]
  unfold UCfg.stat UCfg.pApprox UCfg.kernels
  simp only [zscore_perm, thetaU_perm _ _ sx sx' X σ h, thetaU_perm _ _ sy sy' Y σ h, kernelOf_perm]
  generalize kernelOf c.kernelX (thetaU c.width c.kwidthx sx X) c.polyd (zscore X) = a
  generalize kernelOf c.kernelY (thetaU c.width c.kwidthy sy Y) c.polyd (zscore Y) = b
  cases a <;> cases b <;> simp [Res.bind, hV, hm, hv]

/-- C118. Units do not matter: rescaling (by factors other than zero, negative ones included) and shifting every column of `x` and of `y` changes nothing, for every
kernel and every width rule except `'median'`. -/
theorem C118_affine_partial (c : UCfg) (sx sy : List (Fin n)) (X : Data n d) (Y : Data n e) (a b : Fin d → ℝ) (a' b' : Fin e → ℝ)
    (ha : ∀ j, a j ≠ 0) (ha' : ∀ j, a' j ≠ 0) (h : c.width ≠ .median) :
    c.stat sx sy (fun i j => a j * X i j + b j) (fun i j => a' j * Y i j + b' j) = c.stat sx sy X Y ∧
      c.pApprox sx sy (fun i j => a j * X i j + b j) (fun i j => a' j * Y i j + b' j) = c.pApprox sx sy X Y := by
  have ht : ∀ {d : Nat} (m : Option ℝ) (s : List (Fin n)) (X X' : Data n d), thetaU c.width m s X' = thetaU c.width m s X := by
    intro d m s X X'
    cases hw : c.width
    · rfl
    · exact absurd hw h
    · rfl
    · rfl
  have hk : c.kernels sx sy (fun i j => a j * X i j + b j) (fun i j => a' j * Y i j + b' j) = c.kernels sx sy X Y := by
    unfold UCfg.kernels
    rw [zscore_affine X a b ha, zscore_affine Y a' b' ha', ht _ sx X, ht _ sy Y, kernelOf_congr c.kernelX _ _ (linK_sign (zscore X) a ha)]
    congr 1
    funext Kx
    rw [kernelOf_congr c.kernelY _ _ (linK_sign (zscore Y) a' ha')]
  unfold UCfg.stat UCfg.pApprox
  rw [hk]
  exact ⟨rfl, rfl⟩

/-- Two samples, `0` and `s`. -/
def pairData (s : ℝ) : Data 2 1 := fun i _ => if i = 0 then 0 else s

theorem pair_sqDist (s : ℝ) (i k : Fin 2) : sqDist (pairData s) i k = if i = k then 0 else s ^ 2 := by
  fin_cases i <;> fin_cases k <;> simp [sqDist, pairData]

theorem pair_theta {s : ℝ} (hs : 0 < s) (sub : List (Fin 2)) : thetaU .median none sub (pairData s) = .val (1 / (√2 * s) ^ 2) := by
  have h1 : posDists (pairData s) (List.finRange 2) = [s, s] := by
    have : (List.finRange 2) = [0, 1] := rfl
    simp [posDists, this, pair_sqDist, Real.sqrt_sq hs.le, hs]
  have h2 : npMedian [s, s] = .val s := by
    simp [npMedian, List.insertionSort, List.orderedInsert]
  simp only [thetaU, widthMedian]
  rw [if_neg (by norm_num), h1, h2]
  rfl

theorem pair_zdist {s : ℝ} (hs : 0 < s) (i k : Fin 2) : sqDist (zscore (pairData s)) i k = if i = k then 0 else 2 := by
  have hm : colMean (pairData s) 0 = s / 2 := by simp [colMean, pairData, Fin.sum_univ_two]
  have hv : colVar (pairData s) 0 = s ^ 2 / 2 := by
    simp only [colVar, hm, Fin.sum_univ_two, pairData]
    norm_num
    ring
  have hq : √(s ^ 2 / 2) ^ 2 = s ^ 2 / 2 := Real.sq_sqrt (by positivity)
  have hq0 : √(s ^ 2 / 2) ≠ 0 := (Real.sqrt_pos.2 (by positivity)).ne'
  have key : (s / √(s ^ 2 / 2)) ^ 2 = 2 := by
    rw [div_pow, hq]
    field_simp
  have e : ∀ i k : Fin 2, sqDist (zscore (pairData s)) i k = ((pairData s i 0 - pairData s k 0) / √(s ^ 2 / 2)) ^ 2 := by
    intro i k
    simp only [sqDist, zscore, Fin.sum_univ_one, Fin.isValue, hm, hv]
    rw [← sub_div]
    ring
  rw [e]
  fin_cases i <;> fin_cases k <;> simp [pairData, neg_div] <;> rw [← Real.sqrt_div (sq_nonneg s), key]

theorem pair_kernel {s : ℝ} (hs : 0 < s) (sub : List (Fin 2)) :
    kernelOf .gaussian (thetaU .median none sub (pairData s)) 2 (zscore (pairData s)) =
      .val (of fun i k => if i = k then 1 else Real.exp (-(1 / (2 * s ^ 2)))) := by
  rw [pair_theta hs]
  simp only [kernelOf, Res.bind]
  congr 1
  ext i k
  simp only [gaussK, of_apply, pair_zdist hs]
  split
  · simp
  · congr 1
    rw [mul_pow, Real.sq_sqrt (by norm_num)]
    ring

theorem pair_hsicV (p q : ℝ) :
    hsicV (of fun i k : Fin 2 => if i = k then 1 else p) (of fun i k : Fin 2 => if i = k then 1 else q) = (1 - p) * (1 - q) := by
  simp only [hsicV, sumProd, center, of_apply, Fin.sum_univ_two]
  norm_num
  ring

/-- The configuration `KCI_UInd(est_width='median')`. -/
def medianCfg (cdf : ℝ → ℝ → ℝ → ℝ) : UCfg := ⟨.gaussian, .gaussian, .median, 2, none, none, cdf⟩

/-- C118, violated for `est_width='median'`: the width is taken from the data before they are normalised, so the unit of measurement changes the result. Two samples;
doubling `x` changes the statistic. -/
theorem C118_median_scale_violated (cdf : ℝ → ℝ → ℝ → ℝ) (sx sy : List (Fin 2)) :
    (medianCfg cdf).stat sx sy (pairData 1) (pairData 1) ≠ (medianCfg cdf).stat sx sy (fun i j => 2 * pairData 1 i j + 0) (pairData 1) := by
  have e : (fun i j => 2 * pairData 1 i j + 0) = pairData 2 := by
    funext i j
    simp only [pairData]
    split <;> norm_num
  have k1 := fun s => pair_kernel (s := 1) one_pos s
  have k2 := fun s => pair_kernel (s := 2) two_pos s
  rw [e]
  have a1 : (medianCfg cdf).stat sx sy (pairData 1) (pairData 1) =
      .val ((1 - Real.exp (-(1 / (2 * (1:ℝ) ^ 2)))) * (1 - Real.exp (-(1 / (2 * (1:ℝ) ^ 2))))) := by
    simp only [UCfg.stat, UCfg.kernels, medianCfg, k1, Res.bind, pair_hsicV]
  have a2 : (medianCfg cdf).stat sx sy (pairData 2) (pairData 1) =
      .val ((1 - Real.exp (-(1 / (2 * (2:ℝ) ^ 2)))) * (1 - Real.exp (-(1 / (2 * (1:ℝ) ^ 2))))) := by
    simp only [UCfg.stat, UCfg.kernels, medianCfg, k1, k2, Res.bind, pair_hsicV]
  rw [a1, a2]
  intro h
  injection h with h
  have hp : Real.exp (-(1 / (2 * (1:ℝ) ^ 2))) < 1 := by rw [Real.exp_lt_one_iff]; norm_num
  have hlt : Real.exp (-(1 / (2 * (1:ℝ) ^ 2))) < Real.exp (-(1 / (2 * (2:ℝ) ^ 2))) := by rw [Real.exp_lt_exp]; norm_num
  have := mul_right_cancel₀ (by linarith) h
  linarith

/-! ## C119: linear kernels -/

/-- The Pearson correlation of two samples (written out here, independently of the model). -/
noncomputable def pearson (x y : Fin n → ℝ) : ℝ :=
  (∑ i, (x i - (∑ k, x k) / n) * (y i - (∑ k, y k) / n)) / (√(∑ i, (x i - (∑ k, x k) / n) ^ 2) * √(∑ i, (y i - (∑ k, y k) / n) ^ 2))

theorem zscore_pearson (hn : 1 ≤ n) (X : Data n d) (Y : Data n e) (j : Fin d) (l : Fin e) :
    ∑ i, zscore X i j * zscore Y i l = ((n : ℝ) - 1) * pearson (fun i => X i j) (fun i => Y i l) := by
  have hn1 : (0 : ℝ) ≤ (n : ℝ) - 1 := by
    have : (1 : ℝ) ≤ n := by exact_mod_cast hn
    linarith
  have e : ∀ {d : Nat} (X : Data n d) (j : Fin d), √(colVar X j) = √(∑ i, (X i j - (∑ k, X k j) / n) ^ 2) / √((n : ℝ) - 1) := fun X j => by
    rw [colVar, Real.sqrt_div (Finset.sum_nonneg fun i _ => sq_nonneg _)]
    rfl
  have h : ∀ i, zscore X i j * zscore Y i l =
      ((X i j - (∑ k, X k j) / n) * (Y i l - (∑ k, Y k l) / n)) * (((n : ℝ) - 1) /
        (√(∑ i, (X i j - (∑ k, X k j) / n) ^ 2) * √(∑ i, (Y i l - (∑ k, Y k l) / n) ^ 2))) := fun i => by
    simp only [zscore, e, colMean]
    rw [div_mul_div_comm, div_mul_div_comm, Real.mul_self_sqrt hn1]
    rw [div_div_eq_mul_div]
    ring
  simp only [h, ← Finset.sum_mul, pearson]
  ring

/-- C119. With linear kernels the statistic is `(n-1)²` times the sum of the squared Pearson correlations of the columns of `x` with the columns of `y`. -/
theorem C119_linear (c : UCfg) (hx : c.kernelX = .linear) (hy : c.kernelY = .linear) (hn : 1 ≤ n) (sx sy : List (Fin n)) (X : Data n d) (Y : Data n e) :
    c.stat sx sy X Y = .val (((n : ℝ) - 1) ^ 2 * ∑ j, ∑ l, pearson (fun i => X i j) (fun i => Y i l) ^ 2) := by
  simp only [UCfg.stat, UCfg.kernels, hx, hy, kernelOf, Res.bind]
  congr 1
  rw [hsicV, center_lin (zscore_sum X), center_lin (zscore_sum Y), sumProd_lin]
  simp only [zscore_pearson hn, mul_pow, ← Finset.mul_sum]

/-- C119. So with linear kernels the statistic is zero exactly when no column of `x` is correlated with a column of `y`. -/
theorem C119_linear_zero (c : UCfg) (hx : c.kernelX = .linear) (hy : c.kernelY = .linear) (hn : 2 ≤ n) (sx sy : List (Fin n)) (X : Data n d) (Y : Data n e) :
    c.stat sx sy X Y = .val 0 ↔ ∀ j l, pearson (fun i => X i j) (fun i => Y i l) = 0 := by
  rw [C119_linear c hx hy (by omega)]
  have hn1 : ((n : ℝ) - 1) ^ 2 ≠ 0 := by
    have : (2 : ℝ) ≤ n := by exact_mod_cast hn
    have : (n : ℝ) - 1 ≠ 0 := by linarith
    positivity
  constructor
  · intro h j l
    injection h with h
    have h0 := (mul_eq_zero.1 h).resolve_left hn1
    have h1 := (Finset.sum_eq_zero_iff_of_nonneg fun j _ => Finset.sum_nonneg fun l _ => sq_nonneg (pearson (fun i => X i j) (fun i => Y i l))).1 h0 j (Finset.mem_univ _)
    have h2 := (Finset.sum_eq_zero_iff_of_nonneg fun l _ => sq_nonneg (pearson (fun i => X i j) (fun i => Y i l))).1 h1 l (Finset.mem_univ _)
    exact pow_eq_zero_iff two_ne_zero |>.1 h2
  · intro h
    simp [h]

/-- C119, a case: four samples, perfectly correlated columns; the statistic is `9`. -/
theorem C119_case (cdf : ℝ → ℝ → ℝ → ℝ) : (⟨.linear, .linear, .empirical, 2, none, none, cdf⟩ : UCfg).stat [] []
    (fun i _ => (i.val : ℝ) : Data 4 1) (fun i _ => 3 * (i.val : ℝ) : Data 4 1) = .val 9 := by
  rw [C119_linear _ rfl rfl (by norm_num)]
  congr 1
  simp only [pearson, Fin.sum_univ_four, Fin.sum_univ_one]
  norm_num
  have h1 : √5 * √45 = 15 := by
    rw [← Real.sqrt_mul (by norm_num)]
    rw [show (5 * 45 : ℝ) = 15 ^ 2 by norm_num]
    exact Real.sqrt_sq (by norm_num)
  rw [h1]
  norm_num

/-! ## C120: the p-value of the unconditional test -/

/-- The arguments name existing kernels and a width rule, the degree is at least one and manual widths are given and not zero. -/
def UCfg.Valid (c : UCfg) : Prop :=
  c.kernelX ≠ .other ∧ c.kernelY ≠ .other ∧ c.width ≠ .other ∧ 1 ≤ c.polyd ∧
    (c.width = .manual → (∃ w, c.kwidthx = some w ∧ w ≠ 0) ∧ (∃ w, c.kwidthy = some w ∧ w ≠ 0))

/-- What the kernel step gives: a matrix whose centred form is zero just for constant data, or `nan` (median rule on constant data). -/
theorem kernelOf_valid (k : Kind) (hk : k ≠ .other) (w : Width) (hw : w ≠ .other) (m : Option ℝ) (hm : w = .manual → ∃ v, m = some v ∧ v ≠ 0)
    (p : Nat) (hp : 1 ≤ p) (hd : 0 < d) (s : List (Fin n)) (X : Data n d) (hn : n ≤ 1000 ∨ w ≠ .median) :
    (∃ K, kernelOf k (thetaU w m s X) p (zscore X) = .val K ∧ K.PosSemidef ∧ (center K = 0 ↔ ConstData X)) ∨
      (kernelOf k (thetaU w m s X) p (zscore X) = .nan ∧ ConstData X) := by
  have hg : ∀ θ, 0 < θ → thetaU w m s X = .val θ → ∃ K, kernelOf .gaussian (thetaU w m s X) p (zscore X) = .val K ∧ K.PosSemidef ∧ (center K = 0 ↔ ConstData X) := by
    intro θ hθ h
    rw [h]
    exact ⟨_, rfl, psd_gauss hθ.le _, by rw [center_gauss hθ, zscore_const]⟩
  cases k
  · cases w
    · obtain ⟨v, rfl, hv⟩ := hm rfl
      exact Or.inl (hg (1 / v ^ 2) (by positivity) (by simp [thetaU, widthManual, hv]))
    · have hn' : n ≤ 1000 := by simpa using hn
      by_cases hc : ConstData X
      · right
        refine ⟨?_, hc⟩
        simp only [thetaU, (widthMedian_val s X hn').1 hc]
        rfl
      · obtain ⟨θ, h, hθ⟩ := (widthMedian_val s X hn').2 hc
        exact Or.inl (hg θ hθ h)
    · exact Or.inl (hg _ (widthHsic_pos n d hd) rfl)
    · exact absurd rfl hw
  · exact Or.inl ⟨_, rfl, psd_poly p zero_le_one _, by rw [center_poly hp, zscore_const]⟩
  · exact Or.inl ⟨_, rfl, psd_lin _, by rw [center_lin_zero, zscore_const]⟩
  · exact absurd rfl hk

theorem gammaParams_psd {A B : Mat n} (hA : A.PosSemidef) (hB : B.PosSemidef) :
    (gammaParams (meanAppr A B) (varAppr A B) = .nan ∧ (A = 0 ∨ B = 0)) ∨
      (A ≠ 0 ∧ B ≠ 0 ∧ ∃ k θ, gammaParams (meanAppr A B) (varAppr A B) = .val (k, θ) ∧ 0 < k ∧ 0 < θ ∧
        k * θ = meanAppr A B ∧ k * θ ^ 2 = varAppr A B) := by
  by_cases h : A = 0 ∨ B = 0
  · left
    refine ⟨?_, h⟩
    unfold gammaParams
    rw [if_pos]
    left
    rcases h with rfl | rfl <;> simp [meanAppr]
  · right
    push Not at h
    obtain ⟨h1, h2⟩ := h
    have hn : 0 < n := by
      by_contra hn
      have : n = 0 := by omega
      subst this
      exact h1 (by ext i; exact i.elim0)
    have hn' : (0 : ℝ) < n := by exact_mod_cast hn
    have tA : 0 < trace A := lt_of_le_of_ne hA.trace_nonneg fun h => h1 (eq_zero_of_trace hA h.symm)
    have tB : 0 < trace B := lt_of_le_of_ne hB.trace_nonneg fun h => h2 (eq_zero_of_trace hB h.symm)
    have sA : 0 < ∑ i, ∑ j, A i j ^ 2 :=
      lt_of_le_of_ne (Finset.sum_nonneg fun i _ => Finset.sum_nonneg fun j _ => sq_nonneg _) fun h => h1 (sum_sq_eq_zero.1 h.symm)
    have sB : 0 < ∑ i, ∑ j, B i j ^ 2 :=
      lt_of_le_of_ne (Finset.sum_nonneg fun i _ => Finset.sum_nonneg fun j _ => sq_nonneg _) fun h => h2 (sum_sq_eq_zero.1 h.symm)
    have hm : 0 < meanAppr A B := by unfold meanAppr; positivity
    have hv : 0 < varAppr A B := by unfold varAppr; positivity
    refine ⟨h1, h2, meanAppr A B ^ 2 / varAppr A B, varAppr A B / meanAppr A B, ?_, by positivity, by positivity, ?_, ?_⟩
    · unfold gammaParams
      rw [if_neg]
      push Not
      exact ⟨hm.ne', hv.ne'⟩
    · field_simp
    · field_simp

/-- C120. What the test gives, for every data set of at least one column each and every valid configuration: never an exception; the float `nan` exactly when `x` or `y` is constant; and otherwise
`1 - cdf(statistic; k, θ)` for positive `k`, `θ` whose gamma distribution has the mean `trace·trace/n` and the variance `2·‖·‖²‖·‖²/n²` of the centred matrices — a number in `[0, 1]`. -/
theorem C120_pvalue_partial (c : UCfg) (hc : c.Valid) (hcdf : ∀ x k θ, 0 ≤ c.cdf x k θ ∧ c.cdf x k θ ≤ 1) (sx sy : List (Fin n)) (X : Data n d) (Y : Data n e)
    (hd : 0 < d) (he : 0 < e) (hn : n ≤ 1000 ∨ c.width ≠ .median) :
    (c.pApprox sx sy X Y = .nan ∧ (ConstData X ∨ ConstData Y)) ∨
    (¬ ConstData X ∧ ¬ ConstData Y ∧ ∃ Kx Ky k θ p, c.kernels sx sy X Y = .val (Kx, Ky) ∧ c.pApprox sx sy X Y = .val p ∧ 0 ≤ p ∧ p ≤ 1 ∧
      p = 1 - c.cdf (hsicV Kx Ky) k θ ∧ 0 < k ∧ 0 < θ ∧
      k * θ = trace (center Kx) * trace (center Ky) / n ∧
      k * θ ^ 2 = 2 * (∑ i, ∑ j, center Kx i j ^ 2) * (∑ i, ∑ j, center Ky i j ^ 2) / n / n) := by
  obtain ⟨h1, h2, h3, h4, h5⟩ := hc
  have hx := kernelOf_valid c.kernelX h1 c.width h3 c.kwidthx (fun h => (h5 h).1) c.polyd h4 hd sx X hn
  have hy := kernelOf_valid c.kernelY h2 c.width h3 c.kwidthy (fun h => (h5 h).2) c.polyd h4 he sy Y hn
  unfold UCfg.pApprox UCfg.kernels
  rcases hx with ⟨Kx, ex, px, zx⟩ | ⟨ex, zx⟩
  · rcases hy with ⟨Ky, ey, py, zy⟩ | ⟨ey, zy⟩
    · rw [ex, ey]
      simp only [Res.bind]
      rcases gammaParams_psd (psd_center px) (psd_center py) with ⟨g, hz⟩ | ⟨nx, ny, k, θ, g, hk, hθ, m1, m2⟩
      · left
        rw [g]
        exact ⟨rfl, hz.imp zx.1 zy.1⟩
      · right
        refine ⟨fun h => nx (zx.2 h), fun h => ny (zy.2 h), Kx, Ky, k, θ, 1 - c.cdf (hsicV Kx Ky) k θ, rfl, ?_, ?_, ?_, rfl, hk, hθ, m1, m2⟩
        · rw [g]
        · linarith [(hcdf (hsicV Kx Ky) k θ).2]
        · linarith [(hcdf (hsicV Kx Ky) k θ).1]
    · left
      rw [ex, ey]
      exact ⟨rfl, Or.inr zy⟩
  · left
    rw [ex]
    exact ⟨rfl, Or.inl zx⟩

/-- C120, violated: with the default configuration a constant variable is independent of everything, but its p-value is `nan`, which is not `> alpha`: the caller concludes dependence. -/
theorem C120_constant_violated (cdf : ℝ → ℝ → ℝ → ℝ) (hcdf : ∀ x k θ, 0 ≤ cdf x k θ ∧ cdf x k θ ≤ 1) (X : Data n 1) (Y : Data n e) (he : 0 < e) (hX : ConstData X) :
    (⟨.gaussian, .gaussian, .empirical, 2, none, none, cdf⟩ : UCfg).pApprox [] [] X Y = .nan := by
  rcases C120_pvalue_partial ⟨.gaussian, .gaussian, .empirical, 2, none, none, cdf⟩ (by simp [UCfg.Valid]) hcdf [] [] X Y one_pos he (Or.inr (by simp)) with h | h
  · exact h.1
  · exact absurd hX h.1

/-- C120. The two moments are those of the spectral null distribution `Σ λᵢ μⱼ zᵢⱼ² / n` (with independent standard normal `zᵢⱼ`: mean `Σ λᵢ μⱼ / n`, variance `2 Σ (λᵢ μⱼ / n)²`),
where `λ` and `μ` are the eigenvalues of the two centred matrices: the gamma approximation and the simulation approximate the same distribution. -/
theorem C120_moments (A B : Mat n) (l m : Fin n → ℝ) (hA : Eigen A l) (hB : Eigen B m) :
    meanAppr A B = ∑ i, ∑ j, l i * m j / n ∧ varAppr A B = 2 * ∑ i, ∑ j, (l i * m j / n) ^ 2 := by
  constructor
  · simp only [meanAppr, trace_eig hA, trace_eig hB, ← Finset.sum_div, Finset.sum_mul_sum]
  · simp only [varAppr, sumSq_eig hA, sumSq_eig hB, div_pow, mul_pow, ← Finset.sum_div]
    rw [mul_assoc, Finset.sum_mul_sum]
    ring

/-- C120, a case: the centred matrices have eigenvalues, like every symmetric matrix. -/
theorem C120_moments_case (X : Data n d) : ∃ l, Eigen (center (gaussK 1 X)) l :=
  exists_eigen (symm_of_psd (psd_center (psd_gauss zero_le_one X)))

/-- C120. The p-value from simulated null statistics is in `[0, 1]`, and it falls as the statistic grows. -/
theorem C120_simulated (null : List ℝ) (s t : ℝ) (h : s ≤ t) : 0 ≤ pSim null t ∧ pSim null t ≤ pSim null s ∧ pSim null s ≤ 1 := by
  classical
  refine ⟨by unfold pSim; positivity, ?_, ?_⟩
  · unfold pSim
    refine div_le_div_of_nonneg_right ?_ (Nat.cast_nonneg _)
    refine Nat.cast_le.2 ?_
    rw [← List.countP_eq_length_filter, ← List.countP_eq_length_filter]
    refine List.countP_mono_left fun x _ hx => ?_
    simp only [decide_eq_true_eq] at hx ⊢
    linarith
  · unfold pSim
    rcases Nat.eq_zero_or_pos null.length with h0 | h0
    · simp [h0]
    · rw [div_le_one (by exact_mod_cast h0)]
      exact_mod_cast List.length_filter_le _ _

/-! ## C121: the conditional test -/

theorem thetaC_nonneg {w : Width} {m : Option ℝ} {s : List (Fin n)} {dz : Nat} {X : Data n d} {t : ℝ} (ht : thetaC w m s dz X = .val t) : 0 ≤ t := by
  cases w
  · cases m with
    | none => cases ht
    | some v =>
      simp only [thetaC, widthManual] at ht
      split at ht
      · cases ht
      · cases ht; positivity
  · simp only [thetaC, widthMedian] at ht
    cases hm : npMedian (posDists X (if n > 1000 then s else List.finRange n)) with
    | raises => rw [hm] at ht; cases ht
    | nan => rw [hm] at ht; cases ht
    | val v => rw [hm] at ht; cases ht; positivity
  · simp only [thetaC] at ht
    cases ht
    unfold widthKci
    positivity
  · cases ht

theorem thetaZ_nonneg {w : Width} {m : Option ℝ} {s : List (Fin n)} {X : Data n d} {t : ℝ} (ht : thetaZ w m s X = .val t) : 0 ≤ t := by
  cases w
  · exact thetaC_nonneg (w := .manual) (dz := d) (s := s) (X := X) ht
  · exact thetaC_nonneg (w := .median) (m := m) (dz := d) ht
  · exact thetaC_nonneg (w := .empirical) (m := m) (s := s) (X := X) (dz := d) ht
  · simp only [thetaZ] at ht
    cases ht
    exact zero_le_one

theorem kernelOf_psd {k : Kind} {θ : Res ℝ} (hθ : ∀ t, θ = .val t → 0 ≤ t) {p : Nat} {Z : Data n d} {K : Mat n} (h : kernelOf k θ p Z = .val K) : K.PosSemidef := by
  cases k
  · cases θ with
    | raises => cases h
    | nan => cases h
    | val t => cases h; exact psd_gauss (hθ t rfl) _
  · cases h; exact psd_poly _ zero_le_one _
  · cases h; exact psd_lin _
  · cases h

/-- C121. The three matrices of the conditional test are symmetric positive semidefinite; `Kz + εI` is invertible (so its pseudo-inverse is its inverse), and the factor `ε (Kz + εI)⁻¹` that the code
computes is the documented `R = I - Kz (Kz + εI)⁻¹`; the regression-centred matrices `R K R` are positive semidefinite again. -/
theorem C121_matrices {dx dy dz : Nat} (c : CCfg) (sub : Fin 3 → List (Fin n)) (X : Data n dx) (Y : Data n dy) (Z : Data n dz) (Kx Ky Kz : Mat n)
    (h : c.kernels sub X Y Z = .val (Kx, Ky, Kz)) :
    Kx.PosSemidef ∧ Ky.PosSemidef ∧ Kz.PosSemidef ∧ IsUnit (Kz + eps • (1 : Mat n)) ∧
      regR eps Kz = 1 - Kz * (Kz + eps • (1 : Mat n))⁻¹ ∧ (regCenter eps Kx Kz).PosSemidef ∧ (regCenter eps Ky Kz).PosSemidef := by
  have hε : (0 : ℝ) < eps := by norm_num [eps]
  unfold CCfg.kernels at h
  dsimp only at h
  cases hx : kernelOf c.kernelX (thetaC c.width c.kwidthx (sub 0) dz (joinHalf (zscore X) (zscore Z))) c.polyd (joinHalf (zscore X) (zscore Z)) with
  | raises => rw [hx] at h; cases h
  | nan => rw [hx] at h; cases h
  | val A =>
    rw [hx] at h
    cases hy : kernelOf c.kernelY (thetaC c.width c.kwidthy (sub 1) dz (zscore Y)) c.polyd (zscore Y) with
    | raises => rw [hy] at h; cases h
    | nan => rw [hy] at h; cases h
    | val B =>
      rw [hy] at h
      cases hz : kernelOf c.kernelZ (thetaZ c.width c.kwidthz (sub 2) (zscore Z)) c.polyd (zscore Z) with
      | raises => rw [hz] at h; cases h
      | nan => rw [hz] at h; cases h
      | val C =>
        rw [hz] at h
        cases h
        have pA := psd_center (kernelOf_psd (fun t ht => thetaC_nonneg ht) hx)
        have pB := psd_center (kernelOf_psd (fun t ht => thetaC_nonneg ht) hy)
        have pC := psd_center (kernelOf_psd (fun t ht => thetaZ_nonneg ht) hz)
        exact ⟨pA, pB, pC, (kz_posDef pC hε).isUnit, regR_eq pC hε, psd_reg pA (symm_of_psd pC) _, psd_reg pB (symm_of_psd pC) _⟩

/-- C121. The statistic of the conditional test is never negative. -/
theorem C121_nonneg {dx dy dz : Nat} (c : CCfg) (sub : Fin 3 → List (Fin n)) (X : Data n dx) (Y : Data n dy) (Z : Data n dz) (v : ℝ)
    (h : c.stat sub X Y Z = .val v) : 0 ≤ v := by
  unfold CCfg.stat at h
  cases hk : c.kernels sub X Y Z with
  | raises => rw [hk] at h; cases h
  | nan => rw [hk] at h; cases h
  | val K =>
    rw [hk] at h
    cases h
    obtain ⟨_, _, _, _, _, h1, h2⟩ := C121_matrices c sub X Y Z K.1 K.2.1 K.2.2 hk
    exact sumProd_nonneg h1 h2

theorem linK_join {dx dz : Nat} (U U' : Data n dx) (W W' : Data n dz) (h1 : linK U = linK U') (h2 : linK W = linK W') :
    linK (joinHalf U W) = linK (joinHalf U' W') := by
  ext i k
  have a := congrFun (congrFun h1 i) k
  have b := congrFun (congrFun h2 i) k
  simp only [linK, of_apply] at a b
  simp only [linK, of_apply, joinHalf, Fin.sum_univ_add, Fin.append_left, Fin.append_right, a]
  congr 1
  have : ∀ W : Data n dz, (∑ c, 0.5 * W i c * (0.5 * W k c)) = 0.25 * ∑ c, W i c * W k c := fun W => by
    rw [Finset.mul_sum]
    exact Finset.sum_congr rfl fun c _ => by ring
  rw [this, this, b]

theorem widthMedian_congr {d' : Nat} (s : List (Fin n)) {Z : Data n d} {Z' : Data n d'} (h : linK Z = linK Z') : widthMedian s Z = widthMedian s Z' := by
  have hs : ∀ i j, sqDist Z i j = sqDist Z' i j := fun i j => by rw [sqDist_eq, sqDist_eq, h]
  simp only [widthMedian, posDists, hs]

theorem thetaC_congr {d' : Nat} (w : Width) (m : Option ℝ) (s : List (Fin n)) (dz : Nat) {Z : Data n d} {Z' : Data n d'} (h : linK Z = linK Z') :
    thetaC w m s dz Z = thetaC w m s dz Z' := by
  cases w
  · rfl
  · exact widthMedian_congr s h
  · rfl
  · rfl

theorem thetaZ_congr (w : Width) (m : Option ℝ) (s : List (Fin n)) {Z Z' : Data n d} (h : linK Z = linK Z') : thetaZ w m s Z = thetaZ w m s Z' := by
  cases w
  · rfl
  · exact widthMedian_congr s h
  · rfl
  · rfl

/-- C121. In the conditional test the data are normalised first, so units do not matter for any kernel and any width rule: rescaling and shifting the columns of `x`, `y` and `z` changes neither the
statistic nor the p-value. -/
theorem C121_affine {dx dy dz : Nat} (c : CCfg) (eig : Mat n → List (ℝ × (Fin n → ℝ))) (sub : Fin 3 → List (Fin n)) (X : Data n dx) (Y : Data n dy) (Z : Data n dz)
    (a b : Fin dx → ℝ) (a' b' : Fin dy → ℝ) (a'' b'' : Fin dz → ℝ) (ha : ∀ j, a j ≠ 0) (ha' : ∀ j, a' j ≠ 0) (ha'' : ∀ j, a'' j ≠ 0) :
    c.stat sub (fun i j => a j * X i j + b j) (fun i j => a' j * Y i j + b' j) (fun i j => a'' j * Z i j + b'' j) = c.stat sub X Y Z ∧
      c.pApprox eig sub (fun i j => a j * X i j + b j) (fun i j => a' j * Y i j + b' j) (fun i j => a'' j * Z i j + b'' j) = c.pApprox eig sub X Y Z := by
  have hy := linK_sign (zscore Y) a' ha'
  have hz := linK_sign (zscore Z) a'' ha''
  have hx := linK_join _ _ _ _ (linK_sign (zscore X) a ha) hz
  have hk : c.kernels sub (fun i j => a j * X i j + b j) (fun i j => a' j * Y i j + b' j) (fun i j => a'' j * Z i j + b'' j) = c.kernels sub X Y Z := by
    unfold CCfg.kernels
    dsimp only
    rw [zscore_affine X a b ha, zscore_affine Y a' b' ha', zscore_affine Z a'' b'' ha'', thetaC_congr _ _ _ _ hx, thetaC_congr _ _ _ _ hy, thetaZ_congr _ _ _ hz,
      kernelOf_congr c.kernelX _ _ hx, kernelOf_congr c.kernelY _ _ hy, kernelOf_congr c.kernelZ _ _ hz]
  unfold CCfg.stat CCfg.pApprox
  rw [hk]
  exact ⟨rfl, rfl⟩

/-- C121. The mean and the variance handed to the gamma approximation do not depend on which of the two products (`uu uuᵀ` or `uuᵀ uu`) is formed: with `A = Σ a aᵀ` and `B = Σ b bᵀ` over the scaled eigenvectors they are
`Σᵢ Aᵢᵢ Bᵢᵢ` and `2 Σᵢⱼ (Aᵢⱼ Bᵢⱼ)²`. -/
theorem C121_moments (vx vy : List (Fin n → ℝ)) :
    uuMoments (uuCols vx vy) =
      (∑ i, (vx.map fun v => v i * v i).sum * (vy.map fun v => v i * v i).sum,
        2 * ∑ i, ∑ j, ((vx.map fun v => v i * v j).sum * (vy.map fun v => v i * v j).sum) ^ 2) := by
  rw [uuMoments_eq]
  simp only [uuOuter_cols]
  rfl

/-- C121. When no eigenvalue is discarded as small, `Σ v vᵀ` over the scaled eigenvectors is the matrix itself, so the moments are those of the regression-centred matrices. -/
theorem C121_scaled (A : Mat n) (eigs : List (ℝ × (Fin n → ℝ))) (hA : ∀ i j, A i j = (eigs.map fun p => p.1 * p.2 i * p.2 j).sum)
    (hpos : ∀ p ∈ eigs, 0 ≤ p.1) (hkeep : ∀ p ∈ eigs, ∀ q ∈ eigs, q.1 * (1 / 100000) < p.1) (i j : Fin n) :
    ((scaled eigs).map fun v => v i * v j).sum = A i j := by
  classical
  have hmax : ∀ (l : List ℝ) (a : ℝ), l.foldl max a = a ∨ l.foldl max a ∈ l := by
    intro l
    induction l with
    | nil => intro a; left; rfl
    | cons b l ih =>
      intro a
      simp only [List.foldl_cons]
      rcases ih (max a b) with h | h
      · rw [h]
        rcases max_choice a b with h2 | h2
        · left; exact h2
        · right; rw [h2]; exact List.mem_cons_self
      · right; exact List.mem_cons_of_mem _ h
  have hf : eigs.filter (fun p => decide (p.1 > ((eigs.map Prod.fst).foldl max (((eigs.map Prod.fst).head?).getD 0)) * (1 / 100000))) = eigs := by
    rw [List.filter_eq_self]
    intro p hp
    simp only [decide_eq_true_eq]
    have hmem : (eigs.map Prod.fst).foldl max (((eigs.map Prod.fst).head?).getD 0) ∈ eigs.map Prod.fst := by
      rcases hmax (eigs.map Prod.fst) (((eigs.map Prod.fst).head?).getD 0) with h | h
      · rw [h]
        cases eigs with
        | nil => cases hp
        | cons q l => simp
      · exact h
    obtain ⟨q, hq, e⟩ := List.mem_map.1 hmem
    rw [← e]
    exact hkeep p hp q hq
  have e1 : scaled eigs = eigs.map fun p => fun i => p.2 i * √p.1 := by
    unfold scaled
    congr 1
  rw [e1, List.map_map, hA]
  congr 1
  refine List.map_congr_left fun p hp => ?_
  simp only [Function.comp]
  have := Real.mul_self_sqrt (hpos p hp)
  linear_combination p.2 i * p.2 j * this

/-- C121. The p-value of the conditional test, when it is a number, is in `[0, 1]` and belongs to a gamma distribution with positive parameters and the mean and variance of C121_moments. -/
theorem C121_pvalue_partial {dx dy dz : Nat} (c : CCfg) (hcdf : ∀ x k θ, 0 ≤ c.cdf x k θ ∧ c.cdf x k θ ≤ 1) (eig : Mat n → List (ℝ × (Fin n → ℝ)))
    (sub : Fin 3 → List (Fin n)) (X : Data n dx) (Y : Data n dy) (Z : Data n dz) (p : ℝ) (h : c.pApprox eig sub X Y Z = .val p) :
    0 ≤ p ∧ p ≤ 1 ∧ ∃ v k θ, c.stat sub X Y Z = .val v ∧ p = 1 - c.cdf v k θ ∧ 0 < k ∧ 0 < θ := by
  unfold CCfg.pApprox at h
  unfold CCfg.stat
  cases hk : c.kernels sub X Y Z with
  | raises => rw [hk] at h; cases h
  | nan => rw [hk] at h; cases h
  | val K =>
    rw [hk] at h
    simp only [Res.bind] at h ⊢
    generalize hm : uuCols (scaled (eig ((1 / 2 : ℝ) • (regCenter eps K.1 K.2.2 + (regCenter eps K.1 K.2.2)ᵀ))))
      (scaled (eig ((1 / 2 : ℝ) • (regCenter eps K.2.1 K.2.2 + (regCenter eps K.2.1 K.2.2)ᵀ)))) = cols at h
    have h1 : 0 ≤ (uuMoments cols).1 := by
      rw [uuMoments_eq]
      dsimp only
      refine Finset.sum_nonneg fun i _ => ?_
      show (0 : ℝ) ≤ (List.map _ cols).sum
      refine List.sum_nonneg fun x hx => ?_
      obtain ⟨c, _, rfl⟩ := List.mem_map.1 hx
      exact mul_self_nonneg _
    have h2 : 0 ≤ (uuMoments cols).2 := by
      rw [uuMoments_eq]
      have : 0 ≤ ∑ i, ∑ j, uuOuter cols i j ^ 2 := Finset.sum_nonneg fun i _ => Finset.sum_nonneg fun j _ => sq_nonneg _
      dsimp only
      linarith
    by_cases h0 : (uuMoments cols).1 = 0 ∨ (uuMoments cols).2 = 0
    · simp only [gammaParams, if_pos h0] at h
      cases h
    · simp only [gammaParams, if_neg h0] at h
      push Not at h0
      have p1 := lt_of_le_of_ne h1 h0.1.symm
      have p2 := lt_of_le_of_ne h2 h0.2.symm
      injection h with h
      have hc := hcdf (kciV K.1 K.2.1 K.2.2) ((uuMoments cols).1 ^ 2 / (uuMoments cols).2) ((uuMoments cols).2 / (uuMoments cols).1)
      exact ⟨by linarith [hc.2], by linarith [hc.1], _, _, _, rfl, h.symm, by positivity, by positivity⟩

/-- The default configuration of `KCI_CInd`. -/
def defaultC (cdf : ℝ → ℝ → ℝ → ℝ) : CCfg := ⟨.gaussian, .gaussian, .gaussian, .empirical, 2, none, none, none, cdf⟩

/-- C121, violated: with a constant `y` the p-value of the conditional test is `nan` as well, whatever `x` and `z` are. The eigenvalues of the zero matrix are zero. -/
theorem C121_constant_violated {dx dy dz : Nat} (cdf : ℝ → ℝ → ℝ → ℝ) (eig : Mat n → List (ℝ × (Fin n → ℝ))) (heig : ∀ p ∈ eig 0, p.1 = 0)
    (sub : Fin 3 → List (Fin n)) (X : Data n dx) (Y : Data n dy) (Z : Data n dz) (hz : 0 < dz) (hY : ConstData Y) :
    (defaultC cdf).pApprox eig sub X Y Z = .nan := by
  classical
  unfold CCfg.pApprox CCfg.kernels
  simp only [defaultC, kernelOf, thetaC, thetaZ, Res.bind]
  rw [(center_gauss (widthKci_pos n dz hz)).2 (zscore_const.2 hY)]
  have e0 : ∀ K : Mat n, regCenter eps 0 K = 0 := fun K => by simp [regCenter]
  simp only [e0]
  have e1 : ((1 / 2 : ℝ) • ((0 : Mat n) + (0 : Mat n)ᵀ)) = 0 := by simp
  rw [e1]
  have e2 : scaled (eig (0 : Mat n)) = [] := by
    have hfold : ∀ l : List ℝ, (∀ x ∈ l, x = 0) → l.foldl max (l.head?.getD 0) = 0 := by
      intro l hl
      have h0 : l.head?.getD 0 = 0 := by
        cases l with
        | nil => rfl
        | cons a l => simpa using hl a (by simp)
      rw [h0]
      induction l with
      | nil => rfl
      | cons a l ih =>
        simp only [List.foldl_cons, hl a (by simp), max_self]
        exact ih (fun x hx => hl x (by simp [hx])) (by
          cases l with
          | nil => rfl
          | cons b l => simpa using hl b (by simp))
    unfold scaled
    rw [hfold _ (fun x hx => by obtain ⟨q, hq, rfl⟩ := List.mem_map.1 hx; exact heig q hq), List.map_eq_nil_iff, List.filter_eq_nil_iff]
    intro q hq
    simp [heig q hq]
  rw [e2]
  have e3 : ∀ vx : List (Fin n → ℝ), uuCols vx [] = [] := fun vx => by simp [uuCols]
  rw [e3]
  simp [uuMoments, gammaParams]

/-! ## C122: asymmetry of the conditional test; a keyword that cannot be passed on -/

/-- The witness data: five samples. -/
def wx : Data 5 1 := fun i _ => ![1, 1, 0, -1, -1] i
def wy : Data 5 1 := fun i _ => ![1, 0, 1, -1, -1] i
def wz : Data 5 1 := fun i _ => ![1, -1, 0, 1, -1] i

theorem zscore_self {X : Data 5 1} (h0 : ∑ i, X i 0 = 0) (h1 : ∑ i, X i 0 ^ 2 = 4) : zscore X = X := by
  have hm : colMean X 0 = 0 := by simp [colMean, h0]
  have hv : colVar X 0 = 1 := by
    simp only [colVar, hm, sub_zero, h1]
    norm_num
  funext i j
  rw [Subsingleton.elim j 0]
  simp [zscore, hm, hv]

theorem regR_wz : regR eps (linK wz) = of fun i k => (if i = k then 1 else 0) - wz i 0 * wz k 0 / (eps + 4) := by
  have hε : (0 : ℝ) < eps := by norm_num [eps]
  have hzz : ∑ k, wz k 0 * wz k 0 = 4 := by simp [wz, Fin.sum_univ_five]; norm_num
  rw [regR]
  have : (linK wz + eps • (1 : Mat 5))⁻¹ = (1 / eps) • (of fun i k => (if i = k then 1 else 0) - wz i 0 * wz k 0 / (eps + 4) : Mat 5) := by
    refine Matrix.inv_eq_right_inv ?_
    have e1 : (of fun i k => (if i = k then 1 else 0) - wz i 0 * wz k 0 / (eps + 4) : Mat 5) = 1 - (1 / (eps + 4)) • linK wz := by
      ext i k
      simp [linK, one_apply]
      ring
    have e2 : linK wz * linK wz = (4 : ℝ) • linK wz := by
      ext i k
      simp only [linK, mul_apply, of_apply, Fin.sum_univ_one, Matrix.smul_apply, smul_eq_mul]
      rw [← hzz, Finset.sum_mul]
      exact Finset.sum_congr rfl fun j _ => by ring
    rw [e1]
    ext i k
    simp only [Matrix.mul_smul, add_mul, mul_sub, Matrix.smul_mul, e2, mul_one, one_mul, Matrix.smul_apply, Matrix.add_apply, Matrix.sub_apply, smul_eq_mul]
    field_simp
    ring
  rw [this, smul_smul]
  simp [hε.ne']

/-- Linear kernels: the statistic for the witness data. -/
theorem stat_linear (cdf : ℝ → ℝ → ℝ → ℝ) (sub : Fin 3 → List (Fin 5)) (X Y : Data 5 1) (hX0 : ∑ i, X i 0 = 0) (hX1 : ∑ i, X i 0 ^ 2 = 4)
    (hY0 : ∑ i, Y i 0 = 0) (hY1 : ∑ i, Y i 0 ^ 2 = 4) :
    (⟨.linear, .linear, .linear, .empirical, 2, none, none, none, cdf⟩ : CCfg).stat sub X Y wz =
      .val ((∑ i, (X i 0 - wz i 0 * (∑ k, wz k 0 * X k 0) / (eps + 4)) * (Y i 0 - wz i 0 * (∑ k, wz k 0 * Y k 0) / (eps + 4))) ^ 2 +
        (∑ i, (0.5 * (wz i 0 - wz i 0 * (∑ k, wz k 0 * wz k 0) / (eps + 4))) * (Y i 0 - wz i 0 * (∑ k, wz k 0 * Y k 0) / (eps + 4))) ^ 2) := by
  have hz0 : ∑ i, wz i 0 = 0 := by simp [wz, Fin.sum_univ_five]
  have hz1 : ∑ i, wz i 0 ^ 2 = 4 := by simp [wz, Fin.sum_univ_five]; norm_num
  unfold CCfg.stat CCfg.kernels
  simp only [kernelOf, Res.bind, zscore_self hX0 hX1, zscore_self hY0 hY1, zscore_self hz0 hz1]
  congr 1
  have sXZ : ∀ j, ∑ i, joinHalf X wz i j = 0 := by
    intro j
    refine Fin.addCases (fun j => ?_) (fun j => ?_) j
    · rw [Subsingleton.elim j 0]
      simpa only [joinHalf, Fin.append_left] using hX0
    · rw [Subsingleton.elim j 0]
      simp only [joinHalf, Fin.append_right]
      rw [← Finset.mul_sum, hz0, mul_zero]
  have s1 : ∀ {X : Data 5 1}, (∑ i, X i 0 = 0) → ∀ j, ∑ i, X i j = 0 := fun h j => by rw [Subsingleton.elim j 0]; exact h
  have hzs : (linK wz)ᵀ = linK wz := symm_of_psd (psd_lin wz)
  rw [center_lin sXZ, center_lin (s1 hY0), center_lin (s1 hz0), kciV, regCenter_lin hzs, regCenter_lin hzs, sumProd_lin, regR_wz]
  have hR : ∀ (i : Fin 5) (f : Fin 5 → ℝ), (∑ k, (of fun i k => (if i = k then 1 else 0) - wz i 0 * wz k 0 / (eps + 4) : Mat 5) i k * f k) =
      f i - wz i 0 * (∑ k, wz k 0 * f k) / (eps + 4) := by
    intro i f
    simp only [of_apply, sub_mul, Finset.sum_sub_distrib, ite_mul, one_mul, zero_mul, Finset.sum_ite_eq, Finset.mem_univ, if_true]
    rw [Finset.mul_sum, Finset.sum_div]
    congr 1
    exact Finset.sum_congr rfl fun k _ => by ring
  simp only [hR, Fin.sum_univ_add, Fin.sum_univ_one, joinHalf, Fin.append_left, Fin.append_right]
  congr 2
  refine Finset.sum_congr rfl fun i _ => ?_
  have : ∑ k, wz k 0 * (0.5 * wz k 0) = 0.5 * ∑ k, wz k 0 * wz k 0 := by
    rw [Finset.mul_sum]
    exact Finset.sum_congr rfl fun k _ => by ring
  rw [this]
  ring

/-- C122, violated: the conditional test is not symmetric. `z` is appended (halved) to `x` but not to `y`, so testing `y ⟂ x | z` instead of `x ⟂ y | z` gives another statistic:
five samples, linear kernels. -/
theorem C122_symmetric_violated (cdf : ℝ → ℝ → ℝ → ℝ) (sub sub' : Fin 3 → List (Fin 5)) :
    (⟨.linear, .linear, .linear, .empirical, 2, none, none, none, cdf⟩ : CCfg).stat sub wx wy wz ≠
      (⟨.linear, .linear, .linear, .empirical, 2, none, none, none, cdf⟩ : CCfg).stat sub' wy wx wz := by
  have hx0 : ∑ i, wx i 0 = 0 := by simp [wx, Fin.sum_univ_five]
  have hx1 : ∑ i, wx i 0 ^ 2 = 4 := by simp [wx, Fin.sum_univ_five]; norm_num
  have hy0 : ∑ i, wy i 0 = 0 := by simp [wy, Fin.sum_univ_five]
  have hy1 : ∑ i, wy i 0 ^ 2 = 4 := by simp [wy, Fin.sum_univ_five]; norm_num
  rw [stat_linear cdf sub wx wy hx0 hx1 hy0 hy1, stat_linear cdf sub' wy wx hy0 hy1 hx0 hx1]
  have ezx : ∑ k, wz k 0 * wx k 0 = 0 := by simp [wx, wz, Fin.sum_univ_five]
  have ezy : ∑ k, wz k 0 * wy k 0 = 1 := by simp [wy, wz, Fin.sum_univ_five]
  have ezz : ∑ k, wz k 0 * wz k 0 = 4 := by simp [wz, Fin.sum_univ_five]; norm_num
  rw [ezx, ezy, ezz]
  intro h
  injection h with h
  simp [wx, wy, wz, Fin.sum_univ_five, eps] at h
  norm_num at h

/-- C122. What does hold: for a single matrix pair the statistic is symmetric; the asymmetry comes from the appended `z` alone. -/
theorem C122_symmetric_partial (Kx Ky Kz : Mat n) : kciV Kx Ky Kz = kciV Ky Kx Kz := sumProd_comm _ _

/-- C122. `CIT(data, "kci", …)` accepts exactly the calls that do not pass `null_ss`. -/
theorem C122_kwargs_partial (kwargs : List String) : citKciOk kwargs = true ↔ "null_ss" ∉ kwargs := by
  have hu : ∀ k ∈ uindKeys, k ∈ uindParams := by decide
  have hc : ∀ k ∈ cindKeys, k ∈ cindParams ↔ k ≠ "null_ss" := by decide
  have hn : "null_ss" ∈ cindKeys := by decide
  simp only [citKciOk, Bool.and_eq_true, List.all_eq_true, List.mem_filter, decide_eq_true_eq, and_imp]
  constructor
  · rintro ⟨_, h⟩ hm
    exact (hc _ hn).1 (h _ hm hn) rfl
  · intro h
    exact ⟨fun k _ hk => hu k hk, fun k hk hk' => (hc k hk').2 fun e => h (e ▸ hk)⟩

/-- C122, violated: the documented parameter `null_ss` of the test cannot be given. -/
theorem C122_null_ss_violated : citKciOk ["approx", "null_ss"] = false := by decide

end Kci
end CL
