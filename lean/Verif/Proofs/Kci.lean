import Verif.Model.Kci
import Mathlib.Analysis.Matrix.Order
import Mathlib.LinearAlgebra.Matrix.PosDef
import Mathlib.Analysis.Matrix.Spectrum
import Mathlib.LinearAlgebra.Matrix.Hadamard
import Mathlib.Analysis.Normed.Algebra.Exponential
import Mathlib.Analysis.SpecialFunctions.Exponential
import Mathlib.Data.List.GetD
import Mathlib.Tactic.Abel
import Mathlib.Tactic.Ring
import Mathlib.Tactic.Linarith
import Mathlib.Tactic.Positivity
import Mathlib.Tactic.FieldSimp
import Mathlib.Tactic.NormNum
import Mathlib.Tactic.LinearCombination

/-! Lemmas about the kernel tests (used by `Verif.Props.Kci`). -/
namespace CL
namespace Kci
open Matrix
variable {n d e : Nat}

abbrev Mat (n : Nat) := Matrix (Fin n) (Fin n) ℝ

theorem symm_of_psd {K : Mat n} (h : K.PosSemidef) : Kᵀ = K := by
  have := h.isHermitian
  rwa [IsHermitian, conjTranspose_eq_transpose_of_trivial] at this

theorem psd_iff {K : Mat n} : K.PosSemidef ↔ Kᵀ = K ∧ ∀ x : Fin n → ℝ, 0 ≤ x ⬝ᵥ (K *ᵥ x) := by
  rw [posSemidef_iff_dotProduct_mulVec, IsHermitian, conjTranspose_eq_transpose_of_trivial]
  simp [star_trivial]

/-- The all-ones matrix. -/
def ones (n : Nat) : Mat n := of fun _ _ => 1

theorem psd_rank1 (v : Fin n → ℝ) : (of fun i j => v i * v j : Mat n).PosSemidef := by
  have := posSemidef_vecMulVec_self_star v
  rw [star_trivial] at this
  exact this

theorem psd_ones : (ones n).PosSemidef := by
  have := psd_rank1 (fun _ : Fin n => (1 : ℝ))
  simpa [ones] using this

theorem psd_lin (X : Data n d) : (linK X).PosSemidef := by
  have := posSemidef_self_mul_conjTranspose (of X : Matrix (Fin n) (Fin d) ℝ)
  rw [conjTranspose_eq_transpose_of_trivial] at this
  have e : linK X = of X * (of X)ᵀ := by ext i j; simp [linK, mul_apply]
  rw [e]; exact this

theorem psd_had {A B : Mat n} (hA : A.PosSemidef) (hB : B.PosSemidef) : (A ⊙ B).PosSemidef := PosSemidef.hadamard (𝕜 := ℝ) hA hB

theorem psd_hpow {K : Mat n} (h : K.PosSemidef) (k : Nat) : (of fun i j => K i j ^ k : Mat n).PosSemidef := by
  induction k with
  | zero => simpa [ones] using (psd_ones (n := n))
  | succ k ih =>
    have e : (of fun i j => K i j ^ (k + 1) : Mat n) = (of fun i j => K i j ^ k : Mat n) ⊙ K := by ext i j; simp [pow_succ]
    rw [e]; exact psd_had ih h

theorem psd_poly (deg : Nat) {c : ℝ} (hc : 0 ≤ c) (X : Data n d) : (polyK deg c X).PosSemidef := by
  have h := psd_hpow ((psd_ones (n := n)).smul hc |>.add (psd_lin X)) deg
  have e' : polyK deg c X = of fun i j => (c • ones n + linK X) i j ^ deg := by
    ext i j
    simp [polyK, linK, ones]
  rw [e']; exact h

theorem psd_exp {K : Mat n} (h : K.PosSemidef) : (of fun i j => Real.exp (K i j) : Mat n).PosSemidef := by
  rw [psd_iff]
  refine ⟨?_, fun x => ?_⟩
  · ext i j
    simp only [transpose_apply, of_apply]
    rw [← transpose_apply K, symm_of_psd h]
  have hs : HasSum (fun k : ℕ => x ⬝ᵥ ((of fun i j => (k.factorial : ℝ)⁻¹ * K i j ^ k : Mat n) *ᵥ x))
      (x ⬝ᵥ ((of fun i j => Real.exp (K i j) : Mat n) *ᵥ x)) := by
    simp only [dotProduct, mulVec, of_apply]
    refine hasSum_sum fun i _ => HasSum.mul_left _ (hasSum_sum fun j _ => HasSum.mul_right _ ?_)
    have := NormedSpace.exp_series_hasSum_exp' (𝕂 := ℝ) (K i j)
    rw [← Real.exp_eq_exp_ℝ] at this
    simpa [smul_eq_mul] using this
  refine hs.nonneg fun k => ?_
  have hp := ((psd_hpow h k).smul (show (0:ℝ) ≤ (k.factorial : ℝ)⁻¹ by positivity))
  have := (psd_iff.1 hp).2 x
  have e' : (of fun i j => (k.factorial : ℝ)⁻¹ * K i j ^ k : Mat n) = (k.factorial : ℝ)⁻¹ • (of fun i j => K i j ^ k : Mat n) := by
    ext i j; simp
  rw [e']; exact this

theorem psd_gauss {θ : ℝ} (hθ : 0 ≤ θ) (X : Data n d) : (gaussK θ X).PosSemidef := by
  have h := psd_had (psd_rank1 (fun i => Real.exp (-0.5 * θ * ∑ j, X i j ^ 2))) (psd_exp ((psd_lin X).smul hθ))
  refine (congrArg PosSemidef ?_).mpr h
  ext i k
  simp only [gaussK, of_apply, hadamard_apply, Matrix.smul_apply, linK, smul_eq_mul]
  rw [← Real.exp_add, ← Real.exp_add]
  congr 1
  simp only [sqDist, sub_sq, Finset.sum_add_distrib, Finset.sum_sub_distrib, mul_assoc, ← Finset.mul_sum]
  ring

theorem gauss_entry {θ : ℝ} (hθ : 0 ≤ θ) (X : Data n d) (i k : Fin n) : 0 < gaussK θ X i k ∧ gaussK θ X i k ≤ 1 := by
  refine ⟨Real.exp_pos _, ?_⟩
  simp only [gaussK, of_apply]
  rw [← Real.exp_zero]
  apply Real.exp_le_exp.2
  have : 0 ≤ sqDist X i k := Finset.sum_nonneg fun j _ => sq_nonneg _
  have := mul_nonneg this hθ
  linarith

theorem gauss_diag (θ : ℝ) (X : Data n d) (i : Fin n) : gaussK θ X i i = 1 := by simp [gaussK, sqDist]

/-! ### Centring -/

theorem centering_eq (n : Nat) : centering n = 1 - (1 / (n : ℝ)) • ones n := by
  ext i j
  simp [centering, ones, one_apply]

theorem centering_symm (n : Nat) : (centering n)ᵀ = centering n := by
  ext i j
  simp [centering, eq_comm]

theorem ones_mul_ones (n : Nat) : ones n * ones n = (n : ℝ) • ones n := by
  ext i j
  simp [ones, mul_apply]

theorem centering_idem (n : Nat) : centering n * centering n = centering n := by
  rw [centering_eq]
  rcases Nat.eq_zero_or_pos n with rfl | hn
  · ext i; exact i.elim0
  have hn' : (n : ℝ) ≠ 0 := by positivity
  simp only [sub_mul, mul_sub, Matrix.smul_mul, Matrix.mul_smul, ones_mul_ones, one_mul, mul_one, smul_smul]
  simp [hn']

theorem hkh_apply (K : Mat n) (i j : Fin n) :
    (centering n * K * centering n) i j = K i j - ((∑ k, K k j) + ∑ k, K i k) / n + (∑ l, ∑ k, K l k) / n ^ 2 := by
  rw [centering_eq]
  simp only [sub_mul, mul_sub, Matrix.smul_mul, Matrix.mul_smul, one_mul, mul_one, Matrix.sub_apply, Matrix.smul_apply, smul_eq_mul]
  have h1 : (ones n * K) i j = ∑ k, K k j := by simp [ones, mul_apply]
  have h2 : (K * ones n) i j = ∑ k, K i k := by simp [ones, mul_apply]
  have h3 : (ones n * K * ones n) i j = ∑ l, ∑ k, K l k := by
    simp only [ones, mul_apply, of_apply, mul_one, one_mul]
    exact Finset.sum_comm
  rw [h1, h2, h3]
  ring

theorem center_eq_hkh {K : Mat n} (h : Kᵀ = K) : center K = centering n * K * centering n := by
  ext i j
  rw [hkh_apply]
  have hij : ∀ i j, K i j = K j i := fun i j => by rw [← transpose_apply K, h]
  simp only [center, of_apply]
  rw [show (∑ k, K k i) = ∑ k, K i k from Finset.sum_congr rfl fun k _ => hij k i, Finset.sum_comm]

theorem gramCenter_eq (K : Mat n) : gramCenter K = gamCenter K := by
  ext i j
  rw [gamCenter, hkh_apply]
  rfl

theorem psd_center {K : Mat n} (h : K.PosSemidef) : (center K).PosSemidef := by
  rw [center_eq_hkh (symm_of_psd h)]
  have := h.mul_mul_conjTranspose_same (centering n)
  rwa [conjTranspose_eq_transpose_of_trivial, centering_symm] at this

theorem centering_mulVec_one (hn : 0 < n) (i : Fin n) : ∑ j, centering n i j = 0 := by
  have : (n : ℝ) ≠ 0 := by positivity
  simp [centering, Finset.sum_sub_distrib, this]

theorem hkh_row (K : Mat n) (i : Fin n) : ∑ j, (centering n * K * centering n) i j = 0 := by
  have hn : 0 < n := i.pos
  simp only [mul_apply (M := centering n * K)]
  rw [Finset.sum_comm]
  refine Finset.sum_eq_zero fun k _ => ?_
  rw [← Finset.mul_sum, centering_mulVec_one hn, mul_zero]

theorem hkh_col (K : Mat n) (j : Fin n) : ∑ i, (centering n * K * centering n) i j = 0 := by
  have := hkh_row Kᵀ j
  have h2 : centering n * Kᵀ * centering n = (centering n * K * centering n)ᵀ := by
    rw [transpose_mul, transpose_mul, centering_symm, mul_assoc]
  rw [h2] at this
  simpa using this

/-! ### The product sum -/

theorem sumProd_trace (A B : Mat n) : sumProd A B = trace (A * Bᵀ) := by
  simp [sumProd, trace, mul_apply]

theorem sumProd_comm (A B : Mat n) : sumProd A B = sumProd B A := by
  simp [sumProd, mul_comm]

/-- The sum of the entries of a positive semidefinite matrix is not negative. -/
theorem sum_nonneg_of_psd {A : Mat n} (h : A.PosSemidef) : 0 ≤ ∑ i, ∑ j, A i j := by
  have := (psd_iff.1 h).2 (fun _ => 1)
  simpa [dotProduct, mulVec] using this

theorem sumProd_nonneg {A B : Mat n} (hA : A.PosSemidef) (hB : B.PosSemidef) : 0 ≤ sumProd A B :=
  sum_nonneg_of_psd (psd_had hA hB)

theorem eq_zero_of_trace {A : Mat n} (h : A.PosSemidef) (h0 : trace A = 0) : A = 0 := h.trace_eq_zero_iff.1 h0

theorem sum_sq_eq_zero {A : Mat n} : (∑ i, ∑ j, A i j ^ 2) = 0 ↔ A = 0 := by
  rw [Finset.sum_eq_zero_iff_of_nonneg (f := fun i => ∑ j, A i j ^ 2) fun i _ => Finset.sum_nonneg fun j _ => sq_nonneg (A i j)]
  constructor
  · intro h
    ext i j
    have := (Finset.sum_eq_zero_iff_of_nonneg fun j _ => sq_nonneg (A i j)).1 (h i (Finset.mem_univ _)) j (Finset.mem_univ _)
    simpa using this
  · rintro rfl; simp

/-! ### Normalisation -/

theorem zscore_sum (X : Data n d) (j : Fin d) : ∑ i, zscore X i j = 0 := by
  rcases Nat.eq_zero_or_pos n with rfl | hn
  · simp
  have hn' : (n : ℝ) ≠ 0 := by positivity
  simp only [zscore]
  rw [← Finset.sum_div, Finset.sum_sub_distrib]
  simp [colMean]
  left
  field_simp
  ring

theorem colMean_perm (X : Data n d) (σ : Equiv.Perm (Fin n)) (j : Fin d) : colMean (fun i => X (σ i)) j = colMean X j := by
  simp only [colMean]
  rw [Equiv.sum_comp σ (fun i => X i j)]

theorem colVar_perm (X : Data n d) (σ : Equiv.Perm (Fin n)) (j : Fin d) : colVar (fun i => X (σ i)) j = colVar X j := by
  simp only [colVar, colMean_perm]
  rw [Equiv.sum_comp σ (fun i => (X i j - colMean X j) ^ 2)]

theorem zscore_perm (X : Data n d) (σ : Equiv.Perm (Fin n)) : zscore (fun i => X (σ i)) = fun i => zscore X (σ i) := by
  funext i j
  simp only [zscore, colMean_perm, colVar_perm]

theorem colMean_affine (X : Data n d) (a b : Fin d → ℝ) (hn : 0 < n) (j : Fin d) :
    colMean (fun i j => a j * X i j + b j) j = a j * colMean X j + b j := by
  have hn' : (n : ℝ) ≠ 0 := by positivity
  simp only [colMean, Finset.sum_add_distrib, ← Finset.mul_sum]
  simp
  field_simp

theorem colVar_affine (X : Data n d) (a b : Fin d → ℝ) (hn : 0 < n) (j : Fin d) :
    colVar (fun i j => a j * X i j + b j) j = a j ^ 2 * colVar X j := by
  simp only [colVar, colMean_affine X a b hn]
  rw [← mul_div_assoc, Finset.mul_sum]
  congr 1
  exact Finset.sum_congr rfl fun i _ => by ring

theorem zscore_affine (X : Data n d) (a b : Fin d → ℝ) (ha : ∀ j, a j ≠ 0) :
    zscore (fun i j => a j * X i j + b j) = fun i j => a j / abs (a j) * zscore X i j := by
  funext i j
  have hn := i.pos
  simp only [zscore, colMean_affine X a b hn, colVar_affine X a b hn]
  rw [Real.sqrt_mul (sq_nonneg _), Real.sqrt_sq_eq_abs]
  have : abs (a j) ≠ 0 := abs_ne_zero.2 (ha j)
  rcases eq_or_ne (√(colVar X j)) 0 with h | h
  · simp [h]
  · field_simp
    ring

theorem sign_sq {a : ℝ} (h : a ≠ 0) : (a / abs a) * (a / abs a) = 1 := by
  have : abs a ≠ 0 := abs_ne_zero.2 h
  field_simp
  rw [sq_abs]

theorem linK_sign (Z : Data n d) (a : Fin d → ℝ) (ha : ∀ j, a j ≠ 0) :
    linK (fun i j => a j / abs (a j) * Z i j) = linK Z := by
  ext i k
  simp only [linK, of_apply]
  refine Finset.sum_congr rfl fun j _ => ?_
  rw [mul_mul_mul_comm, sign_sq (ha j), one_mul]

theorem sqDist_eq (Z : Data n d) (i k : Fin n) : sqDist Z i k = linK Z i i + linK Z k k - 2 * linK Z i k := by
  simp only [sqDist, linK, of_apply, Finset.mul_sum, ← Finset.sum_add_distrib, ← Finset.sum_sub_distrib]
  exact Finset.sum_congr rfl fun j _ => by ring

/-- Every kernel is a function of the inner products of the rows. -/
theorem kernelOf_congr {d' : Nat} (k : Kind) (θ : Res ℝ) (p : Nat) {Z : Data n d} {Z' : Data n d'} (h : linK Z = linK Z') :
    kernelOf k θ p Z = kernelOf k θ p Z' := by
  have hs : ∀ i j, sqDist Z i j = sqDist Z' i j := fun i j => by rw [sqDist_eq, sqDist_eq, h]
  have hi : ∀ i j : Fin n, (∑ c, Z i c * Z j c) = ∑ c, Z' i c * Z' j c := fun i j => congrFun (congrFun h i) j
  cases k
  · simp only [kernelOf]
    congr 1
    funext t
    congr 1
    ext i j
    simp only [gaussK, of_apply, hs]
  · simp only [kernelOf]
    congr 1
    ext i j
    simp only [polyK, of_apply, hi]
  · simp only [kernelOf, h]
  · rfl

/-- Reordering the samples reorders rows and columns of the kernel matrix. -/
theorem kernelOf_perm (k : Kind) (θ : Res ℝ) (p : Nat) (Z : Data n d) (σ : Equiv.Perm (Fin n)) :
    kernelOf k θ p (fun i => Z (σ i)) = (kernelOf k θ p Z).bind fun K => .val (K.submatrix σ σ) := by
  cases k
  · cases θ <;> rfl
  · rfl
  · rfl
  · rfl

theorem center_perm (K : Mat n) (σ : Equiv.Perm (Fin n)) : center (K.submatrix σ σ) = (center K).submatrix σ σ := by
  ext i j
  simp only [center, of_apply, submatrix_apply]
  have h : ∀ j, ∑ k, K (σ k) (σ j) = ∑ k, K k (σ j) := fun j => Equiv.sum_comp σ fun k => K k (σ j)
  have h2 : ∑ l, ∑ k, K (σ k) (σ l) = ∑ l, ∑ k, K k l := by
    simp only [h]
    exact Equiv.sum_comp σ fun l => ∑ k, K k l
  rw [h2, h, h]

theorem sumProd_perm (A B : Mat n) (σ : Equiv.Perm (Fin n)) : sumProd (A.submatrix σ σ) (B.submatrix σ σ) = sumProd A B := by
  simp only [sumProd, submatrix_apply]
  rw [← Equiv.sum_comp σ fun i => ∑ j, A i j * B i j]
  refine Finset.sum_congr rfl fun i _ => ?_
  exact Equiv.sum_comp σ fun j => A (σ i) j * B (σ i) j

theorem npMedian_perm {l l' : List ℝ} (h : l.Perm l') : npMedian l = npMedian l' := by
  have hs : l.insertionSort (· ≤ ·) = l'.insertionSort (· ≤ ·) :=
    List.Perm.eq_of_pairwise' (l₁ := l.insertionSort (· ≤ ·)) (l₂ := l'.insertionSort (· ≤ ·)) (List.pairwise_insertionSort _ _) (List.pairwise_insertionSort _ _)
      (((List.perm_insertionSort _ _).trans h).trans (List.perm_insertionSort _ _).symm)
  have hl := h.length_eq
  have h0 : l = [] ↔ l' = [] := by
    constructor
    · rintro rfl; exact List.nil_perm.1 h
    · rintro rfl; exact List.perm_nil.1 h
  simp only [npMedian, hs, hl, h0]

theorem posDists_perm (X : Data n d) (σ : Equiv.Perm (Fin n)) :
    (posDists (fun i => X (σ i)) (List.finRange n)).Perm (posDists X (List.finRange n)) := by
  have hp : ((List.finRange n).map σ).Perm (List.finRange n) := by
    apply (List.perm_ext_iff_of_nodup ((List.nodup_finRange n).map σ.injective) (List.nodup_finRange n)).2
    intro a
    simp only [List.mem_map, List.mem_finRange, true_and, iff_true]
    exact ⟨σ.symm a, by simp⟩
  simp only [posDists]
  refine List.Perm.filter _ ?_
  have e : ((List.finRange n).flatMap fun i => (List.finRange n).map fun k => √(sqDist (fun i => X (σ i)) i k)) =
      ((List.finRange n).map σ).flatMap fun i => ((List.finRange n).map σ).map fun k => √(sqDist X i k) := by
    rw [List.flatMap_map]
    refine List.flatMap_congr fun i _ => ?_
    rw [List.map_map]
    rfl
  rw [e]
  refine List.Perm.flatMap hp fun i _ => hp.map _

theorem thetaU_perm (w : Width) (m : Option ℝ) (s s' : List (Fin n)) (X : Data n d) (σ : Equiv.Perm (Fin n)) (h : n ≤ 1000 ∨ w ≠ .median) :
    thetaU w m s' (fun i => X (σ i)) = thetaU w m s X := by
  cases w
  · rfl
  · have hn : ¬ n > 1000 := by simpa using h
    simp only [thetaU, widthMedian, if_neg hn]
    rw [npMedian_perm (posDists_perm X σ)]
  · rfl
  · rfl

/-! ### Linear kernels -/

theorem center_lin {Z : Data n d} (h : ∀ j, ∑ i, Z i j = 0) : center (linK Z) = linK Z := by
  have h0 : ∀ i, ∑ k, linK Z k i = 0 := fun i => by
    simp only [linK, of_apply]
    rw [Finset.sum_comm]
    refine Finset.sum_eq_zero fun j _ => ?_
    rw [← Finset.sum_mul, h, zero_mul]
  ext i j
  simp only [center, of_apply, h0]
  simp

theorem sumProd_lin (U : Data n d) (W : Data n e) : sumProd (linK U) (linK W) = ∑ c, ∑ c', (∑ i, U i c * W i c') ^ 2 := by
  simp only [sumProd, linK, of_apply, sq, Finset.sum_mul_sum]
  have : ∀ i j, (∑ c, ∑ c', U i c * U j c * (W i c' * W j c')) = ∑ c, ∑ c', U i c * W i c' * (U j c * W j c') :=
    fun i j => Finset.sum_congr rfl fun c _ => Finset.sum_congr rfl fun c' _ => by ring
  simp only [this]
  calc _ = ∑ i, ∑ c, ∑ j, ∑ c', U i c * W i c' * (U j c * W j c') := Finset.sum_congr rfl fun i _ => Finset.sum_comm
    _ = ∑ c, ∑ i, ∑ j, ∑ c', U i c * W i c' * (U j c * W j c') := Finset.sum_comm
    _ = ∑ c, ∑ i, ∑ c', ∑ j, U i c * W i c' * (U j c * W j c') :=
        Finset.sum_congr rfl fun c _ => Finset.sum_congr rfl fun i _ => Finset.sum_comm
    _ = _ := Finset.sum_congr rfl fun c _ => Finset.sum_comm

/-! ### When the centred matrix vanishes -/

/-- Every row is the same. -/
def ConstData (X : Data n d) : Prop := ∀ i k j, X i j = X k j

theorem zscore_const {X : Data n d} : ConstData (zscore X) ↔ ConstData X := by
  constructor
  · intro h i k j
    have h1 := h i k j
    simp only [zscore] at h1
    by_contra hne
    have hn : 0 < n := i.pos
    have hik : i ≠ k := by rintro rfl; exact hne rfl
    have hn2 : 2 ≤ n := by
      by_contra hlt
      exact hik (Fin.ext (by omega))
    have hn1 : (0 : ℝ) < (n : ℝ) - 1 := by
      have : (2 : ℝ) ≤ n := by exact_mod_cast hn2
      linarith
    have hv : 0 < colVar X j := by
      refine div_pos ?_ hn1
      refine lt_of_le_of_ne (Finset.sum_nonneg fun i _ => sq_nonneg _) fun h0 => hne ?_
      have := (Finset.sum_eq_zero_iff_of_nonneg fun i _ => sq_nonneg (X i j - colMean X j)).1 h0.symm
      have hi := this i (Finset.mem_univ _)
      have hk := this k (Finset.mem_univ _)
      have hi := pow_eq_zero_iff (two_ne_zero) |>.1 hi
      have hk := pow_eq_zero_iff (two_ne_zero) |>.1 hk
      linarith
    have hs := Real.sqrt_pos.2 hv
    rw [div_left_inj' hs.ne'] at h1
    exact hne (by linarith)
  · intro h i k j
    simp only [zscore, h i k j]

/-- The kernel matrix separates any two different rows. -/
theorem quad_pair {K : Mat n} (hs : Kᵀ = K) (h0 : center K = 0) (i k : Fin n) : K i i + K k k - 2 * K i k = 0 := by
  have h1 : center K i i + center K k k - center K i k - center K k i = 0 := by rw [h0]; simp
  have hsym : K k i = K i k := by rw [← transpose_apply K, hs]
  simp only [center, of_apply] at h1
  rw [hsym] at h1
  linear_combination h1

theorem sqDist_zero {Z : Data n d} {i k : Fin n} (h : sqDist Z i k = 0) (j : Fin d) : Z i j = Z k j := by
  have := (Finset.sum_eq_zero_iff_of_nonneg fun j _ => sq_nonneg (Z i j - Z k j)).1 h j (Finset.mem_univ _)
  have := pow_eq_zero_iff (two_ne_zero) |>.1 this
  linarith

theorem center_ones (c : ℝ) : center (of fun _ _ => c : Mat n) = 0 := by
  ext i j
  have hn : (n : ℝ) ≠ 0 := by have := i.pos; positivity
  simp only [center, of_apply, Finset.sum_const, Finset.card_univ, Fintype.card_fin, nsmul_eq_mul, Matrix.zero_apply]
  field_simp
  ring

theorem center_gauss {θ : ℝ} (hθ : 0 < θ) {Z : Data n d} : center (gaussK θ Z) = 0 ↔ ConstData Z := by
  constructor
  · intro h i k j
    have := quad_pair (symm_of_psd (psd_gauss hθ.le Z)) h i k
    rw [gauss_diag, gauss_diag] at this
    have h1 : gaussK θ Z i k = 1 := by linarith
    simp only [gaussK, of_apply, Real.exp_eq_one_iff] at h1
    refine sqDist_zero ?_ j
    rcases mul_eq_zero.1 h1 with h2 | h2
    · rcases mul_eq_zero.1 h2 with h3 | h3
      · norm_num at h3
      · exact h3
    · exact absurd h2 hθ.ne'
  · intro h
    have : gaussK θ Z = of fun _ _ => 1 := by
      ext i k
      have : sqDist Z i k = 0 := Finset.sum_eq_zero fun j _ => by rw [h i k j]; ring
      simp [gaussK, this]
    rw [this]
    exact center_ones 1

theorem linK_const {Z : Data n d} (h : ConstData Z) (i k i' k' : Fin n) : linK Z i k = linK Z i' k' := by
  simp only [linK, of_apply]
  exact Finset.sum_congr rfl fun j _ => by rw [h i i' j, h k k' j]

theorem center_lin_zero {Z : Data n d} : center (linK Z) = 0 ↔ ConstData Z := by
  constructor
  · intro h i k j
    have := quad_pair (symm_of_psd (psd_lin Z)) h i k
    exact sqDist_zero (by rw [sqDist_eq]; exact this) j
  · intro h
    rcases Nat.eq_zero_or_pos n with rfl | hn
    · ext i; exact i.elim0
    have : linK Z = of fun _ _ => linK Z ⟨0, hn⟩ ⟨0, hn⟩ := by ext i k; exact linK_const h _ _ _ _
    rw [this]
    exact center_ones _

theorem poly_ge_lin (p : Nat) (hp : 1 ≤ p) (Z : Data n d) : (polyK p 1 Z - linK Z).PosSemidef := by
  induction p, hp using Nat.le_induction with
  | base =>
    have : polyK 1 1 Z - linK Z = ones n := by ext i j; simp [polyK, linK, ones]
    rw [this]; exact psd_ones
  | succ p hp ih =>
    have e : polyK (p + 1) 1 Z - linK Z = (polyK p 1 Z - linK Z) + polyK p 1 Z ⊙ linK Z := by
      ext i j
      simp only [polyK, linK, hadamard_apply, Matrix.sub_apply, Matrix.add_apply, of_apply]
      ring
    rw [e]
    exact ih.add (psd_had (psd_poly p zero_le_one Z) (psd_lin Z))

theorem center_poly {p : Nat} (hp : 1 ≤ p) {Z : Data n d} : center (polyK p 1 Z) = 0 ↔ ConstData Z := by
  constructor
  · intro h
    have hd : center (polyK p 1 Z) = center (linK Z) + center (polyK p 1 Z - linK Z) := by
      ext i j
      simp only [center, of_apply, Matrix.add_apply, Matrix.sub_apply, Finset.sum_sub_distrib]
      ring
    have h1 := psd_center (psd_lin Z)
    have h2 := psd_center (poly_ge_lin p hp Z)
    rw [h] at hd
    have ht : trace (center (linK Z)) + trace (center (polyK p 1 Z - linK Z)) = 0 := by
      rw [← trace_add, ← hd, trace_zero]
    have ht1 := h1.trace_nonneg
    have ht2 := h2.trace_nonneg
    exact center_lin_zero.1 (eq_zero_of_trace h1 (by linarith))
  · intro h
    rcases Nat.eq_zero_or_pos n with rfl | hn
    · ext i; exact i.elim0
    have : polyK p 1 Z = of fun _ _ => (1 + linK Z ⟨0, hn⟩ ⟨0, hn⟩) ^ p := by
      ext i k
      have := linK_const h i k ⟨0, hn⟩ ⟨0, hn⟩
      simp only [linK, of_apply] at this
      simp only [polyK, linK, of_apply, this]
    rw [this]
    exact center_ones _

/-! ### Widths -/

theorem posDists_pos {X : Data n d} {r : List (Fin n)} {t : ℝ} (h : t ∈ posDists X r) : 0 < t := by
  simp only [posDists, List.mem_filter, decide_eq_true_eq] at h
  exact h.2

theorem posDists_nil {X : Data n d} : posDists X (List.finRange n) = [] ↔ ConstData X := by
  rw [List.eq_nil_iff_forall_not_mem]
  simp only [posDists, List.mem_filter, List.mem_flatMap, List.mem_map, List.mem_finRange, true_and, decide_eq_true_eq, not_and]
  constructor
  · intro h i k j
    have h1 := h _ ⟨i, k, rfl⟩
    have h2 : √(sqDist X i k) = 0 := le_antisymm (not_lt.1 h1) (Real.sqrt_nonneg _)
    have h2 := (Real.sqrt_eq_zero (show 0 ≤ sqDist X i k from Finset.sum_nonneg fun j _ => sq_nonneg _)).1 h2
    exact sqDist_zero h2 j
  · rintro h t ⟨i, k, rfl⟩
    have : sqDist X i k = 0 := Finset.sum_eq_zero fun j _ => by rw [h i k j]; ring
    simp [this]

theorem npMedian_pos {l : List ℝ} (h : ∀ t ∈ l, 0 < t) (hne : l ≠ []) : ∃ m, npMedian l = .val m ∧ 0 < m := by
  have hl : 0 < l.length := List.length_pos_iff.2 hne
  have hlen := List.length_insertionSort (· ≤ ·) l
  have hget : ∀ k, k < l.length → 0 < (l.insertionSort (· ≤ ·)).getD k 0 := fun k hk => by
    rw [List.getD_eq_getElem _ _ (by omega)]
    exact h _ ((List.perm_insertionSort _ _).subset (List.getElem_mem _))
  simp only [npMedian, if_neg hne]
  split
  · exact ⟨_, rfl, hget _ (by omega)⟩
  · refine ⟨_, rfl, ?_⟩
    have h1 := hget (l.length / 2 - 1) (by omega)
    have h2 := hget (l.length / 2) (by omega)
    linarith

theorem widthMedian_val (s : List (Fin n)) (X : Data n d) (hn : n ≤ 1000) :
    (ConstData X → widthMedian s X = .nan) ∧ (¬ ConstData X → ∃ θ, widthMedian s X = .val θ ∧ 0 < θ) := by
  have hn' : ¬ n > 1000 := by omega
  simp only [widthMedian, if_neg hn']
  constructor
  · intro h
    rw [posDists_nil.2 h]
    rfl
  · intro h
    obtain ⟨m, hm, hp⟩ := npMedian_pos (fun t ht => posDists_pos ht) (fun h0 => h (posDists_nil.1 h0))
    refine ⟨1 / (√2 * m) ^ 2, by rw [hm]; rfl, by positivity⟩

theorem widthHsic_pos (n d : Nat) (hd : 0 < d) : 0 < widthHsic n d := by
  unfold widthHsic
  have : (0 : ℝ) < d := by exact_mod_cast hd
  split_ifs <;> positivity

theorem widthKci_pos (n d : Nat) (hd : 0 < d) : 0 < widthKci n d := by
  unfold widthKci
  have : (0 : ℝ) < d := by exact_mod_cast hd
  split_ifs <;> positivity

/-! ### Moments -/

/-- `K = V diag(l) Vᵀ` with orthonormal columns of `V`: the numbers `l` are the eigenvalues (with multiplicity). -/
def Eigen (K : Mat n) (l : Fin n → ℝ) : Prop := ∃ V : Mat n, Vᵀ * V = 1 ∧ K = V * diagonal l * Vᵀ

theorem trace_eig {K : Mat n} {l : Fin n → ℝ} (h : Eigen K l) : trace K = ∑ i, l i := by
  obtain ⟨V, hV, rfl⟩ := h
  rw [trace_mul_comm, ← mul_assoc, hV, one_mul, trace_diagonal]

theorem sumSq_eig {K : Mat n} {l : Fin n → ℝ} (h : Eigen K l) : (∑ i, ∑ j, K i j ^ 2) = ∑ i, l i ^ 2 := by
  obtain ⟨V, hV, rfl⟩ := h
  have h1 : (∑ i, ∑ j, (V * diagonal l * Vᵀ) i j ^ 2) = trace ((V * diagonal l * Vᵀ) * (V * diagonal l * Vᵀ)ᵀ) := by
    rw [← sumProd_trace]
    simp only [sumProd, sq]
  rw [h1]
  have h2 : (V * diagonal l * Vᵀ) * (V * diagonal l * Vᵀ)ᵀ = V * (diagonal l * diagonal l * Vᵀ) := by
    simp only [transpose_mul, transpose_transpose, diagonal_transpose]
    calc _ = V * (diagonal l * ((Vᵀ * V) * (diagonal l * Vᵀ))) := by simp only [Matrix.mul_assoc]
      _ = _ := by rw [hV, one_mul]; simp only [Matrix.mul_assoc]
  rw [h2, trace_mul_comm, Matrix.mul_assoc, hV, mul_one, diagonal_mul_diagonal, trace_diagonal]
  exact Finset.sum_congr rfl fun i _ => (sq _).symm

theorem exists_eigen {K : Mat n} (h : Kᵀ = K) : ∃ l, Eigen K l := by
  have hh : K.IsHermitian := by rwa [IsHermitian, conjTranspose_eq_transpose_of_trivial]
  refine ⟨hh.eigenvalues, (hh.eigenvectorUnitary : Mat n), ?_, ?_⟩
  · have := (hh.eigenvectorUnitary).2
    rw [Matrix.mem_unitaryGroup_iff'] at this
    simpa [star_eq_conjTranspose, conjTranspose_eq_transpose_of_trivial] using this
  · have := hh.spectral_theorem
    rw [Unitary.conjStarAlgAut_apply] at this
    simpa [star_eq_conjTranspose, conjTranspose_eq_transpose_of_trivial, Function.comp_def] using this

/-! ### The regression centring -/

theorem kz_posDef {Kz : Mat n} (h : Kz.PosSemidef) {ε : ℝ} (hε : 0 < ε) : (Kz + ε • (1 : Mat n)).PosDef :=
  PosDef.posSemidef_add h (PosDef.one.smul hε)

theorem regR_eq {Kz : Mat n} (h : Kz.PosSemidef) {ε : ℝ} (hε : 0 < ε) : regR ε Kz = 1 - Kz * (Kz + ε • (1 : Mat n))⁻¹ := by
  have hu := (kz_posDef h hε).isUnit
  have h1 : (Kz + ε • (1 : Mat n)) * (Kz + ε • (1 : Mat n))⁻¹ = 1 := Matrix.mul_nonsing_inv _ ((Matrix.isUnit_iff_isUnit_det _).1 hu)
  rw [add_mul, Matrix.smul_mul, one_mul] at h1
  exact eq_sub_of_add_eq' h1

theorem regR_symm {Kz : Mat n} (h : Kzᵀ = Kz) (ε : ℝ) : (regR ε Kz)ᵀ = regR ε Kz := by
  rw [regR, transpose_smul, transpose_nonsing_inv, transpose_add, transpose_smul, transpose_one, h]

theorem psd_reg {K Kz : Mat n} (hK : K.PosSemidef) (hz : Kzᵀ = Kz) (ε : ℝ) : (regCenter ε K Kz).PosSemidef := by
  have := hK.mul_mul_conjTranspose_same (regR ε Kz)
  rw [conjTranspose_eq_transpose_of_trivial, regR_symm hz, mul_assoc] at this
  exact this

theorem regCenter_lin {Kz : Mat n} (hz : Kzᵀ = Kz) (ε : ℝ) (X : Data n d) :
    regCenter ε (linK X) Kz = linK fun i c => ∑ k, regR ε Kz i k * X k c := by
  have e : ∀ {d : Nat} (X : Data n d), linK X = (of X : Matrix (Fin n) (Fin d) ℝ) * (of X)ᵀ := fun X => by ext i j; simp [linK, mul_apply]
  have e2 : (of fun i c => ∑ k, regR ε Kz i k * X k c : Matrix (Fin n) (Fin d) ℝ) = regR ε Kz * of X := by
    ext i c; simp [mul_apply]
  rw [e (fun i c => ∑ k, regR ε Kz i k * X k c), e2, e X, transpose_mul, regR_symm hz, regCenter]
  simp only [Matrix.mul_assoc]

/-! ### The moments of the conditional null -/

theorem list_sum_comm {α β : Type} (l : List α) (m : List β) (f : α → β → ℝ) :
    (l.map fun a => (m.map fun b => f a b).sum).sum = (m.map fun b => (l.map fun a => f a b).sum).sum := by
  induction l with
  | nil => simp
  | cons a l ih => simp only [List.map_cons, List.sum_cons, ih, List.sum_map_add]

theorem list_finset_comm {α : Type} (l : List α) (f : α → Fin n → ℝ) :
    (l.map fun a => ∑ i, f a i).sum = ∑ i, (l.map fun a => f a i).sum := by
  induction l with
  | nil => simp
  | cons a l ih => simp only [List.map_cons, List.sum_cons, ih, Finset.sum_add_distrib]

theorem list_mul_sum {α : Type} (l : List α) (f : α → ℝ) (c : ℝ) : (l.map f).sum * c = (l.map fun a => f a * c).sum := by
  induction l with
  | nil => simp
  | cons a l ih => simp only [List.map_cons, List.sum_cons, add_mul, ih]

/-- `Σ v vᵀ` over a list of vectors. -/
noncomputable def outerSum (l : List (Fin n → ℝ)) (i j : Fin n) : ℝ := (l.map fun v => v i * v j).sum

theorem uuOuter_cols (vx vy : List (Fin n → ℝ)) (i j : Fin n) : uuOuter (uuCols vx vy) i j = outerSum vx i j * outerSum vy i j := by
  simp only [uuOuter, uuCols, outerSum]
  induction vx with
  | nil => simp
  | cons a l ih =>
    simp only [List.flatMap_cons, List.map_append, List.sum_append, ih, List.map_cons, List.sum_cons, add_mul, List.map_map]
    congr 1
    rw [mul_comm, list_mul_sum]
    congr 1
    refine List.map_congr_left fun b _ => ?_
    simp only [Function.comp]
    ring

theorem uuMoments_eq (cols : List (Fin n → ℝ)) :
    uuMoments cols = (∑ i, uuOuter cols i i, 2 * ∑ i, ∑ j, uuOuter cols i j ^ 2) := by
  have hsym : ∀ i j, uuOuter cols i j = uuOuter cols j i := fun i j => by simp only [uuOuter, mul_comm]
  unfold uuMoments
  split
  · congr 2
    exact Finset.sum_congr rfl fun i _ => Finset.sum_congr rfl fun j _ => by rw [hsym j i, sq]
  · congr 1
    · simp only [uuInner, uuOuter]
      exact list_finset_comm _ _
    · congr 1
      have h1 : ∀ c c' : Fin n → ℝ, uuInner c c' * uuInner c' c = ∑ i, ∑ j, c i * c j * (c' i * c' j) := fun c c' => by
        simp only [uuInner, Finset.sum_mul_sum]
        exact Finset.sum_congr rfl fun i _ => Finset.sum_congr rfl fun j _ => by ring
      simp only [h1]
      have h2 : ∀ c : Fin n → ℝ, (cols.map fun c' => ∑ i, ∑ j, c i * c j * (c' i * c' j)).sum = ∑ i, ∑ j, c i * c j * uuOuter cols i j := fun c => by
        rw [list_finset_comm]
        refine Finset.sum_congr rfl fun i _ => ?_
        rw [list_finset_comm]
        refine Finset.sum_congr rfl fun j _ => ?_
        rw [uuOuter, mul_comm (c i * c j), list_mul_sum]
        congr 1
        exact List.map_congr_left fun b _ => by ring
      simp only [h2]
      rw [list_finset_comm]
      refine Finset.sum_congr rfl fun i _ => ?_
      rw [list_finset_comm]
      refine Finset.sum_congr rfl fun j _ => ?_
      rw [← list_mul_sum, sq]
      rfl

end Kci
end CL
