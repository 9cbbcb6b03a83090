import Verif.Model.FastKciNull
import Verif.Props.KciNull
import Verif.Props.FastKci
import Mathlib.LinearAlgebra.Matrix.Rank

/-!
# C221: the simulated null distribution with conditioning: FastKCI, and KCI with few product columns
-/
namespace CL.FastKci
open Kci Matrix MeasureTheory ProbabilityTheory
variable {n d e dz T : Nat}

open Classical in
theorem take_all (l : List ℝ) (hl : l.Pairwise (· ≥ ·)) (h0 : ∀ x ∈ l, 0 ≤ x) (k : Nat) (hk : (l.filter fun t => decide (t ≠ 0)).length ≤ k) :
    (l.take k).sum = l.sum ∧ ((l.take k).map fun t => t ^ 2).sum = (l.map fun t => t ^ 2).sum := by
  induction l generalizing k with
  | nil => simp
  | cons a l ih =>
    have hz : a = 0 → ∀ x ∈ a :: l, x = 0 := by
      intro ha x hx
      rcases List.mem_cons.1 hx with rfl | hx'
      · exact ha
      · have := (List.pairwise_cons.1 hl).1 x hx'
        exact le_antisymm (by rw [← ha]; exact this) (h0 x hx)
    have zsum : ∀ m : List ℝ, (∀ x ∈ m, x = 0) → m.sum = 0 ∧ (m.map fun t => t ^ 2).sum = 0 := by
      intro m hm
      refine ⟨List.sum_eq_zero hm, List.sum_eq_zero fun x hx => ?_⟩
      obtain ⟨y, hy, rfl⟩ := List.mem_map.1 hx
      rw [hm y hy]; norm_num
    by_cases ha : a = 0
    · obtain ⟨h1, h2⟩ := zsum _ (hz ha)
      obtain ⟨h3, h4⟩ := zsum ((a :: l).take k) fun x hx => hz ha x (List.mem_of_mem_take hx)
      exact ⟨h3.trans h1.symm, h4.trans h2.symm⟩
    · rw [List.filter_cons_of_pos (by simpa using ha), List.length_cons] at hk
      cases k with
      | zero => omega
      | succ k =>
        obtain ⟨h1, h2⟩ := ih (List.pairwise_cons.1 hl).2 (fun x hx => h0 x (List.mem_cons_of_mem _ hx)) k (by omega)
        simp only [List.take_succ_cons, List.sum_cons, List.map_cons, h1, h2, and_self]

/-- The matrix whose columns are the list. -/
noncomputable def colM (cols : List (Fin T → ℝ)) : Matrix (Fin T) (Fin cols.length) ℝ := of fun i a => cols.get a i

theorem outer_eq (cols : List (Fin T → ℝ)) : (of fun i j => uuOuter cols i j : Matrix (Fin T) (Fin T) ℝ) = colM cols * (colM cols)ᵀ := by
  ext i j
  simp only [of_apply, mul_apply, transpose_apply, colM, uuOuter]
  rw [← Fin.sum_univ_fun_getElem cols fun c => c i * c j]
  rfl

theorem inner_eq (cols : List (Fin T → ℝ)) :
    (of fun a b => uuInner (cols.get a) (cols.get b) : Matrix (Fin cols.length) (Fin cols.length) ℝ) = (colM cols)ᵀ * colM cols := by
  ext a b
  simp [mul_apply, colM, uuInner]

theorem sumSq_trace {m : Nat} (K : Matrix (Fin m) (Fin m) ℝ) : ∑ i, ∑ j, K i j ^ 2 = trace (K * Kᵀ) := by
  simp [trace, mul_apply, pow_two]

theorem psd_gram {a b : Nat} (A : Matrix (Fin a) (Fin b) ℝ) : (Aᵀ * A).PosSemidef := by
  have := posSemidef_conjTranspose_mul_self A
  rwa [conjTranspose_eq_transpose_of_trivial] at this

open Classical in
theorem count_rank {m : Nat} {K : Matrix (Fin m) (Fin m) ℝ} {l : Fin m → ℝ} (h : Eigen K l) {L : List ℝ} (hL : L.Perm (List.ofFn l)) :
    (L.filter fun t => decide (t ≠ 0)).length = K.rank := by
  obtain ⟨V, hV, rfl⟩ := h
  have hu : IsUnit V.det := by
    have := congrArg det hV
    rw [det_mul, det_transpose, det_one] at this
    exact IsUnit.of_mul_eq_one _ this
  rw [rank_mul_eq_left_of_isUnit_det _ _ (by rwa [det_transpose]), rank_mul_eq_right_of_isUnit_det _ _ hu, rank_diagonal,
    (hL.filter _).length_eq, List.ofFn_eq_map, List.filter_map, List.length_map, Fintype.card_subtype]
  rfl

open Classical in
/-- The weights, from eigenvalues at most `T` of which are non-zero. -/
theorem weights_core {m k : Nat} {K : Matrix (Fin m) (Fin m) ℝ} (hK : K.PosSemidef) (hm : 0 < m) (hk : 0 < k) (hr : K.rank ≤ k) {l : Fin m → ℝ} (hl : Eigen K l)
    {L : List ℝ} (hL : L.Perm (List.ofFn l)) :
    ∃ w, cutOff (1 / 100000) ((sortDown L).take k) = .val w ∧ w.sum ≤ trace K ∧ trace K ≤ w.sum + k * (trace K / 100000) ∧
      2 * (w.map fun t => t ^ 2).sum ≤ 2 * ∑ i, ∑ j, K i j ^ 2 ∧
      2 * ∑ i, ∑ j, K i j ^ 2 ≤ 2 * (w.map fun t => t ^ 2).sum + 2 * (k * (trace K / 100000) ^ 2) := by
  obtain ⟨a1, a2, a3, a4⟩ := perm_facts hL
  have hsp := sortDown_perm L
  have hpos : ∀ x ∈ sortDown L, 0 ≤ x := fun x hx => by
    obtain ⟨i, rfl⟩ := a4 x (hsp.mem_iff.1 hx)
    exact eigen_nonneg hK hl i
  have hcnt : ((sortDown L).filter fun t => decide (t ≠ 0)).length ≤ k := by
    rw [(hsp.filter _).length_eq, count_rank hl hL]; exact hr
  obtain ⟨t1, t2⟩ := take_all (sortDown L) (List.pairwise_insertionSort _ L) hpos k hcnt
  rw [hsp.sum_eq, a2, ← trace_eig hl] at t1
  rw [(hsp.map _).sum_eq, a3, ← sumSq_eig hl] at t2
  set S := (sortDown L).take k with hS
  have hSpos : ∀ x ∈ S, 0 ≤ x := fun x hx => hpos x (List.mem_of_mem_take hx)
  have hne : S ≠ [] := by
    intro h
    have : S.length = 0 := by rw [h]; rfl
    rw [hS, List.length_take, hsp.length_eq, a1] at this
    omega
  obtain ⟨hM, -⟩ := npMax_spec hne
  have hM0 := hSpos _ hM
  have hMt : npMax S ≤ trace K := by rw [← t1]; exact List.single_le_sum hSpos _ hM
  have hlen : (S.length : ℝ) ≤ k := by
    have : S.length ≤ k := List.length_take_le _ _
    exact_mod_cast this
  obtain ⟨c1, c2, c3, c4⟩ := cut_sum S (c := npMax S * (1 / 100000)) (by positivity) hSpos
  rw [t1] at c1 c2
  rw [t2] at c3 c4
  refine ⟨S.filter fun t => decide (t > npMax S * (1 / 100000)), by unfold cutOff; rw [if_neg hne], c1, c2.trans ?_, by linarith, ?_⟩
  · have : (S.length : ℝ) * (npMax S * (1 / 100000)) ≤ k * (trace K / 100000) := mul_le_mul hlen (by linarith) (by positivity) (by positivity)
    linarith
  · have h2 : (npMax S * (1 / 100000)) ^ 2 ≤ (trace K / 100000) ^ 2 := pow_le_pow_left₀ (by positivity) (by linarith) 2
    have : (S.length : ℝ) * (npMax S * (1 / 100000)) ^ 2 ≤ k * (trace K / 100000) ^ 2 := mul_le_mul hlen h2 (by positivity) (by positivity)
    linarith

/-- `eigvalsh`: the eigenvalues of every symmetric matrix, with multiplicity, in some order. -/
def EigSpec (eigs : (m : Nat) → Matrix (Fin m) (Fin m) ℝ → List ℝ) : Prop :=
  ∀ m (K : Matrix (Fin m) (Fin m) ℝ), Kᵀ = K → ∃ l, Eigen K l ∧ (eigs m K).Perm (List.ofFn l)

theorem eigSpec_exists : ∃ eigs, EigSpec eigs := by
  classical
  refine ⟨fun m K => if h : Kᵀ = K then List.ofFn (exists_eigen h).choose else [], fun m K h => ⟨_, (exists_eigen h).choose_spec, ?_⟩⟩
  simp only [dif_pos h]
  exact List.Perm.refl _

/-- **C221** (the weights of a block of `T` samples of a sample of `n`, whichever of the two matrices is formed): the simulated statistic's mean `Σ w` and variance `2 Σ w²` are those of
the gamma approximation, up to the discarded eigenvalues. With `T = n` this is KCI. -/
theorem C221_weights (eigs : (m : Nat) → Matrix (Fin m) (Fin m) ℝ → List ℝ) (he : EigSpec eigs) (hT : 0 < T) (hTn : T ≤ n) (cols : List (Fin T → ℝ)) (hc : cols ≠ []) :
    ∃ w, weightsC T cols.length (uuEigs eigs n cols) = .val w ∧ w.sum ≤ (uuMoments cols).1 ∧ (uuMoments cols).1 ≤ w.sum + T * ((uuMoments cols).1 / 100000) ∧
      2 * (w.map fun t => t ^ 2).sum ≤ (uuMoments cols).2 ∧
      (uuMoments cols).2 ≤ 2 * (w.map fun t => t ^ 2).sum + 2 * (T * ((uuMoments cols).1 / 100000) ^ 2) := by
  have hlen : 0 < cols.length := List.length_pos_iff.2 hc
  have m1 : (uuMoments cols).1 = trace (colM cols * (colM cols)ᵀ) := by rw [uuMoments_eq, ← outer_eq]; rfl
  have m2 : (uuMoments cols).2 = 2 * ∑ i, ∑ j, (colM cols * (colM cols)ᵀ) i j ^ 2 := by rw [uuMoments_eq, ← outer_eq]; rfl
  rw [m1, m2]
  have hk : 0 < min T cols.length := lt_min hT hlen
  have hkT : ((min T cols.length : Nat) : ℝ) ≤ T := by exact_mod_cast min_le_left _ _
  have fin : ∀ {a b : ℝ} (w : List ℝ), 0 ≤ a → (w.sum ≤ a ∧ a ≤ w.sum + (min T cols.length : Nat) * (a / 100000) ∧ 2 * (w.map fun t => t ^ 2).sum ≤ 2 * b ∧
      2 * b ≤ 2 * (w.map fun t => t ^ 2).sum + 2 * ((min T cols.length : Nat) * (a / 100000) ^ 2)) →
      w.sum ≤ a ∧ a ≤ w.sum + T * (a / 100000) ∧ 2 * (w.map fun t => t ^ 2).sum ≤ 2 * b ∧ 2 * b ≤ 2 * (w.map fun t => t ^ 2).sum + 2 * (T * (a / 100000) ^ 2) := by
    rintro a b w ha ⟨h1, h2, h3, h4⟩
    have e1 : ((min T cols.length : Nat) : ℝ) * (a / 100000) ≤ T * (a / 100000) := mul_le_mul_of_nonneg_right hkT (by positivity)
    have e2 : ((min T cols.length : Nat) : ℝ) * (a / 100000) ^ 2 ≤ T * (a / 100000) ^ 2 := mul_le_mul_of_nonneg_right hkT (by positivity)
    exact ⟨h1, by linarith, h3, by linarith⟩
  have hpsd : (colM cols * (colM cols)ᵀ).PosSemidef := by
    have := psd_gram (colM cols)ᵀ
    rwa [transpose_transpose] at this
  have htr : 0 ≤ trace (colM cols * (colM cols)ᵀ) := hpsd.trace_nonneg
  unfold weightsC uuEigs
  by_cases h : cols.length > n
  · rw [if_pos h, outer_eq]
    obtain ⟨l, hl, hp⟩ := he T (colM cols * (colM cols)ᵀ) (by rw [transpose_mul, transpose_transpose])
    obtain ⟨w, hw, hb⟩ := weights_core hpsd hT hk ((rank_le_height _).trans (by omega)) hl hp
    exact ⟨w, hw, fin w htr hb⟩
  · rw [if_neg h, inner_eq]
    obtain ⟨l, hl, hp⟩ := he cols.length ((colM cols)ᵀ * colM cols) (by rw [transpose_mul, transpose_transpose])
    have hrank : ((colM cols)ᵀ * colM cols).rank ≤ min T cols.length :=
      le_min ((rank_mul_le_right _ _).trans (rank_le_height _)) (rank_le_height _)
    obtain ⟨w, hw, hb⟩ := weights_core (psd_gram _) hlen hk hrank hl hp
    rw [trace_mul_comm] at hb
    have hsq : ∑ i, ∑ j, ((colM cols)ᵀ * colM cols) i j ^ 2 = ∑ i, ∑ j, (colM cols * (colM cols)ᵀ) i j ^ 2 := by
      rw [sumSq_trace, sumSq_trace]
      simp only [transpose_mul, transpose_transpose]
      rw [Matrix.mul_assoc, trace_mul_comm]
      simp only [Matrix.mul_assoc]
    rw [hsq] at hb
    exact ⟨w, hw, fin w htr hb⟩

/-- **C221** (KCI, conditional, approx=False): the case left open by C219, and the other one. -/
theorem C221_kci (eigs : (m : Nat) → Matrix (Fin m) (Fin m) ℝ → List ℝ) (he : EigSpec eigs) (hn : 0 < n) (cols : List (Fin n → ℝ)) (hc : cols ≠ []) :
    ∃ w, weightsC n cols.length (uuEigs eigs n cols) = .val w ∧ (1 - n / 100000) * (uuMoments cols).1 ≤ w.sum ∧ w.sum ≤ (uuMoments cols).1 := by
  obtain ⟨w, hw, h1, h2, -⟩ := C221_weights eigs he hn le_rfl cols hc
  exact ⟨w, hw, by linarith, h1⟩

theorem moments_nonneg (cols : List (Fin T → ℝ)) : 0 ≤ (uuMoments cols).1 := by
  rw [uuMoments_eq]
  dsimp only
  refine Finset.sum_nonneg fun i _ => ?_
  show (0 : ℝ) ≤ (List.map _ cols).sum
  refine List.sum_nonneg fun x hx => ?_
  obtain ⟨c, -, rfl⟩ := List.mem_map.1 hx
  exact mul_self_nonneg _

theorem block_le (P : Fin n → Nat) (rows : List (Fin n)) (h : rows ∈ bigBlocks P) : 0 < rows.length ∧ rows.length ≤ n := by
  unfold bigBlocks at h
  rw [List.mem_filter, List.mem_map] at h
  obtain ⟨⟨k, -, rfl⟩, h6⟩ := h
  refine ⟨?_, ?_⟩
  · simp at h6; omega
  · unfold block
    exact (List.length_filter_le _ _).trans (List.length_finRange).le

/-- **C221**: when no block is degenerate (in each some product column exists), the null statistic that FastKCI simulates for a partition has, for draws of mean 1, the mean of the sum over
the blocks of the gamma approximations' means, up to a factor between `1 - n/100000` and 1. -/
theorem C221_mean {Ω : Type} [MeasurableSpace Ω] (μ : Measure Ω) [IsProbabilityMeasure μ] (eig : (m : Nat) → Matrix (Fin m) (Fin m) ℝ → List (ℝ × (Fin m → ℝ)))
    (eigs : (m : Nat) → Matrix (Fin m) (Fin m) ℝ → List ℝ) (he : EigSpec eigs) (X : Data n d) (Y : Data n e) (Z : Data n dz) (P : Fin n → Nat)
    (f : List (Fin n) → Nat → Nat → Ω → ℝ) (hf : ∀ rows r s, Integrable (f rows r s) μ) (h1 : ∀ rows r s, ∫ ω, f rows r s ω ∂μ = 1)
    (hc : ∀ rows ∈ bigBlocks P, blockCols eig X Y Z rows ≠ []) :
    ∃ w : List (Fin n) → List ℝ, (∀ rows ∈ bigBlocks P, blockWeightsC eig eigs X Y Z rows = .val (w rows)) ∧ ∀ s,
      (1 - n / 100000) * ((bigBlocks P).map fun rows => (uuMoments (blockCols eig X Y Z rows)).1).sum ≤
          ∫ ω, nullC w (fun rows r s => f rows r s ω) P s ∂μ ∧
        ∫ ω, nullC w (fun rows r s => f rows r s ω) P s ∂μ ≤ ((bigBlocks P).map fun rows => (uuMoments (blockCols eig X Y Z rows)).1).sum := by
  classical
  have hex : ∀ rows : List (Fin n), ∃ w, rows ∈ bigBlocks P → blockWeightsC eig eigs X Y Z rows = .val w ∧
      (1 - n / 100000) * (uuMoments (blockCols eig X Y Z rows)).1 ≤ w.sum ∧ w.sum ≤ (uuMoments (blockCols eig X Y Z rows)).1 := by
    intro rows
    by_cases h : rows ∈ bigBlocks P
    · obtain ⟨b1, b2⟩ := block_le P rows h
      obtain ⟨w, hw, c1, c2, -⟩ := C221_weights eigs he b1 b2 (blockCols eig X Y Z rows) (hc rows h)
      refine ⟨w, fun _ => ⟨hw, ?_, c1⟩⟩
      have hm0 := moments_nonneg (blockCols eig X Y Z rows)
      have : (rows.length : ℝ) * ((uuMoments (blockCols eig X Y Z rows)).1 / 100000) ≤ n * ((uuMoments (blockCols eig X Y Z rows)).1 / 100000) :=
        mul_le_mul_of_nonneg_right (by exact_mod_cast b2) (by positivity)
      linarith
    · exact ⟨[], fun h' => absurd h' h⟩
  choose w hw using hex
  refine ⟨w, fun rows h => (hw rows h).1, fun s => ?_⟩
  have hdraw : ∀ rows, Integrable (fun ω => nullDraw (w rows) fun r => f rows r s ω) μ ∧ ∫ ω, nullDraw (w rows) (fun r => f rows r s ω) ∂μ = (w rows).sum := by
    intro rows
    have hsum : (∑ r : Fin (w rows).length, (w rows)[r]) = (w rows).sum := by simp [Fin.sum_univ_getElem]
    have hi : ∀ r ∈ (Finset.univ : Finset (Fin (w rows).length)), Integrable (fun ω => (w rows)[r] * f rows r s ω) μ := fun r _ => (hf rows r s).const_mul _
    refine ⟨integrable_finset_sum _ hi, ?_⟩
    have := integral_finset_sum (μ := μ) (f := fun (r : Fin (w rows).length) ω => (w rows)[r] * f rows r s ω) Finset.univ hi
    simp only [integral_const_mul, h1, mul_one] at this
    rw [hsum] at this
    exact this
  have hint : ∀ B : List (List (Fin n)), Integrable (fun ω => (B.map fun rows => nullDraw (w rows) fun r => f rows r s ω).sum) μ ∧
      ∫ ω, (B.map fun rows => nullDraw (w rows) fun r => f rows r s ω).sum ∂μ = (B.map fun rows => (w rows).sum).sum := by
    intro B
    induction B with
    | nil => simp
    | cons b B ih =>
      simp only [List.map_cons, List.sum_cons]
      exact ⟨(hdraw b).1.add ih.1, by rw [integral_add (hdraw b).1 ih.1, (hdraw b).2, ih.2]⟩
  unfold nullC
  rw [(hint _).2]
  have hb : ∀ B : List (List (Fin n)), (∀ rows ∈ B, rows ∈ bigBlocks P) →
      (1 - n / 100000) * (B.map fun rows => (uuMoments (blockCols eig X Y Z rows)).1).sum ≤ (B.map fun rows => (w rows).sum).sum ∧
        (B.map fun rows => (w rows).sum).sum ≤ (B.map fun rows => (uuMoments (blockCols eig X Y Z rows)).1).sum := by
    intro B
    induction B with
    | nil => intro; simp
    | cons b B ih =>
      intro h
      obtain ⟨i1, i2⟩ := ih fun r hr => h r (List.mem_cons_of_mem _ hr)
      obtain ⟨-, j1, j2⟩ := hw b (h b List.mem_cons_self)
      simp only [List.map_cons, List.sum_cons, mul_add]
      exact ⟨by linarith, by linarith⟩
  exact hb _ fun _ h => h

/-- **C221, violated when `y` is constant within a block** (as a discrete variable can be): there are no eigenvalues, and the maximum of an empty array raises, so the whole test does. -/
theorem C221_constant_violated (eig : (m : Nat) → Matrix (Fin m) (Fin m) ℝ → List (ℝ × (Fin m → ℝ))) (heig : ∀ m, ∀ p ∈ eig m 0, p.1 = 0)
    (eigs : (m : Nat) → Matrix (Fin m) (Fin m) ℝ → List ℝ) (X : Data n d) (Y : Data n e) (Z : Data n dz) (hz : 0 < dz) (rows : List (Fin n))
    (hY : ConstData (restrict Y rows)) : blockWeightsC eig eigs X Y Z rows = .raises := by
  classical
  have h0 : blockCols eig X Y Z rows = [] := by
    unfold blockCols kernelsC
    dsimp only
    rw [(center_gauss (widthKci_pos rows.length dz hz)).2 (zscore_const.2 hY), Matrix.zero_mul, Matrix.mul_zero]
    have e2 : scaled (eig rows.length (0 : Matrix (Fin rows.length) (Fin rows.length) ℝ)) = [] := by
      unfold scaled
      have : ((eig rows.length 0).map Prod.fst).foldl max ((((eig rows.length 0).map Prod.fst).head?).getD 0) = 0 :=
        npMax_zero (l := (eig rows.length 0).map Prod.fst) fun x hx => by obtain ⟨q, hq, rfl⟩ := List.mem_map.1 hx; exact heig _ q hq
      rw [this, List.map_eq_nil_iff, List.filter_eq_nil_iff]
      intro q hq
      simp [heig _ q hq]
    rw [e2]
    simp [uuCols]
  unfold blockWeightsC
  rw [h0]
  simp [weightsC, cutOff]

/-- The hypotheses are met: `eigvalsh` exists, and there are integrable draws of mean 1. -/
theorem C221_case : (∃ eigs, EigSpec eigs) ∧ ∃ (Ω : Type) (_ : MeasurableSpace Ω) (μ : Measure Ω) (_ : IsProbabilityMeasure μ)
    (f : List (Fin 7) → Nat → Nat → Ω → ℝ), (∀ rows r s, Integrable (f rows r s) μ) ∧ ∀ rows r s, ∫ ω, f rows r s ω ∂μ = 1 := by
  refine ⟨eigSpec_exists, ?_⟩
  obtain ⟨Ω, i1, μ, i2, f, h1, -, h2, -⟩ := C219_mean_variance_case
  exact ⟨Ω, i1, μ, i2, fun _ r _ => f r, fun _ r _ => (h1 r).integrable (by norm_num), fun _ r _ => h2 r⟩

/-- A block with a product column: seven samples, both variables equal to the identity's columns. -/
example : (uuCols [fun i : Fin 7 => if i = 0 then (1 : ℝ) else 0] [fun _ => 2]).length = 1 ∧
    (uuMoments (uuCols [fun i : Fin 7 => if i = 0 then (1 : ℝ) else 0] [fun _ => 2])).1 = 4 := by
  refine ⟨rfl, ?_⟩
  rw [uuMoments_eq]
  simp [uuOuter, uuCols, Fin.sum_univ_succ]
  norm_num

end CL.FastKci
