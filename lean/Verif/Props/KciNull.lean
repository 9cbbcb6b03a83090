import Verif.Model.KciNull
import Verif.Props.Kci
import Mathlib.Probability.Moments.Variance
import Mathlib.Probability.StrongLaw
import Mathlib.Probability.Independence.InfinitePi
import Mathlib.Probability.Distributions.Gaussian.Real

/-!
# C219: the simulated null distribution of the kernel tests (`approx = False`)

`Eigen K l`: `l` lists the eigenvalues of the symmetric matrix `K`; `eigvalsh` returns them in some order (`lx.Perm (List.ofFn l)`).
-/
namespace CL
namespace Kci
open Matrix MeasureTheory ProbabilityTheory
variable {n d e : Nat}

/-! ### Lists -/

theorem npMax_spec {l : List ℝ} (h : l ≠ []) : npMax l ∈ l ∧ ∀ x ∈ l, x ≤ npMax l := by
  cases l with
  | nil => exact absurd rfl h
  | cons a l =>
    have key : ∀ (l : List ℝ) (b : ℝ), l.foldl max b ∈ b :: l ∧ b ≤ l.foldl max b ∧ ∀ x ∈ l, x ≤ l.foldl max b := by
      intro l
      induction l with
      | nil => intro b; simp
      | cons c l ih =>
        intro b
        obtain ⟨h1, h2, h3⟩ := ih (max b c)
        simp only [List.foldl_cons]
        refine ⟨?_, (le_max_left _ _).trans h2, ?_⟩
        · rcases List.mem_cons.1 h1 with h | h
          · rw [h]
            rcases max_choice b c with h | h <;> rw [h] <;> simp
          · exact List.mem_cons_of_mem _ (List.mem_cons_of_mem _ h)
        · intro x hx
          rcases List.mem_cons.1 hx with rfl | hx
          · exact (le_max_right _ _).trans h2
          · exact h3 x hx
    have e : npMax (a :: l) = l.foldl max a := by
      unfold npMax
      simp
    rw [e]
    obtain ⟨h1, h2, h3⟩ := key l a
    refine ⟨h1, fun x hx => ?_⟩
    rcases List.mem_cons.1 hx with rfl | hx
    · exact h2
    · exact h3 x hx

open Classical in
theorem cut_sum (l : List ℝ) {c : ℝ} (hc : 0 ≤ c) (h : ∀ x ∈ l, 0 ≤ x) :
    (l.filter fun t => decide (t > c)).sum ≤ l.sum ∧ l.sum ≤ (l.filter fun t => decide (t > c)).sum + l.length * c ∧
      ((l.filter fun t => decide (t > c)).map fun t => t ^ 2).sum ≤ (l.map fun t => t ^ 2).sum ∧
      (l.map fun t => t ^ 2).sum ≤ ((l.filter fun t => decide (t > c)).map fun t => t ^ 2).sum + l.length * c ^ 2 := by
  induction l with
  | nil => simp
  | cons a l ih =>
    obtain ⟨i1, i2, i3, i4⟩ := ih fun x hx => h x (List.mem_cons_of_mem _ hx)
    have ha := h a List.mem_cons_self
    by_cases hac : a > c
    · rw [List.filter_cons_of_pos (by simpa using hac)]
      simp only [List.sum_cons, List.map_cons, List.length_cons, Nat.cast_add, Nat.cast_one]
      refine ⟨by linarith, by linarith, by linarith, by nlinarith [sq_nonneg c]⟩
    · rw [List.filter_cons_of_neg (by simpa using hac)]
      simp only [List.sum_cons, List.map_cons, List.length_cons, Nat.cast_add, Nat.cast_one]
      have : a ^ 2 ≤ c ^ 2 := by
        have := not_lt.1 hac
        exact pow_le_pow_left₀ ha this 2
      refine ⟨by linarith, by linarith [not_lt.1 hac], by nlinarith [sq_nonneg a], by linarith⟩

theorem sum_prods (a b : List ℝ) : (a.flatMap fun x => b.map fun y => x * y).sum = a.sum * b.sum := by
  induction a with
  | nil => simp
  | cons x a ih =>
    have : (b.map fun y => x * y).sum = x * b.sum := by
      clear * -
      induction b with
      | nil => simp
      | cons c b ih => simp only [List.map_cons, List.sum_cons, ih]; ring
    simp only [List.flatMap_cons, List.sum_append, ih, List.sum_cons, this]
    ring

theorem sum_sq_prods (a b : List ℝ) : ((a.flatMap fun x => b.map fun y => x * y).map fun t => t ^ 2).sum = (a.map fun t => t ^ 2).sum * (b.map fun t => t ^ 2).sum := by
  induction a with
  | nil => simp
  | cons x a ih =>
    have : ((b.map fun y => x * y).map fun t => t ^ 2).sum = x ^ 2 * (b.map fun t => t ^ 2).sum := by
      rw [List.map_map, ← List.sum_map_mul_left]
      congr 1
      refine List.map_congr_left fun y _ => ?_
      simp [mul_pow]
    simp only [List.flatMap_cons, List.map_append, List.sum_append, ih, List.map_cons, List.sum_cons, this]
    ring

theorem sortDown_perm (l : List ℝ) : (sortDown l).Perm l := List.perm_insertionSort _ l

theorem sum_take_le (l : List ℝ) (k : Nat) (h : ∀ x ∈ l, 0 ≤ x) : 0 ≤ (l.take k).sum ∧ (l.take k).sum ≤ l.sum := by
  have e : (l.take k).sum + (l.drop k).sum = l.sum := List.sum_take_add_sum_drop l k
  have h1 : 0 ≤ (l.take k).sum := List.sum_nonneg fun x hx => h x (List.mem_of_mem_take hx)
  have h2 : 0 ≤ (l.drop k).sum := List.sum_nonneg fun x hx => h x (List.mem_of_mem_drop hx)
  exact ⟨h1, by linarith⟩

/-! ### Eigenvalues -/

theorem eigen_diag {K : Mat n} {l : Fin n → ℝ} (h : Eigen K l) : ∃ V : Mat n, Vᵀ * V = 1 ∧ V * Vᵀ = 1 ∧ Vᵀ * K * V = diagonal l := by
  obtain ⟨V, hV, rfl⟩ := h
  refine ⟨V, hV, mul_eq_one_comm.1 hV, ?_⟩
  rw [← Matrix.mul_assoc, ← Matrix.mul_assoc, hV, Matrix.one_mul, Matrix.mul_assoc, hV, Matrix.mul_one]

theorem eigen_nonneg {K : Mat n} (hK : K.PosSemidef) {l : Fin n → ℝ} (h : Eigen K l) (i : Fin n) : 0 ≤ l i := by
  obtain ⟨V, -, -, hd⟩ := eigen_diag h
  have := (hK.conjTranspose_mul_mul_same V).diag_nonneg (i := i)
  rw [conjTranspose_eq_transpose_of_trivial, hd] at this
  simpa using this

theorem eigen_idem {K : Mat n} (hK : K * K = K) {l : Fin n → ℝ} (h : Eigen K l) (i : Fin n) : l i = 0 ∨ l i = 1 := by
  obtain ⟨V, h1, h2, hd⟩ := eigen_diag h
  have e : diagonal l * diagonal l = diagonal l := by
    rw [← hd]
    calc Vᵀ * K * V * (Vᵀ * K * V) = Vᵀ * K * (V * Vᵀ) * K * V := by simp only [Matrix.mul_assoc]
      _ = Vᵀ * (K * K) * V := by rw [h2]; simp only [Matrix.mul_assoc, Matrix.one_mul]
      _ = _ := by rw [hK]
  have := congrFun (congrFun e i) i
  rw [diagonal_mul_diagonal, diagonal_apply_eq, diagonal_apply_eq] at this
  have : l i * (l i - 1) = 0 := by linarith
  rcases mul_eq_zero.1 this with h | h
  · exact Or.inl h
  · exact Or.inr (by linarith)

theorem eigen_zero {l : Fin n → ℝ} (h : Eigen (0 : Mat n) l) (i : Fin n) : l i = 0 := by
  obtain ⟨V, -, -, hd⟩ := eigen_diag h
  have := congrFun (congrFun hd i) i
  simpa using this.symm

theorem perm_facts {l : Fin n → ℝ} {lx : List ℝ} (h : lx.Perm (List.ofFn l)) :
    lx.length = n ∧ lx.sum = ∑ i, l i ∧ (lx.map fun t => t ^ 2).sum = ∑ i, l i ^ 2 ∧ ∀ x ∈ lx, ∃ i, x = l i := by
  refine ⟨by rw [h.length_eq, List.length_ofFn], by rw [h.sum_eq, List.sum_ofFn], ?_, fun x hx => ?_⟩
  · rw [(h.map _).sum_eq, List.map_ofFn, List.sum_ofFn]
    rfl
  · obtain ⟨i, hi⟩ := List.mem_ofFn.1 (h.mem_iff.1 hx)
    exact ⟨i, hi.symm⟩

/-! ### The weights -/

/-- What the weights are: the products above the threshold, divided by `T`. -/
theorem weightsU_spec (hn : 0 < n) {lx ly : List ℝ} (hlx : lx.length = n) (hly : ly.length = n) (hx : ∀ x ∈ lx, 0 ≤ x) (hy : ∀ y ∈ ly, 0 ≤ y) :
    ∃ w, weightsU n lx ly = .val w ∧ (∀ t ∈ w, 0 ≤ t) ∧
      ∃ M, 0 ≤ M ∧ (∃ x ∈ lx, ∃ y ∈ ly, M = x * y) ∧
        w.sum * n ≤ ((sortDown lx).take (numEig n)).sum * ((sortDown ly).take (numEig n)).sum ∧
        ((sortDown lx).take (numEig n)).sum * ((sortDown ly).take (numEig n)).sum ≤ w.sum * n + (n : ℝ) ^ 2 * (M * (1 / 1000000)) ∧
        (w.map fun t => t ^ 2).sum * (n : ℝ) ^ 2 ≤
          (((sortDown lx).take (numEig n)).map fun t => t ^ 2).sum * (((sortDown ly).take (numEig n)).map fun t => t ^ 2).sum ∧
        (((sortDown lx).take (numEig n)).map fun t => t ^ 2).sum * (((sortDown ly).take (numEig n)).map fun t => t ^ 2).sum ≤
          (w.map fun t => t ^ 2).sum * (n : ℝ) ^ 2 + (n : ℝ) ^ 2 * (M * (1 / 1000000)) ^ 2 := by
  classical
  have hk : 0 < numEig n ∧ numEig n ≤ n := by unfold numEig; split <;> omega
  have hmx : ∀ x ∈ (sortDown lx).take (numEig n), x ∈ lx := fun x h => (sortDown_perm lx).mem_iff.1 (List.mem_of_mem_take h)
  have hmy : ∀ x ∈ (sortDown ly).take (numEig n), x ∈ ly := fun x h => (sortDown_perm ly).mem_iff.1 (List.mem_of_mem_take h)
  have hlenx : ((sortDown lx).take (numEig n)).length = numEig n := by
    rw [List.length_take, (sortDown_perm lx).length_eq, hlx]; exact min_eq_left hk.2
  have hleny : ((sortDown ly).take (numEig n)).length = numEig n := by
    rw [List.length_take, (sortDown_perm ly).length_eq, hly]; exact min_eq_left hk.2
  obtain ⟨P, hP⟩ : ∃ P, P = lambdaProd n lx ly := ⟨_, rfl⟩
  have hmem : ∀ t ∈ P, ∃ x ∈ lx, ∃ y ∈ ly, t = x * y := by
    intro t ht
    rw [hP] at ht
    obtain ⟨x, hx', ht⟩ := List.mem_flatMap.1 ht
    obtain ⟨y, hy', rfl⟩ := List.mem_map.1 ht
    exact ⟨x, hmx x hx', y, hmy y hy', rfl⟩
  have hlen : P.length ≤ n ^ 2 := by
    rw [hP]
    unfold lambdaProd
    rw [List.length_flatMap]
    simp only [List.length_map, hleny, List.map_const', hlenx, List.sum_replicate, smul_eq_mul]
    rw [sq]
    exact Nat.mul_le_mul hk.2 hk.2
  have hne : P ≠ [] := by
    rw [hP]
    intro h
    have : (lambdaProd n lx ly).length = 0 := by rw [h]; rfl
    unfold lambdaProd at this
    rw [List.length_flatMap] at this
    simp only [List.length_map, hleny, List.map_const', hlenx, List.sum_replicate, smul_eq_mul] at this
    exact absurd this (Nat.mul_pos hk.1 hk.1).ne'
  have hpos : ∀ t ∈ P, 0 ≤ t := by
    intro t ht
    obtain ⟨x, hx', y, hy', rfl⟩ := hmem t ht
    exact mul_nonneg (hx x hx') (hy y hy')
  obtain ⟨hM, hMle⟩ := npMax_spec hne
  have hM0 := hpos _ hM
  have hn0 : (0 : ℝ) < n := by exact_mod_cast hn
  have hc : 0 ≤ npMax P * (1 / 1000000) := by positivity
  obtain ⟨c1, c2, c3, c4⟩ := cut_sum P hc hpos
  have hl2 : (P.length : ℝ) ≤ (n : ℝ) ^ 2 := by exact_mod_cast hlen
  have s1 : P.sum = ((sortDown lx).take (numEig n)).sum * ((sortDown ly).take (numEig n)).sum := by rw [hP]; exact sum_prods _ _
  have s2 : (P.map fun t => t ^ 2).sum = (((sortDown lx).take (numEig n)).map fun t => t ^ 2).sum * (((sortDown ly).take (numEig n)).map fun t => t ^ 2).sum := by
    rw [hP]; exact sum_sq_prods _ _
  obtain ⟨Q, hQ⟩ : ∃ Q, Q = P.filter fun t => decide (t > npMax P * (1 / 1000000)) := ⟨_, rfl⟩
  rw [← hQ] at c1 c2 c3 c4
  have e1 : (Q.map fun t => t / (n : ℝ)).sum * n = Q.sum := by
    have : (Q.map fun t => t / (n : ℝ)).sum = Q.sum / n := by
      clear * -
      induction Q with
      | nil => simp
      | cons a Q ih => simp only [List.map_cons, List.sum_cons, ih]; ring
    rw [this]; field_simp
  have e2 : ((Q.map fun t => t / (n : ℝ)).map fun t => t ^ 2).sum * (n : ℝ) ^ 2 = (Q.map fun t => t ^ 2).sum := by
    have : ((Q.map fun t => t / (n : ℝ)).map fun t => t ^ 2).sum = (Q.map fun t => t ^ 2).sum / (n : ℝ) ^ 2 := by
      clear * -
      induction Q with
      | nil => simp
      | cons a Q ih => simp only [List.map_cons, List.sum_cons, ih]; ring
    rw [this]; field_simp
  refine ⟨Q.map fun t => t / n, ?_, ?_, npMax P, hM0, hmem _ hM, ?_⟩
  · unfold weightsU cutOff
    rw [← hP, if_neg hne]
    simp only [Res.bind]
    rw [hQ]
  · intro t ht
    obtain ⟨q, hq, rfl⟩ := List.mem_map.1 ht
    rw [hQ] at hq
    exact div_nonneg (hpos _ (List.mem_of_mem_filter hq)) hn0.le
  · rw [e1, e2, ← s1, ← s2]
    exact ⟨c1, c2.trans (by gcongr), c3, c4.trans (by gcongr)⟩

/-- **C219.** With at most 1000 samples: for centred kernel matrices `A`, `B` (positive semidefinite) with eigenvalues `l`, `m`, the sum of the weights of the chi-squared draws and twice the sum
of their squares are the mean and the variance that the gamma approximation uses, up to the eigenvalue products below a millionth of the largest product `M`. -/
theorem C219_weights {A B : Mat n} (hA : A.PosSemidef) (hB : B.PosSemidef) {l m : Fin n → ℝ} (hl : Eigen A l) (hm : Eigen B m) {lx ly : List ℝ}
    (hlx : lx.Perm (List.ofFn l)) (hly : ly.Perm (List.ofFn m)) (hn : 0 < n) (h1000 : n ≤ 1000) :
    ∃ w, weightsU n lx ly = .val w ∧ (∀ t ∈ w, 0 ≤ t) ∧ ∃ M, (∃ i j, M = l i * m j) ∧
      w.sum ≤ meanAppr A B ∧ meanAppr A B ≤ w.sum + n * M / 1000000 ∧
      2 * (w.map fun t => t ^ 2).sum ≤ varAppr A B ∧ varAppr A B ≤ 2 * (w.map fun t => t ^ 2).sum + 2 * (M / 1000000) ^ 2 := by
  obtain ⟨a1, a2, a3, a4⟩ := perm_facts hlx
  obtain ⟨b1, b2, b3, b4⟩ := perm_facts hly
  obtain ⟨w, h1, h2, M, h3, ⟨x, hx, y, hy, h4⟩, h5, h6, h7, h8⟩ := weightsU_spec hn a1 b1
    (fun x hx => by obtain ⟨i, rfl⟩ := a4 x hx; exact eigen_nonneg hA hl i) (fun x hx => by obtain ⟨i, rfl⟩ := b4 x hx; exact eigen_nonneg hB hm i)
  have hk : numEig n = n := by unfold numEig; rw [if_neg (by omega)]
  have tx : (sortDown lx).take n = sortDown lx := List.take_of_length_le (by rw [(sortDown_perm lx).length_eq, a1])
  have ty : (sortDown ly).take n = sortDown ly := List.take_of_length_le (by rw [(sortDown_perm ly).length_eq, b1])
  rw [hk, tx, ty, (sortDown_perm lx).sum_eq, (sortDown_perm ly).sum_eq, a2, b2] at h5 h6
  rw [hk, tx, ty, ((sortDown_perm lx).map _).sum_eq, ((sortDown_perm ly).map _).sum_eq, a3, b3] at h7 h8
  obtain ⟨i, rfl⟩ := a4 x hx
  obtain ⟨j, rfl⟩ := b4 y hy
  have hn0 : (0 : ℝ) < n := by exact_mod_cast hn
  have em : meanAppr A B * n = (∑ i, l i) * ∑ j, m j := by
    unfold meanAppr
    rw [trace_eig hl, trace_eig hm]
    field_simp
  have ev : varAppr A B * (n : ℝ) ^ 2 = 2 * ((∑ i, l i ^ 2) * ∑ j, m j ^ 2) := by
    unfold varAppr
    rw [sumSq_eig hl, sumSq_eig hm]
    field_simp
  refine ⟨w, h1, h2, M, ⟨i, j, h4⟩, ?_, ?_, ?_, ?_⟩
  · refine le_of_mul_le_mul_right ?_ hn0
    rw [em]; exact h5
  · refine le_of_mul_le_mul_right ?_ hn0
    rw [em]
    calc _ ≤ _ := h6
      _ = _ := by ring
  · refine le_of_mul_le_mul_right ?_ (pow_pos hn0 2)
    rw [ev]
    linarith
  · refine le_of_mul_le_mul_right ?_ (pow_pos hn0 2)
    rw [ev]
    calc _ ≤ _ := mul_le_mul_of_nonneg_left h8 (by norm_num)
      _ = _ := by ring

/-- **C219** (the draws). If the draws are independent with mean 1 and variance 2 (as chi-squared variables with one degree of freedom are), a simulated statistic has the mean `Σ w` and the
variance `2 Σ w²`. -/
theorem C219_mean_variance {Ω : Type} [MeasurableSpace Ω] (μ : Measure Ω) [IsProbabilityMeasure μ] (f : Nat → Ω → ℝ) (hf : ∀ r, MemLp (f r) 2 μ) (hi : iIndepFun f μ)
    (h1 : ∀ r, ∫ ω, f r ω ∂μ = 1) (h2 : ∀ r, variance (f r) μ = 2) (w : List ℝ) :
    ∫ ω, nullDraw w (fun r => f r ω) ∂μ = w.sum ∧ variance (fun ω => nullDraw w fun r => f r ω) μ = 2 * (w.map fun t => t ^ 2).sum := by
  have hsum : (∑ r : Fin w.length, w[r]) = w.sum := by
    simp [Fin.sum_univ_getElem]
  have hsum2 : (∑ r : Fin w.length, w[r] ^ 2) = (w.map fun t => t ^ 2).sum := by
    rw [← List.sum_ofFn]
    congr 1
    refine List.ext_getElem (by simp) fun k h1 h2 => ?_
    simp
  constructor
  · unfold nullDraw
    have := integral_finset_sum (μ := μ) (f := fun (r : Fin w.length) ω => w[r] * f r ω) Finset.univ
      fun r _ => ((hf r).integrable (by norm_num)).const_mul _
    simp only [integral_const_mul, h1, mul_one] at this
    rw [hsum] at this
    exact this
  · have e : (fun ω => nullDraw w fun r => f r ω) = ∑ r : Fin w.length, fun ω => w[r] * f r ω := by
      funext ω
      unfold nullDraw
      rw [Finset.sum_apply]
    have hv := IndepFun.variance_sum (μ := μ) (X := fun (r : Fin w.length) ω => w[r] * f r ω) (s := Finset.univ) (fun r _ => (hf r).const_mul _) ?_
    · rw [e, hv]
      simp only [variance_const_mul, h2]
      rw [← hsum2, Finset.mul_sum]
      exact Finset.sum_congr rfl fun r _ => mul_comm _ _
    · intro r _ s _ hrs
      have := hi.indepFun (i := r) (j := s) fun h => hrs (Fin.ext h)
      exact this.comp (φ := fun t => w[r] * t) (ψ := fun t => w[s] * t) (by fun_prop) (by fun_prop)

/-- Draws with these properties exist. -/
theorem C219_mean_variance_case : ∃ (Ω : Type) (_ : MeasurableSpace Ω) (μ : Measure Ω) (_ : IsProbabilityMeasure μ) (f : Nat → Ω → ℝ),
    (∀ r, MemLp (f r) 2 μ) ∧ iIndepFun f μ ∧ (∀ r, ∫ ω, f r ω ∂μ = 1) ∧ ∀ r, variance (f r) μ = 2 := by
  obtain ⟨P, hP⟩ : ∃ P : Nat → Measure ℝ, P = fun _ => gaussianReal 1 2 := ⟨_, rfl⟩
  haveI : ∀ i, IsProbabilityMeasure (P i) := fun i => by rw [hP]; infer_instance
  have hmp : ∀ r, MeasurePreserving (fun ω : Nat → ℝ => ω r) (Measure.infinitePi P) (P r) := fun r => measurePreserving_eval_infinitePi P r
  refine ⟨Nat → ℝ, inferInstance, Measure.infinitePi P, inferInstance, fun r ω => ω r, fun r => ?_, ?_, fun r => ?_, fun r => ?_⟩
  · have : MemLp (id : ℝ → ℝ) 2 (P r) := by rw [hP]; exact memLp_id_gaussianReal 2
    exact this.comp_measurePreserving (hmp r)
  · exact iIndepFun_infinitePi (P := P) (X := fun _ t => t) fun _ => measurable_id
  · have h := integral_map (μ := Measure.infinitePi P) (hmp r).measurable.aemeasurable (f := fun t : ℝ => t) (by fun_prop)
    rw [(hmp r).map_eq] at h
    rw [← h, hP]
    exact integral_id_gaussianReal
  · have h := variance_map (μ := Measure.infinitePi P) (Y := fun ω : Nat → ℝ => ω r) (X := (id : ℝ → ℝ)) (by fun_prop) (hmp r).measurable.aemeasurable
    rw [(hmp r).map_eq] at h
    show variance (id ∘ fun ω : Nat → ℝ => ω r) _ = 2
    rw [← h, hP]
    simp

open Classical in
/-- **C219** (the p-value). As the number of simulated statistics grows, the p-value tends, with probability 1, to the probability that a simulated statistic exceeds the observed one. -/
theorem C219_pvalue_consistent {Ω : Type} [MeasurableSpace Ω] (μ : Measure Ω) [IsProbabilityMeasure μ] (S : Nat → Ω → ℝ) (hm : ∀ k, Measurable (S k)) (hi : iIndepFun S μ)
    (hd : ∀ k, IdentDistrib (S k) (S 0) μ μ) (t : ℝ) :
    ∀ᵐ ω ∂μ, Filter.Tendsto (fun N => pSim ((List.range N).map fun k => S k ω) t) Filter.atTop (nhds (μ.real {ω | S 0 ω > t})) := by
  have hset : MeasurableSet {x : ℝ | x > t} := measurableSet_Ioi
  have hg : Measurable (Set.indicator {x : ℝ | x > t} fun _ => (1 : ℝ)) := measurable_const.indicator hset
  have h := strong_law_ae_real (μ := μ) (fun k ω => Set.indicator {x : ℝ | x > t} (fun _ => (1 : ℝ)) (S k ω)) ?_ ?_ ?_
  · have e : ∫ ω, Set.indicator {x : ℝ | x > t} (fun _ => (1 : ℝ)) (S 0 ω) ∂μ = μ.real {ω | S 0 ω > t} := by
      have : (fun ω => Set.indicator {x : ℝ | x > t} (fun _ => (1 : ℝ)) (S 0 ω)) = Set.indicator {ω | S 0 ω > t} fun _ => (1 : ℝ) := rfl
      rw [this]
      exact integral_indicator_one (hm 0 hset)
    rw [e] at h
    filter_upwards [h] with ω hω
    refine hω.congr fun N => ?_
    unfold pSim
    simp only [List.length_map, List.length_range]
    congr 1
    induction N with
    | zero => simp
    | succ N ih =>
      rw [Finset.sum_range_succ, ih, List.range_succ, List.map_append, List.filter_append, List.length_append, Nat.cast_add]
      congr 1
      by_cases ht : S N ω > t
      · simp [ht]
      · simp [ht]
  · refine Integrable.of_bound (C := 1) ((hg.comp (hm 0)).aestronglyMeasurable) (Filter.Eventually.of_forall fun ω => ?_)
    by_cases ht : S 0 ω > t <;> simp [Set.indicator, ht]
  · intro i j hij
    exact (hi.indepFun hij).comp hg hg
  · intro k
    exact (hd k).comp hg

/-! ### What fails -/

theorem centering_facts (hn : 0 < n) : centering n * centering n = centering n ∧ (centering n).PosSemidef ∧ trace (centering n) = n - 1 ∧ (centering n)ᵀ = centering n := by
  have hn0 : (n : ℝ) ≠ 0 := by exact_mod_cast hn.ne'
  have h1 : centering n * centering n = centering n := centering_idem n
  have h2 : (centering n)ᵀ = centering n := by
    ext i j
    simp [centering, eq_comm]
  refine ⟨h1, ?_, ?_, h2⟩
  · have := posSemidef_conjTranspose_mul_self (centering n)
    rwa [conjTranspose_eq_transpose_of_trivial, h2, h1] at this
  · simp only [trace, diag, centering, of_apply, if_true, Finset.sum_const, Finset.card_univ, Fintype.card_fin, nsmul_eq_mul]
    field_simp

/-- **C219, violated above 1000 samples.** Only the leading half of the eigenvalues of each matrix is used. For `A = B =` the centring matrix (the centred kernel matrix of a kernel that tells all
samples apart, `K = 1`), the mean of the simulated statistic is at most `n/4`; the mean of the gamma approximation is `(n-1)²/n`. -/
theorem C219_half_violated (hn : 1000 < n) {l m : Fin n → ℝ} (hl : Eigen (centering n) l) (hm : Eigen (centering n) m) {lx ly : List ℝ}
    (hlx : lx.Perm (List.ofFn l)) (hly : ly.Perm (List.ofFn m)) :
    ∃ w, weightsU n lx ly = .val w ∧ w.sum ≤ n / 4 ∧ meanAppr (centering n) (centering n) = (n - 1) ^ 2 / n := by
  obtain ⟨i1, i2, i3, -⟩ := centering_facts (n := n) (by omega)
  obtain ⟨a1, a2, a3, a4⟩ := perm_facts hlx
  obtain ⟨b1, b2, b3, b4⟩ := perm_facts hly
  obtain ⟨w, h1, h2, M, h3, -, h5, -⟩ := weightsU_spec (by omega) a1 b1
    (fun x hx => by obtain ⟨i, rfl⟩ := a4 x hx; exact eigen_nonneg i2 hl i) (fun x hx => by obtain ⟨i, rfl⟩ := b4 x hx; exact eigen_nonneg i2 hm i)
  have hn0 : (0 : ℝ) < n := by exact_mod_cast (by omega : 0 < n)
  have hk : (numEig n : ℝ) ≤ n / 2 := by
    unfold numEig
    rw [if_pos hn]
    exact Nat.cast_div_le
  have bound : ∀ {l : Fin n → ℝ} {lx : List ℝ}, Eigen (centering n) l → lx.Perm (List.ofFn l) → 0 ≤ ((sortDown lx).take (numEig n)).sum ∧ ((sortDown lx).take (numEig n)).sum ≤ n / 2 := by
    intro l lx hl hlx
    have hx : ∀ x ∈ (sortDown lx).take (numEig n), x = 0 ∨ x = 1 := by
      intro x hx
      obtain ⟨i, rfl⟩ := (perm_facts hlx).2.2.2 x ((sortDown_perm lx).mem_iff.1 (List.mem_of_mem_take hx))
      exact eigen_idem i1 hl i
    refine ⟨List.sum_nonneg fun x h => by rcases hx x h with h | h <;> rw [h]; exact zero_le_one, ?_⟩
    have h1 : ((sortDown lx).take (numEig n)).sum ≤ ((sortDown lx).take (numEig n)).length * 1 := by
      have := List.sum_le_card_nsmul ((sortDown lx).take (numEig n)) 1 fun x h => by rcases hx x h with h | h <;> rw [h]; exact zero_le_one
      simpa using this
    have h2 : (((sortDown lx).take (numEig n)).length : ℝ) ≤ numEig n := by exact_mod_cast List.length_take_le _ _
    linarith
  obtain ⟨x0, x1⟩ := bound hl hlx
  obtain ⟨y0, y1⟩ := bound hm hly
  refine ⟨w, h1, ?_, by unfold meanAppr; rw [i3]; ring⟩
  refine le_of_mul_le_mul_right ?_ hn0
  calc _ ≤ _ := h5
    _ ≤ (n / 2) * (n / 2) := mul_le_mul x1 y1 y0 (by positivity)
    _ = _ := by ring

/-- A case: the centring matrix has eigenvalues. -/
example : ∃ l, Eigen (centering 1002) l := exists_eigen (centering_facts (by norm_num)).2.2.2

theorem npMax_zero {l : List ℝ} (h : ∀ x ∈ l, x = 0) : npMax l = 0 := by
  by_cases hl : l = []
  · rw [hl]; rfl
  · exact h _ (npMax_spec hl).1

/-- **C219, violated for a constant variable.** With the default kernels a constant `x` is independent of everything, but no eigenvalue is above the threshold, every simulated statistic is 0, like
the observed one, and the p-value is 0 whatever the draws: dependence is reported with certainty. -/
theorem C219_constant_violated (cdf : ℝ → ℝ → ℝ → ℝ) (eigvals : Mat n → List ℝ) (hlen : ∀ K, (eigvals K).length = n) (h0 : ∀ t ∈ eigvals 0, t = 0) (hn : 0 < n)
    (nullss : Nat) (f : Nat → Nat → ℝ) (X : Data n d) (Y : Data n e) (hd : 0 < d) (hX : ConstData X) :
    (⟨.gaussian, .gaussian, .empirical, 2, none, none, cdf⟩ : UCfg).pSpectral eigvals [] [] nullss f X Y = .val 0 := by
  classical
  unfold UCfg.pSpectral UCfg.kernels
  have hw : (0 : ℝ) < widthHsic n d := by
    unfold widthHsic
    have : (0 : ℝ) < d := by exact_mod_cast hd
    split_ifs <;> positivity
  simp only [kernelOf, thetaU, Res.bind]
  rw [hsicV, (center_gauss hw).2 (zscore_const.2 hX)]
  have hP : ∀ t ∈ lambdaProd n (eigvals 0) (eigvals (center (gaussK (widthHsic n e) (zscore Y)))), t = 0 := by
    intro t ht
    obtain ⟨x, hx, ht⟩ := List.mem_flatMap.1 ht
    obtain ⟨y, -, rfl⟩ := List.mem_map.1 ht
    rw [h0 x ((sortDown_perm _).mem_iff.1 (List.mem_of_mem_take hx)), zero_mul]
  have hne : lambdaProd n (eigvals 0) (eigvals (center (gaussK (widthHsic n e) (zscore Y)))) ≠ [] := by
    intro h
    have hk : 0 < numEig n ∧ numEig n ≤ n := by unfold numEig; split <;> omega
    have hl : ∀ K, ((sortDown (eigvals K)).take (numEig n)).length = numEig n := fun K => by
      rw [List.length_take, (sortDown_perm _).length_eq, hlen]; exact min_eq_left hk.2
    have := congrArg List.length h
    unfold lambdaProd at this
    rw [List.length_flatMap] at this
    simp only [List.length_map, hl, List.map_const', List.sum_replicate, smul_eq_mul, List.length_nil] at this
    exact absurd this (Nat.mul_pos hk.1 hk.1).ne'
  unfold weightsU cutOff
  rw [if_neg hne, npMax_zero hP]
  have hf : (lambdaProd n (eigvals 0) (eigvals (center (gaussK (widthHsic n e) (zscore Y))))).filter (fun t => decide (t > 0 * (1 / 1000000))) = [] := by
    rw [List.filter_eq_nil_iff]
    intro t ht
    simp [hP t ht]
  rw [hf]
  simp [Res.bind, pSim, nullDraw, sumProd]

/-- A case: the zero matrix has only zero eigenvalues. -/
example : ∀ l : Fin 3 → ℝ, Eigen (0 : Mat 3) l → ∀ t ∈ List.ofFn l, t = 0 := fun l h t ht => by
  obtain ⟨i, rfl⟩ := List.mem_ofFn.1 ht
  exact eigen_zero h i

/-- **C219, violated for a constant `y` in the conditional test.** There are no eigenvalues at all, and the maximum of an empty array raises. -/
theorem C219_conditional_violated {dx dy dz : Nat} (cdf : ℝ → ℝ → ℝ → ℝ) (eig : Mat n → List (ℝ × (Fin n → ℝ))) (heig : ∀ p ∈ eig 0, p.1 = 0) (eigUU : List (Fin n → ℝ) → List ℝ)
    (sub : Fin 3 → List (Fin n)) (nullss : Nat) (f : Nat → Nat → ℝ) (X : Data n dx) (Y : Data n dy) (Z : Data n dz) (hz : 0 < dz) (hY : ConstData Y) :
    (defaultC cdf).pSpectral eig eigUU sub nullss f X Y Z = .raises := by
  classical
  unfold CCfg.pSpectral CCfg.kernels
  simp only [defaultC, kernelOf, thetaC, thetaZ, Res.bind]
  rw [(center_gauss (widthKci_pos n dz hz)).2 (zscore_const.2 hY)]
  have e0 : ∀ K : Mat n, regCenter eps 0 K = 0 := fun K => by simp [regCenter]
  simp only [e0]
  have e1 : ((1 / 2 : ℝ) • ((0 : Mat n) + (0 : Mat n)ᵀ)) = 0 := by simp
  rw [e1]
  have e2 : scaled (eig (0 : Mat n)) = [] := by
    unfold scaled
    have : ((eig (0 : Mat n)).map Prod.fst).foldl max ((((eig (0 : Mat n)).map Prod.fst).head?).getD 0) = 0 :=
      npMax_zero (l := (eig (0 : Mat n)).map Prod.fst) fun x hx => by obtain ⟨q, hq, rfl⟩ := List.mem_map.1 hx; exact heig q hq
    rw [this, List.map_eq_nil_iff, List.filter_eq_nil_iff]
    intro q hq
    simp [heig q hq]
  rw [e2]
  have e3 : ∀ vx : List (Fin n → ℝ), uuCols vx [] = [] := fun vx => by simp [uuCols]
  rw [e3]
  simp [weightsC, cutOff]

/-- **C219** (conditional test). When `eigUU` gives the eigenvalues of the `n × n` matrix `uu uuᵀ`, with more columns than samples, the weights have the mean and the variance of the gamma
approximation up to the eigenvalues below a hundred-thousandth of the largest. -/
theorem C219_conditional {cols : List (Fin n → ℝ)} (hc : cols.length > n) (hn : 0 < n) {l : Fin n → ℝ} (hl : Eigen (of (uuOuter cols)) l) {eigs : List ℝ}
    (he : eigs.Perm (List.ofFn l)) : ∃ w, weightsC n cols.length eigs = .val w ∧ ∃ M, (∃ i, M = l i) ∧
      w.sum ≤ (uuMoments cols).1 ∧ (uuMoments cols).1 ≤ w.sum + n * (M / 100000) ∧
      2 * (w.map fun t => t ^ 2).sum ≤ (uuMoments cols).2 ∧ (uuMoments cols).2 ≤ 2 * (w.map fun t => t ^ 2).sum + 2 * (n * (M / 100000) ^ 2) := by
  classical
  obtain ⟨a1, a2, a3, a4⟩ := perm_facts he
  have hpsd : (of (uuOuter cols) : Mat n).PosSemidef := by
    have : (of (uuOuter cols) : Mat n) = (cols.map fun c => (of fun i j => c i * c j : Mat n)).sum := by
      clear hl hc
      induction cols with
      | nil => ext i j; simp [uuOuter]
      | cons c cols ih =>
        rw [List.map_cons, List.sum_cons, ← ih]
        ext i j
        simp [uuOuter]
    rw [this]
    clear hl hc this
    induction cols with
    | nil => exact PosSemidef.zero
    | cons c cols ih => rw [List.map_cons, List.sum_cons]; exact (psd_rank1 c).add ih
  have hpos : ∀ x ∈ eigs, 0 ≤ x := fun x hx => by obtain ⟨i, rfl⟩ := a4 x hx; exact eigen_nonneg hpsd hl i
  have hne : eigs ≠ [] := by
    intro h
    rw [h] at a1
    exact hn.ne a1
  have ht : (sortDown eigs).take (min n cols.length) = sortDown eigs := List.take_of_length_le (by rw [(sortDown_perm _).length_eq, a1]; omega)
  have hsp := sortDown_perm eigs
  have hne' : sortDown eigs ≠ [] := fun h => hne (by rw [h] at hsp; exact hsp.symm.eq_nil)
  obtain ⟨hM, -⟩ := npMax_spec hne'
  obtain ⟨i, hi⟩ := a4 _ (hsp.mem_iff.1 hM)
  have hM0 := hpos _ (hsp.mem_iff.1 hM)
  obtain ⟨c1, c2, c3, c4⟩ := cut_sum (sortDown eigs) (c := npMax (sortDown eigs) * (1 / 100000)) (by positivity) fun x hx => hpos x (hsp.mem_iff.1 hx)
  rw [hsp.sum_eq, a2] at c1 c2
  rw [(hsp.map _).sum_eq, a3] at c3 c4
  rw [hsp.length_eq, a1] at c2 c4
  have m1 : (uuMoments cols).1 = ∑ i, l i := by
    unfold uuMoments
    rw [if_pos hc]
    exact trace_eig hl
  have m2 : (uuMoments cols).2 = 2 * ∑ i, l i ^ 2 := by
    unfold uuMoments
    rw [if_pos hc, ← sumSq_eig hl]
    simp only [of_apply]
    congr 1
    refine Finset.sum_congr rfl fun i _ => Finset.sum_congr rfl fun j _ => ?_
    rw [sq]
    congr 1
    unfold uuOuter
    congr 1
    refine List.map_congr_left fun c _ => mul_comm _ _
  rw [m1, m2]
  refine ⟨(sortDown eigs).filter fun t => decide (t > npMax (sortDown eigs) * (1 / 100000)), ?_, npMax (sortDown eigs), ⟨i, hi⟩, c1, ?_, by linarith, ?_⟩
  · unfold weightsC cutOff
    rw [ht, if_neg hne']
  · calc _ ≤ _ := c2
      _ = _ := by ring
  · calc _ ≤ _ := mul_le_mul_of_nonneg_left c4 (by norm_num)
      _ = _ := by ring

end Kci
end CL
