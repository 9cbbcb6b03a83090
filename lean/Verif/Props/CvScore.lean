import Verif.Proofs.CvScore
import Mathlib.Tactic.FinCases
import Mathlib.Data.Fin.VecNotation

/-!
# C151–C156: the generalised (kernel) scores (`score/LocalScoreFunction.py`)

`Const x`: all samples of the column `x` have the same value.
-/
namespace CL
namespace CvScore
open Matrix Kci
variable {T : Nat}

/-! ## C151: the folds of the cross-validation -/

/-- C151. In every fold the test rows and the training rows together are all rows, each once; the numbers `nv` and `T - nv` the formulas use are their
numbers. -/
theorem C151_fold (T k kk : Nat) (h : kk < k) :
    (testIdx T k kk ++ trainIdx T k kk).Perm (List.finRange T) ∧ (testIdx T k kk).length = nv T k kk ∧
      (trainIdx T k kk).length = T - nv T k kk :=
  ⟨fold_perm h, length_testIdx h, length_trainIdx h⟩

/-- C151. Every sample is a test sample in exactly one fold. -/
theorem C151_each_once (T k : Nat) (hk : 0 < k) (i : Fin T) : ∃! kk, kk < k ∧ i ∈ testIdx T k kk := by
  have hT := i.2
  have hb := lt_n0_mul (T := T) hk
  have hm := n0_mul_le T k
  -- the fold of sample `i`
  obtain ⟨q, hq, hin⟩ : ∃ q < k, i ∈ testIdx T k q := by
    rcases Nat.lt_or_ge i.val (k * n0 T k) with h | h
    · have hp : 0 < n0 T k := by
        rcases Nat.eq_zero_or_pos (n0 T k) with h0 | h0
        · rw [h0, Nat.mul_zero] at h; omega
        · exact h0
      have h1 : i.val / n0 T k < k := (Nat.div_lt_iff_lt_mul hp).2 h
      refine ⟨_, h1, (mem_testIdx h1).2 ⟨Nat.div_mul_le_self _ _, Or.inl ?_⟩⟩
      have h2 := Nat.div_add_mod i.val (n0 T k)
      have h3 := Nat.mod_lt i.val hp
      rw [Nat.mul_comm] at h2; omega
    · have h1 : k - 1 < k := by omega
      refine ⟨k - 1, h1, (mem_testIdx h1).2 ⟨?_, Or.inr ?_⟩⟩
      · have : (k - 1) * n0 T k ≤ k * n0 T k := Nat.mul_le_mul_right _ (by omega)
        omega
      · omega
  refine ⟨q, ⟨hq, hin⟩, ?_⟩
  rintro r ⟨hr, hir⟩
  rw [mem_testIdx hq] at hin
  rw [mem_testIdx hr] at hir
  rcases lt_trichotomy r q with h | h | h
  · exfalso
    have h1 : (r + 1) * n0 T k ≤ q * n0 T k := Nat.mul_le_mul_right _ h
    rw [Nat.add_mul] at h1
    rcases hir.2 with h2 | h2 | h2 <;> omega
  · exact h
  · exfalso
    have h1 : (q + 1) * n0 T k ≤ r * n0 T k := Nat.mul_le_mul_right _ h
    rw [Nat.add_mul] at h1
    rcases hin.2 with h2 | h2 | h2 <;> omega

/-- C151. All folds but the last have `⌊T / k⌋` test samples; the last one has fewer than `k` more. -/
theorem C151_sizes (T k kk : Nat) (h : kk < k) :
    (kk + 1 < k → (testIdx T k kk).length = T / k) ∧ T / k ≤ (testIdx T k kk).length ∧ (testIdx T k kk).length < T / k + k := by
  rw [length_testIdx h]
  have h1 := fold_le (T := T) h
  have h2 := lt_n0_mul (T := T) (k := k) (by omega)
  have e : n0 T k = T / k := rfl
  unfold nv
  split_ifs with h3 h4
  · omega
  · refine ⟨fun _ => by omega, by omega, ?_⟩
    obtain rfl : k = kk + 1 := by omega
    rw [Nat.add_mul] at h2
    omega
  · omega

example : testIdx 7 3 2 = [4, 5, 6] ∧ trainIdx 7 3 1 = [0, 1, 4, 5, 6] := by decide

/-! ## C152: the kernel matrices are not centred -/

/-- what the comment of the source promises: centring makes all row sums zero -/
theorem C152_centred (K : Matrix (Fin T) (Fin T) ℝ) (i : Fin T) : ∑ j, (centering T * K * centering T) i j = 0 := hkh_row K i

theorem hadCenter_entry (K : Matrix (Fin T) (Fin T) ℝ) (i j : Fin T) :
    hadCenter K i j = if i = j then (1 - 1 / (T : ℝ)) ^ 2 * K i j else K i j / (T : ℝ) ^ 2 := by
  simp only [hadCenter, hadamard_apply, centering, of_apply]
  split_ifs
  · ring
  · rw [zero_sub, div_eq_mul_inv, div_eq_mul_inv, ← inv_pow]; ring

/-- C152, violated. `H0 * Kx * H0` is computed entry by entry: the kernel matrix of a variable has `(1 - 1/T)²` on its diagonal, and the other entries are
the (uncentred) kernel divided by `T²`, so every row sum is positive, and the influence of the other samples vanishes as `T` grows. -/
theorem C152_not_centred_violated (f : ℝ) (hT : 2 ≤ T) (x : Col T) (K : Matrix (Fin T) (Fin T) ℝ) (h : kx f x = .val K) (i : Fin T) :
    K i i = (1 - 1 / (T : ℝ)) ^ 2 ∧ (∀ j, j ≠ i → 0 < K i j ∧ K i j ≤ 1 / (T : ℝ) ^ 2) ∧ 0 < ∑ j, K i j := by
  have hT' : (2 : ℝ) ≤ T := by exact_mod_cast hT
  have hTp : (0 : ℝ) < T := by linarith
  unfold kx at h
  cases hm : theta f x with
  | raises => rw [hm] at h; cases h
  | nan => rw [hm] at h; cases h
  | val θ =>
    rw [hm] at h
    cases h
    rw [kern_eq]
    have hθ := theta_nonneg hm
    have hd : hadCenter (gaussK θ fun i (_ : Fin 1) => x i) i i = (1 - 1 / (T : ℝ)) ^ 2 := by
      rw [hadCenter_entry, if_pos rfl, gauss_diag, mul_one]
    have ho : ∀ j, j ≠ i → 0 < hadCenter (gaussK θ fun i (_ : Fin 1) => x i) i j ∧
        hadCenter (gaussK θ fun i (_ : Fin 1) => x i) i j ≤ 1 / (T : ℝ) ^ 2 := by
      intro j hj
      rw [hadCenter_entry, if_neg (Ne.symm hj)]
      obtain ⟨h1, h2⟩ := gauss_entry hθ (fun i (_ : Fin 1) => x i) i j
      exact ⟨by positivity, div_le_div_of_nonneg_right h2 (by positivity)⟩
    refine ⟨hd, ho, ?_⟩
    refine Finset.sum_pos (fun j _ => ?_) ⟨i, Finset.mem_univ _⟩
    by_cases hj : j = i
    · subst hj
      rw [hd]
      have : 1 / (T : ℝ) ≤ 1 / 2 := one_div_le_one_div_of_le (by norm_num) hT'
      have : 0 < 1 - 1 / (T : ℝ) := by linarith
      positivity
    · exact (ho j hj).1

/-- C152, violated. The same for the matrix of the parents. -/
theorem C152_parents_not_centred_violated (f : ℝ) (hT : 2 ≤ T) (pas : List (Col T)) (K : Matrix (Fin T) (Fin T) ℝ) (h : kpa f pas = .val K)
    (i : Fin T) : K i i = (1 - 1 / (T : ℝ)) ^ 2 ∧ (∀ j, j ≠ i → 0 < K i j ∧ K i j ≤ 1 / (T : ℝ) ^ 2) ∧ 0 < ∑ j, K i j := by
  have hT' : (2 : ℝ) ≤ T := by exact_mod_cast hT
  have hTp : (0 : ℝ) < T := by linarith
  obtain ⟨K', hK, rfl⟩ := kpa_ind (fun K => (∀ i, K i i = 1) ∧ ∀ i j, 0 < K i j ∧ K i j ≤ 1) ⟨fun _ => rfl, fun _ _ => by simp⟩
    (fun K θ p hK hθ => by
      rw [kern_eq]
      refine ⟨fun i => ?_, fun i j => ?_⟩
      · rw [hadamard_apply, hK.1, gauss_diag, one_mul]
      · rw [hadamard_apply]
        obtain ⟨h1, h2⟩ := gauss_entry hθ (fun i (_ : Fin 1) => p i) i j
        obtain ⟨h3, h4⟩ := hK.2 i j
        exact ⟨mul_pos h3 h1, mul_le_one₀ h4 h1.le h2⟩) h
  have hd : hadCenter K' i i = (1 - 1 / (T : ℝ)) ^ 2 := by rw [hadCenter_entry, if_pos rfl, hK.1, mul_one]
  have ho : ∀ j, j ≠ i → 0 < hadCenter K' i j ∧ hadCenter K' i j ≤ 1 / (T : ℝ) ^ 2 := by
    intro j hj
    rw [hadCenter_entry, if_neg (Ne.symm hj)]
    obtain ⟨h1, h2⟩ := hK.2 i j
    exact ⟨by positivity, div_le_div_of_nonneg_right h2 (by positivity)⟩
  refine ⟨hd, ho, ?_⟩
  refine Finset.sum_pos (fun j _ => ?_) ⟨i, Finset.mem_univ _⟩
  by_cases hj : j = i
  · subst hj
    rw [hd]
    have : 1 / (T : ℝ) ≤ 1 / 2 := one_div_le_one_div_of_le (by norm_num) hT'
    have : 0 < 1 - 1 / (T : ℝ) := by linarith
    positivity
  · exact (ho j hj).1

/-- a column with two different values -/
def exCol : Col 4 := ![0, 1, 0, 3]

theorem exCol_ok : ¬ Const exCol := fun h => by have := h 0 1; norm_num [exCol] at this

example : ∃ K, kx 2 exCol = .val K := kx_val (by norm_num) exCol_ok

/-! ## C153: when the score is defined -/

/-- the value a fold adds -/
noncomputable def foldVal (lam : ℝ) (Kx Kpa : Matrix (Fin T) (Fin T) ℝ) (noParents : Bool) (k kk : Nat) : ℝ :=
  if noParents then addTerm (nv T k kk) (logChol (matB0 Kx k kk)) (trace (matA0 Kx k kk))
  else addTerm (nv T k kk) (logChol (matB lam Kx Kpa k kk)) (trace (matA lam Kx Kpa k kk))

theorem scoreCV_val (lam : ℝ) (k : Nat) (hk : 2 ≤ k) (hT : k ≤ T) (x : Col T) (pas : List (Col T)) {Kx Kpa : Matrix (Fin T) (Fin T) ℝ}
    (hKx : kx 2 x = .val Kx) (hKpa : kpa 2 pas = .val Kpa) :
    scoreCV lam k x pas = .val ((∑ kk ∈ Finset.range k, foldVal lam Kx Kpa pas.isEmpty k kk) / k) := by
  have px := kx_psd hKx
  have pp := kpa_psd hKpa
  have hk0 : k ≠ 0 := by omega
  unfold scoreCV
  rw [if_neg hk0]
  by_cases h0 : pas = []
  · rw [if_pos h0, hKx, h0]
    refine meanFolds_val fun kk h => ?_
    rw [fold0, if_neg (by have := nv_lt hk hT h; omega), if_pos (matB0_posDef px k kk)]
    rfl
  · rw [if_neg h0, hKx, hKpa]
    refine meanFolds_val fun kk h => ?_
    rw [foldPa, if_pos (matB_posDef lam px pp k kk), foldVal, if_neg (by simpa using h0)]

/-- C153. With at least two folds, at least as many samples as folds, a positive regularisation parameter and no constant column, the matrices that are
inverted or decomposed are positive definite, and the score is a number, with or without parents. -/
theorem C153_defined (lam : ℝ) (hl : 0 < lam) (k : Nat) (hk : 2 ≤ k) (hT : k ≤ T) (x : Col T) (hx : ¬ Const x) (pas : List (Col T))
    (hp : ∀ p ∈ pas, ¬ Const p) :
    ∃ Kx Kpa s, kx 2 x = .val Kx ∧ kpa 2 pas = .val Kpa ∧ scoreCV lam k x pas = .val s ∧
      ∀ kk < k, (ridge lam Kpa k kk).PosDef ∧ (matB lam Kx Kpa k kk).PosDef ∧ (matB0 Kx k kk).PosDef := by
  obtain ⟨Kx, hKx⟩ := kx_val (f := 2) (by norm_num) hx
  obtain ⟨Kpa, hKpa⟩ := kpa_val (f := 2) (by norm_num) hp
  have px := kx_psd hKx
  have pp := kpa_psd hKpa
  exact ⟨Kx, Kpa, _, hKx, hKpa, scoreCV_val lam k hk hT x pas hKx hKpa,
    fun kk h => ⟨ridge_posDef hl pp h, matB_posDef lam px pp k kk, matB0_posDef px k kk⟩⟩

/-- C153, violated. A constant column has no kernel width: the score is not a number. -/
theorem C153_constant_violated (lam : ℝ) (k : Nat) (hk : 0 < k) (x : Col T) (pas : List (Col T)) (h : Const x) :
    scoreCV lam k x pas = .nan := by
  unfold scoreCV
  rw [if_neg (by omega)]
  have : kx 2 x = .nan := by rw [kx, theta_const 2 h]; rfl
  split_ifs <;> rw [this] <;> rfl

/-- C153, violated. With fewer samples than folds, or with a single fold, the score of a variable without parents raises an exception. -/
theorem C153_few_samples_violated (lam : ℝ) (k : Nat) (h : T < k ∨ k = 1) (x : Col T) (hx : ¬ Const x) : scoreCV lam k x [] = .raises := by
  unfold scoreCV
  have hk : k ≠ 0 := by omega
  rw [if_neg hk, if_pos rfl]
  obtain ⟨Kx, hKx⟩ := kx_val (f := 2) (by norm_num) hx
  rw [hKx]
  have hlast : T - nv T k (k - 1) = 0 := by
    rcases h with h | rfl
    · have : n0 T k = 0 := Nat.div_eq_of_lt h
      unfold nv
      split_ifs with h1
      · omega
      · simp [this]
      · omega
    · simp [nv, n0]
  refine meanFolds_raises (m := k - 1) (fun kk _ => ?_) (by omega) ?_
  · unfold fold0; split_ifs <;> simp
  · rw [fold0, if_pos hlast]

example : ∃ s, scoreCV 0.01 2 exCol [fun i => exCol i + 1] = .val s := by
  obtain ⟨_, _, s, _, _, h, _⟩ := C153_defined (T := 4) 0.01 (by norm_num) 2 le_rfl (by norm_num) exCol exCol_ok [fun i => exCol i + 1]
    (by
      intro p hp hc
      rw [List.mem_singleton] at hp
      subst hp
      have := hc 0 1
      norm_num [exCol] at this)
  exact ⟨s, h⟩

/-! ## C154: units and the order of the parents do not matter -/

theorem posDiffs_affine (a b : ℝ) (ha : a ≠ 0) (x : Col T) : posDiffs (fun i => a * x i + b) = (posDiffs x).map (a ^ 2 * ·) := by
  have hp : 0 < a ^ 2 := by positivity
  unfold posDiffs
  have e : ((List.finRange T).flatMap fun i => (List.finRange T).map fun j => if i < j then sqd (fun i => a * x i + b) i j else 0) =
      ((List.finRange T).flatMap fun i => (List.finRange T).map fun j => if i < j then sqd x i j else 0).map (a ^ 2 * ·) := by
    rw [List.map_flatMap]
    congr 1
    funext i
    rw [List.map_map]
    congr 1
    funext j
    simp only [Function.comp]
    split_ifs
    · rw [sqd_eq, sqd_eq]; ring
    · ring
  rw [e, List.filter_map]
  congr 1
  refine List.filter_congr fun t _ => ?_
  simp only [Function.comp, decide_eq_decide]
  exact mul_pos_iff_of_pos_left hp

theorem npMedian_scale {c : ℝ} (hc : 0 < c) (l : List ℝ) : npMedian (l.map (c * ·)) = (npMedian l).bind fun m => .val (c * m) := by
  have hs : (l.map (c * ·)).insertionSort (· ≤ ·) = (l.insertionSort (· ≤ ·)).map (c * ·) := by
    rw [List.map_insertionSort (r := (· ≤ ·)) (s := (· ≤ ·))]
    intro a _ b _
    exact (mul_le_mul_iff_right₀ hc).symm
  have hg : ∀ m, ((l.insertionSort (· ≤ ·)).map (c * ·)).getD m 0 = c * (l.insertionSort (· ≤ ·)).getD m 0 := by
    intro m
    have := List.getD_map (l := l.insertionSort (· ≤ ·)) (n := m) (d := (0 : ℝ)) (c * ·)
    rwa [mul_zero] at this
  unfold npMedian
  simp only [hs, hg, List.length_map, List.map_eq_nil_iff]
  split_ifs
  · rfl
  · rfl
  · simp only [Res.bind]; congr 1; ring

theorem kern_affine (f a b : ℝ) (ha : a ≠ 0) (x : Col T) :
    ((theta f fun i => a * x i + b).bind fun θ => Res.val (kern θ fun i => a * x i + b)) = (theta f x).bind fun θ => .val (kern θ x) := by
  have hp : 0 < a ^ 2 := by positivity
  unfold theta
  rw [posDiffs_affine a b ha, npMedian_scale hp]
  cases npMedian (posDiffs x) with
  | raises => rfl
  | nan => rfl
  | val m =>
    simp only [Res.bind, Res.val.injEq]
    have e : 1 / (√(0.5 * (a ^ 2 * m)) * f) ^ 2 = 1 / (√(0.5 * m) * f) ^ 2 / a ^ 2 := by
      rw [show 0.5 * (a ^ 2 * m) = a ^ 2 * (0.5 * m) by ring, Real.sqrt_mul hp.le, mul_assoc, mul_pow, Real.sq_sqrt hp.le]
      rw [div_div, mul_comm]
    rw [e]
    ext i j
    simp only [kern, of_apply, one_mul]
    congr 1
    have es : sqd (fun i => a * x i + b) i j = a ^ 2 * sqd x i j := by rw [sqd_eq, sqd_eq]; ring
    have em : max 0 (a ^ 2 * sqd x i j) = a ^ 2 * max 0 (sqd x i j) := by
      rw [mul_max_of_nonneg _ _ hp.le, mul_zero]
    rw [es, em]
    generalize 1 / (√(0.5 * m) * f) ^ 2 = q
    field_simp

/-- `p'` is `p` in other units: shifted and multiplied by a number that is not 0 -/
def OtherUnits (p p' : Col T) : Prop := ∃ a b : ℝ, a ≠ 0 ∧ p' = fun i => a * p i + b

theorem kx_units (f : ℝ) {x x' : Col T} (h : OtherUnits x x') : kx f x' = kx f x := by
  obtain ⟨a, b, ha, rfl⟩ := h
  have e : ∀ y : Col T, kx f y = ((theta f y).bind fun θ => .val (kern θ y)).bind fun K => .val (hadCenter K) := by
    intro y; unfold kx; cases theta f y <;> rfl
  rw [e, e, kern_affine f a b ha]

theorem kpaStep_units (f : ℝ) (acc : Res (Matrix (Fin T) (Fin T) ℝ)) {x x' : Col T} (h : OtherUnits x x') : kpaStep f acc x' = kpaStep f acc x := by
  obtain ⟨a, b, ha, rfl⟩ := h
  have e : ∀ y : Col T, kpaStep f acc y = acc.bind fun K => ((theta f y).bind fun θ => .val (kern θ y)).bind fun G => .val (K ⊙ G) := by
    intro y; unfold kpaStep; cases acc <;> cases theta f y <;> rfl
  rw [e, e, kern_affine f a b ha]

theorem kpa_units (f : ℝ) {pas pas' : List (Col T)} (h : List.Forall₂ OtherUnits pas pas') : kpa f pas' = kpa f pas := by
  have key : ∀ acc, pas'.foldl (kpaStep f) acc = pas.foldl (kpaStep f) acc := by
    induction h with
    | nil => intro _; rfl
    | cons hp _ ih => intro acc; rw [List.foldl_cons, List.foldl_cons, kpaStep_units f acc hp, ih]
  unfold kpa
  rw [key]

/-- C154. Measuring the variable and its parents in other units (shift, non-zero factor) does not change the score. -/
theorem C154_units (lam : ℝ) (k : Nat) (x x' : Col T) (hx : OtherUnits x x') (pas pas' : List (Col T)) (hp : List.Forall₂ OtherUnits pas pas') :
    scoreCV lam k x' pas' = scoreCV lam k x pas := by
  unfold scoreCV
  rw [kx_units 2 hx, kpa_units 2 hp]
  have : pas' = [] ↔ pas = [] := by
    cases hp <;> simp
  by_cases h : pas = []
  · rw [if_pos h, if_pos (this.2 h)]
  · rw [if_neg h, if_neg (mt this.1 h)]

/-- C154. The order in which the parents are listed does not change the score. -/
theorem C154_parent_order (lam : ℝ) (k : Nat) (x : Col T) (pas pas' : List (Col T)) (h : pas.Perm pas') :
    scoreCV lam k x pas' = scoreCV lam k x pas := by
  have comm : ∀ (acc : Res (Matrix (Fin T) (Fin T) ℝ)) (p q : Col T), kpaStep 2 (kpaStep 2 acc p) q = kpaStep 2 (kpaStep 2 acc q) p := by
    intro acc p q
    unfold kpaStep
    rcases theta_cases 2 p with hp | ⟨θ, hp⟩ <;> rcases theta_cases 2 q with hq | ⟨η, hq⟩ <;> rw [hp, hq] <;> cases acc <;> simp only [Res.bind]
    rw [hadamard_assoc, hadamard_assoc, hadamard_comm (kern θ p)]
  have e : kpa 2 pas' = kpa 2 pas := by
    unfold kpa
    haveI : RightCommutative (kpaStep (T := T) 2) := ⟨comm⟩
    rw [h.foldl_eq]
  have hn : pas' = [] ↔ pas = [] := ⟨fun h1 => (h1 ▸ h).eq_nil, fun h1 => (h1 ▸ h).nil_eq.symm⟩
  unfold scoreCV
  rw [e]
  by_cases h0 : pas = []
  · rw [if_pos h0, if_pos (hn.2 h0)]
  · rw [if_neg h0, if_neg (mt hn.1 h0)]

example : OtherUnits exCol ![32, 33.8, 32, 37.4] := ⟨1.8, 32, by norm_num, by funext i; fin_cases i <;> norm_num [exCol]⟩

/-! ## C155: variables with several dimensions -/

/-- C155, violated. `cv_multi` and `marginal_multi` are meant for variables of several dimensions, but for a variable of two or more dimensions the
distance matrix can never be formed: the shapes do not fit, whatever the number of samples. -/
theorem C155_multi_dim_violated (T d : Nat) (hT : 1 ≤ T) (hd : 2 ≤ d) : distOk T d = false := by
  rcases Nat.lt_or_ge 1 T with h | h
  · have h1 : T * d ≠ T := by
      have : T * 2 ≤ T * d := Nat.mul_le_mul_left _ hd
      omega
    have h2 : T * d ≠ 1 := by
      have : T * 2 ≤ T * d := Nat.mul_le_mul_left _ hd
      omega
    have : distShape T d = none := by
      unfold distShape broadcast bcAxis
      simp only
      rw [if_neg h1, if_neg h2, if_neg (by omega : ¬ T = 1)]
      rfl
    rw [distOk, this]; rfl
  · obtain rfl : T = 1 := by omega
    have h1 : d ≠ 1 := by omega
    have : distShape 1 d = some (d, d) := by
      unfold distShape broadcast bcAxis
      simp [h1, Ne.symm h1]
    rw [distOk, this]
    have : d * d ≠ 1 := by
      have : d * 2 ≤ d * d := Nat.mul_le_mul_left _ hd
      omega
    simpa using this

/-- C155. One dimension is accepted. -/
theorem C155_one_dim (T : Nat) : distOk T 1 = true := by
  have : distShape T 1 = some (T, T) := by
    unfold distShape broadcast bcAxis
    by_cases h : T = 1
    · subst h; rfl
    · simp [h, Ne.symm h]
  rw [distOk, this]
  simp [sq]

/-- C155, violated. Even for one-dimensional variables, `cv_multi` raises an exception for a variable without parents as soon as a fold has at least two
test samples and a number of training samples different from that (so for all `T ≥ 2k`, `k ≥ 3`): the products are taken entry by entry. -/
theorem C155_no_parents_violated (T k kk : Nat) (hk : 3 ≤ k) (hT : 2 * k ≤ T) (h : kk + 1 < k) :
    multiAShape (testIdx T k kk).length (trainIdx T k kk).length = none := by
  have h1 : (testIdx T k kk).length = T / k := (C151_sizes T k kk (by omega)).1 h
  have h2 : nv T k kk = T / k := by rw [← length_testIdx (by omega), h1]
  have h3 : 2 ≤ T / k := (Nat.le_div_iff_mul_le (by omega)).2 hT
  have h4 : k * (T / k) ≤ T := Nat.mul_div_le T k
  have h5 : 3 * (T / k) ≤ k * (T / k) := Nat.mul_le_mul_right _ hk
  rw [h1, length_trainIdx (by omega), h2]
  unfold multiAShape broadcast bcAxis
  simp only
  rw [if_neg (by omega : ¬ T / k = T - T / k), if_neg (by omega : ¬ T / k = 1), if_neg (by omega : ¬ T - T / k = 1)]
  rfl

/-! ## C156: the score is a proper negative log-likelihood: it is bounded below -/

theorem one_le_det {m : Nat} {P : Matrix (Fin m) (Fin m) ℝ} (h : P.PosSemidef) : 1 ≤ (P + 1).det := by
  have hB : (P + 1).IsHermitian := (h.isHermitian).add isHermitian_one
  have key : ∀ i, 1 ≤ hB.eigenvalues i := by
    intro i
    have h1 := hB.eigenvalues_mem_spectrum_real i
    have h2 : hB.eigenvalues i - 1 ∈ spectrum ℝ P := by
      rw [← spectrum.add_mem_add_iff (s := (1 : ℝ)), sub_add_cancel, map_one, add_comm]
      exact h1
    rw [h.isHermitian.spectrum_real_eq_range_eigenvalues] at h2
    obtain ⟨j, hj⟩ := h2
    have := h.eigenvalues_nonneg j
    linarith
  rw [hB.det_eq_prod_eigenvalues]
  have : (1 : ℝ) = ∏ _i : Fin m, (1 : ℝ) := by simp
  rw [this]
  refine Finset.prod_le_prod (fun _ _ => zero_le_one) fun i _ => ?_
  exact key i

/-- the matrix of the training and test samples together -/
def both (K : Matrix (Fin T) (Fin T) ℝ) (a b : List (Fin T)) : Matrix (Fin a.length ⊕ Fin b.length) (Fin a.length ⊕ Fin b.length) ℝ :=
  K.submatrix (Sum.elim a.get b.get) (Sum.elim a.get b.get)

theorem both_eq {K : Matrix (Fin T) (Fin T) ℝ} (h : K.PosSemidef) (a b : List (Fin T)) :
    both K a b = fromBlocks (sub K a a) (sub K a b) (sub K a b)ᵀ (sub K b b) := by
  have hs : ∀ i j, K i j = K j i := fun i j => by rw [← transpose_apply K, symm_of_psd h]
  ext i j
  rcases i with i | i <;> rcases j with j | j <;> simp only [both, sub, fromBlocks, submatrix_apply, Sum.elim_inl, Sum.elim_inr, of_apply, transpose_apply]
  exact hs _ _

/-- Schur complement: `E - Uᵀ (s 1 + P)⁻¹ U` is positive semidefinite when the block matrix without the `s 1` is. -/
theorem schur_psd {m n : Nat} {s : ℝ} (hs : 0 < s) {P : Matrix (Fin m) (Fin m) ℝ} {U : Matrix (Fin m) (Fin n) ℝ} {E : Matrix (Fin n) (Fin n) ℝ}
    (h : (fromBlocks P U Uᵀ E).PosSemidef) : (E - Uᵀ * (P + s • 1)⁻¹ * U).PosSemidef := by
  have hP : P.PosSemidef := h.submatrix (Sum.inl : Fin m → Fin m ⊕ Fin n)
  have hA : (P + s • (1 : Matrix (Fin m) (Fin m) ℝ)).PosDef := PosDef.posSemidef_add hP (PosDef.one.smul hs)
  haveI := hA.isUnit.invertible
  have := (PosDef.fromBlocks₁₁ (A := P + s • (1 : Matrix (Fin m) (Fin m) ℝ)) U E hA).1 ?_
  · rwa [conjTranspose_eq_transpose_of_trivial] at this
  · rw [conjTranspose_eq_transpose_of_trivial]
    have e : fromBlocks (P + s • (1 : Matrix (Fin m) (Fin m) ℝ)) U Uᵀ E = fromBlocks P U Uᵀ E + fromBlocks (s • 1) 0 0 0 := by
      rw [fromBlocks_add]; simp
    rw [e]
    refine h.add ?_
    have e2 : fromBlocks (s • (1 : Matrix (Fin m) (Fin m) ℝ)) (0 : Matrix (Fin m) (Fin n) ℝ) 0 0 = diagonal (Sum.elim (fun _ => s) fun _ => 0) := by
      rw [← diagonal_one, ← diagonal_smul, ← diagonal_zero, fromBlocks_diagonal]
      congr 1
      ext i; rcases i with i | i <;> simp
    rw [e2]
    refine PosSemidef.diagonal ?_
    intro i; rcases i with i | i <;> simp [hs.le]

theorem matA0_trace {Kx : Matrix (Fin T) (Fin T) ℝ} (hx : Kx.PosSemidef) {k kk : Nat} (h1 : 0 < T - nv T k kk) : 0 ≤ trace (matA0 Kx k kk) := by
  have hg := gamma_pos
  have hc : 0 < gamma * ((T - nv T k kk : Nat) : ℝ) := by positivity
  have hb : (fromBlocks (sub Kx (trainIdx T k kk) (trainIdx T k kk)) (sub Kx (trainIdx T k kk) (testIdx T k kk))
      (sub Kx (trainIdx T k kk) (testIdx T k kk))ᵀ (sub Kx (testIdx T k kk) (testIdx T k kk))).PosSemidef := by
    rw [← both_eq hx]; exact hx.submatrix _
  have := schur_psd hc hb
  have e : (1 / (gamma * ((T - nv T k kk : Nat) : ℝ))) • (matB0 Kx k kk)⁻¹ =
      (sub Kx (trainIdx T k kk) (trainIdx T k kk) + (gamma * ((T - nv T k kk : Nat) : ℝ)) • 1)⁻¹ := by
    have : sub Kx (trainIdx T k kk) (trainIdx T k kk) + (gamma * ((T - nv T k kk : Nat) : ℝ)) • 1 =
        (gamma * ((T - nv T k kk : Nat) : ℝ)) • matB0 Kx k kk := by
      rw [matB0, smul_add, smul_smul, mul_one_div_cancel hc.ne', one_smul]
    rw [this]
    refine (inv_eq_left_inv ?_).symm
    rw [smul_mul_smul_comm, one_div_mul_cancel hc.ne', one_smul, nonsing_inv_mul]
    exact (isUnit_iff_isUnit_det _).1 (matB0_posDef hx k kk).isUnit
  unfold matA0
  dsimp only
  rw [trace_smul, smul_eq_mul]
  refine mul_nonneg (by positivity) ?_
  rw [← e] at this
  rw [Matrix.mul_smul, Matrix.smul_mul] at this
  exact this.trace_nonneg

theorem scaled_inv {m : Nat} {c : ℝ} (hc : 0 < c) {P : Matrix (Fin m) (Fin m) ℝ} (hP : P.PosSemidef) :
    (P + c⁻¹ • (1 : Matrix (Fin m) (Fin m) ℝ))⁻¹ = c • (c • P + 1)⁻¹ := by
  have hB : (c • P + 1).PosDef := PosDef.posSemidef_add (hP.smul hc.le) PosDef.one
  refine inv_eq_left_inv ?_
  have : P + c⁻¹ • (1 : Matrix (Fin m) (Fin m) ℝ) = c⁻¹ • (c • P + 1) := by
    rw [smul_add, smul_smul, inv_mul_cancel₀ hc.ne', one_smul]
  rw [this, smul_mul_smul_comm, mul_inv_cancel₀ hc.ne', one_smul, nonsing_inv_mul]
  exact (isUnit_iff_isUnit_det _).1 hB.isUnit

theorem pred_trace {m n : Nat} {c : ℝ} (hc : 0 ≤ c) {R Ktr : Matrix (Fin m) (Fin m) ℝ} {K P : Matrix (Fin m) (Fin n) ℝ}
    {Kte : Matrix (Fin n) (Fin n) ℝ} (hR : Rᵀ = R) (hb : (fromBlocks Ktr K Kᵀ Kte).PosSemidef) :
    0 ≤ trace (Kte + Pᵀ * (R * Ktr * R) * P - (2 : ℝ) • (Kᵀ * R * P) - c • (Kᵀ * (R * (c • (R * Ktr * R) + 1)⁻¹ * R) * K)
      - c • (Pᵀ * R * Ktr * (R * (c • (R * Ktr * R) + 1)⁻¹ * R) * Ktr * R * P)
      + (2 * c) • (Kᵀ * (R * (c • (R * Ktr * R) + 1)⁻¹ * R) * Ktr * R * P)) := by
  have hKtr : Ktr.PosSemidef := hb.submatrix (Sum.inl : Fin m → Fin m ⊕ Fin n)
  have hs : Ktrᵀ = Ktr := symm_of_psd hKtr
  have ht2 : (R * Ktr * R).PosSemidef := by
    have := hKtr.mul_mul_conjTranspose_same R
    rwa [conjTranspose_eq_transpose_of_trivial, hR] at this
  set Bi := (c • (R * Ktr * R) + 1)⁻¹ with hBi
  have hBs : Biᵀ = Bi := by
    rw [hBi, transpose_nonsing_inv, transpose_add, transpose_smul, transpose_one, transpose_mul, transpose_mul, hR, hs, Matrix.mul_assoc]
  set U : Matrix (Fin m) (Fin n) ℝ := R * (K - Ktr * R * P) with hU
  have hUt : Uᵀ = (Kᵀ - Pᵀ * R * Ktr) * R := by
    rw [hU, transpose_mul, transpose_sub, transpose_mul, transpose_mul, hR, hs, Matrix.mul_assoc]
  set D : Matrix (Fin n) (Fin n) ℝ := Kte - Kᵀ * R * P - Pᵀ * R * K + Pᵀ * (R * Ktr * R) * P with hD
  have hN : (fromBlocks (R * Ktr * R) U Uᵀ D).PosSemidef := by
    have := hb.mul_mul_conjTranspose_same (fromBlocks R 0 (-(Pᵀ * R)) 1 : Matrix (Fin m ⊕ Fin n) (Fin m ⊕ Fin n) ℝ)
    rw [conjTranspose_eq_transpose_of_trivial, fromBlocks_transpose, fromBlocks_multiply, fromBlocks_multiply, hR] at this
    have e : (-(Pᵀ * R))ᵀ = -(R * P) := by rw [transpose_neg, transpose_mul, transpose_transpose, hR]
    rw [e] at this
    refine (congrArg PosSemidef ?_).mp this
    congr 1
    · simp
    · simp only [Matrix.mul_neg, Matrix.zero_mul, add_zero, transpose_one, Matrix.mul_one, hU, Matrix.mul_sub, Matrix.mul_assoc]
      abel
    · simp only [transpose_zero, Matrix.mul_zero, add_zero, hUt, Matrix.neg_mul, Matrix.one_mul, Matrix.sub_mul, Matrix.add_mul, Matrix.mul_assoc]
      abel
    · simp only [transpose_one, Matrix.mul_one, hD, Matrix.neg_mul, Matrix.one_mul, Matrix.add_mul, Matrix.mul_neg, Matrix.mul_assoc]
      abel
  have t1 : trace (Kᵀ * R * P) = trace (Pᵀ * R * K) := by
    rw [← trace_transpose, transpose_mul, transpose_mul, transpose_transpose, hR, Matrix.mul_assoc]
  have t2 : trace (Kᵀ * (R * Bi * R) * Ktr * R * P) = trace (Pᵀ * R * Ktr * (R * Bi * R) * K) := by
    rw [← trace_transpose]
    simp only [transpose_mul, transpose_transpose, hR, hs, hBs, Matrix.mul_assoc]
  have hDp : D.PosSemidef := hN.submatrix (Sum.inr : Fin n → Fin m ⊕ Fin n)
  rcases hc.eq_or_lt with h0 | h0
  · have := hDp.trace_nonneg
    rw [← h0]
    simp only [zero_smul, mul_zero, sub_zero, add_zero]
    rw [hD] at this
    simp only [trace_add, trace_sub, trace_smul, smul_eq_mul] at this ⊢
    linarith
  · have h1 := (schur_psd (inv_pos.2 h0) hN).trace_nonneg
    rw [scaled_inv h0 ht2, ← hBi, hUt, hU, hD] at h1
    have e : (Kᵀ - Pᵀ * R * Ktr) * R * c • Bi * (R * (K - Ktr * R * P)) =
        c • (Kᵀ * (R * Bi * R) * K) - c • (Kᵀ * (R * Bi * R) * Ktr * R * P) - c • (Pᵀ * R * Ktr * (R * Bi * R) * K)
          + c • (Pᵀ * R * Ktr * (R * Bi * R) * Ktr * R * P) := by
      simp only [Matrix.mul_sub, Matrix.sub_mul, Matrix.mul_smul, Matrix.smul_mul, Matrix.mul_assoc, smul_sub]
      abel
    rw [e] at h1
    simp only [trace_add, trace_sub, trace_smul, smul_eq_mul] at h1 ⊢
    rw [← t1, ← t2] at h1
    linarith

theorem matA_trace {lam : ℝ} {Kx Kpa : Matrix (Fin T) (Fin T) ℝ} (hx : Kx.PosSemidef) (hpa : Kpa.PosSemidef) (k kk : Nat) :
    0 ≤ trace (matA lam Kx Kpa k kk) := by
  have hg := gamma_pos
  have hR : ((ridge lam Kpa k kk)⁻¹)ᵀ = (ridge lam Kpa k kk)⁻¹ := by
    rw [transpose_nonsing_inv]
    congr 1
    unfold ridge
    rw [transpose_add, transpose_smul, transpose_one, symm_of_psd (sub_psd hpa _)]
  have hb : (fromBlocks (sub Kx (trainIdx T k kk) (trainIdx T k kk)) (sub Kx (trainIdx T k kk) (testIdx T k kk))
      (sub Kx (trainIdx T k kk) (testIdx T k kk))ᵀ (sub Kx (testIdx T k kk) (testIdx T k kk))).PosSemidef := by
    rw [← both_eq hx]; exact hx.submatrix _
  have hc : 0 ≤ ((T - nv T k kk : Nat) : ℝ) * lam ^ 2 / gamma := by positivity
  have := pred_trace (P := sub Kpa (trainIdx T k kk) (testIdx T k kk)) hc hR hb
  unfold matA tmp3 matB tmp2
  dsimp only
  rw [trace_smul, smul_eq_mul]
  exact mul_nonneg (by positivity) this

theorem logChol_nonneg {m : Nat} {P : Matrix (Fin m) (Fin m) ℝ} (h : P.PosSemidef) : 0 ≤ logChol (P + 1) := by
  unfold logChol
  have := Real.log_nonneg (one_le_det h)
  positivity

/-- C156. The score is at least the mean over the folds of `n² log(2π) / 2`, `n` the number of test samples; in particular it is positive. -/
theorem C156_lower_bound (lam : ℝ) (k : Nat) (hk : 2 ≤ k) (hT : k ≤ T) (x : Col T) (pas : List (Col T)) (s : ℝ) (h : scoreCV lam k x pas = .val s) :
    (∑ kk ∈ Finset.range k, ((testIdx T k kk).length : ℝ) ^ 2 * Real.log (2 * Real.pi) / 2) / k ≤ s ∧ 0 < s := by
  have hg := gamma_pos
  have hval : ∃ Kx Kpa, kx 2 x = .val Kx ∧ kpa 2 pas = .val Kpa := by
    unfold scoreCV at h
    rw [if_neg (by omega)] at h
    by_cases h0 : pas = []
    · rw [if_pos h0] at h
      cases hm : kx 2 x with
      | raises => rw [hm] at h; cases h
      | nan => rw [hm] at h; cases h
      | val K => exact ⟨K, _, rfl, by rw [h0]; rfl⟩
    · rw [if_neg h0] at h
      cases hm : kx 2 x with
      | raises => rw [hm] at h; cases h
      | nan => rw [hm] at h; cases h
      | val K =>
        rw [hm] at h
        cases hm2 : kpa 2 pas with
        | raises => rw [hm2] at h; cases h
        | nan => rw [hm2] at h; cases h
        | val K' => exact ⟨K, K', rfl, rfl⟩
  obtain ⟨Kx, Kpa, hKx, hKpa⟩ := hval
  have px := kx_psd hKx
  have pp := kpa_psd hKpa
  rw [scoreCV_val lam k hk hT x pas hKx hKpa] at h
  cases h
  have hkp : (0 : ℝ) < k := by have : 0 < k := by omega
                               exact_mod_cast this
  have hlog : 0 < Real.log (2 * Real.pi) := Real.log_pos (by have := Real.two_le_pi; linarith)
  have hterm : ∀ kk ∈ Finset.range k, ((testIdx T k kk).length : ℝ) ^ 2 * Real.log (2 * Real.pi) / 2 ≤ foldVal lam Kx Kpa pas.isEmpty k kk := by
    intro kk hkk
    have hkk' := Finset.mem_range.1 hkk
    rw [length_testIdx hkk']
    unfold foldVal addTerm
    split_ifs
    · have h1 := matA0_trace px (k := k) (kk := kk) (by have := nv_lt hk hT hkk'; omega)
      have h2 : 0 ≤ logChol (matB0 Kx k kk) := logChol_nonneg ((sub_psd px _).smul (by positivity))
      have h3 : 0 ≤ (nv T k kk : ℝ) * logChol (matB0 Kx k kk) := by positivity
      rw [← sq]; linarith
    · have h1 := matA_trace (lam := lam) px pp k kk
      have h2 : 0 ≤ logChol (matB lam Kx Kpa k kk) := logChol_nonneg ((tmp2_psd lam px pp k kk).smul (by positivity))
      have h3 : 0 ≤ (nv T k kk : ℝ) * logChol (matB lam Kx Kpa k kk) := by positivity
      rw [← sq]; linarith
  have hsum := Finset.sum_le_sum hterm
  have hpos : 0 < ∑ kk ∈ Finset.range k, ((testIdx T k kk).length : ℝ) ^ 2 * Real.log (2 * Real.pi) / 2 := by
    refine Finset.sum_pos (fun kk hkk => ?_) ⟨0, Finset.mem_range.2 (by omega)⟩
    have h1 := (C151_sizes T k kk (Finset.mem_range.1 hkk)).2.1
    have h2 : 1 ≤ T / k := (Nat.one_le_div_iff (by omega)).2 hT
    have : (0 : ℝ) < ((testIdx T k kk).length : ℝ) := by
      have : 0 < (testIdx T k kk).length := by omega
      exact_mod_cast this
    positivity
  exact ⟨div_le_div_of_nonneg_right hsum hkp.le, div_pos (hpos.trans_le hsum) hkp⟩

end CvScore
end CL
