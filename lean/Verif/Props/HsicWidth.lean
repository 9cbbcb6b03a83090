import Verif.Model.HsicWidth
import Verif.Props.Kci
import Verif.Props.CvScore

/-!
# C162–C163: the HSIC tests of the LiNGAM methods
-/
namespace CL.Hsic
open Kci Matrix
variable {n d e : Nat}

theorem gramDist_eq (X : Data n d) (i k : Fin n) : gramDist X i k = sqDist X i k := by
  unfold gramDist sqDist
  rw [Finset.mul_sum, ← Finset.sum_add_distrib, ← Finset.sum_sub_distrib]
  exact Finset.sum_congr rfl fun j _ => by ring

theorem sqDist_nonneg (X : Data n d) (i k : Fin n) : 0 ≤ sqDist X i k := Finset.sum_nonneg fun _ _ => sq_nonneg _

theorem sqDist_comm (X : Data n d) (i k : Fin n) : sqDist X i k = sqDist X k i := Finset.sum_congr rfl fun _ _ => by ring

theorem mem_upperDists {X : Data n d} {rows : List (Fin n)} {t : ℝ} :
    t ∈ upperDists X rows ↔ 0 < t ∧ ∃ i ∈ rows, ∃ k ∈ rows, i < k ∧ t = sqDist X i k := by
  unfold upperDists
  simp only [List.mem_filter, List.mem_flatMap, List.mem_map, decide_eq_true_eq, gramDist_eq]
  constructor
  · rintro ⟨⟨i, hi, k, hk, h⟩, hp⟩
    split at h
    · rename_i hlt; exact ⟨hp, i, hi, k, hk, hlt, h.symm⟩
    · rw [← h] at hp; exact absurd hp (lt_irrefl _)
  · rintro ⟨hp, i, hi, k, hk, hlt, rfl⟩
    exact ⟨⟨i, hi, k, hk, if_pos hlt⟩, hp⟩

theorem upperDists_nil {X : Data n d} {rows : List (Fin n)} :
    upperDists X rows = [] ↔ ∀ i ∈ rows, ∀ k ∈ rows, ∀ j, X i j = X k j := by
  rw [List.eq_nil_iff_forall_not_mem]
  constructor
  · intro h i hi k hk j
    by_contra hne
    have h0 : sqDist X i k ≠ 0 := fun h0 => hne (sqDist_zero h0 j)
    have hp : 0 < sqDist X i k := lt_of_le_of_ne (sqDist_nonneg X i k) (Ne.symm h0)
    rcases lt_trichotomy i k with hlt | rfl | hlt
    · exact h _ (mem_upperDists.2 ⟨hp, i, hi, k, hk, hlt, rfl⟩)
    · exact hne rfl
    · exact h _ (mem_upperDists.2 ⟨by rwa [sqDist_comm] at hp, k, hk, i, hi, hlt, rfl⟩)
  · intro h t ht
    obtain ⟨hp, i, hi, k, hk, -, rfl⟩ := mem_upperDists.1 ht
    have : sqDist X i k = 0 := Finset.sum_eq_zero fun j _ => by rw [h i hi k hk j]; ring
    rw [this] at hp
    exact lt_irrefl _ hp

theorem median_width (X : Data n d) (rows : List (Fin n)) :
    ((∀ i ∈ rows, ∀ k ∈ rows, ∀ j, X i j = X k j) → ((npMedian (upperDists X rows)).bind fun m => .val √(0.5 * m)) = .nan) ∧
    ((¬ ∀ i ∈ rows, ∀ k ∈ rows, ∀ j, X i j = X k j) → ∃ w, ((npMedian (upperDists X rows)).bind fun m => .val √(0.5 * m)) = .val w ∧ 0 < w) := by
  constructor
  · intro h
    rw [upperDists_nil.2 h]; rfl
  · intro h
    obtain ⟨m, hm, hp⟩ := npMedian_pos (l := upperDists X rows) (fun t ht => (mem_upperDists.1 ht).1) fun h0 => h (upperDists_nil.1 h0)
    refine ⟨√(0.5 * m), by rw [hm]; rfl, Real.sqrt_pos.2 (by positivity)⟩

theorem kernelWidth_small (X : Data n d) (hn : n ≤ 100) : kernelWidth X = getWidth X := by
  unfold kernelWidth getWidth
  rw [if_neg (by omega)]

/-! ## C162: symmetry, units, order of the samples -/

theorem testStat_comm (A B : Mat n) : testStat A B = testStat B A := by
  unfold testStat
  congr 1
  rw [Finset.sum_comm]
  exact Finset.sum_congr rfl fun i _ => Finset.sum_congr rfl fun j _ => by simp only [transpose_apply]; ring

theorem gammaVar_comm (A B : Mat n) : gammaVar A B = gammaVar B A := by
  unfold gammaVar
  have : ∀ i j, (1 / 6 * A i j * B i j) ^ 2 = (1 / 6 * B i j * A i j) ^ 2 := fun i j => by ring
  simp only [this]

theorem gammaMean_comm (A B : Mat n) : gammaMean A B = gammaMean B A := by
  unfold gammaMean
  dsimp only
  ring

theorem hsicTest_comm (X : Data n d) (Y : Data n e) (wx wy : ℝ) : hsicTest X Y wx wy = hsicTest Y X wy wx := by
  unfold hsicTest
  dsimp only
  rw [testStat_comm, gammaVar_comm, gammaMean_comm]

theorem bind_comm {α : Type} (a b : Res ℝ) (ha : a ≠ .raises) (hb : b ≠ .raises) (f : ℝ → ℝ → Res α) :
    (a.bind fun x => b.bind fun y => f x y) = b.bind fun y => a.bind fun x => f x y := by
  cases a <;> cases b <;> first | rfl | exact absurd rfl ha | exact absurd rfl hb

theorem width_ne_raises (l : List ℝ) : ((npMedian l).bind fun m => Res.val √(0.5 * m)) ≠ Res.raises := by
  unfold npMedian
  dsimp only
  split
  · simp [Res.bind]
  · split <;> simp [Res.bind]

theorem kernelWidth_ne (X : Data n d) : kernelWidth X ≠ .raises := width_ne_raises _
theorem getWidth_ne (X : Data n d) : getWidth X ≠ .raises := width_ne_raises _

/-- The p-value for given widths. -/
noncomputable def coreP (cdf : ℝ → ℝ → ℝ → ℝ) (X : Data n d) (Y : Data n e) (wx wy : ℝ) : Res ℝ :=
  pOf cdf (gammaMean (rbfDot X wx) (rbfDot Y wy)) (gammaVar (gramCenter (rbfDot X wx)) (gramCenter (rbfDot Y wy))) (hsicTest X Y wx wy)

theorem testP_core (cdf : ℝ → ℝ → ℝ → ℝ) (X : Data n d) (Y : Data n e) :
    testP cdf X Y = if n ≤ 3 then .raises else (kernelWidth X).bind fun wx => (kernelWidth Y).bind fun wy => coreP cdf X Y wx wy := rfl

theorem gamP_core (cdf : ℝ → ℝ → ℝ → ℝ) (X : Data n d) (Y : Data n e) :
    gamP cdf X Y = if n ≤ 3 then .raises else (getWidth X).bind fun wx => (getWidth Y).bind fun wy => coreP cdf X Y wx wy := by
  unfold gamP coreP
  simp only [← C117_hsic_agree]

theorem coreP_comm (cdf : ℝ → ℝ → ℝ → ℝ) (X : Data n d) (Y : Data n e) (wx wy : ℝ) : coreP cdf X Y wx wy = coreP cdf Y X wy wx := by
  unfold coreP
  rw [hsicTest_comm X Y, gammaMean_comm (rbfDot X _), gammaVar_comm (gramCenter (rbfDot X _))]

/-- **C162** both HSIC tests are symmetric in the two variables: same statistic and same p-value. -/
theorem C162_symmetric (cdf : ℝ → ℝ → ℝ → ℝ) (X : Data n d) (Y : Data n e) :
    testStatistic X Y = testStatistic Y X ∧ testP cdf X Y = testP cdf Y X ∧ gamP cdf X Y = gamP cdf Y X := by
  refine ⟨?_, ?_, ?_⟩
  · unfold testStatistic
    rw [bind_comm _ _ (kernelWidth_ne X) (kernelWidth_ne Y)]
    simp only [hsicTest_comm X Y]
  · rw [testP_core, testP_core, bind_comm _ _ (kernelWidth_ne X) (kernelWidth_ne Y)]
    simp only [coreP_comm cdf X Y]
  · rw [gamP_core, gamP_core, bind_comm _ _ (getWidth_ne X) (getWidth_ne Y)]
    simp only [coreP_comm cdf X Y]

/-- The data in other units: each column shifted by its own constant, all multiplied by `a`. -/
def affine (a : ℝ) (b : Fin d → ℝ) (X : Data n d) : Data n d := fun i j => a * X i j + b j

theorem sqDist_affine (a : ℝ) (b : Fin d → ℝ) (X : Data n d) (i k : Fin n) : sqDist (affine a b X) i k = a ^ 2 * sqDist X i k := by
  unfold sqDist affine
  rw [Finset.mul_sum]
  exact Finset.sum_congr rfl fun j _ => by ring

open Classical in
theorem upperDists_affine {a : ℝ} (ha : a ≠ 0) (b : Fin d → ℝ) (X : Data n d) (rows : List (Fin n)) :
    upperDists (affine a b X) rows = (upperDists X rows).map (a ^ 2 * ·) := by
  have h2 : 0 < a ^ 2 := by positivity
  unfold upperDists
  have e : (rows.flatMap fun i => rows.map fun k => if i < k then gramDist (affine a b X) i k else 0) =
      (rows.flatMap fun i => rows.map fun k => if i < k then gramDist X i k else 0).map (a ^ 2 * ·) := by
    rw [List.map_flatMap]
    refine List.flatMap_congr fun i _ => ?_
    rw [List.map_map]
    refine List.map_congr_left fun k _ => ?_
    simp only [Function.comp, gramDist_eq, sqDist_affine]
    split <;> simp
  rw [e, List.filter_map]
  congr 1
  refine List.filter_congr fun t _ => ?_
  simp only [Function.comp, decide_eq_decide, gt_iff_lt]
  exact ⟨fun h => (mul_pos_iff_of_pos_left h2).1 h, fun h => mul_pos h2 h⟩

theorem width_affine {a : ℝ} (ha : a ≠ 0) (b : Fin d → ℝ) (X : Data n d) (rows : List (Fin n)) :
    ((npMedian (upperDists (affine a b X) rows)).bind fun m => Res.val √(0.5 * m)) =
      ((npMedian (upperDists X rows)).bind fun m => Res.val √(0.5 * m)).bind fun w => .val (|a| * w) := by
  have h2 : 0 < a ^ 2 := by positivity
  rw [upperDists_affine ha, CvScore.npMedian_scale h2]
  cases npMedian (upperDists X rows) with
  | raises => rfl
  | nan => rfl
  | val m =>
    show Res.val _ = Res.val _
    congr 1
    rw [show (0.5 : ℝ) * (a ^ 2 * m) = a ^ 2 * (0.5 * m) by ring, Real.sqrt_mul h2.le, Real.sqrt_sq_eq_abs]

theorem rbfDot_affine {a : ℝ} (ha : a ≠ 0) (b : Fin d → ℝ) (X : Data n d) (w : ℝ) : rbfDot (affine a b X) (|a| * w) = rbfDot X w := by
  rw [C117_rbf, C117_rbf]
  ext i k
  simp only [gaussK, of_apply, sqDist_affine, mul_pow, sq_abs]
  congr 1
  have : a ^ 2 ≠ 0 := by positivity
  by_cases hw : w = 0
  · subst hw; simp
  · field_simp

theorem core_affine (cdf : ℝ → ℝ → ℝ → ℝ) {a a' : ℝ} (ha : a ≠ 0) (ha' : a' ≠ 0) (b : Fin d → ℝ) (b' : Fin e → ℝ) (X : Data n d) (Y : Data n e) (wx wy : ℝ) :
    hsicTest (affine a b X) (affine a' b' Y) (|a| * wx) (|a'| * wy) = hsicTest X Y wx wy ∧
      coreP cdf (affine a b X) (affine a' b' Y) (|a| * wx) (|a'| * wy) = coreP cdf X Y wx wy := by
  have h : hsicTest (affine a b X) (affine a' b' Y) (|a| * wx) (|a'| * wy) = hsicTest X Y wx wy := by
    unfold hsicTest; dsimp only; rw [rbfDot_affine ha, rbfDot_affine ha']
  refine ⟨h, ?_⟩
  unfold coreP
  rw [h, rbfDot_affine ha, rbfDot_affine ha']

theorem bind_scale (a : ℝ) (r : Res ℝ) {α : Type} (f : ℝ → Res α) : ((r.bind fun w => .val (a * w)).bind f) = r.bind fun w => f (a * w) := by
  cases r <;> rfl

/-- **C162** neither test depends on the units: shifting the columns and multiplying by a non-zero number (also a negative one) changes neither statistic nor p-value. -/
theorem C162_units (cdf : ℝ → ℝ → ℝ → ℝ) {a a' : ℝ} (ha : a ≠ 0) (ha' : a' ≠ 0) (b : Fin d → ℝ) (b' : Fin e → ℝ) (X : Data n d) (Y : Data n e) :
    testStatistic (fun i j => a * X i j + b j) (fun i j => a' * Y i j + b' j) = testStatistic X Y ∧
    testP cdf (fun i j => a * X i j + b j) (fun i j => a' * Y i j + b' j) = testP cdf X Y ∧
    gamP cdf (fun i j => a * X i j + b j) (fun i j => a' * Y i j + b' j) = gamP cdf X Y := by
  have k1 : ∀ {d : Nat} {a : ℝ} (_ : a ≠ 0) (b : Fin d → ℝ) (X : Data n d), kernelWidth (affine a b X) = (kernelWidth X).bind fun w => .val (|a| * w) :=
    fun ha b X => width_affine ha b X _
  have k2 : ∀ {d : Nat} {a : ℝ} (_ : a ≠ 0) (b : Fin d → ℝ) (X : Data n d), getWidth (affine a b X) = (getWidth X).bind fun w => .val (|a| * w) :=
    fun ha b X => width_affine ha b X _
  refine ⟨?_, ?_, ?_⟩
  · show testStatistic (affine a b X) (affine a' b' Y) = _
    unfold testStatistic
    rw [k1 ha, k1 ha', bind_scale]
    simp only [bind_scale, (core_affine cdf ha ha' b b' X Y _ _).1]
  · show testP cdf (affine a b X) (affine a' b' Y) = _
    rw [testP_core, testP_core, k1 ha, k1 ha', bind_scale]
    simp only [bind_scale, (core_affine cdf ha ha' b b' X Y _ _).2]
  · show gamP cdf (affine a b X) (affine a' b' Y) = _
    rw [gamP_core, gamP_core, k2 ha, k2 ha', bind_scale]
    simp only [bind_scale, (core_affine cdf ha ha' b b' X Y _ _).2]

/-! ### the order of the samples -/

theorem countP_sum {α : Type} (p : α → Bool) (l : List α) : l.countP p = (l.map fun x => if p x = true then 1 else 0).sum := by
  induction l with
  | nil => rfl
  | cons a l ih =>
    rw [List.countP_cons, ih, List.map_cons, List.sum_cons]
    split <;> omega

open Classical in
theorem count_upper (X : Data n d) (a : ℝ) (ha : 0 < a) :
    (upperDists X (List.finRange n)).count a = ∑ i, ∑ k, if i < k ∧ sqDist X i k = a then 1 else 0 := by
  have hsum : ∀ f : Fin n → Nat, ((List.finRange n).map f).sum = ∑ i, f i := fun f => by rw [← List.ofFn_eq_map, List.sum_ofFn]
  unfold upperDists
  rw [List.count_filter (by simpa using ha), List.count_flatMap, hsum]
  refine Finset.sum_congr rfl fun i _ => ?_
  simp only [Function.comp, gramDist_eq]
  rw [← hsum, List.count, List.countP_map, countP_sum]
  congr 1
  refine List.map_congr_left fun k _ => ?_
  simp only [Function.comp, beq_iff_eq]
  by_cases h : i < k
  · simp [h]
  · simp [h, ha.ne]

open Classical in
/-- The distances above the diagonal are the same, in another order, when the samples are reordered. -/
theorem upperDists_perm (X : Data n d) (σ : Equiv.Perm (Fin n)) :
    (upperDists (fun i => X (σ i)) (List.finRange n)).Perm (upperDists X (List.finRange n)) := by
  rw [List.perm_iff_count]
  intro a
  by_cases ha : 0 < a
  · rw [count_upper _ a ha, count_upper _ a ha]
    -- twice the number above the diagonal is the number of all ordered pairs
    have twice : ∀ X : Data n d, 2 * (∑ i, ∑ k, if i < k ∧ sqDist X i k = a then 1 else 0) = ∑ i, ∑ k, if sqDist X i k = a then 1 else 0 := by
      intro X
      have h1 : (∑ i : Fin n, ∑ k, if i < k ∧ sqDist X i k = a then 1 else 0) = ∑ i, ∑ k, if k < i ∧ sqDist X i k = a then 1 else 0 := by
        rw [Finset.sum_comm]
        refine Finset.sum_congr rfl fun i _ => Finset.sum_congr rfl fun k _ => ?_
        rw [sqDist_comm]
      rw [two_mul]
      conv_lhs => arg 2; rw [h1]
      rw [← Finset.sum_add_distrib]
      refine Finset.sum_congr rfl fun i _ => ?_
      rw [← Finset.sum_add_distrib]
      refine Finset.sum_congr rfl fun k _ => ?_
      rcases lt_trichotomy i k with h | rfl | h
      · simp [h, not_lt_of_gt h]
      · have : sqDist X i i = 0 := by simp [sqDist]
        simp [this, ha.ne]
      · simp [h, not_lt_of_gt h]
    have h3 : (∑ i, ∑ k, if sqDist (fun i => X (σ i)) i k = a then 1 else 0) = ∑ i, ∑ k, if sqDist X i k = a then (1 : Nat) else 0 := by
      rw [← Equiv.sum_comp σ fun i => ∑ k, if sqDist X i k = a then (1 : Nat) else 0]
      refine Finset.sum_congr rfl fun i _ => ?_
      exact Equiv.sum_comp σ fun k => if sqDist X (σ i) k = a then (1 : Nat) else 0
    have h1 := twice X
    have h2 := twice fun i => X (σ i)
    omega
  · rw [List.count_eq_zero_of_not_mem, List.count_eq_zero_of_not_mem]
    · intro h; exact ha (mem_upperDists.1 h).1
    · intro h; exact ha (mem_upperDists.1 h).1

theorem getWidth_perm (X : Data n d) (σ : Equiv.Perm (Fin n)) : getWidth (fun i => X (σ i)) = getWidth X := by
  unfold getWidth
  rw [npMedian_perm (upperDists_perm X σ)]

theorem rbfDot_perm (X : Data n d) (σ : Equiv.Perm (Fin n)) (w : ℝ) : rbfDot (fun i => X (σ i)) w = (rbfDot X w).submatrix σ σ := rfl

theorem gramCenter_perm (K : Mat n) (σ : Equiv.Perm (Fin n)) : gramCenter (K.submatrix σ σ) = (gramCenter K).submatrix σ σ := by
  ext i j
  simp only [gramCenter, of_apply, submatrix_apply]
  have h1 : ∑ k, K (σ k) (σ j) = ∑ k, K k (σ j) := Equiv.sum_comp σ fun k => K k (σ j)
  have h2 : ∀ i, ∑ k, K (σ i) (σ k) = ∑ k, K (σ i) k := fun i => Equiv.sum_comp σ fun k => K (σ i) k
  have h3 : ∑ l, ∑ k, K (σ l) (σ k) = ∑ l, ∑ k, K l k := by
    simp only [h2]; exact Equiv.sum_comp σ fun l => ∑ k, K l k
  rw [h1, h2, h3]

theorem sum2_perm (f : Fin n → Fin n → ℝ) (σ : Equiv.Perm (Fin n)) : ∑ i, ∑ j, f (σ i) (σ j) = ∑ i, ∑ j, f i j := by
  rw [← Equiv.sum_comp σ fun i => ∑ j, f i j]
  exact Finset.sum_congr rfl fun i _ => Equiv.sum_comp σ fun j => f (σ i) j

theorem testStat_perm (A B : Mat n) (σ : Equiv.Perm (Fin n)) : testStat (A.submatrix σ σ) (B.submatrix σ σ) = testStat A B := by
  unfold testStat
  rw [← sum2_perm (fun i j => Aᵀ i j * B i j) σ]
  rfl

theorem gammaVar_perm (A B : Mat n) (σ : Equiv.Perm (Fin n)) : gammaVar (A.submatrix σ σ) (B.submatrix σ σ) = gammaVar A B := by
  unfold gammaVar
  rw [← sum2_perm (fun i j => (1 / 6 * A i j * B i j) ^ 2) σ, ← Equiv.sum_comp σ fun i => (1 / 6 * A i i * B i i) ^ 2]
  rfl

theorem gammaMean_perm (A B : Mat n) (σ : Equiv.Perm (Fin n)) : gammaMean (A.submatrix σ σ) (B.submatrix σ σ) = gammaMean A B := by
  have h : ∀ M : Mat n, (∑ i, ∑ j, if i = j then 0 else M.submatrix σ σ i j) = ∑ i, ∑ j, if i = j then 0 else M i j := by
    intro M
    rw [← sum2_perm (fun i j => if i = j then 0 else M i j) σ]
    refine Finset.sum_congr rfl fun i _ => Finset.sum_congr rfl fun j _ => ?_
    by_cases hij : i = j
    · simp [hij]
    · simp [hij]
  unfold gammaMean
  dsimp only
  rw [h, h]

theorem core_perm (cdf : ℝ → ℝ → ℝ → ℝ) (X : Data n d) (Y : Data n e) (σ : Equiv.Perm (Fin n)) (wx wy : ℝ) :
    hsicTest (fun i => X (σ i)) (fun i => Y (σ i)) wx wy = hsicTest X Y wx wy ∧
      coreP cdf (fun i => X (σ i)) (fun i => Y (σ i)) wx wy = coreP cdf X Y wx wy := by
  have h : hsicTest (fun i => X (σ i)) (fun i => Y (σ i)) wx wy = hsicTest X Y wx wy := by
    unfold hsicTest; dsimp only
    rw [rbfDot_perm X, rbfDot_perm Y, gramCenter_perm, gramCenter_perm, testStat_perm, gammaVar_perm, gammaMean_perm]
  refine ⟨h, ?_⟩
  unfold coreP
  rw [h, rbfDot_perm X, rbfDot_perm Y, gramCenter_perm, gramCenter_perm, gammaVar_perm, gammaMean_perm]

/-- **C162** the order of the samples does not matter for `hsic_gam`, nor for `hsic_test_gamma` with at most 100 samples. Missing: `hsic_test_gamma` with more, see below. -/
theorem C162_order_partial (cdf : ℝ → ℝ → ℝ → ℝ) (X : Data n d) (Y : Data n e) (σ : Equiv.Perm (Fin n)) :
    gamP cdf (fun i => X (σ i)) (fun i => Y (σ i)) = gamP cdf X Y ∧
    (n ≤ 100 → testStatistic (fun i => X (σ i)) (fun i => Y (σ i)) = testStatistic X Y ∧ testP cdf (fun i => X (σ i)) (fun i => Y (σ i)) = testP cdf X Y) := by
  refine ⟨?_, fun hn => ⟨?_, ?_⟩⟩
  · rw [gamP_core, gamP_core, getWidth_perm, getWidth_perm]
    simp only [(core_perm cdf X Y σ _ _).2]
  · unfold testStatistic
    rw [kernelWidth_small _ hn, kernelWidth_small _ hn, kernelWidth_small _ hn, kernelWidth_small _ hn, getWidth_perm, getWidth_perm]
    simp only [(core_perm cdf X Y σ _ _).1]
  · rw [testP_core, testP_core, kernelWidth_small _ hn, kernelWidth_small _ hn, kernelWidth_small _ hn, kernelWidth_small _ hn, getWidth_perm, getWidth_perm]
    simp only [(core_perm cdf X Y σ _ _).2]

/-! ### when is there a p-value -/

/-- The mean under the null hypothesis is a product. -/
theorem gammaMean_eq (K L : Mat n) : gammaMean K L =
    1 / n * ((1 - 1 / n / ((n : ℝ) - 1) * ∑ i, ∑ j, if i = j then 0 else K i j) * (1 - 1 / n / ((n : ℝ) - 1) * ∑ i, ∑ j, if i = j then 0 else L i j)) := by
  unfold gammaMean; dsimp only; ring

theorem mu_lt_one (hn : 2 ≤ n) {w : ℝ} (hw : 0 < w) (X : Data n d) (hX : ¬ ConstData X) :
    1 / n / ((n : ℝ) - 1) * (∑ i, ∑ j, if i = j then 0 else rbfDot X w i j) < 1 := by
  have hn' : (2 : ℝ) ≤ n := by exact_mod_cast hn
  have hpos : 0 < (n : ℝ) * ((n : ℝ) - 1) := by nlinarith
  have hle : ∀ i j, (if i = j then (0 : ℝ) else rbfDot X w i j) ≤ if i = j then 0 else 1 := by
    intro i j
    split
    · exact le_rfl
    · rw [C117_rbf]; exact (gauss_entry (by positivity) X i j).2
  have hcount : (∑ i : Fin n, ∑ j : Fin n, if i = j then (0 : ℝ) else 1) = n * (n - 1) := by
    have : ∀ i : Fin n, (∑ j : Fin n, if i = j then (0 : ℝ) else 1) = n - 1 := by
      intro i
      have h1 : (∑ j : Fin n, if i = j then (0 : ℝ) else 1) + (∑ j : Fin n, if i = j then (1 : ℝ) else 0) = n := by
        rw [← Finset.sum_add_distrib]
        have : ∀ j : Fin n, ((if i = j then (0 : ℝ) else 1) + if i = j then (1 : ℝ) else 0) = 1 := fun j => by split <;> norm_num
        simp [this]
      rw [Finset.sum_ite_eq] at h1
      simp only [Finset.mem_univ, if_true] at h1
      linarith
    simp only [this, Finset.sum_const, Finset.card_univ, Fintype.card_fin, nsmul_eq_mul]
  have hlt : (∑ i, ∑ j, if i = j then 0 else rbfDot X w i j) < n * (n - 1) := by
    rw [← hcount]
    have : ∃ i k j, X i j ≠ X k j := by
      by_contra hc
      push Not at hc
      exact hX hc
    obtain ⟨i, k, j, hne⟩ := this
    have hik : i ≠ k := by rintro rfl; exact hne rfl
    refine Finset.sum_lt_sum (fun i _ => Finset.sum_le_sum fun j _ => hle i j) ⟨i, Finset.mem_univ _, ?_⟩
    refine Finset.sum_lt_sum (fun j _ => hle i j) ⟨k, Finset.mem_univ _, ?_⟩
    rw [if_neg hik, if_neg hik, C117_rbf, gaussK, of_apply, Real.exp_lt_one_iff]
    have hd : 0 < sqDist X i k := lt_of_le_of_ne (sqDist_nonneg X i k) fun h0 => hne (sqDist_zero h0.symm j)
    have : 0 < 1 / w ^ 2 := by positivity
    have := mul_pos hd this
    nlinarith
  rw [div_div, one_div_mul_eq_div, div_lt_one hpos]
  exact hlt

theorem coreP_val (cdf : ℝ → ℝ → ℝ → ℝ) (hcdf : ∀ x a s, 0 ≤ cdf x a s ∧ cdf x a s ≤ 1) (hn : 2 ≤ n) (X : Data n d) (Y : Data n e) (hX : ¬ ConstData X) (hY : ¬ ConstData Y)
    {wx wy : ℝ} (hwx : 0 < wx) (hwy : 0 < wy) :
    (gammaVar (gramCenter (rbfDot X wx)) (gramCenter (rbfDot Y wy)) ≠ 0 → ∃ p, coreP cdf X Y wx wy = .val p ∧ 0 ≤ p ∧ p ≤ 1) ∧
    (gammaVar (gramCenter (rbfDot X wx)) (gramCenter (rbfDot Y wy)) = 0 → coreP cdf X Y wx wy = .nan) := by
  have hmean : gammaMean (rbfDot X wx) (rbfDot Y wy) ≠ 0 := by
    rw [gammaMean_eq]
    have h1 := mu_lt_one hn hwx X hX
    have h2 := mu_lt_one hn hwy Y hY
    have hn' : (0 : ℝ) < n := by exact_mod_cast (by omega : 0 < n)
    exact ne_of_gt (mul_pos (by positivity) (mul_pos (by linarith) (by linarith)))
  refine ⟨fun hv => ?_, fun hv => ?_⟩
  · unfold coreP pOf
    rw [if_neg (by rintro (h | h); exacts [hmean h, hv h])]
    refine ⟨_, rfl, ?_, ?_⟩
    · linarith [(hcdf (hsicTest X Y wx wy).1 (hsicTest X Y wx wy).2.1 (hsicTest X Y wx wy).2.2).2]
    · linarith [(hcdf (hsicTest X Y wx wy).1 (hsicTest X Y wx wy).2.1 (hsicTest X Y wx wy).2.2).1]
  · unfold coreP pOf
    rw [if_pos (Or.inr hv)]

/-- The variance vanishes for 4 and 5 samples, and otherwise only if no two different samples have non-zero entries in both centred matrices. -/
theorem gammaVar_zero (hn : 4 ≤ n) (A B : Mat n) : gammaVar A B = 0 ↔ n = 4 ∨ n = 5 ∨ ∀ i j, i ≠ j → A i j * B i j = 0 := by
  have e : (∑ i, ∑ j, (1 / 6 * A i j * B i j) ^ 2) - ∑ i, (1 / 6 * A i i * B i i) ^ 2 = ∑ i, ∑ j, if i = j then 0 else (1 / 6 * A i j * B i j) ^ 2 := by
    rw [← Finset.sum_sub_distrib]
    refine Finset.sum_congr rfl fun i _ => ?_
    have : (1 / 6 * A i i * B i i) ^ 2 = ∑ j, if i = j then (1 / 6 * A i j * B i j) ^ 2 else 0 := by
      rw [Finset.sum_ite_eq]; simp
    rw [this, ← Finset.sum_sub_distrib]
    refine Finset.sum_congr rfl fun j _ => ?_
    split <;> simp
  unfold gammaVar
  rw [e]
  have hn4 : (4 : ℝ) ≤ n := by exact_mod_cast hn
  have h0 : (n : ℝ) ≠ 0 := by linarith
  have h1 : (n : ℝ) - 1 ≠ 0 := by linarith
  have h2 : (n : ℝ) - 2 ≠ 0 := by linarith
  have h3 : (n : ℝ) - 3 ≠ 0 := by linarith
  have c4 : (n : ℝ) - 4 = 0 ↔ n = 4 := by
    rw [sub_eq_zero]; exact ⟨fun h => by exact_mod_cast h, fun h => by rw [h]; norm_num⟩
  have c5 : (n : ℝ) - 5 = 0 ↔ n = 5 := by
    rw [sub_eq_zero]; exact ⟨fun h => by exact_mod_cast h, fun h => by rw [h]; norm_num⟩
  have hS : (∑ i, ∑ j, if i = j then 0 else (1 / 6 * A i j * B i j) ^ 2) = 0 ↔ ∀ i j, i ≠ j → A i j * B i j = 0 := by
    have hnn : ∀ i j, 0 ≤ if i = j then (0 : ℝ) else (1 / 6 * A i j * B i j) ^ 2 := fun i j => by split <;> positivity
    rw [Finset.sum_eq_zero_iff_of_nonneg (fun i _ => Finset.sum_nonneg fun j _ => hnn i j)]
    constructor
    · intro h i j hij
      have := (Finset.sum_eq_zero_iff_of_nonneg (fun j _ => hnn i j)).1 (h i (Finset.mem_univ _)) j (Finset.mem_univ _)
      rw [if_neg hij, sq_eq_zero_iff] at this
      linarith
    · intro h i _
      refine Finset.sum_eq_zero fun j _ => ?_
      split
      · rfl
      · rename_i hij
        rw [mul_assoc, h i j hij]; ring
  simp only [mul_eq_zero, div_eq_zero_iff, c4, c5, hS, h0, h1, h2, h3, or_false, one_ne_zero, false_or, OfNat.ofNat_ne_zero]
  tauto

/-- The rows whose distances `get_kernel_width` looks at. -/
def FirstConst (X : Data n d) : Prop := ∀ i k : Fin n, i.val < 100 → k.val < 100 → ∀ j, X i j = X k j

theorem mem_take (i : Fin n) (m : Nat) : i ∈ (List.finRange n).take m ↔ i.val < m := by
  rw [List.mem_take_iff_getElem]
  constructor
  · rintro ⟨k, hk, h⟩
    rw [List.getElem_finRange] at h
    rw [← h]
    simp at hk ⊢
    omega
  · intro h
    exact ⟨i.val, by simp; omega, by rw [List.getElem_finRange]; rfl⟩

theorem kernelWidth_spec (X : Data n d) : (FirstConst X → kernelWidth X = .nan) ∧ (¬ FirstConst X → ∃ w, kernelWidth X = .val w ∧ 0 < w) := by
  have h : (∀ i ∈ (if n > 100 then (List.finRange n).take 100 else List.finRange n), ∀ k ∈ (if n > 100 then (List.finRange n).take 100 else List.finRange n), ∀ j, X i j = X k j) ↔ FirstConst X := by
    have hm : ∀ i : Fin n, i ∈ (if n > 100 then (List.finRange n).take 100 else List.finRange n) ↔ i.val < 100 := by
      intro i
      split
      · exact mem_take i 100
      · have := i.2; simp; omega
    simp only [hm]
    exact ⟨fun h i k hi hk => h i hi k hk, fun h i hi k hk => h i k hi hk⟩
  have := median_width X (if n > 100 then (List.finRange n).take 100 else List.finRange n)
  rw [h] at this
  exact this

theorem getWidth_spec (X : Data n d) : (ConstData X → getWidth X = .nan) ∧ (¬ ConstData X → ∃ w, getWidth X = .val w ∧ 0 < w) := by
  have h : (∀ i ∈ List.finRange n, ∀ k ∈ List.finRange n, ∀ j, X i j = X k j) ↔ ConstData X := by
    simp [ConstData]
  have := median_width X (List.finRange n)
  rw [h] at this
  exact this

theorem not_const_of_first {X : Data n d} (h : ¬ FirstConst X) : ¬ ConstData X := fun hc => h fun i k _ _ j => hc i k j

/-- **C163** with at least six samples and two non-constant variables (for `hsic_test_gamma`: not constant on the first 100 samples) both tests give a p-value between 0 and 1, except
in the degenerate case that the product of the centred kernel matrices vanishes off the diagonal, where it is NaN. -/
theorem C163_pvalue_partial (cdf : ℝ → ℝ → ℝ → ℝ) (hcdf : ∀ x a s, 0 ≤ cdf x a s ∧ cdf x a s ≤ 1) (hn : 6 ≤ n) (X : Data n d) (Y : Data n e) :
    (¬ ConstData X → ¬ ConstData Y → (∃ p, gamP cdf X Y = .val p ∧ 0 ≤ p ∧ p ≤ 1) ∨
      gamP cdf X Y = .nan ∧ ∃ wx wy, 0 < wx ∧ 0 < wy ∧ ∀ i j, i ≠ j → (center (gaussK (1 / wx ^ 2) X)) i j * (center (gaussK (1 / wy ^ 2) Y)) i j = 0) ∧
    (¬ FirstConst X → ¬ FirstConst Y → (∃ p, testP cdf X Y = .val p ∧ 0 ≤ p ∧ p ≤ 1) ∨
      testP cdf X Y = .nan ∧ ∃ wx wy, 0 < wx ∧ 0 < wy ∧ ∀ i j, i ≠ j → (center (gaussK (1 / wx ^ 2) X)) i j * (center (gaussK (1 / wy ^ 2) Y)) i j = 0) := by
  have key : ∀ wx wy : ℝ, 0 < wx → 0 < wy → ¬ ConstData X → ¬ ConstData Y → (∃ p, coreP cdf X Y wx wy = .val p ∧ 0 ≤ p ∧ p ≤ 1) ∨
      coreP cdf X Y wx wy = .nan ∧ ∃ wx wy, 0 < wx ∧ 0 < wy ∧ ∀ i j, i ≠ j → (center (gaussK (1 / wx ^ 2) X)) i j * (center (gaussK (1 / wy ^ 2) Y)) i j = 0 := by
    intro wx wy hwx hwy hX hY
    obtain ⟨h1, h2⟩ := coreP_val cdf hcdf (by omega) X Y hX hY hwx hwy
    by_cases hv : gammaVar (gramCenter (rbfDot X wx)) (gramCenter (rbfDot Y wy)) = 0
    · refine .inr ⟨h2 hv, wx, wy, hwx, hwy, ?_⟩
      rcases (gammaVar_zero (by omega) _ _).1 hv with h | h | h
      · omega
      · omega
      · have e : ∀ {d : Nat} (X : Data n d) (w : ℝ), gramCenter (rbfDot X w) = center (gaussK (1 / w ^ 2) X) := by
          intro d X w
          rw [gramCenter_eq, C117_rbf, center_eq_hkh (symm_of_psd (psd_gauss (by positivity) X))]
          rfl
        rw [e, e] at h
        exact h
    · exact .inl (h1 hv)
  refine ⟨fun hX hY => ?_, fun hX hY => ?_⟩
  · obtain ⟨wx, hx, hwx⟩ := (getWidth_spec X).2 hX
    obtain ⟨wy, hy, hwy⟩ := (getWidth_spec Y).2 hY
    rw [gamP_core, if_neg (by omega), hx, hy]
    exact key wx wy hwx hwy hX hY
  · obtain ⟨wx, hx, hwx⟩ := (kernelWidth_spec X).2 hX
    obtain ⟨wy, hy, hwy⟩ := (kernelWidth_spec Y).2 hY
    rw [testP_core, if_neg (by omega), hx, hy]
    exact key wx wy hwx hwy (not_const_of_first hX) (not_const_of_first hY)

/-- **C163 is false for few samples**: with at most three samples both tests raise, with four or five they never give a number. -/
theorem C163_few_samples_violated (cdf : ℝ → ℝ → ℝ → ℝ) (X : Data n d) (Y : Data n e) :
    (n ≤ 3 → testP cdf X Y = .raises ∧ gamP cdf X Y = .raises) ∧ (n = 4 ∨ n = 5 → testP cdf X Y = .nan ∧ gamP cdf X Y = .nan) := by
  refine ⟨fun h => ⟨by rw [testP_core, if_pos h], by rw [gamP_core, if_pos h]⟩, fun h => ?_⟩
  have hc : ∀ wx wy, coreP cdf X Y wx wy = .nan := by
    intro wx wy
    unfold coreP pOf
    rw [if_pos (Or.inr ((gammaVar_zero (by omega) _ _).2 (by omega)))]
  have hb : ∀ a b : Res ℝ, a ≠ .raises → b ≠ .raises → (a.bind fun wx => b.bind fun wy => coreP cdf X Y wx wy) = .nan := by
    intro a b ha hb
    cases a with
    | raises => exact absurd rfl ha
    | nan => rfl
    | val x =>
      cases b with
      | raises => exact absurd rfl hb
      | nan => rfl
      | val y => exact hc x y
  exact ⟨by rw [testP_core, if_neg (by omega)]; exact hb _ _ (kernelWidth_ne X) (kernelWidth_ne Y),
    by rw [gamP_core, if_neg (by omega)]; exact hb _ _ (getWidth_ne X) (getWidth_ne Y)⟩

/-- **C163 is false for `hsic_test_gamma` when a variable is constant on the first 100 samples**: the p-value is NaN however the variable varies afterwards. -/
theorem C163_first_rows_violated (cdf : ℝ → ℝ → ℝ → ℝ) (hn : 4 ≤ n) (X : Data n d) (Y : Data n e) (h : FirstConst X) :
    testStatistic X Y = .nan ∧ testP cdf X Y = .nan := by
  constructor
  · unfold testStatistic
    rw [if_neg (by omega), (kernelWidth_spec X).1 h]; rfl
  · rw [testP_core, if_neg (by omega), (kernelWidth_spec X).1 h]; rfl

/-- A variable that differs only in the last of 101 samples. -/
def lastOne : Data 101 1 := fun i _ => if i.val = 100 then 1 else 0

/-- **C162 is false for `hsic_test_gamma` with more than 100 samples**: the same samples in two orders give NaN and a number. -/
theorem C162_order_violated : ∃ σ : Equiv.Perm (Fin 101), testStatistic lastOne lastOne = .nan ∧
    ∃ v, testStatistic (fun i => lastOne (σ i)) (fun i => lastOne (σ i)) = .val v := by
  refine ⟨Equiv.swap 0 100, ?_, ?_⟩
  · refine (C163_first_rows_violated (fun _ _ _ => 0) (by norm_num) lastOne lastOne ?_).1
    intro i k hi hk j
    unfold lastOne
    rw [if_neg (by omega), if_neg (by omega)]
  · have h : ¬ FirstConst (fun i => lastOne (Equiv.swap (0 : Fin 101) 100 i)) := by
      intro hc
      have := hc 0 1 (by decide) (by decide) 0
      dsimp only at this
      rw [Equiv.swap_apply_left, Equiv.swap_apply_of_ne_of_ne (by decide) (by decide)] at this
      unfold lastOne at this
      rw [if_pos (by decide), if_neg (by decide)] at this
      norm_num at this
    obtain ⟨w, hw, -⟩ := (kernelWidth_spec _).2 h
    unfold testStatistic
    rw [if_neg (by norm_num), hw]
    exact ⟨_, rfl⟩

/-- **C163** the accept/reject answer of `hsic_gam` agrees with its p-value: if `ppf` is the quantile function of `cdf`, then `testStat < threshold` exactly if the p-value exceeds `alph`. -/
theorem C163_decision (cdf ppf : ℝ → ℝ → ℝ → ℝ) (alph : ℝ) (r : ℝ × ℝ × ℝ) (hq : ∀ x, ppf (1 - alph) r.2.1 r.2.2 ≤ x ↔ 1 - alph ≤ cdf x r.2.1 r.2.2) :
    gamDecision ppf alph r ↔ alph < 1 - cdf r.1 r.2.1 r.2.2 := by
  unfold gamDecision
  rw [← not_le, hq, not_le]
  constructor <;> intro h <;> linarith

/-- Concrete cases for C162, C163: six samples, two non-constant variables. -/
example : ¬ ConstData (fun i _ => (i.val : ℝ) : Data 6 1) ∧ ¬ FirstConst (fun i _ => (i.val : ℝ) : Data 6 1) := by
  constructor
  · intro h; have := h 0 1 0; norm_num at this
  · intro h; have := h 0 1 (by decide) (by decide) 0; norm_num at this

/-- A binary variable, three samples of each value. -/
def binary6 : Data 6 1 := fun i _ => if i.val < 3 then 0 else 1

/-- C163: the p-value of the binary variable and itself is a number. -/
example (cdf : ℝ → ℝ → ℝ → ℝ) (hcdf : ∀ x a s, 0 ≤ cdf x a s ∧ cdf x a s ≤ 1) : ∃ p, gamP cdf binary6 binary6 = .val p ∧ 0 ≤ p ∧ p ≤ 1 := by
  have hX : ¬ ConstData binary6 := by intro h; have := h 0 3 0; simp [binary6] at this
  rcases (C163_pvalue_partial cdf hcdf (le_refl 6) binary6 binary6).1 hX hX with h | ⟨-, wx, wy, hwx, hwy, h⟩
  · exact h
  · exfalso
    have hval : ∀ w : ℝ, 0 < w → 0 < center (gaussK (1 / w ^ 2) binary6) 0 1 := by
      intro w hw
      have hd : ∀ i k : Fin 6, sqDist binary6 i k = if (i.val < 3 ↔ k.val < 3) then 0 else 1 := by
        intro i k
        simp only [sqDist, binary6, Finset.univ_unique, Finset.sum_singleton]
        by_cases h1 : i.val < 3 <;> by_cases h2 : k.val < 3 <;> simp [h1, h2]
      have hc : Real.exp (-(1 / 2 * (w ^ 2)⁻¹)) < 1 := by
        rw [Real.exp_lt_one_iff]
        have : 0 < (w ^ 2)⁻¹ := by positivity
        linarith
      simp only [center, gaussK, of_apply, hd, Fin.sum_univ_six]
      norm_num
      linarith
    have h1 := hval wx hwx
    have h2 := hval wy hwy
    exact absurd (h 0 1 (by decide)) (ne_of_gt (mul_pos h1 h2))

end CL.Hsic
