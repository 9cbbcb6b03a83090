import Verif.Model.Granger
import Mathlib.Tactic.Linarith
import Mathlib.Tactic.NormNum
import Mathlib.Tactic.Ring
import Mathlib.Tactic.Push
import Mathlib.Data.List.GetD

/-!
# C128, C129: Granger causality
-/
namespace CL.Granger

theorem rint_near (x : ℝ) : |(rint x : ℝ) - x| ≤ 1 / 2 := by
  have h1 := Int.floor_le x
  have h2 := Int.lt_floor_add_one x
  unfold rint
  rw [abs_le]
  split_ifs <;> push_cast <;> constructor <;> linarith

theorem rint_int (k : ℤ) : rint (k : ℝ) = k := by
  unfold rint
  simp

/-- a tie goes to the even neighbour -/
theorem rint_tie (k : ℤ) : rint ((2 * k : ℤ) + 1 / 2 : ℝ) = 2 * k ∧ rint ((2 * k + 1 : ℤ) + 1 / 2 : ℝ) = 2 * k + 2 := by
  have h : ∀ m : ℤ, ⌊((m : ℝ) + 1 / 2)⌋ = m := fun m => by rw [Int.floor_intCast_add]; norm_num
  constructor
  · unfold rint
    rw [h]
    norm_num
  · unfold rint
    rw [h]
    norm_num
    rw [if_neg (by rw [Int.not_odd_iff_even]; exact even_two_mul k)]
    omega

theorem rint_mono_int {x : ℝ} {k : ℤ} : rint x < k → x < k := by
  intro h
  have h1 := abs_le.1 (rint_near x)
  have h2 : (rint x : ℝ) ≤ (k : ℝ) - 1 := by exact_mod_cast Int.le_sub_one_of_lt h
  linarith

theorem round4_near (x : ℝ) : |round4 x - x| ≤ 1 / 20000 := by
  have h := abs_le.1 (rint_near (x * 10000))
  unfold round4
  rw [abs_le]
  constructor <;> linarith

theorem fill_foldl (pv : PVal) (ts : List (Nat × Nat × Nat)) (P0 : Nat → Nat → ℝ) (a b : Nat)
    (hinj : ∀ t ∈ ts, ∀ t' ∈ ts, t.2.1 = t'.2.1 → t.1 + 2 * t.2.2 = t'.1 + 2 * t'.2.2 → t = t') :
    (∀ t ∈ ts, a = t.2.1 → b = t.1 + 2 * t.2.2 →
      (ts.foldl (fun (P : Nat → Nat → ℝ) t => fun a b => if a = t.2.1 ∧ b = t.1 + 2 * t.2.2 then round4 (pv t.2.1 t.1 (t.2.2 + 1)) else P a b) P0) a b =
        round4 (pv t.2.1 t.1 (t.2.2 + 1))) ∧
    ((∀ t ∈ ts, ¬ (a = t.2.1 ∧ b = t.1 + 2 * t.2.2)) →
      (ts.foldl (fun (P : Nat → Nat → ℝ) t => fun a b => if a = t.2.1 ∧ b = t.1 + 2 * t.2.2 then round4 (pv t.2.1 t.1 (t.2.2 + 1)) else P a b) P0) a b = P0 a b) := by
  induction ts generalizing P0 with
  | nil => simp
  | cons t ts ih =>
    obtain ⟨ih1, ih2⟩ := ih (fun a b => if a = t.2.1 ∧ b = t.1 + 2 * t.2.2 then round4 (pv t.2.1 t.1 (t.2.2 + 1)) else P0 a b)
      (fun t h t' h' => hinj t (.tail _ h) t' (.tail _ h'))
    simp only [List.foldl_cons]
    refine ⟨fun t' ht' ha hb => ?_, fun hn => ?_⟩
    · by_cases hex : ∃ u ∈ ts, a = u.2.1 ∧ b = u.1 + 2 * u.2.2
      · obtain ⟨u, hu, hua, hub⟩ := hex
        have : t' = u := hinj t' ht' u (.tail _ hu) (by omega) (by omega)
        subst this
        exact ih1 t' hu hua hub
      · push Not at hex
        rw [ih2 (fun u hu h => hex u hu h.1 h.2)]
        rcases List.mem_cons.1 ht' with rfl | h
        · rw [if_pos ⟨ha, hb⟩]
        · exact absurd hb (hex t' h ha)
    · rw [ih2 fun u hu => hn u (.tail _ hu), if_neg (hn t (.head _))]

theorem mem_cells (maxlag : Nat) (t : Nat × Nat × Nat) :
    t ∈ ((List.range 2).flatMap fun c => (List.range 2).flatMap fun r => if r ≠ c then (List.range maxlag).map fun i => (c, r, i) else []) ↔
      t.1 < 2 ∧ t.2.1 < 2 ∧ t.2.1 ≠ t.1 ∧ t.2.2 < maxlag := by
  obtain ⟨c, r, i⟩ := t
  simp only [List.mem_flatMap, List.mem_range]
  constructor
  · rintro ⟨c', hc, r', hr, h⟩
    split at h
    · rename_i hne
      simp only [List.mem_map, List.mem_range, Prod.mk.injEq] at h
      obtain ⟨i', hi, rfl, rfl, rfl⟩ := h
      exact ⟨hc, hr, hne, hi⟩
    · cases h
  · rintro ⟨hc, hr, hne, hi⟩
    refine ⟨c, hc, r, hr, ?_⟩
    rw [if_pos hne]
    simpa using hi

theorem fill_spec (pv : PVal) (maxlag : Nat) (r c i : Nat) (hr : r < 2) (hc : c < 2) (hi : i < maxlag) :
    fill pv maxlag r (c + 2 * i) = if r = c then 0 else round4 (pv r c (i + 1)) := by
  have h := fill_foldl pv ((List.range 2).flatMap fun c => (List.range 2).flatMap fun r => if r ≠ c then (List.range maxlag).map fun i => (c, r, i) else [])
    (fun _ _ => 0) r (c + 2 * i) (by
      rintro ⟨c, r, i⟩ ht ⟨c', r', i'⟩ ht' h1 h2
      rw [mem_cells] at ht ht'
      simp only [Prod.mk.injEq] at *
      omega)
  unfold fill
  split
  · rename_i heq
    refine h.2 ?_
    rintro ⟨c', r', i'⟩ ht ⟨h1, h2⟩
    rw [mem_cells] at ht
    dsimp only at *
    omega
  · exact h.1 (c, r, i) ((mem_cells maxlag _).2 ⟨hc, hr, by assumption, hi⟩) rfl rfl

/-- **C128**, what is true of two different variables: the stored p-value is within 0.00005 of the p-value of the test "c does not Granger-cause r with `i + 1` lags", and
the adjacency entry agrees with the comparison of the p-value with the level whenever they differ by more than that; if the level is a multiple of 0.0001, an entry 1 is
always right. -/
theorem C128_off_diagonal_partial (pv : PVal) (maxlag : Nat) (level : ℝ) (P : Nat → Nat → ℝ) (A : Nat → Nat → Nat) (h : test2d pv maxlag 2 level = some (P, A))
    (r c i : Nat) (hr : r < 2) (hc : c < 2) (hrc : r ≠ c) (hi : i < maxlag) :
    |P r (c + 2 * i) - pv r c (i + 1)| ≤ 1 / 20000 ∧
    (pv r c (i + 1) < level - 1 / 20000 → A r (c + 2 * i) = 1) ∧
    (level + 1 / 20000 ≤ pv r c (i + 1) → A r (c + 2 * i) = 0) ∧
    ((∃ k : ℤ, level = k / 10000) → A r (c + 2 * i) = 1 → pv r c (i + 1) < level) := by
  unfold test2d at h
  rw [if_pos rfl] at h
  simp only [Option.some_inj, Prod.mk.injEq] at h
  obtain ⟨rfl, rfl⟩ := h
  have hf := fill_spec pv maxlag r c i hr hc hi
  rw [if_neg hrc] at hf
  have hn := abs_le.1 (round4_near (pv r c (i + 1)))
  dsimp only
  rw [hf]
  refine ⟨abs_le.2 hn, fun h => if_pos (by linarith), fun h => if_neg (by linarith), ?_⟩
  rintro ⟨k, rfl⟩ h
  have hlt : round4 (pv r c (i + 1)) < k / 10000 := by
    by_contra hn
    rw [if_neg hn] at h
    cases h
  unfold round4 at hlt
  have h1 : (rint (pv r c (i + 1) * 10000) : ℝ) < k := by linarith
  have h2 := rint_mono_int (by exact_mod_cast h1 : rint (pv r c (i + 1) * 10000) < k)
  linarith

/-- **C128** is false near the level: the p-value 0.00996 is below the level 0.01, but it is rounded to 0.01 first and the influence is not reported. -/
theorem C128_rounding_violated : ∃ (pv : PVal) (P : Nat → Nat → ℝ) (A : Nat → Nat → Nat), test2d pv 1 2 0.01 = some (P, A) ∧ pv 0 1 1 < 0.01 ∧ A 0 1 = 0 := by
  refine ⟨fun _ _ _ => 0.00996, _, _, by unfold test2d; rw [if_pos rfl], by norm_num, ?_⟩
  have hf := fill_spec (fun _ _ _ => 0.00996) 1 0 1 0 (by norm_num) (by norm_num) (by norm_num)
  simp only [Nat.mul_zero, Nat.add_zero, zero_ne_one, if_false] at hf
  rw [hf, if_neg]
  have : rint (0.00996 * 10000) = 100 := by
    have hfl : ⌊(0.00996 * 10000 : ℝ)⌋ = 99 := by rw [Int.floor_eq_iff]; norm_num
    unfold rint
    rw [hfl]
    norm_num
  unfold round4
  rw [this]
  norm_num

/-- **C128** is false on the diagonal: whatever the data, and for every positive level, every variable is reported to influence itself at every lag, with p-value 0; no
test is made (the value does not depend on `pv`). -/
theorem C128_diagonal_violated (pv : PVal) (maxlag : Nat) (level : ℝ) (hl : 0 < level) (P : Nat → Nat → ℝ) (A : Nat → Nat → Nat)
    (h : test2d pv maxlag 2 level = some (P, A)) (r i : Nat) (hr : r < 2) (hi : i < maxlag) : P r (r + 2 * i) = 0 ∧ A r (r + 2 * i) = 1 := by
  unfold test2d at h
  rw [if_pos rfl] at h
  simp only [Option.some_inj, Prod.mk.injEq] at h
  obtain ⟨rfl, rfl⟩ := h
  have hf := fill_spec pv maxlag r r i hr hr hi
  rw [if_pos rfl] at hf
  exact ⟨hf, by dsimp only; rw [hf, if_pos hl]⟩

/-- The test is refused for other numbers of variables. -/
theorem C128_two_dimensional (pv : PVal) (maxlag dim : Nat) (level : ℝ) : (test2d pv maxlag dim level).isSome ↔ dim = 2 := by
  unfold test2d; split <;> simp_all

/-! ## C129 -/

theorem hstack_rows {α : Type} (m : Nat) : ∀ (As : List (List (List α))), As ≠ [] → (∀ A ∈ As, A.length = m) →
    ∃ X, hstack As = some X ∧ X.length = m ∧ ∀ s < m, X[s]? = some (As.flatMap fun A => A.getD s []) := by
  intro As
  induction As with
  | nil => intro h; exact absurd rfl h
  | cons A As ih =>
    intro _ hl
    have hA := hl A (by simp)
    cases As with
    | nil =>
      refine ⟨A, rfl, hA, fun s hs => ?_⟩
      rw [List.getElem?_eq_getElem (by omega), List.flatMap_cons, List.flatMap_nil, List.append_nil, List.getD_eq_getElem _ _ (show s < A.length by omega)]
    | cons B rest =>
      obtain ⟨C, h1, h2, h3⟩ := ih (by simp) (fun A hA => hl A (.tail _ hA))
      refine ⟨List.zipWith (· ++ ·) A C, ?_, by simp [hA, h2], fun s hs => ?_⟩
      · simp only [hstack, h1, Option.bind_some]
        rw [if_pos (by rw [hA, h2])]
      · have hs1 : s < A.length := by omega
        have := h3 s hs
        rw [List.getElem?_zipWith, this, List.getElem?_eq_getElem hs1]
        simp only [List.flatMap_cons, List.getD_eq_getElem _ _ hs1]

theorem slice_length {α : Type} (l : List α) (a : Nat) (b : Option Nat) : (slice l a b).length = l.length - b.getD 0 - a := by
  unfold slice; simp

theorem slice_get {α : Type} (l : List α) (a : Nat) (b : Option Nat) (s : Nat) (h : s < l.length - b.getD 0 - a) : (slice l a b)[s]? = l[a + s]? := by
  unfold slice
  rw [List.getElem?_drop, List.getElem?_take_of_lt (by omega)]

/-- Column `j` of block `k` of a row that is the concatenation of blocks of the same width. -/
theorem block_get {α : Type} (f : Nat → List α) (dim : Nat) (j : Nat) (hj : j < dim) : ∀ (m k0 k : Nat), (∀ k, k0 ≤ k → k < k0 + m → (f k).length = dim) → k < m →
    ((List.range' k0 m).flatMap f)[k * dim + j]? = (f (k0 + k))[j]? := by
  intro m
  induction m with
  | zero => intro _ _ _ h; omega
  | succ m ih =>
    intro k0 k hf hk
    rw [List.range'_succ, List.flatMap_cons]
    have h0 := hf k0 le_rfl (by omega)
    cases k with
    | zero => rw [List.getElem?_append_left (by omega)]; simp
    | succ k =>
      rw [List.getElem?_append_right (by rw [h0]; nlinarith), h0, show (k + 1) * dim + j - dim = k * dim + j by
        rw [Nat.add_mul, one_mul]; omega, ih (k0 + 1) k (fun k' h1 h2 => hf k' (by omega) (by omega)) (by omega), show k0 + 1 + k = k0 + (k + 1) by omega]

/-- **C129**: for every `maxlag ≥ 1` and every rectangular data array, the regression of `granger_lasso` has one row per time `t = maxlag, …, n - 1`; the target row is the
observation at time `t`, and entry `(k - 1) * dim + j` of the regressor row is the observation of variable `j` at time `t - k`. -/
theorem C129_design {α : Type} (maxlag dim : Nat) (hm : 1 ≤ maxlag) (data : List (List α)) (hd : ∀ row ∈ data, row.length = dim) :
    ∃ X Y, design maxlag data = some (X, Y) ∧ X.length = data.length - maxlag ∧ Y.length = data.length - maxlag ∧
      ∀ s < data.length - maxlag, Y[s]? = data[maxlag + s]? ∧
        ∀ k j, 1 ≤ k → k ≤ maxlag → j < dim → X[s]?.bind (·[(k - 1) * dim + j]?) = data[maxlag + s - k]?.bind (·[j]?) := by
  have hlen : ∀ A ∈ (List.range' 1 maxlag).map (fun k => slice data (maxlag - k) (some k)), A.length = data.length - maxlag := by
    intro A hA
    obtain ⟨k, hk, rfl⟩ := List.mem_map.1 hA
    rw [List.mem_range'_1] at hk
    rw [slice_length, Option.getD_some]
    omega
  obtain ⟨X, h1, h2, h3⟩ := hstack_rows (data.length - maxlag) _ (by
    intro h
    have := congrArg List.length h
    simp at this
    omega) hlen
  refine ⟨X, slice data maxlag none, by unfold design; rw [h1]; rfl, h2, by rw [slice_length]; simp, fun s hs => ⟨slice_get _ _ _ _ (by simpa using hs), ?_⟩⟩
  intro k j hk1 hk2 hj
  rw [h3 s hs, Option.bind_some, List.flatMap_map]
  have hget : ∀ k, 1 ≤ k → k < 1 + maxlag → (slice data (maxlag - k) (some k)).getD s [] = data.getD (maxlag + s - k) [] := by
    intro k h1 h2
    rw [List.getD_eq_getElem?_getD, slice_get _ _ _ _ (by rw [Option.getD_some]; omega), ← List.getD_eq_getElem?_getD, show maxlag - k + s = maxlag + s - k by omega]
  have := block_get (fun k => (slice data (maxlag - k) (some k)).getD s []) dim j hj maxlag 1 (k - 1) (by
    intro k h1 h2
    rw [hget k h1 h2, List.getD_eq_getElem _ _ (by omega)]
    exact hd _ (List.getElem_mem _)) (by omega)
  rw [this, show 1 + (k - 1) = k by omega]
  rw [hget k hk1 (by omega), List.getD_eq_getElem _ _ (by omega), List.getElem?_eq_getElem (show maxlag + s - k < data.length by omega), Option.bind_some]

/-- **C129**: row `i` of the returned coefficients is the lasso fit of the present values of variable `i` (times `maxlag, …, n - 1`) on these regressors. -/
theorem C129_coefficients {α : Type} [Zero α] (lasso : List (List α) → List α → Nat → α) (maxlag dim : Nat) (hm : 1 ≤ maxlag) (data : List (List α))
    (hd : ∀ row ∈ data, row.length = dim) :
    ∃ B X, lassoCoef lasso maxlag dim data = some B ∧ X.length = data.length - maxlag ∧
      (∀ s < data.length - maxlag, ∀ k j, 1 ≤ k → k ≤ maxlag → j < dim → X[s]?.bind (·[(k - 1) * dim + j]?) = data[maxlag + s - k]?.bind (·[j]?)) ∧
      ∀ i < dim, B i = lasso X ((data.drop maxlag).map fun row => row.getD i 0) := by
  obtain ⟨X, Y, h1, h2, h3, h4⟩ := C129_design maxlag dim hm data hd
  have hY : Y = data.drop maxlag := by
    refine List.ext_getElem? fun s => ?_
    by_cases hs : s < data.length - maxlag
    · rw [(h4 s hs).1, List.getElem?_drop]
    · rw [List.getElem?_eq_none (by omega), List.getElem?_eq_none (by simp; omega)]
  refine ⟨_, X, by unfold lassoCoef; rw [h1, Option.map_some], h2, fun s hs => (h4 s hs).2, fun i hi => ?_⟩
  funext c
  rw [if_pos hi, hY]

/-- **C129**: `maxlag = 0` is refused. -/
theorem C129_no_lag {α : Type} (data : List (List α)) : design 0 data = none := rfl

example : design 2 [[1, 10], [2, 20], [3, 30], [4, 40]] = some ([[2, 20, 1, 10], [3, 30, 2, 20]], [[3, 30], [4, 40]]) := by decide

end CL.Granger
