import Verif.Model.Pairwise
import Verif.Props.Kci

/-!
# C164–C166: the pairwise methods ANM and PNL
-/
namespace CL.Pairwise
open Kci
variable {n : Nat}

/-! ## C164: ANM -/

/-- **C164** the two answers of `ANM.cause_or_effect` are swapped when the two variables are. -/
theorem C164_swap (c : UCfg) (fit : Data n 1 → Data n 1 → Data n 1) (X Y : Data n 1) : anm c fit Y X = ((anm c fit X Y).2, (anm c fit X Y).1) := rfl

/-- **C164** each answer is a p-value in [0, 1] of the test of the assumed cause and the residual, unless one of these is constant, when it is NaN; never an exception (valid kernels). -/
theorem C164_pvalues_partial (c : UCfg) (hc : c.Valid) (hcdf : ∀ x k θ, 0 ≤ c.cdf x k θ ∧ c.cdf x k θ ≤ 1) (hn : n ≤ 1000 ∨ c.width ≠ .median)
    (fit : Data n 1 → Data n 1 → Data n 1) (X Y : Data n 1) :
    ((∃ p, (anm c fit X Y).1 = .val p ∧ 0 ≤ p ∧ p ≤ 1) ∧ ¬ ConstData X ∧ ¬ ConstData (fun i j => Y i j - fit X Y i j) ∨
      (anm c fit X Y).1 = .nan ∧ (ConstData X ∨ ConstData fun i j => Y i j - fit X Y i j)) ∧
    ((∃ p, (anm c fit X Y).2 = .val p ∧ 0 ≤ p ∧ p ≤ 1) ∧ ¬ ConstData Y ∧ ¬ ConstData (fun i j => X i j - fit Y X i j) ∨
      (anm c fit X Y).2 = .nan ∧ (ConstData Y ∨ ConstData fun i j => X i j - fit Y X i j)) := by
  have key : ∀ A B : Data n 1, (∃ p, c.pApprox [] [] A B = .val p ∧ 0 ≤ p ∧ p ≤ 1) ∧ ¬ ConstData A ∧ ¬ ConstData B ∨
      c.pApprox [] [] A B = .nan ∧ (ConstData A ∨ ConstData B) := by
    intro A B
    rcases C120_pvalue_partial c hc hcdf [] [] A B one_pos one_pos hn with h | ⟨h1, h2, Kx, Ky, k, θ, p, -, h3, h4, h5, -⟩
    · exact .inr h
    · exact .inl ⟨⟨p, h3, h4, h5⟩, h1, h2⟩
  exact ⟨key X _, key Y _⟩

/-- **C164 is false for a perfect fit**: if the regression reproduces the effect exactly (a noiseless function, the clearest case), the p-value of the true direction is NaN. -/
theorem C164_noiseless_violated (cdf : ℝ → ℝ → ℝ → ℝ) (hcdf : ∀ x k θ, 0 ≤ cdf x k θ ∧ cdf x k θ ≤ 1) (fit : Data n 1 → Data n 1 → Data n 1) (X Y : Data n 1) (hfit : fit X Y = Y) :
    (anm ⟨.gaussian, .gaussian, .empirical, 2, none, none, cdf⟩ fit X Y).1 = .nan := by
  rcases (C164_pvalues_partial ⟨.gaussian, .gaussian, .empirical, 2, none, none, cdf⟩ (by simp [UCfg.Valid]) hcdf (Or.inr (by simp)) fit X Y).1 with h | h
  · exact absurd (fun i k j => by rw [hfit]; simp) h.2.2
  · exact h.1

/-! ## C165: the test of PNL -/

theorem mean_perm (y : Fin n → ℝ) (σ : Equiv.Perm (Fin n)) : mean (fun i => y (σ i)) = mean y := by
  unfold mean; rw [Equiv.sum_comp σ y]

theorem variance_perm (y : Fin n → ℝ) (σ : Equiv.Perm (Fin n)) : variance (fun i => y (σ i)) = variance y := by
  unfold variance; rw [mean_perm, Equiv.sum_comp σ fun i => (y i - mean y) ^ 2]

/-- **C165 is false** (the documentation promises a test of independence of cause and estimated noise): the p-value is the same for every re-pairing of the noise with the cause, so it
cannot tell a noise that depends on the cause from one that does not. -/
theorem C165_blind_violated (tail : ℝ → ℝ → ℝ) (x e : Fin n → ℝ) (σ τ : Equiv.Perm (Fin n)) :
    tTest tail (fun i => x (σ i)) (fun i => e (τ i)) = tTest tail x e := by
  unfold tTest tDenom
  rw [mean_perm, mean_perm, variance_perm, variance_perm]

theorem variance_pos (hn : 2 ≤ n) (x : Fin n → ℝ) (hx : ∃ i k, x i ≠ x k) : 0 < variance x := by
  have h1 : (0 : ℝ) < (n : ℝ) - 1 := by
    have : (2 : ℝ) ≤ n := by exact_mod_cast hn
    linarith
  refine div_pos ?_ h1
  obtain ⟨i, k, hne⟩ := hx
  by_cases h : x i = mean x
  · exact Finset.sum_pos' (fun _ _ => sq_nonneg _) ⟨k, Finset.mem_univ _, by
      have : x k - mean x ≠ 0 := by rw [← h]; exact sub_ne_zero.2 (Ne.symm hne)
      positivity⟩
  · exact Finset.sum_pos' (fun _ _ => sq_nonneg _) ⟨i, Finset.mem_univ _, by
      have : x i - mean x ≠ 0 := sub_ne_zero.2 h
      positivity⟩

theorem tDenom_pos (hn : 2 ≤ n) (x y : Fin n → ℝ) (hx : ∃ i k, x i ≠ x k) : 0 < tDenom x y := by
  have hn' : (2 : ℝ) ≤ n := by exact_mod_cast hn
  have h1 := variance_pos hn x hx
  have h2 : 0 ≤ variance y := div_nonneg (Finset.sum_nonneg fun _ _ => sq_nonneg _) (by linarith)
  unfold tDenom
  refine Real.sqrt_pos.2 (mul_pos (div_pos ?_ (by linarith)) (by positivity))
  have := mul_pos (show (0 : ℝ) < (n : ℝ) - 1 by linarith) h1
  have := mul_nonneg (show (0 : ℝ) ≤ (n : ℝ) - 1 by linarith) h2
  linarith

/-- **C165** the same for the answers of `PNL.cause_or_effect` itself: both are unchanged if the estimated noise is re-paired with the assumed cause in any way. -/
theorem C165_answers_violated {Θ Rng : Type} (N : Nets Θ Rng) (seed : Rng) (tail : ℝ → ℝ → ℝ) (epochs : Nat) (X Y : Fin n → ℝ) :
    ∃ e e' : Fin n → ℝ, ∀ σ : Equiv.Perm (Fin n), pnl N seed tail epochs X Y = (tTest tail X (fun i => e (σ i)), tTest tail Y (fun i => e' (σ i))) := by
  refine ⟨(nica N epochs X Y seed).2.1, (nica N epochs Y X (nica N epochs X Y seed).2.2).2.1, fun σ => ?_⟩
  have h1 := C165_blind_violated tail X (nica N epochs X Y seed).2.1 (Equiv.refl _) σ
  have h2 := C165_blind_violated tail Y (nica N epochs Y X (nica N epochs X Y seed).2.2).2.1 (Equiv.refl _) σ
  simp only [Equiv.refl_apply] at h1 h2
  rw [h1, h2]; rfl

/-- the pooled standard error of two samples of the same size -/
theorem tDenom_eq (hn : 2 ≤ n) (x y : Fin n → ℝ) :
    tDenom x y = √((∑ i, (x i - (∑ k, x k) / n) ^ 2 + ∑ i, (y i - (∑ k, y k) / n) ^ 2) / (n * ((n : ℝ) - 1))) := by
  have hn' : (2 : ℝ) ≤ n := by exact_mod_cast hn
  have h1 : (n : ℝ) - 1 ≠ 0 := by linarith
  have h2 : (n : ℝ) + n - 2 = 2 * ((n : ℝ) - 1) := by ring
  have h3 : (n : ℝ) ≠ 0 := by linarith
  unfold tDenom variance mean
  rw [h2]
  congr 1
  field_simp
  ring

/-- **C165 is false**: a noise that equals the cause (complete dependence) gets `t = 0`, the largest p-value there is (`tail 0 = 1`); and adding a constant `c` to a noise, which does not change its (in)dependence, moves `t`
by `-c` divided by the pooled standard error, which does not depend on `c`, so the p-value is as small as one likes. -/
theorem C165_means_violated (tail : ℝ → ℝ → ℝ) (hn : 2 ≤ n) (x e : Fin n → ℝ) (hx : ∃ i k, x i ≠ x k) :
    tTest tail x x = .val (tail 0 (n + n - 2)) ∧
    ∀ c, tTest tail x (fun i => e i + c) = .val (tail (((∑ i, x i) / n - (∑ i, e i) / n - c) /
      √((∑ i, (x i - (∑ k, x k) / n) ^ 2 + ∑ i, (e i - (∑ k, e k) / n) ^ 2) / (n * ((n : ℝ) - 1)))) (n + n - 2)) := by
  rw [← tDenom_eq hn]
  have hn0 : (n : ℝ) ≠ 0 := by have : (2 : ℝ) ≤ n := by exact_mod_cast hn
                               linarith
  constructor
  · unfold tTest
    rw [if_neg (by omega), if_neg (tDenom_pos hn x x hx).ne', sub_self, zero_div]
  · intro c
    have hm : mean (fun i => e i + c) = mean e + c := by
      unfold mean
      rw [Finset.sum_add_distrib]
      simp only [Finset.sum_const, Finset.card_univ, Fintype.card_fin, nsmul_eq_mul]
      field_simp
    have hv : variance (fun i => e i + c) = variance e := by
      unfold variance
      rw [hm]
      have : ∀ i, (e i + c - (mean e + c)) ^ 2 = (e i - mean e) ^ 2 := fun i => by ring
      simp only [this]
    have hd : tDenom x (fun i => e i + c) = tDenom x e := by unfold tDenom; rw [hv]
    unfold tTest
    rw [if_neg (by omega), hd, if_neg (tDenom_pos hn x e hx).ne', hm, sub_sub]
    unfold mean
    rfl

/-! ## C166: the training of PNL -/

theorem batches_nil {R : Type} (rows : List R) (h : rows.length < 128) : batches rows = [] := by
  unfold batches; rw [Nat.div_eq_of_lt h]; rfl

/-- The batches of an epoch only contain the rows before the last multiple of 128. -/
theorem batches_congr {R : Type} (rows rows' : List R) (hl : rows.length = rows'.length)
    (h : rows.take (128 * (rows.length / 128)) = rows'.take (128 * (rows.length / 128))) : batches rows = batches rows' := by
  unfold batches
  rw [← hl]
  refine List.map_congr_left fun b hb => ?_
  have hb := List.mem_range.1 hb
  have key : ∀ l : List R, (l.drop (128 * b)).take 128 = ((l.take (128 * (rows.length / 128))).drop (128 * b)).take 128 := by
    intro l
    rw [List.drop_take, List.take_take, min_eq_left]
    have : 128 * (b + 1) ≤ 128 * (rows.length / 128) := Nat.mul_le_mul_left _ hb
    omega
  rw [key rows, key rows', h]

theorem train_nil {R Θ : Type} (zero : Θ → Θ) (step : Θ → List R → Θ) (epochs : Nat) (rows : List R) (init : Θ) (h : rows.length < 128) :
    train zero step epochs rows init = zero^[epochs] init := by
  unfold train
  rw [batches_nil rows h]
  induction epochs with
  | zero => rfl
  | succ k ih => rw [List.range_succ, List.foldl_append, ih, Function.iterate_succ_apply']; rfl

/-- **C166 is false for fewer than 128 samples** (PNL learns the noise by training for `epochs` epochs): no training step is made, and the result is that of the randomly initialised networks, for any number of epochs. -/
theorem C166_untrained_violated {Θ Rng : Type} (N : Nets Θ Rng) (seed : Rng) (tail : ℝ → ℝ → ℝ) (epochs : Nat) (X Y : Fin n → ℝ) (hn : n < 128) :
    pnl N seed tail epochs X Y =
      (tTest tail X (fun i => N.noise (N.init seed).1 (X i, Y i)), tTest tail Y (fun i => N.noise (N.init (N.init seed).2).1 (Y i, X i))) := by
  have hz : ∀ (k : Nat) (θ : Θ), N.noise (N.zero^[k] θ) = N.noise θ := by
    intro k
    induction k with
    | zero => intro θ; rfl
    | succ k ih => intro θ; rw [Function.iterate_succ_apply, ih, N.zero_noise]
  unfold pnl nica
  dsimp only
  rw [train_nil _ _ _ _ _ (by simpa using hn), train_nil _ _ _ _ _ (by simpa using hn)]
  simp only [hz]

/-- **C166** the samples after the last multiple of 128 have no influence on the learnt networks (they only enter the final t-test): data that agree on the samples before it give the same networks. -/
theorem C166_prefix {R Θ : Type} (zero : Θ → Θ) (step : Θ → List R → Θ) (epochs : Nat) (rows rows' : List R) (init : Θ) (hl : rows.length = rows'.length)
    (h : rows.take (128 * (rows.length / 128)) = rows'.take (128 * (rows.length / 128))) : train zero step epochs rows init = train zero step epochs rows' init := by
  unfold train
  rw [batches_congr rows rows' hl h]

/-- **C166** an epoch uses each of the first `128 * (n / 128)` samples exactly once, in order, in batches of 128. -/
theorem C166_epoch {R : Type} (rows : List R) : (batches rows).flatten = rows.take (128 * (rows.length / 128)) ∧ ∀ b ∈ batches rows, b.length = 128 := by
  constructor
  · have key : ∀ k, k ≤ rows.length / 128 → ((List.range k).map fun b => (rows.drop (128 * b)).take 128).flatten = rows.take (128 * k) := by
      intro k
      induction k with
      | zero => intro _; simp
      | succ k ih =>
        intro hk
        rw [List.range_succ, List.map_append, List.flatten_append, ih (by omega), List.map_singleton, List.flatten_singleton, show 128 * (k + 1) = 128 * k + 128 by ring, List.take_add]
    exact key _ (le_refl _)
  · intro b hb
    unfold batches at hb
    obtain ⟨k, hk, rfl⟩ := List.mem_map.1 hb
    have hk := List.mem_range.1 hk
    have : 128 * (k + 1) ≤ 128 * (rows.length / 128) := Nat.mul_le_mul_left _ hk
    have := Nat.mul_div_le rows.length 128
    simp only [List.length_take, List.length_drop]
    omega

/-! ## Concrete cases -/

/-- C165: a noise equal to the cause, three samples. -/
example (tail : ℝ → ℝ → ℝ) : tTest tail (fun i : Fin 3 => (i.val : ℝ)) (fun i => (i.val : ℝ)) = .val (tail 0 (3 + 3 - 2)) := by
  have := (C165_means_violated tail (by norm_num : 2 ≤ 3) (fun i : Fin 3 => (i.val : ℝ)) (fun i => (i.val : ℝ)) ⟨0, 1, by norm_num⟩).1
  simpa using this

/-- C166: two full batches of 300 samples. -/
example : (batches (List.range 300)).map List.length = [128, 128] := by decide +kernel

/-- C164: a valid configuration and data that are not constant. -/
example : (⟨.gaussian, .gaussian, .empirical, 2, none, none, fun _ _ _ => 0⟩ : UCfg).Valid ∧ ¬ ConstData (fun i _ => (i.val : ℝ) : Data 3 1) := by
  refine ⟨by simp [UCfg.Valid], fun h => ?_⟩
  have := h 0 1 0
  norm_num at this

end CL.Pairwise
