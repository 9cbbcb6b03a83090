import Verif.Model.Kci

/-!
# Model of the pairwise methods: `search/FCMBased/ANM/ANM.py`, `search/FCMBased/PNL/PNL.py`

The Gaussian-process regression of ANM is a function argument (it is deterministic: no restarts of the optimiser); the networks of PNL are abstract parameters `Θ` with
an update per batch. Real numbers.
-/
namespace CL.Pairwise
open Kci
variable {n : Nat}

/-- `ANM.py:50-80` `cause_or_effect`: `fit X y` is `fit_gp` (29-48); `c` is the configuration of `KCI_UInd(kernelX, kernelY)`. -/
noncomputable def anm (c : UCfg) (fit : Data n 1 → Data n 1 → Data n 1) (X Y : Data n 1) : Res ℝ × Res ℝ :=
  (c.pApprox [] [] X (fun i j => Y i j - fit X Y i j), c.pApprox [] [] Y (fun i j => X i j - fit Y X i j))

/-- `scipy.stats.ttest_ind` (`PNL.py:154`, `164`): mean of a sample. -/
noncomputable def mean (x : Fin n → ℝ) : ℝ := (∑ i, x i) / n

/-- `scipy.stats.ttest_ind`: unbiased variance of a sample. -/
noncomputable def variance (x : Fin n → ℝ) : ℝ := (∑ i, (x i - mean x) ^ 2) / ((n : ℝ) - 1)

/-- `scipy.stats.ttest_ind` with two samples of the same size (equal variances assumed): the denominator `sqrt(svar * (1/n + 1/n))`. -/
noncomputable def tDenom (x y : Fin n → ℝ) : ℝ :=
  √((((n : ℝ) - 1) * variance x + ((n : ℝ) - 1) * variance y) / (n + n - 2) * (1 / n + 1 / n))

/-- `PNL.py:154`, `164`: the p-value of the t-test; `tail t df` is the two-sided tail probability. `0/0` is NaN, and `t = ±inf` has the p-value 0. -/
noncomputable def tTest (tail : ℝ → ℝ → ℝ) (x y : Fin n → ℝ) : Res ℝ :=
  if n ≤ 1 then .nan
  else if tDenom x y = 0 then (if mean x = mean y then .nan else .val 0)
  else .val (tail ((mean x - mean y) / tDenom x y) (n + n - 2))

/-- `PNL.py:97` `DataLoader(train_dataset, batch_size=128, drop_last=True)`: the batches of an epoch, rows in order, the incomplete last batch dropped. -/
def batches {R : Type} (rows : List R) : List (List R) := (List.range (rows.length / 128)).map fun b => (rows.drop (128 * b)).take 128

/-- `PNL.py:105-123`: training; `zero` is `optimizer.zero_grad()`, `step` one batch. -/
def train {R Θ : Type} (zero : Θ → Θ) (step : Θ → List R → Θ) (epochs : Nat) (rows : List R) (init : Θ) : Θ :=
  (List.range epochs).foldl (fun θ _ => (batches rows).foldl step (zero θ)) init

/-- A trainable pair of networks: initialisation from the state of the generator (`PNL.py:99-103`), `zero_grad`, the update, and the noise estimate `G2(x2) - G1(x1)` of a row (127). -/
structure Nets (Θ Rng : Type) where
  init : Rng → Θ × Rng
  zero : Θ → Θ
  step : Θ → List (ℝ × ℝ) → Θ
  noise : Θ → ℝ × ℝ → ℝ
  zero_noise : ∀ θ, noise (zero θ) = noise θ

/-- `PNL.py:80-128` `nica_mnd` on rows `(x1, x2)`: the cause, the estimated noise, and the state of the generator afterwards. -/
def nica {Θ Rng : Type} (N : Nets Θ Rng) (epochs : Nat) (X Y : Fin n → ℝ) (g : Rng) : (Fin n → ℝ) × (Fin n → ℝ) × Rng :=
  (X, fun i => N.noise (train N.zero N.step epochs ((List.finRange n).map fun k => (X k, Y k)) (N.init g).1) (X i, Y i), (N.init g).2)

/-- `PNL.py:130-166` `cause_or_effect`; `seed` is the generator after `torch.manual_seed(0)`. The rounding to three digits is left out. -/
noncomputable def pnl {Θ Rng : Type} (N : Nets Θ Rng) (seed : Rng) (tail : ℝ → ℝ → ℝ) (epochs : Nat) (X Y : Fin n → ℝ) : Res ℝ × Res ℝ :=
  (tTest tail (nica N epochs X Y seed).1 (nica N epochs X Y seed).2.1,
    tTest tail (nica N epochs Y X (nica N epochs X Y seed).2.2).1 (nica N epochs Y X (nica N epochs X Y seed).2.2).2.1)

end CL.Pairwise
