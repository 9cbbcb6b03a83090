import Verif.Model.FisherZ
import Verif.Model.Mvpc

/-!
# Model of `MC_FisherZ`: Fisher's z test with missingness correction

`causallearn/utils/cit.py:491-543`, `causallearn/utils/PCUtils/Helper.py:521-553, 656-686`. The choice of the correction variables is `Mvpc.mcPlan`.

Simplifications: exact real arithmetic; `LinearRegression().fit(X, y)` is a parameter that gives an intercept and a coefficient for every predictor (and
fails without rows); `np.random.shuffle` is a parameter; columns are named by the numbers of the variables where the code slices arrays, except for the
virtual data, whose columns are the positions in the list `[X, Y] + condition_set` as in the code.
-/
namespace CL.FisherZ
variable {N : Nat}

/-- `LinearRegression().fit(X, y)`: from a table without missing values, the number of the target and those of the predictors, the intercept and the
coefficients. -/
abbrev Reg := (m : Nat) → (Fin m → Nat → ℝ) → Nat → List Nat → ℝ × (Nat → ℝ)

/-- `regM.predict` for the predictors `W` in one row. -/
noncomputable def predict (r : ℝ × (Nat → ℝ)) (W : List Nat) (row : Nat → ℝ) : ℝ := r.1 + (W.map fun w => r.2 w * row w).sum

/-- `cit.py:527-530`, `Helper.py:662-680` `learn_regression_model`, `682-686` `get_residual`: the regression of `v` on `W` in the rows complete in
`var + W`, and its residual in the `k`-th of them. -/
noncomputable def mcResidual (fit : Reg) (data : Fin N → Nat → Option ℝ) (rows : List (Fin N)) (W : List Nat) (v : Nat) (k : Fin rows.length) : ℝ :=
  select data rows k v - predict (fit _ (select data rows) v W) W (select data rows k)

/-- `Helper.py:521-526` `gen_vir_data`: the `k`-th entry of the column for `v`; `ws` are the rows of `Ws` (`get_predictor_ws`). -/
noncomputable def virEntry (fit : Reg) (data : Fin N → Nat → Option ℝ) (rows ws : List (Fin N)) (W : List Nat) (v : Nat) (k : Fin rows.length) : ℝ :=
  predict (fit _ (select data rows) v W) W (fun w => (data (ws.getD k (rows.get k)) w).getD 0) + mcResidual fit data rows W v k

/-- `Helper.py:529-553` `get_predictor_ws`: the rows complete in `W`, shuffled, the first `effective_sz` of them. -/
def predictorWs (shuffle : List (Fin N) → List (Fin N)) (data : Fin N → Nat → Option ℝ) (W : List Nat) (size : Nat) : List (Fin N) :=
  (shuffle (completeRows data W)).take size

/-- `cit.py:525-543`: the test on the virtual data, for the correction variables `W`. -/
noncomputable def mcCorrected (Φ : ℝ → ℝ) (eps : ℝ) (fit : Reg) (shuffle : List (Fin N) → List (Fin N)) (data : Fin N → Nat → Option ℝ)
    (var W : List Nat) : Option ℝ :=
  let rows := completeRows data (var ++ W)
  let ws := predictorWs shuffle data W rows.length
  if rows.length = 0 then none
  else if ws.length ≠ rows.length then none
  else mvFisherz Φ eps (fun (k : Fin rows.length) i => some (virEntry fit data rows ws W (var.getD i 0) k)) 0 1 (List.range' 2 (var.length - 2))

/-- `cit.py:491-543` `MC_FisherZ.__call__`. -/
noncomputable def mcFisherz (Φ : ℝ → ℝ) (eps : ℝ) (fit : Reg) (shuffle : List (Fin N) → List (Fin N)) {n : Nat} (data : Fin N → Nat → Option ℝ)
    (m : Mvpc.PrtM n) (skel : GG n) (x y : Fin n) (S : List (Fin n)) : Option ℝ :=
  (Mvpc.mcPlan m skel x y S).bind fun plan => match plan with
    | none => mvFisherz Φ eps data x y (S.map Fin.val)
    | some W => mcCorrected Φ eps fit shuffle data ((x :: y :: S).map Fin.val) (W.map Fin.val)

end CL.FisherZ
