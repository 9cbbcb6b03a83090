import Verif.Model.TimeSeries
import Mathlib.Algebra.BigOperators.Group.Finset.Basic
import Mathlib.Logic.Function.Iterate

/-!
# Model of the pruning steps and of `estimate_total_effect` of `lingam/var_lingam.py`, `varma_lingam.py`, `longitudinal_lingam.py`

Data are functions of row and column with `N` rows and `n` columns. The adaptive lasso (`LinearRegression` + `LassoLarsIC`) is an arbitrary
function `reg` of the regressor rows and the target column that returns the list of coefficients. A `ValueError` is `none`.
-/
namespace CL
namespace TsP
variable {K : Type} [CommRing K]

/-- `np.flip(X, axis=0)` (`var_lingam.py:310`). -/
def flip {V : Type} (N : Nat) (x : Nat → V) : Nat → V := fun r => x (N - 1 - r)

/-- `np.roll(a, -1, axis=0)` (`var_lingam.py:312`). -/
def rollUp {V : Type} (N : Nat) (x : Nat → V) : Nat → V := fun r => x ((r + 1) % N)

/-- `var_lingam.py:310-312`: `stacked[tau]`. -/
def stacked {V : Type} (N : Nat) (x : Nat → V) (tau : Nat) : Nat → V := (rollUp N)^[tau] (flip N x)

/-- `var_lingam.py:313`: the number of rows of `blocks`; a slice `[:-0]` is empty. -/
def nBlocks (N lags : Nat) : Nat := if lags = 0 then 0 else N - lags

/-- `var_lingam.py:316-317`: `causal_order[:causal_order.index(i)]`. -/
def ancestors (order : List Nat) (i : Nat) : List Nat := order.takeWhile (· ≠ i)

/-- `var_lingam.py:324,328-329`: row `r` of `exp`. -/
def expRow (N n lags : Nat) (x : Nat → Nat → K) (anc : List Nat) (r : Nat) : List K :=
  anc.map (stacked N x 0 r) ++ (List.range lags).flatMap fun tau => (List.range n).map (stacked N x (tau + 1) r)

/-- `var_lingam.py:319-338`: the coefficients of the regression for feature `i`. -/
def varCoef (reg : List (List K) → List K → List K) (N n lags : Nat) (x : Nat → Nat → K) (order : List Nat) (i : Nat) : List K :=
  reg ((List.range (nBlocks N lags)).map (expRow N n lags x (ancestors order i))) ((List.range (nBlocks N lags)).map fun r => stacked N x 0 r i)

/-- numpy assignment `row[idx] = values`. -/
def assignIdx (row : Nat → K) (idx : List Nat) (v : List K) : Nat → K := (idx.zip v).foldl (fun r p => Function.update r p.1 p.2) row

/-- `var_lingam.py:342-343`: assignment of the slice of the coefficients to row `i` of the matrix of lag `j + 1`; a slice of another length
than the row is a `ValueError`. -/
def assignSlice (n k i : Nat) (coef : List K) (m : (Nat → Nat → K) × Nat) : Option (Nat → Nat → K) :=
  let s := (coef.drop (k + n * m.2)).take n
  if s.length = n then some (Function.update m.1 i fun b => s.getD b 0) else none

/-- `var_lingam.py:340-343`: one feature. -/
def pruneRow (n : Nat) (anc : List Nat) (i : Nat) (coef : List K) : List (Nat → Nat → K) → Option (List (Nat → Nat → K))
  | [] => none
  | B0 :: Bs => ((Bs.zipIdx).mapM (assignSlice n anc.length i coef)).map
      (Function.update B0 i (assignIdx (B0 i) anc (coef.take anc.length)) :: ·)

/-- `var_lingam.py:306-345` `_pruning`; `lags` is the *attribute* `_lags`, which `fit` updates only afterwards (line 99). -/
def pruneVar (reg : List (List K) → List K → List K) (N n lags : Nat) (x : Nat → Nat → K) (order : List Nat) (B : List (Nat → Nat → K)) :
    Option (List (Nat → Nat → K)) :=
  (List.range n).foldlM (fun B i => pruneRow n (ancestors order i) i (varCoef reg N n lags x order i) B) B

/-! ## VARMA -/

/-- numpy assignment of an array with `M` rows to one with `N` rows: equal, or one row repeated. -/
def assignRows {V : Type} (N M : Nat) (y : Nat → V) : Option (Nat → V) :=
  if M = N then some y else if M = 1 then some fun _ => y 0 else none

/-- `varma_lingam.py:361-370`, `238-249`: column `c` of the joined data at row `r`: blocks `X(t-p)` for `p ≤ order[0]`, then `E(t-1-q)` for
`q < order[1]`, zero beyond. -/
def joined (N n p q : Nat) (x e : Nat → Nat → K) (r c : Nat) : K :=
  if c / n < 1 + p then TS.rolled x N (c / n) r (c % n)
  else if c / n < 1 + p + q then TS.rolled e N (c / n - (1 + p) + 1) r (c % n) else 0

/-- `varma_lingam.py:375-376`: the predictor columns for the `i`-th variable of the order. -/
def predictorCols (width : Nat) (order : List Nat) (i : Nat) : List Nat := (List.range width).filter fun j => j ∉ order.drop i

/-- `varma_lingam.py:381-386`: the coefficients of the regression for the `i`-th variable of the order. -/
def varmaCoef (reg : List (List K) → List K → List K) (N n p q : Nat) (x e : Nat → Nat → K) (order : List Nat) (i target : Nat) : List K :=
  reg ((List.range N).map fun r => (predictorCols (n * (1 + p + q)) order i).map (joined N n p q x e r))
    ((List.range N).map fun r => joined N n p q x e r target)

/-- `varma_lingam.py:373-386`: `psi_omega`. -/
def psiOmega (reg : List (List K) → List K → List K) (N n p q : Nat) (x e : Nat → Nat → K) (order : List Nat) : Nat → Nat → K :=
  (order.zipIdx).foldl (fun m t => Function.update m t.1 (assignIdx (m t.1) (predictorCols (n * (1 + p + q)) order t.2)
    (varmaCoef reg N n p q x e order t.2 t.1))) fun _ _ => 0

/-- `varma_lingam.py:356-399` `_pruning`, where `M` is the number of rows of `ee`; the result is `psis`, `omegas`. -/
def pruneVarma (reg : List (List K) → List K → List K) (N M n p q : Nat) (x ee : Nat → Nat → K) (order : List Nat) :
    Option (List (Nat → Nat → K) × List (Nat → Nat → K)) :=
  (if q = 0 then some ee else assignRows N M ee).map fun e =>
    let m := psiOmega reg N n p q x e order
    ((List.range (1 + p)).map fun s a b => m a (n * s + b), (List.range q).map fun s a b => m a (n * (1 + p) + n * s + b))

/-! ## Regressors of `estimate_total_effect` -/

/-- `np.where(np.abs(am[from_index]) > 0)[0]` with `am = np.concatenate([*matrices], axis=1)`
(`var_lingam.py:215-216`, `varma_lingam.py:254-257`, `longitudinal_lingam.py:205-208`). -/
def parentCols [DecidableEq K] (n : Nat) (B : List (Nat → Nat → K)) (i : Nat) : List Nat :=
  (List.range (n * B.length)).filter fun c => B.getD (c / n) (fun _ _ => 0) i (c % n) ≠ 0

/-- `var_lingam.py:217-221`. -/
def varPredictors [DecidableEq K] (n : Nat) (B : List (Nat → Nat → K)) (from_ lag : Nat) : List Nat :=
  (from_ + n * lag) :: (parentCols n B from_).map (· + n * lag)

/-- `var_lingam.py:207-212`: column `c` of `X_joined` at row `r`. -/
def varJoined (N n : Nat) (x : Nat → Nat → K) (r c : Nat) : K := TS.rolled x N (c / n) r (c % n)

/-- `varma_lingam.py:257-261`: the shift is one block, whatever the lag is. -/
def varmaPredictors [DecidableEq K] (n : Nat) (B : List (Nat → Nat → K)) (from_ lag : Nat) : List Nat :=
  (if lag = 0 then from_ else from_ + n) :: (parentCols n B from_).map fun c => if lag = 0 then c else c + n

/-- `longitudinal_lingam.py:208-210`. -/
def longPredictors [DecidableEq K] (p : Nat) (B : List (Nat → Nat → K)) (from_ : Nat) : List Nat := (from_ + p) :: (parentCols p B from_).map (· + p)

/-- `longitudinal_lingam.py:199-203`: column `c` of `X_joined` for individual `k`; `x t k j` is the value at time point `t`. -/
def longJoined (T p : Nat) (x : Nat → Nat → Nat → K) (from_t to_t k c : Nat) : Option K :=
  if c / p = 0 then (TS.pyIdx T x to_t).map fun d => d k (c % p)
  else (TS.pyIdx T x ((from_t : Int) - ((c / p - 1 : Nat) : Int))).map fun d => d k (c % p)

/-! ## Selection of the number of lags -/

/-- `var_lingam.py:258-268`, `varma_lingam.py:296-310`: the loop over the candidates; `value` is the criterion of the fitted candidate, `none` stands
for NaN or infinity, for which `value < min_value` is false from the beginning. The second component is `result` (`none` is Python's `None`). -/
def searchBest {α V : Type} [LinearOrder V] (value : α → Option V) (cands : List α) : Option (V × α) :=
  cands.foldl (fun best c => match value c, best with
    | none, b => b
    | some v, none => some (v, c)
    | some v, some b => if v < b.1 then some (v, c) else some b) none

/-- `var_lingam.py:261`: the candidates for the number of lags. -/
def lagCandidates (lags : Nat) : List Nat := (List.range lags).map (· + 1)

/-- `varma_lingam.py:299-301`: the candidates for the order. -/
def orderCandidates (p q : Nat) : List (Nat × Nat) :=
  ((List.range (p + 1)).flatMap fun a => (List.range (q + 1)).map fun b => (a, b)).erase (0, 0)

end TsP
end CL
