import Mathlib.Data.Real.Archimedean
import Mathlib.Algebra.Order.Floor.Ring
import Mathlib.Algebra.Ring.Parity

/-!
# Model of `causallearn/search/Granger/Granger.py`

Numbers are real numbers. The test of statsmodels and the lasso are arbitrary functions.
-/
namespace CL.Granger

/-- `numpy.rint`: the nearest integer, the even one in a tie. -/
noncomputable def rint (x : ℝ) : ℤ :=
  if x - ⌊x⌋ < 1 / 2 then ⌊x⌋ else if 1 / 2 < x - ⌊x⌋ then ⌊x⌋ + 1 else if Even ⌊x⌋ then ⌊x⌋ else ⌊x⌋ + 1

/-- `round(x, 4)` for a `numpy.float64` (`Granger.py:50`). -/
noncomputable def round4 (x : ℝ) : ℝ := (rint (x * 10000) : ℝ) / 10000

/-- `grangercausalitytests(data[:, [r, c]], maxlag)[lag][0][test][1]`: the p-value of the test that column `c` does not Granger-cause column `r`, with `lag` lags
(`lag` = 1, …, `maxlag`). -/
abbrev PVal := Nat → Nat → Nat → ℝ

/-- `Granger.py:44-50`: the array `p_value_matrix` (rows `r`, columns `c + dim*i`) as it is filled by the loops over `c`, `r` and `i`, starting with zeros. `dim` is 2. -/
noncomputable def fill (pv : PVal) (maxlag : Nat) : Nat → Nat → ℝ :=
  ((List.range 2).flatMap fun c => (List.range 2).flatMap fun r => if r ≠ c then (List.range maxlag).map fun i => (c, r, i) else []).foldl
    (fun (P : Nat → Nat → ℝ) t => fun a b => if a = t.2.1 ∧ b = t.1 + 2 * t.2.2 then round4 (pv t.2.1 t.1 (t.2.2 + 1)) else P a b) fun _ _ => 0

/-- `Granger.py:26-52` `granger_test_2d`: `none` is the failing assertion (43); otherwise `p_value_matrix` and `adj_matrix*1`. -/
noncomputable def test2d (pv : PVal) (maxlag dim : Nat) (level : ℝ) : Option ((Nat → Nat → ℝ) × (Nat → Nat → Nat)) :=
  if dim = 2 then some (fill pv maxlag, fun a b => if fill pv maxlag a b < level then 1 else 0) else none

/-- A Python slice `l[a:]` (`b = none`) or `l[a:-b]` (`b = some _`, `b > 0`). -/
def slice {α : Type} (l : List α) (a : Nat) (b : Option Nat) : List α := (l.take (l.length - b.getD 0)).drop a

/-- `np.hstack` of arrays given as lists of rows; `none` is the exception for arrays with different numbers of rows, and for no array at all. -/
def hstack {α : Type} : List (List (List α)) → Option (List (List α))
  | [] => none
  | [A] => some A
  | A :: B :: rest => (hstack (B :: rest)).bind fun C => if A.length = C.length then some (List.zipWith (· ++ ·) A C) else none

/-- `Granger.py:69-70`: `Y` and `X` of `granger_lasso`; the data are given as a list of rows. -/
def design {α : Type} (maxlag : Nat) (data : List (List α)) : Option (List (List α) × List (List α)) :=
  (hstack ((List.range' 1 maxlag).map fun k => slice data (maxlag - k) (some k))).map fun X => (X, slice data maxlag none)

/-- `Granger.py:54-78` `granger_lasso`: `coeff[i] = lasso_cv.coef_`; `lasso X y` is the fitted coefficient vector (rows `i ≥ dim` do not exist). -/
def lassoCoef {α : Type} [Zero α] (lasso : List (List α) → List α → Nat → α) (maxlag dim : Nat) (data : List (List α)) : Option (Nat → Nat → α) :=
  (design maxlag data).map fun d => fun i c => if i < dim then lasso d.1 (d.2.map fun row => row.getD i 0) c else 0

end CL.Granger
