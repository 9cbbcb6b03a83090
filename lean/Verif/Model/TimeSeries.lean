import Mathlib.Data.Matrix.Mul
import Mathlib.Algebra.BigOperators.Fin

/-!
# Model of `lingam/var_lingam.py`, `varma_lingam.py`, `longitudinal_lingam.py`

Exact arithmetic in a ring. A series is a function of time; `x t` is row `t` of the data (a vector). The numerical parts (statsmodels
estimators, DirectLiNGAM, adaptive lasso) are arbitrary functions.
-/
namespace CL
namespace TS
open Matrix
variable {p : Nat} {K : Type} [CommRing K]

abbrev Vec (p : Nat) (K : Type) := Fin p → K
abbrev Mat (p : Nat) (K : Type) := Matrix (Fin p) (Fin p) K
abbrev Series (p : Nat) (K : Type) := Nat → Vec p K

/-- `var_lingam.py:283-286`, `varma_lingam.py:328-334`: `estimated += np.dot(M[tau - 1], X[:, t - tau])` over all lags. -/
def lagSum (M : List (Mat p K)) (x : Series p K) (t : Nat) : Vec p K :=
  (M.zipIdx).foldl (fun acc m => acc + m.1 *ᵥ x (t - (m.2 + 1))) 0

/-! ## VARLiNGAM -/

/-- `var_lingam.py:272-292` `_calc_residuals`: row `s` of the result belongs to time `s + lags`. -/
def calcResiduals (M : List (Mat p K)) (x : Series p K) : Series p K := fun s => x (s + M.length) - lagSum M x (s + M.length)

/-- `var_lingam.py:294-304` `_calc_b`. -/
def calcB (B0 : Mat p K) (M : List (Mat p K)) : List (Mat p K) := B0 :: M.map fun m => (1 - B0) * m

/-- `var_lingam.py:236-238`, `varma_lingam.py:276-278`: the error variables whose independence is tested. -/
def errors (B0 : Mat p K) (res : Series p K) : Series p K := fun s => (1 - B0) *ᵥ res s

/-- The numerical parts: `_estimate_var_coefs` (coefficients and residuals, for `lags` and the criterion of the object), the fit of the
LiNGAM model (causal order and adjacency matrix), `_pruning`. A data set is a series with its number of rows. -/
structure Env (p : Nat) (K : Type) where
  estimate : Series p K × Nat → Nat → List (Mat p K) × Series p K
  lingam : Series p K → List (Fin p) × Mat p K
  prune : Series p K × Nat → List (Mat p K) → List (Fin p) → List (Mat p K)

/-- The attributes `_ar_coefs`, `_lags` of the object (`var_lingam.py:49-55`). -/
structure Obj (p : Nat) (K : Type) where
  arCoefs : Option (List (Mat p K))
  lags : Nat

/-- What a fit leaves in `_causal_order`, `_adjacency_matrices`, `_residuals`. -/
structure Fitted (p : Nat) (K : Type) where
  order : List (Fin p)
  B : List (Mat p K)
  residuals : Series p K

/-- `var_lingam.py:57-103` `fit`. -/
def fit (E : Env p K) (prune : Bool) (o : Obj p K) (x : Series p K × Nat) : Obj p K × Fitted p K :=
  let Mr := match o.arCoefs with
    | none => E.estimate x o.lags
    | some M => (M, calcResiduals M x.1)
  let m := E.lingam Mr.2
  let B := calcB m.2 Mr.1
  (⟨some Mr.1, Mr.1.length⟩, ⟨m.1, if prune then E.prune x B m.1 else B, Mr.2⟩)

/-- Repeated fits of one object. -/
def fitMany (E : Env p K) (prune : Bool) : List (Series p K × Nat) → Obj p K → List (Fitted p K)
  | [], _ => []
  | x :: xs, o => (fit E prune o x).2 :: fitMany E prune xs (fit E prune o x).1

/-- Assignment to a cell of the matrix of total effects. -/
def put {V : Type} (m : Nat → Nat → V) (i j : Nat) (v : V) : Nat → Nat → V := fun a b => if a = i ∧ b = j then v else m a b

/-- `var_lingam.py:160-171`, `varma_lingam.py:187-198`: the matrix of total effects of one bootstrap sample. `te lag from to` is
`estimate_total_effect`. Note that the column of a lagged effect does not depend on the lag. -/
def totalEffects {V : Type} (zero : V) (n lags : Nat) (order : List Nat) (te : Nat → Nat → Nat → V) : Nat → Nat → V :=
  (order.reverse.zipIdx).foldl (fun m ct =>
    let m1 := (order.take (n - (ct.2 + 1))).foldl (fun m from_ => put m ct.1 from_ (te 0 from_ ct.1)) m
    (List.range lags).foldl (fun m lag => (List.range n).foldl (fun m from_ => put m ct.1 (from_ + n) (te (lag + 1) from_ ct.1)) m) m1)
    fun _ _ => zero

/-- `var_lingam.py:207-212`: row `r` of block `b` of the joined data: `np.roll(X, b, axis=0)`, which wraps around. -/
def rolled {V : Type} (x : Nat → V) (N b r : Nat) : V := x ((r + (N - b % N)) % N)

/-! ## VARMA-LiNGAM -/

/-- `varma_lingam.py:315-340` `_calc_residuals`: the array `epsilon`, computed up to time `t`; the first `max p q` columns are random
(`init`). -/
def epsList (phi theta : List (Mat p K)) (x init : Series p K) : Nat → List (Vec p K)
  | 0 => []
  | t + 1 =>
    let prev := epsList phi theta x init t
    prev ++ [if t < max phi.length theta.length then init t
      else x t - (lagSum phi x t + lagSum theta (fun s => prev.getD s 0) t)]

/-- `epsilon[:, t]` -/
def eps (phi theta : List (Mat p K)) (x init : Series p K) (t : Nat) : Vec p K := (epsList phi theta x init (t + 1)).getD t 0

/-- `varma_lingam.py:342-346` `_calc_psi_and_omega`: `psis`. -/
def psis (psi0 : Mat p K) (phi : List (Mat p K)) : List (Mat p K) := psi0 :: phi.map fun m => (1 - psi0) * m

/-- `varma_lingam.py:348-352`: `omegas`. The call is `np.dot(I - psi0, theta, inv(I - psi0))`; the third argument of `np.dot` is the array
for the result, so the inverse is overwritten, not multiplied. -/
def omegas (psi0 : Mat p K) (theta : List (Mat p K)) : List (Mat p K) := theta.map fun m => (1 - psi0) * m

/-! ## Longitudinal LiNGAM -/

/-- Python indexing of the list of `T` data sets: negative indices count from the end, others raise an error (`none`). -/
def pyIdx {V : Type} (T : Nat) (x : Nat → V) (i : Int) : Option V :=
  if 0 ≤ i ∧ i < T then some (x i.toNat) else if i < 0 ∧ 0 ≤ i + T then some (x (i + T).toNat) else none

/-- `longitudinal_lingam.py:252-255`: the data sets used as predictors at time `t`: `X_t[t - (tau + 1)]`. `V` is a data set. -/
def predictors {V : Type} (T nLags : Nat) (x : Nat → V) (t : Nat) : Option (List V) :=
  (List.range nLags).mapM fun tau : Nat => pyIdx T x ((t : Int) - ((tau : Int) + 1))

/-- `longitudinal_lingam.py:266-269`: `N_t[t]` for one individual. -/
def residualAt (M : List (Mat p K)) (target : Vec p K) (preds : List (Vec p K)) : Vec p K :=
  (M.zip preds).foldl (fun acc m => acc - m.1 *ᵥ m.2) target

/-- `longitudinal_lingam.py:81-90`: the matrix stored at `[t, l + 1]` (`none` is NaN): skipped for `t = 0` and when `t - l == 0`. -/
def laggedEntry (B : Nat → Mat p K) (M : Nat → Nat → Mat p K) (t l : Nat) : Option (Mat p K) :=
  if 1 ≤ t then (if (t : Int) - l = 0 then none else some ((1 - B t) * M t l)) else none

end TS
end CL
