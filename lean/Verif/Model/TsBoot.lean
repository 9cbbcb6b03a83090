import Verif.Model.TimeSeries

/-!
# Model of `fit` and `bootstrap` of `lingam/var_lingam.py` and `lingam/varma_lingam.py` as operations on an object

The attributes of the object are part of the state, and every numerical part may raise (`none`). The total effects are in `TS.totalEffects`; that their estimation does not raise is assumed.
-/
namespace CL
namespace TsB
open Matrix TS
variable {p : Nat} {K : Type} [CommRing K] {Crit : Type}

/-- A data set: rows and their number. -/
abbrev Data (p : Nat) (K : Type) := Series p K × Nat

/-- Row `j - t - 1` of an array of `N` rows (`var_lingam.py:152`, `varma_lingam.py:169-173`): negative indices count from the end. -/
def wrapIdx (N j t : Nat) : Nat := if t + 1 ≤ j then j - (t + 1) else N + j - (t + 1)

/-- `var_lingam.py:150-152`, `varma_lingam.py:167-173`: the sum over the lags. -/
def lagSumW (N : Nat) (M : List (Mat p K)) (x : Series p K) (j : Nat) : Vec p K :=
  (M.zipIdx).foldl (fun acc m => acc + m.1 *ᵥ x (wrapIdx N j m.2)) 0

/-- `var_lingam.py:144-154`, `varma_lingam.py:161-175`: the first `j` rows of `resampled_X`; the rows that are not filled yet are zero. VAR: `theta` is empty. -/
def simRows (N start : Nat) (phi theta : List (Mat p K)) (e : Series p K) : Nat → List (Vec p K)
  | 0 => []
  | j + 1 =>
    let prev := simRows N start phi theta e j
    prev ++ [if j < start then e j else lagSumW N phi (fun s => prev.getD s 0) j + e j + lagSumW N theta e j]

/-- `resampled_X`. -/
def simulate (N start : Nat) (phi theta : List (Mat p K)) (e : Series p K) : Data p K := (fun s => (simRows N start phi theta e N).getD s 0, N)

/-- `sklearn.utils.resample`: the rows with the numbers `idx 0, idx 1, …`. -/
def resampled (res : Series p K) (idx : Nat → Nat) : Series p K := fun s => res (idx s)

/-! ## VARLiNGAM -/

/-- The numerical parts of VARLiNGAM: `_estimate_var_coefs` for the criterion and the lags of the object, the LiNGAM model, `_pruning`. -/
structure VarEnv (p : Nat) (K Crit : Type) where
  estimate : Option Crit → Nat → Data p K → Option (List (Mat p K) × Data p K)
  lingam : Data p K → Option (List (Fin p) × Mat p K)
  prune : Data p K → List (Mat p K) → List (Fin p) → Option (List (Mat p K))

/-- `_causal_order`, `_adjacency_matrices`, `_residuals`. -/
structure VarFit (p : Nat) (K : Type) where
  order : List (Fin p)
  B : List (Mat p K)
  res : Data p K

/-- The attributes of a VARLiNGAM object (`var_lingam.py:49-55`, `98-103`); `fitted` is `none` if `_causal_order` is None. -/
structure VarObj (p : Nat) (K Crit : Type) where
  ar : Option (List (Mat p K))
  lags : Nat
  crit : Option Crit
  fitted : Option (VarFit p K)

/-- `var_lingam.py:82-88`: coefficients and residuals. -/
def varCoefs (E : VarEnv p K Crit) (o : VarObj p K Crit) (x : Data p K) : Option (List (Mat p K) × Data p K) :=
  match o.ar with
  | none => E.estimate o.crit o.lags x
  | some M => some (M, calcResiduals M x.1, x.2 - M.length)

/-- `var_lingam.py:90-103`: the rest of `fit`. -/
def varFinish (E : VarEnv p K Crit) (prune : Bool) (o : VarObj p K Crit) (x : Data p K) (Mr : List (Mat p K) × Data p K) : Option (VarObj p K Crit) :=
  (E.lingam Mr.2).bind fun m =>
    (if prune then E.prune x (calcB m.2 Mr.1) m.1 else some (calcB m.2 Mr.1)).map fun B => ⟨some Mr.1, Mr.1.length, o.crit, some ⟨m.1, B, Mr.2⟩⟩

/-- `var_lingam.py:57-105` `fit`: the object afterwards and whether it returned (`false`: an exception). -/
def varFit (E : VarEnv p K Crit) (prune : Bool) (o : VarObj p K Crit) (x : Data p K) : VarObj p K Crit × Bool :=
  match (varCoefs E o x).bind (varFinish E prune o x) with
  | some o' => (o', true)
  | none => (⟨o.ar, o.lags, o.crit, none⟩, false)

/-- `var_lingam.py:140-158`: the loop over the samples; `lags`, `res`, `M` are the local variables of lines 127, 134, 135. -/
def varBootLoop (E : VarEnv p K Crit) (prune : Bool) (N lags : Nat) (res : Series p K) (M : List (Mat p K)) :
    List (Nat → Nat) → List (List (Mat p K)) → VarObj p K Crit → VarObj p K Crit × Option (List (List (Mat p K)))
  | [], ams, o => (o, some ams)
  | idx :: rest, ams, o =>
    let r := varFit E prune o (simulate N lags M [] (resampled res idx))
    match r.2, r.1.fitted with
    | true, some f => varBootLoop E prune N lags res M rest (ams ++ [f.B]) r.1
    | _, _ => (r.1, none)

/-- `var_lingam.py:107-175` `bootstrap`: the object afterwards and the adjacency matrices of the samples (`none`: an exception, before the criterion is restored in line 173). -/
def varBootstrap (E : VarEnv p K Crit) (prune : Bool) (o : VarObj p K Crit) (x : Data p K) (samples : List (Nat → Nat)) : VarObj p K Crit × Option (List (List (Mat p K))) :=
  let r := varFit E prune { o with crit := none } x
  match r.2, r.1.fitted, r.1.ar with
  | true, some f, some M =>
    let b := varBootLoop E prune x.2 o.lags f.res.1 M samples [] r.1
    match b.2 with
    | some ams => ({ b.1 with crit := o.crit }, some ams)
    | none => (b.1, none)
  | _, _, _ => (r.1, none)

/-! ## VARMA-LiNGAM -/

/-- The numerical parts of VARMA-LiNGAM. `statsmodels` reports the coefficients of an order 0 as None. `noise` are the random numbers of `_calc_residuals`. -/
structure VarmaEnv (p : Nat) (K Crit : Type) where
  estimate : Option Crit → Nat × Nat → Data p K → Option ((Option (List (Mat p K)) × Option (List (Mat p K))) × (Nat × Nat) × Data p K)
  lingam : Data p K → Option (List (Fin p) × Mat p K)
  prune : Data p K → Data p K → Nat × Nat → List (Fin p) → Option (List (Mat p K) × List (Mat p K))
  noise : Data p K → Series p K

/-- `_causal_order`, `_adjacency_matrices`, `_residuals`. -/
structure VarmaFit (p : Nat) (K : Type) where
  causal : List (Fin p)
  psi : List (Mat p K)
  omega : List (Mat p K)
  res : Data p K

/-- The attributes of a VARMALiNGAM object (`varma_lingam.py:55-64`, `114-120`). -/
structure VarmaObj (p : Nat) (K Crit : Type) where
  ar : Option (List (Mat p K))
  ma : Option (List (Mat p K))
  order : Nat × Nat
  crit : Option Crit
  fitted : Option (VarmaFit p K)

/-- `varma_lingam.py:315-340` `_calc_residuals`. -/
def varmaResiduals (phi theta : List (Mat p K)) (x : Data p K) (noise : Series p K) : Data p K :=
  (fun s => eps phi theta x.1 noise (s + max phi.length theta.length), x.2 - max phi.length theta.length)

/-- `varma_lingam.py:91-101`: the coefficients are estimated if one of the two arrays is None. -/
def varmaCoefs (E : VarmaEnv p K Crit) (o : VarmaObj p K Crit) (x : Data p K) : Option ((Option (List (Mat p K)) × Option (List (Mat p K))) × (Nat × Nat) × Data p K) :=
  match o.ar, o.ma with
  | some phi, some theta => some ((some phi, some theta), o.order, varmaResiduals phi theta x (E.noise x))
  | _, _ => E.estimate o.crit o.order x

/-- `varma_lingam.py:342-352`: `psi` and `omega`; `none` if an array has fewer matrices than the order says. -/
def psiOmega (psi0 : Mat p K) (c : Option (List (Mat p K)) × Option (List (Mat p K))) (order : Nat × Nat) : Option (List (Mat p K) × List (Mat p K)) :=
  if order.1 ≤ (c.1.getD []).length ∧ order.2 ≤ (c.2.getD []).length then some (psis psi0 ((c.1.getD []).take order.1), omegas psi0 ((c.2.getD []).take order.2)) else none

/-- `varma_lingam.py:103-120`: the rest of `fit`; the errors given to `_pruning` are as many as the residuals. -/
def varmaFinish (E : VarmaEnv p K Crit) (prune : Bool) (o : VarmaObj p K Crit) (x : Data p K)
    (c : (Option (List (Mat p K)) × Option (List (Mat p K))) × (Nat × Nat) × Data p K) : Option (VarmaObj p K Crit) :=
  (E.lingam c.2.2).bind fun m => (psiOmega m.2 c.1 c.2.1).bind fun po =>
    (if prune then E.prune x (errors m.2 c.2.2.1, c.2.2.2) c.2.1 m.1 else some po).map fun po => ⟨c.1.1, c.1.2, c.2.1, o.crit, some ⟨m.1, po.1, po.2, c.2.2⟩⟩

/-- `varma_lingam.py:66-122` `fit`. -/
def varmaFit (E : VarmaEnv p K Crit) (prune : Bool) (o : VarmaObj p K Crit) (x : Data p K) : VarmaObj p K Crit × Bool :=
  match (varmaCoefs E o x).bind (varmaFinish E prune o x) with
  | some o' => (o', true)
  | none => (⟨o.ar, o.ma, o.order, o.crit, none⟩, false)

/-- `varma_lingam.py:157-182`: the loop over the samples. `enumerate(None)` raises. -/
def varmaBootLoop (E : VarmaEnv p K Crit) (prune : Bool) (N start : Nat) (res : Series p K) (ar ma : Option (List (Mat p K))) :
    List (Nat → Nat) → List (List (Mat p K)) → VarmaObj p K Crit → VarmaObj p K Crit × Option (List (List (Mat p K)))
  | [], ams, o => (o, some ams)
  | idx :: rest, ams, o =>
    if N ≤ start ∨ (ar.isSome = true ∧ ma.isSome = true) then
      let r := varmaFit E prune o (simulate N start (ar.getD []) (ma.getD []) (resampled res idx))
      match r.2, r.1.fitted with
      | true, some f => varmaBootLoop E prune N start res ar ma rest (ams ++ [f.psi ++ f.omega]) r.1
      | _, _ => (r.1, none)
    else (o, none)

/-- `varma_lingam.py:124-202` `bootstrap`. -/
def varmaBootstrap (E : VarmaEnv p K Crit) (prune : Bool) (o : VarmaObj p K Crit) (x : Data p K) (samples : List (Nat → Nat)) : VarmaObj p K Crit × Option (List (List (Mat p K))) :=
  let r := varmaFit E prune { o with crit := none } x
  match r.2, r.1.fitted with
  | true, some f =>
    let b := varmaBootLoop E prune x.2 (max o.order.1 o.order.2) f.res.1 r.1.ar r.1.ma samples [] r.1
    match b.2 with
    | some ams => ({ b.1 with crit := o.crit }, some ams)
    | none => (b.1, none)
  | _, _ => (r.1, none)

end TsB
end CL
