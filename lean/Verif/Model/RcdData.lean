import Verif.Model.Rcd
import Verif.Proofs.PartialCorr

/-!
# `lingam/rcd.py` on data: regressions, residuals and coefficients

`Verif/Model/Rcd.lean` models the search for arbitrary answers of the tests; here the tests are applied to the columns to which the code applies them.
`shapiro`, `pearsonr` and `hsic_test_gamma` with their levels are arbitrary functions of columns; arithmetic is exact.
-/
namespace CL
namespace Rcd
noncomputable section
variable {N n : Nat}

/-- The tests on columns. -/
structure ColTests (N : Nat) where
  /-- `rcd.py:131-136`: not `shapiro(y)[1] > shapiro_alpha`. -/
  nonGauss : (Fin N → ℝ) → Bool
  /-- `rcd.py:138-140` `_is_correlated`. -/
  corr : (Fin N → ℝ) → (Fin N → ℝ) → Bool
  /-- `rcd.py:153-155` `_is_independent`. -/
  indep : (Fin N → ℝ) → (Fin N → ℝ) → Bool

/-- `rcd.py:115-120` `_get_resid_and_coef`: a least squares fit with intercept. The residual is unique. -/
def ols (data : Fin N → Fin n → ℝ) (x : Fin n) (S : Finset (Fin n)) : Fin N → ℝ := Classical.choose (Spec.exists_residual data x S)

/-- `rcd.py:115-120` `_get_resid_and_coef`: coefficients of the fit (`lr.coef_`); if they are not unique, some of them. -/
def olsCoef (data : Fin N → Fin n → ℝ) (x : Fin n) (S : Finset (Fin n)) : Fin n → ℝ :=
  Classical.choose (Classical.choose_spec (Classical.choose_spec (Spec.exists_residual data x S)).1)

/-- `rcd.py:122-129` `_get_residual_matrix` (one column), also `284-293` and `311-316`: the column itself when there is nothing to regress on. -/
def resid (data : Fin N → Fin n → ℝ) (x : Fin n) (S : Finset (Fin n)) : Fin N → ℝ := if S = ∅ then fun k => data k x else ols data x S

/-- `rcd.py:190-194`: what is left of `xi` with the coefficients that the minimisation of `_get_resid_and_coef_by_MLHSICR` returns. -/
def mlResid (Y : Fin N → Fin n → ℝ) (xi : Fin n) (others : Finset (Fin n)) (coefs : Fin n → ℝ) : Fin N → ℝ :=
  fun k => Y k xi - ∑ j ∈ others, coefs j * Y k j

/-- `rcd.py:196-218` `_is_independent_of_resid`; `ml Y xi others` are the coefficients found by L-BFGS (157-188), `useMl` is `MLHSICR`. -/
def indepOfResid (ct : ColTests N) (useMl : Bool) (ml : (Fin N → Fin n → ℝ) → Fin n → Finset (Fin n) → Fin n → ℝ) (Y : Fin N → Fin n → ℝ) (xi : Fin n)
    (others : Finset (Fin n)) : Bool :=
  if ∀ j ∈ others, ct.indep (ols Y xi others) (fun k => Y k j) = true then true
  else if others.card = 1 ∨ useMl = false then false
  else decide (∀ j ∈ others, ct.indep (mlResid Y xi others (ml Y xi others)) (fun k => Y k j) = true)

/-- The answers of the tests in `rcd.py:220-332` on a data set. -/
def testsOf (ct : ColTests N) (useMl : Bool) (ml : (Fin N → Fin n → ℝ) → Fin n → Finset (Fin n) → Fin n → ℝ) (data : Fin N → Fin n → ℝ) : Tests n where
  nonGauss x H := ct.nonGauss (resid data x H)
  correlated p q := ct.corr (resid data p.1 p.2) (resid data q.1 q.2)
  independent H xi others := indepOfResid ct useMl ml (fun k v => resid data v H k) xi others

/-- `rcd.py:334-374` `_estimate_adjacency_matrix`: the numbers; `none` is NaN. `P i` are the variables with a coefficient in row `i`. -/
def matrix (data : Fin N → Fin n → ℝ) (E : Fin n → Fin n → Entry) (P : Fin n → Finset (Fin n)) (i j : Fin n) : Option ℝ :=
  match E i j with
  | .zero => some 0
  | .coef => some (olsCoef data i (P i) j)
  | .nan => none

/-- `rcd.py:81-108` `fit(X)`: ancestors and adjacency matrix. -/
def fitData (ct : ColTests N) (useMl : Bool) (ml : (Fin N → Fin n → ℝ) → Fin n → Finset (Fin n) → Fin n → ℝ) (data : Fin N → Fin n → ℝ) (maxN fuel : Nat) :
    Option ((Fin n → Finset (Fin n)) × (Fin n → Fin n → Option ℝ)) :=
  (fit (testsOf ct useMl ml data) maxN fuel).map fun r => (r.1, matrix data r.2 (parents (testsOf ct useMl ml data) r.1))

end
end Rcd
end CL
