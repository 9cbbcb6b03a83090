import Verif.Model.Camuv
import Verif.Model.RcdData

/-!
# `lingam/CAMUV.py` on data

`Verif/Model/Camuv.lean` models the search for arbitrary p-values; here the p-values are those of the columns to which the code applies its test. Simplification:
`LinearGAM().fit` (`get_residual`, 184-196) is a least squares fit with intercept and linear terms, in exact arithmetic; `hsic_gam` is an arbitrary function of columns.
-/
namespace CL
namespace Camuv
noncomputable section
variable {N n : Nat} {K : Type} [LinearOrder K]

/-- The test on columns and its level. -/
structure ColTests (N : Nat) (K : Type) where
  /-- `hsic2.hsic_gam(X, Y, mode="pvalue")` with one column on each side (`CAMUV.py:44, 92, 137, 176`). -/
  pair : (Fin N → ℝ) → (Fin N → ℝ) → K
  /-- the same with several columns on the right (`CAMUV.py:124-125`) -/
  multi : (Fin N → ℝ) → List (Fin N → ℝ) → K
  alpha : K
  zero : K

/-- The p-values in `CAMUV.py:38-181` on a data set: `get_residual` (184-196) is the column itself when there is nothing to regress on; the matrix `Y[:, list(parents)]`
of line 125 has its columns in the order in which Python iterates over the set. -/
def testsOf (ct : ColTests N K) (enum : Finset (Fin n) → List (Fin n)) (h1 : ∀ S, (enum S).Nodup) (h2 : ∀ S x, x ∈ enum S ↔ x ∈ S)
    (data : Fin N → Fin n → ℝ) : Tests n K where
  pair p q := ct.pair (Rcd.resid data p.1 p.2) (Rcd.resid data q.1 q.2)
  multi p Q Y := ct.multi (Rcd.resid data p.1 p.2) ((enum Q).map fun v => Rcd.resid data v (Y v))
  alpha := ct.alpha
  zero := ct.zero
  enum := enum
  enum_nodup := h1
  mem_enum := h2

end
end Camuv
end CL
