import Verif.Spec.DSep
import Mathlib.Data.Finset.Card
import Mathlib.Data.Fintype.Basic
import Mathlib.Algebra.BigOperators.Group.Finset.Basic
import Mathlib.Algebra.Order.Group.Defs

/-!
# What exact search should return
-/
namespace Spec
variable {d : Nat} {K : Type} [AddCommGroup K] [LinearOrder K]

/-- The parent sets `pa` form a DAG that uses only edges of the super graph `sup`, contains all edges of `incl` and gives
no node more than `maxPar` parents (`sup j i`, `incl j i` speak of the edge `j → i`). -/
structure AdmissibleDag (sup incl : Fin d → Fin d → Bool) (maxPar : Nat) (pa : Fin d → Finset (Fin d)) : Prop where
  within : ∀ i, ∀ j ∈ pa i, sup j i = true
  contains : ∀ i j, incl j i = true → j ∈ pa i
  bound : ∀ i, (pa i).card ≤ maxPar
  acyclic : Acyclic fun j i => j ∈ pa i

/-- total score of a DAG -/
def totalScore (score : Fin d → Finset (Fin d) → K) (pa : Fin d → Finset (Fin d)) : K := ∑ i, score i (pa i)

/-- an admissible DAG of minimal total score -/
def OptimalDag (score : Fin d → Finset (Fin d) → K) (sup incl : Fin d → Fin d → Bool) (maxPar : Nat)
    (pa : Fin d → Finset (Fin d)) : Prop :=
  AdmissibleDag sup incl maxPar pa ∧ ∀ pa', AdmissibleDag sup incl maxPar pa' → totalScore score pa ≤ totalScore score pa'

end Spec
