import Verif.Spec.DSep
import Mathlib.Data.Finset.Insert
import Mathlib.Data.Finset.Basic

/-!
# Locally consistent scores
-/
namespace Spec
variable {V : Type} [DecidableEq V] {K : Type} [LT K]

/-- A local score (to be minimised) is locally consistent for the graph `D` (Chickering 2002, Definition 6): a further parent that is dependent on
the node given the present parents improves the score, one that is independent makes it worse; (in)dependence is read off `D` by d-separation. -/
def LocallyConsistent (sc : V → Finset V → K) (D : V → V → Prop) : Prop :=
  ∀ i j (S : Finset V), i ≠ j → i ∉ S → j ∉ S →
    (¬ DSep D ↑S i j → sc i (insert j S) < sc i S) ∧ (DSep D ↑S i j → sc i S < sc i (insert j S))

end Spec
