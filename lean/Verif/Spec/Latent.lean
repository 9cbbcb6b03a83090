import Verif.Spec.DSep

/-!
# Causal graphs with latent and selection variables (specification only)

`E` is the causal graph over all variables, `o` names the observed ones, `Sel` is the set of selection variables (always
conditioned on). What an edge mark of a partial ancestral graph says is a statement about ancestors.
-/
namespace Spec
variable {V ι : Type}

/-- `u` is an ancestor of `v` or of a selection variable. -/
def Causes (E : V → V → Prop) (Sel : Set V) (u v : V) : Prop := AncOf E ({v} ∪ Sel) u

/-- Some set of other observed variables d-separates the observed variables `x` and `y` (given the selection). -/
def Separable (E : V → V → Prop) (o : ι → V) (Sel : Set V) (x y : ι) : Prop :=
  ∃ S : Set ι, x ∉ S ∧ y ∉ S ∧ DSep E (o '' S ∪ Sel) (o x) (o y)

end Spec
