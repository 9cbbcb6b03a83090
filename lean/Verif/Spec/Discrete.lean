import Mathlib.Data.Fintype.Basic
import Mathlib.Data.Set.Basic
import Mathlib.Data.Finset.Card
import Mathlib.Logic.Relation

/-!
# Specification: independence in a table of discrete data

`data k j` is the value of variable `j` in row `k`. The probabilities are relative frequencies in the table, so that every statement is about the
rows that are there.
-/
namespace Discrete
open Finset
variable {N n : Nat}

open Classical in
/-- The number of rows that have the values `v` for the variables of `W`. -/
noncomputable def count (data : Fin N → Fin n → Int) (W : Set (Fin n)) (v : Fin n → Int) : Nat := #{k | ∀ j ∈ W, data k j = v j}

/-- The variables of `A` are independent of those of `B` given those of `C`: `P(a, b, c) P(c) = P(a, c) P(b, c)` for all values. -/
def CondIndep (data : Fin N → Fin n → Int) (A B C : Set (Fin n)) : Prop :=
  ∀ v, count data (A ∪ B ∪ C) v * count data C v = count data (A ∪ C) v * count data (B ∪ C) v

/-- The causal Markov condition: every variable is independent of its non-descendants given its parents. -/
def Markov (D : Fin n → Fin n → Prop) (data : Fin N → Fin n → Int) : Prop :=
  ∀ i, CondIndep data {i} {j | ¬ Relation.ReflTransGen D i j} {p | D p i}

end Discrete
