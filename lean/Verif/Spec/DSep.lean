import Mathlib.Logic.Relation
import Mathlib.Data.List.Nodup
import Mathlib.Data.Set.Basic
import Mathlib.Tactic.Common

/-!
# Textbook d-separation and Markov equivalence (specification only)

`E a b` means the directed edge `a → b`. Nothing here refers to the models of the code.
-/
namespace Spec
open Relation
variable {V : Type}

/-- Adjacent in the skeleton. -/
def Adj (E : V → V → Prop) (a b : V) : Prop := E a b ∨ E b a

/-- No directed cycle. -/
def Acyclic (E : V → V → Prop) : Prop := ∀ x, ¬ TransGen E x x

/-- `b` is in `Z` or an ancestor of a member of `Z`. -/
def AncOf (E : V → V → Prop) (Z : Set V) (b : V) : Prop := ∃ z ∈ Z, ReflTransGen E b z

/-- `a → b ← c`. -/
def Collider (E : V → V → Prop) (a b c : V) : Prop := E a b ∧ E c b

/-- The interior node `b` of the triple `a, b, c` does not block: a collider needs a descendant in `Z`
(or to be in `Z`), a non-collider must be outside `Z`. -/
def Open (E : V → V → Prop) (Z : Set V) (a b c : V) : Prop :=
  (Collider E a b c → AncOf E Z b) ∧ (¬ Collider E a b c → b ∉ Z)

/-- A node sequence along skeleton edges all of whose interior nodes are open. -/
structure ActiveSeq (E : V → V → Prop) (Z : Set V) (l : List V) : Prop where
  edge : ∀ a b, [a, b] <:+: l → Adj E a b
  opened : ∀ a b c, [a, b, c] <:+: l → Open E Z a b c

/-- `x` and `y` are d-connected given `Z`: some *path* (no repeated node) between them is active. -/
def DConn (E : V → V → Prop) (Z : Set V) (x y : V) : Prop :=
  ∃ l : List V, l.Nodup ∧ l.head? = some x ∧ l.getLast? = some y ∧ ActiveSeq E Z l

/-- d-separation. -/
def DSep (E : V → V → Prop) (Z : Set V) (x y : V) : Prop := ¬ DConn E Z x y

/-- `a → b ← c` with `a`, `c` different and not adjacent (a v-structure). -/
def UnshieldedCollider (E : V → V → Prop) (a b c : V) : Prop := a ≠ c ∧ ¬ Adj E a c ∧ Collider E a b c

/-- Same skeleton and same v-structures. -/
def MarkovEquiv (E F : V → V → Prop) : Prop :=
  (∀ a b, Adj E a b ↔ Adj F a b) ∧ ∀ a b c, UnshieldedCollider E a b c ↔ UnshieldedCollider F a b c

/-- The same d-separation statements between different nodes outside the conditioning set. -/
def SameDSep (E F : V → V → Prop) : Prop :=
  ∀ (Z : Set V) (a b : V), a ≠ b → a ∉ Z → b ∉ Z → (DSep E Z a b ↔ DSep F Z a b)

/-- `H` is an independence map of `G`: every d-separation of `H` holds in `G`. -/
def IMap (G H : V → V → Prop) : Prop :=
  ∀ (Z : Set V) (a b : V), a ≠ b → a ∉ Z → b ∉ Z → DSep H Z a b → DSep G Z a b

end Spec
