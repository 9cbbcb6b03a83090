import Verif.Model.Skeleton
import Mathlib.Data.Fintype.Basic
import Mathlib.Data.Finset.Dedup
import Mathlib.Order.Defs.LinearOrder

/-!
# Model of `causallearn/search/FCMBased/lingam/CAMUV.py`

The data enter only through p-values (elements of a linear order `K`, no NaN) of residuals. A residual is described by a variable and the set it was
regressed on (`get_residual`, 181-194; the empty set stands for the column itself).
-/
namespace CL
namespace Camuv
variable {d : Nat} {K : Type} [LinearOrder K]

/-- The p-values for one data set. -/
structure Tests (d : Nat) (K : Type) where
  /-- `hsic_gam` of two residuals. -/
  pair : Fin d × Finset (Fin d) → Fin d × Finset (Fin d) → K
  /-- `hsic_gam` of a residual and the columns `parents` of the matrix `Y` (123-125); `Y` is described by the sets its columns were regressed on. -/
  multi : Fin d × Finset (Fin d) → Finset (Fin d) → (Fin d → Finset (Fin d)) → K
  /-- the level -/
  alpha : K
  /-- the number 0.0 -/
  zero : K
  /-- the order in which Python iterates over a set of variables -/
  enum : Finset (Fin d) → List (Fin d)
  enum_nodup : ∀ S, (enum S).Nodup
  mem_enum : ∀ S x, x ∈ enum S ↔ x ∈ S

/-- `CAMUV.py:38-48` `get_neighborhoods`: `j ∈ N[i]`; the loop visits `i < j` once and adds both directions. -/
def neighbour (t : Tests d K) (i j : Fin d) : Bool :=
  if i < j then decide (t.pair (i, ∅) (j, ∅) < t.alpha) else if j < i then decide (t.pair (j, ∅) (i, ∅) < t.alpha) else false

/-- The variables of the loop `54-85`: `P`, the description of `Y`, and `changed`. -/
structure St (d : Nat) where
  P : Fin d → Finset (Fin d)
  Y : Fin d → Finset (Fin d)
  changed : Bool

/-- `CAMUV.py:143-149` `check_identified_causality`. -/
def unidentified (P : Fin d → Finset (Fin d)) (U : Finset (Fin d)) : Bool := decide (∀ i ∈ U, ∀ j ∈ U, i ≠ j → j ∉ P i ∧ i ∉ P j)

/-- `CAMUV.py:152-156` `check_correlation`. -/
def checkCorrelation (t : Tests d K) (child : Fin d) (parents : Finset (Fin d)) : Bool := decide (∀ p ∈ parents, neighbour t child p = true)

/-- `CAMUV.py:117-128`: one `child` of `get_child`; the state is `max_independence`, `max_independence_child`. -/
def childStep (t : Tests d K) (s : St d) (U : Finset (Fin d)) (best : K × Option (Fin d)) (child : Fin d) : K × Option (Fin d) :=
  if checkCorrelation t child (U.erase child) then
    if best.1 < t.multi (child, U.erase child ∪ s.P child) (U.erase child) s.Y then
      (t.multi (child, U.erase child ∪ s.P child) (U.erase child) s.Y, some child)
    else best
  else best

/-- `CAMUV.py:110-130` `get_child`. -/
def getChild (t : Tests d K) (s : St d) (U : Finset (Fin d)) : K × Option (Fin d) := (t.enum U).foldl (childStep t s U) (t.zero, none)

/-- `CAMUV.py:133-140` `check_independence_withou_K`. -/
def dependentWithoutK (t : Tests d K) (s : St d) (parents : Finset (Fin d)) (child : Fin d) : Bool :=
  decide (∀ p ∈ parents, ¬ t.alpha < t.pair (child, s.Y child) (p, s.Y p))

/-- `CAMUV.py:75-78`: `P[child].add(parent)` and `get_residuals_matrix` (101-107) for each parent; only the last matrix matters, and it is computed with
the complete new `P[child]`. -/
def record (s : St d) (parents : Finset (Fin d)) (child : Fin d) : St d :=
  if parents = ∅ then s
  else ⟨fun v => if v = child then s.P child ∪ parents else s.P v, fun v => if v = child then s.P child ∪ parents else s.Y v, true⟩

/-- `CAMUV.py:62-78`: the body of the loop for one `variables_set`. (`P[None]` would raise an error; `child` is `None` only if `alpha < 0.0`.) -/
def step (t : Tests d K) (s : St d) (U : Finset (Fin d)) : St d :=
  if unidentified s.P U then
    if t.alpha < (getChild t s U).1 then
      (getChild t s U).2.elim s fun child =>
        if dependentWithoutK t s (U.erase child) child then record s (U.erase child) child else s
    else s
  else s

/-- `CAMUV.py:59-78`: one pass over the subsets of size `k`. -/
def pass (t : Tests d K) (k : Nat) (s : St d) : St d :=
  ((combos (List.finRange d) k).map List.toFinset).foldl (step t) { s with changed := false }

/-- `CAMUV.py:58-85`: the `while` loop; `none` when the fuel runs out. -/
def loop (t : Tests d K) (maxN : Nat) : Nat → Nat → St d → Option (St d)
  | 0, _, _ => none
  | f + 1, k, s =>
    if (pass t k s).changed then loop t maxN f 2 (pass t k s)
    else if maxN < k + 1 then some (pass t k s)
    else loop t maxN f (k + 1) (pass t k s)

/-- the state before the loop: `Y` is a copy of `X` -/
def init : St d := ⟨fun _ => ∅, fun _ => ∅, false⟩

/-- `CAMUV.py:87-96`: one `i` of the final loop. -/
def pruneStep (t : Tests d K) (P : Fin d → Finset (Fin d)) (i : Fin d) : Fin d → Finset (Fin d) :=
  fun v => if v = i then (P i).filter fun j => ¬ t.alpha < t.pair (i, (P i).erase j) (j, P j) else P v

/-- `CAMUV.py:51-98` `find_parents`. -/
def findParents (t : Tests d K) (maxN fuel : Nat) : Option (Fin d → Finset (Fin d)) :=
  (loop t maxN fuel 2 init).map fun s => (List.finRange d).foldl (pruneStep t) s.P

/-- `CAMUV.py:169-177`: the test of a pair `i < j` in `execute`. -/
def hidden (t : Tests d K) (P : Fin d → Finset (Fin d)) (i j : Fin d) : Bool :=
  if i ∈ P j ∨ j ∈ P i then false
  else if ¬ neighbour t j i = true ∨ ¬ neighbour t i j = true then false
  else decide (t.pair (i, P i) (j, P j) < t.alpha)

/-- `CAMUV.py:159-181` `execute`: `P` and the list `U` of pairs, each added when it is new; a set `{i, j}` is the pair with `i < j`. -/
def execute (t : Tests d K) (maxN fuel : Nat) : Option ((Fin d → Finset (Fin d)) × List (Fin d × Fin d)) :=
  (findParents t maxN fuel).map fun P =>
    (P, (List.finRange d).flatMap fun i => ((List.finRange d).filter fun j => decide (i < j) && hidden t P i j).map fun j => (i, j))

end Camuv
end CL
