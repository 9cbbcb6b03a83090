import Mathlib.Order.Basic
import Mathlib.Order.Defs.LinearOrder
import Mathlib.Data.List.FinRange

/-!
# Model of `causallearn/utils/MarkovNetwork/iamb.py`

The conditional-independence test is an arbitrary function `T target x S` with values in a linear order (no NaN).
`list(set(markov_blanket))` (line 60) only reorders the duplicate-free list; the model returns the list. The count of tests is
not modelled.
-/
namespace CL.Iamb
variable {n : Nat} {P : Type} [LinearOrder P]

/-- `iamb.py:36-43`: the loop over the remaining variables; `none` is `min_pval = inf, y = None`. -/
def bestVar (T : Fin n → Fin n → List (Fin n) → P) (alpha : P) (target : Fin n) (mb : List (Fin n)) (vars : List (Fin n)) :
    Option (P × Fin n) :=
  vars.foldl (fun best x =>
    if T target x mb ≤ alpha ∧ best.all (fun b => decide (T target x mb < b.1)) then some (T target x mb, x) else best) none

/-- `iamb.py:35`: the variables not yet in the blanket. -/
def candidates (target : Fin n) (mb : List (Fin n)) : List (Fin n) :=
  (List.finRange n).filter fun i => i ≠ target ∧ i ∉ mb

/-- `iamb.py:29-48`: the forward phase (`none` = still running). -/
def forward (T : Fin n → Fin n → List (Fin n) → P) (alpha : P) (target : Fin n) : Nat → List (Fin n) → Option (List (Fin n))
  | 0, _ => none
  | f + 1, mb =>
    (bestVar T alpha target mb (candidates target mb)).elim (some mb) fun b => forward T alpha target f (mb ++ [b.2])

/-- `iamb.py:54-58`: one iteration of the backward phase. -/
def backStep (T : Fin n → Fin n → List (Fin n) → P) (alpha : P) (target : Fin n) (mb : List (Fin n)) (x : Fin n) : List (Fin n) :=
  if alpha < T target x (mb.filter (· ≠ x)) then mb.erase x else mb

/-- `iamb.py:24-60` `iamb`. -/
def iamb (T : Fin n → Fin n → List (Fin n) → P) (alpha : P) (target : Fin n) (fuel : Nat) : Option (List (Fin n)) :=
  (forward T alpha target fuel []).map fun B => B.foldl (backStep T alpha target) B

/-- `iamb.py:10-15`: the raw matrix after processing the variables in `vars` (blankets `mb`). -/
def rawNetwork (mb : Fin n → List (Fin n)) (vars : List (Fin n)) : Fin n → Fin n → Bool :=
  vars.foldl (fun (m : Fin n → Fin n → Bool) i =>
    if (mb i).length > 0 then fun a b => m a b || (a == i && decide (b ∈ mb i)) || (decide (a ∈ mb i) && b == i) else m)
    fun _ _ => false

/-- `iamb.py:4-21` `iamb_markov_network`; `mb i` is the result of `iamb` for variable `i`. -/
def network (mb : Fin n → List (Fin n)) (a b : Fin n) : Bool :=
  rawNetwork mb (List.finRange n) a b && rawNetwork mb (List.finRange n) b a

end CL.Iamb
