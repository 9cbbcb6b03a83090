import Mathlib.Data.List.Basic
import Mathlib.Tactic.Common

/-!
# Model of `causallearn/utils/PCUtils/BackgroundKnowledge.py`

Nodes are compared by name (`GraphNode.py:64-71`), so the node type `N` is any type with decidable equality.
`re.match(pattern, node.get_name())` (line 134-135) is the parameter `rx`. Argument type checks (`TypeError`) are not
modelled. Python sets are duplicate-free lists: `setAdd` / `setDel` below.
-/
namespace CL
namespace BK

variable {N : Type} [DecidableEq N]

/-- Python `set.add`. -/
def setAdd {α : Type} [DecidableEq α] (l : List α) (a : α) : List α := if a ∈ l then l else l ++ [a]

/-- Python `if a in l: l.remove(a)` on a set. -/
def setDel {α : Type} [DecidableEq α] (l : List α) (a : α) : List α := l.filter (· ≠ a)

/-- `BackgroundKnowledge.py:8-14`: the fields. `tier_map` is a partial function from tier numbers to sets of nodes. -/
structure State (N : Type) where
  forb : List (N × N)
  forbPat : List (String × String)
  req : List (N × N)
  reqPat : List (String × String)
  tierMap : Nat → Option (List N)
  tierValue : N → Option Nat

/-- `BackgroundKnowledge.py:8-14` `__init__`. -/
def init : State N := ⟨[], [], [], [], fun _ => none, fun _ => none⟩

/-- `BackgroundKnowledge.py:100-106` `_ensure_tiers`. -/
def ensureTiers (s : State N) (tier : Nat) : State N :=
  { s with tierMap := fun t => if t ≤ tier ∧ s.tierMap t = none then some [] else s.tierMap t }

/-- The public mutating calls. -/
inductive Op (N : Type)
  | addForb (a b : N) | addReq (a b : N)
  | addForbPat (p q : String) | addReqPat (p q : String)
  | addTier (x : N) (t : Nat)
  | remForb (a b : N) | remReq (a b : N)
  | remForbPat (p q : String) | remReqPat (p q : String)
  | remTier (x : N) (t : Nat)

/-- `add_forbidden_by_node` 16-34, `add_required_by_node` 36-54, `add_forbidden_by_pattern` 56-75,
`add_required_by_pattern` 77-96, `add_node_to_tier` 106-132, `remove_forbidden_by_node` 207-228,
`remove_required_by_node` 230-251, `remove_forbidden_by_pattern` 253-274, `remove_required_by_pattern` 276-297,
`remove_node_from_tier` 299-318. -/
def exec (s : State N) : Op N → State N
  | .addForb a b => { s with forb := setAdd s.forb (a, b) }
  | .addReq a b => { s with req := setAdd s.req (a, b) }
  | .addForbPat p q => { s with forbPat := setAdd s.forbPat (p, q) }
  | .addReqPat p q => { s with reqPat := setAdd s.reqPat (p, q) }
  | .addTier x t =>
    let s1 := ensureTiers s t
    { s1 with
      tierMap := fun t' => if t' = t then (s1.tierMap t).map (setAdd · x) else s1.tierMap t'
      tierValue := fun y => if y = x then some t else s1.tierValue y }
  | .remForb a b => { s with forb := setDel s.forb (a, b) }
  | .remReq a b => { s with req := setDel s.req (a, b) }
  | .remForbPat p q => { s with forbPat := setDel s.forbPat (p, q) }
  | .remReqPat p q => { s with reqPat := setDel s.reqPat (p, q) }
  | .remTier x t =>
    let s1 := ensureTiers s t
    { s1 with
      tierMap := fun t' => if t' = t then (s1.tierMap t).map (setDel · x) else s1.tierMap t'
      tierValue := fun y => if y = x then none else s1.tierValue y }

/-- A history of calls on a fresh object. -/
def run (hist : List (Op N)) : State N := hist.foldl exec init

/-- `BackgroundKnowledge.py:137-171` `is_forbidden`. -/
def isForbidden (rx : String → N → Bool) (s : State N) (a b : N) : Bool :=
  (s.forb.any fun p => p.1 = a ∧ p.2 = b) ||
  (s.forbPat.any fun p => rx p.1 a && rx p.2 b) ||
  (s.tierValue a).any fun ta => (s.tierValue b).any fun tb => decide (ta > tb)

/-- `BackgroundKnowledge.py:173-202` `is_required`. -/
def isRequired (rx : String → N → Bool) (s : State N) (a b : N) : Bool :=
  (s.req.any fun p => p.1 = a ∧ p.2 = b) || (s.reqPat.any fun p => rx p.1 a && rx p.2 b)

/-- `BackgroundKnowledge.py:320-332` `is_in_which_tier` (−1 is `none`). -/
def inWhichTier (s : State N) (x : N) : Option Nat := s.tierValue x

end BK
end CL
