import Mathlib.Order.Basic
import Mathlib.Order.Defs.LinearOrder
import Mathlib.Data.List.Basic
import Mathlib.Data.List.Perm.Basic
import Mathlib.Tactic.Common

/-!
# Model of `causallearn/utils/PriorityQueue.py`

`heapq` (standard library) is represented by any `HeapQ`: popping a non-empty heap returns an element of least weight,
whatever the order among equal weights, and leaves the others. (In the code `delete` overwrites the item of an entry inside
the heap; this changes comparisons only between entries of equal weight, which is why nothing is assumed about ties.)
An item is a pair of its key `item[0]` (`k`) and the rest (`v`). Entries are mutable Python lists shared between `pq` and
`entries`; they are identified by a serial number `id`.
-/
namespace CL
namespace PQ

variable {K V W : Type} [DecidableEq K] [LinearOrder W]

/-- `PriorityQueue.py:18`: `[weight, item]`; `dead` says the item was overwritten by `((-1,),)`. -/
structure Entry (K V W : Type) where
  id : Nat
  w : W
  k : K
  v : V
  dead : Bool

/-- A correct `heapq`. -/
structure HeapQ (K V W : Type) [LinearOrder W] where
  pop : List (Entry K V W) → Option (Entry K V W × List (Entry K V W))
  nil : pop [] = none
  spec : ∀ h, h ≠ [] → ∃ e h', pop h = some (e, h') ∧ (e :: h').Perm h ∧ ∀ e' ∈ h, e.w ≤ e'.w

/-- `PriorityQueue.py:9-12`: the fields (`fresh` numbers the entries). -/
structure State (K V W : Type) where
  n : Int
  pq : List (Entry K V W)
  entries : K → Option (Entry K V W)
  fresh : Nat

/-- `PriorityQueue.py:9-12` `__init__`. -/
def init : State K V W := ⟨0, [], fun _ => none, 0⟩

/-- `PriorityQueue.py:17-21` `push`. -/
def push (s : State K V W) (k : K) (v : V) (w : W) : State K V W :=
  let e : Entry K V W := ⟨s.fresh, w, k, v, false⟩
  ⟨s.n + 1, e :: s.pq, fun k' => if k' = k then some e else s.entries k', s.fresh + 1⟩

/-- `PriorityQueue.py:23-24` `get`: the entry `[weight, item]`. -/
def get (s : State K V W) (k : K) : Option (W × V) := (s.entries k).map fun e => (e.w, e.v)

/-- `PriorityQueue.py:26-29` `delete`; `none` is a `KeyError`. -/
def delete (s : State K V W) (k : K) : Option (State K V W) :=
  (s.entries k).map fun e =>
    ⟨s.n - 1, s.pq.map (fun e' => if e'.id = e.id then { e' with dead := true } else e'),
      fun k' => if k' = k then none else s.entries k', s.fresh⟩

/-- Outcome of `pop`. -/
inductive PopRes (K V W : Type)
  | ok (w : W) (k : K) (v : V) (s : State K V W)
  | keyError

/-- `PriorityQueue.py:34-42` `pop`: the loop discards dead entries (each round shortens the heap, so the heap length is
enough fuel). An `IndexError` (empty heap) or a `KeyError` of `del` is reported as `keyError` too. -/
def popLoop (Q : HeapQ K V W) : Nat → State K V W → PopRes K V W
  | 0, _ => .keyError
  | f + 1, s =>
    if s.n = 0 then .keyError
    else (Q.pop s.pq).elim .keyError fun r =>
      if r.1.dead then popLoop Q f { s with pq := r.2 }
      else (s.entries r.1.k).elim .keyError fun _ =>
        .ok r.1.w r.1.k r.1.v ⟨s.n - 1, r.2, fun k' => if k' = r.1.k then none else s.entries k', s.fresh⟩

/-- `PriorityQueue.py:34-42` `pop`. -/
def pop (Q : HeapQ K V W) (s : State K V W) : PopRes K V W := popLoop Q (s.pq.length + 1) s

end PQ
end CL
