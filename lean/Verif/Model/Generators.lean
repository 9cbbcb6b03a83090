import Mathlib.Data.List.Basic
import Mathlib.Tactic.Common

/-!
# Model of `causallearn/utils/ChoiceGenerator.py` and `causallearn/utils/DepthChoiceGenerator.py`

Python integers are `Int` (for `b = 1` the initial entry is `-1`). The object mutates its fields; the model returns the new
object. The returned list is the same Python object on every call (its content at the time of the call is modelled here;
the consequences of the sharing are in the FCI model). The outer `none` of `next` is an `IndexError`.
-/
namespace CL
namespace Gen

/-- `ChoiceGenerator.py:34-43`, the fields (`choiceReturned` is always a copy of `choiceLocal` when returned). -/
structure CGen where
  a : Nat
  b : Nat
  diff : Int
  loc : List Int
  begun : Bool

/-- `ChoiceGenerator.py:37-41`, `DepthChoiceGenerator.py:22-31`: `[0, 1, ..., b-2, b-2]`. -/
def initLocal (b : Nat) : List Int :=
  (List.range (b - 1)).map (fun i : Nat => (i : Int)) ++ (if b > 0 then [(b : Int) - 2] else [])

/-- `ChoiceGenerator.py:17-43` `__init__`. -/
def CGen.init (a b : Nat) : CGen := ⟨a, b, (a : Int) - b, initLocal b, false⟩

/-- `ChoiceGenerator.py:45-48` `fill`, `DepthChoiceGenerator.py:68-84` `_fill`. -/
def fill (loc : List Int) (b index : Nat) : List Int :=
  (List.range' (index + 1) (b - (index + 1))).foldl (fun l i => l.set i (l.getD (i - 1) 0 + 1))
    (loc.set index (loc.getD index 0 + 1))

/-- The `while i > 0` scan, `ChoiceGenerator.py:53-55`, `DepthChoiceGenerator.py:92-94`: the first index from the right
whose entry is below its maximum. Outer `none`: index out of range. -/
def scan (loc : List Int) (diff : Int) : Nat → Option (Option Nat)
  | 0 => some none
  | i + 1 => (loc[i]?).elim none fun v => if v < (i : Int) + diff then some (some i) else scan loc diff i

/-- `ChoiceGenerator.py:50-68` `next`. -/
def CGen.next (g : CGen) : Option (Option (List Int) × CGen) :=
  (scan g.loc g.diff g.b).map fun r =>
    r.elim (if g.begun then (none, g) else (some g.loc, { g with begun := true }))
      fun i => (some (fill g.loc g.b i), { g with loc := fill g.loc g.b i, begun := true })

/-- `DepthChoiceGenerator.py:21-64`, the fields. -/
structure DGen where
  a : Nat
  b : Nat
  eff : Nat
  diff : Int
  loc : List Int
  begun : Bool

/-- `DepthChoiceGenerator.py:36-66` `__init__`; `depth = none` is `-1`. -/
def DGen.init (a : Nat) (depth : Option Nat) : DGen :=
  let eff := depth.elim a fun d => if d > a then a else d
  ⟨a, 0, eff, (a : Int) - 0, initLocal 0, false⟩

/-- `DepthChoiceGenerator.py:20-34` `_initialize`. -/
def DGen.reinit (g : DGen) : DGen :=
  { g with diff := (g.a : Int) - g.b, loc := initLocal g.b, begun := false }

/-- `DepthChoiceGenerator.py:86-113` `next` without the recursive call (used for the recursive call, made on an object with
`begun = False`, for which that branch is not taken; the model returns an error there). -/
def DGen.nextInner (g : DGen) : Option (Option (List Int) × DGen) :=
  (scan g.loc g.diff g.b).bind fun r =>
    r.elim (if g.begun then none else some (some g.loc, { g with begun := true }))
      fun i => some (some (fill g.loc g.b i), { g with loc := fill g.loc g.b i, begun := true })

/-- `DepthChoiceGenerator.py:86-113` `next`. -/
def DGen.next (g : DGen) : Option (Option (List Int) × DGen) :=
  (scan g.loc g.diff g.b).bind fun r =>
    r.elim
      (if g.begun then
        if g.b + 1 > g.eff then some (none, { g with b := g.b + 1 }) else ({ g with b := g.b + 1 }).reinit.nextInner
       else some (some g.loc, { g with begun := true }))
      fun i => some (some (fill g.loc g.b i), { g with loc := fill g.loc g.b i, begun := true })

/-- The result of the `i`-th call of `next` (from 0); `none` if some call up to it raised. -/
def callN {S : Type} (next : S → Option (Option (List Int) × S)) : Nat → S → Option (Option (List Int))
  | 0, s => (next s).map Prod.fst
  | i + 1, s => (next s).bind fun r => callN next i r.2

end Gen
end CL
