import Verif.Model.Permutation
import Mathlib.Order.SymmDiff

/-!
# Model of `causallearn/search/PermutationBased/GRaSP.py:79-305` with the list objects

`Permutation.lean` models `dfs` by a relation that allows every choice of what to try. Here `dfs` is the function of the
program: the tests on `covered`, `flipped` and `history` are there, and the parent lists are objects, because
`for x in y_parents` (line 234) iterates over a list object that `update` (lines 296-298) overwrites in place until the restore of
line 276 replaces it in the dictionary by a copy.

The edge counter, which is only printed, and the printing are not modelled. The grow-shrink trees are replaced by their values
(`trParents`, `trScore`), which do not depend on the history of calls (C61). Scores are exact numbers.
-/
namespace CL
namespace Perm
variable {p : Nat} {K : Type} [AddCommGroup K] [LinearOrder K]

/-- The results of the calls of `random.shuffle`, in the order of the calls: `GRaSP.py:227` (`indices`) and `232`
(`y_parents`). -/
structure Rand (p : Nat) where
  idx : Nat → List Nat
  par : Nat → List (Fin p) → List (Fin p)

/-- `random.shuffle` permutes its argument. -/
structure Rand.Ok (R : Rand p) : Prop where
  idx : ∀ t, (R.idx t).Perm (List.range p)
  par : ∀ t l, (R.par t l).Perm l

/-- `GRaSP.py:24-77` `Order` with objects: `parents[y]` is the list object `ref y` with contents `heap (ref y)`; objects from
`next` on are not in use. `t` counts the calls of `random.shuffle`. -/
structure GS (p : Nat) (K : Type) where
  order : List (Fin p)
  ref : Fin p → Nat
  heap : Nat → List (Fin p)
  next : Nat
  scores : Fin p → K
  t : Nat

/-- the contents of the order object -/
def GS.view (s : GS p K) : Order p K := ⟨s.order, fun v => s.heap (s.ref v), s.scores⟩

/-- A state with the given contents. Between two calls of `dfs` by `grasp` (line 201) no list object is shared, so the
identity of the objects does not matter and they can be renumbered. -/
def GS.ofOrder (o : Order p K) (t : Nat) : GS p K :=
  ⟨o.order, fun v => v.val, fun r => if h : r < p then o.parents ⟨r, h⟩ else [], p, o.scores, t⟩

/-- `GRaSP.py:249`: `tuck` changes `order` only. -/
def tuckX (s : GS p K) (i j : Nat) : GS p K := { s with order := (tuck s.view i j).order }

/-- `GRaSP.py:290-303`: one `k` of `update`; the list object of `z` is overwritten in place. -/
def updateStepX (sc : Fin p → Finset (Fin p) → K) (s : GS p K × K × K) (k : Nat) : GS p K × K × K :=
  (s.1.order[k]?).elim s fun z =>
    ({ s.1 with heap := set1 s.1.heap (s.1.ref z) (trParents sc z (s.1.order.take k)),
                scores := set1 s.1.scores z (trScore sc z (s.1.order.take k)) },
      s.2.1 + s.1.scores z, s.2.2 + trScore sc z (s.1.order.take k))

/-- `GRaSP.py:284-305` `update`. -/
def updateX (sc : Fin p → Finset (Fin p) → K) (s : GS p K) (i j : Nat) : GS p K × K :=
  let r := (List.range' j (i + 1 - j)).foldl (updateStepX sc) (s, 0, 0)
  (r.1, r.2.2 - r.2.1)

/-- `GRaSP.py:273-277` for one `k`: the copy made on line 245 from the state `old` becomes the list object of `z`. (The copy is
given a number here and not when it is made: until then only `cache` refers to it.) -/
def restoreStepX (old s : GS p K) (k : Nat) : GS p K :=
  (old.order[k]?).elim s fun z =>
    { s with order := s.order.set k z, ref := set1 s.ref z s.next, heap := set1 s.heap s.next (old.heap (old.ref z)),
             next := s.next + 1, scores := set1 s.scores z (old.scores z) }

/-- `GRaSP.py:273-277`: restore positions `j..i`. -/
def restoreX (old s : GS p K) (i j : Nat) : GS p K := (List.range' j (i + 1 - j)).foldl (restoreStepX old) s

/-- a set of pairs of variables -/
abbrev Flips (p : Nat) := Finset (Fin p × Fin p)

/-- `GRaSP.py:259-265`: the new value of `flipped` in the state after the update. -/
def newFlips (s : GS p K) (i : Nat) (x : Fin p) (fl : Flips p) : Flips p :=
  symmDiff fl ((((s.heap (s.ref x)).filter fun z => decide (s.order.idxOf z < i)).map fun z => (min x z, max x z)).toFinset)

/-- `GRaSP.py:240-277`: one `x` that passes the test of line 237. `rec` is the recursive call and `deep` is `depth > 0`. The
result is whether `dfs` returns `True` here, the state and the variable `flipped` (which keeps its new value for the next `x` and
`y`, line 259). `history` is a stack: what is appended on line 268 is deleted on line 271. -/
def attempt (sc : Fin p → Finset (Fin p) → K) (eps : K) (deep : Bool) (rec : GS p K → Flips p → List (Flips p) → Bool × GS p K)
    (hist : List (Flips p)) (i : Nat) (x : Fin p) (s : GS p K) (fl : Flips p) : Bool × GS p K × Flips p :=
  let j := s.order.idxOf x
  let r := updateX sc (tuckX s i j) i j
  if eps < r.2 then (true, r.1, fl)
  else if -eps < r.2 then
    let fl' := newFlips r.1 i x fl
    let d := if fl' ≠ ∅ ∧ fl' ∉ hist ∧ deep = true then rec r.1 fl' (hist ++ [fl']) else (false, r.1)
    if d.1 = true then (true, d.2, fl') else (false, restoreX s d.2 i j, fl')
  else (false, restoreX s r.1 i j, fl)

/-- `GRaSP.py:234-277`: `for x in y_parents`, from position `q` of the list object `l` on. As in Python the iteration ends when
`q` has reached the present length of the list. The first argument bounds the number of iterations (see `innerX` in `outerX`). -/
def innerX (sc : Fin p → Finset (Fin p) → K) (eps : K) (deep : Bool) (rec : GS p K → Flips p → List (Flips p) → Bool × GS p K)
    (hist : List (Flips p)) (i l : Nat) : Nat → Nat → GS p K → Flips p → Bool × GS p K × Flips p
  | 0, _, s, fl => (false, s, fl)
  | f + 1, q, s, fl =>
    ((s.heap l)[q]?).elim (false, s, fl) fun x =>
      if hist ≠ [] ∧ (x :: s.heap (s.ref x)).toFinset ≠ (s.heap l).toFinset then innerX sc eps deep rec hist i l f (q + 1) s fl
      else
        let a := attempt sc eps deep rec hist i x s fl
        if a.1 = true then a else innerX sc eps deep rec hist i l f (q + 1) a.2.1 a.2.2

/-- `GRaSP.py:232`: `random.shuffle(y_parents)`. -/
def shuffleX (R : Rand p) (s : GS p K) (l : Nat) : GS p K := { s with heap := set1 s.heap l (R.par s.t (s.heap l)), t := s.t + 1 }

/-- `GRaSP.py:229-277`: `for i in indices`. A parent list has no repetitions (`GS.Inv.short`), so `p + 1` iterations of the
inner loop are enough. -/
def outerX (sc : Fin p → Finset (Fin p) → K) (eps : K) (R : Rand p) (deep : Bool)
    (rec : GS p K → Flips p → List (Flips p) → Bool × GS p K) (hist : List (Flips p)) : List Nat → GS p K → Flips p → Bool × GS p K
  | [], s, _ => (false, s)
  | i :: is, s, fl =>
    (s.order[i]?).elim (false, s) fun y =>
      let a := innerX sc eps deep rec hist i (s.ref y) (p + 1) 0 (shuffleX R s (s.ref y)) fl
      if a.1 = true then (true, a.2.1) else outerX sc eps R deep rec hist is a.2.1 a.2.2

/-- `GRaSP.py:222-280` `dfs`. -/
def dfsX (sc : Fin p → Finset (Fin p) → K) (eps : K) (R : Rand p) : Nat → GS p K → Flips p → List (Flips p) → Bool × GS p K
  | 0, s, fl, hist => outerX sc eps R false (fun s _ _ => (false, s)) hist (R.idx s.t) { s with t := s.t + 1 } fl
  | d + 1, s, fl, hist => outerX sc eps R true (dfsX sc eps R d) hist (R.idx s.t) { s with t := s.t + 1 } fl

/-- `GRaSP.py:201`: one call `dfs(depth - 1, set(), [], order, gsts)`; the result, the order object and the number of shuffles. -/
def roundX (sc : Fin p → Finset (Fin p) → K) (eps : K) (R : Rand p) (depth : Nat) (o : Order p K) (t : Nat) : Bool × Order p K × Nat :=
  let r := dfsX sc eps R (depth - 1) (GS.ofOrder o t) ∅ []
  (r.1, r.2.view, r.2.t)

/-- `GRaSP.py:201-204`: `while dfs(...)`. -/
def graspLoop (sc : Fin p → Finset (Fin p) → K) (eps : K) (R : Rand p) (depth : Nat) : Nat → Order p K → Nat → Option (Order p K)
  | 0, _, _ => none
  | f + 1, o, t =>
    if (roundX sc eps R depth o t).1 = true then graspLoop sc eps R depth f (roundX sc eps R depth o t).2.1 (roundX sc eps R depth o t).2.2
    else some (roundX sc eps R depth o t).2.1

/-- `GRaSP.py:79-218` `grasp`, from the shuffled order `l` (line 34) on: the final order object and the returned graph. `fuel`
bounds the rounds of the `while` loop and `cfuel` those of `dag2cpdag`. -/
def grasp (sc : Fin p → Finset (Fin p) → K) (eps : K) (R : Rand p) (depth : Nat) (l : List (Fin p)) (fuel cfuel : Nat) :
    Option (Order p K × GG.Outcome (GG p)) :=
  (graspLoop sc eps R depth fuel (graspInit sc l) 0).map fun o => (o, (parentsGraph o.parents).dag2cpdag cfuel)

end Perm
end CL
