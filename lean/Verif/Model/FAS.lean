import Verif.Model.Skeleton

/-!
# Model of `causallearn/utils/FAS.py`

The test is an arbitrary `ind x y S` (`cg.ci_test(x, y, S) > alpha`). The third return value `test_results` (the raw p-values)
and the parameter checks (lines 55-68) are not modelled. Python sets are lists up to order and repetition. The loop over the
Python set `edge_removal` (line 139) is modelled by the list in insertion order.
-/
namespace CL
open GG
variable {n : Nat}

/-- `sep_sets`: the dictionary from pairs to sets returned by `fas` (`none`: no entry). -/
abbrev SSet (n : Nat) := Fin n → Fin n → Option (List (Fin n))

/-- `FAS.py:106-107`, `125-126`, `144-145`: the two assignments `sep_sets[(x, y)] = v; sep_sets[(y, x)] = v`. -/
def setBoth (ss : SSet n) (x y : Fin n) (v : List (Fin n)) : SSet n := upd (upd ss x y (some v)) y x (some v)

/-- State of `fas`: `cg.G`, `cg.sepset`, `sep_sets`, `edge_removal`. -/
structure FasSt (n : Nat) where
  G : GG n
  sep : Sep n
  ss : SSet n
  rem : List (Fin n × Fin n)

/-- `FAS.py:97-137`, `stable=True`: the body for one neighbour `y` of `x`. -/
def fasStableY (ind : CI n) (k : Know n) (d : Nat) (x : Fin n) (nx : List (Fin n)) (st : FasSt n) (y : Fin n) : FasSt n :=
  let rem0 := if k.ban x y then st.rem ++ [(x, y), (y, x)] else st.rem
  let r := stableTests ind x y (combos (nx.filter (· ≠ y)) d) rem0
  ⟨st.G, appendBoth st.sep x y r.2, st.ss, r.1⟩

/-- `FAS.py:93-137`, `stable=True`: the body for one `x`. -/
def fasStableX (ind : CI n) (k : Know n) (d : Nat) (st : FasSt n) (x : Fin n) : FasSt n :=
  let nx := st.G.neighbors x
  if nx.length + 1 < d then st else nx.foldl (fasStableY ind k d x nx) st

/-- `FAS.py:139-145`: one pending removal. -/
def fasRemove (sep : Sep n) (s : GG n × SSet n) (p : Fin n × Fin n) : GG n × SSet n :=
  (s.1.removeIfEdge p.1 p.2, (sep p.1 p.2).elim s.2 fun L => setBoth s.2 p.1 p.2 L.flatten)

/-- `FAS.py:88-145`, `stable=True`: one depth. -/
def fasStableDepth (ind : CI n) (k : Know n) (d : Nat) (st : FasSt n) : FasSt n :=
  let st' := (List.finRange n).foldl (fasStableX ind k d) { st with rem := [] }
  let r := st'.rem.foldl (fasRemove st'.sep) (st'.G, st'.ss)
  ⟨r.1, st'.sep, r.2, st'.rem⟩

/-- `FAS.py:97-137`, `stable=False`: the loop over the neighbours of `x`; line 108 `break` leaves it. -/
def fasEagerYs (ind : CI n) (k : Know n) (d : Nat) (x : Fin n) (nx : List (Fin n)) : List (Fin n) → FasSt n → FasSt n
  | [], st => st
  | y :: ys, st =>
    if k.ban x y then
      ⟨(st.G.removeIfEdge x y).removeIfEdge y x, appendBoth st.sep x y [], setBoth st.ss x y [], st.rem⟩
    else
      let r : FasSt n := match (combos (nx.filter (· ≠ y)) d).find? (ind x y) with
        | some S => ⟨(st.G.removeIfEdge x y).removeIfEdge y x, appendBoth st.sep x y S, setBoth st.ss x y S, st.rem⟩
        | none => st
      fasEagerYs ind k d x nx ys ⟨r.G, appendBoth r.sep x y [], r.ss, r.rem⟩

/-- `FAS.py:93-137`, `stable=False`: the body for one `x`. -/
def fasEagerX (ind : CI n) (k : Know n) (d : Nat) (st : FasSt n) (x : Fin n) : FasSt n :=
  let nx := st.G.neighbors x
  if nx.length + 1 < d then st else fasEagerYs ind k d x nx nx st

/-- `FAS.py:88-145`, `stable=False`: one depth (`edge_removal` stays empty). -/
def fasEagerDepth (ind : CI n) (k : Know n) (d : Nat) (st : FasSt n) : FasSt n :=
  (List.finRange n).foldl (fasEagerX ind k d) { st with rem := [] }

/-- `FAS.py:86`: `current_depth < depth` with `current_depth = d - 1`; `none` is `depth = -1`, i.e. infinity. -/
def withinDepth (depth : Option Nat) (d : Nat) : Bool := depth.elim true (fun D => decide (d ≤ D))

/-- `FAS.py:86-145`: the loop, entered with `current_depth = d - 1` (`none`: out of fuel). -/
def fasLoop (stable : Bool) (ind : CI n) (k : Know n) (depth : Option Nat) : Nat → Nat → FasSt n → Option (FasSt n)
  | 0, _, _ => none
  | f + 1, d, st =>
    if d < st.G.maxDegree ∧ withinDepth depth d = true then
      fasLoop stable ind k depth f (d + 1) (if stable then fasStableDepth ind k d st else fasEagerDepth ind k d st)
    else some st

/-- `FAS.py:17-147` `fas`, returning the graph and `sep_sets`. -/
def fas (stable : Bool) (ind : CI n) (k : Know n) (depth : Option Nat) : Option (GG n × SSet n) :=
  (fasLoop stable ind k depth (n + 1) 0 ⟨GG.complete n, fun _ _ => none, fun _ _ => none, []⟩).map fun st => (st.G, st.ss)

end CL
