import Verif.Model.Graph

/-!
# Model of `causallearn/utils/PCUtils/SkeletonDiscovery.py` and the helpers it uses

The conditional independence test is an arbitrary function `ind x y S` standing for `cg.ci_test(x, y, S) > alpha`
(`S` is the tuple passed by the code). Background knowledge is seen through its two queries.
Progress bars and verbose printing are not modelled.
-/
namespace CL
open GG
variable {n : Nat}

/-- Python `itertools.combinations(l, k)`: all `k`-element subsequences in lexicographic order of positions. -/
def combos {α : Type} : List α → Nat → List (List α)
  | _, 0 => [[]]
  | [], _ + 1 => []
  | a :: l, k + 1 => (combos l k).map (a :: ·) ++ combos l (k + 1)

/-- A CI decision: `ind x y S = true` iff the test's p-value exceeds `alpha`. -/
abbrev CI (n : Nat) := Fin n → Fin n → List (Fin n) → Bool

/-- Background knowledge as seen by the algorithms: `is_forbidden` and `is_required` on node pairs
(`BackgroundKnowledge.py:137-200`). `background_knowledge=None` is the knowledge that answers `False` everywhere: every
use is guarded by `is not None and ...`. -/
structure Know (n : Nat) where
  forb : Fin n → Fin n → Bool
  req : Fin n → Fin n → Bool

/-- `background_knowledge=None`. -/
def Know.none : Know n := ⟨fun _ _ => false, fun _ _ => false⟩

/-- Both directions forbidden (`SkeletonDiscovery.py:80-83`). -/
def Know.ban (k : Know n) (x y : Fin n) : Bool := k.forb x y && k.forb y x

/-- `cg.sepset`: an `n × n` object array of `None` or lists of tuples (`GraphClass.py:39`). Tuples made from Python sets
(`tuple(sepsets)`) are modelled as lists up to order and repetition; the code only tests membership in them. -/
abbrev Sep (n : Nat) := Fin n → Fin n → Option (List (List (Fin n)))

/-- `Helper.py:102-109` `append_value`. -/
def appendValue (s : Sep n) (i j : Fin n) (v : List (Fin n)) : Sep n :=
  upd s i j (some ((s i j).getD [] ++ [v]))

/-- The two consecutive `append_value` calls for `(x, y)` and `(y, x)`, e.g. `SkeletonDiscovery.py:112-113`. -/
def appendBoth (s : Sep n) (x y : Fin n) (v : List (Fin n)) : Sep n := appendValue (appendValue s x y v) y x v

namespace GG

/-- The idiom `e = G.get_edge(x, y); if e is not None: G.remove_edge(e)`, e.g. `SkeletonDiscovery.py:86-88`. -/
def removeIfEdge (G : GG n) (x y : Fin n) : GG n :=
  match G.getEdge x y with
  | none => G
  | some e => G.removeEdge e

/-- `GraphClass.py:60-62` `neighbors`. -/
def neighbors (G : GG n) (x : Fin n) : List (Fin n) := (List.finRange n).filter fun y => G.g x y != .null

/-- `GraphClass.py:64-66` `max_degree` (Python's `max` raises on an empty graph; the model returns 0). -/
def maxDegree (G : GG n) : Nat := ((List.finRange n).map fun x => (G.neighbors x).length).foldl max 0

/-- `GraphClass.py:25-37` constructor: the complete undirected graph. -/
def complete (n : Nat) : GG n :=
  (upperPairs n).foldl (fun G p => (G.addEdge (mkEdge p.1 p.2 .tail .tail)).2) (GG.empty n)

end GG

/-- State of the skeleton phase: graph, separating sets, pending removals. -/
structure SkSt (n : Nat) where
  G : GG n
  sep : Sep n
  rem : List (Fin n × Fin n)

/-- `SkeletonDiscovery.py:99-122`, `stable=True`: the loop over conditioning sets; accumulates `edge_removal` and the
set `sepsets`. -/
def stableTests (ind : CI n) (x y : Fin n) (Ss : List (List (Fin n))) (rem : List (Fin n × Fin n)) :
    List (Fin n × Fin n) × List (Fin n) :=
  Ss.foldl (fun a S => if ind x y S then (a.1 ++ [(x, y), (y, x)], a.2 ++ S) else a) (rem, [])

/-- `SkeletonDiscovery.py:78-125`, `stable=True`: the body for one neighbour `y` of `x`. -/
def stableY (ind : CI n) (k : Know n) (d : Nat) (x : Fin n) (nx : List (Fin n)) (st : SkSt n) (y : Fin n) : SkSt n :=
  let rem0 := if k.ban x y then st.rem ++ [(x, y), (y, x)] else st.rem
  let r := stableTests ind x y (combos (nx.filter (· ≠ y)) d) rem0
  if (x, y) ∈ r.1 ∨ (st.G.getEdge x y).isNone then ⟨st.G, appendBoth st.sep x y r.2, r.1⟩
  else ⟨st.G, st.sep, r.1⟩

/-- `SkeletonDiscovery.py:74-125`, `stable=True`: the body for one `x` (`len(Neigh_x) < depth - 1: continue`). -/
def stableX (ind : CI n) (k : Know n) (d : Nat) (st : SkSt n) (x : Fin n) : SkSt n :=
  let nx := st.G.neighbors x
  if nx.length + 1 < d then st else nx.foldl (stableY ind k d x nx) st

/-- `SkeletonDiscovery.py:66-133`, `stable=True`: one depth. The removals (lines 130-133) iterate over
`set(edge_removal)`; the model goes through the list in order, which gives the same graph because removals of edges
commute and repeat harmlessly. -/
def stableDepth (ind : CI n) (k : Know n) (d : Nat) (G : GG n) (sep : Sep n) : GG n × Sep n :=
  let st := (List.finRange n).foldl (stableX ind k d) ⟨G, sep, []⟩
  (st.rem.foldl (fun G p => G.removeIfEdge p.1 p.2) st.G, st.sep)

/-- `SkeletonDiscovery.py:78-125`, `stable=False`: the loop over the neighbours of `x`; line 94 `break` leaves it. -/
def eagerYs (ind : CI n) (k : Know n) (d : Nat) (x : Fin n) (nx : List (Fin n)) :
    List (Fin n) → GG n × Sep n → GG n × Sep n
  | [], s => s
  | y :: ys, (G, sep) =>
    if k.ban x y then ((G.removeIfEdge x y).removeIfEdge y x, appendBoth sep x y [])
    else
      let r : GG n × Sep n := match (combos (nx.filter (· ≠ y)) d).find? (ind x y) with
        | some S => ((G.removeIfEdge x y).removeIfEdge y x, appendBoth sep x y S)
        | none => (G, sep)
      let sep' := if (r.1.getEdge x y).isNone then appendBoth r.2 x y [] else r.2
      eagerYs ind k d x nx ys (r.1, sep')

/-- `SkeletonDiscovery.py:74-125`, `stable=False`: the body for one `x`. -/
def eagerX (ind : CI n) (k : Know n) (d : Nat) (s : GG n × Sep n) (x : Fin n) : GG n × Sep n :=
  let nx := s.1.neighbors x
  if nx.length + 1 < d then s else eagerYs ind k d x nx nx s

/-- `SkeletonDiscovery.py:66-133`, `stable=False`: one depth (`edge_removal` stays empty). -/
def eagerDepth (ind : CI n) (k : Know n) (d : Nat) (G : GG n) (sep : Sep n) : GG n × Sep n :=
  (List.finRange n).foldl (eagerX ind k d) (G, sep)

/-- `SkeletonDiscovery.py:62-133`: `while cg.max_degree() - 1 > depth: depth += 1; ...`, entered with
`depth = d - 1`. `none` = out of fuel. -/
def skLoop (stable : Bool) (ind : CI n) (k : Know n) : Nat → Nat → GG n × Sep n → Option (GG n × Sep n)
  | 0, _, _ => none
  | f + 1, d, s =>
    if d < s.1.maxDegree then
      skLoop stable ind k f (d + 1) (if stable then stableDepth ind k d s.1 s.2 else eagerDepth ind k d s.1 s.2)
    else some s

/-- `SkeletonDiscovery.py:16-138` `skeleton_discovery`, returning the graph and the separating sets. -/
def skeletonDiscovery (stable : Bool) (ind : CI n) (k : Know n) : Option (GG n × Sep n) :=
  skLoop stable ind k (n + 1) 0 (GG.complete n, fun _ _ => Option.none)

end CL
