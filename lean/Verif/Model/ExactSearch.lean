import Verif.Model.Skeleton
import Verif.Model.PriorityQueue
import Mathlib.Algebra.Order.Monoid.WithTop
import Mathlib.Algebra.Order.Group.Defs
import Mathlib.Data.Finset.Card
import Mathlib.Data.Finset.Dedup
import Mathlib.Data.Finset.Insert
import Mathlib.Data.Fintype.Card
import Mathlib.Data.List.Sort
import Mathlib.Algebra.BigOperators.Group.Finset.Basic

/-!
# Model of `causallearn/search/ScoreBased/ExactSearch.py`

Scores are exact numbers of an ordered group `K` (floating point rounding, NaN and `-inf` are not modelled); `INF` is `⊤`
in `WithTop K`. `bic_score_node(X, i, S)` is an arbitrary function `score i S` of the parent *set* `S`.
Sorted tuples of distinct variables (`U`, the subsets of the order graph) and parent structures are `Finset`s: the code
only sorts them, compares them, tests inclusion and uses them as dictionary keys.
-/
namespace CL
namespace Exact
variable {d : Nat} {K : Type} [AddCommGroup K] [LinearOrder K] [IsOrderedAddMonoid K]

/-- A parent graph: list of `(structure, score)`. -/
abbrev PG (d : Nat) (K : Type) := List (Finset (Fin d) × K)

/-- `ExactSearch.py:373-393` `insort`: `bisect_left` on the scores (the list is sorted, `genParentGraph_sorted`). -/
def insort (pg : PG d K) (S : Finset (Fin d)) (s : K) : PG d K :=
  pg.takeWhile (fun e => e.2 < s) ++ (S, s) :: pg.dropWhile (fun e => e.2 < s)

/-- `ExactSearch.py:396-411` `query_best_structure`. -/
def query (pg : PG d K) (U : Finset (Fin d)) : Option (Finset (Fin d)) × WithTop K :=
  (pg.find? fun e => e.1 ⊆ U).elim (none, ⊤) fun e => (some e.1, (e.2 : WithTop K))

/-- `ExactSearch.py:335-353`: one structure of positive size. The inner `for variable in structure: ... break / else`. -/
def tryStructure (score : Finset (Fin d) → K) (incl : Finset (Fin d)) (pg : PG d K) (l : List (Fin d)) : PG d K :=
  if incl ⊆ l.toFinset then
    if l.any (fun v => decide ((query pg (l.toFinset.erase v)).2 < (score l.toFinset : WithTop K))) then pg
    else insort pg l.toFinset (score l.toFinset)
  else pg

/-- `ExactSearch.py:327-353`: one value of `j`. -/
def parentLayer (score : Finset (Fin d) → K) (maxPar : Nat) (ps : List (Fin d)) (incl : Finset (Fin d)) (pg : PG d K)
    (j : Nat) : PG d K :=
  if j = 0 then if incl.card > 0 then pg else insort pg ∅ (score ∅)
  else if j ≤ maxPar then (combos ps j).foldl (tryStructure score incl) pg
  else pg

/-- `ExactSearch.py:282-355` `generate_parent_graph`; `ps` lists the possible parents without repetition, in whatever order
`tuple(set(parent_set))` produces. -/
def genParentGraph (score : Finset (Fin d) → K) (maxPar : Nat) (ps : List (Fin d)) (incl : Finset (Fin d)) : PG d K :=
  (List.range (ps.length + 1)).foldl (parentLayer score maxPar ps incl) []

/-- `parent_graphs[i][0][1]`. (An empty parent graph raises `IndexError`; the model answers `⊤`. The theorems assume that
some admissible DAG exists, so that no parent graph is empty.) -/
def headScore (pg : PG d K) : WithTop K := pg.head?.elim ⊤ fun e => (e.2 : WithTop K)

/-- the list `structures` (`None` entries are `none`) -/
abbrev Structs (d : Nat) := Fin d → Option (Finset (Fin d))

/-- `tuple(i for i in range(d) if i not in U)`. -/
def outSet (U : Finset (Fin d)) : List (Fin d) := (List.finRange d).filter (· ∉ U)

/-- `new_structures = structures[:]; new_structures[i] = parents`. -/
def setStruct (s : Structs d) (i : Fin d) (p : Option (Finset (Fin d))) : Structs d := fun j => if j = i then p else s j

/-- `ExactSearch.py:414-431` `path_extension`: every round of `while True` adds a variable, so `d` rounds are enough. -/
def pathExtLoop (pgs : Fin d → PG d K) : Nat → Finset (Fin d) × Structs d × WithTop K →
    Finset (Fin d) × Structs d × WithTop K
  | 0, s => s
  | f + 1, s =>
    ((outSet s.1).find? fun i => decide ((query (pgs i) s.1).2 = headScore (pgs i))).elim s fun i =>
      pathExtLoop pgs f (insert i s.1, setStruct s.2.1 i (query (pgs i) s.1).1, s.2.2 + headScore (pgs i))

/-- `ExactSearch.py:414-431` `path_extension`. -/
def pathExt (pgs : Fin d → PG d K) (s : Finset (Fin d) × Structs d × WithTop K) :
    Finset (Fin d) × Structs d × WithTop K := pathExtLoop pgs d s

/-! ### A* -/

/-- `ExactSearch.py:185` and `:151`: the simple heuristic. -/
def simpleH (pgs : Fin d → PG d K) (U : Finset (Fin d)) : WithTop K := ((outSet U).map fun j => headScore (pgs j)).sum

/-- The variables of `astar_shortest_path`. `score` is a dictionary; it is read only at keys that are in `opened` or
`closed`, all of which were assigned. -/
structure AState (d : Nat) (K : Type) where
  opened : PQ.State (Finset (Fin d)) (Structs d) (WithTop K)
  closed : Finset (Finset (Fin d))
  score : Finset (Fin d) → WithTop K

/-- `ExactSearch.py:172-180`: the successor of `U` along variable `i`: new node, new structures and its cost `g`. -/
def succ (pgs : Fin d → PG d K) (ext : Bool) (U : Finset (Fin d)) (structs : Structs d) (gU : WithTop K) (i : Fin d) :
    Finset (Fin d) × Structs d × WithTop K :=
  let s0 := (insert i U, setStruct structs i (query (pgs i) U).1, (query (pgs i) U).2 + gU)
  if ext then pathExt pgs s0 else s0

/-- `ExactSearch.py:171-203`: one pass of `for i in out_set`. -/
def relax (pgs : Fin d → PG d K) (ext : Bool) (h : Finset (Fin d) → WithTop K) (U : Finset (Fin d)) (structs : Structs d)
    (st : AState d K) (i : Fin d) : AState d K :=
  let s := succ pgs ext U structs (st.score U) i
  let sc : Finset (Fin d) → WithTop K := fun W => if W = s.1 then s.2.2 else st.score W
  let f := s.2.2 + h s.1
  if s.1 ∈ st.closed then
    if s.2.2 < st.score s.1 then ⟨PQ.push st.opened s.1 s.2.1 f, st.closed.erase s.1, sc⟩ else st
  else if (PQ.get st.opened s.1).isSome then
    if s.2.2 < st.score s.1 then
      ⟨PQ.push ((PQ.delete st.opened s.1).getD st.opened) s.1 s.2.1 f, st.closed, sc⟩
    else st
  else ⟨PQ.push st.opened s.1 s.2.1 f, st.closed, sc⟩

/-- `ExactSearch.py:156-206`: the `while` loop (`none`: out of fuel, or an exception of the queue); `last` is the variable
`structures`. -/
def astarLoop (Q : PQ.HeapQ (Finset (Fin d)) (Structs d) (WithTop K)) (pgs : Fin d → PG d K) (ext : Bool)
    (h : Finset (Fin d) → WithTop K) : Nat → AState d K → Structs d → Option (Structs d)
  | 0, _, _ => none
  | f + 1, st, last =>
    if st.opened.n = 0 then some last
    else match PQ.pop Q st.opened with
      | .keyError => none
      | .ok _ U structs o =>
        if U ∈ st.closed then astarLoop Q pgs ext h f ⟨o, st.closed, st.score⟩ structs
        else if U.card = d then some structs
        else astarLoop Q pgs ext h f
          ((outSet U).foldl (relax pgs ext h U structs) ⟨o, insert U st.closed, st.score⟩) structs

/-- `ExactSearch.py:140-152`: the state before the loop. -/
def astarInit (pgs : Fin d → PG d K) : AState d K :=
  ⟨PQ.push PQ.init ∅ (fun _ => some ∅) (((List.finRange d).map fun i => headScore (pgs i)).sum), ∅,
    fun U => if U = ∅ then 0 else ⊤⟩

/-- `ExactSearch.py:113-216` `astar_shortest_path` (the statistics are not modelled). -/
def astar (Q : PQ.HeapQ (Finset (Fin d)) (Structs d) (WithTop K)) (pgs : Fin d → PG d K) (ext : Bool)
    (h : Finset (Fin d) → WithTop K) (fuel : Nat) : Option (Structs d) :=
  astarLoop Q pgs ext h fuel (astarInit pgs) (fun _ => some ∅)

/-! ### Dynamic programming -/

/-- Edge data of the order graph: `structure` and `weight`, by source and target (`nx.DiGraph`). -/
abbrev OG (d : Nat) (K : Type) := Finset (Fin d) → Finset (Fin d) → Option (Option (Finset (Fin d)) × WithTop K)

/-- `set(parent).issuperset(parent_graphs[variable][0][0])`. -/
def headIn (pg : PG d K) (U : Finset (Fin d)) : Bool := pg.head?.elim false fun e => decide (e.1 ⊆ U)

/-- `ExactSearch.py:247-256`: the body of `for variable in subset`. The dictionary `optimal_child` is the second
component. -/
def dpEdge (pgs : Fin d → PG d K) (ext : Bool) (subset : Finset (Fin d))
    (st : OG d K × (Finset (Fin d) → Option (Finset (Fin d)))) (v : Fin d) :
    OG d K × (Finset (Fin d) → Option (Finset (Fin d))) :=
  let parent := subset.erase v
  if ext && (st.2 parent).isSome then st
  else
    (fun a b => if a = parent ∧ b = subset then some (query (pgs v) parent) else st.1 a b,
      if ext && headIn (pgs v) parent then fun a => if a = parent then some subset else st.2 a else st.2)

/-- `ExactSearch.py:242-263`: one layer, including the removal of edges. -/
def dpLayer (pgs : Fin d → PG d K) (ext : Bool) (og : OG d K) (i : Nat) : OG d K :=
  let r := (combos (List.finRange d) i).foldl (fun st l => l.foldl (dpEdge pgs ext l.toFinset) st) (og, fun _ => none)
  fun a b => if (r.2 a).isSome && decide (r.2 a ≠ some b) then none else r.1 a b

/-- `ExactSearch.py:239-263`: the order graph. -/
def orderGraph (pgs : Fin d → PG d K) (ext : Bool) : OG d K :=
  (List.range (d + 1)).foldl (dpLayer pgs ext) (fun _ _ => none)

/-- Cost of a path of the order graph (`⊤` also stands for a missing edge). -/
def pathCost (og : OG d K) : List (Finset (Fin d)) → WithTop K
  | a :: b :: p => (og a b).elim ⊤ Prod.snd + pathCost og (b :: p)
  | _ => 0

/-- `p` is a path of the order graph from `s` to `t`. -/
def IsPath (og : OG d K) (s t : Finset (Fin d)) (p : List (Finset (Fin d))) : Prop :=
  p.head? = some s ∧ p.getLast? = some t ∧ p.IsChain fun a b => (og a b).isSome

/-- A correct `nx.shortest_path(..., method='bellman-ford')` on graphs whose edges add one variable. -/
structure ShortestPath (d : Nat) (K : Type) [AddCommGroup K] [LinearOrder K] where
  find : OG d K → Finset (Fin d) → Finset (Fin d) → Option (List (Finset (Fin d)))
  spec : ∀ og s t, (∀ a b, (og a b).isSome → b.card = a.card + 1) → (∃ p, IsPath og s t p) →
    ∃ p, find og s t = some p ∧ IsPath og s t p ∧ ∀ q, IsPath og s t q → pathCost og p ≤ pathCost og q

/-- `ExactSearch.py:268-272`: `idx = list(set(v) - set(u))[0]; structures[idx] = data['structure']` along the path. -/
def collect (og : OG d K) : Structs d → List (Finset (Fin d)) → Structs d
  | s, a :: b :: p =>
    collect og (((List.finRange d).find? fun i => decide (i ∈ b \ a)).elim s fun i =>
      setStruct s i ((og a b).elim none Prod.fst)) (b :: p)
  | s, _ => s

/-- `ExactSearch.py:219-279` `dp_shortest_path`. -/
def dp (sp : ShortestPath d K) (pgs : Fin d → PG d K) (ext : Bool) : Option (Structs d) :=
  (sp.find (orderGraph pgs ext) ∅ Finset.univ).map (collect (orderGraph pgs ext) (fun _ => none))

/-! ### The k-cycle heuristic -/

/-- A pattern database as an (ordered) dictionary. -/
abbrev PDict (d : Nat) (K : Type) := List (Finset (Fin d) × WithTop K)

/-- dictionary assignment: replace in place or append -/
def PDict.set (D : PDict d K) (k : Finset (Fin d)) (v : WithTop K) : PDict d K :=
  if (D.any fun e => decide (e.1 = k)) then D.map fun e => if e.1 = k then (k, v) else e else D ++ [(k, v)]

/-- dictionary lookup -/
def PDict.get (D : PDict d K) (k : Finset (Fin d)) : Option (WithTop K) := (D.find? fun e => decide (e.1 = k)).map Prod.snd

/-- `ExactSearch.py:465-474` `expand`. -/
def expand (pgs : Fin d → PG d K) (g : WithTop K) (U : Finset (Fin d)) (curr : PDict d K) : PDict d K :=
  ((List.finRange d).filter (· ∈ U)).foldl (fun curr i =>
    let o := U.erase i
    let g' := g + (query (pgs i) o).2
    (curr.get o).elim (curr.set o g') fun old => if g' < old then curr.set o g' else curr) curr

/-- `g - h_simple` for a finite `h_simple` -/
def subFin (g : WithTop K) (h : K) : WithTop K := g.map (· - h)

/-- `ExactSearch.py:482`: `h_simple` of `U` (a finite number). -/
def simpleFin (pgs : Fin d → PG d K) (U : Finset (Fin d)) : K :=
  ((outSet U).map fun j => (pgs j).head?.elim 0 Prod.snd).sum

/-- State of `create_dynamic_pd`: `PD_final`, `delta_h`, `save`. -/
structure PDState (d : Nat) (K : Type) where
  final : PDict d K
  delta : PDict d K
  save : List (Finset (Fin d))

/-- `ExactSearch.py:445-449` with `477-488` `check_save`: one `U` of `PD_prev`. -/
def pdStep (pgs : Fin d → PG d K) (st : PDState d K × PDict d K) (e : Finset (Fin d) × WithTop K) :
    PDState d K × PDict d K :=
  let curr := expand pgs e.2 e.1 st.2
  let dl := subFin e.2 (simpleFin pgs e.1)
  let delta := st.1.delta.set e.1 dl
  let better := (outSet e.1).any fun i => decide (((delta.get (insert i e.1)).getD 0) < dl)
  (⟨st.1.final.set (e.1ᶜ) e.2, delta, if better then st.1.save ++ [e.1ᶜ] else st.1.save⟩, curr)

/-- `ExactSearch.py:443-452`: the levels. -/
def pdLevels (pgs : Fin d → PG d K) : Nat → PDState d K × PDict d K → PDState d K × PDict d K
  | 0, st => st
  | l + 1, st => pdLevels pgs l (st.2.foldl (pdStep pgs) (st.1, []))

/-- `ExactSearch.py:434-462` `create_dynamic_pd`. -/
def createPD (pgs : Fin d → PG d K) (k : Nat) : PDict d K :=
  let r := (pdLevels pgs k (⟨[], [(Finset.univ, 0)], []⟩, [(Finset.univ, 0)])).1
  let kept := r.final.filter fun e => decide (e.1 ∈ r.save)
  kept.insertionSort fun a b => decide ((r.delta.get (b.1ᶜ)).getD 0 ≤ (r.delta.get (a.1ᶜ)).getD 0) = true

/-- `ExactSearch.py:491-498` `compute_dynamic_h`. -/
def dynamicH (PD : PDict d K) (U : Finset (Fin d)) : WithTop K :=
  (PD.foldl (fun (r : Finset (Fin d) × WithTop K) e => if e.1 ⊆ r.1 then (r.1 \ e.1, r.2 + e.2) else r) (U, 0)).2

/-! ### Entry point -/

/-- `ExactSearch.py:83-87`: all parent graphs. `sup` / `incl` are `super_graph` / `include_graph`; `order` is the order in
which `tuple(set(...))` lists the possible parents. -/
def parentGraphs (score : Fin d → Finset (Fin d) → K) (maxPar : Nat) (order : Fin d → List (Fin d))
    (incl : Fin d → Fin d → Bool) : Fin d → PG d K :=
  fun i => genParentGraph (score i) maxPar (order i) (Finset.univ.filter fun j => incl j i = true)

/-- `ExactSearch.py:106-108`: `dag_est[parents, i] = 1`. (With `parents = None` numpy would write a whole row; the theorems
show that this does not happen.) -/
def toMatrix (s : Structs d) : Fin d → Fin d → Bool := fun j i => (s i).elim false fun p => decide (j ∈ p)

end Exact
end CL
