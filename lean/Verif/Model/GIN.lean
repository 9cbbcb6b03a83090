import Mathlib.Data.List.Dedup
import Mathlib.Data.List.Basic

/-!
# Model of `causallearn/search/HiddenCausal/GIN/GIN.py`: merging of overlapping clusters
-/
namespace CL.GIN
variable {α : Type} [DecidableEq α]

/-- `GIN.py:291-296` `_get_all_elements`; the Python set is modelled as a duplicate-free list. -/
def allElements (cl : List (List α)) : List α := cl.flatten.dedup

/-- `GIN.py:305-309`: `cluster_b[x]`, the indices of the clusters containing `x` (with repetitions), in order. -/
def owners (cl : List (List α)) (x : α) : List Nat :=
  (List.range cl.length).flatMap fun k => ((cl.getD k []).filter (· = x)).map fun _ => k

/-- Loop variables of the breadth-first search (`GIN.py:304, 311, 315`): `visited`, `cluster_dict` (−1 is `none`), `q`. -/
structure Bfs (α : Type) where
  vis : Nat → Bool
  dict : α → Option Nat
  q : List Nat

/-- `GIN.py:325-328`: queue an unvisited owner. -/
def pushOwner (s : Bfs α) (j : Nat) : Bfs α :=
  if s.vis j then s else ⟨fun k => if k = j then true else s.vis k, s.dict, s.q ++ [j]⟩

/-- `GIN.py:323-328`: one label `x` of the popped cluster. -/
def label (cl : List (List α)) (num : Nat) (s : Bfs α) (x : α) : Bfs α :=
  (owners cl x).foldl pushOwner { s with dict := fun y => if y = x then some num else s.dict y }

/-- `GIN.py:321-328`: the `while q` loop. -/
def bfs (cl : List (List α)) (num : Nat) : Nat → Bfs α → Option (Bfs α)
  | 0, s => if s.q = [] then some s else none
  | fuel + 1, s =>
    match s.q with
    | [] => some s
    | top :: q => bfs cl num fuel ((cl.getD top []).foldl (label cl num) { s with q := q })

/-- `GIN.py:315-320`: queue the first unvisited cluster. -/
def startQueue (cl : List (List α)) (s : Bfs α) : Bfs α :=
  match (List.range cl.length).find? fun i => !s.vis i with
  | some i => ⟨fun k => if k = i then true else s.vis k, s.dict, [i]⟩
  | none => { s with q := [] }

/-- `GIN.py:313-334`: the outer `while cont` loop; returns the labelling and the number of clusters. -/
def outer (cl : List (List α)) (bfuel : Nat) : Nat → Bfs α → Nat → Option (Bfs α × Nat)
  | 0, _, _ => none
  | fuel + 1, s, num =>
    match bfs cl num bfuel (startQueue cl s) with
    | none => none
    | some s2 =>
      -- lines 330-333
      if (List.range cl.length).any fun i => !s2.vis i then outer cl bfuel fuel s2 (num + 1) else some (s2, num + 1)

/-- `GIN.py:300-340` `merge_overlaping_cluster`; `none` means that the fuel was not sufficient. -/
def mergeOverlapping (cl : List (List α)) (fuel : Nat) : Option (List (List α)) :=
  let labels := allElements cl
  if labels.length = 0 then some []
  else
    (outer cl fuel fuel ⟨fun _ => false, fun _ => none, []⟩ 0).map fun r =>
      (List.range r.2).map fun k => labels.filter fun x => r.1.dict x = some k

end CL.GIN
