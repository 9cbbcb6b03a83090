import Verif.Model.PC

/-!
# Model of `causallearn/search/ConstraintBased/CDNOD.py`

The surrogate variable `c_indx` is the last column of the augmented data (`CDNOD.py:36`, `:95`), so the graph has `n + 1`
nodes and the surrogate is `Fin.last n`. The missing-value correction of `mvcdnod_alg` (`get_parent_missingness_pairs`,
`skeleton_correction`) is not modelled: `mvOrient` starts from an arbitrary corrected skeleton.
-/
namespace CL
open GG
variable {n : Nat} {P : Type} [LinearOrder P]

/-- `CDNOD.py:93-94`: `for i in G.get_adjacent_nodes(c): G.add_directed_edge(c, i)`. -/
def orientIndex (G : GG n) (c : Fin n) : GG n := (G.adjacentNodes c).foldl (fun H i => H.addDirectedEdge c i) G

/-- `CDNOD.py:47-126` `cdnod_alg`; `prio = none` is `uc_priority = -1`. The skeleton phase is called without the
background knowledge (`CDNOD.py:92`). -/
def cdnodAlg (T : TestFn (n + 1) P) (zero : P) (stable : Bool) (ucRule : Nat) (prio : Option Nat) (k : Know (n + 1)) :
    Option (GG (n + 1)) :=
  (skeletonDiscovery stable T.ind Know.none).bind fun s =>
    let G1 := orientByBk k (orientIndex s.1 (Fin.last n))
    if ucRule = 0 then meek k (ucSepset T (prio.getD 3) k G1 s.2)
    else if ucRule = 1 then meek k (maxp T (prio.getD 3) k G1)
    else if ucRule = 2 then (definiteMeek k (definiteMaxp T zero (prio.getD 4) k G1)).bind (meek k)
    else none

/-- `CDNOD.py:178-179` in `mvcdnod_alg`: `for i in G.get_adjacent_nodes(c): G.add_directed_edge(i, c)`. -/
def mvOrientIndex (G : GG n) (c : Fin n) : GG n := (G.adjacentNodes c).foldl (fun H i => H.addDirectedEdge i c) G

/-- `CDNOD.py:178-203`: the orientation steps of `mvcdnod_alg` from the corrected skeleton and its separating sets. -/
def mvOrient (T : TestFn (n + 1) P) (zero : P) (ucRule : Nat) (prio : Option Nat) (s : GG (n + 1) × Sep (n + 1)) :
    Option (GG (n + 1)) :=
  let G1 := mvOrientIndex s.1 (Fin.last n)
  if ucRule = 0 then meek Know.none (ucSepset T (prio.getD 3) Know.none G1 s.2)
  else if ucRule = 1 then meek Know.none (maxp T (prio.getD 3) Know.none G1)
  else if ucRule = 2 then
    (definiteMeek Know.none (definiteMaxp T zero (prio.getD 4) Know.none G1)).bind (meek Know.none)
  else none

end CL
