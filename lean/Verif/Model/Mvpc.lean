import Verif.Model.PC

/-!
# Model of MVPC (PC with missing values)

`causallearn/search/ConstraintBased/PC.py:141-477` (`mvpc_alg`, `get_parent_missingness_pairs`, `detect_parent`,
`skeleton_correction`), the variable selection of the corrected test in `causallearn/utils/PCUtils/Helper.py:556-657` and
`causallearn/utils/cit.py:499-530`.

CI tests are functions of the pair, the conditioning set and, for the corrected test, of the parent list `prt_m` and the skeleton
`nx_skel` that the code hands to it. (`MC_FisherZ` shuffles its predictors with the global random generator, so two calls with the same
arguments may differ in the program; the model fixes the outcome of each call.) `to_nx_skeleton` is called once, before the correction,
so `nx_skel` keeps the first-pass skeleton throughout: the model passes that graph.
-/
namespace CL
namespace Mvpc
open GG
variable {n : Nat} {P : Type} [LinearOrder P]

/-- `PC.py:446-469` and `346-378` (the same code): the body for one ordered pair `(x, y)` at depth `d`. `len(Neigh_x) >= depth` holds
exactly when there are combinations to try. With `stable=False` the edge is deleted at once and **nothing** is recorded in `sepset`. -/
def corrPair (stable : Bool) (ind : CI n) (d : Nat) (st : SkSt n) (p : Fin n × Fin n) : SkSt n :=
  if st.G.g p.1 p.2 = .null then st
  else match (combos ((st.G.neighbors p.1).filter (· ≠ p.2)) d).find? (ind p.1 p.2) with
    | none => st
    | some S =>
      if stable then ⟨st.G, appendBoth st.sep p.1 p.2 S, st.rem ++ [(p.1, p.2), (p.2, p.1)]⟩
      else ⟨(st.G.removeIfEdge p.1 p.2).removeIfEdge p.2 p.1, st.sep, st.rem⟩

/-- `PC.py:444-474`, `344-383`: one depth, over the pairs in `ps`. The final loop runs over `set(edge_removal)`; the model goes
through the list, which deletes the same edges. -/
def corrDepth (stable : Bool) (ind : CI n) (ps : List (Fin n × Fin n)) (d : Nat) (s : GG n × Sep n) : GG n × Sep n :=
  let st := ps.foldl (corrPair stable ind d) ⟨s.1, s.2, []⟩
  (st.rem.foldl (fun G p => G.removeIfEdge p.1 p.2) st.G, st.sep)

/-- `PC.py:442-474`, `342-383`: `while cg.max_degree() - 1 > depth`, entered with `depth = d - 1` (`none` = out of fuel). -/
def corrLoop (stable : Bool) (ind : CI n) (ps : List (Fin n × Fin n)) : Nat → Nat → GG n × Sep n → Option (GG n × Sep n)
  | 0, _, _ => none
  | f + 1, d, s =>
    if d < s.1.maxDegree then corrLoop stable ind ps f (d + 1) (corrDepth stable ind ps d s) else some s

/-- `PC.py:410-476` `skeleton_correction`: all ordered pairs, starting from the first-pass graph. -/
def skeletonCorrection (stable : Bool) (ind : CI n) (s : GG n × Sep n) : Option (GG n × Sep n) :=
  corrLoop stable ind (perm2 (List.finRange n)) (n + 1) 0 s

/-- `PC.py:302-391` `detect_parent` for the indicator of column `r` (the test is the one on the data with column `r` replaced by its
indicator), with `get_parent` (`PC.py:394-404`): only the pairs `(r, y)` are tested, from the complete graph. `const` is the early
exit of lines 331-332 (nothing or everything missing). -/
def detectParent (stable : Bool) (ind : CI n) (const : Bool) (r : Fin n) : Option (List (Fin n)) :=
  if const then some []
  else (corrLoop stable ind ((perm2 (List.finRange n)).filter fun p => p.1 = r) (n + 1) 0
      (GG.complete n, fun _ _ => Option.none)).map fun s => s.1.neighbors r

/-- `PC.py:254-279` `get_parent_missingness_pairs`: the list of (indicator, parents) with parents, for the columns in `miss` (those
containing a NaN, `get_missingness_index`). -/
def parentPairs (stable : Bool) (ind : Fin n → CI n) (const : Fin n → Bool) : List (Fin n) → Option (List (Fin n × List (Fin n)))
  | [] => some []
  | i :: is => (detectParent stable (ind i) (const i) i).bind fun ps =>
      (parentPairs stable ind const is).map fun rest => if ps.length = 0 then rest else (i, ps) :: rest

/-- `UCSepset.py:43-50` on a graph with unrecorded separating sets: iterating over `cg.sepset[x, z] = None` raises a `TypeError`. -/
def ucRaises (k : Know n) (G : GG n) (sep : Sep n) : Bool :=
  (orderedUT G).any fun t => !k.blocksUC t.1 t.2.1 t.2.2 && (sep t.1 t.2.2).isNone

/-- What a run gives: a graph, or an exception. -/
inductive Out (n : Nat)
  | graph (G : GG n)
  | raises

/-- `PC.py:221-247`: the orientation step on the corrected graph, with the corrected test. -/
def orient (T : TestFn n P) (zero : P) (ucRule : Nat) (prio : Option Nat) (k : Know n) (G : GG n) (sep : Sep n) : Option (Out n) :=
  if ucRule = 0 then
    if ucRaises k G sep then some .raises else (meek k (ucSepset T (prio.getD 3) k G sep)).map .graph
  else if ucRule = 1 then (meek k (maxp T (prio.getD 3) k G)).map .graph
  else if ucRule = 2 then ((definiteMeek k (definiteMaxp T zero (prio.getD 4) k G)).bind (meek k)).map .graph
  else some .raises

/-- The three kinds of CI test a run uses: `t0 i` on the data whose column `i` is the missingness indicator, `t1` with test-wise
deletion, `t2 prt skel` with correction. -/
structure Tests (n : Nat) (P : Type) where
  t0 : Fin n → CI n
  t1 : CI n
  t2 : List (Fin n × List (Fin n)) → GG n → TestFn n P

/-- `PC.py:141-249` `mvpc_alg`; `miss` lists the columns with missing values, `const` those that are missing everywhere. -/
def mvpcAlg (T : Tests n P) (zero : P) (miss : List (Fin n)) (const : Fin n → Bool) (stable : Bool) (ucRule : Nat)
    (prio : Option Nat) (k : Know n) : Option (Out n) :=
  (parentPairs stable T.t0 const miss).bind fun prt =>
    (skeletonDiscovery stable T.t1 k).bind fun s =>
      let G1 := orientByBk k s.1
      (skeletonCorrection stable (T.t2 prt G1).ind (G1, s.2)).bind fun r =>
        orient (T.t2 prt G1) zero ucRule prio k (orientByBk k r.1) r.2

/-! ### Choice of the correction variables -/

abbrev PrtM (n : Nat) := List (Fin n × List (Fin n))

/-- `Helper.py:628-633` `get_prt_of_mi`: the parents of the first entry for `v`. -/
def prtOf (m : PrtM n) (v : Fin n) : List (Fin n) := ((m.find? fun e => e.1 = v).map Prod.snd).getD []

/-- `np.unique` on indices: sorted and duplicate-free. -/
def unique (l : List (Fin n)) : List (Fin n) := (List.finRange n).filter fun v => v ∈ l

/-- `Helper.py:613-625` `get_prt_mvars`. -/
def prtMvars (m : PrtM n) (var : List (Fin n)) : List (Fin n) :=
  unique (var.flatMap fun v => if m.any (fun e => e.1 = v) then prtOf m v else [])

/-- `Helper.py:636-654` `get_prt_mw`: the loop (`none` = out of fuel). -/
def prtMwLoop (m : PrtM n) : Nat → List (Fin n) → Option (List (Fin n))
  | 0, _ => none
  | f + 1, W =>
    if ((prtMvars m W).filter fun v => v ∉ W).length > 0 then prtMwLoop m f (unique (W ++ prtMvars m W)) else some (unique W)

/-- `Helper.py:636-654` `get_prt_mw`. -/
def prtMw (m : PrtM n) (W : List (Fin n)) : Option (List (Fin n)) := prtMwLoop m (n + 1) W

/-- `Helper.py:556-610` `cond_perm_c`, `contain_crrn_m`, `contain_common_neighbors_prt_mvar`: is a correction needed? -/
def condPermC (m : PrtM n) (skel : GG n) (x y : Fin n) (S : List (Fin n)) : Bool :=
  (x :: y :: S).any (fun v => m.any fun e => e.1 = v) &&
    ((List.finRange n).filter fun c => skel.g x c != .null && skel.g y c != .null).any fun c => c ∈ prtMvars m (x :: y :: S)

/-- `cit.py:499-530` `MC_FisherZ.__call__` up to the regressions: `some none` means "use the plain test on the same arguments",
`some (some W)` means "correct with the variables `W`" (`list(set(W) - set(var))`, order irrelevant to the regressions). -/
def mcPlan (m : PrtM n) (skel : GG n) (x y : Fin n) (S : List (Fin n)) : Option (Option (List (Fin n))) :=
  if condPermC m skel x y S then
    if (prtMvars m (x :: y :: S)).length = 0 then some none
    else (prtMw m (prtMvars m (x :: y :: S))).map fun W =>
      if (W.filter fun v => v ∉ x :: y :: S).length = 0 then none else some (W.filter fun v => v ∉ x :: y :: S)
  else some none

end Mvpc
end CL
