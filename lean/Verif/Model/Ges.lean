import Verif.Model.PC
import Verif.Model.Pdag2Dag
import Verif.Model.Cpdag
import Mathlib.Data.Finset.Basic
import Mathlib.Data.Fintype.Basic
import Mathlib.Data.Finset.Card
import Mathlib.Algebra.Group.Defs
import Mathlib.Order.Defs.LinearOrder

/-!
# Model of `causallearn/search/ScoreBased/GES.py` and `causallearn/utils/GESUtils.py`

Local scores are an arbitrary function `sc j A` of a node and a *set* of parents with values in an ordered group (lower is
better in this code); floating-point rounding is not modelled. numpy index arrays that are only used as sets are `Finset`s.
-/
namespace CL
namespace Ges
open GG
variable {n : Nat} {K : Type} [AddCommGroup K] [LinearOrder K]

/-- `GES.py:175-178`, `273-276`, `GESUtils.py:60-63` `Tj`, `Hj`: the nodes joined to `j` by an undirected edge. -/
def undN (P : GG n) (j : Fin n) : Finset (Fin n) := Finset.univ.filter fun k => P.g k j = .tail ∧ P.g j k = .tail

/-- `GES.py:180-183`, `277-280`, `GESUtils.py:64-67` `Ti`, `Hi`: the nodes adjacent to `i`. -/
def adjN (P : GG n) (i : Fin n) : Finset (Fin n) := Finset.univ.filter fun k => P.g k i ≠ .null ∨ P.g i k ≠ .null

/-- `GESUtils.py:203` `Paj`. -/
def parN (P : GG n) (j : Fin n) : Finset (Fin n) := Finset.univ.filter fun k => P.g j k = .arrow

/-- `GESUtils.py:68` `NA`. -/
def naN (P : GG n) (i j : Fin n) : Finset (Fin n) := undN P j ∩ adjN P i

/-- the elements of an index array in increasing order (`np.intersect1d` etc. sort) -/
def asc (A : Finset (Fin n)) : List (Fin n) := (List.finRange n).filter (· ∈ A)

/-- `GESUtils.py:26-40` `Combinatorial`: all subsets by increasing size, each size in `itertools.combinations` order. The special
cases for zero and one element give the same lists. -/
def combinatorial (l : List (Fin n)) : List (List (Fin n)) := (List.range (l.length + 1)).flatMap (combos l)

/-- `GESUtils.py:85-87`: a cell of `Gs` after every directed edge has been made undirected. -/
def cliqueCell (P : GG n) (a b : Fin n) : Mark := if P.g a b = .arrow ∨ P.g b a = .arrow then .tail else P.g a b

/-- `GESUtils.py:75-94` `check_clique`: `Gs` must equal `eye - ones`. -/
def checkClique (P : GG n) (A : Finset (Fin n)) : Bool :=
  (asc A).all fun a => (asc A).all fun b => cliqueCell P a b == (if a = b then .null else .tail)

/-- `GESUtils.py:150-158`: the nodes a semi-directed path can continue to. -/
def semiNext (P : GG n) (v : Fin n) : List (Fin n) :=
  ((List.finRange n).filter fun k => P.g k v == .arrow) ++
    (List.finRange n).filter fun k => P.g v k == .tail && P.g k v == .tail

/-- `GESUtils.py:120-175` `insert_vc2_new`: depth-first search over paths; a stack item is the path from its node back to the
start (the `pa` chain). `none` = still running. -/
def vc2Loop (P : GG n) (target : Fin n) (nat : Finset (Fin n)) : Nat → List (List (Fin n)) → Option Bool
  | 0, _ => none
  | _ + 1, [] => some true
  | f + 1, [] :: st => vc2Loop P target nat f st
  | f + 1, (v :: anc) :: st =>
    if v = target then
      if anc.any (· ∈ nat) then vc2Loop P target nat f st else some false
    else vc2Loop P target nat f (((semiNext P v).filter (· ∉ anc)).reverse.map (· :: v :: anc) ++ st)

/-- number of iterations allowed to `vc2Loop`; `C36_path_test` shows that it always suffices -/
def vc2Fuel (n : Nat) : Nat := (n + 1) ^ (n + 1) + 1

/-- `GESUtils.py:54-72` `insert_validity_test1`. -/
def insertTest1 (P : GG n) (i j : Fin n) (t : Finset (Fin n)) : Bool := checkClique P (naN P i j ∪ t)

/-- `GESUtils.py:97-117` `insert_validity_test2` (`none` = does not return). -/
def insertTest2 (P : GG n) (i j : Fin n) (t : Finset (Fin n)) : Option Bool :=
  vc2Loop P i (naN P i j ∪ t) (vc2Fuel n) [[j]]

/-- `GESUtils.py:274-294` `delete_validity_test`. -/
def deleteTest (P : GG n) (i j : Fin n) (h : Finset (Fin n)) : Bool := checkClique P (naN P i j \ h)

/-- `GESUtils.py:178-189` `find_subset_include`: one entry of `Idx`. -/
def subsetInclude (s0 t : List (Fin n)) : Bool :=
  if s0 = [] then true
  else decide ((s0.toFinset ∩ t.toFinset).Nonempty ∧ s0.toFinset ∩ t.toFinset = s0.toFinset)

/-- `GES.py:148-152` `record_local_score`: per node the list of recorded rows; a row is the parent indices followed by the
score, here a pair. The empty parent set is stored as the row `[-1, score]` by one branch. -/
abbrev Rec (n : Nat) (K : Type) := Fin n → List (List Int × K)

/-- a parent set as a row of the record -/
def key (A : Finset (Fin n)) : List Int := (asc A).map fun i : Fin n => Int.ofNat i.val

/-- `GESUtils.py:218`, `325`: the row has exactly these indices. -/
def rowIs (A : Finset (Fin n)) (row : List Int) : Bool := decide (row.toFinset = (key A).toFinset)

/-- `GESUtils.py:222-232`, `329-337`: match for the second parent set, with the sentinel for the empty set. -/
def rowIs2 (A : Finset (Fin n)) (row : List Int) : Bool :=
  rowIs A row || (decide (row.toFinset = {-1}) && decide (A = ∅))

/-- `GESUtils.py:217-235`, `324-340`: the search loop through the record, with its early exit. -/
def lookLoop (A1 A2 : Finset (Fin n)) : List (List Int × K) → Option K × Option K → Option K × Option K
  | [], st => st
  | e :: l, st =>
    let s1 := if rowIs A1 e.1 then some e.2 else st.1
    let s2 := if rowIs2 A2 e.1 then some e.2 else st.2
    if s1.isSome && s2.isSome then (s1, s2) else lookLoop A1 A2 l (s1, s2)

/-- append a row to `record_local_score[j]` (`GESUtils.py:241`, `249-251`, `346`, `354-356`) -/
def Rec.add (r : Rec n K) (j : Fin n) (row : List Int × K) : Rec n K := fun v => if v = j then r v ++ [row] else r v

/-- `GESUtils.py:209-253`, `316-358`: `score1 - score2` with both local scores taken from the record when present and recorded
otherwise. -/
def recDiff (sc : Fin n → Finset (Fin n) → K) (r : Rec n K) (j : Fin n) (A1 A2 : Finset (Fin n)) : K × Rec n K :=
  let st := lookLoop A1 A2 (r j) (none, none)
  let r1 := if st.1.isSome then r else r.add j (key A1, sc j A1)
  let r2 := if st.2.isSome then r1 else r1.add j (if A2 = ∅ then [-1] else key A2, sc j A2)
  (st.1.getD (sc j A1) - st.2.getD (sc j A2), r2)

/-- `GESUtils.py:192-255` `insert_changed_score`. -/
def insertScore (sc : Fin n → Finset (Fin n) → K) (P : GG n) (r : Rec n K) (i j : Fin n) (t : Finset (Fin n)) : K × Rec n K :=
  recDiff sc r j ((naN P i j ∪ t) ∪ parN P j ∪ {i}) ((naN P i j ∪ t) ∪ parN P j)

/-- `GESUtils.py:297-360` `delete_changed_score`. -/
def deleteScore (sc : Fin n → Finset (Fin n) → K) (P : GG n) (r : Rec n K) (i j : Fin n) (h : Finset (Fin n)) : K × Rec n K :=
  recDiff sc r j (((naN P i j \ h) ∪ (parN P j ∪ {i})) \ {i}) ((naN P i j \ h) ∪ (parN P j ∪ {i}))

/-- An operator: the two nodes and the set `T` or `H`. -/
abbrev Desc (n : Nat) := Fin n × Fin n × List (Fin n)

/-- The running state of the scan over operators: the record, `min_chscore` and `min_desc` (`GES.py:164-165`, `263-264`). -/
structure Scan (n : Nat) (K : Type) where
  record : Rec n K
  best : K
  desc : Option (Desc n)

/-- `GES.py:228-230`, `314-316`: keep the operator if it is better than the best so far. -/
def Scan.offer (s : Scan n K) (cr : K × Rec n K) (d : Desc n) : Scan n K :=
  if cr.1 < s.best then ⟨cr.2, cr.1, some d⟩ else ⟨cr.2, s.best, s.desc⟩

/-- the flags `S`; keyed by the subset instead of its position (the subsets are pairwise different) -/
abbrev Flags (n : Nat) := List (Fin n) → Nat

/-- `GES.py:212`, `235`, `297`: `S[np.where(Idx == 1)] = v`. -/
def Flags.mark (S : Flags n) (s0 : List (Fin n)) (v : Nat) : Flags n := fun t => if subsetInclude s0 t then v else S t

/-- `GES.py:196-235`: one subset `T` in the forward scan. -/
def insertTry (sc : Fin n → Finset (Fin n) → K) (P : GG n) (i j : Fin n) (st : Flags n × Scan n K) (t : List (Fin n)) :
    Flags n × Scan n K :=
  if st.1 t < 2 then
    if insertTest1 P i j t.toFinset then
      if (if st.1 t = 0 then insertTest2 P i j t.toFinset == some true else true) then
        (st.1.mark t 1, st.2.offer (insertScore sc P st.2.record i j t.toFinset) (i, j, t))
      else st
    else (st.1.mark t 2, st.2)
  else st

/-- `GES.py:168-173`: the pairs considered by the forward scan. -/
def insertPair (P : GG n) (maxP : Nat) (i j : Fin n) : Bool :=
  P.g i j == .null && P.g j i == .null && i != j && decide ((parN P j).card ≤ maxP)

/-- `GES.py:166-235`: the forward scan over all operators. -/
def insertScan (sc : Fin n → Finset (Fin n) → K) (maxP : Nat) (P : GG n) (s : Scan n K) : Scan n K :=
  (List.finRange n).foldl (fun s i => (List.finRange n).foldl (fun s j =>
    if insertPair P maxP i j then
      ((combinatorial (asc (undN P j ∩ (Finset.univ \ adjN P i)))).foldl (insertTry sc P i j) (fun _ => 0, s)).2
    else s) s) s

/-- `GES.py:290-316`: one subset `H` in the backward scan. -/
def deleteTry (sc : Fin n → Finset (Fin n) → K) (P : GG n) (i j : Fin n) (st : Flags n × Scan n K) (h : List (Fin n)) :
    Flags n × Scan n K :=
  if st.1 h = 1 then
    if deleteTest P i j h.toFinset then
      (st.1.mark h 2, st.2.offer (deleteScore sc P st.2.record i j h.toFinset) (i, j, h))
    else st
  else (st.1, st.2.offer (deleteScore sc P st.2.record i j h.toFinset) (i, j, h))

/-- `GES.py:267-272`: the pairs considered by the backward scan. -/
def deletePair (P : GG n) (i j : Fin n) : Bool := (P.g j i == .tail && P.g i j == .tail) || P.g j i == .arrow

/-- `GES.py:265-316`: the backward scan over all operators. -/
def deleteScan (sc : Fin n → Finset (Fin n) → K) (P : GG n) (s : Scan n K) : Scan n K :=
  (List.finRange n).foldl (fun s i => (List.finRange n).foldl (fun s j =>
    if deletePair P i j then
      ((combinatorial (asc (undN P j ∩ adjN P i))).foldl (deleteTry sc P i j) (fun _ => 1, s)).2
    else s) s) s

/-- `GESUtils.py:264-269`: the loop body of `insert` for one element of `T`. -/
def insertDirect (j : Fin n) (G : GG n) (t : Fin n) : GG n :=
  ((G.removeIfEdge t j).addEdge (mkEdge t j .tail .arrow)).2

/-- `GESUtils.py:258-271` `insert`. -/
def insertOp (G : GG n) (d : Desc n) : GG n :=
  d.2.2.foldl (insertDirect d.2.1) (G.addEdge (mkEdge d.1 d.2.1 .tail .arrow)).2

/-- `GESUtils.py:369-375`: the loop body of `delete` for one element of `H`. -/
def deleteDirect (i j : Fin n) (G : GG n) (h : Fin n) : GG n :=
  ((((G.removeIfEdge j h).removeIfEdge i h).addEdge (mkEdge j h .tail .arrow)).2.addEdge (mkEdge i h .tail .arrow)).2

/-- `GESUtils.py:363-376` `delete`. -/
def deleteOp (G : GG n) (d : Desc n) : GG n := d.2.2.foldl (deleteDirect d.1 d.2.1) (G.removeIfEdge d.1 d.2.1)

/-- The state of a phase: the current graph, the graph objects appended to `G_step1`/`G_step2` so far, the operators applied, the
score and the record. -/
structure St (n : Nat) (K : Type) where
  graph : GG n
  objs : List (GG n)
  updates : List (Desc n)
  score : K
  record : Rec n K

/-- The current graph object is the last one recorded (if any), and the operators change it in place. -/
def mutateLast (objs : List (GG n)) (G : GG n) : List (GG n) := if objs = [] then [] else objs.dropLast ++ [G]

/-- `GES.py:159-248` (forward) and `258-329` (backward): the two `while` loops have the same shape. `big` is the initial
`min_chscore = 1e7`. `none`: still running, or a conversion does not return. -/
def phase (big : K) (scan : GG n → Scan n K → Scan n K) (op : GG n → Desc n → GG n) : Nat → St n K → Option (St n K)
  | 0, _ => none
  | f + 1, s =>
    let r := scan s.graph ⟨s.record, big, none⟩
    match r.desc with
    | none => some { s with record := r.record }
    | some d =>
      if s.score - (s.score + r.best) ≤ 0 then some { s with record := r.record }
      else
        let G1 := op s.graph d
        match G1.pdag2dag n with
        | none => none
        | some D =>
          match D.dag2cpdag (n * n + n + 1) with
          | .ok H => phase big scan op f ⟨H, mutateLast s.objs G1 ++ [H], s.updates ++ [d], s.score + r.best, r.record⟩
          | _ => none

/-- `GESUtils.py:43-51` `score_g`. -/
def scoreG (sc : Fin n → Finset (Fin n) → K) (G : GG n) : K :=
  (List.finRange n).foldl (fun acc i => acc + sc i (G.parents i).toFinset) 0

/-- `GES.py:139-158`: the initial state. -/
def init (sc : Fin n → Finset (Fin n) → K) : Option (St n K) :=
  match (GG.empty n).pdag2dag n with
  | none => none
  | some D =>
    match D.dag2cpdag (n * n + n + 1) with
    | .ok H => some ⟨H, [], [], scoreG sc (GG.empty n), fun _ => []⟩
    | _ => none

/-- The returned `Record` (`GES.py:331-338`). -/
structure Result (n : Nat) (K : Type) where
  G : GG n
  score : K
  update1 : List (Desc n)
  update2 : List (Desc n)
  gStep1 : List (GG n)
  gStep2 : List (GG n)

/-- `GES.py:139-248`: initialisation and forward phase. -/
def forward (sc : Fin n → Finset (Fin n) → K) (big : K) (maxP fuel : Nat) : Option (St n K) :=
  (init sc).bind (phase big (insertScan sc maxP) insertOp fuel)

/-- `GES.py:252-329`: the backward phase from the state reached by the forward phase. `objs` keeps the objects recorded in
`G_step1`, because the first Delete changes the last of them. -/
def backward (sc : Fin n → Finset (Fin n) → K) (big : K) (fuel : Nat) (s : St n K) : Option (St n K) :=
  phase big (deleteScan sc) deleteOp fuel { s with updates := [] }

/-- `GES.py:11-339` `ges` after the choice of the score. -/
def ges (sc : Fin n → Finset (Fin n) → K) (big : K) (maxP fuel : Nat) : Option (Result n K) :=
  (forward sc big maxP fuel).bind fun s => (backward sc big fuel s).map fun s' =>
    ⟨s'.graph, s'.score, s.updates, s'.updates, s'.objs.take s.objs.length, s'.objs.drop s.objs.length⟩

end Ges
end CL
