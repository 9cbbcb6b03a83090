import Verif.Model.Skeleton
import Mathlib.Data.Fintype.Basic
import Mathlib.Data.Finset.Dedup

/-!
# Model of `causallearn/search/FCMBased/lingam/rcd.py`

The data enter only through tests on residuals. A residual is described by a variable and the set it was regressed on (`_get_resid_and_coef`; the empty
set stands for the column itself, lines 121-123, 275-283, 303-305). The answers of the tests are arbitrary Boolean functions.
-/
namespace CL
namespace Rcd
variable {n : Nat}

/-- The answers of the tests, for one data set and one choice of the levels and of `MLHSICR`. -/
structure Tests (n : Nat) where
  /-- `_is_non_gaussianity` (131-136) for one variable: the residual of the variable on the set is not Gaussian. -/
  nonGauss : Fin n → Finset (Fin n) → Bool
  /-- `_is_correlated` (138-140) for two residuals. -/
  correlated : Fin n × Finset (Fin n) → Fin n × Finset (Fin n) → Bool
  /-- `_is_independent_of_resid` (196-218): all variables of the list are replaced by their residuals on `H`; the residual of `xi` on the others is
  independent of each of them. -/
  independent : Finset (Fin n) → Fin n → Finset (Fin n) → Bool

/-- `rcd.py:110-113` `_get_common_ancestors`. -/
def common (M : Fin n → Finset (Fin n)) (U : List (Fin n)) : Finset (Fin n) := Finset.univ.filter fun a => ∀ x ∈ U, a ∈ M x

/-- `rcd.py:142-151` `_exists_ancestor_in_U`; `others` is `xj_list`. -/
def existsAncestor (M : Fin n → Finset (Fin n)) (xi : Fin n) (others : Finset (Fin n)) : Bool :=
  decide (∃ x ∈ others, xi ∈ M x) || decide (others ⊆ M xi)

/-- `rcd.py:240-253`: the tests on `U` before the sinks are looked for. -/
def eligible (t : Tests n) (H : Finset (Fin n)) (U : List (Fin n)) : Bool :=
  U.all (fun x => t.nonGauss x H) && (combos U 2).all fun q => match q with
    | [xi, xj] => t.correlated (xi, H) (xj, H)
    | _ => true

/-- `rcd.py:255-263` `sink_set`. -/
def sinks (t : Tests n) (M : Fin n → Finset (Fin n)) (H : Finset (Fin n)) (U : List (Fin n)) : List (Fin n) :=
  U.filter fun xi => !existsAncestor M xi (U.toFinset.erase xi) && t.independent H xi (U.toFinset.erase xi)

/-- The variables of the loop `222-280`: `M`, `hu_history`, `changed`. -/
structure St (n : Nat) where
  M : Fin n → Finset (Fin n)
  hist : List (Fin n) → Option (Finset (Fin n))
  changed : Bool

/-- `rcd.py:265-271`: a unique sink gets the other variables as ancestors. -/
def addSink (s : St n) (U : List (Fin n)) (l : List (Fin n)) : St n :=
  match l with
  | [xi] => if s.M xi = s.M xi ∪ U.toFinset.erase xi then s
      else { s with M := fun v => if v = xi then s.M xi ∪ U.toFinset.erase xi else s.M v, changed := true }
  | _ => s

/-- `rcd.py:231-273`: the body of the loop for one `U`. -/
def step (t : Tests n) (s : St n) (U : List (Fin n)) : St n :=
  let H := common s.M U
  if s.hist U = some H then s
  else if eligible t H U then
    let s' := addSink s U (sinks t s.M H U)
    { s' with hist := fun V => if V = U then some H else s'.hist V }
  else s

/-- `rcd.py:228-273`: one pass over the subsets of size `l + 1`. -/
def pass (t : Tests n) (l : Nat) (s : St n) : St n := (combos (List.finRange n) (l + 1)).foldl (step t) { s with changed := false }

/-- `rcd.py:220-282` `_extract_ancestors`: the `while` loop; `none` when the fuel runs out. -/
def loop (t : Tests n) (maxN : Nat) : Nat → Nat → St n → Option (St n)
  | 0, _, _ => none
  | f + 1, l, s =>
    let s' := pass t l s
    if s'.changed then loop t maxN f 1 s'
    else if l < maxN then loop t maxN f (l + 1) s'
    else some s'

/-- the state before the loop -/
def init : St n := ⟨fun _ => ∅, fun _ => none, false⟩

/-- `rcd.py:220-282` `_extract_ancestors`. -/
def ancestors (t : Tests n) (maxN fuel : Nat) : Option (Fin n → Finset (Fin n)) := (loop t maxN fuel 1 init).map St.M

/-- `rcd.py:284-296` `_is_parent`. -/
def isParent (t : Tests n) (M : Fin n → Finset (Fin n)) (xj xi : Fin n) : Bool :=
  t.correlated (xj, M xi ∩ M xj) (xi, (M xi).erase xj)

/-- `rcd.py:298-309` `_extract_parents`. -/
def parents (t : Tests n) (M : Fin n → Finset (Fin n)) (xi : Fin n) : Finset (Fin n) := (M xi).filter fun xj => isParent t M xj xi = true

/-- `rcd.py:324-330`: the body of the loop of `_extract_vars_sharing_confounders` for the pair `i`, `j`. -/
def confStep (t : Tests n) (P C : Fin n → Finset (Fin n)) (i j : Fin n) : Fin n → Finset (Fin n) :=
  if i ∈ P j ∨ j ∈ P i then C
  else if t.correlated (i, P i) (j, P j) then fun v => if v = i then insert j (C v) else if v = j then insert i (C v) else C v
  else C

/-- `rcd.py:318-332` `_extract_vars_sharing_confounders`: `i < j` in `combinations`. -/
def confounded (t : Tests n) (P : Fin n → Finset (Fin n)) : Fin n → Finset (Fin n) :=
  (combos (List.finRange n) 2).foldl (fun C q => match q with
    | [i, j] => confStep t P C i j
    | _ => C) fun _ => ∅

/-- An entry of the adjacency matrix: `0`, a regression coefficient or `np.nan`. -/
inductive Entry where
  | zero | coef | nan
  deriving DecidableEq, Repr

/-- `rcd.py:334-374` `_estimate_adjacency_matrix`: `B[xi, xj]`; the confounders are written last. -/
def entry (P C : Fin n → Finset (Fin n)) (xi xj : Fin n) : Entry := if xj ∈ C xi then .nan else if xj ∈ P xi then .coef else .zero

/-- `rcd.py:81-108` `fit`: the ancestor lists and the adjacency matrix. -/
def fit (t : Tests n) (maxN fuel : Nat) : Option ((Fin n → Finset (Fin n)) × (Fin n → Fin n → Entry)) :=
  (ancestors t maxN fuel).map fun M => (M, entry (parents t M) (confounded t (parents t M)))

end Rcd
end CL
