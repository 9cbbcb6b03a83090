import Verif.Model.PC

/-!
# Model of `dag2pattern`

`causallearn/utils/PCUtils/Helper.py:195-382`: the queries on adjacency matrices and `dag2pattern`.

A matrix is a total function into the integers. The float matrices of the module hold `1`, `0`, `-1` and (on the diagonal) NaN; only
comparisons with those three integers are made, so a NaN behaves like any other number, e.g. `2`. `A i j = 1`, `A j i = 0` is `i → j`;
two zeros are `i — j`; `-1` is no edge.
-/
namespace CL
namespace Pattern
variable {n : Nat}

abbrev Mat (n : Nat) := Fin n → Fin n → Int

/-- `np.where(adjmat == v)` zipped into index pairs (row-major): `Helper.py:195-207` `find_circ_arrow` (1), `find_tail` (0). -/
def findVal (A : Mat n) (v : Int) : List (Fin n × Fin n) := (allPairs n).filter fun p => A p.1 p.2 == v

/-- `Helper.py:218-220` `find_fully_directed`. -/
def findFullyDirected (A : Mat n) : List (Fin n × Fin n) := (findVal A 1).filter fun p => A p.2 p.1 == 0

/-- `Helper.py:232-234` `find_adj`. -/
def findAdj (A : Mat n) : List (Fin n × Fin n) := findVal A 0 ++ findVal A 1

/-- `Helper.py:239-241` `is_fully_directed`. -/
def isDir (A : Mat n) (i j : Fin n) : Bool := A i j == 1 && A j i == 0

/-- `Helper.py:246-248` `is_undirected`. -/
def isUnd (A : Mat n) (i j : Fin n) : Bool := A i j == 0 && A j i == 0

/-- `Helper.py:268-271` `find_unshielded_triples`. -/
def unshieldedTriples (A : Mat n) : List (Fin n × Fin n × Fin n) :=
  ((perm2 (findAdj A)).filter fun pq => decide (pq.1.2 = pq.2.1 ∧ pq.1.1 ≠ pq.2.2) && A pq.1.1 pq.2.2 == -1).map
    fun pq => (pq.1.1, pq.1.2, pq.2.2)

/-- `Helper.py:276-280` `find_triangles`. -/
def triangles (A : Mat n) : List (Fin n × Fin n × Fin n) :=
  ((perm2 (findAdj A)).filter fun pq => decide (pq.1.2 = pq.2.1 ∧ pq.1.1 ≠ pq.2.2 ∧ (pq.1.1, pq.2.2) ∈ findAdj A)).map
    fun pq => (pq.1.1, pq.1.2, pq.2.2)

/-- `Helper.py:285-290` `find_kites`. -/
def kites (A : Mat n) : List (Fin n × Fin n × Fin n × Fin n) :=
  ((perm2 (triangles A)).filter fun pq => decide (pq.1.1 = pq.2.1 ∧ pq.1.2.2 = pq.2.2.2 ∧ pq.1.2.1 < pq.2.2.1) &&
      A pq.1.2.1 pq.2.2.1 == -1).map
    fun pq => (pq.1.1, pq.1.2.1, pq.2.2.1, pq.1.2.2)

/-- `Helper.py:320-325` `find_uc`. -/
def findUC (A : Mat n) : List (Fin n × Fin n × Fin n) :=
  ((perm2 (findFullyDirected A)).filter fun pq => decide (pq.1.2 = pq.2.2 ∧ pq.1.1 < pq.2.1) && A pq.1.1 pq.2.1 == -1).map
    fun pq => (pq.1.1, pq.1.2, pq.2.1)

/-- `A[i, j] = v`. -/
def setCell (A : Mat n) (i j : Fin n) (v : Int) : Mat n := fun a b => if a = i ∧ b = j then v else A a b

/-- `Helper.py:349`: `pattern[pattern == 1] = 0`. -/
def strip (A : Mat n) : Mat n := fun i j => if A i j = 1 then 0 else A i j

/-- `Helper.py:351-353`: orient one unshielded collider. -/
def ucStep (Q : Mat n) (t : Fin n × Fin n × Fin n) : Mat n := setCell (setCell Q t.1 t.2.1 1) t.2.2 t.2.1 1

/-- `Helper.py:362-365`, rule 1. -/
def rule1 (st : Mat n × Bool) (t : Fin n × Fin n × Fin n) : Mat n × Bool :=
  if isDir st.1 t.1 t.2.1 && isUnd st.1 t.2.1 t.2.2 then (setCell st.1 t.2.1 t.2.2 1, true) else st

/-- `Helper.py:367-370`, rule 2. -/
def rule2 (st : Mat n × Bool) (t : Fin n × Fin n × Fin n) : Mat n × Bool :=
  if isDir st.1 t.1 t.2.1 && isDir st.1 t.2.1 t.2.2 && isUnd st.1 t.1 t.2.2 then (setCell st.1 t.1 t.2.2 1, true) else st

/-- `Helper.py:372-378`, rule 3. -/
def rule3 (st : Mat n × Bool) (t : Fin n × Fin n × Fin n × Fin n) : Mat n × Bool :=
  if isUnd st.1 t.1 t.2.1 && isUnd st.1 t.1 t.2.2.1 && isDir st.1 t.2.1 t.2.2.2 && isDir st.1 t.2.2.1 t.2.2.2 &&
      isUnd st.1 t.1 t.2.2.2 then (setCell st.1 t.1 t.2.2.2 1, true) else st

/-- `Helper.py:360-378`: one iteration of the `while` loop; the flag is `Loop`. -/
def pass (UT Tri : List (Fin n × Fin n × Fin n)) (Kite : List (Fin n × Fin n × Fin n × Fin n)) (Q : Mat n) : Mat n × Bool :=
  Kite.foldl rule3 (Tri.foldl rule2 (UT.foldl rule1 (Q, false)))

/-- `Helper.py:359-378`: the loop (`none` = out of fuel). -/
def loop (UT Tri : List (Fin n × Fin n × Fin n)) (Kite : List (Fin n × Fin n × Fin n × Fin n)) : Nat → Mat n → Option (Mat n)
  | 0, _ => none
  | f + 1, Q => if (pass UT Tri Kite Q).2 then loop UT Tri Kite f (pass UT Tri Kite Q).1 else some (pass UT Tri Kite Q).1

/-- `Helper.py:346-380` `dag2pattern`, allowed `fuel` iterations of the loop. -/
def dag2pattern (A : Mat n) (fuel : Nat) : Option (Mat n) :=
  let Q := (findUC A).foldl ucStep (strip A)
  loop (unshieldedTriples Q) (triangles Q) (kites Q) fuel Q

end Pattern
end CL
