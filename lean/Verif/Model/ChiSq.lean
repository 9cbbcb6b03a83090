import Mathlib.Algebra.BigOperators.Fin
import Mathlib.Algebra.Field.Basic

/-!
# The chi-square and G-square tests (`causallearn/utils/cit.py:294-442`)

Simplifications: real-valued arithmetic is that of an arbitrary field `K` (no rounding); `chi2.sf` is an arbitrary function `sf` and
`np.log` an arbitrary function `lg`. Integer arithmetic is the wrapping `int64` arithmetic of numpy.
-/
namespace CL.Chi

/-- `int64`: every stored integer result is reduced to the range `[-2^63, 2^63)`. -/
def w64 (x : Int) : Int := x.bmod (2 ^ 64)

/-- `np.unique` on integers: insert into a sorted list without repetitions. -/
def insU (a : Int) : List Int → List Int
  | [] => [a]
  | b :: l => if a < b then a :: b :: l else if a = b then b :: l else b :: insU a l

/-- `np.unique(l)`. -/
def uniq (l : List Int) : List Int := l.foldr insU []

/-- `np.unique(l, return_inverse=True)[1]`. -/
def inverse (l : List Int) : List Int := l.map fun a => ((uniq l).idxOf a : Int)

/-- `cit.py:296-299`: one column of the recoded data; `cit.py:302` its cardinality is the largest code plus one. -/
def card (col : List Int) : Int := ((inverse col).foldl max 0) + 1

/-- `np.ones_like(c); p[:-1] = np.cumprod(c[1:][::-1])[::-1]` (`cit.py:342-343`, `371-372`): first the (wrapped) product of all of `c`, then for
each place the (wrapped) product of what stands after it. -/
def weights (c : List Int) : Int × List Int := c.foldr (fun x acc => (w64 (acc.1 * x), acc.1 :: acc.2)) (1, [])

/-- `np.dot(weights, row)`. -/
def dot (ws row : List Int) : Int := (List.zipWith (fun a b => w64 (a * b)) ws row).foldl (fun a b => w64 (a + b)) 0

/-- `np.bincount(idx, minlength=k*m*n).reshape((k, m, n))`: numpy raises an error on a negative entry, and the reshape fails when an entry is
`≥ k*m*n`. -/
def bincount3 (idx : List Int) (k m n : Nat) : Option (List (Fin m → Fin n → Nat)) :=
  if idx.all (fun i => decide (0 ≤ i ∧ i < (k * m * n : Nat))) then
    some ((List.range k).map fun w i j => idx.count (((w * m + i.1) * n + j.1 : Nat) : Int))
  else none

/-- One sample: the values of the conditioning variables, of `X` and of `Y`. -/
abbrev Sample := List Int × Int × Int

variable {m n : Nat}

def total (t : Fin m → Fin n → Nat) : Nat := ∑ i, ∑ j, t i j

/-- `cit.py:339-354` `_Fill3DCountTableByBincount`: the tables and the marginal counts of the present configurations. -/
def fillBincount (D : List Sample) (cs : List Int) (m n : Nat) : Option (List ((Fin m → Fin n → Nat) × Nat)) :=
  let ws := (weights (cs ++ [(m : Int), (n : Int)])).2
  (bincount3 (D.map fun r => dot ws (r.1 ++ [r.2.1, r.2.2])) (weights cs).1.toNat m n).map fun ts =>
    (ts.map fun t => (t, total t)).filter fun t => t.2 ≠ 0

/-- `cit.py:356-384` `_Fill3DCountTableByUnique`. -/
def fillUnique (D : List Sample) (cs : List Int) (m n : Nat) : Option (List ((Fin m → Fin n → Nat) × Nat)) :=
  let sidx := D.map fun r => dot (weights cs).2 r.1
  let idx := List.zipWith (fun v (r : Sample) => w64 (w64 (w64 (w64 (v * m) * n) + w64 (r.2.1 * n)) + r.2.2)) (inverse sidx) D
  (bincount3 idx (uniq sidx).length m n).map fun ts => ts.zip ((uniq sidx).map fun v => sidx.count v)

/-- `cit.py:386-390` `_Fill3DCountTable`; the threshold is `1e5` (`cit.py:13`). -/
def fill3 (D : List Sample) (cs : List Int) (m n : Nat) : Option (List ((Fin m → Fin n → Nat) × Nat)) :=
  let p := (weights (cs ++ [(m : Int), (n : Int)])).1
  if 0 < p ∧ p < 100000 then fillBincount D cs m n else fillUnique D cs m n

/-- `cit.py:313-337` `_Fill2DCountTable`, with the sample size as the marginal (`cit.py:427`). -/
def fill2 (D : List Sample) (m n : Nat) : Option (List ((Fin m → Fin n → Nat) × Nat)) :=
  (bincount3 (D.map fun r => w64 (w64 (r.2.1 * n) + r.2.2)) 1 m n).map fun ts => ts.map fun t => (t, D.length)

variable {K : Type} [Field K] [DecidableEq K]

/-- `cit.py:427`, `432`: the expected counts of one table. -/
def expected (t : (Fin m → Fin n → Nat) × Nat) (i : Fin m) (j : Fin n) : K :=
  ((∑ j', t.1 i j' : Nat) : K) * ((∑ i', t.1 i' j : Nat) : K) / (t.2 : K)

/-- `cit.py:408-417`: the contribution of one cell. -/
def cell (lg : K → K) (gsq : Bool) (c e : K) : K :=
  let e1 := if e = 0 then 1 else e
  if gsq then
    let d := c / e1
    c * lg (if d = 0 then 1 else d)
  else (c - e) ^ 2 / e1

/-- `cit.py:412-417`: the statistic. -/
def stat (lg : K → K) (gsq : Bool) (ts : List ((Fin m → Fin n → Nat) × Nat)) : K :=
  let s := (ts.map fun t => ∑ i, ∑ j, cell lg gsq ((t.1 i j : Nat) : K) (expected t i j)).sum
  if gsq then 2 * s else s

/-- `cit.py:420-422`: the degrees of freedom. -/
def dof (K : Type) [Field K] [DecidableEq K] (ts : List ((Fin m → Fin n → Nat) × Nat)) : Int :=
  (ts.map fun t =>
    ((m : Int) - 1 - (Finset.univ.filter fun i : Fin m => ∀ j, (expected t i j : K) = 0).card) *
    ((n : Int) - 1 - (Finset.univ.filter fun j : Fin n => ∀ i, (expected t i j : K) = 0).card)).sum

/-- `cit.py:392-423` `_CalculatePValue`. -/
def pval (lg : K → K) (sf : K → Int → K) (gsq : Bool) (ts : List ((Fin m → Fin n → Nat) × Nat)) : K :=
  if dof K ts = 0 then 1 else sf (stat lg gsq ts) (dof K ts)

/-- `cit.py:304-433` `chisq_or_gsq_test` on coded samples. -/
def test (lg : K → K) (sf : K → Int → K) (gsq : Bool) (D : List Sample) (cs : List Int) (m n : Nat) : Option K :=
  (if cs = [] then fill2 D m n else fill3 D cs m n).map (pval lg sf gsq)

/-- `cit.py:435-442` `Chisq_or_Gsq.__call__` on data with `N` rows (`cols v` lists the values of variable `v`), without the cache: the columns
are recoded (`cit.py:296-302`) and the rows of the chosen columns are passed on. -/
def call {N : Nat} (lg : K → K) (sf : K → Int → K) (gsq : Bool) {V : Type} (cols : V → Fin N → Int) (x y : V) (S : List V) : Option K :=
  let code := fun v => inverse (List.ofFn (cols v))
  let D := (List.finRange N).map fun k => (S.map fun v => (code v).getD k.1 0, (code x).getD k.1 0, (code y).getD k.1 0)
  test lg sf gsq D (S.map fun v => card (List.ofFn (cols v))) (card (List.ofFn (cols x))).toNat (card (List.ofFn (cols y))).toNat

end CL.Chi
