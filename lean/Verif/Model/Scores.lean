import Mathlib.LinearAlgebra.Matrix.NonsingularInverse
import Mathlib.Algebra.BigOperators.Fin
import Mathlib.Analysis.SpecialFunctions.Log.Basic

/-!
# Local scores (`causallearn/score/LocalScoreFunction.py:9-172`)

Simplifications: real-valued arithmetic is that of an arbitrary field `K`; `np.log` and `math.lgamma` are arbitrary functions (the theorems say
what they need of `log`). `np.linalg.inv` is the inverse matrix; it raises on a singular matrix, the theorems assume there is none.
-/
namespace CL.Score
open Matrix
variable {V : Type} {K : Type} [Field K]

/-- `LocalScoreFunction.py:44-75` `local_score_BIC_from_cov`; `local_score_BIC` (lines 9-41) is the same after `np.cov`. -/
noncomputable def bic (lg : K → K) (cov : V → V → K) (n lam : K) (i : V) (PA : List V) : K :=
  if PA = [] then n * lg (cov i i)
  else
    let yX : Fin PA.length → K := fun a => cov i (PA.get a)
    let XX : Matrix (Fin PA.length) (Fin PA.length) K := Matrix.of fun a b => cov (PA.get a) (PA.get b)
    n * lg (cov i i - (yX ᵥ* XX⁻¹) ⬝ᵥ yX) + lg n * PA.length * lam

/-- `LocalScoreFunction.py:25`, `LocalScoreFunctionClass.py:33`: `np.cov(Data.T)`. -/
noncomputable def sampleCov {N : Nat} (data : Fin N → V → ℝ) (i j : V) : ℝ :=
  (∑ k, (data k i - (∑ l, data l i) / N) * (data k j - (∑ l, data l j) / N)) / ((N : ℝ) - 1)

/-- `LocalScoreFunction.py:9-41` `local_score_BIC`, and `LocalScoreFunctionClass.py:32-34, 43` with `local_score_BIC_from_cov`. -/
noncomputable def bicData {N : Nat} (data : Fin N → V → ℝ) (lam : ℝ) (i : V) (PA : List V) : ℝ := bic Real.log (sampleCov data) N lam i PA

/-- The number of rows with the values `key` in the columns `PA` (`groupby(...)`, lines 115-122, 136-139). -/
def rowsWith {N : Nat} (data : Fin N → V → Int) (PA : List V) (key : List Int) : List (Fin N) :=
  (List.finRange N).filter fun k => PA.map (data k) = key

/-- The keys of `groupby` on the columns `PA`: the combinations of values that occur (pandas lists them in sorted order; the order only matters
for rounding). -/
def keys {N : Nat} (data : Fin N → V → Int) (PA : List V) : List (List Int) := ((List.finRange N).map fun k => PA.map (data k)).dedup

/-- `LocalScoreFunction.py:156-170`: the contribution of one configuration of the parents; `q` is the number of configurations and `ri` the
number of states of variable `i`. -/
def bdeuGroup {N : Nat} (lgam : K → K) (alpha q ri : K) (data : Fin N → V → Int) (i : V) (grp : List (Fin N)) : K :=
  (lgam (alpha / q) - lgam (grp.length + alpha / q)) +
    ((grp.map fun k => data k i).dedup.map fun a =>
      lgam ((grp.filter fun k => data k i = a).length + alpha / (ri * q)) - lgam (alpha / (ri * q))).sum

/-- `LocalScoreFunction.py:78-172` `local_score_BDeu` with explicit parameters (`alpha` is `sample_prior`, `sp` is `structure_prior`, `r` is
`r_i_map`). `vm` is the number of *samples* minus one (line 148). With no parents there is the single key `""` of all rows (lines 130-145),
whether or not there are rows. -/
def bdeu {N : Nat} (lg lgam : K → K) (alpha sp : K) (r : V → Nat) (data : Fin N → V → Int) (i : V) (PA : List V) : K :=
  let q : K := (((PA.map r).prod : Nat) : K)
  let vm : K := (N : K) - 1
  let ks := if PA = [] then [[]] else keys data PA;
  -(PA.length * lg (sp / vm) + (vm - PA.length) * lg (1 - sp / vm) +
    (ks.map fun key => bdeuGroup lgam alpha q (r i) data i (rowsWith data PA key)).sum)

/-- `LocalScoreFunction.py:99-101`: the default number of states of a variable is the number of distinct values in its column. -/
def defaultStates {N : Nat} (data : Fin N → V → Int) (v : V) : Nat := ((List.finRange N).map fun k => data k v).dedup.length

end CL.Score
