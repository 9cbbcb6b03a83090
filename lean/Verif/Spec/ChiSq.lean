import Mathlib.Algebra.BigOperators.Fin
import Mathlib.Algebra.Field.Basic

/-!
# Specification: the chi-square and G-square tests of conditional independence

`N` samples; `x k`, `y k` are the values of the two variables and `s k` is the configuration of the conditioning variables in sample `k`.
-/
namespace ChiSpec
open Finset
variable {N : Nat} {A B C : Type} [DecidableEq A] [DecidableEq B] [DecidableEq C]

/-- Samples with configuration `c`. -/
def nS (s : Fin N → C) (c : C) : Nat := #{k | s k = c}
/-- … and value `a`. -/
def nSX (s : Fin N → C) (x : Fin N → A) (c : C) (a : A) : Nat := #{k | s k = c ∧ x k = a}
/-- … and values `a` and `b`. -/
def nSXY (s : Fin N → C) (x : Fin N → A) (y : Fin N → B) (c : C) (a : A) (b : B) : Nat := #{k | s k = c ∧ x k = a ∧ y k = b}

variable {K : Type} [Field K]

/-- The expected count of a cell under conditional independence. -/
def ex (s : Fin N → C) (x : Fin N → A) (y : Fin N → B) (c : C) (a : A) (b : B) : K := (nSX s x c a : K) * (nSX s y c b : K) / (nS s c : K)

/-- Pearson's statistic: the sum of `(observed - expected)² / expected` over the observed configurations and values, where the expected count is
not zero. -/
def chi2 (s : Fin N → C) (x : Fin N → A) (y : Fin N → B) : K :=
  ∑ c ∈ univ.image s, ∑ a ∈ univ.image x, ∑ b ∈ univ.image y,
    if nSX s x c a = 0 ∨ nSX s y c b = 0 then 0 else ((nSXY s x y c a b : K) - ex s x y c a b) ^ 2 / ex s x y c a b

/-- The G-square statistic: twice the sum of `observed * log (observed / expected)` over the observed cells. -/
def g2 (lg : K → K) (s : Fin N → C) (x : Fin N → A) (y : Fin N → B) : K :=
  2 * ∑ c ∈ univ.image s, ∑ a ∈ univ.image x, ∑ b ∈ univ.image y,
    if nSXY s x y c a b = 0 then 0 else (nSXY s x y c a b : K) * lg ((nSXY s x y c a b : K) / ex s x y c a b)

/-- Degrees of freedom: for each observed configuration, (values of `x` seen with it - 1) · (values of `y` seen with it - 1). -/
def df (s : Fin N → C) (x : Fin N → A) (y : Fin N → B) : Int :=
  ∑ c ∈ univ.image s, ((#((univ.filter fun k => s k = c).image x) : Int) - 1) * ((#((univ.filter fun k => s k = c).image y) : Int) - 1)

/-- The p-value, `sf` being the survival function of the chi-square distribution. -/
def pvalue (lg : K → K) (sf : K → Int → K) (gsq : Bool) (s : Fin N → C) (x : Fin N → A) (y : Fin N → B) : K :=
  if df s x y = 0 then 1 else sf (if gsq then g2 lg s x y else chi2 s x y) (df s x y)

end ChiSpec
