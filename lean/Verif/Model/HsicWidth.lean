import Verif.Model.Kci

/-!
# Model of the kernel widths and p-values of `lingam/hsic.py`, `lingam/hsic2.py` and `lingam/CAMUV.py`

Real numbers; the statistic and the two parameters of the gamma distribution for given widths are `Kci.hsicTest` and `Kci.hsicGam`.
-/
namespace CL.Hsic
open Kci
variable {n d e : Nat}

/-- `hsic.py:36-37`, `hsic2.py:12-16`, `CAMUV.py:218-222`: `G + G.T - 2 * np.dot(X, X.T)`. -/
def gramDist (X : Data n d) (i k : Fin n) : ℝ := (∑ j, X i j * X i j) + (∑ j, X k j * X k j) - 2 * ∑ j, X i j * X k j

open Classical in
/-- `hsic.py:38-39`, `41`: the positive entries above the diagonal (`dists - np.tril(dists)`), for the rows in `rows`. -/
noncomputable def upperDists (X : Data n d) (rows : List (Fin n)) : List ℝ :=
  (rows.flatMap fun i => rows.map fun k => if i < k then gramDist X i k else 0).filter fun t => decide (t > 0)

/-- `hsic.py:15-42` `get_kernel_width`: the first 100 rows at most. -/
noncomputable def kernelWidth (X : Data n d) : Res ℝ :=
  (npMedian (upperDists X (if n > 100 then (List.finRange n).take 100 else List.finRange n))).bind fun m => .val √(0.5 * m)

/-- `hsic2.py:7-21`, `CAMUV.py:213-227` `get_width`: all rows. -/
noncomputable def getWidth (X : Data n d) : Res ℝ := (npMedian (upperDists X (List.finRange n))).bind fun m => .val √(0.5 * m)

/-- `hsic.py:158-173`: the p-value, given statistic, mean and variance under the null hypothesis. With a variance (or mean) 0 the parameters are `inf` and 0, and
`gamma.cdf` gives `nan`. -/
noncomputable def pOf (cdf : ℝ → ℝ → ℝ → ℝ) (mean var : ℝ) (r : ℝ × ℝ × ℝ) : Res ℝ :=
  if mean = 0 ∨ var = 0 then .nan else .val (1 - cdf r.1 r.2.1 r.2.2)

/-- `hsic.py:112-175` `hsic_test_gamma(X, Y)`: statistic. With at most three samples Python divides by the integer zero (lines 159-162). -/
noncomputable def testStatistic (X : Data n d) (Y : Data n e) : Res ℝ :=
  if n ≤ 3 then .raises else (kernelWidth X).bind fun wx => (kernelWidth Y).bind fun wy => .val (hsicTest X Y wx wy).1

/-- `hsic.py:112-175` `hsic_test_gamma(X, Y)`: p-value; `cdf` is scipy's `gamma.cdf(x, a, scale)`. -/
noncomputable def testP (cdf : ℝ → ℝ → ℝ → ℝ) (X : Data n d) (Y : Data n e) : Res ℝ :=
  if n ≤ 3 then .raises else (kernelWidth X).bind fun wx => (kernelWidth Y).bind fun wy =>
    pOf cdf (gammaMean (rbfDot X wx) (rbfDot Y wy)) (gammaVar (gramCenter (rbfDot X wx)) (gramCenter (rbfDot Y wy))) (hsicTest X Y wx wy)

/-- `hsic2.py:94-155`, `CAMUV.py:300-359` `hsic_gam(X, Y, mode="pvalue")`. -/
noncomputable def gamP (cdf : ℝ → ℝ → ℝ → ℝ) (X : Data n d) (Y : Data n e) : Res ℝ :=
  if n ≤ 3 then .raises else (getWidth X).bind fun wx => (getWidth Y).bind fun wy =>
    pOf cdf (gammaMean (rbfDot X wx) (rbfDot Y wy)) (gammaVar (gramCenter (rbfDot X wx)) (gramCenter (rbfDot Y wy))) (hsicGam X Y wx wy)

/-- `hsic2.py:150-155`, `CAMUV.py:354-359`: the last modes of `hsic_gam`: `testStat < gamma.ppf(1 - alph, al, scale=bet)`. -/
noncomputable def gamDecision (ppf : ℝ → ℝ → ℝ → ℝ) (alph : ℝ) (r : ℝ × ℝ × ℝ) : Prop := r.1 < ppf (1 - alph) r.2.1 r.2.2

end CL.Hsic
