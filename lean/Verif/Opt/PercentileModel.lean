import Verif.Opt.ProxModel
import Mathlib.Algebra.Order.Floor.Semiring
import Mathlib.Data.Real.Archimedean

set_option autoImplicit false

/-! # Thresholding at a percentile (geo/thresholding.py:66-97) -/
namespace Verif.Opt
noncomputable section

/-- `jnp.percentile(a, q)` (external, method `linear`): with `a` sorted and `r = q/100 (n-1)`, the value between the entries at
`⌊r⌋` and `⌈r⌉`. -/
def percentile (a : List ℝ) (q : ℝ) : ℝ :=
  let s := a.mergeSort (fun x y => decide (x ≤ y))
  let r := q / 100 * ((a.length : ℝ) - 1)
  s.getD ⌊r⌋₊ 0 * (1 - (r - ⌊r⌋₊)) + s.getD ⌈r⌉₊ 0 * (r - ⌊r⌋₊)

/-- `hard_threshold_percentile(x, perc)` (geo/thresholding.py:66-74). -/
def hardThresholdPercentile (x : List ℂ) (perc : ℝ) : List ℂ :=
  let gamma := percentile (x.map fun z => ‖z‖) perc
  x.map fun z => hardThreshold z (gammaToTauHard gamma)

/-- `soft_threshold_percentile(x, perc)` (geo/thresholding.py:78-84), real branch. -/
def softThresholdPercentile (x : List ℝ) (perc : ℝ) : List ℝ :=
  let tau := percentile (x.map fun z => |z|) perc
  x.map fun z => softThreshold z tau

/-- `soft_threshold_percentile(x, perc)` (geo/thresholding.py:78-84), complex branch. -/
def softThresholdPercentileC (x : List ℂ) (perc : ℝ) : List ℂ :=
  let tau := percentile (x.map fun z => ‖z‖) perc
  x.map fun z => softThresholdC z tau

/-- `default_threshold(i, x)` (sls/defs.py:30-38), real branch: the threshold of `ista` and `fista` when none is given. -/
def defaultThreshold (_i : ℕ) (x : List ℝ) : List ℝ :=
  let tau := percentile (x.map fun z => |z|) 20
  x.map fun z => max 0 (z - tau) + min 0 (z + tau)

/-- `default_threshold(i, x)` (sls/defs.py:30-38), complex branch. -/
def defaultThresholdC (_i : ℕ) (x : List ℂ) : List ℂ :=
  let tau := percentile (x.map fun z => ‖z‖) 20
  x.map fun z => ((max (‖z‖ - tau) 0 : ℝ) : ℂ) * Complex.exp (Complex.I * Complex.arg z)

/-- `half_threshold(x, tau)` (geo/thresholding.py:51-62) with its NaN: at `x = 0` the power `(|x|/3)^(-1.5)` is infinite and the
argument of `arccos` is infinite (or `0 · inf`), so `phi` is NaN; `jnp.where` keeps that value when `|x| ≥ gamma`. -/
def halfThresholdN (x tau : ℝ) : Option ℝ :=
  if |x| ≥ halfGamma tau then (if x = 0 then none else some (halfThreshold x tau)) else some 0

/-- `half_threshold_percentile(x, perc)` (geo/thresholding.py:88-95); `none` is NaN. -/
def halfThresholdPercentile (x : List ℝ) (perc : ℝ) : List (Option ℝ) :=
  let gamma := percentile (x.map fun z => |z|) perc
  x.map fun z => halfThresholdN z (gammaToTauHalf gamma)

end
end Verif.Opt
