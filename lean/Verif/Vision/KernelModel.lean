import Mathlib.Analysis.SpecialFunctions.Exp
import Mathlib.Algebra.BigOperators.Group.Finset.Basic
import Mathlib.Analysis.SpecialFunctions.Exponential

set_option autoImplicit false
/-!
# Model of the image kernels (vision/kernels.py)
-/
noncomputable section
namespace Verif.Vision

/-- Entry `j` of `jnp.linspace(-(w - 1) / 2., (w - 1) / 2., w)` (vision/kernels.py:70-71): the step is `1` (for `w = 1` the only entry is `0`). -/
def axisPt (w j : ℕ) : ℝ := -((w : ℝ) - 1) / 2 + j

/-- The unnormalised kernel (vision/kernels.py:74-78): row `i` is the vertical position, column `j` the horizontal one. -/
def rawGaussian (h w : ℕ) (sx sy : ℝ) (i j : ℕ) : ℝ :=
  Real.exp (-((axisPt w j) ^ 2 * (2 / sx ^ 2) + (axisPt h i) ^ 2 * (2 / sy ^ 2)))

/-- Entry `(i, j)` of `kernel_gaussian((h, w), (sigma_x, sigma_y))` (vision/kernels.py:57-80); `none` is the division by a zero sigma. -/
def kernelGaussian (h w : ℕ) (sx sy : ℝ) : Option (ℕ → ℕ → ℝ) :=
  if sx = 0 ∨ sy = 0 then none else
  some fun i j => rawGaussian h w sx sy i j / ∑ a ∈ Finset.range h, ∑ b ∈ Finset.range w, rawGaussian h w sx sy a b

end Verif.Vision
