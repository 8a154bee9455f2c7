import Mathlib.Analysis.SpecialFunctions.Trigonometric.Basic

set_option autoImplicit false

/-! # The Ricker wavelet (geo/wavelets.py:21-33) -/
namespace Verif.Geo

/-- `ricker(t, f0)` (geo/wavelets.py:21-33) at one time `t`. -/
noncomputable def ricker (t f0 : ℝ) : ℝ :=
  (1 - 2 * (Real.pi * f0 * t) ^ 2) * Real.exp (-(Real.pi * f0 * t) ^ 2)

end Verif.Geo
