import Verif.Lop.Np
import Verif.Lop.Model
import Mathlib.Analysis.RCLike.Basic

set_option autoImplicit false

/-!
# The inner product operator (lop/dot.py) and the Walsh-Hadamard basis (lop/onb.py:87-97)
-/
noncomputable section
namespace Verif.Lop
variable {𝕜 : Type*} [RCLike 𝕜]

/-- `dot(v, adjoint)` (lop/dot.py:23-64) for a 1-D array `v`.  `cnb.arr_rdot` (external) is the real part of the inner product.  The
`axis` argument is never used: an input whose shape differs from the shape of `v` fails the assertion of line 48.  `v * x` broadcasts
the array `x` of length 1. -/
def dot (v : List 𝕜) (adjoint : Bool) : Op 𝕜 :=
  let n := v.length
  let times := fun x => [((RCLike.re (vdot v x) : ℝ) : 𝕜)]
  let trans := fun y => v.map (· * ent y 0)
  if adjoint then { times := trans, trans := times, shape := (n, 1) } else { times := times, trans := trans, shape := (1, n) }

/-- `crdsp.fwht(x)` (external): multiplication with the Walsh-Hadamard matrix `W`. -/
def fwht (W : ℕ → ℕ → ℤ) (n : ℕ) (x : List 𝕜) : List 𝕜 :=
  (List.range n).map fun i => ∑ j ∈ Finset.range n, (W i j : 𝕜) * ent x j

/-- `walsh_hadamard_basis(n)` (lop/onb.py:87-97); `none` when the assertion that `n` is a power of two fails. -/
def walshHadamardBasis (W : ℕ → ℕ → ℤ) (n : ℕ) : Option (Op 𝕜) :=
  if 2 ^ Nat.log 2 n = n then
    let factor : 𝕜 := ((1 / Real.sqrt n : ℝ) : 𝕜)
    let times := fun x => smul factor (fwht W n x)
    some { times := times, trans := times, shape := (n, n) }
  else none

end Verif.Lop
