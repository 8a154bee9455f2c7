import Mathlib.Algebra.Star.Basic
import Mathlib.Algebra.BigOperators.Group.List.Basic
import Mathlib.Algebra.BigOperators.Group.Finset.Basic
import Mathlib.Tactic.Ring

set_option autoImplicit false

/-!
# Specification vocabulary for linear operators

1-D arrays are lists.  Scalars are an arbitrary commutative ring with involution (`ℝ`, `ℂ`, `ℤ`, …).
-/
namespace Verif.Lop

variable {R : Type*}

section Spec
variable [CommRing R] [StarRing R]

/-- The (Hermitian) inner product `∑ conj(x_i) y_i` of two arrays (`jnp.vdot`). -/
def vdot (x y : List R) : R := (List.zipWith (fun a b => star a * b) x y).sum

/-- `x + y`, entry by entry. -/
def vadd (x y : List R) : List R := List.zipWith (· + ·) x y

/-- `x - y`, entry by entry. -/
def vsub (x y : List R) : List R := List.zipWith (· - ·) x y

/-- `-x`. -/
def vneg (x : List R) : List R := x.map (- ·)

/-- `a * x` for a scalar `a`. -/
def smul (a : R) (x : List R) : List R := x.map (a * ·)

/-- `conj(x)`, entry by entry. -/
def vconj (x : List R) : List R := x.map star

/-- `times : R^n → R^m` and `trans : R^m → R^n` are shape preserving and mutually adjoint:
`<times x, y> = <x, trans y>` for all vectors. -/
structure AdjointPair (m n : ℕ) (times trans : List R → List R) : Prop where
  times_length : ∀ x, x.length = n → (times x).length = m
  trans_length : ∀ y, y.length = m → (trans y).length = n
  adjoint : ∀ x y, x.length = n → y.length = m → vdot (times x) y = vdot x (trans y)

/-- `f` is a linear map `R^n → R^m`. -/
structure LinearMapOn (m n : ℕ) (f : List R → List R) : Prop where
  length : ∀ x, x.length = n → (f x).length = m
  add : ∀ x y, x.length = n → y.length = n → f (vadd x y) = vadd (f x) (f y)
  smul : ∀ a x, x.length = n → f (smul a x) = smul a (f x)

end Spec
end Verif.Lop
