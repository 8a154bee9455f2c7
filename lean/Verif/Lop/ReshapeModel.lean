import Verif.Lop.Spec

set_option autoImplicit false
/-!
# Model of `lop/reshape.py`

An n-dimensional array of shape `[n₁, …, n_d]` is a function on multi-indices (lists of naturals); only its values
on valid indices (`ValidIdx`) matter.
-/
namespace Verif.Lop
variable {R : Type*}

/-- Index order of the data layout. `A` passes the assertion of `reshape`, but `jnp.reshape` does not implement
it and raises. -/
inductive Order | C | F | A
  deriving DecidableEq

/-- Position of a multi-index in the C (row-major) enumeration. -/
def flatC : List ℕ → List ℕ → ℕ
  | _ :: ns, i :: is => i * ns.prod + flatC ns is
  | _, _ => 0

/-- Multi-index at a position of the C enumeration. -/
def unflatC : List ℕ → ℕ → List ℕ
  | [], _ => []
  | _ :: ns, k => (k / ns.prod) :: unflatC ns (k % ns.prod)

/-- Position of a multi-index in the Fortran (column-major) enumeration. -/
def flatF : List ℕ → List ℕ → ℕ
  | n :: ns, i :: is => i + n * flatF ns is
  | _, _ => 0

/-- Multi-index at a position of the Fortran enumeration. -/
def unflatF : List ℕ → ℕ → List ℕ
  | [], _ => []
  | n :: ns, k => (k % n) :: unflatF ns (k / n)

/-- `jnp.reshape(x, out_shape, order)` for an array of shape `in_shape` (external, documented semantics): entry
number `k` of the result in the given order is entry number `k` of the argument in the same order. -/
def npReshape (order : Order) (in_shape out_shape : List ℕ) (x : List ℕ → R) : Option (List ℕ → R) :=
  match order with
  | .C => some fun J => x (unflatC in_shape (flatC out_shape J))
  | .F => some fun J => x (unflatF in_shape (flatF out_shape J))
  | .A => none

/-- Operators between arrays: `times` and `trans` may raise. -/
structure ArrOp (R : Type*) where
  times : (List ℕ → R) → Option (List ℕ → R)
  trans : (List ℕ → R) → Option (List ℕ → R)
  outShape : List ℕ
  inShape : List ℕ

/-- `reshape(in_shape, out_shape, order)` (lop/reshape.py:21-41). -/
def reshape (in_shape out_shape : List ℕ) (order : Order) : Option (ArrOp R) :=
  if in_shape.prod = out_shape.prod then
    some { times := npReshape order in_shape out_shape, trans := npReshape order out_shape in_shape,
           outShape := out_shape, inShape := in_shape }
  else none

/-- `arr2vec(shape)` (lop/reshape.py:44-58); `reduce` raises on an empty shape. -/
def arr2vec (shape : List ℕ) : Option (ArrOp R) :=
  if shape = [] then none
  else
    let in_size := shape.prod
    some { times := npReshape .C shape [in_size], trans := npReshape .C [in_size] shape,
           outShape := [in_size], inShape := shape }

end Verif.Lop
