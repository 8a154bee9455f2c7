import Verif.Lop.Spec

set_option autoImplicit false

/-!
# Model of `lop/lop.py`: operators and the operator algebra

Simplification: only 1-D inputs (vectors) are modelled here; inputs of the wrong length are outside the model
(JAX would raise or broadcast).  Matrix inputs are in `Verif.Lop.TwoD`.
-/
namespace Verif.Lop
variable {R : Type*}

/-- `Operator` (lop/lop.py:41-175): the fields of the named tuple.  `shape = (m, n)`. -/
structure Op (R : Type*) where
  times : List R → List R
  trans : List R → List R
  shape : ℕ × ℕ
  linear : Bool := true
  jit_safe : Bool := true
  matrix_safe : Bool := true
  real : Bool := true

/-- `apply_n` (lop/lop.py:265-273): the while loop with its counter `c`, from state `(x, c)`.
`n` is a Python int and may be negative. -/
def applyNFrom {α : Type*} (func : α → α) (n : ℤ) (x : α) (c : ℕ) : α :=
  if (c : ℤ) < n then applyNFrom func n (func x) (c + 1) else x
termination_by (n - c).toNat

/-- `apply_n` (lop/lop.py:265-273): initial state `(x, 0)`. -/
def applyN {α : Type*} (func : α → α) (n : ℤ) (x : α) : α := applyNFrom func n x 0

variable [CommRing R] [StarRing R]

/-- `neg` (lop/lop.py:197-208). -/
def neg (A : Op R) : Op R :=
  { times := fun x => vneg (A.times x), trans := fun x => vneg (A.trans x), shape := A.shape,
    jit_safe := A.jit_safe, matrix_safe := A.matrix_safe, real := A.real }

/-- `scale` (lop/lop.py:210-224).  `pyComplex` is the value of `isinstance(alpha, complex)`. -/
def scale (A : Op R) (alpha : R) (pyComplex : Bool) : Op R :=
  let alpha_c := star alpha
  { times := fun x => smul alpha (A.times x), trans := fun x => smul alpha_c (A.trans x),
    shape := A.shape, jit_safe := A.jit_safe, matrix_safe := A.matrix_safe,
    real := A.real && !pyComplex }

/-- `adjoint` (lop/lop.py:241-251) and `hermitian` (lop/lop.py:226-239), which have the same body. -/
def adjoint (A : Op R) : Op R :=
  { times := A.trans, trans := A.times, shape := (A.shape.2, A.shape.1),
    jit_safe := A.jit_safe, matrix_safe := A.matrix_safe, real := A.real }

/-- `transpose` (lop/lop.py:254-263); `_hermitian` (lop/impl.py) conjugates 1-D arrays. -/
def transpose (A : Op R) : Op R :=
  { times := if A.real then A.trans else fun x => vconj (A.trans (vconj x)),
    trans := if A.real then A.times else fun x => vconj (A.times (vconj x)),
    shape := (A.shape.2, A.shape.1),
    jit_safe := A.jit_safe, matrix_safe := A.matrix_safe, real := A.real }

/-- `power` (lop/lop.py:277-283): `assert m == n`. -/
def power (A : Op R) (p : ℤ) : Option (Op R) :=
  if A.shape.1 = A.shape.2 then
    some { times := fun x => applyN A.times p x, trans := fun x => applyN A.trans p x,
           shape := A.shape, jit_safe := A.jit_safe, matrix_safe := A.matrix_safe, real := A.real }
  else none

/-- `add` (lop/lop.py:332-343), with its two shape assertions. -/
def add (A B : Op R) : Option (Op R) :=
  if A.shape.1 = B.shape.1 ∧ A.shape.2 = B.shape.2 then
    some { times := fun x => vadd (A.times x) (B.times x),
           trans := fun x => vadd (A.trans x) (B.trans x), shape := A.shape,
           jit_safe := A.jit_safe && B.jit_safe, matrix_safe := A.matrix_safe && B.matrix_safe,
           real := A.real && B.real }
  else none

/-- `subtract` (lop/lop.py:346-357), with its two shape assertions. -/
def subtract (A B : Op R) : Option (Op R) :=
  if A.shape.1 = B.shape.1 ∧ A.shape.2 = B.shape.2 then
    some { times := fun x => vsub (A.times x) (B.times x),
           trans := fun x => vsub (A.trans x) (B.trans x), shape := A.shape,
           jit_safe := A.jit_safe && B.jit_safe, matrix_safe := A.matrix_safe && B.matrix_safe,
           real := A.real && B.real }
  else none

/-- `compose` (lop/lop.py:360-373) with the default arguments (`ignore_compatibility=False`, `shape=None`).
The computed `jit_safe` and `matrix_safe` flags are not passed to the result, so they take their default. -/
def compose (A B : Op R) : Option (Op R) :=
  if A.shape.2 = B.shape.1 then
    some { times := fun x => A.times (B.times x), trans := fun x => B.trans (A.trans x),
           shape := (A.shape.1, B.shape.2), real := A.real && B.real }
  else none

/-- `hcat` (lop/lop.py:376-388). -/
def hcat (A B : Op R) : Option (Op R) :=
  if A.shape.1 = B.shape.1 then
    let na := A.shape.2
    some { times := fun x => vadd (A.times (x.take na)) (B.times (x.drop na)),
           trans := fun x => A.trans x ++ B.trans x, shape := (A.shape.1, na + B.shape.2),
           jit_safe := A.jit_safe && B.jit_safe, matrix_safe := A.matrix_safe && B.matrix_safe,
           real := A.real && B.real }
  else none

/-- `gram` (lop/lop.py:392-398). -/
def gram (A : Op R) : Op R :=
  let times := fun x => A.trans (A.times x)
  { times := times, trans := times, shape := (A.shape.2, A.shape.2),
    jit_safe := A.jit_safe, matrix_safe := A.matrix_safe, real := A.real }

/-- `frame` (lop/lop.py:400-406). -/
def frame (A : Op R) : Op R :=
  let times := fun x => A.times (A.trans x)
  { times := times, trans := times, shape := (A.shape.1, A.shape.1),
    jit_safe := A.jit_safe, matrix_safe := A.matrix_safe, real := A.real }

/-- Expressions a user can build from operators with the operator algebra of lop/lop.py
(`-A`, `A + B`, `A - B`, `A @ B`, `A ** p`, and the named functions). -/
inductive Expr (R : Type*) where
  | leaf (T : Op R)
  | neg (e : Expr R)
  | scale (e : Expr R) (alpha : R) (pyComplex : Bool)
  | adjoint (e : Expr R)
  | transpose (e : Expr R)
  | power (e : Expr R) (p : ℤ)
  | add (a b : Expr R)
  | subtract (a b : Expr R)
  | compose (a b : Expr R)
  | hcat (a b : Expr R)
  | gram (e : Expr R)
  | frame (e : Expr R)

/-- Evaluation of an operator expression; `none` is a failed assertion. -/
def Expr.eval : Expr R → Option (Op R)
  | .leaf T => some T
  | .neg e => e.eval.map Lop.neg
  | .scale e a c => e.eval.map (Lop.scale · a c)
  | .adjoint e => e.eval.map Lop.adjoint
  | .transpose e => e.eval.map Lop.transpose
  | .power e p => e.eval.bind (Lop.power · p)
  | .add a b => a.eval.bind fun A => b.eval.bind fun B => Lop.add A B
  | .subtract a b => a.eval.bind fun A => b.eval.bind fun B => Lop.subtract A B
  | .compose a b => a.eval.bind fun A => b.eval.bind fun B => Lop.compose A B
  | .hcat a b => a.eval.bind fun A => b.eval.bind fun B => Lop.hcat A B
  | .gram e => e.eval.map Lop.gram
  | .frame e => e.eval.map Lop.frame

/-- The operators an expression is built from. -/
def Expr.leaves : Expr R → List (Op R)
  | .leaf T => [T]
  | .neg e | .scale e _ _ | .adjoint e | .transpose e | .power e _ | .gram e | .frame e => e.leaves
  | .add a b | .subtract a b | .compose a b | .hcat a b => a.leaves ++ b.leaves

/-- An operator whose `times` and `trans` really are a shape-correct adjoint pair. -/
def Op.Good (T : Op R) : Prop := AdjointPair T.shape.1 T.shape.2 T.times T.trans

end Verif.Lop
