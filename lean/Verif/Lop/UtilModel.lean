import Verif.Lop.AlgebraLemmas

set_option autoImplicit false

/-!
# Model of `lop/util.py` (matrix forms) and of `column`, `columns` (lop/lop.py)

2-D arrays are lists of columns here.
-/
set_option linter.unusedSectionVars false
namespace Verif.Lop
variable {R : Type*} [CommRing R] [StarRing R]

/-- `jnp.eye(n)` as a list of columns. -/
def eyeCols (n : ℕ) : List (List R) := (List.range n).map (unitVec n)

/-- `Operator.times_2d` (lop/lop.py:102-104): `vmap` over the columns. -/
def Op.times_2d (T : Op R) (X : List (List R)) : List (List R) := X.map T.times

/-- `to_matrix` (lop/util.py:21-30), operators with 1-D input; `none` is the exception. The result is
the list of columns. `to_complex_matrix` (lop/util.py:44-50) only differs in dtype. -/
def toMatrix (A : Op R) : Option (List (List R)) :=
  if A.linear then some ((eyeCols A.shape.2).map A.times) else none

/-- `to_adjoint_matrix` (lop/util.py:32-41). -/
def toAdjointMatrix (A : Op R) : Option (List (List R)) :=
  if A.linear then some ((eyeCols A.shape.1).map A.trans) else none

/-- JAX index normalisation: negative indices count from the end; the result is out of range if the
index is. -/
def wrapIdx (n : ℕ) (i : ℤ) : ℤ := if i < 0 then i + n else i

/-- `jnp.zeros(n).at[i].set(1.)`: an index out of range is dropped. -/
def basisVec (n : ℕ) (i : ℤ) : List R :=
  (List.range n).map fun k : ℕ => if (k : ℤ) = wrapIdx n i then 1 else 0

/-- `column` (lop/lop.py:22-26). -/
def column (T : Op R) (i : ℤ) : List R := T.times (basisVec T.shape.2 i)

/-- `columns` (lop/lop.py:30-37); `T.times` of a matrix acts column by column (see C22). -/
def columns (T : Op R) (indices : List ℤ) : List (List R) :=
  T.times_2d (indices.map (basisVec T.shape.2))

end Verif.Lop
