import Verif.Lop.BasicModel
import Verif.Lop.ConvNdModel

set_option autoImplicit false

/-!
# The `axis` argument: operators applied along one axis of an array with any number of dimensions

`lop/util.py` (`apply_along_axis`) and the operators with branches of their own for 2-D arrays (`matrix`, `sparse_real_matrix`,
`restriction`).  The sizes are those the operator expects; otherwise the code raises or is not meaningful.
-/
namespace Verif.Lop
variable {R : Type*} {d : ℕ}

/-- An array with `d` dimensions: its shape and its entries (only the indices below the shape matter). -/
structure Nd (d : ℕ) (R : Type*) where
  shape : Fin d → ℕ
  get : (Fin d → ℕ) → R

/-- The 1-D array of the entries of `X` along the axis `a` through the index `i` (whose own entry for `a` does not matter). -/
def Nd.fibre (X : Nd d R) (a : Fin d) (i : Fin d → ℕ) : List R :=
  (List.range (X.shape a)).map fun k => X.get (Function.update i a k)

/-- The axis which a Python index means for `d` dimensions: negative ones count from the end; `none` is the exception. -/
def normAxis (d : ℕ) (axis : ℤ) : Option (Fin d) :=
  if h : 0 ≤ axis ∧ axis < d then some ⟨axis.toNat, by omega⟩
  else if h : -(d : ℤ) ≤ axis ∧ axis < 0 then some ⟨(axis + d).toNat, by omega⟩
  else none

/-- A list as a 1-D array. -/
def ndOfList [CommRing R] (x : List R) : Nd 1 R := { shape := fun _ => x.length, get := fun i => ent x (i 0) }

/-- A 1-D array as a list. -/
def ndToList (X : Nd 1 R) : List R := (List.range (X.shape 0)).map fun k => X.get fun _ => k

variable [CommRing R] [StarRing R]

/-- `jnp.apply_along_axis(f, axis, x)` (external, documented semantics): `f` of every 1-D slice along the axis; the length of the axis becomes
the length of the result for the first slice. -/
def npAlongAxis (f : List R → List R) (axis : ℤ) (X : Nd d R) : Option (Nd d R) :=
  (normAxis d axis).map fun a =>
    { shape := Function.update X.shape a (f (X.fibre a fun _ => 0)).length, get := fun i => ent (f (X.fibre a i)) (i a) }

/-- Operators acting on arrays with any number of dimensions; `none` is a raised exception. -/
structure OpNd (R : Type*) where
  times : (d : ℕ) → Nd d R → Option (Nd d R)
  trans : (d : ℕ) → Nd d R → Option (Nd d R)
  shape : ℕ × ℕ

/-- `times`, `trans` inside `apply_along_axis` (lop/util.py:108-117): a 1-D array is passed on whatever the axis is. -/
def alongFun (f : List R → List R) (axis : ℤ) : (d : ℕ) → Nd d R → Option (Nd d R)
  | 1, X => some (ndOfList (f (ndToList X)))
  | _, X => npAlongAxis f axis X

/-- `Operator(*apply_along_axis(times1d, trans1d, axis), shape)` (lop/util.py:103-118), used by `identity` (lop/identity.py:94), `diagonal`
(lop/basic.py:192), `zero` (lop/basic.py:229), `heaviside` (lop/basic.py:351), `inv_heaviside` (lop/basic.py:382), `block_diag`
(lop/block_diag.py:141), `convolve` (lop/conv.py:76), `dwt` (lop/dwt.py:160), the filters (lop/filters.py:28, lop/filters.py:40), `circulant`
(lop/special_matrices.py:34), `tv` (lop/tv.py:82), `windowed_op` (lop/windowed_op.py:81). -/
def alongNd (T : Op R) (axis : ℤ) : OpNd R := { times := alongFun T.times axis, trans := alongFun T.trans axis, shape := T.shape }

/-- The index tuple `(i, j)` of a matrix. -/
def ix2 (i j : ℕ) : Fin 2 → ℕ := ![i, j]

/-- `A @ x` for an `m × n` matrix `A` and a 2-D array `x`. -/
def matMulNd (m n : ℕ) (a : ℕ → ℕ → R) (X : Nd 2 R) : Nd 2 R :=
  { shape := ![m, X.shape 1], get := fun i => ∑ l ∈ Finset.range n, a (i 0) l * X.get (ix2 l (i 1)) }

/-- `x @ A` for a 2-D array `x` and an `m × n` matrix `A`. -/
def mulMatNd (m n : ℕ) (a : ℕ → ℕ → R) (X : Nd 2 R) : Nd 2 R :=
  { shape := ![X.shape 0, n], get := fun i => ∑ l ∈ Finset.range m, X.get (ix2 (i 0) l) * a l (i 1) }

/-- `times` of `matrix(A, axis)` and of `sparse_real_matrix(A, axis)` (lop/basic.py:86-97, 148-159). Any axis but `0` means the second one in the
2-D case. -/
def matrixTimesNd (m n : ℕ) (a : ℕ → ℕ → R) (axis : ℤ) : (d : ℕ) → Nd d R → Option (Nd d R)
  | 1, X => some (ndOfList (matVec m n a (ndToList X)))
  | 2, X => some (if axis = 0 then matMulNd m n a X else mulMatNd n m (fun j i => a i j) X)
  | _, X => npAlongAxis (matVec m n a) axis X

/-- `trans` of `matrix(A, axis)` (lop/basic.py:84, 99-110). -/
def matrixTransNd (m n : ℕ) (a : ℕ → ℕ → R) (axis : ℤ) : (d : ℕ) → Nd d R → Option (Nd d R)
  | 1, X => some (ndOfList (vconj (vecMat m n a (vconj (ndToList X)))))
  | 2, X => some (if axis = 0 then matMulNd n m (fun j i => star (a i j)) X else mulMatNd m n (fun i j => star (a i j)) X)
  | _, X => npAlongAxis (fun x => vconj (vecMat m n a (vconj x))) axis X

/-- `matrix(A, axis)` (lop/basic.py:56-112). -/
def matrixNd (m n : ℕ) (a : ℕ → ℕ → R) (axis : ℤ) : OpNd R :=
  { times := matrixTimesNd m n a axis, trans := matrixTransNd m n a axis, shape := (m, n) }

/-- `trans` of `sparse_real_matrix(A, axis)` (lop/basic.py:142-144, 161-173). -/
def sparseTransNd (m n : ℕ) (a : ℕ → ℕ → R) (axis : ℤ) : (d : ℕ) → Nd d R → Option (Nd d R)
  | 1, X => some (ndOfList (vecMat m n a (ndToList X)))
  | 2, X => some (if axis = 0 then matMulNd n m (fun j i => a i j) X else mulMatNd m n a X)
  | _, X => npAlongAxis (vecMat m n a) axis X

/-- `sparse_real_matrix(A, axis)` (lop/basic.py:115-174). -/
def sparseMatrixNd (m n : ℕ) (a : ℕ → ℕ → R) (axis : ℤ) : OpNd R :=
  { times := matrixTimesNd m n a axis, trans := sparseTransNd m n a axis, shape := (m, n) }

/-- `times` of `restriction(n, I, axis)` (lop/basic.py:291, 294-304): rows for the axis `0`, columns for any other axis of a 2-D array. -/
def restrictionTimesNd (I : List ℕ) (axis : ℤ) : (d : ℕ) → Nd d R → Option (Nd d R)
  | 1, X => some (ndOfList (gather (ndToList X) I))
  | 2, X => some (if axis = 0 then { shape := ![I.length, X.shape 1], get := fun i => X.get (ix2 (I.getD (i 0) 0) (i 1)) }
      else { shape := ![X.shape 0, I.length], get := fun i => X.get (ix2 (i 0) (I.getD (i 1) 0)) })
  | _, X => npAlongAxis (fun x => gather x I) axis X

/-- `restriction(n, I, axis)` (lop/basic.py:281-312); `trans` (lines 306-310) has no branch for 2-D arrays. -/
def restrictionNd (n : ℕ) (I : List ℕ) (axis : ℤ) : OpNd R :=
  { times := restrictionTimesNd I axis, trans := alongFun (fun x => scatterSet (List.replicate n 0) I x) axis, shape := (I.length, n) }

end Verif.Lop
