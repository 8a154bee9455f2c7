import Verif.Opt.Spec
import Mathlib.LinearAlgebra.Matrix.NonsingularInverse
import Mathlib.Analysis.SpecialFunctions.Log.Basic

set_option autoImplicit false
/-!
# The log-determinant smooth function (`opt/smooth/logdet.py`)

Matrices are points of `ℝ^(n × n)` with the Frobenius inner product (`cnb.arr_rdot`); NaN is `none`.
-/
noncomputable section
namespace Verif.Opt

/-- A real `n × n` array as a point of Euclidean space. -/
abbrev MatVec (n : ℕ) := EuclideanSpace ℝ (Fin n × Fin n)

/-- The matrix with the entries of an array. -/
def toMat {n : ℕ} (X : MatVec n) : Matrix (Fin n) (Fin n) ℝ := fun i j => X (i, j)

/-- The array with the entries of a matrix. -/
def ofMat {n : ℕ} (M : Matrix (Fin n) (Fin n) ℝ) : MatVec n := WithLp.toLp 2 fun p => M p.1 p.2

/-- `L` is the Cholesky factor of `S`: lower triangular, positive diagonal, `L Lᵀ = S`. -/
structure IsCholesky {n : ℕ} (L S : Matrix (Fin n) (Fin n) ℝ) : Prop where
  lower : ∀ i j, i < j → L i j = 0
  pos : ∀ i, 0 < L i i
  fac : L * L.transpose = S

open Classical in
/-- `jax.numpy.linalg.cholesky(X)` (external): the factor of the symmetrised argument `(X + Xᵀ) / 2` (the default
`symmetrize_input=True`), NaN if there is none. -/
def cholesky {n : ℕ} (X : Matrix (Fin n) (Fin n) ℝ) : Option (Matrix (Fin n) (Fin n) ℝ) :=
  if h : ∃ L, IsCholesky L ((1 / 2 : ℝ) • (X + X.transpose)) then some h.choose else none

/-- `func` of `smooth_logdet(q, C)` (opt/smooth/logdet.py:34-41). -/
def logdetFunc {n : ℕ} (q : ℝ) (C : Option (MatVec n)) (X : MatVec n) : Option ℝ :=
  (cholesky (toMat X)).map fun L =>
    let v := -2 * q * ∑ i, Real.log (L i i)
    match C with
    | none => v
    | some C => v + ∑ p, C p * X p

open Classical in
/-- `gradient` of `smooth_logdet(q, C)` (opt/smooth/logdet.py:43-50); `inv` of a singular matrix is not finite. -/
def logdetGrad {n : ℕ} (q : ℝ) (C : Option (MatVec n)) (X : MatVec n) : Option (MatVec n) :=
  if (toMat X).det = 0 then none
  else
    let g := (-q) • ofMat (toMat X)⁻¹
    match C with
    | none => some g
    | some C => some (g + C)

/-- `smooth_logdet(q, C).grad_val(X)`: `build2` pairs the two (opt/smooth/smooth.py:58-72, opt/smooth/logdet.py:52). -/
def logdetGradVal {n : ℕ} (q : ℝ) (C : Option (MatVec n)) (X : MatVec n) : Option (MatVec n) × Option ℝ :=
  (logdetGrad q C X, logdetFunc q C X)

end Verif.Opt
