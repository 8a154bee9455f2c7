import Verif.Dict.SimpleModel
import Verif.Lop.FourierModel
import Verif.Lop.StructModel
import Mathlib.Data.Matrix.Diagonal
import Mathlib.LinearAlgebra.Matrix.ConjTranspose
import Mathlib.Data.Complex.Basic

set_option autoImplicit false
/-!
# Wavelet bases, unions of bases and frame bounds (dict/simple.py:234-294, dict/props.py:28-73)
-/
noncomputable section
namespace Verif.Dict
open Verif.Lop (waverec nextPow2 unitVec dictCosine)

/-- `wavelet_basis(n, name, level)` (dict/simple.py:261-294) by its columns: `waverec` is applied to the columns of the identity.
`idwt_` is the external one-level synthesis, `max_level` the external `dwt_max_level(n, wavelet.dec_len)`; `level = none` is the default.
`none` when an assertion fails. The local `waverec` is the function of lop/dwt.py:43-57. -/
def waveletBasis {R : Type*} [CommRing R] [StarRing R] (idwt_ : List R → List R → List R) (max_level n : ℕ) (level : Option ℕ) :
    Option (ℕ → List R) :=
  if nextPow2 n = n then
    match level with
    | none => some fun j => waverec idwt_ (unitVec n j) max_level
    | some l => if l ≤ max_level then some fun j => waverec idwt_ (unitVec n j) l else none
  else none

/-- `jnp.hstack` of matrices with `n` columns each, entry `(i, j)`. -/
def hstackN (n : ℕ) (Ms : List (ℕ → ℕ → ℝ)) (i j : ℕ) : ℝ := (Ms.getD (j / n) fun _ _ => 0) i (j % n)

/-- `jnp.eye(n)`. -/
def eyeN (i j : ℕ) : ℝ := if i = j then 1 else 0

/-- `dirac_cosine_basis(n)` (dict/simple.py:234-239). -/
def diracCosineBasis (n : ℕ) : ℕ → ℕ → ℝ := hstackN n [eyeN, dictCosine n]

/-- `dirac_hadamard_cosine_basis(n)` (dict/simple.py:241-247). -/
def diracHadamardCosineBasis (n : ℕ) : Option (ℕ → ℕ → ℝ) := (hadamardBasis n).map fun H => hstackN n [eyeN, H, dictCosine n]

/-- `frame(A)` (dict/props.py:28-34) for a real matrix. -/
def frameReal {m n : ℕ} (A : Matrix (Fin m) (Fin n) ℝ) : Matrix (Fin m) (Fin m) ℝ := A * A.transpose

/-- `frame(A)` (dict/props.py:28-34) for a complex matrix. -/
def frameComplex {m n : ℕ} (A : Matrix (Fin m) (Fin n) ℂ) : Matrix (Fin m) (Fin m) ℝ := fun i j => ((A * A.conjTranspose) i j).re

/-- The contract of `jnp.linalg.svd(A, full_matrices=False)` (external): `s` are the singular values in descending order, of the thin
factorisation `A = U diag(s) Vᵀ` with `k = min(m, n)`. -/
structure IsThinSvd {m n k : ℕ} (A : Matrix (Fin m) (Fin n) ℝ) (U : Matrix (Fin m) (Fin k) ℝ) (s : Fin k → ℝ)
    (V : Matrix (Fin n) (Fin k) ℝ) : Prop where
  size : k = min m n
  left : U.transpose * U = 1
  right : V.transpose * V = 1
  prod : U * Matrix.diagonal s * V.transpose = A
  nonneg : ∀ i, 0 ≤ s i
  desc : ∀ i j, i ≤ j → s j ≤ s i

/-- `frame_bounds(A)`, `upper_frame_bound(A)`, `lower_frame_bound(A)` (dict/props.py:56-73): the first and the last singular value. -/
def frameBounds {k : ℕ} (s : Fin (k + 1) → ℝ) : ℝ × ℝ := (s 0, s (Fin.last k))

end Verif.Dict
