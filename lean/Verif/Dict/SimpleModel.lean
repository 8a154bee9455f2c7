import Verif.Pursuit.UtilModel
import Mathlib.Data.Matrix.Basic
import Mathlib.Data.Matrix.Mul
import Mathlib.Data.Real.Sign
import Mathlib.Data.Nat.Log
import Mathlib.Analysis.InnerProductSpace.PiL2

set_option autoImplicit false
/-!
# Model of the dictionary constructors (dict/simple.py)

The pseudo random generator is replaced by its outcome: a theorem about all outcomes is a theorem about all keys.
-/
noncomputable section
namespace Verif.Dict
open Verif.Pursuit

/-- The loop of `hadamard(n)` (dict/simple.py:206-209): a matrix is the list of its rows; `hstack` appends rows pairwise, `vstack` appends the lists of rows. -/
def hadamardRows : ℕ → List (List ℤ)
  | 0 => [[1]]
  | k + 1 => (hadamardRows k).map (fun r => r ++ r) ++ (hadamardRows k).map (fun r => r ++ r.map fun x => -x)

/-- `hadamard(n)` (dict/simple.py:201-209): `none` when the assertion fails. `int(math.log(n, 2))` is idealised as the exact integer logarithm. -/
def hadamard (n : ℕ) : Option (List (List ℤ)) :=
  if 2 ^ Nat.log 2 n = n then some (hadamardRows (Nat.log 2 n)) else none

/-- Entry `(i, j)` of a matrix given by its rows. -/
def entry (H : List (List ℤ)) (i j : ℕ) : ℤ := (H.getD i []).getD j 0

/-- `hadamard_basis(n)` (dict/simple.py:211-215). -/
def hadamardBasis (n : ℕ) : Option (ℕ → ℕ → ℝ) := (hadamard n).map fun H i j => (entry H i j : ℝ) / Real.sqrt n

/-- `dirac_hadamard_basis(n)` (dict/simple.py:218-223): `hstack((I, H))`. -/
def diracHadamardBasis (n : ℕ) : Option (ℕ → ℕ → ℝ) :=
  (hadamardBasis n).map fun H i j => if j < n then (if i = j then 1 else 0) else H i (j - n)

/-- `gaussian_mtx(key, N, D)` with `normalize_atoms=True` (dict/simple.py:32-70), for the drawn matrix `g`. -/
def gaussianMtx {N D : ℕ} (g : Fin D → EuclideanSpace ℝ (Fin N)) : Fin D → EuclideanSpace ℝ (Fin N) := fun j => ‖g j‖⁻¹ • g j

/-- `rademacher_mtx(key, M, N)` (dict/simple.py:72-108), entry `(i, j)` for the drawn booleans. -/
def rademacherMtx (M : ℕ) (bits : ℕ → ℕ → Bool) (i j : ℕ) : ℝ := (2 * (if bits i j then 1 else 0) - 1) / Real.sqrt M

/-- `sparse_binary_mtx(key, M, N, d)` (dict/simple.py:111-141), entry `(i, j)`, where `idx j` are the `d` indices drawn for column `j`. -/
def sparseBinaryMtx (d : ℕ) (idx : ℕ → List ℕ) (i j : ℕ) : ℝ :=
  buildSignal (idx j).mergeSort (List.replicate d (1 : ℝ)) i / Real.sqrt d

/-- The contract of `jnp.linalg.qr(A)` (external) for an `(n, m)` matrix with `m ≤ n`: reduced factors. -/
structure IsQR {n m : ℕ} (A Q : Matrix (Fin n) (Fin m) ℝ) (R : Matrix (Fin m) (Fin m) ℝ) : Prop where
  orth : Q.transpose * Q = 1
  prod : Q * R = A
  upper : ∀ i j, j < i → R i j = 0

/-- `random_onb(key, N)` and the transpose of `random_orthonormal_rows(key, M, N)` (dict/simple.py:143-199): `Q` with the signs of the diagonal of `R` applied to its columns (`diag_postmultiply`). -/
def signFixed {n m : ℕ} (Q : Matrix (Fin n) (Fin m) ℝ) (R : Matrix (Fin m) (Fin m) ℝ) : Matrix (Fin n) (Fin m) ℝ := fun i j => Q i j * Real.sign (R j j)

/-- `random_orthonormal_rows(key, M, N)` (dict/simple.py:173-199). -/
def randomOrthonormalRows {n m : ℕ} (Q : Matrix (Fin n) (Fin m) ℝ) (R : Matrix (Fin m) (Fin m) ℝ) : Matrix (Fin m) (Fin n) ℝ := (signFixed Q R).transpose

end Verif.Dict
