import Verif.Lop.BasicModel
import Verif.Dict.SimpleModel

set_option autoImplicit false

/-!
# Model of the random sensing operators (lop/random.py), on 1-D arrays

The pseudo random generator is replaced by its outcome: a theorem about all outcomes is a theorem about all keys. The `axis` argument is the subject of `Verif.Lop.AxisModel`.
-/
noncomputable section
namespace Verif.Lop
open Verif.Dict

/-- Entry `(i, j)` of `gaussian_mtx(key, N, D, normalize_atoms)` (dict/simple.py:32-70) for the drawn matrix `g`; `normalize_l2_cw` divides each column by its norm. -/
def gaussianEntry (N : ℕ) (normalize : Bool) (g : ℕ → ℕ → ℝ) (i j : ℕ) : ℝ :=
  if normalize then g i j / Real.sqrt (∑ k ∈ Finset.range N, g k j ^ 2) else g i j / Real.sqrt N

/-- Entry `(i, j)` of `rademacher_mtx(key, M, N, normalize_atoms)` (dict/simple.py:72-108) for the drawn booleans. -/
def rademacherEntry (M : ℕ) (normalize : Bool) (bits : ℕ → ℕ → Bool) (i j : ℕ) : ℝ :=
  if normalize then rademacherMtx M bits i j else 2 * (if bits i j then 1 else 0) - 1

/-- Entry `(i, j)` of `sparse_binary_mtx(key, M, N, d, normalize_atoms, dense=True)` (dict/simple.py:111-141). -/
def sparseBinaryEntry (d : ℕ) (normalize : Bool) (idx : ℕ → List ℕ) (i j : ℕ) : ℝ :=
  if normalize then sparseBinaryMtx d idx i j else Verif.Pursuit.buildSignal (idx j).mergeSort (List.replicate d (1 : ℝ)) i

/-- `sparse.BCOO.fromdense(A)` (external; used in dict/simple.py:141): the non-zero entries with their positions, row by row. -/
def bcooFromDense (m n : ℕ) (a : ℕ → ℕ → ℝ) : List (ℕ × ℕ × ℝ) :=
  ((List.range m).flatMap fun i => (List.range n).map fun j => (i, j, a i j)).filter fun e => e.2.2 ≠ 0

/-- `A @ x` for an `m`-row matrix in BCOO format. -/
def bcooMatVec (m : ℕ) (E : List (ℕ × ℕ × ℝ)) (x : List ℝ) : List ℝ :=
  (List.range m).map fun i => ((E.filter fun e => e.1 = i).map fun e => e.2.2 * ent x e.2.1).sum

/-- `x @ A` for an `n`-column matrix in BCOO format. -/
def bcooVecMat (n : ℕ) (E : List (ℕ × ℕ × ℝ)) (x : List ℝ) : List ℝ :=
  (List.range n).map fun j => ((E.filter fun e => e.2.1 = j).map fun e => ent x e.1 * e.2.2).sum

/-- `sparse_real_matrix(A)` (lop/basic.py:115-174), 1-D inputs, for an `m × n` matrix with the BCOO entries `E`. -/
def sparseRealMatrix (m n : ℕ) (E : List (ℕ × ℕ × ℝ)) : Op ℝ :=
  { times := bcooMatVec m E, trans := bcooVecMat n E, shape := (m, n) }

/-- `gaussian_dict(key, m, n, normalize_atoms)` (lop/random.py:26-46). -/
def gaussianDict (g : ℕ → ℕ → ℝ) (m : ℕ) (n : Option ℕ) (normalize : Bool) : Op ℝ :=
  matrix m (n.getD m) (gaussianEntry m normalize g) true

/-- `rademacher_dict(key, m, n, normalize_atoms)` (lop/random.py:49-69). -/
def rademacherDict (bits : ℕ → ℕ → Bool) (m : ℕ) (n : Option ℕ) (normalize : Bool) : Op ℝ :=
  matrix m (n.getD m) (rademacherEntry m normalize bits) true

/-- `sparse_binary_dict(key, m, n, d, normalize_atoms, dense)` (lop/random.py:71-97). -/
def sparseBinaryDict (idx : ℕ → List ℕ) (m : ℕ) (n : Option ℕ) (d : Option ℕ) (normalize dense : Bool) : Op ℝ :=
  let a := sparseBinaryEntry (d.getD 10) normalize idx
  if dense then matrix m (n.getD m) a true else sparseRealMatrix m (n.getD m) (bcooFromDense m (n.getD m) a)

/-- Entry `(i, j)` of a matrix (only used for indices in range). -/
def matEntry {m n : ℕ} (A : Matrix (Fin m) (Fin n) ℝ) (i j : ℕ) : ℝ := if h : i < m ∧ j < n then A ⟨i, h.1⟩ ⟨j, h.2⟩ else 0

/-- `random_orthonormal_rows_dict(key, m, n)` (lop/random.py:100-119) for the factors `Q`, `R` of the drawn `n × m` matrix. -/
def randomOrthonormalRowsDict {n m : ℕ} (Q : Matrix (Fin n) (Fin m) ℝ) (R : Matrix (Fin m) (Fin m) ℝ) : Op ℝ :=
  matrix m n (matEntry (randomOrthonormalRows Q R)) true

/-- `random_onb_dict(key, n)` (lop/random.py:122-139) for the factors `Q`, `R` of the drawn `n × n` matrix. -/
def randomOnbDict {n : ℕ} (Q R : Matrix (Fin n) (Fin n) ℝ) : Op ℝ :=
  matrix n n (matEntry (signFixed Q R)) true

/-- `jax.random.bernoulli(keys[i], shape=(m,))` used as numbers (lop/random.py:167, 174): both directions draw with the same key, so they get the same outcome `bits i`. -/
def binaryColumn (bits : ℕ → ℕ → Bool) (m i : ℕ) : List ℝ := (List.range m).map fun k => if bits i k then 1 else 0

/-- `binary_dict_alg(key, m, n)` (lop/random.py:141-179), 1-D inputs. -/
def binaryDictAlg (bits : ℕ → ℕ → Bool) (m : ℕ) (n : Option ℕ) : Op ℝ :=
  let n := n.getD m
  { times := fun x => (List.range n).foldl (fun y i => vadd y (smul (ent x i) (binaryColumn bits m i))) (List.replicate m 0)
    trans := fun y => (List.range n).foldl (fun x i => x.set i (vdot (binaryColumn bits m i) y)) (List.replicate n 0)
    shape := (n, m), real := false }

end Verif.Lop
