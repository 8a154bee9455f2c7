import Verif.Pursuit.GreedyModel

set_option autoImplicit false
/-!
# Model of sparse subspace clustering (cluster/ssc/omp.py, cluster/ssc/util.py)

A `(k, n)` array is a function of row and column with its extents given separately. A data set is the family of its columns `X 0, …, X (N-1)`,
vectors of a real inner product space. Least squares (`cr.nimble.solve_on_submatrix`) is the parameter `lstsq` described by `IsLstsq`.
-/
noncomputable section
namespace Verif.Cluster
open Verif.Pursuit

/-! ## Representations (util.py) -/

/-- Column `j` of a `(k, n)` array. -/
def column {α : Type*} (k : ℕ) (X : ℕ → ℕ → α) (j : ℕ) : List α := (List.range k).map fun r => X r j

/-- `sparse_to_full_rep(X, I)` (cluster/ssc/util.py:29-36): column `j` is `zeros(n).at[I[:, j]].set(X[:, j])`. -/
def sparseToFullRep (k : ℕ) (X : ℕ → ℕ → ℝ) (I : ℕ → ℕ → ℕ) : ℕ → ℕ → ℝ := fun i j => buildSignal (column k I j) (column k X j) i

/-- A `BCOO` matrix: its data, and the row and column of each datum. -/
structure Bcoo where
  data : List ℝ
  rows : List ℕ
  cols : List ℕ

/-- `jnp.reshape(X, k*n)`: row-major flattening. -/
def flatten {α : Type*} (k n : ℕ) (X : ℕ → ℕ → α) : List α := (List.range (k * n)).map fun q => X (q / n) (q % n)

/-- `jnp.reshape(v, (k, n))`: row-major. -/
def unflatten {α : Type*} (d : α) (n : ℕ) (v : List α) : ℕ → ℕ → α := fun r c => v.getD (r * n + c) d

/-- `sparse_to_bcoo(X, I)` (cluster/ssc/util.py:38-63). -/
def sparseToBcoo (k n : ℕ) (X : ℕ → ℕ → ℝ) (I : ℕ → ℕ → ℕ) : Bcoo :=
  { data := flatten k n X, rows := flatten k n I, cols := flatten k n fun _ c => c }

/-- `bcoo_to_sparse(C, k)` (cluster/ssc/util.py:65-76): the number of columns is `nse // k`. -/
def bcooToSparse (C : Bcoo) (k : ℕ) : ℕ × (ℕ → ℕ → ℝ) × (ℕ → ℕ → ℕ) :=
  let n := C.data.length / k
  (n, unflatten 0 n C.data, unflatten 0 n C.rows)

/-- Entry `(i, j)` of a `BCOO` matrix: repeated positions add up (`BCOO.todense`). -/
def Bcoo.dense (C : Bcoo) (i j : ℕ) : ℝ :=
  ((List.range C.data.length).map fun q => if C.rows.getD q 0 = i ∧ C.cols.getD q 0 = j then C.data.getD q 0 else 0).sum

/-- `rep_to_affinity(Z)` (cluster/ssc/util.py:82-88). -/
def repToAffinity (Z : ℕ → ℕ → ℝ) : ℕ → ℕ → ℝ := fun i j => |Z i j| + |Z j i|

/-! ## Subspace preservation statistics (util.py) -/

/-- `spr_flag` of one column of a dense representation (cluster/ssc/util.py:211-221). -/
def denseFlag (n : ℕ) (C : ℕ → ℕ → ℝ) (labels : ℕ → ℕ) (i : ℕ) : Prop :=
  ∀ j < n, (if |C j i| ≥ 1 / 1000 then labels j else labels i) = labels i

/-- `a / b` in floating point arithmetic; `none` is the `nan` of `0 / 0` (numerators are at most the denominators here). -/
def fdiv (a b : ℝ) : Option ℝ := if b = 0 then none else some (a / b)

/-- `spr_error` of one column of a dense representation (cluster/ssc/util.py:222-227). -/
def denseError (n : ℕ) (C : ℕ → ℕ → ℝ) (labels : ℕ → ℕ) (i : ℕ) : Option ℝ :=
  (fdiv (∑ j ∈ Finset.range n, if labels j = labels i then |C j i| else 0) (∑ j ∈ Finset.range n, |C j i|)).map fun q => 1 - q

/-- The label given to a stored coefficient (cluster/ssc/util.py:258-260): the cluster of its index, or for a small coefficient the cluster of the point `i` itself. -/
def storedLabel (Z : ℕ → ℕ → ℝ) (I : ℕ → ℕ → ℕ) (labels : ℕ → ℕ) (i r : ℕ) : ℕ := if |Z r i| < 1 / 1000 then labels i else labels (I r i)

/-- `spr_flag` of one column of a sparse representation with `d` coefficients per column (cluster/ssc/util.py:250-262). -/
def sparseFlag (d : ℕ) (Z : ℕ → ℕ → ℝ) (I : ℕ → ℕ → ℕ) (labels : ℕ → ℕ) (i : ℕ) : Prop := ∀ r < d, storedLabel Z I labels i r = labels i

/-- `spr_error` of one column of a sparse representation (cluster/ssc/util.py:263-268). -/
def sparseError (d : ℕ) (Z : ℕ → ℕ → ℝ) (I : ℕ → ℕ → ℕ) (labels : ℕ → ℕ) (i : ℕ) : Option ℝ :=
  (fdiv (∑ r ∈ Finset.range d, if storedLabel Z I labels i r = labels i then |Z r i| else 0) (∑ r ∈ Finset.range d, |Z r i|)).map fun q => 1 - q

/-! ## SSC-OMP (omp.py) -/

variable {E : Type*} [NormedAddCommGroup E] [InnerProductSpace ℝ E]

/-- `normalize_l2_cw(X)` of `cr.nimble` (external): each column divided by its norm. A zero column gives `0/0` in the code and
stays zero here; the theorems assume nonzero columns. -/
def normalizeCw (X : ℕ → E) : ℕ → E := fun j => ‖X j‖⁻¹ • X j

/-- One column of the loop state: chosen indices, coefficients, residual. -/
structure SscState (E : Type*) where
  I : List ℕ
  z : List ℝ
  r : E

/-- One iteration for one column (cluster/ssc/omp.py:39-48, 52-58, 101-110, 114-122): correlations with the `N` columns of the dictionary, the entry `self` set to zero, the index of the largest one appended, and
least squares for `y` over the indices so far. -/
def sscStep (phi : ℕ → E) (N : ℕ) (lstsq : List ℕ → E → List ℝ) (self : ℕ) (y : E) (s : SscState E) : SscState E :=
  let h := zeroAt (corr ℝ phi N s.r) [self]
  let I := s.I ++ [absMaxIdx h]
  let z := lstsq I y
  { I := I, z := z, r := y - lin phi I z }

/-- Column `j` of `build_representation_omp(X, K)` (cluster/ssc/omp.py:24-59), `K ≥ 1`: the residual starts as the normalised column, least squares uses the column itself. -/
def buildRepresentationOmp (X : ℕ → E) (N : ℕ) (lstsq : List ℕ → E → List ℝ) (K j : ℕ) : SscState E :=
  (sscStep (normalizeCw X) N lstsq j (X j))^[K] { I := [], z := [], r := normalizeCw X j }

/-- Column `c` of the batch that starts at `start` (cluster/ssc/omp.py:88-124): the correlation with row `c + start` is set to zero, both the initial residual and the right-hand side are the normalised column. -/
def batchColumn (X : ℕ → E) (N : ℕ) (lstsq : List ℕ → E → List ℝ) (K start c : ℕ) : SscState E :=
  (sscStep (normalizeCw X) N lstsq (c + start) (normalizeCw X (start + c)))^[K] { I := [], z := [], r := normalizeCw X (start + c) }

/-- `n_batches`, `starts`, `ends` (cluster/ssc/omp.py:71-77). -/
def nBatches (N bs : ℕ) : ℕ := (N + bs - 1) / bs
def batchStart (bs b : ℕ) : ℕ := b * bs
def batchEnd (N bs b : ℕ) : ℕ := if b + 1 = nBatches N bs then N else batchStart bs b + bs

/-- Column `j` of `batch_build_representation_omp(X, K, batch_size)` (cluster/ssc/omp.py:64-125): the batches write the column ranges `start:end` one after the other; `none` is a column never written. -/
def batchBuildRepresentationOmp (X : ℕ → E) (N : ℕ) (lstsq : List ℕ → E → List ℝ) (K bs j : ℕ) : Option (SscState E) :=
  (List.range (nBatches N bs)).foldl
    (fun res b => if batchStart bs b ≤ j ∧ j < batchEnd N bs b then some (batchColumn X N lstsq K (batchStart bs b) (j - batchStart bs b)) else res) none

end Verif.Cluster
