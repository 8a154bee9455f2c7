import Verif.Cluster.SpectralClusterModel

set_option autoImplicit false
/-!
# Model of the fast normalised symmetric spectral clustering (cluster/spectral.py)
-/
noncomputable section
namespace Verif.Cluster
open Verif.Loop Verif.Pursuit Matrix

/-- The singular values and right singular vectors returned by `lansvd_simple_jit(W, r, p0)` (cluster/spectral.py:223, 267). -/
structure LanSvdOut (n r : ℕ) where
  S : Fin r → ℝ
  V : Matrix (Fin n) (Fin r) ℝ

/-- Row `i` of `V[:, :k]` (cluster/spectral.py:225, 269). `V` has `5 k` columns. -/
def leadingRow {n k : ℕ} (V : Matrix (Fin n) (Fin (5 * k)) ℝ) (i : ℕ) : EuclideanSpace ℝ (Fin k) :=
  WithLp.toLp 2 fun t => if h : i < n then V ⟨i, h⟩ ⟨t.1, by omega⟩ else 0

/-- `normalize_l2_rw(kernel)` of `cr.nimble` (external): each row divided by its norm. A zero row gives `0/0` in the code and stays zero here. -/
def normalizeRw {E : Type*} [NormedAddCommGroup E] [InnerProductSpace ℝ E] (X : ℕ → E) : ℕ → E := fun i => ‖X i‖⁻¹ • X i

/-- `SpectralclusteringSolution` as built by the fast functions (cluster/spectral.py:229-235, 273-279). `connectivity` is the constant `-1`. -/
structure FastSolution (n k : ℕ) where
  laplacian : Matrix (Fin n) (Fin n) ℝ
  singularValues : Fin (5 * k) → ℝ
  assignment : Fin n → ℕ
  numClusters : ℕ
  connectivity : ℤ

/-- `normalized_symmetric_fast_k(key, W, k)` (cluster/spectral.py:211-235) returns `sol`. `lansvd` stands for `lansvd_simple_jit(W, 5*k, p0)`; `seeds` are the random permutations of the restarts of k-means; `thresh` and `max_iters` have their defaults. -/
def NormalizedSymmetricFastK {n : ℕ} (k : ℕ) (lansvd : Matrix (Fin n) (Fin n) ℝ → LanSvdOut n (5 * k)) (W : Matrix (Fin n) (Fin n) ℝ) (seeds : List (ℕ → ℕ)) (sol : FastSolution n k) : Prop :=
  let N := normalizedSymmetricW W
  ∃ s, Kmeans (normalizeRw (leadingRow (lansvd N).V)) n k seeds 1e-5 100 s ∧
    sol = { laplacian := N, singularValues := (lansvd N).S, assignment := fun i => s.asg i, numClusters := k, connectivity := -1 }

/-- `normalized_symmetric_sparse_fast_k(key, W, k)` (cluster/spectral.py:256-279) returns `sol`. `lansvd` only reads the matrix through products, so it is given the dense form. -/
def NormalizedSymmetricSparseFastK {n : ℕ} (k : ℕ) (lansvd : Matrix (Fin n) (Fin n) ℝ → LanSvdOut n (5 * k)) (W : Coo n) (seeds : List (ℕ → ℕ)) (sol : FastSolution n k) : Prop :=
  let N := (normalizedSymmetricSparseW W).dense
  ∃ s, Kmeans (normalizeRw (leadingRow (lansvd N).V)) n k seeds 1e-5 100 s ∧
    sol = { laplacian := N, singularValues := (lansvd N).S, assignment := fun i => s.asg i, numClusters := k, connectivity := -1 }

end Verif.Cluster
