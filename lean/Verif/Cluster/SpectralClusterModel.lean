import Verif.Cluster.SpectralModel
import Verif.Cluster.KmeansModel
import Mathlib.Analysis.InnerProductSpace.PiL2

set_option autoImplicit false
/-!
# Model of spectral clustering (cluster/spectral.py)
-/
noncomputable section
namespace Verif.Cluster
open Verif.Loop Verif.Pursuit Matrix

/-- What `jnp.linalg.svd(L)` returns for a square matrix. -/
structure SquareSvd (n : ℕ) where
  U : Matrix (Fin n) (Fin n) ℝ
  S : Fin n → ℝ
  VH : Matrix (Fin n) (Fin n) ℝ

/-- `SpectralclusteringSolution` (cluster/spectral.py:31-43); `connectivity = none` when there is no entry `S[-2]`. -/
structure SpecSolution (n : ℕ) where
  laplacian : Matrix (Fin n) (Fin n) ℝ
  singularValues : Fin n → ℝ
  assignment : Fin n → ℕ
  numClusters : ℕ
  connectivity : Option ℝ

/-- Row `i` of `kernel = VH.T[:, n-k:]` (cluster/spectral.py:83, 112, 159, 189), for `k ≤ n`; indices beyond `n` are never read. -/
def kernelRow {n : ℕ} (VH : Matrix (Fin n) (Fin n) ℝ) (k : ℕ) (hk : k ≤ n) (i : ℕ) : EuclideanSpace ℝ (Fin k) :=
  WithLp.toLp 2 fun t => if h : i < n then VH ⟨n - k + t.1, by omega⟩ ⟨i, h⟩ else 0

/-- `S[-2]` (cluster/spectral.py:90, 118, 166, 195). -/
def secondLast {n : ℕ} (S : Fin n → ℝ) : Option ℝ := if h : 2 ≤ n then some (S ⟨n - 2, by omega⟩) else none

/-- `kmeans(key, points, k, iter, thresh, max_iters)` returns `s` (cluster/kmeans.py:179-226): one run per seed, the best one is selected. `seeds` are the random permutations drawn for the restarts. -/
def Kmeans {E : Type*} [NormedAddCommGroup E] [InnerProductSpace ℝ E] (pts : ℕ → E) (n k : ℕ) (seeds : List (ℕ → ℕ)) (thresh : ℝ) (maxIters : ℕ) (s : KState E) : Prop :=
  ∃ results, List.Forall₂ (fun ind r => KmeansWithSeed pts n k ind thresh maxIters r) seeds results ∧ kmeansSelect results = some s

/-- `unnormalized_k(key, W, k)` (cluster/spectral.py:92-118) and `normalized_random_walk_k(key, W, k)` (169-195) return `sol`, for the Laplacian function `lap` and the SVD routine `svd`; `kmeans` runs with `iter=100` seeds, `thresh=1e-5`, `max_iters=100`. -/
def SpectralK {n : ℕ} (lap : Matrix (Fin n) (Fin n) ℝ → Matrix (Fin n) (Fin n) ℝ) (svd : Matrix (Fin n) (Fin n) ℝ → SquareSvd n) (W : Matrix (Fin n) (Fin n) ℝ) (k : ℕ) (hk : k ≤ n)
    (seeds : List (ℕ → ℕ)) (sol : SpecSolution n) : Prop :=
  ∃ s, Kmeans (kernelRow (svd (lap W)).VH k hk) n k seeds 1e-5 100 s ∧
    sol = { laplacian := lap W, singularValues := (svd (lap W)).S, assignment := fun i => s.asg i, numClusters := k, connectivity := secondLast (svd (lap W)).S }

/-- `unnormalized_k` (cluster/spectral.py:92-118). -/
def UnnormalizedK {n : ℕ} := SpectralK (n := n) unnormalizedLaplacian

/-- `normalized_random_walk_k` (cluster/spectral.py:169-195). -/
def RandomWalkK {n : ℕ} := SpectralK (n := n) randomWalkLaplacian

/-- `jnp.diff(S[:-1])` (cluster/spectral.py:75, 153). -/
def sdiff {n : ℕ} (S : Fin n → ℝ) : List ℝ := List.ofFn fun i : Fin (n - 2) => S ⟨i.1 + 1, by omega⟩ - S ⟨i.1, by omega⟩

/-- The number of clusters found by `unnormalized` and `normalized_random_walk` (cluster/spectral.py:75-80, 153-156). `none` when there are fewer than three nodes (`argmin` of an empty array). -/
def autoK {n : ℕ} (S : Fin n → ℝ) : Option ℕ := if 3 ≤ n then some (n - argmin (sdiff S) - 1) else none

/-- `unnormalized(key, W)` (cluster/spectral.py:54-90) and `normalized_random_walk(key, W)` (133-166) return `sol`: the number of clusters is found, then the computation is that of `SpectralK`. -/
def SpectralAuto {n : ℕ} (lap : Matrix (Fin n) (Fin n) ℝ → Matrix (Fin n) (Fin n) ℝ) (svd : Matrix (Fin n) (Fin n) ℝ → SquareSvd n) (W : Matrix (Fin n) (Fin n) ℝ)
    (seeds : List (ℕ → ℕ)) (sol : SpecSolution n) : Prop :=
  ∃ k, ∃ hk : k ≤ n, autoK (svd (lap W)).S = some k ∧ SpectralK lap svd W k hk seeds sol

end Verif.Cluster
