import Mathlib.Data.Matrix.Basic
import Mathlib.Data.Matrix.Mul
import Mathlib.Analysis.SpecialFunctions.Pow.Real

set_option autoImplicit false
/-!
# Model of the graph Laplacians (cluster/spectral.py)
-/
noncomputable section
namespace Verif.Cluster
open Matrix

/-- `jnp.sum(W, 0)`: the sums over the rows index, one per column. -/
def degrees {n : ℕ} (W : Matrix (Fin n) (Fin n) ℝ) (j : Fin n) : ℝ := ∑ i, W i j

/-- `unnormalized_laplacian(W)` (cluster/spectral.py:46-51). -/
def unnormalizedLaplacian {n : ℕ} (W : Matrix (Fin n) (Fin n) ℝ) : Matrix (Fin n) (Fin n) ℝ := diagonal (degrees W) - W

/-- `normalized_random_walk_laplacian(W)` (cluster/spectral.py:122-129): `I - D⁻¹ W`. A zero degree gives `inf` in the code; the theorems assume positive degrees. -/
def randomWalkLaplacian {n : ℕ} (W : Matrix (Fin n) (Fin n) ℝ) : Matrix (Fin n) (Fin n) ℝ :=
  fun i j => -((degrees W i)⁻¹ * W i j) + (if i = j then 1 else 0)

/-- `normalized_symmetric_w(W)` (cluster/spectral.py:200-208): `D^(-1/2) W D^(-1/2)`. -/
def normalizedSymmetricW {n : ℕ} (W : Matrix (Fin n) (Fin n) ℝ) : Matrix (Fin n) (Fin n) ℝ :=
  fun i j => (degrees W i) ^ (-(1 / 2) : ℝ) * W i j * (degrees W j) ^ (-(1 / 2) : ℝ)

/-- A `BCOO` matrix: a list of (row, column, value); repeated positions are summed. -/
abbrev Coo (n : ℕ) := List (Fin n × Fin n × ℝ)

/-- `W.todense()` of a `BCOO` matrix. -/
def Coo.dense {n : ℕ} (W : Coo n) : Matrix (Fin n) (Fin n) ℝ := fun i j => (W.map fun e => if e.1 = i ∧ e.2.1 = j then e.2.2 else 0).sum

/-- `W.sum(0).todense()` (cluster/spectral.py:245). -/
def Coo.colSums {n : ℕ} (W : Coo n) (j : Fin n) : ℝ := (W.map fun e => if e.2.1 = j then e.2.2 else 0).sum

/-- `normalized_symmetric_sparse_w(W)` (cluster/spectral.py:241-253). -/
def normalizedSymmetricSparseW {n : ℕ} (W : Coo n) : Coo n := W.map fun e => (e.1, e.2.1, e.2.2 * W.colSums e.1 ^ (-(1 / 2) : ℝ) * W.colSums e.2.1 ^ (-(1 / 2) : ℝ))

end Verif.Cluster
