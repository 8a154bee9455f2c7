import Verif.Cluster.SscModel
import Verif.Cluster.LabelsModel
import Mathlib.Analysis.SpecialFunctions.Trigonometric.Inverse

set_option autoImplicit false
/-!
# Model of the angle and neighbour functions of `cluster/ssc/util.py`

Arrays of angles are functions of the row and the column; `N` is the number of points.  Clusters are consecutive ranges
of points, given by their sizes (all positive: a zero-size `min` is an error).
-/
noncomputable section
namespace Verif.Cluster
open Verif.Pursuit
open scoped RealInnerProductSpace

variable {E : Type*} [NormedAddCommGroup E] [InnerProductSpace ℝ E]

/-- `angles_between_points(X)` (cluster/ssc/util.py:90-99), entry `(i, j)`; `rad2deg(t) = t * 180 / π`. -/
def anglesBetweenPoints (X : ℕ → E) (i j : ℕ) : ℝ :=
  Real.arccos (min ⟪normalizeCw X i, normalizeCw X j⟫ 1) * (180 / Real.pi)

/-- `cnb.set_diagonal(A, v)` (external). -/
def setDiagonal (A : ℕ → ℕ → ℝ) (v : ℝ) : ℕ → ℕ → ℝ := fun i j => if i = j then v else A i j

/-- `jnp.min` of a non-empty 1-D array (the model gives 0 for an empty one, which is an error in the code). -/
def listMin : List ℝ → ℝ
  | [] => 0
  | x :: xs => xs.foldl min x

/-- `jnp.argmin`: the first position of the minimum. -/
def argminL (l : List ℝ) : ℕ := argmax (l.map fun x => -x)

/-- `jnp.concatenate([f(k) for k in range(K)])` where `f` is given the start and end index of cluster `k`
(cluster/ssc/util.py:107-116, 121-134, 141-150, 155-168). -/
def perCluster {α : Type*} (sizes : List ℕ) (f : ℕ → ℕ → List α) : List α :=
  ((List.range sizes.length).map fun k => f ((startEndIndices sizes).1.getD k 0) ((startEndIndices sizes).2.getD k 0)).flatten

/-- `min_angles_inside_cluster(angles, cluster_sizes)` (cluster/ssc/util.py:102-116): column minima of the diagonal blocks. -/
def minAnglesInside (angles : ℕ → ℕ → ℝ) (sizes : List ℕ) : List ℝ :=
  let A := setDiagonal angles 10000
  perCluster sizes fun s e => (List.range (e - s)).map fun c => listMin ((List.range (e - s)).map fun r => A (s + r) (s + c))

/-- The rows of `angles[start:end, :].at[:, start:end].set(10000)` (cluster/ssc/util.py:126-129, 160-163). -/
def outsideRow (angles : ℕ → ℕ → ℝ) (N s e r : ℕ) : List ℝ := (List.range N).map fun q => if s ≤ q ∧ q < e then 10000 else angles (s + r) q

/-- `min_angles_outside_cluster(angles, cluster_sizes)` (cluster/ssc/util.py:118-134). -/
def minAnglesOutside (angles : ℕ → ℕ → ℝ) (N : ℕ) (sizes : List ℕ) : List ℝ :=
  perCluster sizes fun s e => (List.range (e - s)).map fun r => listMin (outsideRow angles N s e r)

/-- `nearest_neighbors_inside_cluster(angles, cluster_sizes)` (cluster/ssc/util.py:136-150). -/
def nearestInside (angles : ℕ → ℕ → ℝ) (sizes : List ℕ) : List ℕ :=
  let A := setDiagonal angles 10000
  perCluster sizes fun s e => (List.range (e - s)).map fun c => argminL ((List.range (e - s)).map fun r => A (s + r) (s + c)) + s

/-- `nearest_neighbors_outside_cluster(angles, cluster_sizes)` (cluster/ssc/util.py:152-168). -/
def nearestOutside (angles : ℕ → ℕ → ℝ) (N : ℕ) (sizes : List ℕ) : List ℕ :=
  perCluster sizes fun s e => (List.range (e - s)).map fun r => argminL (outsideRow angles N s e r)

/-- `sorted_neighbors(angles)` (cluster/ssc/util.py:171-178), row `s`: `jnp.argsort` of the row, without its first entry. -/
def sortedNeighbors (angles : ℕ → ℕ → ℝ) (N s : ℕ) : List ℕ := (argsort ((List.range N).map fun q => angles s q)).drop 1

/-- `inn_positions(labels, sorted_neighbor_labels)` (cluster/ssc/util.py:181-186), entry `s`: `argmax` of an array of booleans. -/
def innPosition (labels : ℕ → ℕ) (sortedNeighborLabels : List ℕ) (s : ℕ) : ℕ :=
  argmax (sortedNeighborLabels.map fun l => if l = labels s then 1 else 0)

end Verif.Cluster
