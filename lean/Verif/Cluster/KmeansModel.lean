import Verif.Loop
import Verif.Pursuit.UtilModel
import Mathlib.Analysis.InnerProductSpace.Basic

set_option autoImplicit false
/-!
# Model of k-means (cluster/kmeans.py)

The `n` points are `pts : ℕ → E` (entries below `n`), the `k` centroids `cent : ℕ → E`, an assignment is a function of the point index.
-/
noncomputable section
namespace Verif.Cluster
open Verif.Loop Verif.Pursuit

variable {E : Type*} [NormedAddCommGroup E] [InnerProductSpace ℝ E]

/-- `jnp.argmin(a)`: the first position of the minimum. -/
def argmin (a : List ℝ) : ℕ := argmax (a.map fun x => -x)

/-- `find_nearest(point, centroids)` (cluster/kmeans.py:56-66). -/
def findNearest (cent : ℕ → E) (k : ℕ) (p : E) : ℕ := argmin ((List.range k).map fun j => ‖cent j - p‖)

/-- `find_assignment(points, centroids)[0]` (cluster/kmeans.py:70-86). -/
def findAssignment (pts : ℕ → E) (cent : ℕ → E) (k : ℕ) : ℕ → ℕ := fun i => findNearest cent k (pts i)

/-- `find_assignment(points, centroids)[1]` (cluster/kmeans.py:84-86): the distance of each point from its centroid. -/
def distances (pts : ℕ → E) (cent : ℕ → E) (a : ℕ → ℕ) : ℕ → ℝ := fun i => ‖cent (a i) - pts i‖

/-- `assignment_counts(assignment, k)` (cluster/kmeans.py:90-97), clipped below at one. -/
def assignmentCounts (a : ℕ → ℕ) (n : ℕ) (j : ℕ) : ℕ := max 1 ((Finset.range n).filter fun i => a i = j).card

/-- `find_new_centroids(assignment, points, k)` (cluster/kmeans.py:99-118). -/
def findNewCentroids (a : ℕ → ℕ) (pts : ℕ → E) (n : ℕ) (j : ℕ) : E :=
  (1 / (assignmentCounts a n j : ℝ)) • ∑ i ∈ Finset.range n, if a i = j then pts i else 0

/-- `KMeansState` (cluster/kmeans.py:27-39); `prev = none` is `jnp.inf`. -/
structure KState (E : Type*) where
  cent : ℕ → E
  asg : ℕ → ℕ
  dist : ℝ
  prev : Option ℝ
  iters : ℕ

/-- `jnp.mean(distances)`. -/
def meanDist (pts : ℕ → E) (n : ℕ) (cent : ℕ → E) (a : ℕ → ℕ) : ℝ := (∑ i ∈ Finset.range n, distances pts cent a i) / n

/-- `init` (cluster/kmeans.py:141-151); `indices` is the random permutation of the points, of which the first `k` are the initial centroids. For `k` larger than `n` the code has `n` centroids here and `k` after the first iteration, which `while_loop` rejects; the model is about `k ≤ n`. -/
def kInit (pts : ℕ → E) (n k : ℕ) (indices : ℕ → ℕ) : KState E :=
  let cent := fun j => pts (indices j)
  let asg := findAssignment pts cent k
  { cent := cent, asg := asg, dist := meanDist pts n cent asg, prev := none, iters := 0 }

/-- `body` (cluster/kmeans.py:153-163). -/
def kBody (pts : ℕ → E) (n k : ℕ) (s : KState E) : KState E :=
  let cent := findNewCentroids s.asg pts n
  let asg := findAssignment pts cent k
  { cent := cent, asg := asg, dist := meanDist pts n cent asg, prev := some s.dist, iters := s.iters + 1 }

/-- `cond` (cluster/kmeans.py:165-169). -/
def kCond (thresh : ℝ) (maxIters : ℕ) (s : KState E) : Prop :=
  (match s.prev with
    | none => True
    | some p => p - s.dist > thresh) ∧ s.iters < maxIters

/-- `kmeans_with_seed` returns `s` (cluster/kmeans.py:122-175). -/
def KmeansWithSeed (pts : ℕ → E) (n k : ℕ) (indices : ℕ → ℕ) (thresh : ℝ) (maxIters : ℕ) (s : KState E) : Prop :=
  Out (kCond thresh maxIters) (kBody pts n k) (kInit pts n k indices) s

/-- `kmeans` (cluster/kmeans.py:179-226): `results` are the returned states of the restarts; the one with the least distortion is selected. -/
def kmeansSelect (results : List (KState E)) : Option (KState E) := results[argmin (results.map fun s => s.dist)]?

end Verif.Cluster
