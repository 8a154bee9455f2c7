import Mathlib.Algebra.BigOperators.Group.Finset.Basic
import Mathlib.Data.Finset.Card
import Mathlib.Algebra.BigOperators.Fin
import Mathlib.Data.Fintype.Perm
import Mathlib.Data.Rat.Defs
import Mathlib.Data.List.Sort
import Mathlib.Data.List.Dedup

set_option autoImplicit false
/-!
# Model of the label utilities (cluster/util.py)
-/
namespace Verif.Cluster

/-- `sizes_from_labels(labels, k)` (cluster/util.py:30-36). -/
def sizesFromLabels (labels : List ℕ) (k : ℕ) : List ℕ := (List.range k).map fun c => labels.countP fun l => l == c

/-- `labels_from_sizes(sizes)` (cluster/util.py:51-59), from label `c` on. -/
def labelsFrom (c : ℕ) : List ℕ → List ℕ
  | [] => []
  | s :: ss => List.replicate s c ++ labelsFrom (c + 1) ss

/-- `labels_from_sizes(sizes)` (cluster/util.py:51-59); concatenating an empty list of arrays is an error. -/
def labelsFromSizes (sizes : List ℕ) : Option (List ℕ) := if sizes = [] then none else some (labelsFrom 0 sizes)

/-- `jnp.cumsum`, starting from `acc`. -/
def cumsum (acc : ℕ) : List ℕ → List ℕ
  | [] => []
  | s :: ss => (acc + s) :: cumsum (acc + s) ss

/-- `cnb.vec_shift_right` (external): prepend 0, drop the last entry. -/
def shiftRight (l : List ℕ) : List ℕ := (0 :: l).take l.length

/-- `start_end_indices(cluster_sizes)` (cluster/util.py:40-48). -/
def startEndIndices (sizes : List ℕ) : List ℕ × List ℕ :=
  let start := shiftRight (cumsum 0 sizes)
  (start, List.zipWith (· + ·) start sizes)

/-! ## Relabelling. The `n` points carry labels `t i` (true) and `p i` (predicted). -/

/-- `G.at[true_labels, pred_labels].add(1)` (cluster/util.py:103-104): the confusion matrix. -/
def confusion {n k : ℕ} (t p : Fin n → Fin k) (a b : Fin k) : ℕ := (Finset.univ.filter fun i => t i = a ∧ p i = b).card

/-- The documented semantics of `rows, cols = scipy.optimize.linear_sum_assignment(-G)` (external): `cols` is a permutation maximising `∑ G[i, cols[i]]`. -/
def IsAssignment {k : ℕ} (G : Fin k → Fin k → ℕ) (cols : Equiv.Perm (Fin k)) : Prop :=
  ∀ σ : Equiv.Perm (Fin k), ∑ i, G i (σ i) ≤ ∑ i, G i (cols i)

/-- The loop of `best_map_k` (cluster/util.py:107-111): every predicted label `cols[i]` is replaced by `i`. Labels start as 0 and are overwritten in the order of `i`; `l` lists the `i` still to come. -/
def remap {k : ℕ} (cols : Fin k → Fin k) (q : Fin k) : List (Fin k) → Fin k → Fin k
  | [], cur => cur
  | i :: l, cur => remap cols q l (if q = cols i then i else cur)

/-- `best_map_k(true_labels, pred_labels, k)` (cluster/util.py:95-112): the mapped labels. `k ≥ 1`. -/
def bestMapK {n k : ℕ} [NeZero k] (cols : Fin k → Fin k) (p : Fin n → Fin k) (i : Fin n) : Fin k := remap cols (p i) (List.finRange k) 0

/-- `clustering_error_k(true_labels, pred_labels, k)` (cluster/util.py:155-165): `num_missed`. -/
def numMissedK {n k : ℕ} [NeZero k] (cols : Fin k → Fin k) (t p : Fin n → Fin k) : ℕ := (Finset.univ.filter fun i => t i ≠ bestMapK cols p i).card

/-- `clustering_error_k(true_labels, pred_labels, k)` (cluster/util.py:155-165): `error`. -/
def errorK {n k : ℕ} [NeZero k] (cols : Fin k → Fin k) (t p : Fin n → Fin k) : ℚ := (numMissedK cols t p : ℚ) / n

/-! ## `best_map` -/

/-- `jnp.unique(labels)` (cluster/util.py:68-69): the distinct labels in ascending order. -/
def uniqueLabels (labels : List ℕ) : List ℕ := labels.dedup.mergeSort

/-- Indexing a JAX array out of range clamps to the last entry. -/
def clampGet (l : List ℕ) (i : ℕ) : ℕ := l.getD (min i (l.length - 1)) 0

/-- The cost matrix of `best_map` (cluster/util.py:77-84). -/
def bestMapG (t p : List ℕ) (i j : ℕ) : ℕ :=
  if i < (uniqueLabels t).length ∧ j < (uniqueLabels p).length then
    (t.zip p).countP fun ab => ab.1 == (uniqueLabels t).getD i 0 && ab.2 == (uniqueLabels p).getD j 0
  else 0

/-- The loop of `best_map` (cluster/util.py:87-91) for one point with predicted label `q`. -/
def bestMapOne (u1 u2 : List ℕ) (cols : ℕ → ℕ) (q : ℕ) : List ℕ → ℕ → ℕ
  | [], cur => cur
  | i :: l, cur => bestMapOne u1 u2 cols q l (if q = clampGet u2 (cols i) then clampGet u1 i else cur)

/-- `best_map(true_labels, pred_labels)` (cluster/util.py:62-92): the mapped labels, for the assignment `cols` returned by `linear_sum_assignment`. -/
def bestMap (t p : List ℕ) (cols : ℕ → ℕ) : List ℕ :=
  p.map fun q => bestMapOne (uniqueLabels t) (uniqueLabels p) cols q (List.range (uniqueLabels p).length) 0

/-- `linear_sum_assignment(-G)` for a square matrix of order `m`, as a permutation of `0..m-1`. -/
def IsAssignmentN (m : ℕ) (G : ℕ → ℕ → ℕ) (cols : ℕ → ℕ) : Prop :=
  Set.BijOn cols (Set.Iio m) (Set.Iio m) ∧ ∀ σ : ℕ → ℕ, Set.BijOn σ (Set.Iio m) (Set.Iio m) → ∑ i ∈ Finset.range m, G i (σ i) ≤ ∑ i ∈ Finset.range m, G i (cols i)

end Verif.Cluster
