import Mathlib.Analysis.RCLike.Basic
import Mathlib.Data.List.Sort

set_option autoImplicit false
/-!
# Model of the index selection helpers of the pursuit algorithms (pursuit/util.py)

Arrays are lists, indices are natural numbers. `x[I]` for an index array `I` is `I.map (x.getD · 0)`; every index used is in range
(proved where it matters).
-/
noncomputable section
namespace Verif.Pursuit

/-- `jnp.argsort(a)`: the stable ascending sort of the positions. -/
def argsort (a : List ℝ) : List ℕ :=
  (List.range a.length).mergeSort fun i j => decide (a.getD i 0 ≤ a.getD j 0)

/-- `largest_indices(h, K)` (pursuit/util.py:25-27): `argsort(|h|)[:-K-1:-1]`, the last `K` positions, largest first. The same function of
`cr.nimble.dsp` is used by `sp.py`. -/
def largestIndices {𝕜 : Type*} [RCLike 𝕜] (h : List 𝕜) (K : ℕ) : List ℕ := (argsort (h.map fun x => ‖x‖)).reverse.take K

/-- The scan behind `jnp.argmax`: `b`, `v` are the best position and value so far, `k` the current position. -/
def argmaxFrom (b : ℕ) (v : ℝ) (k : ℕ) : List ℝ → ℕ
  | [] => b
  | x :: xs => if v < x then argmaxFrom k x (k + 1) xs else argmaxFrom b v (k + 1) xs

/-- `jnp.argmax(a)`: the first position of the maximum (an empty array is an error in the code; the model gives 0). -/
def argmax : List ℝ → ℕ
  | [] => 0
  | x :: xs => argmaxFrom 0 x 1 xs

/-- `abs_max_idx(h)` (pursuit/util.py:20-23). -/
def absMaxIdx {𝕜 : Type*} [RCLike 𝕜] (h : List 𝕜) : ℕ := argmax (h.map fun x => ‖x‖)

/-- `x[I]` for an array of indices. -/
def gather {α : Type*} (d : α) (x : List α) (I : List ℕ) : List α := I.map fun i => x.getD i d

/-- `hard_threshold(x, K)` of `cr.nimble.dsp` (external; its documented semantics): the `K` largest positions and the values there. -/
def hardThresholdK {𝕜 : Type*} [RCLike 𝕜] (x : List 𝕜) (K : ℕ) : List ℕ × List 𝕜 :=
  let I := largestIndices x K
  (I, gather 0 x I)

/-- `hard_threshold_sorted(x, K)` of `cr.nimble.dsp` (external; its documented semantics): the same with positions in ascending order. -/
def hardThresholdSorted {𝕜 : Type*} [RCLike 𝕜] (x : List 𝕜) (K : ℕ) : List ℕ × List 𝕜 :=
  let I := (largestIndices x K).mergeSort
  (I, gather 0 x I)

/-- `build_signal_from_indices_and_values(n, I, x_I)` of `cr.nimble.dsp` (external; `zeros(n).at[I].set(x_I)`): entry `i`. For a repeated index the
last value written is kept. -/
def buildSignal {𝕜 : Type*} [Zero 𝕜] : List ℕ → List 𝕜 → ℕ → 𝕜
  | i :: I, v :: x => fun j => if i = j ∧ j ∉ I.take x.length then v else buildSignal I x j
  | _, _ => fun _ => 0

end Verif.Pursuit
