import Verif.Pursuit.UtilModel
import Mathlib.Analysis.InnerProductSpace.Basic

set_option autoImplicit false
/-!
# Model of dictionary properties (dict/props.py, dict/comparison.py, dict/grass.py)

A dictionary with `n` atoms is a family `a 0, …, a (n-1)` of vectors of a real or complex inner product space.
-/
noncomputable section
namespace Verif.Dict
open Verif.Pursuit

variable {𝕜 : Type*} [RCLike 𝕜] {E : Type*} [NormedAddCommGroup E] [InnerProductSpace 𝕜 E]

/-- `gram(A)` (dict/props.py:20-26): the inner products; for complex dictionaries only their real part is kept. -/
def gram (𝕜 : Type*) [RCLike 𝕜] {E : Type*} [NormedAddCommGroup E] [InnerProductSpace 𝕜 E] (a : ℕ → E) (i j : ℕ) : ℝ := RCLike.re (inner 𝕜 (a i) (a j))

/-- Row-major `ravel` of an `(n, p)` array. -/
def ravel (n p : ℕ) (G : ℕ → ℕ → ℝ) : List ℝ := (List.range (n * p)).map fun q => G (q / p) (q % p)

/-- `jnp.unravel_index(jnp.argmax(G, axis=None), G.shape)` for an `(n, p)` array. -/
def argmax2 (n p : ℕ) (G : ℕ → ℕ → ℝ) : ℕ × ℕ := (argmax (ravel n p G) / p, argmax (ravel n p G) % p)

/-- `coherence_with_index(A)` (dict/props.py:37-47). -/
def coherenceWithIndex (𝕜 : Type*) [RCLike 𝕜] {E : Type*} [NormedAddCommGroup E] [InnerProductSpace 𝕜 E] (a : ℕ → E) (n : ℕ) : ℝ × (ℕ × ℕ) :=
  let G := fun i j => if i = j then 0 else |gram 𝕜 a i j|
  let index := argmax2 n n G
  (G index.1 index.2, index)

/-- `coherence(A)` (dict/props.py:49-54). -/
def coherence (𝕜 : Type*) [RCLike 𝕜] {E : Type*} [NormedAddCommGroup E] [InnerProductSpace 𝕜 E] (a : ℕ → E) (n : ℕ) : ℝ := (coherenceWithIndex 𝕜 a n).1

/-- `mutual_coherence_with_index(A, B)` (dict/props.py:95-106): no real part is taken here. -/
def mutualCoherenceWithIndex (𝕜 : Type*) [RCLike 𝕜] {E : Type*} [NormedAddCommGroup E] [InnerProductSpace 𝕜 E] (a b : ℕ → E) (n p : ℕ) : ℝ × (ℕ × ℕ) :=
  let G := fun i j => ‖inner 𝕜 (a i) (b j)‖
  let index := argmax2 n p G
  (G index.1 index.2, index)

/-- Row `i` of the sorted, reversed and shortened Gram matrix in `babel` (dict/props.py:81-87): `sort(|G|)[i, -2::-1]`. -/
def babelRow (𝕜 : Type*) [RCLike 𝕜] {E : Type*} [NormedAddCommGroup E] [InnerProductSpace 𝕜 E] (a : ℕ → E) (n i : ℕ) : List ℝ :=
  ((((List.range n).map fun j => |gram 𝕜 a i j|).mergeSort).take (n - 1)).reverse

/-- Entry `k` of `babel(A)` (dict/props.py:76-92): the largest over the rows of the sum of the first `k + 1` entries. -/
def babel (𝕜 : Type*) [RCLike 𝕜] {E : Type*} [NormedAddCommGroup E] [InnerProductSpace 𝕜 E] (a : ℕ → E) (n k : ℕ) : ℝ :=
  let sums := (List.range n).map fun i => ((babelRow 𝕜 a n i).take (k + 1)).sum
  sums.getD (argmax sums) 0

open Classical in
/-- `minimum_coherence(m, n)` (dict/grass.py:28-33); `none` is the error of a division by zero or of the square root of a negative number. -/
def minimumCoherence (m n : ℕ) : Option ℝ :=
  let numer : ℝ := (n : ℝ) - m
  let denom : ℝ := m * ((n : ℝ) - 1)
  if denom = 0 ∨ numer / denom < 0 then none else some (Real.sqrt (numer / denom))

/-- `matching_atoms_ratio(A, B, distance_threshold)` (dict/comparison.py:18-35), real dictionaries with `n` and `p` atoms. -/
def matchingAtomsRatio {E : Type*} [NormedAddCommGroup E] [InnerProductSpace ℝ E] (a b : ℕ → E) (n p : ℕ) (thr : ℝ) : ℝ :=
  let maxSim := fun i => let row := (List.range p).map fun j => |inner ℝ (a i) (b j)|; row.getD (argmax row) 0
  (((List.range n).countP fun i => decide (1 - maxSim i < thr) : ℕ) : ℝ) / n

end Verif.Dict
