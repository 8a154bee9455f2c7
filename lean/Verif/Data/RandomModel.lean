import Verif.Pursuit.UtilModel
import Mathlib.Data.Real.Sign
import Mathlib.Analysis.InnerProductSpace.Basic

set_option autoImplicit false
/-!
# Model of the synthetic sparse signals (data/synthetic/random.py)

The pseudo random generator is replaced by its outcomes: `perm` is the random permutation of `0..D-1`, the drawn matrices are functions of row and column.
A theorem about all outcomes is a theorem about all keys. `jnp.squeeze` only removes the axis of length one and is left out.
-/
noncomputable section
namespace Verif.Data
open Verif.Pursuit

/-- `omega = jnp.sort(r[:K])` (data/synthetic/random.py:58-61, 93-96, 149-150). -/
def omegaOf (perm : List ℕ) (K : ℕ) : List ℕ := (perm.take K).mergeSort

/-- Entry `(i, s)` of `jnp.zeros([D, S]).at[rows, :].set(values)` for as many rows of `values` as there are indices. -/
def setRows (rows : List ℕ) (values : ℕ → ℕ → ℝ) (i s : ℕ) : ℝ := buildSignal rows ((List.range rows.length).map fun k => values k s) i

/-- `sparse_normal_representations(key, D, K, S)` (data/synthetic/random.py:22-67). -/
def sparseNormalRepresentations (perm : List ℕ) (K : ℕ) (normals : ℕ → ℕ → ℝ) : (ℕ → ℕ → ℝ) × List ℕ :=
  (setRows (omegaOf perm K) normals, omegaOf perm K)

/-- `sparse_biuniform_representations(key, a, b, D, K, S)` (data/synthetic/random.py:69-107). -/
def sparseBiuniformRepresentations (a b : ℝ) (perm : List ℕ) (K : ℕ) (uniforms normals : ℕ → ℕ → ℝ) : (ℕ → ℕ → ℝ) × List ℕ :=
  (setRows (omegaOf perm K) fun k s => Real.sign (normals k s) * (a + (b - a) * uniforms k s), omegaOf perm K)

/-- `sparse_spikes(key, N, K, S)` (data/synthetic/random.py:112-156). -/
def sparseSpikes (perm : List ℕ) (K : ℕ) (normals : ℕ → ℕ → ℝ) : (ℕ → ℕ → ℝ) × List ℕ :=
  (setRows (omegaOf perm K) fun k s => Real.sign (normals k s), omegaOf perm K)

/-- `index_sets(key, N, K, S)` (data/synthetic/random.py:158-165): `perms s` is the permutation drawn for signal `s`. -/
def indexSets (perms : ℕ → List ℕ) (K s : ℕ) : List ℕ := (perms s).take K

/-- `points_orthogonal_to(key, x, S)` (data/synthetic/random.py:168-179): the point made of the draw `g`; `none` is the division by a zero norm. -/
def pointOrthogonalTo {E : Type*} [NormedAddCommGroup E] [InnerProductSpace ℝ E] (x g : E) : Option E :=
  open Classical in
  if ‖x‖ = 0 then none else
  let u := ‖x‖⁻¹ • x
  some (g - inner ℝ g u • u)

/-- The loop over the columns when `cor` is non-zero (data/synthetic/random.py:238-244): row `v`, entry `i`. -/
def arRow (b1 b2 : ℝ) (v : ℕ → ℝ) : ℕ → ℝ
  | 0 => v 0
  | i + 1 => b1 * arRow b1 b2 v i + b2 * v (i + 1)

/-- The values of the blocks before `reshape` (data/synthetic/random.py:234-246): row `q` is one block. -/
def blockValues (B : ℕ) (cor : ℝ) (normalize : Bool) (normals : ℕ → ℕ → ℝ) (q b : ℕ) : ℝ :=
  open Classical in
  let v := fun c => if cor = 0 then normals q c else arRow cor (Real.sqrt (1 - cor ^ 2)) (normals q) c
  if normalize then v b / Real.sqrt (∑ c ∈ Finset.range B, v c ^ 2) else v b

/-- `indices` (data/synthetic/random.py:222-225). -/
def blockIndices (B : ℕ) (blocks : List ℕ) : List ℕ := blocks.flatMap fun k => (List.range B).map fun b => b + B * k

/-- `jnp.reshape(values, (S, nv)).T` (data/synthetic/random.py:247): entry `(r, s)`, `nv = K * B`. -/
def reshapeValues (K B : ℕ) (values : ℕ → ℕ → ℝ) (r s : ℕ) : ℝ := values ((s * (K * B) + r) / B) ((s * (K * B) + r) % B)

/-- `sparse_normal_blocks(key, D, K, B, S, cor, normalize_blocks)` (data/synthetic/random.py:188-253): `choice` are the `K` distinct block numbers drawn. `none` is an error (`B = 0`, `D` not a multiple of `B`, `|cor| > 1`). -/
def sparseNormalBlocks (D K B : ℕ) (cor : ℝ) (normalize : Bool) (choice : List ℕ) (normals : ℕ → ℕ → ℝ) : Option ((ℕ → ℕ → ℝ) × List ℕ × List ℕ) :=
  open Classical in
  if B = 0 ∨ D ≠ D / B * B ∨ 1 < |cor| then none else
  let blocks := choice.mergeSort
  some (setRows (blockIndices B blocks) (reshapeValues K B (blockValues B cor normalize normals)), blocks, blockIndices B blocks)

end Verif.Data
