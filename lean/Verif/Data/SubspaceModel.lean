import Verif.Dict.SimpleModel
import Mathlib.Analysis.InnerProductSpace.Basic
import Mathlib.Analysis.SpecialFunctions.Trigonometric.Basic

set_option autoImplicit false
/-!
# Model of the synthetic subspaces (data/synthetic/subspaces.py)

The ambient space of dimension `N` is a real inner product space `E`; a basis is the list of its columns. Random draws and factorisations are replaced by their outcomes:
`u` are the left singular vectors of the drawn vectors, `w` those of the completed factorisation (`full_matrices=True`, `N` of them).
-/
noncomputable section
namespace Verif.Data

variable {E : Type*} [NormedAddCommGroup E] [InnerProductSpace ℝ E]

/-- The contract of `U, s, VH = jnp.linalg.svd(X, full_matrices=True)` (external) that is used: the `N` columns of `U` are orthonormal and the columns of `X` are combinations of the first `k` of them, `k` being the number of columns of `X`. -/
structure IsFullSvd (N : ℕ) (X : List E) (w : ℕ → E) : Prop where
  orth : ∀ i < N, ∀ j < N, inner ℝ (w i) (w j) = if i = j then 1 else 0
  span : ∀ x ∈ X, ∃ c : ℕ → ℝ, x = ∑ r ∈ Finset.range X.length, c r • w r

/-- `p = jnp.cos(jnp.deg2rad(theta))` (data/synthetic/subspaces.py:115, 124). -/
def cosDeg (theta : ℝ) : ℝ := Real.cos (theta * (Real.pi / 180))

/-- `b1` (data/synthetic/subspaces.py:126-129). -/
def firstOfB (a1 a2 : E) (p : ℝ) : E := Real.sqrt (1 - p ^ 2) • a2 + p • a1

/-- `Y = U[:, k:]` (data/synthetic/subspaces.py:134, 196). -/
def complementCols (N k : ℕ) (w : ℕ → E) : List E := (List.range (N - k)).map fun i => w (i + k)

/-- `two_subspaces_at_angle(key, N, D, theta)` (data/synthetic/subspaces.py:89-138), `D ≥ 1`. -/
def twoSubspaces (N D : ℕ) (theta : ℝ) (u w : ℕ → E) : List E × List E :=
  let b1 := firstOfB (u 0) (u 1) (cosDeg theta)
  let Y := complementCols N 2 w
  (u 0 :: Y.take (D - 1), b1 :: (Y.take (2 * D - 2)).drop (D - 1))

/-- `c1` of the third subspace (data/synthetic/subspaces.py:188-191); `none` is `nan` (division by zero or the square root of a negative number). -/
def firstOfC (a1 a2 a3 : E) (p : ℝ) : Option E :=
  open Classical in
  if 1 - p ^ 2 = 0 then none else
  let c2 := p * (1 - p) / Real.sqrt (1 - p ^ 2)
  if 1 - p ^ 2 - c2 ^ 2 < 0 then none else
  some (p • a1 + c2 • a2 + Real.sqrt (1 - p ^ 2 - c2 ^ 2) • a3)

/-- `three_subspaces_at_angle(key, N, D, theta)` (data/synthetic/subspaces.py:142-201), `D ≥ 1`; `w` is the outcome of the factorisation of the three first vectors. `none` is a `nan` result. -/
def threeSubspaces (N D : ℕ) (theta : ℝ) (u w : ℕ → E) : Option (List E × List E × List E) :=
  (firstOfC (u 0) (u 1) (u 2) (cosDeg theta)).map fun c1 =>
    let b1 := firstOfB (u 0) (u 1) (cosDeg theta)
    let Y := complementCols N 3 w
    (u 0 :: Y.take (D - 1), b1 :: (Y.take (2 * D - 2)).drop (D - 1), c1 :: (Y.take (3 * D - 3)).drop (2 * D - 2))

/-- `A @ coeffs` for one column of coefficients. -/
def combine : List E → List ℝ → E
  | a :: A, c :: cs => c • a + combine A cs
  | _, _ => 0

/-- A column of `cnb.normalize_l2_cw(coeffs)` (external): divided by its norm. -/
def unitCol (cs : List ℝ) : List ℝ := cs.map fun c => c / Real.sqrt (cs.map fun c => c ^ 2).sum

/-- `uniform_points_on_subspaces(key, bases, n)` (data/synthetic/subspaces.py:52-85): column `q` of the result; `coeffs i j` is the column of coefficients drawn for point `j` of subspace `i`. The loop writes the columns `i*n, …, i*n+n-1` for `i = 0, 1, …`. -/
def uniformPoints (bases : List (List E)) (n : ℕ) (coeffs : ℕ → ℕ → List ℝ) : ℕ → E :=
  (List.range bases.length).foldl (fun X i => fun q => if i * n ≤ q ∧ q < i * n + n then combine (bases.getD i []) (unitCol (coeffs i (q - i * n))) else X q) fun _ => 0

/-- One basis of `random_subspaces(key, N, D, K)` (data/synthetic/subspaces.py:40-46): `Q` of the QR factorisation with the signs `2 * bits - 1` applied to its columns. -/
def randomBasis {n m : ℕ} (Q : Matrix (Fin n) (Fin m) ℝ) (bits : Fin m → Bool) : Matrix (Fin n) (Fin m) ℝ := fun i j => Q i j * (2 * (if bits j then 1 else 0) - 1)

end Verif.Data
