import Mathlib.LinearAlgebra.Matrix.PosDef
import Mathlib.LinearAlgebra.Matrix.Rank
import Mathlib.Analysis.SpecialFunctions.Pow.Real
import Mathlib.Algebra.Order.Round
import Mathlib.Data.List.Sort

set_option autoImplicit false
/-!
# Model of the construction of Grassmannian frames (dict/grass.py)

Real matrices of shape `(m, n)` with `m ≤ n`. A value that is not finite is `none`.
-/
noncomputable section
namespace Verif.Dict
open Matrix

variable {m n : ℕ}

/-- The result `U, s, VT` of `jnp.linalg.svd(g)` for a square matrix. -/
structure GSvd (n : ℕ) where
  U : Matrix (Fin n) (Fin n) ℝ
  s : Fin n → ℝ
  VT : Matrix (Fin n) (Fin n) ℝ

/-- The documented semantics of `jnp.linalg.svd` (external): orthogonal factors, non-negative singular values in descending order. -/
structure IsGSvd (g : Matrix (Fin n) (Fin n) ℝ) (d : GSvd n) : Prop where
  left : d.Uᵀ * d.U = 1
  right : d.VT * d.VTᵀ = 1
  factor : g = d.U * diagonal d.s * d.VT
  nonneg : ∀ i, 0 ≤ d.s i
  anti : Antitone d.s

open Classical in
/-- Python's `round(x)`: to the nearest integer, ties to the even one. -/
def pyRound (x : ℝ) : ℤ := if Int.fract x = 1 / 2 then (if Even ⌊x⌋ then ⌊x⌋ else ⌊x⌋ + 1) else round x

/-- `a[k]` for a one-dimensional array: negative indices count from the end; jax clamps indices that are out of range. -/
def pyIndex (l : List ℝ) (k : ℤ) : ℝ :=
  let k := if k < 0 then k + l.length else k
  l.getD (min k.toNat (l.length - 1)) 0

/-- `jnp.sort(jnp.abs(g.ravel()))` (dict/grass.py:66-70). -/
def sortedAbs (g : Matrix (Fin n) (Fin n) ℝ) : List ℝ :=
  ((List.finRange n).flatMap fun i => (List.finRange n).map fun j => |g i j|).mergeSort

/-- `upper_ind` (dict/grass.py:55-56). -/
def upperInd (n : ℕ) (frac : ℝ) : ℤ := pyRound (frac * ((n : ℝ) ^ 2 - n)) - 1

/-- `lower_ind` (dict/grass.py:55, 57). -/
def lowerInd (n : ℕ) (frac : ℝ) : ℤ := pyRound ((1 - frac) * ((n : ℝ) ^ 2 - n)) - 1

/-- `off_ind` (dict/grass.py:60). -/
def offInd (g0 : Matrix (Fin n) (Fin n) ℝ) (i j : Fin n) : Prop := |g0 i j - 1| > 1e-6

open Classical in
/-- The entries of the Gram matrix after the shrink and the expansion (dict/grass.py:72-84). Both tests use the values from before the update. -/
def shrinkExpand (g0 : Matrix (Fin n) (Fin n) ℝ) (frac shrinkMu : ℝ) (g : Matrix (Fin n) (Fin n) ℝ) : Matrix (Fin n) (Fin n) ℝ :=
  let upper := pyIndex (sortedAbs g) (upperInd n frac)
  let lower := pyIndex (sortedAbs g) (lowerInd n frac)
  Matrix.of fun i j =>
    let v := if offInd g0 i j ∧ |g i j| > upper then g i j * shrinkMu else g i j
    if |g i j| < lower then v / shrinkMu else v

/-- The reduction of the rank to `m` (dict/grass.py:89-94): `s.at[m:].set(0)`, then `jnp.dot(U * s, VT)`. -/
def truncate (m : ℕ) (d : GSvd n) : Matrix (Fin n) (Fin n) ℝ := d.U * diagonal (fun k : Fin n => if (k : ℕ) < m then d.s k else 0) * d.VT

open Classical in
/-- The normalisation (dict/grass.py:96-99): `d2 = 1. / jnp.sqrt(jnp.diag(g))`, then `d2 * g * d2`. Both products broadcast the vector over the last axis, so column `j` is
multiplied by `d2[j]` twice. Not finite when a diagonal entry is not positive. -/
def renormalise (g : Matrix (Fin n) (Fin n) ℝ) : Option (Matrix (Fin n) (Fin n) ℝ) :=
  if ∀ i, 0 < g i i then
    some (Matrix.of fun i j => let d2 := 1 / Real.sqrt (g j j); d2 * g i j * d2)
  else none

/-- `body_fun` (dict/grass.py:63-100). -/
def grassBody (m : ℕ) (svd : Matrix (Fin n) (Fin n) ℝ → GSvd n) (g0 : Matrix (Fin n) (Fin n) ℝ) (frac shrinkMu : ℝ) (g : Matrix (Fin n) (Fin n) ℝ) :
    Option (Matrix (Fin n) (Fin n) ℝ) :=
  renormalise (truncate m (svd (shrinkExpand g0 frac shrinkMu g)))

/-- `lax.fori_loop(0, iterations, body_fun, g)` (dict/grass.py:103). -/
def grassLoop (m : ℕ) (svd : Matrix (Fin n) (Fin n) ℝ → GSvd n) (g0 : Matrix (Fin n) (Fin n) ℝ) (frac shrinkMu : ℝ) :
    ℕ → Option (Matrix (Fin n) (Fin n) ℝ)
  | 0 => some g0
  | k + 1 => (grassLoop m svd g0 frac shrinkMu k).bind (grassBody m svd g0 frac shrinkMu)

/-- The final dictionary (dict/grass.py:104-107): `diag_premultiply(s[:m] ** 0.5, U[:, :m].T)`. -/
def frameOf (hmn : m ≤ n) (d : GSvd n) : Matrix (Fin m) (Fin n) ℝ := Matrix.of fun k j => Real.sqrt (d.s (Fin.castLE hmn k)) * d.U j (Fin.castLE hmn k)

/-- `build_grassmannian_frame(init, frac, shrink_mu, iterations)` (dict/grass.py:35-107). -/
def buildGrassmannianFrame (hmn : m ≤ n) (svd : Matrix (Fin n) (Fin n) ℝ → GSvd n) (init : Matrix (Fin m) (Fin n) ℝ) (frac shrinkMu : ℝ) (iterations : ℕ) :
    Option (Matrix (Fin m) (Fin n) ℝ) :=
  (grassLoop m svd (initᵀ * init) frac shrinkMu iterations).map fun g => frameOf hmn (svd g)

end Verif.Dict
