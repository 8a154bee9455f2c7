import Verif.Dict.GrassModel
import Verif.Pursuit.UtilModel
import Mathlib.Data.Real.Archimedean

set_option autoImplicit false

/-!
# Model of the piecewise polynomial signal (`problems/prob006.py`) and of `analyze_solution` (`problems/problems.py`)
-/
noncomputable section
namespace Verif.Problems
open Verif.Dict Verif.Pursuit

/-- `jnp.linspace(a, b, k)`: `k` equally spaced numbers from `a` to `b`, just `a` for `k = 1`. -/
def linspace (a b : ℝ) (k : ℕ) : List ℝ := (List.range k).map fun i : ℕ => if k = 1 then a else a + i * ((b - a) / ((k : ℝ) - 1))

/-- `idx` (problems/prob006.py:32-35) for the uniform draws `u`: `0` in front and `1` behind, sorted, times `n`, rounded to the nearest integer (ties to even). -/
def pieceBounds (n : ℕ) (u : List ℝ) : List ℕ :=
  (((0 :: u) ++ [1]).mergeSort (fun x y => decide (x ≤ y))).map fun t => (pyRound (t * n)).toNat

/-- `c` (problems/prob006.py:42) for the normal draws `z`: rounded to two decimals. -/
def pieceCoeff (z : ℝ) : ℝ := (pyRound (z * 100) : ℝ) / 100

/-- The body of the loop (problems/prob006.py:39-44) for piece `i`; `z i d` is the `d`-th normal draw of the piece. `signal.at[a:b].set(y)` replaces the entries from `a` to `b`. -/
def setPiece (idx : List ℕ) (z : ℕ → ℕ → ℝ) (signal : List ℝ) (i : ℕ) : List ℝ :=
  let a := idx.getD i 0
  let b := idx.getD (i + 1) 0
  let y := (linspace (-3) 3 (b - a)).map fun x =>
    pieceCoeff (z i 0) + pieceCoeff (z i 1) * x + pieceCoeff (z i 2) * x ^ 2 + pieceCoeff (z i 3) * x ^ 3
  signal.take a ++ y ++ signal.drop b

/-- `piecewise_polynomial(key, n, p)` (problems/prob006.py:30-45) with `p - 1` uniform draws `u` and the normal draws `z`. -/
def piecewisePolynomial (n : ℕ) (u : List ℝ) (z : ℕ → ℕ → ℝ) : List ℝ :=
  (List.range (u.length + 1)).foldl (setPiece (pieceBounds n u) z) (List.replicate n 0)

/-- The sparsity part of `analyze_solution(problem, solution, perc)` (problems/problems.py:103-110): the number of common indices and its ratio to the larger support. `k1`, `k2` are the results of
`num_largest_coeffs_for_energy_percent` (external) for `x0` and `x`; `none` is the division by zero. `jnp.intersect1d` counts the distinct common indices. -/
def supportOverlap {𝕜 : Type*} [RCLike 𝕜] (x0 x : List 𝕜) (k1 k2 : ℕ) : ℕ × Option ℝ :=
  let correct := ((largestIndices x0 k1).toFinset ∩ (largestIndices x k2).toFinset).card
  (correct, if max k1 k2 = 0 then none else some ((correct : ℝ) / (max k1 k2 : ℕ)))

end Verif.Problems
