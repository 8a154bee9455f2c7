import Verif.Loop
import Mathlib.LinearAlgebra.Matrix.NonsingularInverse
import Mathlib.Analysis.SpecialFunctions.Pow.Real

set_option autoImplicit false
/-!
# Model of the noiseless FOCUSS solver (cvx/focuss.py)

Real arrays. An array with a value that is not finite is `none`; such values come only from `jnp.linalg.solve` with a singular matrix, and every later array is
then not finite either. The exponent satisfies `p ≥ 0`.
-/
noncomputable section
namespace Verif.Cvx
open Verif.Loop Matrix

variable {m n : ℕ}

open Classical in
/-- `jnp.linalg.solve(G, y)`: the solution when `G` is invertible, otherwise values that are not finite. -/
def linSolve (G : Matrix (Fin m) (Fin m) ℝ) (y : Fin m → ℝ) : Option (Fin m → ℝ) := if G.det ≠ 0 then some (G⁻¹ *ᵥ y) else none

/-- `xp2 = xp * xp` with `xp = |x| ** p` (cvx/focuss.py:34-35, 117-118). -/
def xp2 (p : ℝ) (x : Fin n → ℝ) : Fin n → ℝ := fun i => |x i| ^ p * |x i| ^ p

/-- `A = crn.diag_premultiply(xp2, Phi.T)` (cvx/focuss.py:36, 119). -/
def focussA (Phi : Matrix (Fin m) (Fin n) ℝ) (p : ℝ) (x : Fin n → ℝ) : Matrix (Fin n) (Fin m) ℝ := Matrix.of fun i j => xp2 p x i * Phi j i

/-- `step_noiseless(Phi, y, x, p)` (cvx/focuss.py:24-39), also lines 117-121 of the loop body. -/
def stepNoiseless (Phi : Matrix (Fin m) (Fin n) ℝ) (y : Fin m → ℝ) (x : Fin n → ℝ) (p : ℝ) : Option (Fin n → ℝ) :=
  let A := focussA Phi p x
  (linSolve (Phi * A) y).map fun v => A *ᵥ v

/-- `FocussState` (cvx/focuss.py:41-52). -/
structure FocussState (m n : ℕ) where
  x : Option (Fin n → ℝ)
  r : Option (Fin m → ℝ)
  rNormSqr : Option ℝ
  iterations : ℕ

/-- The residual and its squared norm (cvx/focuss.py:110-114, 122-126). -/
def focussState (Phi : Matrix (Fin m) (Fin n) ℝ) (y : Fin m → ℝ) (x : Option (Fin n → ℝ)) (iterations : ℕ) : FocussState m n :=
  let r := x.map fun x => y - Phi *ᵥ x
  { x := x, r := r, rNormSqr := r.map fun r => r ⬝ᵥ r, iterations := iterations }

/-- `init_func` (cvx/focuss.py:105-114). -/
def focussInit (Phi : Matrix (Fin m) (Fin n) ℝ) (y : Fin m → ℝ) : FocussState m n := focussState Phi y (some fun _ => 1) 0

/-- `body_func` (cvx/focuss.py:116-126). -/
def focussBody (Phi : Matrix (Fin m) (Fin n) ℝ) (y : Fin m → ℝ) (p : ℝ) (s : FocussState m n) : FocussState m n :=
  focussState Phi y (s.x.bind fun x => stepNoiseless Phi y x p) (s.iterations + 1)

/-- The states at the loop header of `matrix_solve_noiseless` (cvx/focuss.py:128-135). -/
def FocussReach (Phi : Matrix (Fin m) (Fin n) ℝ) (y : Fin m → ℝ) (p : ℝ) (maxIters : ℕ) (s : FocussState m n) : Prop :=
  Reach (fun s => s.iterations < maxIters) (focussBody Phi y p) (focussInit Phi y) s

/-- `matrix_solve_noiseless(Phi, y, p, max_iters)` returns `s` (cvx/focuss.py:85-136). -/
def FocussSolve (Phi : Matrix (Fin m) (Fin n) ℝ) (y : Fin m → ℝ) (p : ℝ) (maxIters : ℕ) (s : FocussState m n) : Prop :=
  Out (fun s => s.iterations < maxIters) (focussBody Phi y p) (focussInit Phi y) s

end Verif.Cvx
