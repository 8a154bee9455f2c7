import Verif.Loop
import Mathlib.Analysis.InnerProductSpace.Basic

set_option autoImplicit false
/-!
# Model of the conjugate gradient solvers (opt/cg.py, opt/pcg.py)

Arrays are vectors of a real inner product space, the matrix (or operator) is a linear map.
-/
noncomputable section
namespace Verif.Opt
open Verif.Loop

variable {E : Type*} [NormedAddCommGroup E] [InnerProductSpace ℝ E]

/-- `CGState` (opt/cg.py:21-31). -/
structure CGState (E : Type*) where
  x : E
  r : E
  p : E
  rr : ℝ
  iters : ℕ

/-- `init` (opt/cg.py:45-54). -/
def cgInit (A : E → E) (b x0 : E) : CGState E :=
  let r := b - A x0
  { x := x0, r := r, p := r, rr := inner ℝ r r, iters := 0 }

/-- `iteration` (opt/cg.py:56-77). -/
def cgStep (A : E → E) (s : CGState E) : CGState E :=
  let Ap := A s.p
  let alpha := s.rr / inner ℝ s.p Ap
  let x := s.x + alpha • s.p
  let r := s.r - alpha • Ap
  let rho1 := inner ℝ r r
  let beta := rho1 / s.rr
  { x := x, r := r, p := r + beta • s.p, rr := rho1, iters := s.iters + 1 }

/-- `cond` (opt/cg.py:39-41, 79-85). -/
def cgCond (b : E) (maxIters : ℕ) (rtol : ℝ) (s : CGState E) : Prop :=
  s.rr > inner ℝ b b * rtol ^ 2 ∧ s.iters < maxIters

/-- `cg.solve_from(A, b, x_0, max_iters, res_norm_rtol)` returns `s` (opt/cg.py:33-88). -/
def CgSolveFrom (A : E → E) (b x0 : E) (maxIters : ℕ) (rtol : ℝ) (s : CGState E) : Prop :=
  Out (cgCond b maxIters rtol) (cgStep A) (cgInit A b x0) s

/-- `cg.solve(A, b, max_iters, res_norm_rtol)` (opt/cg.py:94-98). -/
def CgSolve (A : E → E) (b : E) (maxIters : ℕ) (rtol : ℝ) (s : CGState E) : Prop := CgSolveFrom A b 0 maxIters rtol s

/-- `PCGState` (opt/pcg.py:25-35). -/
structure PCGState (E : Type*) where
  x : E
  r : E
  p : E
  gamma : ℝ
  iters : ℕ

/-- `init` (opt/pcg.py:47-56); the counter starts at 1. -/
def pcgInit (A M : E → E) (b x0 : E) : PCGState E :=
  let r0 := b - A x0
  let z0 := M r0
  { x := x0, r := r0, p := z0, gamma := inner ℝ r0 z0, iters := 1 }

/-- `body` (opt/pcg.py:58-80). -/
def pcgStep (A M : E → E) (s : PCGState E) : PCGState E :=
  let Ap := A s.p
  let alpha := s.gamma / inner ℝ s.p Ap
  let x := s.x + alpha • s.p
  let r := s.r - alpha • Ap
  let z := M r
  let gamma := inner ℝ r z
  let beta := gamma / s.gamma
  { x := x, r := r, p := z + beta • s.p, gamma := gamma, iters := s.iters + 1 }

/-- `cond` (opt/pcg.py:42-43, 82-89). `isId` records whether `M is _identity`, which decides which quantity is tested. -/
def pcgCond (b : E) (maxIters : ℕ) (tol atol : ℝ) (isId : Bool) (s : PCGState E) : Prop :=
  (if isId then s.gamma else inner ℝ s.r s.r) > max (tol ^ 2 * inner ℝ b b) (atol ^ 2) ∧ s.iters < maxIters

/-- `pcg.solve_from(A, b, x0, max_iters, tol, atol, M)` returns `s` (opt/pcg.py:37-95). -/
def PcgSolveFrom (A M : E → E) (isId : Bool) (b x0 : E) (maxIters : ℕ) (tol atol : ℝ) (s : PCGState E) : Prop :=
  Out (pcgCond b maxIters tol atol isId) (pcgStep A M) (pcgInit A M b x0) s

/-- `pcg.solve(A, b, max_iters, tol, atol, M)` (opt/pcg.py:100-104): the same from zero. -/
def PcgSolve (A M : E → E) (isId : Bool) (b : E) (maxIters : ℕ) (tol atol : ℝ) (s : PCGState E) : Prop :=
  PcgSolveFrom A M isId b 0 maxIters tol atol s

end Verif.Opt
