import Verif.Loop
import Verif.Opt.ProxModel

set_option autoImplicit false
/-!
# Model of ISTA and FISTA (sls/ista.py, sls/fista.py)

Arrays are vectors of real inner product spaces (complex arrays with the real part of `vdot` are one too).
-/
noncomputable section
namespace Verif.Sls
open Verif.Loop

/-- The arguments common to `ista` and `fista` (sls/ista.py:40-50, sls/fista.py:44-54). -/
structure IstaArgs (E F G : Type*) where
  times : E → F
  trans : F → E
  b : F
  x0 : E
  step : ℝ
  thresh : ℕ → G → G
  basisTimes : G → E
  basisTrans : E → G
  rtol : ℝ
  xtol : ℝ
  maxIters : ℕ

/-- `ISTAState` (sls/ista.py:26-38). -/
structure IstaState (E F : Type*) where
  x : E
  r : F
  rr : ℝ
  dx : ℝ
  iters : ℕ

variable {E F G : Type*} [NormedAddCommGroup E] [InnerProductSpace ℝ E] [NormedAddCommGroup F] [InnerProductSpace ℝ F]

/-- `init` (sls/ista.py:84-91). -/
def istaInit (p : IstaArgs E F G) : IstaState E F :=
  let r := p.b - p.times p.x0
  { x := p.x0, r := r, rr := ‖r‖ ^ 2, dx := 1e10, iters := 0 }

/-- `body` (sls/ista.py:93-110). -/
def istaStep (p : IstaArgs E F G) (s : IstaState E F) : IstaState E F :=
  let grad := p.step • p.trans s.r
  let x := s.x + grad
  let alpha := p.thresh s.iters (p.basisTrans x)
  let x := p.basisTimes alpha
  let r := p.b - p.times x
  { x := x, r := r, rr := ‖r‖ ^ 2, dx := ‖x - s.x‖, iters := s.iters + 1 }

/-- `cond` (sls/ista.py:81-82, 112-116). -/
def istaCond (p : IstaArgs E F G) (s : IstaState E F) : Prop :=
  s.iters < p.maxIters ∧ s.dx > p.xtol ∧ s.rr > ‖p.b‖ ^ 2 * p.rtol ^ 2

/-- `FISTAState` (sls/fista.py:26-42). -/
structure FistaState (E F : Type*) where
  x : E
  z : E
  r : F
  t : ℝ
  rr : ℝ
  dx : ℝ
  iters : ℕ

/-- `init` (sls/fista.py:88-95). -/
def fistaInit (p : IstaArgs E F G) : FistaState E F :=
  let r := p.b - p.times p.x0
  { x := p.x0, z := p.x0, r := r, t := 1, rr := ‖r‖ ^ 2, dx := 1e10, iters := 0 }

/-- `body` (sls/fista.py:97-119). -/
def fistaStep (p : IstaArgs E F G) (s : FistaState E F) : FistaState E F :=
  let grad := p.step • p.trans s.r
  let x := s.z + grad
  let alpha := p.thresh s.iters (p.basisTrans x)
  let x := p.basisTimes alpha
  let t := (1 + Real.sqrt (1 + 4 * s.t ^ 2)) / 2
  let z := x + ((s.t - 1) / t) • (x - s.x)
  let r := p.b - p.times z
  { x := x, z := z, r := r, t := t, rr := ‖r‖ ^ 2, dx := ‖x - s.x‖, iters := s.iters + 1 }

/-- `cond` (sls/fista.py:85-86, 121-125). -/
def fistaCond (p : IstaArgs E F G) (s : FistaState E F) : Prop :=
  s.iters < p.maxIters ∧ s.dx > p.xtol ∧ s.rr > ‖p.b‖ ^ 2 * p.rtol ^ 2

end Verif.Sls
