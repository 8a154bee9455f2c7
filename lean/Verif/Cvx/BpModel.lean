import Verif.Cvx.Spgl1Model

set_option autoImplicit false
/-!
# Model of the SPGL1 entry points for basis pursuit, the Newton step and the weighted norms (cvx/spgl1.py)
-/
noncomputable section
namespace Verif.Cvx
open Verif.Opt

variable {m n : ℕ}

/-- `solve_bpic(A, b, sigma, options)` (cvx/spgl1.py:715-724) passes through `s`: the start is zero. -/
def BpicReach (A : Vec n → Vec m) (At : Vec m → Vec n) (b : Vec m) (sigma : ℝ) (o : Spgl1Opts) (s : BpState m n) : Prop :=
  BpReach A At b sigma 0 o s

/-- `solve_bp(A, b, options)` (cvx/spgl1.py:764-779) passes through `s`: the start and `sigma` are zero. -/
def BpSolveReach (A : Vec n → Vec m) (At : Vec m → Vec n) (b : Vec m) (o : Spgl1Opts) (s : BpState m n) : Prop :=
  BpReach A At b 0 0 o s

/-- `tau_change(A, r, r_norm, sigma)` (cvx/spgl1.py:533-539); `none` for a division by zero. -/
def tauChange (At : Vec m → Vec n) (r : Vec m) (rNorm sigma : ℝ) : Option ℝ :=
  if rNorm = 0 then none else
  let y := (1 / rNorm) • r
  let lambda := linf (At y)
  let phi := rNorm
  let phiD := -lambda
  if phiD = 0 then none else some ((sigma - phi) / phiD)

/-- `compute_rgf(A, b, x)` (cvx/spgl1.py:541-548). -/
def computeRgf (A : Vec n → Vec m) (At : Vec m → Vec n) (b : Vec m) (x : Vec n) : Vec m × Vec n × ℝ :=
  let r := b - A x
  let g := -At r
  let f := objVal r
  (r, g, f)

/-- `weighted_primal_l1_norm(x, w)` (cvx/spgl1.py:133-134). -/
def weightedPrimalL1Norm (x w : Vec n) : ℝ := l1 (vec fun i => x i * w i)

/-- `weighted_dual_linf_norm(x, w)` (cvx/spgl1.py:136-137), for nonzero weights. -/
def weightedDualLinfNorm (x w : Vec n) : ℝ := linf (vec fun i => x i / w i)

end Verif.Cvx
