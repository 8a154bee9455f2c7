import Verif.Loop
import Verif.Opt.ProxModel

set_option autoImplicit false
/-!
# Model of the first order conic solver driver (fom/fom.py)
-/
noncomputable section
namespace Verif.Opt
open Verif.Loop

/-- `FomOptions` (fom/defs.py:21-45); `Lexact = none` is the default `inf`. -/
structure FomOptions where
  alpha : ℝ := 0.9
  beta : ℝ := 0.5
  L0 : ℝ := 1
  Lexact : Option ℝ := none
  maxIters : ℕ := 1000
  tol : ℝ := 1e-8

/-- `FomState` (fom/defs.py:60-98); the fields `g_x`, `g_z`, `g_Az`, `f_z`, `C_y`, never updated by the loop and never read, are left out.
`theta = none` is `inf`. -/
structure FomState (E F : Type*) where
  L : ℝ
  theta : Option ℝ
  x : E
  Ax : F
  gAx : F
  fx : ℝ
  Cx : EReal
  y : E
  Ay : F
  gAy : F
  gy : E
  fy : ℝ
  z : E
  Az : F
  Cz : EReal
  normX : ℝ
  normDx : ℝ
  iters : ℕ

variable {E F : Type*} [NormedAddCommGroup E] [InnerProductSpace ℝ E] [NormedAddCommGroup F] [InnerProductSpace ℝ F]

/-- `jnp.minimum(Lexact, v)` where `Lexact` may be `inf`. -/
def minInf (m : Option ℝ) (v : ℝ) : ℝ := match m with | none => v | some l => min l v

open Classical in
/-- `backtrack_L` (fom/fom.py:31-47). -/
def backtrackL (x : E) (Ax gAx : F) (y : E) (Ay gAy : F) (L : ℝ) (Lexact : Option ℝ) (beta : ℝ) : ℝ :=
  let xySq := ‖x - y‖ ^ 2
  if xySq = 0 then L
  else
    let localL := 2 * inner ℝ (Ax - Ay) (gAx - gAy) / xySq
    let newL := minInf Lexact (max localL (L / beta))
    if localL ≤ L then L else newL

/-- `advance_theta` (fom/fom.py:129-130); for `theta_old = inf` the quotient is 0. -/
def advanceTheta (thetaOld : Option ℝ) (L Lold : ℝ) : ℝ :=
  2 / (1 + Real.sqrt (1 + match thetaOld with | none => 0 | some t => 4 * (L / Lold) / t ^ 2))

/-- The arguments of `fom` (fom/fom.py:49). -/
structure FomArgs (E F : Type*) where
  f : SmoothFn F
  h : ProxCapable E
  times : E → F
  trans : F → E
  b : F
  x0 : E
  opts : FomOptions

open Classical in
/-- The starting point: `x0`, moved into the domain of `h` if its value is infinite (fom/fom.py:84-93). -/
def fomStart (p : FomArgs E F) : E × EReal :=
  if p.h.func p.x0 = ⊤ then p.h.proxVecVal p.x0 1 else (p.x0, p.h.func p.x0)

/-- `init` (fom/fom.py:79-125). -/
def fomInit (p : FomArgs E F) : FomState E F :=
  let sf := smoothTranslate p.f p.b
  let x := (fomStart p).1
  let Ax := p.times x
  let gv := sf.gradVal Ax
  { L := p.opts.L0, theta := none, x := x, Ax := Ax, gAx := gv.1, fx := gv.2, Cx := (fomStart p).2,
    y := x, Ay := Ax, gAy := gv.1, gy := 0, fy := gv.2, z := x, Az := Ax, Cz := (fomStart p).2,
    normX := ‖x‖, normDx := ‖x‖, iters := 0 }

/-- `body_func` (fom/fom.py:133-172). -/
def fomBody (p : FomArgs E F) (s : FomState E F) : FomState E F :=
  let sf := smoothTranslate p.f p.b
  let L := s.L * p.opts.alpha
  let theta := advanceTheta s.theta L s.L
  let y := (1 - theta) • s.x + theta • s.z
  let Ay := p.times y
  let gvy := sf.gradVal Ay
  let gy := p.trans gvy.1
  let step := 1 / (theta * L)
  let zc := p.h.proxVecVal (s.z - step • gy) step
  let x := (1 - theta) • s.x + theta • zc.1
  let Ax := p.times x
  let gvx := sf.gradVal Ax
  { L := backtrackL x Ax gvx.1 y Ay gvy.1 L p.opts.Lexact p.opts.beta, theta := some theta, x := x, Ax := Ax, gAx := gvx.1, fx := gvx.2, Cx := s.Cx,
    y := y, Ay := Ay, gAy := gvy.1, gy := gy, fy := gvy.2, z := zc.1, Az := p.times zc.1, Cz := zc.2,
    normX := ‖x‖, normDx := ‖x - s.x‖, iters := s.iters + 1 }

/-- `outer_cond_func` (fom/fom.py:174-177). -/
def fomCond (p : FomArgs E F) (s : FomState E F) : Prop := s.iters < p.opts.maxIters ∧ s.normDx ≥ p.opts.tol * max s.normX 1

/-- The states of a run: one body before the loop, then the loop (fom/fom.py:179-180). -/
def FomReach (p : FomArgs E F) (s : FomState E F) : Prop := Reach (fomCond p) (fomBody p) (fomBody p (fomInit p)) s

/-- The result of `fom` (fom/fom.py:179-184). -/
def FomOut (p : FomArgs E F) (s : FomState E F) : Prop := Out (fomCond p) (fomBody p) (fomBody p (fomInit p)) s

end Verif.Opt
