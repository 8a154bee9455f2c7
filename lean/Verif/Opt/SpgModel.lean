import Verif.Loop
import Verif.Opt.ProxModel

set_option autoImplicit false
/-!
# Model of the spectral projected gradient solver (opt/spg.py)
-/
noncomputable section
namespace Verif.Opt
open Verif.Loop
open scoped RealInnerProductSpace

/-- `SPGOptions` (opt/spg.py:52-64). -/
structure SpgOpts where
  progressTol : ℝ
  optimTol : ℝ
  suffDec : ℝ
  maxIters : ℕ
  maxFCalls : ℕ
  memory : ℕ

/-- `LineSearchState` (opt/spg.py:103-108). -/
structure LSState (n : ℕ) where
  alpha : ℝ
  xNew : Vec n
  fVal : ℝ
  fLim : ℝ
  fCalls : ℕ

variable {n : ℕ}

/-- `init` of `line_search` (opt/spg.py:113-118). -/
def lsInit (func : Vec n → ℝ) (x d : Vec n) (fMax gd : ℝ) : LSState n :=
  { alpha := 1, xNew := x + d, fVal := func (x + d), fLim := fMax + gd, fCalls := 1 }

/-- `next_func` (opt/spg.py:120-134); `SIGMA_1 = 0.1`, `SIGMA_2 = 0.9`. -/
def lsNext (func : Vec n → ℝ) (x d : Vec n) (fMax fLast gd delta : ℝ) (s : LSState n) : LSState n :=
  let denom := s.fVal - fLast - s.alpha * delta
  let tmp := -0.5 * s.alpha ^ 2 / denom
  let alpha := if tmp ≥ 0.1 ∧ tmp ≤ 0.9 * s.alpha then tmp else s.alpha / 2
  { alpha := alpha, xNew := x + alpha • d, fVal := func (x + alpha • d), fLim := fMax + alpha * gd, fCalls := s.fCalls + 1 }

/-- `cond_func` (opt/spg.py:136-139). -/
def lsCond (s : LSState n) : Prop := s.fVal > s.fLim ∧ s.fCalls < 50

open Classical in
/-- `line_search(func, x, d, f_max, f_last, gamma, delta)` (opt/spg.py:110-145). The loop is capped at 50 calls, so 50 units of fuel run it to the
end (`ls_out`). -/
def lineSearch (func : Vec n → ℝ) (x d : Vec n) (fMax fLast gamma delta : ℝ) : LSState n :=
  let gd := gamma * delta
  run lsCond (lsNext func x d fMax fLast gd delta) 50 (lsInit func x d fMax gd)

/-- `SPGState` (opt/spg.py:67-84); `f_past` is a list, newest value first. -/
structure SpgState (n : ℕ) where
  x : Vec n
  g : Vec n
  delta : ℝ
  xPrev : Vec n
  gPrev : Vec n
  fPast : List ℝ
  iters : ℕ
  projCalls : ℕ
  fCalls : ℕ
  gCalls : ℕ

/-- `jnp.max` of the memory. -/
def listMax : List ℝ → ℝ
  | [] => 0
  | a :: l => l.foldl max a

/-- `crn.cbuf_push_left(buf, v)`: the new value enters at index 0 and the last one is dropped (external, cr.nimble; documented meaning). -/
def cbufPushLeft (buf : List ℝ) (v : ℝ) : List ℝ := (v :: buf).take buf.length

/-- `init` (opt/spg.py:157-180). `1/0` is `inf`, so `t = 1` if the gradient vanishes. -/
def spgInit (f : SmoothFn (Vec n)) (proj : Vec n → Vec n) (x0 : Vec n) (o : SpgOpts) : SpgState n :=
  let x := proj x0
  let g := (f.gradVal x).1
  let d := proj (x - g) - x
  let delta := ⟪g, d⟫
  let t1 := l1 g
  let t := if t1 = 0 then 1 else min 1 (1 / t1)
  let x1 := x + t • d
  let gf := f.gradVal x1
  { x := x1, g := gf.1, xPrev := x, gPrev := g, fPast := List.replicate o.memory gf.2, delta := delta, iters := 1, projCalls := 1, fCalls := 2,
    gCalls := 2 }

/-- The Barzilai-Borwein step length with its safeguards (opt/spg.py:187-191): `EPS` is the float32 machine epsilon. A division by zero gives
`inf`, which the second safeguard replaces by 1; in the model it gives 0, which the first one replaces by 1. -/
def spgLambda (s y : Vec n) : ℝ :=
  let l := ⟪s, s⟫ / (⟪s, y⟫ + 2 ^ (-23 : ℤ))
  let l := if l < 1e-10 then 1 else l
  if l > 1e10 then 1 else l

/-- `step` (opt/spg.py:182-211). -/
def spgStep (f : SmoothFn (Vec n)) (proj : Vec n → Vec n) (o : SpgOpts) (s : SpgState n) : SpgState n :=
  let y := s.g - s.gPrev
  let sv := s.x - s.xPrev
  let lambd := spgLambda sv y
  let d := proj (s.x - lambd • s.g) - s.x
  let delta := ⟪s.g, d⟫
  let fMax := listMax s.fPast
  let fLast := s.fPast.headD 0
  let ls := lineSearch f.func s.x d fMax fLast o.suffDec delta
  { x := ls.xNew, g := f.grad ls.xNew, delta := delta, xPrev := s.x, gPrev := s.g, fPast := cbufPushLeft s.fPast ls.fVal, iters := s.iters + 1,
    projCalls := s.projCalls + 1, fCalls := s.fCalls + ls.fCalls, gCalls := s.gCalls + 1 }

/-- `cond` (opt/spg.py:213-225). -/
def spgCond (proj : Vec n → Vec n) (o : SpgOpts) (s : SpgState n) : Prop :=
  s.iters < o.maxIters ∧ s.delta ≤ -o.progressTol ∧ (∃ i, |(proj (s.x - s.g) - s.x) i| ≥ o.optimTol) ∧ s.fCalls < o.maxFCalls

/-- `spg.solve_from(smooth_f, proj, x0, options)` returns `s` (opt/spg.py:148-231). -/
def SpgSolveFrom (f : SmoothFn (Vec n)) (proj : Vec n → Vec n) (x0 : Vec n) (o : SpgOpts) (s : SpgState n) : Prop :=
  Out (spgCond proj o) (spgStep f proj o) (spgInit f proj x0 o) s

end Verif.Opt
