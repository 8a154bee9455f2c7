import Verif.Cvx.Spgl1Model
import Mathlib.Analysis.InnerProductSpace.PiL2

set_option autoImplicit false
/-!
# Model of SPGL1 on complex arrays (cvx/spgl1.py)

The same code as in `Verif.Cvx.Spgl1Model`, run on complex arrays: `jnp.iscomplexobj(x)` selects the complex branch of the projection (line 97-98), `jnp.vdot`
conjugates its first argument, and the duality gap is a complex number. `trans` of a complex operator multiplies with the conjugate transpose. `timesCalls` and
`transCalls` are ghost counts of the operator calls really made.
-/
noncomputable section
namespace Verif.Cvx
open Verif.Loop Verif.Opt
open Verif.Sls (counted)

variable {m n : ℕ}

/-- A complex 1-D array of length `n`. -/
abbrev CVec (n : ℕ) := EuclideanSpace ℂ (Fin n)

/-- Build a complex array from its entries. -/
def cvec (f : Fin n → ℂ) : CVec n := WithLp.toLp 2 f

/-- `crn.arr_l1norm`, `crn.norm_l1` on complex arrays (external): the sum of the magnitudes. -/
def l1C (x : CVec n) : ℝ := ∑ i, ‖x i‖

/-- `crn.norm_linf` / `dual_norm` on complex arrays (cvx/spgl1.py:131; external): the largest magnitude (0 for an empty array). -/
def linfC (x : CVec n) : ℝ := ‖x.ofLp‖

/-- `jnp.vdot(x, y)`: the sum of the products of the conjugated entries of `x` with those of `y`. -/
def vdotC (x y : CVec n) : ℂ := ∑ i, (starRingEnd ℂ) (x i) * y i

/-- `_project_to_l1_ball(x, q)` on complex arrays (cvx/spgl1.py:81-98). -/
def projectInsideBallC (x : CVec n) (q : ℝ) : CVec n :=
  let κ := l1Kappa q (List.ofFn fun i => ‖x i‖)
  cvec fun i => ((max (‖x i‖ - κ) 0 : ℝ) : ℂ) * Complex.exp (Complex.I * Complex.arg (x i))

/-- `project_to_l1_ball(x, q)` on complex arrays (cvx/spgl1.py:102-114). -/
def projectToL1BallC (x : CVec n) (q : ℝ) : CVec n := if l1C x > q then projectInsideBallC x q else x

/-- `project_to_l1_ball_at(x, b, q)` on complex arrays (cvx/spgl1.py:116-124). -/
def projectToL1BallAtC (x b : CVec n) (q : ℝ) : CVec n := projectToL1BallC (x - b) q + b

/-- `obj_val(r)` (cvx/spgl1.py:139-142). -/
def objValC (r : CVec m) : ℝ := 0.5 * ‖vdotC r r‖

/-- `CurvyLineSearchState` (cvx/spgl1.py:148-161). -/
structure CurvyStateC (m n : ℕ) where
  alpha : ℝ
  scale : ℝ
  xNew : CVec n
  rNew : CVec m
  dNew : CVec n
  gtd : ℝ
  dNormOld : ℝ
  fVal : ℝ
  fLim : ℝ
  nIters : ℕ
  nSafe : ℕ
  timesCalls : ℕ

/-- `candidate` (cvx/spgl1.py:191-198) followed by the construction of the state (204-208, 226-230); `g` is already scaled by `alpha0`. -/
def curvyCandidateC (A : CVec n → CVec m) (b : CVec m) (x g : CVec n) (fMax tau gamma alpha scale dNormOld : ℝ) (nIters nSafe calls : ℕ) :
    CurvyStateC m n :=
  let xNew := projectToL1BallC (x - (alpha * scale) • g) tau
  let c := counted A xNew calls
  let rNew := b - c.1
  let dNew := xNew - x
  let gtd := scale * (vdotC g dNew).re
  let fVal := objValC rNew
  let fLim := fMax + gamma * alpha * gtd
  { alpha := alpha, scale := scale, xNew := xNew, rNew := rNew, dNew := dNew, gtd := gtd, dNormOld := dNormOld, fVal := fVal, fLim := fLim,
    nIters := nIters, nSafe := nSafe, timesCalls := c.2 }

/-- `init` of the line search (cvx/spgl1.py:200-208). -/
def curvyInitC (A : CVec n → CVec m) (b : CVec m) (x g : CVec n) (fMax tau gamma : ℝ) (calls : ℕ) : CurvyStateC m n :=
  curvyCandidateC A b x g fMax tau gamma 1 1 0 0 0 calls

/-- `next_func` (cvx/spgl1.py:210-230). -/
def curvyNextC (A : CVec n → CVec m) (b : CVec m) (x g : CVec n) (fMax tau gamma : ℝ) (s : CurvyStateC m n) : CurvyStateC m n :=
  let n2 := Real.sqrt n
  let gNorm := ‖g‖ / n2
  let alpha := s.alpha / 2
  let dNorm := ‖s.dNew‖ / n2
  let tooClose := |dNorm - s.dNormOld| ≤ 1e-6 * dNorm
  let scale := if tooClose then dNorm / gNorm / 2 ^ s.nSafe else s.scale
  let nSafe := if tooClose then s.nSafe + 1 else s.nSafe
  curvyCandidateC A b x g fMax tau gamma alpha scale dNorm (s.nIters + 1) nSafe s.timesCalls

/-- `cond_func` (cvx/spgl1.py:232-239). -/
def curvyCondC (s : CurvyStateC m n) : Prop := s.nIters < 10 ∧ s.gtd < 0 ∧ s.fVal ≥ s.fLim

open Classical in
/-- `curvy_line_search(A, b, x, g, alpha0, f_max, project_to_l1_ball, tau, gamma)` (cvx/spgl1.py:181-247). The loop is capped at 10 rounds, so 10 units
of fuel run it to the end (`curvy_outC`). -/
def curvyLineSearchC (A : CVec n → CVec m) (b : CVec m) (x g : CVec n) (alpha0 fMax tau gamma : ℝ) (calls : ℕ) : CurvyStateC m n :=
  let g := alpha0 • g
  run curvyCondC (curvyNextC A b x g fMax tau gamma) 10 (curvyInitC A b x g fMax tau gamma calls)

/-- The relative duality gap of `lasso_metrics` (cvx/spgl1.py:254-264) and `bpic_metrics` (513-523): the gap is a complex number, of which the magnitude is taken. -/
def relGapC (b : CVec m) (g : CVec n) (r : CVec m) (f tau : ℝ) : ℝ := ‖vdotC r (r - b) + ((tau * linfC g : ℝ) : ℂ)‖ / max 1 f

/-- The next spectral step (cvx/spgl1.py:373-380, 663-670). -/
def nextAlphaC (o : Spgl1Opts) (s y : CVec n) : ℝ :=
  if (vdotC s y).re ≤ 0 then o.alphaMax else clip ((vdotC s s).re / (vdotC s y).re) o.alphaMin o.alphaMax

/-- The first spectral step `clip(1 / linf(d), alpha_min, alpha_max)` (cvx/spgl1.py:343-345, 594-596); `1/0` is `inf`. -/
def firstAlphaC (o : Spgl1Opts) (d : CVec n) : ℝ := if linfC d = 0 then o.alphaMax else clip (1 / linfC d) o.alphaMin o.alphaMax

/-- `SPGL1LassoState` (cvx/spgl1.py:267-293) with the ghost call counts. -/
structure LassoStateC (m n : ℕ) where
  x : CVec n
  g : CVec n
  r : CVec m
  fPast : List ℝ
  rNorm : ℝ
  rGap : ℝ
  alpha : ℝ
  alphaNext : ℝ
  iterations : ℕ
  nTimes : ℕ
  nTrans : ℕ
  nLsIters : ℕ
  timesCalls : ℕ
  transCalls : ℕ

/-- `init` (cvx/spgl1.py:329-352). -/
def lassoInitC (A : CVec n → CVec m) (At : CVec m → CVec n) (b : CVec m) (tau : ℝ) (x0 : CVec n) (o : Spgl1Opts) : LassoStateC m n :=
  let x := projectToL1BallC x0 tau
  let c1 := counted A x 0
  let r := b - c1.1
  let c2 := counted At r 0
  let g := -c2.1
  let f := objValC r
  let d := projectToL1BallC (x - g) tau - x
  let alpha := firstAlphaC o d
  { x := x, g := g, r := r, fPast := List.replicate o.memory f, rNorm := ‖r‖, rGap := relGapC b g r f tau, alpha := alpha, alphaNext := alpha,
    iterations := 1, nTimes := 1, nTrans := 1, nLsIters := 0, timesCalls := c1.2, transCalls := c2.2 }

/-- `body_func` (cvx/spgl1.py:354-388). Line 387 stores `n_times` in the field `n_trans`. -/
def lassoBodyC (A : CVec n → CVec m) (At : CVec m → CVec n) (b : CVec m) (tau : ℝ) (o : Spgl1Opts) (s : LassoStateC m n) : LassoStateC m n :=
  let fMax := listMax s.fPast
  let ls := curvyLineSearchC A b s.x s.g s.alphaNext fMax tau o.gamma s.timesCalls
  let nTimes := s.nTimes + ls.nIters + 1
  let x := ls.xNew
  let r := ls.rNew
  let c2 := counted At r s.transCalls
  let g := -c2.1
  let f := ls.fVal
  { x := x, g := g, r := r, fPast := cbufPushLeft s.fPast f, rNorm := ‖r‖, rGap := relGapC b g r f tau, alpha := ls.alpha,
    alphaNext := nextAlphaC o (x - s.x) (g - s.g), iterations := s.iterations + 1, nTimes := nTimes, nTrans := nTimes,
    nLsIters := s.nLsIters + ls.nIters, timesCalls := ls.timesCalls, transCalls := c2.2 }

/-- `cond_func` (cvx/spgl1.py:390-398). -/
def lassoCondC (b : CVec m) (o : Spgl1Opts) (s : LassoStateC m n) : Prop :=
  s.iterations < o.maxIters ∧ s.rGap > o.optTol ∧ s.rNorm ≥ o.optTol * ‖b‖

/-- The loop of `solve_lasso_from(A, b, tau, x0, options)` passes through `s` (cvx/spgl1.py:313-405), for a complex start `x0`. -/
def LassoReachC (A : CVec n → CVec m) (At : CVec m → CVec n) (b : CVec m) (tau : ℝ) (x0 : CVec n) (o : Spgl1Opts) (s : LassoStateC m n) : Prop :=
  Reach (lassoCondC b o) (lassoBodyC A At b tau o) (lassoInitC A At b tau x0 o) s

/-- `solve_lasso_from(A, b, tau, x0, options)` returns `s` (cvx/spgl1.py:313-405). -/
def LassoSolveFromC (A : CVec n → CVec m) (At : CVec m → CVec n) (b : CVec m) (tau : ℝ) (x0 : CVec n) (o : Spgl1Opts) (s : LassoStateC m n) : Prop :=
  Out (lassoCondC b o) (lassoBodyC A At b tau o) (lassoInitC A At b tau x0 o) s

/-- `SPGL1BPState` (cvx/spgl1.py:454-490) with the ghost call counts. -/
structure BpStateC (m n : ℕ) where
  x : CVec n
  g : CVec n
  r : CVec m
  fPast : List ℝ
  tau : ℝ
  tauChanged : Prop
  rNorm : ℝ
  rGap : ℝ
  rResError : ℝ
  rFError : ℝ
  alpha : ℝ
  alphaNext : ℝ
  iterations : ℕ
  nTimes : ℕ
  nTrans : ℕ
  nNewton : ℕ
  nLsIters : ℕ
  timesCalls : ℕ
  transCalls : ℕ

/-- `init` (cvx/spgl1.py:576-609), `none` if the Newton update divides by zero (zero gradient). `update_xrgf` (550-559) is inlined. -/
def bpInitC (A : CVec n → CVec m) (At : CVec m → CVec n) (b : CVec m) (sigma : ℝ) (x0 : CVec n) (o : Spgl1Opts) : Option (BpStateC m n) :=
  let tau := l1C x0
  let x := projectToL1BallC x0 tau
  let c1 := counted A x 0
  let r := b - c1.1
  let c2 := counted At r 0
  let g := -c2.1
  let f := objValC r
  let rNorm := ‖r‖
  (newtonTau tau rNorm sigma (linfC g)).map fun tau' =>
    let d := projectToL1BallC (x - g) 0 - x
    let alpha := firstAlphaC o d
    { x := x, g := g, r := r, fPast := List.replicate o.memory f, tau := tau', tauChanged := True, rNorm := rNorm, rGap := relGapC b g r f tau,
      rResError := resError rNorm sigma, rFError := fError f sigma, alpha := alpha, alphaNext := alpha, iterations := 1, nTimes := 2, nTrans := 2,
      nNewton := 1, nLsIters := 0, timesCalls := c1.2, transCalls := c2.2 }

open Classical in
/-- `body_func` (cvx/spgl1.py:612-681), `none` if the Newton update divides by zero. -/
def bpBodyC (A : CVec n → CVec m) (At : CVec m → CVec n) (b : CVec m) (sigma : ℝ) (o : Spgl1Opts) (s : BpStateC m n) : Option (BpStateC m n) :=
  let fMax := listMax s.fPast
  let ls := curvyLineSearchC A b s.x s.g s.alphaNext fMax s.tau o.gamma s.timesCalls
  let nTimes := s.nTimes + ls.nIters + 1
  let c2 := counted At ls.rNew s.transCalls
  let g := -c2.1
  let nTrans := s.nTrans + 1
  let f := ls.fVal
  let rNorm := ‖ls.rNew‖
  let change := changeTau o f (s.fPast.headD 0) rNorm sigma s.tauChanged
  (if change then newtonTau s.tau rNorm sigma (linfC g) else some s.tau).map fun tau =>
    let reduced := tau < s.tau
    let x' := if reduced then projectToL1BallC ls.xNew tau else ls.xNew
    let c3 := counted A x' ls.timesCalls
    let r' := if reduced then b - c3.1 else ls.rNew
    let c4 := counted At r' c2.2
    let g' := if reduced then -c4.1 else g
    let f' := if reduced then objValC r' else f
    { x := x', g := g', r := r', fPast := cbufPushLeft s.fPast f', tau := tau, tauChanged := change, rNorm := rNorm,
      rGap := relGapC b g ls.rNew f s.tau, rResError := resError rNorm sigma, rFError := fError f sigma, alpha := ls.alpha,
      alphaNext := nextAlphaC o (x' - s.x) (g' - s.g), iterations := s.iterations + 1, nTimes := nTimes + (if reduced then 1 else 0),
      nTrans := nTrans + (if reduced then 1 else 0), nNewton := s.nNewton + (if change then 1 else 0), nLsIters := s.nLsIters + ls.nIters,
      timesCalls := if reduced then c3.2 else ls.timesCalls, transCalls := if reduced then c4.2 else c2.2 }

/-- `cond_func` (cvx/spgl1.py:684-703). -/
def bpCondC (b : CVec m) (sigma : ℝ) (o : Spgl1Opts) (s : BpStateC m n) : Prop :=
  ((s.rGap > max o.optTol s.rFError ∧ s.rResError > o.optTol) ∨ (s.rNorm > sigma ∧ s.rResError > o.optTol ∧ s.rNorm > o.bpTol * ‖b‖)) ∧
  s.iterations < o.maxIters ∧ s.nTimes + s.nTrans < o.maxMatvec

/-- The loop of `solve_bpic_from(A, b, sigma, x0, options)` passes through `s` (cvx/spgl1.py:561-711). A division by zero ends the modelled run. -/
inductive BpReachC (A : CVec n → CVec m) (At : CVec m → CVec n) (b : CVec m) (sigma : ℝ) (x0 : CVec n) (o : Spgl1Opts) : BpStateC m n → Prop
  | init {s : BpStateC m n} : bpInitC A At b sigma x0 o = some s → BpReachC A At b sigma x0 o s
  | step {s s' : BpStateC m n} : BpReachC A At b sigma x0 o s → bpCondC b sigma o s → bpBodyC A At b sigma o s = some s' →
      BpReachC A At b sigma x0 o s'

/-- `solve_bp(A, b, options)` of a complex operator (cvx/spgl1.py:764-779) passes through `s`: the start and `sigma` are zero, and line 776 makes the start complex. -/
def BpSolveReachC (A : CVec n → CVec m) (At : CVec m → CVec n) (b : CVec m) (o : Spgl1Opts) (s : BpStateC m n) : Prop :=
  BpReachC A At b 0 0 o s

/-- `solve_bpic(A, b, sigma, options)` (cvx/spgl1.py:715-724) passes through `s`: the start is zero, of the type of `b`. -/
def BpicReachC (A : CVec n → CVec m) (At : CVec m → CVec n) (b : CVec m) (sigma : ℝ) (o : Spgl1Opts) (s : BpStateC m n) : Prop :=
  BpReachC A At b sigma 0 o s


end Verif.Cvx
