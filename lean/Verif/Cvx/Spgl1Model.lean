import Verif.Opt.ProjModel
import Verif.Opt.SpgModel
import Verif.Sls.LsqrModel

set_option autoImplicit false
/-!
# Model of SPGL1 (cvx/spgl1.py)

Real arrays; the operator is a pair of functions `A = times`, `At = trans`. `timesCalls` and `transCalls` are ghost counts of the operator
calls really made (see `Verif.Sls.counted`); the code has only the reported `n_times`, `n_trans`.
-/
noncomputable section
namespace Verif.Cvx
open Verif.Loop Verif.Opt
open Verif.Sls (counted)
open scoped RealInnerProductSpace

variable {m n : ℕ}

/-- `project_to_l1_ball(x, q)` (cvx/spgl1.py:81-114) on real arrays; the same code as `proj_l1_ball` (see `Verif.Opt.projL1Ball`). -/
def projectToL1Ball (x : Vec n) (q : ℝ) : Vec n := projL1Ball q none x

/-- `crn.norm_linf` / `dual_norm` (cvx/spgl1.py:131; external): the largest magnitude (0 for an empty array). -/
def linf (x : Vec n) : ℝ := ‖x.ofLp‖

/-- `obj_val(r)` (cvx/spgl1.py:139-142). -/
def objVal (r : Vec m) : ℝ := 0.5 * |⟪r, r⟫|

/-- `SPGL1Options` (cvx/spgl1.py:51-73), the fields used. -/
structure Spgl1Opts where
  bpTol : ℝ
  optTol : ℝ
  decTol : ℝ
  gamma : ℝ
  alphaMin : ℝ
  alphaMax : ℝ
  memory : ℕ
  maxMatvec : ℕ
  maxIters : ℕ

/-- `jnp.clip(v, lo, hi)`. -/
def clip (v lo hi : ℝ) : ℝ := min (max v lo) hi

/-- `CurvyLineSearchState` (cvx/spgl1.py:148-161). -/
structure CurvyState (m n : ℕ) where
  alpha : ℝ
  scale : ℝ
  xNew : Vec n
  rNew : Vec m
  dNew : Vec n
  gtd : ℝ
  dNormOld : ℝ
  fVal : ℝ
  fLim : ℝ
  nIters : ℕ
  nSafe : ℕ
  timesCalls : ℕ

/-- `candidate` (cvx/spgl1.py:191-198) followed by the construction of the state (204-208, 226-230); `g` is already scaled by `alpha0`. -/
def curvyCandidate (A : Vec n → Vec m) (b : Vec m) (x g : Vec n) (fMax tau gamma alpha scale dNormOld : ℝ) (nIters nSafe calls : ℕ) :
    CurvyState m n :=
  let xNew := projectToL1Ball (x - (alpha * scale) • g) tau
  let c := counted A xNew calls
  let rNew := b - c.1
  let dNew := xNew - x
  let gtd := scale * ⟪g, dNew⟫
  let fVal := objVal rNew
  let fLim := fMax + gamma * alpha * gtd
  { alpha := alpha, scale := scale, xNew := xNew, rNew := rNew, dNew := dNew, gtd := gtd, dNormOld := dNormOld, fVal := fVal, fLim := fLim,
    nIters := nIters, nSafe := nSafe, timesCalls := c.2 }

/-- `init` of the line search (cvx/spgl1.py:200-208). -/
def curvyInit (A : Vec n → Vec m) (b : Vec m) (x g : Vec n) (fMax tau gamma : ℝ) (calls : ℕ) : CurvyState m n :=
  curvyCandidate A b x g fMax tau gamma 1 1 0 0 0 calls

/-- `next_func` (cvx/spgl1.py:210-230). -/
def curvyNext (A : Vec n → Vec m) (b : Vec m) (x g : Vec n) (fMax tau gamma : ℝ) (s : CurvyState m n) : CurvyState m n :=
  let n2 := Real.sqrt n
  let gNorm := ‖g‖ / n2
  let alpha := s.alpha / 2
  let dNorm := ‖s.dNew‖ / n2
  let tooClose := |dNorm - s.dNormOld| ≤ 1e-6 * dNorm
  let scale := if tooClose then dNorm / gNorm / 2 ^ s.nSafe else s.scale
  let nSafe := if tooClose then s.nSafe + 1 else s.nSafe
  curvyCandidate A b x g fMax tau gamma alpha scale dNorm (s.nIters + 1) nSafe s.timesCalls

/-- `cond_func` (cvx/spgl1.py:232-239). -/
def curvyCond (s : CurvyState m n) : Prop := s.nIters < 10 ∧ s.gtd < 0 ∧ s.fVal ≥ s.fLim

open Classical in
/-- `curvy_line_search(A, b, x, g, alpha0, f_max, project_to_l1_ball, tau, gamma)` (cvx/spgl1.py:181-247). The loop is capped at 10 rounds, so 10 units
of fuel run it to the end (`curvy_out`). -/
def curvyLineSearch (A : Vec n → Vec m) (b : Vec m) (x g : Vec n) (alpha0 fMax tau gamma : ℝ) (calls : ℕ) : CurvyState m n :=
  let g := alpha0 • g
  run curvyCond (curvyNext A b x g fMax tau gamma) 10 (curvyInit A b x g fMax tau gamma calls)

/-- The relative duality gap of `lasso_metrics` (cvx/spgl1.py:254-264) and `bpic_metrics` (513-523). -/
def relGap (b : Vec m) (g : Vec n) (r : Vec m) (f tau : ℝ) : ℝ := |⟪r, r - b⟫ + tau * linf g| / max 1 f

/-- The next spectral step (cvx/spgl1.py:373-380, 663-670). -/
def nextAlpha (o : Spgl1Opts) (s y : Vec n) : ℝ := if ⟪s, y⟫ ≤ 0 then o.alphaMax else clip (⟪s, s⟫ / ⟪s, y⟫) o.alphaMin o.alphaMax

/-- The first spectral step `clip(1 / linf(d), alpha_min, alpha_max)` (cvx/spgl1.py:343-345, 594-596); `1/0` is `inf`. -/
def firstAlpha (o : Spgl1Opts) (d : Vec n) : ℝ := if linf d = 0 then o.alphaMax else clip (1 / linf d) o.alphaMin o.alphaMax

/-- `SPGL1LassoState` (cvx/spgl1.py:267-293) with the ghost call counts. -/
structure LassoState (m n : ℕ) where
  x : Vec n
  g : Vec n
  r : Vec m
  fPast : List ℝ
  rNorm : ℝ
  rGap : ℝ
  alpha : ℝ
  alphaNext : ℝ
  iterations : ℕ
  nTimes : ℕ
  nTrans : ℕ
  nLsIters : ℕ
  timesCalls : ℕ
  transCalls : ℕ

/-- `init` (cvx/spgl1.py:329-352). -/
def lassoInit (A : Vec n → Vec m) (At : Vec m → Vec n) (b : Vec m) (tau : ℝ) (x0 : Vec n) (o : Spgl1Opts) : LassoState m n :=
  let x := projectToL1Ball x0 tau
  let c1 := counted A x 0
  let r := b - c1.1
  let c2 := counted At r 0
  let g := -c2.1
  let f := objVal r
  let d := projectToL1Ball (x - g) tau - x
  let alpha := firstAlpha o d
  { x := x, g := g, r := r, fPast := List.replicate o.memory f, rNorm := ‖r‖, rGap := relGap b g r f tau, alpha := alpha, alphaNext := alpha,
    iterations := 1, nTimes := 1, nTrans := 1, nLsIters := 0, timesCalls := c1.2, transCalls := c2.2 }

/-- `body_func` (cvx/spgl1.py:354-388). Line 387 stores `n_times` in the field `n_trans`. -/
def lassoBody (A : Vec n → Vec m) (At : Vec m → Vec n) (b : Vec m) (tau : ℝ) (o : Spgl1Opts) (s : LassoState m n) : LassoState m n :=
  let fMax := listMax s.fPast
  let ls := curvyLineSearch A b s.x s.g s.alphaNext fMax tau o.gamma s.timesCalls
  let nTimes := s.nTimes + ls.nIters + 1
  let x := ls.xNew
  let r := ls.rNew
  let c2 := counted At r s.transCalls
  let g := -c2.1
  let f := ls.fVal
  { x := x, g := g, r := r, fPast := cbufPushLeft s.fPast f, rNorm := ‖r‖, rGap := relGap b g r f tau, alpha := ls.alpha,
    alphaNext := nextAlpha o (x - s.x) (g - s.g), iterations := s.iterations + 1, nTimes := nTimes, nTrans := nTimes,
    nLsIters := s.nLsIters + ls.nIters, timesCalls := ls.timesCalls, transCalls := c2.2 }

/-- `cond_func` (cvx/spgl1.py:390-398). -/
def lassoCond (b : Vec m) (o : Spgl1Opts) (s : LassoState m n) : Prop :=
  s.iterations < o.maxIters ∧ s.rGap > o.optTol ∧ s.rNorm ≥ o.optTol * ‖b‖

/-- The loop of `solve_lasso_from(A, b, tau, x0, options)` passes through `s` (cvx/spgl1.py:313-405). -/
def LassoReach (A : Vec n → Vec m) (At : Vec m → Vec n) (b : Vec m) (tau : ℝ) (x0 : Vec n) (o : Spgl1Opts) (s : LassoState m n) : Prop :=
  Reach (lassoCond b o) (lassoBody A At b tau o) (lassoInit A At b tau x0 o) s

/-- `solve_lasso_from(A, b, tau, x0, options)` returns `s` (cvx/spgl1.py:313-405). -/
def LassoSolveFrom (A : Vec n → Vec m) (At : Vec m → Vec n) (b : Vec m) (tau : ℝ) (x0 : Vec n) (o : Spgl1Opts) (s : LassoState m n) : Prop :=
  Out (lassoCond b o) (lassoBody A At b tau o) (lassoInit A At b tau x0 o) s

/-- `solve_lasso(A, b, tau, options)` (cvx/spgl1.py:407-416). -/
def LassoSolve (A : Vec n → Vec m) (At : Vec m → Vec n) (b : Vec m) (tau : ℝ) (o : Spgl1Opts) (s : LassoState m n) : Prop :=
  LassoSolveFrom A At b tau 0 o s

/-- `SPGL1BPState` (cvx/spgl1.py:454-490) with the ghost call counts. -/
structure BpState (m n : ℕ) where
  x : Vec n
  g : Vec n
  r : Vec m
  fPast : List ℝ
  tau : ℝ
  tauChanged : Prop
  rNorm : ℝ
  rGap : ℝ
  rResError : ℝ
  rFError : ℝ
  alpha : ℝ
  alphaNext : ℝ
  iterations : ℕ
  nTimes : ℕ
  nTrans : ℕ
  nNewton : ℕ
  nLsIters : ℕ
  timesCalls : ℕ
  transCalls : ℕ

/-- The Newton update `max(0, tau + r_norm (r_norm - sigma) / g_dnorm)` (cvx/spgl1.py:584, 649); `none` if the division is by zero. -/
def newtonTau (tau rNorm sigma gDnorm : ℝ) : Option ℝ := if gDnorm = 0 then none else some (max 0 (tau + rNorm * (rNorm - sigma) / gDnorm))

/-- `r_res_error` (cvx/spgl1.py:522, 525, 527). -/
def resError (rNorm sigma : ℝ) : ℝ := |rNorm - sigma| / max 1 rNorm

/-- `r_f_error` (cvx/spgl1.py:521, 526, 528). -/
def fError (f sigma : ℝ) : ℝ := |f - sigma ^ 2 / 2| / max 1 f

/-- `init` (cvx/spgl1.py:576-609), `none` if the Newton update divides by zero (zero gradient). `update_xrgf` (550-559) is inlined. -/
def bpInit (A : Vec n → Vec m) (At : Vec m → Vec n) (b : Vec m) (sigma : ℝ) (x0 : Vec n) (o : Spgl1Opts) : Option (BpState m n) :=
  let tau := l1 x0
  let x := projectToL1Ball x0 tau
  let c1 := counted A x 0
  let r := b - c1.1
  let c2 := counted At r 0
  let g := -c2.1
  let f := objVal r
  let rNorm := ‖r‖
  (newtonTau tau rNorm sigma (linf g)).map fun tau' =>
    let d := projectToL1Ball (x - g) 0 - x
    let alpha := firstAlpha o d
    { x := x, g := g, r := r, fPast := List.replicate o.memory f, tau := tau', tauChanged := True, rNorm := rNorm, rGap := relGap b g r f tau,
      rResError := resError rNorm sigma, rFError := fError f sigma, alpha := alpha, alphaNext := alpha, iterations := 1, nTimes := 2, nTrans := 2,
      nNewton := 1, nLsIters := 0, timesCalls := c1.2, transCalls := c2.2 }

/-- The decision to change tau (cvx/spgl1.py:632-646). -/
def changeTau (o : Spgl1Opts) (f fOld rNorm sigma : ℝ) (changed : Prop) : Prop :=
  let fChange := |f - fOld|
  ((fChange ≤ o.decTol * f ∧ rNorm > 2 * sigma) ∨ (fChange ≤ 1e-1 * f * |rNorm - sigma| ∧ rNorm ≤ 2 * sigma)) ∧ ¬ changed

open Classical in
/-- `body_func` (cvx/spgl1.py:612-681), `none` if the Newton update divides by zero. -/
def bpBody (A : Vec n → Vec m) (At : Vec m → Vec n) (b : Vec m) (sigma : ℝ) (o : Spgl1Opts) (s : BpState m n) : Option (BpState m n) :=
  let fMax := listMax s.fPast
  let ls := curvyLineSearch A b s.x s.g s.alphaNext fMax s.tau o.gamma s.timesCalls
  let nTimes := s.nTimes + ls.nIters + 1
  let c2 := counted At ls.rNew s.transCalls
  let g := -c2.1
  let nTrans := s.nTrans + 1
  let f := ls.fVal
  let rNorm := ‖ls.rNew‖
  let change := changeTau o f (s.fPast.headD 0) rNorm sigma s.tauChanged
  (if change then newtonTau s.tau rNorm sigma (linf g) else some s.tau).map fun tau =>
    let reduced := tau < s.tau
    let x' := if reduced then projectToL1Ball ls.xNew tau else ls.xNew
    let c3 := counted A x' ls.timesCalls
    let r' := if reduced then b - c3.1 else ls.rNew
    let c4 := counted At r' c2.2
    let g' := if reduced then -c4.1 else g
    let f' := if reduced then objVal r' else f
    { x := x', g := g', r := r', fPast := cbufPushLeft s.fPast f', tau := tau, tauChanged := change, rNorm := rNorm,
      rGap := relGap b g ls.rNew f s.tau, rResError := resError rNorm sigma, rFError := fError f sigma, alpha := ls.alpha,
      alphaNext := nextAlpha o (x' - s.x) (g' - s.g), iterations := s.iterations + 1, nTimes := nTimes + (if reduced then 1 else 0),
      nTrans := nTrans + (if reduced then 1 else 0), nNewton := s.nNewton + (if change then 1 else 0), nLsIters := s.nLsIters + ls.nIters,
      timesCalls := if reduced then c3.2 else ls.timesCalls, transCalls := if reduced then c4.2 else c2.2 }

/-- `cond_func` (cvx/spgl1.py:684-703). -/
def bpCond (b : Vec m) (sigma : ℝ) (o : Spgl1Opts) (s : BpState m n) : Prop :=
  ((s.rGap > max o.optTol s.rFError ∧ s.rResError > o.optTol) ∨ (s.rNorm > sigma ∧ s.rResError > o.optTol ∧ s.rNorm > o.bpTol * ‖b‖)) ∧
  s.iterations < o.maxIters ∧ s.nTimes + s.nTrans < o.maxMatvec

/-- The loop of `solve_bpic_from(A, b, sigma, x0, options)` passes through `s` (cvx/spgl1.py:561-711). A division by zero ends the modelled run. -/
inductive BpReach (A : Vec n → Vec m) (At : Vec m → Vec n) (b : Vec m) (sigma : ℝ) (x0 : Vec n) (o : Spgl1Opts) : BpState m n → Prop
  | init {s : BpState m n} : bpInit A At b sigma x0 o = some s → BpReach A At b sigma x0 o s
  | step {s s' : BpState m n} : BpReach A At b sigma x0 o s → bpCond b sigma o s → bpBody A At b sigma o s = some s' → BpReach A At b sigma x0 o s'

end Verif.Cvx
