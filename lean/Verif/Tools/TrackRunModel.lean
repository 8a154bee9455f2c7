import Verif.Loop
import Verif.Tools.TrackerModel
import Verif.Pursuit.GreedyModel
import Verif.Pursuit.MpModel
import Verif.Cvx.Spgl1Model
import Mathlib.Analysis.SpecialFunctions.Log.Base

set_option autoImplicit false
/-!
# Model of a solver run watched by a tracker (tracker.py and the `jax.debug.callback` calls of the solvers)

A solver calls its tracker from the loop condition, so the tracker sees the states at the loop header. `jax.debug.callback` is external; its calls are taken
to arrive once each and in program order.
-/
noncomputable section
namespace Verif.Tools
open Verif.Loop Verif.Pursuit Verif.Cvx

/-- What `hasattr` finds on the state given to a tracker (tracker.py:20-46): the attribute `x`, the attributes `I` and `x_I`, `r_norm_sqr`, `r`. -/
structure StateView (𝕜 E : Type*) where
  iterations : ℕ
  x : Option (List 𝕜)
  xI : Option (List ℕ × List 𝕜)
  rNormSqr : Option ℝ
  r : Option E

section defs
variable {𝕜 E : Type*} [RCLike 𝕜] [NormedAddCommGroup E]

/-- `np.abs(np.vdot(v, v))`. -/
def energy (v : List 𝕜) : ℝ := (v.map fun c => ‖c‖ ^ 2).sum

/-- `np.linalg.norm(v)` of a 1-D array. -/
def norm2 (v : List 𝕜) : ℝ := Real.sqrt (energy v)

/-- `get_x_norm` (tracker.py:20-25). -/
def getXNorm (s : StateView 𝕜 E) : ℝ :=
  match s.xI, s.x with
  | some p, _ => norm2 p.2
  | none, some x => norm2 x
  | none, none => 0

/-- `get_r_norm` (tracker.py:27-31); `none` is the value `None` which it returns if the state has neither attribute. -/
def getRNorm (s : StateView 𝕜 E) : Option ℝ :=
  match s.rNormSqr, s.r with
  | some q, _ => some (Real.sqrt q)
  | none, some r => some ‖r‖
  | none, none => none

/-- `build_sparse_signal(length, indices, values)` (tracker.py:33-36), for indices below `length`. -/
def buildSparse (n : ℕ) (I : List ℕ) (v : List 𝕜) : List 𝕜 := (List.range n).map (buildSignal I v)

/-- `get_x_like(state, x0)` (tracker.py:39-45). -/
def getXLike (s : StateView 𝕜 E) (x0 : List 𝕜) : List 𝕜 :=
  match s.x, s.xI with
  | some x, _ => x
  | none, some p => buildSparse x0.length p.1 p.2
  | none, none => x0.map fun _ => 0

/-- `signal_noise_ratio(reference, test)` (tracker.py:48-57), for arrays of the same length; `eps` is the float64 machine epsilon. -/
def signalNoiseRatio (ref test : List 𝕜) : ℝ :=
  let refE := energy ref
  let errE := energy (ref.zipWith (fun a b => a - b) test)
  let eps : ℝ := 2 ^ (-52 : ℤ)
  let errE := if errE = 0 then eps else errE
  let refE := if refE = 0 then eps else refE
  10 * Real.logb 10 (refE / errE)

/-- What `ProgressTracker.__call__` reads of one state (tracker.py:106-117); `none` when there is no residual to format (`None` has no `:.2e` format). -/
def callOf (x0 : Option (List 𝕜)) (s : StateView 𝕜 E) (more : Bool) : Option (Call ℝ) :=
  (getRNorm s).map fun q => { iterations := s.iterations, xNorm := getXNorm s, rNorm := q, snr := signalNoiseRatio (x0.getD []) (getXLike s (x0.getD [])), more := more }

/-- `tracker = ProgressTracker(x0, every)` after the callbacks `l` (tracker.py:77-122); `none` if one of them raised. -/
def runTracker (x0 : Option (List 𝕜)) (every : ℕ) (l : List (StateView 𝕜 E × Bool)) : Option (Tracker ℝ) :=
  (l.mapM fun p => callOf x0 p.1 p.2).map fun cs => cs.foldl track (newTracker ℝ x0.isSome every)

/-- `SPState`, `CoSaMPState` as a tracker sees them (pursuit/defs.py:118-134, 153-157: no attribute `x`). -/
def greedyView (s : GState 𝕜 E) : StateView 𝕜 E := { iterations := s.iters, x := none, xI := some (s.I, s.x), rNormSqr := some s.rr, r := some s.r }

end defs

/-- A run of `while cond(s): s = body(s)` from `s` whose condition reports its argument and its value to a tracker (cvx/spgl1.py:390-403, 702-706, pursuit/sp.py:190-204,
pursuit/cosamp.py:223-243): the list of reports and the state returned. -/
inductive Watched {σ : Type*} (c : σ → Prop) (f : σ → σ) : σ → List (σ × Bool) → σ → Prop
  | done {s : σ} : ¬ c s → Watched c f s [(s, false)] s
  | step {s t : σ} {l : List (σ × Bool)} : c s → Watched c f (f s) l t → Watched c f s ((s, true) :: l) t

/-- `MPState` as a tracker sees it, for `n` atoms (pursuit/mp.py:24-47): the property `x_I` (42-43) holds the nonzero values and `I` (38-39) their positions (`crdsp.support`
and `crdsp.nonzero_values` are external). -/
def mpView {E : Type*} (n : ℕ) (s : MpState E) : StateView ℝ E :=
  { iterations := s.iters, x := some ((List.range n).map s.x),
    xI := some ((List.range n).filter fun i => s.x i ≠ 0, ((List.range n).filter fun i => s.x i ≠ 0).map s.x), rNormSqr := some s.rr, r := some s.r }

/-- The reports of matching pursuit (pursuit/mp.py:125-126, 201-202): `more` is not passed, so it has its default `False`. -/
def mpReports {E : Type*} (l : List (MpState E × Bool)) : List (MpState E × Bool) := l.map fun p => (p.1, false)

/-- `SPGL1LassoState` as a tracker sees it (cvx/spgl1.py:267-293). -/
def lassoView {m n : ℕ} (s : LassoState m n) : StateView ℝ (Opt.Vec m) :=
  { iterations := s.iterations, x := some (List.ofFn s.x.ofLp), xI := none, rNormSqr := none, r := some s.r }

end Verif.Tools
