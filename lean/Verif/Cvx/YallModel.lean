import Verif.Cvx.Spgl1Model
import Verif.Sls.LsqrModel

set_option autoImplicit false
/-!
# Model of the alternating direction solvers of YALL1 (cvx/adm/yall1.py)

Real arrays; the operator is a pair of functions `A = times`, `At = trans`. The three solvers `solve_bp`, `solve_l1_l2` and `solve_l1_l2con`
differ only in the update of `y`, the objectives and the stopping test, so they share a definition indexed by the problem form. `timesCalls` and
`transCalls` are ghost counts of the operator calls really made. The array `b` is not zero and the weights are positive in all runs considered:
otherwise the code divides zero by zero (`b_max`, `mu`, `w / ww`). The tracing wrappers `*_jit` (201, 326, 458) compute the same values.
-/
noncomputable section
namespace Verif.Cvx
open Verif.Loop Verif.Opt
open Verif.Sls (counted)
open scoped RealInnerProductSpace

variable {m n : ℕ}

/-- The three problems: basis pursuit, the penalised problem with its `rho`, the constrained problem with its `delta`. -/
inductive YallForm
  | bp
  | l1l2 (rho : ℝ)
  | con (delta : ℝ)

/-- `project_to_box(z, w)` (cvx/adm/yall1.py:29-32). -/
def projectToBox (z w : Vec n) : Vec n := vec fun i => z i * (w i / max (w i) |z i|)

/-- `project_to_real_upper_limit(z, w)` (cvx/adm/yall1.py:34-35), real arrays. -/
def projectToUpper (z w : Vec n) : Vec n := vec fun i => min (w i) (z i)

/-- `BPState` (cvx/adm/yall1.py:38-58) and the ghost counts. -/
structure YallState (m n : ℕ) where
  x : Vec n
  xPrev : Vec n
  z : Vec n
  rp : Vec m
  rd : Vec n
  primal : ℝ
  dual : ℝ
  iterations : ℕ
  nTimes : ℕ
  nTrans : ℕ
  timesCalls : ℕ
  transCalls : ℕ

/-- The arguments of a solver besides the operator and the starting point. -/
structure YallArgs (m n : ℕ) where
  form : YallForm
  b : Vec m
  w : Vec n
  nonneg : Bool
  gamma : ℝ
  tol : ℝ
  maxIters : ℕ

/-- `mu = jnp.mean(jnp.abs(b))` (cvx/adm/yall1.py:97, 212, 338). -/
def yallMu (b : Vec m) : ℝ := l1 b / m

/-- `primal_objective` (cvx/adm/yall1.py:107, 138, 228, 269, 353, 387). -/
def yallPrimal (p : YallArgs m n) (x : Vec n) (rp : Vec m) : ℝ :=
  match p.form with
  | .l1l2 rho => (∑ i, |p.w i * x i|) + (0.5 / rho) * ⟪rp, rp⟫
  | _ => ∑ i, |p.w i * x i|

/-- `dual_objective` (cvx/adm/yall1.py:140, 272, 389). -/
def yallDual (p : YallArgs m n) (y : Vec m) : ℝ :=
  match p.form with
  | .bp => ⟪p.b, y⟫
  | .l1l2 rho => ⟪p.b, y⟫ - (0.5 * rho) * ⟪y, y⟫
  | .con delta => ⟪p.b, y⟫ - delta * ‖y‖

/-- `init` (cvx/adm/yall1.py:102-114, 220-236, 348-360). -/
def yallInit (A : Vec n → Vec m) (At : Vec m → Vec n) (p : YallArgs m n) (x0 z0 : Vec n) : YallState m n :=
  let c := counted A x0 0
  let d := counted At p.b 0
  let rp := p.b - c.1
  { x := x0, xPrev := 0, z := z0, rp := rp, rd := -d.1, primal := yallPrimal p x0 rp, dual := 0, iterations := 0, nTimes := 1, nTrans := 1,
    timesCalls := c.2, transCalls := d.2 }

/-- The update of `y` after `times(z - x / mu) + b / mu` was computed (cvx/adm/yall1.py:119, 242, 367-368). When the norm is zero the code's factor is
`max(0, 1 - inf) = 0` and here it is 1; the product with the zero array is zero either way. -/
def yallShrink (f : YallForm) (mu : ℝ) (yt : Vec m) : Vec m :=
  match f with
  | .bp => yt
  | .l1l2 rho => (rho / mu + 1)⁻¹ • yt
  | .con delta => max 0 (1 - delta / mu / ‖yt‖) • yt

/-- The projection of the dual variable (cvx/adm/yall1.py:123, 249, 372). -/
def yallProj (nonneg : Bool) (z w : Vec n) : Vec n := if nonneg then projectToUpper z w else projectToBox z w

/-- `iteration` (cvx/adm/yall1.py:116-146, 238-278, 362-402). -/
def yallIter (A : Vec n → Vec m) (At : Vec m → Vec n) (p : YallArgs m n) (s : YallState m n) : YallState m n :=
  let mu := yallMu p.b
  let xm := mu⁻¹ • s.x
  let c := counted A (s.z - xm) s.timesCalls
  let y := yallShrink p.form mu (c.1 + mu⁻¹ • p.b)
  let d := counted At y s.transCalls
  let z := yallProj p.nonneg (d.1 + xm) p.w
  let rd := z - d.1
  let x := s.x - (p.gamma * mu) • rd
  let e := counted A x c.2
  let rp := p.b - e.1
  { x := x, xPrev := s.x, z := z, rp := rp, rd := rd, primal := yallPrimal p x rp, dual := yallDual p y, iterations := s.iterations + 1,
    nTimes := s.nTimes + 1 + 1, nTrans := s.nTrans + 1, timesCalls := e.2, transCalls := d.2 }

/-- `double_iteration` (cvx/adm/yall1.py:148-150, 280-282, 404-406). -/
def yallBody (A : Vec n → Vec m) (At : Vec m → Vec n) (p : YallArgs m n) (s : YallState m n) : YallState m n :=
  yallIter A At p (yallIter A At p s)

/-- `a / b > c` for nonnegative `a` and `b` and finite `c`: a positive number over zero is `inf`, zero over zero is `nan`. -/
def ratioGt (a b c : ℝ) : Prop := (b ≠ 0 ∧ a / b > c) ∨ (b = 0 ∧ 0 < a)

/-- The relative gap test (cvx/adm/yall1.py:173-176, 305-307, 429-432). -/
def gapInfeasible (p : YallArgs m n) (s : YallState m n) : Prop := ratioGt |s.dual - s.primal| s.primal p.tol

/-- The dual feasibility test (cvx/adm/yall1.py:169-170, 302, 425-426). -/
def dInfeasible (p : YallArgs m n) (s : YallState m n) : Prop := ratioGt ‖s.rd‖ ‖s.z‖ p.tol

/-- `cond` (cvx/adm/yall1.py:152-193, 284-317, 408-449). -/
def yallCond (p : YallArgs m n) (s : YallState m n) : Prop :=
  match p.form with
  | .bp => ((gapInfeasible p s ∨ dInfeasible p s) ∨ ‖s.rp‖ ≥ p.tol * ‖p.b‖) ∧ s.iterations < p.maxIters ∧
      ratioGt ‖s.x - s.xPrev‖ ‖s.x‖ (p.tol * (1 - 0.1))
  | .l1l2 _ => (s.iterations < p.maxIters ∧ ratioGt ‖s.x - s.xPrev‖ ‖s.x‖ (p.tol * (1 - 0.1))) ∧ (gapInfeasible p s ∨ dInfeasible p s)
  | .con delta => ((gapInfeasible p s ∨ dInfeasible p s) ∨ ‖s.rp‖ > delta * (1 + p.tol)) ∧ s.iterations < p.maxIters ∧
      ratioGt ‖s.x - s.xPrev‖ ‖s.x‖ p.tol

/-- The states at the loop header (cvx/adm/yall1.py:198, 322, 454). -/
def YallReach (A : Vec n → Vec m) (At : Vec m → Vec n) (p : YallArgs m n) (x0 z0 : Vec n) (s : YallState m n) : Prop :=
  Reach (yallCond p) (yallBody A At p) (yallInit A At p x0 z0) s

/-- The state returned by the loop (cvx/adm/yall1.py:198-199, 322-323, 454-455). -/
def YallOut (A : Vec n → Vec m) (At : Vec m → Vec n) (p : YallArgs m n) (x0 z0 : Vec n) (s : YallState m n) : Prop :=
  Out (yallCond p) (yallBody A At p) (yallInit A At p x0 z0) s

/-- `RecoveryFullSolution` as `solve` fills it (cvx/adm/yall1.py:501-503, 544-547), with the ghost counts. -/
structure YallResult (m n : ℕ) where
  x : Vec n
  r : Vec m
  iterations : ℕ
  nTimes : ℕ
  nTrans : ℕ
  timesCalls : ℕ
  transCalls : ℕ

/-- The problem form selected by `rho` and `delta` and its data after scaling (cvx/adm/yall1.py:517-518, 521-529). -/
def yallSelect (rho delta bMax : ℝ) : YallForm :=
  if 0 < rho then .l1l2 (rho / bMax) else if 0 < delta then .con (delta / bMax) else .bp

/-- The test for the zero solution (cvx/adm/yall1.py:494-498). -/
def YallZero (b : Vec m) (Atb : Vec n) (rho delta : ℝ) : Prop :=
  if 0 < delta then ‖b‖ ≤ delta else if 0 < rho then linf Atb ≤ rho else False

/-- The weights (cvx/adm/yall1.py:510-513). -/
def yallWeights (weights : Option (Vec n)) : Vec n :=
  match weights with
  | none => vec fun _ => 1
  | some v => vec fun i => 1 * v i

/-- The scaled arguments handed to the solver (cvx/adm/yall1.py:492, 515-518). -/
def yallArgs (b : Vec m) (weights : Option (Vec n)) (nonneg : Bool) (rho delta gamma tol : ℝ) (maxIters : ℕ) : YallArgs m n :=
  { form := yallSelect rho delta (linf b), b := (linf b)⁻¹ • b, w := yallWeights weights, nonneg := nonneg, gamma := gamma, tol := tol,
    maxIters := maxIters }

/-- Clipping of the solution (cvx/adm/yall1.py:540). -/
def yallClip (nonneg : Bool) (x : Vec n) : Vec n := if nonneg then vec fun i => max 0 (x i) else x

/-- `solve` without a sparsifying basis (cvx/adm/yall1.py:486-547). -/
def YallSolve (A : Vec n → Vec m) (At : Vec m → Vec n) (b : Vec m) (x0 z0 weights : Option (Vec n)) (nonneg : Bool) (rho delta gamma tol : ℝ)
    (maxIters : ℕ) (res : YallResult m n) : Prop :=
  let c := counted At b 0
  (YallZero b c.1 rho delta ∧ res = { x := 0, r := b, iterations := 0, nTimes := 0, nTrans := 1, timesCalls := 0, transCalls := c.2 }) ∨
  (¬ YallZero b c.1 rho delta ∧ ∃ s, YallOut A At (yallArgs b weights nonneg rho delta gamma tol maxIters)
      (x0.getD ((linf b)⁻¹ • c.1)) (z0.getD 0) s ∧
    res = { x := linf b • yallClip nonneg s.x, r := linf b • s.rp, iterations := s.iterations, nTimes := s.nTimes + 0, nTrans := s.nTrans + 1,
            timesCalls := s.timesCalls, transCalls := c.2 + s.transCalls })

/-- `solve` with a sparsifying basis `W` of `n` vectors (cvx/adm/yall1.py:484-486, 541-543): the operator becomes `A @ W` and the solution is mapped
back. The code maps back before it multiplies by `b_max` and does not map the zero solution; for a linear `W` this is the same. -/
def YallSolveW (A : Vec n → Vec m) (At : Vec m → Vec n) (W Wt : Vec n → Vec n) (b : Vec m) (x0 z0 weights : Option (Vec n)) (nonneg : Bool)
    (rho delta gamma tol : ℝ) (maxIters : ℕ) (res : YallResult m n) : Prop :=
  ∃ core, YallSolve (fun x => A (W x)) (fun y => Wt (At y)) b x0 z0 weights nonneg rho delta gamma tol maxIters core ∧
    res = { core with x := W core.x }

/-- `bp_setup(A, b)` followed by `solve_bp` and `finalize` (cvx/adm/yall1.py:61-87): the scaled data and the way back are those of `solve` with unit
weights and neither `rho` nor `delta`. -/
def YallBp (A : Vec n → Vec m) (At : Vec m → Vec n) (b : Vec m) (nonneg : Bool) (gamma tol : ℝ) (maxIters : ℕ) (res : YallResult m n) : Prop :=
  let c := counted At b 0
  ∃ s, YallOut A At { form := .bp, b := (linf b)⁻¹ • b, w := vec fun _ => 1, nonneg := nonneg, gamma := gamma, tol := tol, maxIters := maxIters }
      ((linf b)⁻¹ • c.1) 0 s ∧
    res = { x := linf b • yallClip nonneg s.x, r := linf b • s.rp, iterations := s.iterations, nTimes := s.nTimes + 0, nTrans := s.nTrans + 1,
            timesCalls := s.timesCalls, transCalls := c.2 + s.transCalls }

end Verif.Cvx
