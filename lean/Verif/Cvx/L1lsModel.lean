import Verif.Cvx.Spgl1Model
import Verif.Opt.CgModel
import Mathlib.Analysis.InnerProductSpace.ProdL2
import Mathlib.Analysis.SpecialFunctions.Log.Basic

set_option autoImplicit false
/-!
# Model of the truncated Newton interior point solver (cvx/l1ls.py)

Real arrays; the operator is a pair of functions `A = times`, `At = trans`. An array of length `2n` obtained by concatenation is a pair of arrays of
length `n`, with the inner product of the concatenation. `timesCalls` and `transCalls` are ghost counts of the operator calls really made. The two
line search loops have no iteration limit, so one iteration is a relation.
-/
noncomputable section
namespace Verif.Cvx
open Verif.Loop Verif.Opt
open Verif.Sls (counted)
open scoped RealInnerProductSpace

variable {m n : ℕ}

/-- An array of length `2n` as a pair of halves `v[:n]`, `v[n:]`. -/
abbrev PVec (n : ℕ) := WithLp 2 (Vec n × Vec n)

/-- `jnp.concatenate((a, b))`. -/
def pv (a b : Vec n) : PVec n := WithLp.toLp 2 (a, b)

/-- Entrywise product `a * b`. -/
def had (a b : Vec n) : Vec n := vec fun i => a i * b i

/-- `State` (cvx/l1ls.py:84-114) without the step size `s`, which is only reported. `relDen` is the denominator of `rel_gap = gap / relDen`. -/
structure L1lsState (m n : ℕ) where
  x : Vec n
  u : Vec n
  z : Vec m
  nu : Vec m
  dxu : PVec n
  primal : ℝ
  dual : ℝ
  gap : ℝ
  relDen : ℝ
  t : ℝ
  iterations : ℕ
  nTimes : ℕ
  nTrans : ℕ
  timesCalls : ℕ
  transCalls : ℕ

/-- `get_primal_obj(x, z)` (cvx/l1ls.py:136-139). -/
def primalObj (lam : ℝ) (x : Vec n) (z : Vec m) : ℝ := ⟪z, z⟫ + lam * l1 x

/-- `get_dual_obj(nu)` (cvx/l1ls.py:141-144). -/
def dualObj (y nu : Vec m) : ℝ := -(1 / 4) * ⟪nu, nu⟫ - ⟪nu, y⟫

open Classical in
/-- `get_nu(z)` (cvx/l1ls.py:146-154) with the count of calls of `trans`; a quotient by zero is `inf`, which is not below 1. -/
def getNu (At : Vec m → Vec n) (lam : ℝ) (z : Vec m) (calls : ℕ) : Vec m × ℕ :=
  let nu := (2 : ℝ) • z
  let c := counted At nu calls
  (if linf c.1 ≠ 0 ∧ lam / linf c.1 < 1 then (lam / linf c.1) • nu else nu, c.2)

/-- `get_phi(u, z, f, t)` (cvx/l1ls.py:156-160) with `f = (x - u, -x - u)`. -/
def getPhi (lam : ℝ) (x u : Vec n) (z : Vec m) (t : ℝ) : ℝ :=
  ⟪z, z⟫ + lam * ∑ i, u i - ((∑ i, Real.log (-(x i - u i))) + ∑ i, Real.log (-(-x i - u i))) / t

/-- `init` (cvx/l1ls.py:125, 162-175). -/
def l1lsInit (A : Vec n → Vec m) (At : Vec m → Vec n) (y : Vec m) (lam : ℝ) (x0 u0 : Vec n) (t0 : ℝ) : L1lsState m n :=
  let c0 := counted At y 0
  let c1 := counted A x0 0
  let z := c1.1 - y
  let nu := getNu At lam z c0.2
  let p := primalObj lam x0 z
  let d := dualObj y nu.1
  { x := x0, u := u0, z := z, nu := nu.1, dxu := 0, primal := p, dual := d, gap := p - d, relDen := d, t := t0, iterations := 1, nTimes := 1,
    nTrans := 2, timesCalls := c1.2, transCalls := nu.2 }

/-- `t0` by default (cvx/l1ls.py:130). -/
def defaultT0 (n : ℕ) (lam : ℝ) : ℝ := min (max 1 (1 / lam)) (2 * n / 1e-3)

/-- `q1`, `q2` (cvx/l1ls.py:198-199). -/
def q1 (x u : Vec n) : Vec n := vec fun i => 1 / (u i + x i)
def q2 (x u : Vec n) : Vec n := vec fun i => 1 / (u i - x i)

/-- `d1`, `d2` (cvx/l1ls.py:201-202). -/
def d1 (x u : Vec n) (t : ℝ) : Vec n := vec fun i => (q1 x u i ^ 2 + q2 x u i ^ 2) / t
def d2 (x u : Vec n) (t : ℝ) : Vec n := vec fun i => (q1 x u i ^ 2 - q2 x u i ^ 2) / t

/-- `gradient_phi` (cvx/l1ls.py:205-208); `Atz2 = trans(2*z)`. -/
def gradPhi (lam : ℝ) (x u Atz2 : Vec n) (t : ℝ) : PVec n :=
  pv (vec fun i => Atz2 i - (q1 x u i - q2 x u i) / t) (vec fun i => lam * 1 - (q1 x u i + q2 x u i) / t)

/-- `hessian` (cvx/l1ls.py:213-221). -/
def hessian (A : Vec n → Vec m) (At : Vec m → Vec n) (x u : Vec n) (t : ℝ) (v : PVec n) : PVec n :=
  pv (At ((2 : ℝ) • A v.fst) + had (d1 x u t) v.fst + had (d2 x u t) v.snd) (had (d2 x u t) v.fst + had (d1 x u t) v.snd)

/-- `prb`, `prs` (cvx/l1ls.py:134, 229-231). -/
def prb (x u : Vec n) (t : ℝ) : Vec n := vec fun i => 2 * 1 + d1 x u t i
def prs (x u : Vec n) (t : ℝ) : Vec n := vec fun i => prb x u t i * d1 x u t i - d2 x u t i ^ 2

/-- `preconditioner` (cvx/l1ls.py:232-243). -/
def precond (x u : Vec n) (t : ℝ) (v : PVec n) : PVec n :=
  let p1 : Vec n := vec fun i => d1 x u t i / prs x u t i
  let p2 : Vec n := vec fun i => d2 x u t i / prs x u t i
  let p3 : Vec n := vec fun i => prb x u t i / prs x u t i
  pv (had p1 v.fst - had p2 v.snd) (-had p2 v.fst + had p3 v.snd)

open Classical in
/-- `pcg_tol` (cvx/l1ls.py:249-252); a quotient by zero is `inf` (the gap is positive inside the loop). -/
def pcgTol (xi gap : ℝ) (g : PVec n) : ℝ := if min 1 ‖g‖ = 0 then 1e-1 else min 1e-1 (xi * gap / min 1 ‖g‖)

/-- `pcg.solve_from(H, b, x0, max_iters, tol, M=M)` (opt/pcg.py:37-95, called at cvx/l1ls.py:254-256) with the count of applications of `H`: one in `init`
(opt/pcg.py:49) and one in each pass through `body` (opt/pcg.py:62). -/
def PcgCounted {E : Type*} [NormedAddCommGroup E] [InnerProductSpace ℝ E] (H M : E → E) (b x0 : E) (maxIters : ℕ) (tol : ℝ) (s : PCGState E × ℕ) :
    Prop :=
  Out (fun s : PCGState E × ℕ => pcgCond b maxIters tol 0 false s.1) (fun s => (pcgStep H M s.1, (counted H s.1.p s.2).2))
    (pcgInit H M b x0, (counted H x0 0).2) s

/-- The state of the inner loop `(newx, newu, newf, s)`, `newf` being determined by the rest (cvx/l1ls.py:277-281). -/
structure FState (n : ℕ) where
  x : Vec n
  u : Vec n
  s : ℝ

/-- `f_init(s)` (cvx/l1ls.py:277-281). -/
def fInit (x u dx du : Vec n) (s : ℝ) : FState n := { x := x + s • dx, u := u + s • du, s := s }

/-- `f_body` (cvx/l1ls.py:283-288), `BETA = 0.5`. -/
def fBody (x u dx du : Vec n) (p : FState n) : FState n := fInit x u dx du (0.5 * p.s)

/-- `f_cond` (cvx/l1ls.py:290-292): the largest entry of `newf` is nonnegative. -/
def fCond (p : FState n) : Prop := ∃ i, 0 ≤ p.x i - p.u i ∨ 0 ≤ -p.x i - p.u i

/-- The inner loop started at step `s` ends in `p` (cvx/l1ls.py:296, 305). -/
def FSearch (x u dx du : Vec n) (s : ℝ) (p : FState n) : Prop := Out fCond (fBody x u dx du) (fInit x u dx du s) p

/-- The state of the backtracking loop (cvx/l1ls.py:300). -/
structure BtState (m n : ℕ) where
  p : FState n
  z : Vec m
  phi : ℝ
  count : ℕ
  timesCalls : ℕ

/-- The state computed from the result of the inner loop (cvx/l1ls.py:297-300, 306-308). -/
def btNext (A : Vec n → Vec m) (y : Vec m) (lam t : ℝ) (count calls : ℕ) (p : FState n) : BtState m n :=
  let c := counted A p.x calls
  { p := p, z := c.1 - y, phi := getPhi lam p.x p.u (c.1 - y) t, count := count + 1, timesCalls := c.2 }

/-- `bt_cond` (cvx/l1ls.py:310-313), `ALPHA = 0.01`. -/
def btCond (phi gdx : ℝ) (b : BtState m n) : Prop := b.phi - phi > 0.01 * b.p.s * gdx

/-- States of the backtracking loop (cvx/l1ls.py:295-315). -/
inductive BtReach (A : Vec n → Vec m) (y : Vec m) (lam t : ℝ) (x u dx du : Vec n) (phi gdx : ℝ) (calls : ℕ) : BtState m n → Prop
  | init {p : FState n} : FSearch x u dx du 1 p → BtReach A y lam t x u dx du phi gdx calls (btNext A y lam t 0 calls p)
  | step {b : BtState m n} {p : FState n} : BtReach A y lam t x u dx du phi gdx calls b → btCond phi gdx b → FSearch x u dx du (0.5 * b.p.s) p →
      BtReach A y lam t x u dx du phi gdx calls (btNext A y lam t b.count b.timesCalls p)

/-- The backtracking loop ends in `b` (cvx/l1ls.py:315). -/
def BtOut (A : Vec n → Vec m) (y : Vec m) (lam t : ℝ) (x u dx du : Vec n) (phi gdx : ℝ) (calls : ℕ) (b : BtState m n) : Prop :=
  BtReach A y lam t x u dx du phi gdx calls b ∧ ¬ btCond phi gdx b

open Classical in
/-- The update of the central path parameter (cvx/l1ls.py:347), `MU = 2`; a quotient by zero is `inf`. -/
def nextT (n : ℕ) (s gap t : ℝ) : ℝ := if s < 0.5 then t else max (if gap = 0 then 2 * t else min (2 * n * 2 / gap) (2 * t)) t

/-- One pass through `body` leads from `s` to `s'` (cvx/l1ls.py:177-352). Each application of the Hessian calls `times` and `trans` once. -/
def L1lsBody (A : Vec n → Vec m) (At : Vec m → Vec n) (y : Vec m) (lam xi : ℝ) (pcgMaxIters : ℕ) (s s' : L1lsState m n) : Prop :=
  let c1 := counted At ((2 : ℝ) • s.z) s.transCalls
  let g := gradPhi lam s.x s.u c1.1 s.t
  ∃ pcg, PcgCounted (hessian A At s.x s.u s.t) (precond s.x s.u s.t) (-g) s.dxu pcgMaxIters (pcgTol xi s.gap g) pcg ∧
  ∃ bt, BtOut A y lam s.t s.x s.u pcg.1.x.fst pcg.1.x.snd (getPhi lam s.x s.u s.z s.t) ⟪g, pcg.1.x⟫ (s.timesCalls + pcg.2) bt ∧
    let nu := getNu At lam bt.z (c1.2 + pcg.2)
    let primal := primalObj lam bt.p.x bt.z
    let dual := max (dualObj y nu.1) s.dual
    let gap := primal - dual
    s' = { x := bt.p.x, u := bt.p.u, z := bt.z, nu := nu.1, dxu := pcg.1.x, primal := primal, dual := dual, gap := gap, relDen := s.dual,
           t := nextT n bt.p.s gap s.t, iterations := s.iterations + 1, nTimes := s.nTimes + (pcg.1.iters + bt.count),
           nTrans := s.nTrans + (1 + pcg.1.iters), timesCalls := bt.timesCalls, transCalls := nu.2 }

/-- `cond` (cvx/l1ls.py:354-358). A quotient by zero is `inf`, `-inf` or `nan`, and is above `tol` only in the first case. -/
def l1lsCond (tol : ℝ) (maxIters : ℕ) (s : L1lsState m n) : Prop :=
  (if s.relDen = 0 then 0 < s.gap else s.gap / s.relDen > tol) ∧ s.iterations < maxIters

/-- States of the main loop of `solve_from` (cvx/l1ls.py:117-360). -/
inductive L1lsReach (A : Vec n → Vec m) (At : Vec m → Vec n) (y : Vec m) (lam : ℝ) (x0 u0 : Vec n) (tol xi t0 : ℝ) (maxIters pcgMaxIters : ℕ) :
    L1lsState m n → Prop
  | init : L1lsReach A At y lam x0 u0 tol xi t0 maxIters pcgMaxIters (l1lsInit A At y lam x0 u0 t0)
  | step {s s' : L1lsState m n} : L1lsReach A At y lam x0 u0 tol xi t0 maxIters pcgMaxIters s → l1lsCond tol maxIters s →
      L1lsBody A At y lam xi pcgMaxIters s s' → L1lsReach A At y lam x0 u0 tol xi t0 maxIters pcgMaxIters s'

/-- `l1ls.solve_from(A, y, lambda_, x0, u0, tol, xi, t0, max_iters, pcg_max_iters)` returns `x = s.x`, `r = -s.z` (cvx/l1ls.py:117-367). -/
def L1lsSolveFrom (A : Vec n → Vec m) (At : Vec m → Vec n) (y : Vec m) (lam : ℝ) (x0 u0 : Vec n) (tol xi t0 : ℝ) (maxIters pcgMaxIters : ℕ)
    (s : L1lsState m n) : Prop :=
  L1lsReach A At y lam x0 u0 tol xi t0 maxIters pcgMaxIters s ∧ ¬ l1lsCond tol maxIters s

/-- `l1ls.solve(A, y, lambda_, tol, xi, ...)` without `x0`, `u0`, `t0` (cvx/l1ls.py:372-380). -/
def L1lsSolve (A : Vec n → Vec m) (At : Vec m → Vec n) (y : Vec m) (lam tol xi : ℝ) (maxIters pcgMaxIters : ℕ) (s : L1lsState m n) : Prop :=
  L1lsSolveFrom A At y lam 0 (vec fun _ => 1) tol xi (defaultT0 n lam) maxIters pcgMaxIters s

end Verif.Cvx
