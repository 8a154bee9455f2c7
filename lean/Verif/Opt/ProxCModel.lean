import Verif.Opt.FomModel
import Verif.Cvx.Spgl1CModel

set_option autoImplicit false
/-!
# Proximal operators, projections and `l1rls` on complex arrays

The same code as in `Verif.Opt.ProxModel`, run on complex arrays: `jnp.abs` is the modulus, `cnb.arr_rdot` the real part of the inner product, and `jnp.maximum` and
`jnp.minimum` compare complex numbers by their real parts first and then by their imaginary parts.
-/
noncomputable section
namespace Verif.Opt
open Verif.Cvx (CVec cvec l1C)

/-- `prox_l2(q)` (opt/proximal_ops/lpnorms.py:25-50) on complex arrays, for `q > 0` and `t > 0` as for `proxL2`. -/
def proxL2C (n : ℕ) (q : ℝ) : ProxCapable (CVec n) :=
  build (fun x => ((q * ‖x‖ : ℝ) : EReal)) fun x t =>
    let v := ‖x‖
    let s := 1 - 1 / max (v / (t * q)) 1
    (s : ℂ) • x

/-- `prox_l1(q)` (opt/proximal_ops/lpnorms.py:54-80) on complex arrays; `q` is an array of real weights (a scalar is broadcast). -/
def proxL1C {n : ℕ} (q : Vec n) : ProxCapable (CVec n) :=
  build (fun x => ((∑ i, ‖(q i : ℂ) * x i‖ : ℝ) : EReal)) fun x t =>
    cvec fun i => x i * ((1 - minDiv1 (t * q i) ‖x i‖ : ℝ) : ℂ)

/-- `smooth_quad_matrix()` (opt/smooth/quad.py:24-61) on complex arrays, without matrix, linear term and constant. -/
def smoothQuadC (n : ℕ) : SmoothFn (CVec n) := build2 (fun x => 0.5 * (∑ i, (starRingEnd ℂ) (x i) * x i).re) fun x => x

/-- `l1rls(A, b, lambda, x0, options)` (fom/l1rls.py:24-48) on complex arrays. -/
def l1rlsC {m n : ℕ} (times : CVec n → CVec m) (trans : CVec m → CVec n) (b : CVec m) (lam : ℝ) (x0 : CVec n) (o : FomOptions) : FomArgs (CVec n) (CVec m) :=
  { f := smoothQuadC m, h := proxL1C (vec fun _ => lam), times := times, trans := trans, b := -b, x0 := x0, opts := o }

/-- The order used by `jnp.maximum` and `jnp.minimum` on complex numbers: real parts first, then imaginary parts. -/
def lexLt (a b : ℂ) : Prop := a.re < b.re ∨ (a.re = b.re ∧ a.im < b.im)

open Classical in
/-- `jnp.maximum(0, z)` for a complex `z`. -/
def max0C (z : ℂ) : ℂ := if lexLt 0 z then z else 0

open Classical in
/-- `jnp.minimum(0, z)` for a complex `z`. -/
def min0C (z : ℂ) : ℂ := if lexLt z 0 then z else 0

open Classical in
/-- `proj_l1_ball(q)` (opt/projectors/lpballs.py:142-192) on complex arrays. -/
def projL1BallC {n : ℕ} (q : ℝ) (x : CVec n) : CVec n :=
  if l1C x > q then
    let kappa := l1Kappa q (List.ofFn fun i => ‖x i‖)
    cvec fun i => max0C (x i - kappa) + min0C (x i + kappa)
  else x

/-- `soft_threshold(x, tau)` on complex arrays (geo/thresholding.py:40-47). -/
def softThresholdArrC {n : ℕ} (tau : ℝ) (x : CVec n) : CVec n := cvec fun i => softThresholdC (x i) tau

end Verif.Opt
