import Verif.Opt.ProjModel
import Mathlib.Analysis.SpecialFunctions.Trigonometric.Inverse
import Mathlib.Analysis.SpecialFunctions.Pow.Real
import Mathlib.Analysis.SpecialFunctions.Complex.Arg

set_option autoImplicit false
/-!
# Model of the proximal operators, the Moreau envelope, the smooth functions and the thresholding operators

`opt/proximal_ops`, `opt/prox_to_smooth.py`, `opt/smooth`, `geo/thresholding.py`. Floats are reals, `jnp.inf` is `⊤`.
-/
noncomputable section
namespace Verif.Opt
open scoped RealInnerProductSpace

/-! ## ProxCapable (proximal_ops/prox.py) -/

/-- `ProxCapable` (opt/proximal_ops/prox.py:24-45). -/
structure ProxCapable (E : Type*) where
  func : E → EReal
  proxOp : E → ℝ → E
  proxVecVal : E → ℝ → E × EReal

/-- `build(func, prox_op)` (opt/proximal_ops/prox.py:48-62 with `build_prox_value_vec_func`, 105-120). -/
def build {E : Type*} (func : E → EReal) (proxOp : E → ℝ → E) : ProxCapable E where
  func := func
  proxOp := proxOp
  proxVecVal x t := let z := proxOp x t; (z, func z)

/-- `build_from_ind_proj(indicator, projector)` (opt/proximal_ops/prox.py:78-102). -/
def buildFromIndProj {E : Type*} (ind : E → EReal) (proj : E → E) : ProxCapable E where
  func := ind
  proxOp x _ := proj x
  proxVecVal x _ := (proj x, 0)

/-- `prox_zero()` (opt/proximal_ops/basic.py:24-63). -/
def proxZero (n : ℕ) : ProxCapable (Vec n) where
  func _ := 0
  proxOp x _ := x
  proxVecVal x _ := (x, 0)

/-- `prox_l2(q)` (opt/proximal_ops/lpnorms.py:25-50) for `q > 0` and `t > 0`; with `t * q = 0` the code divides by zero and returns `x` (or `nan` for `x = 0`). -/
def proxL2 (n : ℕ) (q : ℝ) : ProxCapable (Vec n) :=
  build (fun x => ((q * ‖x‖ : ℝ) : EReal)) fun x t =>
    let v := ‖x‖
    let s := 1 - 1 / max (v / (t * q)) 1
    s • x

/-- `jnp.minimum(a / b, 1)` for `a > 0`, `b ≥ 0` with IEEE division: `a / 0 = inf`. -/
def minDiv1 (a b : ℝ) : ℝ := if b = 0 then 1 else min (a / b) 1

/-- `prox_l1(q)` (opt/proximal_ops/lpnorms.py:54-80). `q` is an array of weights (a scalar is broadcast). -/
def proxL1 {n : ℕ} (q : Vec n) : ProxCapable (Vec n) :=
  build (fun x => ((∑ i, |q i * x i| : ℝ) : EReal)) fun x t =>
    vec fun i => x i * (1 - minDiv1 (t * q i) |x i|)

/-- `prox_l1_pos(q)` (opt/proximal_ops/lpnorms.py:82-115). -/
def proxL1Pos {n : ℕ} (q : Vec n) : ProxCapable (Vec n) :=
  build (fun x => if ∃ i, x i < 0 then ⊤ else ((∑ i, |q i * x i| : ℝ) : EReal)) fun x t =>
    vec fun i => max 0 (x i - t * q i)

/-- `prox_l1_ball(q)` (opt/proximal_ops/lpnorms.py:117-125). -/
def proxL1Ball (n : ℕ) (q : ℝ) : ProxCapable (Vec n) := buildFromIndProj (indL1Ball q none) (projL1Ball q none)

/-! ## Smooth functions (opt/smooth) -/

/-- `SmoothFunction` (opt/smooth/smooth.py:25-40). -/
structure SmoothFn (E : Type*) where
  func : E → ℝ
  grad : E → E
  gradVal : E → E × ℝ

/-- `build2(func, grad)` (opt/smooth/smooth.py:58-72, 92-107). -/
def build2 {E : Type*} (func : E → ℝ) (grad : E → E) : SmoothFn E where
  func := func
  grad := grad
  gradVal x := (grad x, func x)

/-- `smooth_func_translate(f, b)` (opt/smooth/smooth.py:110-140). -/
def smoothTranslate {E : Type*} [Add E] (f : SmoothFn E) (b : E) : SmoothFn E where
  func x := f.func (x + b)
  grad x := f.grad (x + b)
  gradVal x := f.gradVal (x + b)

/-- `moreau_envelope(f, mu)` (opt/prox_to_smooth.py:22-43). The value `pv` is a float, so the `EReal` returned by `prox_vec_val` is
converted to a real (it is finite at a proximal point). -/
def moreauEnvelope {E : Type*} [NormedAddCommGroup E] [InnerProductSpace ℝ E] (f : ProxCapable E) (mu : ℝ) : SmoothFn E where
  func x := let p := f.proxVecVal x mu; p.2.toReal + 1 / 2 * ‖x - p.1‖ ^ 2
  grad x := (1 / mu) • (x - f.proxOp x mu)
  gradVal x :=
    let p := f.proxVecVal x mu
    ((1 / mu) • (x - p.1), p.2.toReal + 1 / 2 * ‖x - p.1‖ ^ 2)

/-- `smooth_constant(c)` (opt/smooth/constant.py:23-39). -/
def smoothConstant (n : ℕ) (c : ℝ) : SmoothFn (Vec n) := build2 (fun _ => c) fun x => (0 : ℝ) • x

/-- `smooth_linear(C, D)` (opt/smooth/linear.py:23-40). -/
def smoothLinear {n : ℕ} (C : Vec n) (D : ℝ) : SmoothFn (Vec n) := build2 (fun x => ⟪C, x⟫ + D) fun _ => C

/-- `P @ x`. -/
def matVec {m n : ℕ} (P : Matrix (Fin m) (Fin n) ℝ) (x : Vec n) : Vec m := vec (P.mulVec x.ofLp)

/-- `smooth_quad_matrix(P, q, r)` (opt/smooth/quad.py:24-61). -/
def smoothQuadMatrix {n : ℕ} (P : Option (Matrix (Fin n) (Fin n) ℝ)) (q : Option (Vec n)) (r : Option ℝ) : SmoothFn (Vec n) :=
  build2
    (fun x =>
      let v := match P with
        | none => 0.5 * ⟪x, x⟫
        | some P => 0.5 * ⟪matVec P x, x⟫
      let v := match q with
        | none => v
        | some q => v + ⟪q, x⟫
      match r with
        | none => v
        | some r => v + r)
    fun x =>
      let g := match P with
        | none => x
        | some P => matVec P x
      match q with
        | none => g
        | some q => g + q

/-- `smooth_quad_error(A, b)` (opt/smooth/quad.py:64-94). -/
def smoothQuadError {m n : ℕ} (A : Matrix (Fin m) (Fin n) ℝ) (b : Vec m) : SmoothFn (Vec n) where
  func x := let r := matVec A x - b; 0.5 * ⟪r, r⟫
  grad x := let r := matVec A x - b; vec (Matrix.vecMul r.ofLp A)
  gradVal x := let r := matVec A x - b; (vec (Matrix.vecMul r.ofLp A), 0.5 * ⟪r, r⟫)

/-- `smooth_huber(tau)` (opt/smooth/huber.py:23-49). -/
def smoothHuber (n : ℕ) (tau : ℝ) : SmoothFn (Vec n) :=
  build2 (fun x => ∑ i, if |x i| ≤ tau then 0.5 * |x i| ^ 2 / tau else |x i| - tau / 2)
    fun x => vec fun i => x i / max tau |x i|

/-- `smooth_entropy()` / `smooth_entropy_vg()` (opt/smooth/entropy.py:23-80) on vectors without negative entries (the other branch returns
`-inf` / `nan`). `cnb.log_pos` is external: `log(max(x, tiny))` for the smallest positive float `tiny`. -/
def smoothEntropy (n : ℕ) (tiny : ℝ) : SmoothFn (Vec n) :=
  build2 (fun x => -∑ i, x i * Real.log (max (x i) tiny)) fun x => vec fun i => -Real.log (max (x i) tiny) - 1

/-! ## Thresholding (geo/thresholding.py), entry by entry -/

/-- `hard_threshold(x, tau)` (geo/thresholding.py:29-36). -/
def hardThreshold (x : ℂ) (tau : ℝ) : ℂ := if ‖x‖ > Real.sqrt (2 * tau) then x else 0

/-- `soft_threshold(x, tau)`, real branch (geo/thresholding.py:40-47). -/
def softThreshold (x tau : ℝ) : ℝ := max 0 (x - tau) + min 0 (x + tau)

/-- `soft_threshold(x, tau)`, complex branch (geo/thresholding.py:44-45). -/
def softThresholdC (x : ℂ) (tau : ℝ) : ℂ := (max (‖x‖ - tau) 0 : ℝ) * Complex.exp (Complex.I * Complex.arg x)

/-- The threshold `gamma` of `half_threshold` (geo/thresholding.py:55). -/
def halfGamma (tau : ℝ) : ℝ := (54 : ℝ) ^ (1 / 3 : ℝ) / 4 * tau ^ (2 / 3 : ℝ)

/-- `half_threshold(x, tau)`, real input (geo/thresholding.py:51-62). -/
def halfThreshold (x tau : ℝ) : ℝ :=
  let phi := 2 / 3 * Real.arccos (tau / 8 * (|x| / 3) ^ (-1.5 : ℝ))
  if |x| ≥ halfGamma tau then 2 / 3 * x * (1 + Real.cos (2 * Real.pi / 3 - phi)) else 0

/-- `gamma_to_tau_half_threshold(gamma)` (geo/thresholding.py:99-102, also line 94). -/
def gammaToTauHalf (gamma : ℝ) : ℝ := (4 / (54 : ℝ) ^ (1 / 3 : ℝ) * gamma) ^ (1.5 : ℝ)

/-- `gamma_to_tau_hard_threshold(gamma)` (geo/thresholding.py:104-107, also line 73). -/
def gammaToTauHard (gamma : ℝ) : ℝ := 0.5 * gamma ^ 2

end Verif.Opt
