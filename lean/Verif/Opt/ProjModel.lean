import Verif.Opt.Spec
import Verif.Lop.Np
import Mathlib.LinearAlgebra.Matrix.NonsingularInverse
import Mathlib.Analysis.Complex.Norm

set_option autoImplicit false
/-!
# Model of the projectors and indicator functions (`opt/projectors`, `opt/indicators`, `opt/projections.py`)

Real arrays are `Vec n`. `jnp.asarray` / `promote_arg_dtypes` / `jit` do not change values and are dropped. Broadcasting
of scalar bounds is left out: bounds and centres are arrays of the shape of `x`. `jnp.inf` is `⊤ : EReal`.
-/
noncomputable section
namespace Verif.Opt
open Verif.Lop (ent cumsum)
open scoped RealInnerProductSpace

/-- The exceptions raised by the constructors. -/
inductive Err | valueError | notImplemented
  deriving DecidableEq

/-- `jnp.where(bad, inf, 0)`. -/
def indVal (bad : Prop) [Decidable bad] : EReal := if bad then ⊤ else 0

/-! ## Projectors (projectors/basic.py) -/

/-- `proj_zero` (opt/projectors/basic.py:25-33). -/
def projZero {n : ℕ} (_x : Vec n) : Vec n := vec fun _ => 0

/-- `proj_identity` (opt/projectors/basic.py:36-45). -/
def projIdentity {n : ℕ} (x : Vec n) : Vec n := x

/-- `proj_singleton(c)` (opt/projectors/basic.py:47-57). -/
def projSingleton {n : ℕ} (c : Vec n) (_x : Vec n) : Vec n := c

/-- The linear algebra routines called by `proj_affine`: `qr(M, 'r')` and the triangular solves of cr.nimble
(`solve_UTx_b(R, b)` solves `Rᵀ v = b`, `solve_Ux_b(R, b)` solves `R v = b`). They are external. -/
structure LinAlg (m n : ℕ) where
  qrR : Matrix (Fin n) (Fin m) ℝ → Matrix (Fin m) (Fin m) ℝ
  solveUT : Matrix (Fin m) (Fin m) ℝ → (Fin m → ℝ) → (Fin m → ℝ)
  solveU : Matrix (Fin m) (Fin m) ℝ → (Fin m → ℝ) → (Fin m → ℝ)

/-- `proj_affine(A, b)` (opt/projectors/basic.py:60-81). -/
def projAffine {m n : ℕ} (L : LinAlg m n) (A : Matrix (Fin m) (Fin n) ℝ) (b : Fin m → ℝ) (x : Vec n) : Vec n :=
  let R := L.qrR A.transpose
  let r := b - A.mulVec x.ofLp
  let v := L.solveUT R r
  let w := L.solveU R v
  let h := A.transpose.mulVec w
  vec fun i => x i + h i

/-- `proj_box(l, u)` (opt/projectors/basic.py:84-123); `none` is Python's `None`. -/
def projBox {n : ℕ} (l u : Option (Vec n)) : Except Err (Vec n → Vec n) :=
  match l, u with
  | none, none => .error .valueError
  | none, some u => .ok fun x => vec fun i => min (x i) (u i)
  | some l, none => .ok fun x => vec fun i => max (x i) (l i)
  | some l, some u => .ok fun x => vec fun i => min (max (x i) (l i)) (u i)

/-- `x[:-1]`. -/
def xPre {n : ℕ} (x : Vec (n + 1)) : Vec n := vec fun i => x i.castSucc

/-- `x[-1]`. -/
def xLast {n : ℕ} (x : Vec (n + 1)) : ℝ := x (Fin.last n)

/-- `jnp.append(pre, t)`. -/
def xAppend {n : ℕ} (pre : Vec n) (t : ℝ) : Vec (n + 1) := vec (Fin.snoc (fun i => pre i) t)

/-- `proj_conic()` (opt/projectors/basic.py:163-194). -/
def projConic {n : ℕ} (x : Vec (n + 1)) : Vec (n + 1) :=
  let xpre := xPre x
  let t := xLast x
  let normx := ‖xpre‖
  if normx > |t| then
    let y := xAppend (normx⁻¹ • xpre) 1
    ((normx + t) / 2) • y
  else if t > 0 then x
  else vec fun _ => 0

/-! ## Norm balls (projectors/lpballs.py) -/

/-- `proj_l2_ball(q, b, A)` (opt/projectors/lpballs.py:26-138). With a matrix `A` the code raises `NotImplementedError`
(line 93), so `A` is modelled by whether it was given. -/
def projL2Ball {n : ℕ} (q : ℝ) (b : Option (Vec n)) (hasA : Bool) : Except Err (Vec n → Vec n) :=
  if q ≤ 0 then .error .valueError
  else match b, hasA with
    | none, false => .ok fun x => if ‖x‖ > q then (q / ‖x‖) • x else x
    | some b, false => .ok fun x =>
        let r := x - b
        let r := if ‖r‖ > q then ((q - 1e-7) * ‖r‖⁻¹) • r else r
        r + b
    | _, true => .error .notImplemented

/-- `jnp.argmax` of a boolean array: the index of the first `True`, `0` if there is none. -/
def argmaxB (flags : List Bool) : ℕ := if flags.any id then flags.findIdx id else 0

/-- `jnp.sort(a)[::-1]`. -/
def sortDesc (a : List ℝ) : List ℝ := (a.mergeSort fun s t => decide (s ≤ t)).reverse

/-- The shrinkage threshold of the `ℓ₁` ball projection (opt/projectors/lpballs.py:161-172, same text in
cvx/spgl1.py:84-95). `absx` is the list of magnitudes. -/
def l1Kappa (q : ℝ) (absx : List ℝ) : ℝ :=
  let u := sortDesc absx
  let cu := cumsum u
  let flags := (List.range u.length).map fun i : ℕ => decide (ent cu i - q > ent u i * ((i : ℝ) + 1))
  let K := argmaxB flags
  let K := if K = 0 then flags.length else K
  (ent cu (K - 1) - q) / K

/-- `shrink(a, kappa)` on one entry (opt/shrinkage.py:19-25, geo/thresholding.py:47, opt/projectors/lpballs.py:174,
cvx/spgl1.py:100): `max(0, a - κ) + min(0, a + κ)`. -/
def shrink1 (κ a : ℝ) : ℝ := max 0 (a - κ) + min 0 (a + κ)

/-- `shrink(a, kappa)` (opt/shrinkage.py:19-25). -/
def shrink {n : ℕ} (a : Vec n) (κ : ℝ) : Vec n := vec fun i => shrink1 κ (a i)

/-- `project_inside_ball` (opt/projectors/lpballs.py:160-174). -/
def projectInsideBall {n : ℕ} (q : ℝ) (y : Vec n) : Vec n :=
  shrink y (l1Kappa q (List.ofFn fun i => |y i|))

/-- `proj_l1_ball(q, b)` (opt/projectors/lpballs.py:142-212); also `project_to_l1_ball`, `project_to_l1_ball_at`
(cvx/spgl1.py:102-124) on real arrays. -/
def projL1Ball {n : ℕ} (q : ℝ) : Option (Vec n) → Vec n → Vec n
  | none, x => if l1 x > q then projectInsideBall q x else x
  | some b, x =>
    let r := x - b
    let r := if l1 r > q then projectInsideBall q r else r
    r + b

/-! ## `opt/projections.py` -/

/-- `project_to_ball(x, radius)` (opt/projections.py:21-26). -/
def projectToBall {n : ℕ} (x : Vec n) (radius : ℝ) : Vec n :=
  if ‖x‖ > radius then (radius / ‖x‖) • x else x

/-- `project_to_box(x, radius)` (opt/projections.py:29-35) on one, possibly complex, entry, for `radius > 0` (with `radius = 0` the code gives `nan` at `x = 0`). -/
def projectToBox1 (radius : ℝ) (x : ℂ) : ℂ := x * (radius / max ‖x‖ radius : ℝ)

/-- `project_to_real_upper_limit(x, limit)` (opt/projections.py:38-41) on one, possibly complex, entry. -/
def projectToRealUpperLimit1 (limit : ℝ) (x : ℂ) : ℝ := min x.re limit

/-! ## Indicators (indicators/basic.py, indicators/lpballs.py) -/

/-- `indicator_zero` (opt/indicators/basic.py:23-56). -/
def indZero {n : ℕ} (x : Vec n) : EReal := indVal (∃ i, x i ≠ 0)

/-- `indicator_singleton(c)` (opt/indicators/basic.py:59-99). -/
def indSingleton {n : ℕ} (c x : Vec n) : EReal := indVal (∃ i, x i - c i ≠ 0)

/-- `indicator_affine(A, b)` (opt/indicators/basic.py:102-139): `norm(A x - b) / norm(b) > 1e-10`. For `b = 0` IEEE division gives
`inf` when `A x ≠ 0` and `nan` (which compares false) when `A x = 0`; this is what the first branch computes. -/
def indAffine {m n : ℕ} (A : Matrix (Fin m) (Fin n) ℝ) (b : Vec m) (x : Vec n) : EReal :=
  let r : Vec m := vec (A.mulVec x.ofLp) - b
  if ‖b‖ = 0 then indVal (‖r‖ ≠ 0) else indVal (‖r‖ / ‖b‖ > 1e-10)

/-- `indicator_box(l, u)` (opt/indicators/basic.py:142-205). -/
def indBox {n : ℕ} (l u : Option (Vec n)) : Except Err (Vec n → EReal) :=
  match l, u with
  | none, none => .error .valueError
  | none, some u => .ok fun x => indVal (∃ i, x i > u i)
  | some l, none => .ok fun x => indVal (∃ i, x i < l i)
  | some l, some u => .ok fun x => indVal ((∃ i, x i < l i) ∨ ∃ i, x i > u i)

/-- `indicator_box_affine(l, u, a, alpha, tol)` (opt/indicators/basic.py:208-236), with both bounds given. -/
def indBoxAffine {n : ℕ} (l u a : Vec n) (alpha tol : ℝ) (x : Vec n) : EReal :=
  indVal (((∃ i, x i < l i) ∨ ∃ i, x i > u i) ∨ |⟪a, x⟫ - alpha| > tol)

/-- `indicator_conic` (opt/indicators/basic.py:239-267). -/
def indConic {n : ℕ} (x : Vec (n + 1)) : EReal := indVal (¬ ‖xPre x‖ ≤ xLast x)

/-- `indicator_l2_ball(q, b, A)` (opt/indicators/lpballs.py:23-104). -/
def indL2Ball {n : ℕ} (q : ℝ) : Option (Vec n) → Except Err (Vec n → EReal) :=
  fun b => if q ≤ 0 then .error .valueError else
    .ok fun x => match b with
      | none => indVal (‖x‖ > q)
      | some b => indVal (‖x - b‖ > q)

/-- `indicator_l2_ball(q, b, A)` with a matrix (opt/indicators/lpballs.py:64-65, 90-104). -/
def indL2BallA {m n : ℕ} (q : ℝ) (b : Option (Vec m)) (A : Matrix (Fin m) (Fin n) ℝ) : Except Err (Vec n → EReal) :=
  if q ≤ 0 then .error .valueError else
    .ok fun x => indVal (‖vec (A.mulVec x.ofLp) - b.getD (vec fun _ => 0)‖ > q)

/-- `indicator_l1_ball(q, b)` (opt/indicators/lpballs.py:107-173). -/
def indL1Ball {n : ℕ} (q : ℝ) : Option (Vec n) → Vec n → EReal
  | none, x => indVal (l1 x > q)
  | some b, x => indVal (l1 (x - b) > q)

/-- `indicator_l1_ball(q, b, A)` with a matrix (opt/indicators/lpballs.py:175-189). -/
def indL1BallA {m n : ℕ} (q : ℝ) (b : Option (Vec m)) (A : Matrix (Fin m) (Fin n) ℝ) (x : Vec n) : EReal :=
  indVal (l1 (vec (A.mulVec x.ofLp) - b.getD (vec fun _ => 0)) > q)

end Verif.Opt
