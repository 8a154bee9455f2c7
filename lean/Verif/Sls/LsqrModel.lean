import Verif.Loop
import Mathlib.Analysis.InnerProductSpace.Basic

set_option autoImplicit false
/-!
# Model of LSQR (sls/lsqr.py)

Arrays are vectors of real inner product spaces `E` (the unknown) and `F` (the data), the operator is a pair of functions `times`, `trans`. Floats
are reals. `l2norm` (sls/lsqr.py:51-55) of a vector is its norm, and of a short array of scalars the square root of the sum of squares.
-/
noncomputable section
namespace Verif.Sls
open Verif.Loop

variable {E : Type*} [NormedAddCommGroup E] [InnerProductSpace ℝ E] {F : Type*} [NormedAddCommGroup F] [InnerProductSpace ℝ F]

/-- One call of an operator method together with a ghost count of the calls made so far. The code has no such count: it exists only so that the
reported `n_times`, `n_trans` can be compared with the calls really made. -/
def counted {α β : Type*} (f : α → β) (x : α) (calls : ℕ) : β × ℕ := (f x, calls + 1)

/-- `l2norm` of an array of two scalars (sls/lsqr.py:51-55). -/
def l2norm2 (a b : ℝ) : ℝ := Real.sqrt (a ^ 2 + b ^ 2)

/-- `l2norm` of an array of four scalars (sls/lsqr.py:51-55). -/
def l2norm4 (a b c d : ℝ) : ℝ := Real.sqrt (a ^ 2 + b ^ 2 + c ^ 2 + d ^ 2)

/-- `lax.cond(beta > 0, lambda _: u / beta, lambda _: u)` (sls/lsqr.py:218-220, 226-228, 313-315, 324-326). -/
def lsqrNormalize {G : Type*} [NormedAddCommGroup G] [InnerProductSpace ℝ G] (beta : ℝ) (u : G) : G := if beta > 0 then beta⁻¹ • u else u

/-- `LSQRState` (sls/lsqr.py:67-108) with the two ghost call counts. -/
structure LsqrState (E F : Type*) where
  x : E
  w : E
  u : F
  v : E
  alpha : ℝ
  beta : ℝ
  rho_bar : ℝ
  phi_bar : ℝ
  z : ℝ
  cs2 : ℝ
  sn2 : ℝ
  D_norm_sqr : ℝ
  cum_z_sqr : ℝ
  cum_psi_sqr : ℝ
  A_norm : ℝ
  A_cond : ℝ
  x_norm : ℝ
  r_norm : ℝ
  atr_norm : ℝ
  iterations : ℕ
  n_times : ℕ
  n_trans : ℕ
  timesCalls : ℕ
  transCalls : ℕ

/-- The code before the loop and `init` (sls/lsqr.py:206-257). `b_norm` is the initial `beta` and `atr_norm0` the initial `atr_norm`. -/
def lsqrInit (A : E → F) (At : F → E) (b : F) (x0 : E) : LsqrState E F :=
  let c1 := counted A x0 0
  let r := b - c1.1
  let b_norm := ‖r‖
  let beta := b_norm
  let u := lsqrNormalize beta r
  let c2 := counted At u 0
  let alpha := ‖c2.1‖
  let v := lsqrNormalize alpha c2.1
  { x := x0, w := v, u := u, v := v, alpha := alpha, beta := beta, rho_bar := alpha, phi_bar := beta, z := 0, cs2 := -1, sn2 := 0,
    D_norm_sqr := 0, cum_z_sqr := 0, cum_psi_sqr := 0, A_norm := 0, A_cond := 1, x_norm := ‖x0‖, r_norm := b_norm, atr_norm := alpha * beta,
    iterations := 1, n_times := 1, n_trans := 1, timesCalls := c1.2, transCalls := c2.2 }

/-- `ctol` (sls/lsqr.py:205). -/
def lsqrCtol (conlim : ℝ) : ℝ := if conlim = 0 then 0 else 1 / conlim

/-- `cond` (sls/lsqr.py:259-303). `0/0` is NaN in the code and `0` here; both make the strict comparison false. `1/0` does not occur: `A_cond` is positive
at every state the loop reaches (theorem `c83_no_zero_division`). -/
def lsqrCond (b_norm atr_norm0 atol btol conlim : ℝ) (max_iters : ℕ) (s : LsqrState E F) : Prop :=
  let rel_r_norm := s.r_norm / b_norm
  let rel_atr_norm := s.atr_norm / atr_norm0
  let inv_cond_num := 1 / s.A_cond
  let rtol := btol + atol * s.A_norm * s.x_norm / b_norm
  let t1 := rel_r_norm / (1 + s.A_norm * s.x_norm / b_norm)
  s.iterations < max_iters ∧ 1 + inv_cond_num > 1 ∧ 1 + rel_atr_norm > 1 ∧ 1 + t1 > 1 ∧
    inv_cond_num > lsqrCtol conlim ∧ rel_atr_norm > atol ∧ rel_r_norm > rtol

/-- `body` (sls/lsqr.py:305-424). The unused `r1norm`, `r2norm` (403-410) are left out. -/
def lsqrBody (A : E → F) (At : F → E) (damp : ℝ) (s : LsqrState E F) : LsqrState E F :=
  let c1 := counted A s.v s.timesCalls
  let u0 := c1.1 - s.alpha • s.u
  let beta := ‖u0‖
  let u := lsqrNormalize beta u0
  let A_norm := l2norm4 s.A_norm s.alpha beta damp
  let c2 := counted At u s.transCalls
  let v0 := c2.1 - beta • s.v
  let alpha := ‖v0‖
  let v := lsqrNormalize alpha v0
  let rho_bar := l2norm2 s.rho_bar damp
  let cs1 := s.rho_bar / rho_bar
  let sn1 := damp / rho_bar
  let psi := sn1 * s.phi_bar
  let phi_bar := cs1 * s.phi_bar
  let rho := l2norm2 rho_bar beta
  let cs := rho_bar / rho
  let sn := beta / rho
  let theta := sn * alpha
  let phi := cs * phi_bar
  let t1 := phi / rho
  let t2 := -theta / rho
  let D_norm_sqr := s.D_norm_sqr + ‖rho⁻¹ • s.w‖ ^ 2
  let delta := s.sn2 * rho
  let gamma_bar := -s.cs2 * rho
  let rhs := phi - delta * s.z
  let z_bar := rhs / gamma_bar
  let gamma := l2norm2 gamma_bar theta
  let z := rhs / gamma
  let cum_psi_sqr := s.cum_psi_sqr + psi ^ 2
  { x := s.x + t1 • s.w, w := v + t2 • s.w, u := u, v := v, alpha := alpha, beta := beta, rho_bar := -cs * alpha, phi_bar := sn * phi_bar, z := z,
    cs2 := gamma_bar / gamma, sn2 := theta / gamma, D_norm_sqr := D_norm_sqr, cum_z_sqr := s.cum_z_sqr + z ^ 2, cum_psi_sqr := cum_psi_sqr,
    A_norm := A_norm, A_cond := A_norm * Real.sqrt D_norm_sqr, x_norm := Real.sqrt (s.cum_z_sqr + z_bar ^ 2),
    r_norm := Real.sqrt ((sn * phi_bar) ^ 2 + cum_psi_sqr), atr_norm := alpha * |sn * phi|, iterations := s.iterations + 1,
    n_times := s.n_times + 1, n_trans := s.n_trans + 1, timesCalls := c1.2, transCalls := c2.2 }

/-- The states seen by the `while` loop of `lsqr(A, b, x0, damp, atol, btol, conlim, max_iters)` (sls/lsqr.py:432). -/
def LsqrReach (A : E → F) (At : F → E) (b : F) (x0 : E) (damp atol btol conlim : ℝ) (max_iters : ℕ) (s : LsqrState E F) : Prop :=
  Reach (lsqrCond (lsqrInit A At b x0).beta (lsqrInit A At b x0).atr_norm atol btol conlim max_iters) (lsqrBody A At damp) (lsqrInit A At b x0) s

/-- `lsqr(A, b, x0, damp, atol, btol, conlim, max_iters)` returns the fields of `s` (sls/lsqr.py:432-438). -/
def Lsqr (A : E → F) (At : F → E) (b : F) (x0 : E) (damp atol btol conlim : ℝ) (max_iters : ℕ) (s : LsqrState E F) : Prop :=
  Out (lsqrCond (lsqrInit A At b x0).beta (lsqrInit A At b x0).atr_norm atol btol conlim max_iters) (lsqrBody A At damp) (lsqrInit A At b x0) s

end Verif.Sls
