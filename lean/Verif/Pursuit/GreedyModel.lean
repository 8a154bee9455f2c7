import Verif.Loop
import Verif.Pursuit.MpModel

set_option autoImplicit false
/-!
# Model of subspace pursuit, CoSaMP, hard thresholding pursuit and iterative hard thresholding

Arrays are lists, a dictionary is `phi : ℕ → E` with `n` columns (`corr` is `Phi.trans`/`Phi.T @ _`, a list of length `n`). `jnp.linalg.lstsq` is a parameter
`lstsq`, described by `IsLstsq`.

The scalars are real or complex. For complex data only the operator versions of SP and CoSaMP conjugate (`Phi.trans`, `jnp.vdot`); the matrix versions and
both versions of HTP and IHT use `Phi.T` and `r.T @ r`, so for them the model describes real data. The operator versions divide by `|y|`: for `y = 0` they
return NaN, which the model does not represent, and the theorems about them assume `y ≠ 0`.
-/
noncomputable section
namespace Verif.Pursuit
open Verif.Loop

variable {𝕜 : Type*} [RCLike 𝕜] {E : Type*} [NormedAddCommGroup E] [InnerProductSpace 𝕜 E]

/-- `Phi[:, I] @ x_I` (`Phi.columns(I) @ x_I`). -/
def lin (phi : ℕ → E) : List ℕ → List 𝕜 → E
  | i :: I, c :: x => c • phi i + lin phi I x
  | _, _ => 0

/-- The states of the four algorithms (`SPState`, `CoSaMPState`, `HTPState`, `IHTState`, pursuit/defs.py): coefficients, support, residual, its squared norm, iteration count, previous support. The fields
`x_I_prev` and `r_norm_sqr_prev` are never read by the algorithms and are left out. -/
structure GState (𝕜 E : Type*) where
  x : List 𝕜
  I : List ℕ
  r : E
  rr : ℝ
  iters : ℕ
  Iprev : List ℕ

/-- `h.at[I].set(0)` (pursuit/sp.py:61, pursuit/cosamp.py:85). -/
def zeroAt (h : List 𝕜) (I : List ℕ) : List 𝕜 := (List.range h.length).map fun i => if i ∈ I then 0 else h.getD i 0

/-- The assembly of a state from a support and its coefficients: `r = y - Phi_I @ x_I`, `r_norm_sqr` (pursuit/sp.py:81-85 and the same lines of the others). -/
def mkState (phi : ℕ → E) (y : E) (I : List ℕ) (x : List 𝕜) (iters : ℕ) (Iprev : List ℕ) : GState 𝕜 E :=
  { x := x, I := I, r := y - lin phi I x, rr := ‖y - lin phi I x‖ ^ 2, iters := iters, Iprev := Iprev }

/-- `init` of subspace pursuit (pursuit/sp.py:41-55, 132-152). -/
def spInit (phi : ℕ → E) (n : ℕ) (lstsq : List ℕ → E → List 𝕜) (y : E) (K : ℕ) : GState 𝕜 E :=
  let I := largestIndices (corr 𝕜 phi n y) K
  mkState phi y I (lstsq I y) 1 (List.range K)

/-- `body` of subspace pursuit (pursuit/sp.py:57-85, 154-188). -/
def spBody (phi : ℕ → E) (n : ℕ) (lstsq : List ℕ → E → List 𝕜) (y : E) (K : ℕ) (s : GState 𝕜 E) : GState 𝕜 E :=
  let h := zeroAt (corr 𝕜 phi n s.r) s.I
  let I_new := largestIndices h K
  let I_2k := s.I ++ I_new
  let x_p := lstsq I_2k y
  let Ia := largestIndices x_p K
  let I := gather 0 I_2k Ia
  mkState phi y I (lstsq I y) (s.iters + 1) s.I

/-- `cond` of the matrix versions of SP, CoSaMP, IHT (pursuit/sp.py:87-93, pursuit/cosamp.py:111-117, pursuit/iht.py:104-111); `tol` is `max_r_norm_sqr`. -/
def plainCond (tol : ℝ) (maxIters : ℕ) (s : GState 𝕜 E) : Prop := s.rr > tol ∧ s.iters < maxIters

/-- `cond` of the operator versions of SP and CoSaMP and of HTP (pursuit/sp.py:190-202, pursuit/cosamp.py:223-239, pursuit/htp.py:110-122): stop also when the support is unchanged after `min(3K, 20)` iterations. -/
def supportCond (tol : ℝ) (maxIters K : ℕ) (s : GState 𝕜 E) : Prop :=
  (s.rr > tol ∧ s.iters < maxIters) ∧ (s.iters < min (3 * K) 20 ∨ s.I ≠ s.Iprev)

/-- `init` of CoSaMP (pursuit/cosamp.py:46-74, 158-186): the support is sorted, the coefficients are not permuted along. -/
def cosampInit (phi : ℕ → E) (n : ℕ) (lstsq : List ℕ → E → List 𝕜) (y : E) (K : ℕ) : GState 𝕜 E :=
  let I_3k := largestIndices (corr 𝕜 phi n y) (K + 2 * K)
  let x_3I := lstsq I_3k y
  let Ia := largestIndices x_3I K
  mkState phi y (gather 0 I_3k Ia).mergeSort (gather 0 x_3I Ia) 1 (List.range K)

/-- `body` of CoSaMP (pursuit/cosamp.py:76-109, 188-221). -/
def cosampBody (phi : ℕ → E) (n : ℕ) (lstsq : List ℕ → E → List 𝕜) (y : E) (K : ℕ) (s : GState 𝕜 E) : GState 𝕜 E :=
  let h := zeroAt (corr 𝕜 phi n s.r) s.I
  let I_2k := largestIndices h (2 * K)
  let I_3k := s.I ++ I_2k
  let x_3I := lstsq I_3k y
  let Ia := largestIndices x_3I K
  mkState phi y (gather 0 I_3k Ia) (gather 0 x_3I Ia) (s.iters + 1) s.I

open Classical in
/-- `compute_step_size(h, I)` with `normalized=True` (pursuit/htp.py:48-54, pursuit/iht.py:45-51): `|h_I|² / |Phi_I h_I|²` (real data), not a number (`none`) when the divisor is zero. -/
def normalizedStep (phi : ℕ → E) (h : List 𝕜) (I : List ℕ) : Option ℝ :=
  if lin phi I (gather 0 h I) = 0 then none else some (((gather 0 h I).map fun c => ‖c‖ ^ 2).sum / ‖lin phi I (gather 0 h I)‖ ^ 2)

/-- The default `step_size = 0.98 / upper_frame_bound(Phi)` (pursuit/htp.py:40-41, pursuit/iht.py:37-38); `upper_frame_bound` is the largest singular value `σ` of `Phi`
(dict/props.py:63-67, lop/props.py:19-24; the SVD is external). -/
def defaultStep (σ : ℝ) : ℝ := 0.98 / σ

/-- The gradient step `x + mu * h` on the full vector (pursuit/htp.py:87-93, pursuit/iht.py:84-90); also `mu * h` with an empty support (pursuit/htp.py:69). -/
def gradStep (n : ℕ) (I : List ℕ) (x : List 𝕜) (mu : ℝ) (h : List 𝕜) : List 𝕜 :=
  (List.range n).map fun i => buildSignal I x i + (mu : 𝕜) * h.getD i 0

/-- `init` of HTP and IHT (pursuit/htp.py:59-80, pursuit/iht.py:56-77) with step `mu`. -/
def ihtInit (phi : ℕ → E) (n : ℕ) (mu : ℝ) (y : E) (K : ℕ) : GState 𝕜 E :=
  let h := corr 𝕜 phi n y
  let Ix := hardThresholdK (gradStep n [] [] mu h) K
  mkState phi y Ix.1 Ix.2 1 (List.range K)

/-- `body` of IHT (pursuit/iht.py:79-102) with step `mu`. -/
def ihtBody (phi : ℕ → E) (n : ℕ) (mu : ℝ) (y : E) (K : ℕ) (s : GState 𝕜 E) : GState 𝕜 E :=
  let h := corr 𝕜 phi n s.r
  let Ix := hardThresholdK (gradStep n s.I s.x mu h) K
  mkState phi y Ix.1 Ix.2 (s.iters + 1) s.I

/-- `iteration` of HTP (pursuit/htp.py:82-108) with step `mu`. -/
def htpBody (phi : ℕ → E) (n : ℕ) (mu : ℝ) (lstsq : List ℕ → E → List 𝕜) (y : E) (K : ℕ) (s : GState 𝕜 E) : GState 𝕜 E :=
  let h := corr 𝕜 phi n s.r
  let I := (hardThresholdSorted (gradStep n s.I s.x mu h) K).1
  mkState phi y I (lstsq I y) (s.iters + 1) s.I

/-- The documented semantics of `x, _, _, _ = jnp.linalg.lstsq(Phi[:, I], y)` (external): `x` has one entry per column, solves the normal equations (it
minimises `|y - Phi_I x|`), and has the smallest norm among the solutions. -/
structure IsLstsq (phi : ℕ → E) (I : List ℕ) (y : E) (x : List 𝕜) : Prop where
  length : x.length = I.length
  normal : ∀ i ∈ I, inner 𝕜 (phi i) (y - lin phi I x) = 0
  minNorm : ∀ z : List 𝕜, z.length = I.length → (∀ i ∈ I, inner 𝕜 (phi i) (y - lin phi I z) = 0) → (x.map fun c => ‖c‖ ^ 2).sum ≤ (z.map fun c => ‖c‖ ^ 2).sum

/-- The operator versions of SP and CoSaMP normalise `y` and scale the result back (pursuit/sp.py:118-122, 205-210; pursuit/cosamp.py:143-147, 246-251). -/
def rescale (a : ℝ) (s : GState 𝕜 E) : GState 𝕜 E :=
  { s with x := s.x.map fun c => (a : 𝕜) * c, r := (a : 𝕜) • s.r, rr := s.rr * a ^ 2 }

/-- `sp.matrix_solve` returns `s` (pursuit/sp.py:28-96). -/
def SpMatrixSolve (phi : ℕ → E) (n : ℕ) (lstsq : List ℕ → E → List 𝕜) (y : E) (K maxIters : ℕ) (rtol : ℝ) (s : GState 𝕜 E) : Prop :=
  Out (plainCond (‖y‖ ^ 2 * rtol ^ 2) maxIters) (spBody phi n lstsq y K) (spInit phi n lstsq y K) s

/-- `sp.operator_solve` returns `s` (pursuit/sp.py:101-210). -/
def SpOperatorSolve (phi : ℕ → E) (n : ℕ) (lstsq : List ℕ → E → List 𝕜) (y : E) (K maxIters : ℕ) (rtol : ℝ) (s : GState 𝕜 E) : Prop :=
  ∃ t, Out (supportCond (rtol ^ 2) maxIters K) (spBody phi n lstsq (((1 / ‖y‖ : ℝ) : 𝕜) • y) K) (spInit phi n lstsq (((1 / ‖y‖ : ℝ) : 𝕜) • y) K) t ∧ s = rescale ‖y‖ t

/-- `cosamp.matrix_solve` returns `s` (pursuit/cosamp.py:29-121). -/
def CosampMatrixSolve (phi : ℕ → E) (n : ℕ) (lstsq : List ℕ → E → List 𝕜) (y : E) (K maxIters : ℕ) (rtol : ℝ) (s : GState 𝕜 E) : Prop :=
  Out (plainCond (‖y‖ ^ 2 * rtol ^ 2) maxIters) (cosampBody phi n lstsq y K) (cosampInit phi n lstsq y K) s

/-- `cosamp.operator_solve` returns `s` (pursuit/cosamp.py:126-251). -/
def CosampOperatorSolve (phi : ℕ → E) (n : ℕ) (lstsq : List ℕ → E → List 𝕜) (y : E) (K maxIters : ℕ) (rtol : ℝ) (s : GState 𝕜 E) : Prop :=
  ∃ t, Out (supportCond (rtol ^ 2) maxIters K) (cosampBody phi n lstsq (((1 / ‖y‖ : ℝ) : 𝕜) • y) K) (cosampInit phi n lstsq (((1 / ‖y‖ : ℝ) : 𝕜) • y) K) t ∧ s = rescale ‖y‖ t

/-- `htp.matrix_solve`, `htp.operator_solve` return `s` (pursuit/htp.py:29-126, 135-233). -/
def HtpSolve (phi : ℕ → E) (n : ℕ) (mu : ℝ) (lstsq : List ℕ → E → List 𝕜) (y : E) (K maxIters : ℕ) (rtol : ℝ) (s : GState 𝕜 E) : Prop :=
  Out (supportCond (‖y‖ ^ 2 * rtol ^ 2) maxIters K) (htpBody phi n mu lstsq y K) (ihtInit phi n mu y K) s

/-- `iht.matrix_solve`, `iht.operator_solve` return `s` (pursuit/iht.py:26-115, 121-210). -/
def IhtSolve (phi : ℕ → E) (n : ℕ) (mu : ℝ) (y : E) (K maxIters : ℕ) (rtol : ℝ) (s : GState 𝕜 E) : Prop :=
  Out (plainCond (‖y‖ ^ 2 * rtol ^ 2) maxIters) (ihtBody phi n mu y K) (ihtInit phi n mu y K) s

end Verif.Pursuit
