import Verif.Loop
import Verif.Pursuit.UtilModel
import Mathlib.Analysis.InnerProductSpace.Basic

set_option autoImplicit false
/-!
# Model of matching pursuit (pursuit/mp.py)

A dictionary with `n` columns is the family `phi 0, …, phi (n-1)` of vectors of a real inner product space: `Phi.T @ r` is the list of
`⟨phi i, r⟩` and `Phi @ x` is `∑ x i • phi i`.
-/
noncomputable section
namespace Verif.Pursuit
open Verif.Loop

section defs
variable {𝕜 E : Type*} [RCLike 𝕜] [NormedAddCommGroup E] [InnerProductSpace 𝕜 E]

/-- `Phi.T @ r` / `Phi.trans(r)`. -/
def corr (𝕜 : Type*) {E : Type*} [RCLike 𝕜] [NormedAddCommGroup E] [InnerProductSpace 𝕜 E] (phi : ℕ → E) (n : ℕ) (r : E) : List 𝕜 :=
  (List.range n).map fun i => inner 𝕜 (phi i) r

/-- `Phi @ x` for a signal of length `n`. -/
def synth (phi : ℕ → E) (n : ℕ) (x : ℕ → 𝕜) : E := ∑ i ∈ Finset.range n, x i • phi i
end defs

variable {E : Type*} [NormedAddCommGroup E] [InnerProductSpace ℝ E]

/-- `MPState` (pursuit/mp.py:25-35). -/
structure MpState (E : Type*) where
  x : ℕ → ℝ
  r : E
  rr : ℝ
  iters : ℕ

/-- `init_func` (pursuit/mp.py:98-104, 174-180). -/
def mpInit (y : E) : MpState E := { x := fun _ => 0, r := y, rr := ‖y‖ ^ 2, iters := 0 }

/-- `body_func` (pursuit/mp.py:106-123, 182-199). The new `r_norm_sqr` is computed but the state is built with `r_norm_sqr=y_norm_sqr`. -/
def mpStep (phi : ℕ → E) (n : ℕ) (y : E) (s : MpState E) : MpState E :=
  let h := corr ℝ phi n s.r
  let best := argmax (h.map fun x => |x|)
  let coeff := h.getD best 0
  { x := Function.update s.x best (s.x best + coeff), r := s.r - coeff • phi best, rr := ‖y‖ ^ 2, iters := s.iters + 1 }

/-- `cond_func` (pursuit/mp.py:93-95, 125-132, 169-171, 201-208). -/
def mpCond (y : E) (rtol : ℝ) (maxIters : ℕ) (s : MpState E) : Prop := s.rr > ‖y‖ ^ 2 * rtol ^ 2 ∧ s.iters < maxIters

end Verif.Pursuit
