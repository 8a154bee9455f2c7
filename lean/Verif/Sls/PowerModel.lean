import Verif.Loop
import Mathlib.Analysis.InnerProductSpace.Basic

set_option autoImplicit false
/-!
# Model of the norm and eigenvalue estimators (lop/normest.py, sls/power.py)

Arrays are vectors of an inner product space over `𝕜 = ℝ` or `ℂ`. Floating point is idealised, except that dividing by a zero norm, which gives
`nan`, is kept: the state `none` is the state whose vector and estimate are `nan`.
-/
noncomputable section
namespace Verif.Sls
open Verif.Loop

/-- `NormEstState` (lop/normest.py:25-35) and `PowerIterState` (sls/power.py:25-35). -/
structure PState (E : Type*) where
  v : E
  old : ℝ
  new : ℝ
  iters : ℕ

/-- `cond` (lop/normest.py:74-80, sls/power.py:76-82). `change / 0` is `±inf` for a non-zero change and `nan` otherwise; comparisons with `nan` are
false. -/
def pCond {E : Type*} (maxIters : ℕ) (tol : ℝ) : Option (PState E) → Prop
  | none => False
  | some s => s.iters < maxIters ∧ if s.old = 0 then s.new ≠ 0 else |(s.new - s.old) / s.old| > tol

section
variable {𝕜 E F : Type*} [RCLike 𝕜] [NormedAddCommGroup E] [InnerProductSpace 𝕜 E] [NormedAddCommGroup F] [InnerProductSpace 𝕜 F]

open Classical in
/-- `body` of `normest` (lop/normest.py:82-96). -/
def neBody (𝕜 : Type*) {E F : Type*} [RCLike 𝕜] [NormedAddCommGroup E] [InnerProductSpace 𝕜 E] (times : E → F) (trans : F → E) :
    Option (PState E) → Option (PState E)
  | none => none
  | some s =>
    if ‖s.v‖ = 0 then none else
    let v : E := ((‖s.v‖⁻¹ : ℝ) : 𝕜) • s.v
    let vNew := trans (times v)
    some { v := vNew, old := s.new, new := ‖inner 𝕜 v vNew‖, iters := s.iters + 1 }

open Classical in
/-- `init` (lop/normest.py:65-72) for the random start vector `b`. -/
def neInit (𝕜 : Type*) {E : Type*} [RCLike 𝕜] [NormedAddCommGroup E] [InnerProductSpace 𝕜 E] (b : E) : Option (PState E) :=
  if ‖b‖ = 0 then none else some { v := ((‖b‖⁻¹ : ℝ) : 𝕜) • b, old := -1e20, new := 1e20, iters := 0 }

/-- `normest(operator, max_iters, error_tolerance)` returns `s` for the start vector `b` (lop/normest.py:49-100); `none` is `nan`. -/
def NormEst (𝕜 : Type*) {E F : Type*} [RCLike 𝕜] [NormedAddCommGroup E] [InnerProductSpace 𝕜 E] (times : E → F) (trans : F → E) (b : E)
    (maxIters : ℕ) (tol : ℝ) (s : Option ℝ) : Prop :=
  ∃ st, Out (pCond maxIters tol) (neBody 𝕜 times trans) (neInit 𝕜 b) st ∧ s = st.map fun st => Real.sqrt st.new
end

section
variable {E : Type*} [NormedAddCommGroup E] [InnerProductSpace ℝ E]

open Classical in
/-- `body` of `power_iterations` (sls/power.py:84-95), for a real operator. -/
def pwBody (times : E → E) : Option (PState E) → Option (PState E)
  | none => none
  | some s =>
    if ‖s.v‖ = 0 then none else
    let v : E := ‖s.v‖⁻¹ • s.v
    let vNew := times v
    some { v := vNew, old := s.new, new := inner ℝ v vNew, iters := s.iters + 1 }

/-- `power_iterations(operator, b, max_iters, error_tolerance)` returns the vector `v`, the estimate `s` and the count `k` (sls/power.py:49-102). The
final normalisation divides by the norm; `v = none` is a `nan` vector. A `nan` run is `none`. -/
def PowerIter (times : E → E) (b : E) (maxIters : ℕ) (tol : ℝ) (res : Option (Option E × ℝ × ℕ)) : Prop :=
  open Classical in
  ∃ st, Out (pCond maxIters tol) (pwBody times) (some { v := b, old := -1e20, new := 1e20, iters := 0 }) st ∧
    res = st.map fun st => (if ‖st.v‖ = 0 then none else some (‖st.v‖⁻¹ • st.v), st.new, st.iters)
end

end Verif.Sls
