import Verif.Pursuit.GreedyModel

set_option autoImplicit false
/-!
# Model of IHT and HTP with `normalized=True`

The step is recomputed in each iteration from the correlations with the previous support. It is a quotient that can be `0/0`; a state that depends on it is then `none`.
-/
noncomputable section
namespace Verif.Pursuit
open Verif.Loop

variable {𝕜 : Type*} [RCLike 𝕜] {E : Type*} [NormedAddCommGroup E] [InnerProductSpace 𝕜 E]

/-- `init` with `normalized=True` (pursuit/htp.py:59-80, pursuit/iht.py:56-77): the step refers to the first `K` atoms. -/
def nihtInit (phi : ℕ → E) (n : ℕ) (y : E) (K : ℕ) : Option (GState 𝕜 E) :=
  (normalizedStep phi (corr 𝕜 phi n y) (List.range K)).map fun mu => ihtInit phi n mu y K

/-- `body` of IHT with `normalized=True` (pursuit/iht.py:79-102). -/
def nihtBody (phi : ℕ → E) (n : ℕ) (y : E) (K : ℕ) (s : GState 𝕜 E) : Option (GState 𝕜 E) :=
  (normalizedStep phi (corr 𝕜 phi n s.r) s.I).map fun mu => ihtBody phi n mu y K s

/-- `iteration` of HTP with `normalized=True` (pursuit/htp.py:82-108). -/
def nhtpBody (phi : ℕ → E) (n : ℕ) (lstsq : List ℕ → E → List 𝕜) (y : E) (K : ℕ) (s : GState 𝕜 E) : Option (GState 𝕜 E) :=
  (normalizedStep phi (corr 𝕜 phi n s.r) s.I).map fun mu => htpBody phi n mu lstsq y K s

/-- A loop condition on states that may not be a number: comparisons with NaN are false. -/
def optCond {σ : Type*} (c : σ → Prop) : Option σ → Prop
  | some s => c s
  | none => False

/-- `iht.matrix_solve`, `iht.operator_solve` with `normalized=True` return `s` (pursuit/iht.py:26-115, 121-210). -/
def NihtSolve (phi : ℕ → E) (n : ℕ) (y : E) (K maxIters : ℕ) (rtol : ℝ) (s : Option (GState 𝕜 E)) : Prop :=
  Out (optCond (plainCond (‖y‖ ^ 2 * rtol ^ 2) maxIters)) (fun t => t.bind (nihtBody phi n y K)) (nihtInit phi n y K) s

end Verif.Pursuit
