import Verif.Pursuit.GreedyModel
import Mathlib.Analysis.InnerProductSpace.PiL2
import Mathlib.Data.Real.Sign
import Verif.Opt.ProjModel

set_option autoImplicit false
/-!
# Model of one-bit compressive sensing (cs/cs1bit/util.py, biht.py, rfp.py)

Measurements are vectors of `EuclideanSpace ℝ (Fin M)`; a dictionary of `n` atoms is the family `phi` of its columns.
-/
noncomputable section
namespace Verif.Cs1bit
open Verif.Loop Verif.Pursuit

/-- The space of the measurements. -/
abbrev Meas (M : ℕ) := EuclideanSpace ℝ (Fin M)

/-- `jnp.sign` entry by entry; `sign(0) = 0`. -/
def signV {M : ℕ} (v : Meas M) : Meas M := WithLp.toLp 2 fun i => Real.sign (v i)

/-- `Phi @ x`. -/
def applyPhi {M : ℕ} (phi : ℕ → Meas M) (n : ℕ) (x : ℕ → ℝ) : Meas M := ∑ i ∈ Finset.range n, x i • phi i

/-- `measure_1bit(Phi, x)` (cs/cs1bit/util.py:17-22). -/
def measure1bit {M : ℕ} (phi : ℕ → Meas M) (n : ℕ) (x : ℕ → ℝ) : Meas M := signV (applyPhi phi n x)

/-- `BIHTState` (cs/cs1bit/biht.py:26-39). -/
structure BState (M : ℕ) where
  x : List ℝ
  I : List ℕ
  r : Meas M
  mismatched : ℕ
  iters : ℕ

/-- `jnp.sum(r != 0)`. -/
def countNonzero {M : ℕ} (r : Meas M) : ℕ := (Finset.univ.filter fun i => r i ≠ 0).card

/-- The assembly of a state: `y_hat = sign(Phi_I @ x_I)`, `r = y - y_hat`, the number of mismatched bits (cs/cs1bit/biht.py:106-112, 124-135). -/
def mkB {M : ℕ} (phi : ℕ → Meas M) (y : Meas M) (I : List ℕ) (x : List ℝ) (iters : ℕ) : BState M :=
  { x := x, I := I, r := y - signV (lin phi I x), mismatched := countNonzero (y - signV (lin phi I x)), iters := iters }

/-- `init` (cs/cs1bit/biht.py:100-112). -/
def bihtInit {M : ℕ} (phi : ℕ → Meas M) (y : Meas M) (K : ℕ) : BState M := mkB phi y (List.range K) (List.replicate K 0) 0

/-- `body` (cs/cs1bit/biht.py:114-135). -/
def bihtBody {M : ℕ} (phi : ℕ → Meas M) (n : ℕ) (y : Meas M) (K : ℕ) (tau : ℝ) (s : BState M) : BState M :=
  let h := corr ℝ phi n s.r
  let x := (List.range n).map fun i => buildSignal s.I s.x i + tau / 2 * h.getD i 0
  let Ix := hardThresholdK x K
  mkB phi y Ix.1 Ix.2 (s.iters + 1)

/-- `cond` (cs/cs1bit/biht.py:137-144). -/
def bihtCond {M : ℕ} (maxIters : ℕ) (s : BState M) : Prop := s.mismatched > 0 ∧ s.iters < maxIters

/-- `biht(Phi, y, K, tau, max_iters)` returns `s` (cs/cs1bit/biht.py:42-147). -/
def Biht {M : ℕ} (phi : ℕ → Meas M) (n : ℕ) (y : Meas M) (K : ℕ) (tau : ℝ) (maxIters : ℕ) (s : BState M) : Prop :=
  Out (bihtCond maxIters) (bihtBody phi n y K tau) (bihtInit phi y K) s

/-! ## Renormalised fixed point iterations -/

/-- `f_bar` (cs/cs1bit/rfp.py:92-101). -/
def rfpFbar {M n : ℕ} (phi : Fin n → Meas M) (y : Meas M) (x : EuclideanSpace ℝ (Fin n)) : EuclideanSpace ℝ (Fin n) :=
  let measurement : Meas M := ∑ j, x j • phi j
  let problems : Meas M := WithLp.toLp 2 fun i => y i * (if y i * measurement i ≤ 0 then -(y i * measurement i) else 0)
  WithLp.toLp 2 fun j => inner ℝ (phi j) problems

/-- `h` before shrinkage (cs/cs1bit/rfp.py:105-108). -/
def rfpGradStep {M n : ℕ} (phi : Fin n → Meas M) (y : Meas M) (delta : ℝ) (x : EuclideanSpace ℝ (Fin n)) : EuclideanSpace ℝ (Fin n) :=
  x - delta • (rfpFbar phi y x - inner ℝ (rfpFbar phi y x) x • x)

/-- `body_fun` (cs/cs1bit/rfp.py:89-114; `shrink` is opt/shrinkage.py:19-25); `none` is the `nan` vector of a division by a zero norm. -/
def rfpBody {M n : ℕ} (phi : Fin n → Meas M) (y : Meas M) (delta tau : ℝ) : Option (EuclideanSpace ℝ (Fin n)) → Option (EuclideanSpace ℝ (Fin n))
  | none => none
  | some x =>
    let h := rfpGradStep phi y delta x
    let u : EuclideanSpace ℝ (Fin n) := WithLp.toLp 2 fun j => Verif.Opt.shrink1 tau (h j)
    if ‖u‖ = 0 then none else some (‖u‖⁻¹ • u)

/-- `rfp(Phi, y, x0, lambda_, delta, inner_iters, outer_iters)` (cs/cs1bit/rfp.py:78-136): `outer_iters` rounds of `inner_iters` steps; the threshold is computed once, from the initial `lambda_`.
`none` is a `nan` vector, the division by a zero `lambda_` or, for `outer_iters = 0`, the unbound `state`. -/
def rfp {M n : ℕ} (phi : Fin n → Meas M) (y : Meas M) (x0 : EuclideanSpace ℝ (Fin n)) (lambda delta : ℝ) (inner outer : ℕ) : Option (EuclideanSpace ℝ (Fin n)) :=
  if outer = 0 ∨ lambda = 0 then none else
  (List.range outer).foldl (fun x _ => (rfpBody phi y delta (delta / lambda))^[inner] x) (some x0)

/-- `rfp_random_guess(Phi)` (cs/cs1bit/rfp.py:30-38) for the draw `v`, and `rfp_lsqr_guess(Phi, y)` (cs/cs1bit/rfp.py:40-46) for the least squares solution `v`; `none` is the `nan` vector for `v = 0`. -/
def rfpGuess {n : ℕ} (v : EuclideanSpace ℝ (Fin n)) : Option (EuclideanSpace ℝ (Fin n)) := if ‖v‖ = 0 then none else some (‖v‖⁻¹ • v)

end Verif.Cs1bit
