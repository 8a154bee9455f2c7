import Verif.Loop
import Verif.Pursuit.MpModel

set_option autoImplicit false
/-!
# Model of orthogonal matching pursuit (pursuit/omp.py, pursuit/util.py)

Growing arrays of current length `k` (the support, the chosen atoms, the coefficients, the Cholesky factor) are functions of the
index together with `k`; only entries below `k` are meaningful.
-/
noncomputable section
namespace Verif.Pursuit
open Verif.Loop

/-- `solve_Lx_b(L, b)` of `cr.nimble` (external): forward substitution for a lower triangular `L`. -/
def fwdSub (L : ℕ → ℕ → ℝ) (b : ℕ → ℝ) (i : ℕ) : ℝ :=
  (b i - ∑ j : Fin i, L i j * fwdSub L b j) / L i i
termination_by i

/-- Back substitution for `Lᵀ x = b` of order `k`. -/
def backSub (L : ℕ → ℕ → ℝ) (k : ℕ) (b : ℕ → ℝ) (i : ℕ) : ℝ :=
  (b i - ∑ j : Fin (k - (i + 1)), L (i + 1 + j) i * backSub L k b (i + 1 + j)) / L i i
termination_by k - i
decreasing_by have := j.isLt; omega

/-- `solve_spd_chol(L, b)` of `cr.nimble` (external): solves `L Lᵀ x = b` by the two substitutions. -/
def solveSpdChol (L : ℕ → ℕ → ℝ) (k : ℕ) (b : ℕ → ℝ) : ℕ → ℝ := backSub L k (fwdSub L b)

/-- `gram_chol_update(L, v)` (pursuit/util.py:30-40), `L` of order `k`. -/
def gramCholUpdate (L : ℕ → ℕ → ℝ) (k : ℕ) (v : ℕ → ℝ) : ℕ → ℕ → ℝ :=
  let w := fwdSub L v
  let s := Real.sqrt (1 - ∑ j ∈ Finset.range k, w j * w j)
  fun i j =>
    if i < k then (if j < k then L i j else 0)
    else if i = k then (if j < k then w j else if j = k then s else 0)
    else 0

variable {E : Type*} [NormedAddCommGroup E] [InnerProductSpace ℝ E]

/-- `OMPState` (pursuit/omp.py:116-131); the locals of the loop of `matrix_solve` (pursuit/omp.py:41-97). `k` is the number of chosen atoms (`iterations`). -/
structure OmpState (E : Type*) where
  k : ℕ
  I : ℕ → ℕ
  phiI : ℕ → E
  x : ℕ → ℝ
  r : E
  L : ℕ → ℕ → ℝ
  rr : ℝ

/-- The first atom (pursuit/omp.py:41-71). -/
def ompInit (phi : ℕ → E) (n : ℕ) (y : E) : OmpState E :=
  let p := corr ℝ phi n y
  let i := absMaxIdx p
  let r := y - p.getD i 0 • phi i
  { k := 1, I := fun _ => i, phiI := fun _ => phi i, x := fun _ => p.getD i 0, r := r, L := fun _ _ => 1, rr := ‖r‖ ^ 2 }

/-- One pass of the loop (pursuit/omp.py:74-96), and `_operator_step` (pursuit/omp.py:144-172). -/
def ompStep (phi : ℕ → E) (n : ℕ) (y : E) (s : OmpState E) : OmpState E :=
  let p := corr ℝ phi n y
  let h := corr ℝ phi n s.r
  let i := absMaxIdx h
  let I := Function.update s.I s.k i
  let v := fun j => inner ℝ (s.phiI j) (phi i)
  let L := gramCholUpdate s.L s.k v
  let phiI := Function.update s.phiI s.k (phi i)
  let x := solveSpdChol L (s.k + 1) fun j => p.getD (I j) 0
  let r := y - ∑ j ∈ Finset.range (s.k + 1), x j • phiI j
  { k := s.k + 1, I := I, phiI := phiI, x := x, r := r, L := L, rr := ‖r‖ ^ 2 }

/-- `omp.matrix_solve(Phi, y, max_iters)` (pursuit/omp.py:25-97). With `max_iters ≤ 1` the loop variable `k` of the final `iterations=k+1` is unbound and the
function raises (`none`). -/
def ompMatrixSolve (phi : ℕ → E) (n : ℕ) (y : E) (K : ℕ) : Option (OmpState E) :=
  if K ≤ 1 then none else some ((ompStep phi n y)^[K - 1] (ompInit phi n y))

/-- `init` of `operator_solve` (pursuit/omp.py:213-236): as the first atom of `matrix_solve`, but with `r_norm_sqr = |vdot(y, y)|`. -/
def ompOpInit (phi : ℕ → E) (n : ℕ) (y : E) : OmpState E := { ompInit phi n y with rr := ‖y‖ ^ 2 }

/-- `cond_func` of `operator_solve` (pursuit/omp.py:242-248). -/
def ompCond (K : ℕ) (rtol : ℝ) (s : OmpState E) : Prop := s.rr > rtol ^ 2 ∧ s.k < K

/-- `operator_solve(Phi, y, K, res_norm_rtol)` (pursuit/omp.py:177-259) returns `s`: run on `y/|y|`, then scale back. For `y = 0` the code
returns NaN (division by `|y|`), which is not represented: theorems assume `y ≠ 0`. -/
def OmpOperatorSolve (phi : ℕ → E) (n : ℕ) (y : E) (K : ℕ) (rtol : ℝ) (s : OmpState E) : Prop :=
  ∃ t, Out (ompCond K rtol) (ompStep phi n ((1 / ‖y‖) • y)) (ompOpInit phi n ((1 / ‖y‖) • y)) t ∧
    s = { t with x := (fun j => ‖y‖ * t.x j), r := ‖y‖ • t.r, rr := t.rr * ‖y‖ ^ 2 }

end Verif.Pursuit
