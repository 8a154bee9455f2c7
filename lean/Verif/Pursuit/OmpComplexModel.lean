import Verif.Pursuit.MpModel
import Mathlib.Analysis.SpecialFunctions.Pow.Complex

set_option autoImplicit false
/-!
# Model of `omp.operator_solve` on complex data (pursuit/omp.py, pursuit/util.py)

`OmpModel` is about real data. `operator_solve` also accepts complex operators (`dtype = complex128` unless `Phi.real`). The final triangular
solve is a parameter.
-/
noncomputable section
namespace Verif.Pursuit

/-- `solve_Lx_b(L, b)` of `cr.nimble` (external): forward substitution for a complex lower triangular `L`. -/
def fwdSubC (L : ℕ → ℕ → ℂ) (b : ℕ → ℂ) (i : ℕ) : ℂ :=
  (b i - ∑ j : Fin i, L i j * fwdSubC L b j) / L i i
termination_by i

/-- `gram_chol_update(L, v)` (pursuit/util.py:30-40) for complex `L` of order `k`: `w.T` is the transpose without conjugation, `jnp.sqrt` the principal
square root. -/
def gramCholUpdateC (L : ℕ → ℕ → ℂ) (k : ℕ) (v : ℕ → ℂ) : ℕ → ℕ → ℂ :=
  let w := fwdSubC L v
  let s := (1 - ∑ j ∈ Finset.range k, w j * w j) ^ (1 / 2 : ℂ)
  fun i j =>
    if i < k then (if j < k then L i j else 0)
    else if i = k then (if j < k then w j else if j = k then s else 0)
    else 0

variable {E : Type*} [NormedAddCommGroup E] [InnerProductSpace ℂ E]

/-- `OMPState` (pursuit/omp.py:116-131) without `r_norm_sqr`. -/
structure OmpStateC (E : Type*) where
  k : ℕ
  I : ℕ → ℕ
  phiI : ℕ → E
  x : ℕ → ℂ
  r : E
  L : ℕ → ℕ → ℂ

/-- `init` of `operator_solve` (pursuit/omp.py:213-236). -/
def ompInitC (phi : ℕ → E) (n : ℕ) (y : E) : OmpStateC E :=
  let p := corr ℂ phi n y
  let i := absMaxIdx p
  { k := 1, I := fun _ => i, phiI := fun _ => phi i, x := fun _ => p.getD i 0, r := y - p.getD i 0 • phi i, L := fun _ _ => 1 }

/-- `_operator_step` (pursuit/omp.py:144-172); `solve L k b` is `solve_spd_chol(L, b)` of `cr.nimble` (external) for `L` of order `k`. -/
def ompStepC (solve : (ℕ → ℕ → ℂ) → ℕ → (ℕ → ℂ) → ℕ → ℂ) (phi : ℕ → E) (n : ℕ) (y : E) (s : OmpStateC E) : OmpStateC E :=
  let p := corr ℂ phi n y
  let h := corr ℂ phi n s.r
  let i := absMaxIdx h
  let I := Function.update s.I s.k i
  let v := fun j => inner ℂ (s.phiI j) (phi i)
  let L := gramCholUpdateC s.L s.k v
  let phiI := Function.update s.phiI s.k (phi i)
  let x := solve L (s.k + 1) fun j => p.getD (I j) 0
  let r := y - ∑ j ∈ Finset.range (s.k + 1), x j • phiI j
  { k := s.k + 1, I := I, phiI := phiI, x := x, r := r, L := L }

end Verif.Pursuit
