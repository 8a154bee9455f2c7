import Verif.Lop.BasicProps
import Verif.Lop.FourierModel
import Verif.Lop.StructModel
import Mathlib.Data.Real.Sign

set_option autoImplicit false

/-!
# Model of `problems/*.py`: the Sparco test problems

PRNG draws are parameters: a normal draw is an arbitrary list, `random.choice(..., replace=False)` an arbitrary
list of distinct positions (stated in the theorems), `gaussian_dict` an arbitrary matrix.  `signals.blocks(n)` of
`cr.nimble` is an arbitrary signal of length `n`, and so is the piecewise polynomial of problem 006 here (it is
modelled in PiecewiseModel.lean).  The fields `figures` and `plot` are not modelled.  Problem 401 (two-channel audio
read from files, no known `x`) works on 2-D arrays and is modelled in AudioModel.lean.
-/
noncomputable section
namespace Verif.Problems
open Verif.Lop

/-- `Problem` (problems/spec.py:32-68) without the plotting fields. -/
structure Problem (R : Type*) where
  name : String
  Phi : Op R
  Psi : Op R
  A : Op R
  b : List R
  reconstruct : List R → List R
  x : Option (List R) := none
  y : Option (List R) := none
  both : Bool := false

/-- `jit` (lop/lop.py:178-185): raises for an operator which is not jit safe; compilation does not change the
functions. -/
def jit {R : Type*} (A : Op R) : Option (Op R) :=
  if A.jit_safe then
    some { times := A.times, trans := A.trans, shape := A.shape, matrix_safe := A.matrix_safe, real := A.real,
           linear := A.linear }
  else none

/-- `gaussian_dict(key, m, n)` (lop/random.py:25-46): `matrix` of the drawn `m × n` array `g` (its entries are real). -/
def gaussianDict {R : Type*} [CommRing R] [StarRing R] (m n : ℕ) (g : ℕ → ℕ → R) : Op R := matrix m n g true

/-- `jnp.zeros(n).at[indices].set(values)` (problems/prob003.py:42-43, 49-50; problems/prob007.py:41; problems/prob008.py:44; problems/prob011.py:41). -/
def spikesOf {R : Type*} [CommRing R] (n : ℕ) (indices : List ℕ) (values : List R) : List R :=
  scatterSet (List.replicate n 0) indices values

/-- The sine component `4 sin(4 π t)` of problems/prob001.py:33-34, `t = (i+1)/n`. -/
def sigSine (n : ℕ) : List ℝ := (List.range n).map fun i : ℕ => 4 * Real.sin (4 * Real.pi * (((i : ℝ) + 1) / n))

/-- The jumps `sign(t - .3) - sign(.72 - t)` of problems/prob001.py:35. -/
def sigJump (n : ℕ) : List ℝ :=
  (List.range n).map fun i : ℕ => Real.sign (((i : ℝ) + 1) / n - 0.3) - Real.sign (0.72 - ((i : ℝ) + 1) / n)

/-- `prob001.generate` (problems/prob001.py:30-87). `jnp.real` of the reconstruction is embedded in `ℂ`. -/
def prob001 (n : ℕ) : Option (Problem ℂ) :=
  let sine := toC (sigSine n)
  let jump := toC (sigJump n)
  let b := vadd sine jump
  let x0 := (fourierBasis n).trans sine
  let x1 := (invHeaviside n true).times jump
  let x := x0 ++ x1
  (hcat (fourierBasis n) (heaviside n true)).map fun dictionary =>
    { name := "heavi-sine:fourier:heavi-side", Phi := identity n n, Psi := dictionary, A := dictionary, b := b,
      reconstruct := fun x => toC ((dictionary.times x).map Complex.re), x := some x }

/-- `dwt(n, wavelet, level, basis=True)` (lop/dwt.py:124-166): `times` and `trans` of the transform swapped. -/
def dwtBasis (D : List ℝ → List ℝ × List ℝ) (S : List ℝ → List ℝ → List ℝ) (max_level n level : ℕ) : Option (Op ℝ) :=
  (dwt D S max_level n level).map fun T => { times := T.trans, trans := T.times, shape := (T.shape.2, T.shape.1) }

/-- `prob002.generate` (problems/prob002.py:31-58), for the signal `b` of `signals.blocks(n)`. -/
def prob002 (D : List ℝ → List ℝ × List ℝ) (S : List ℝ → List ℝ → List ℝ) (max_level n : ℕ) (b : List ℝ) :
    Option (Problem ℝ) :=
  (dwtBasis D S max_level n 5).map fun haar =>
    { name := "blocks:haar", Phi := identity n n, Psi := haar, A := haar, b := b,
      reconstruct := fun x => haar.times x, x := some (haar.trans b) }

/-- `coeffs * jnp.sqrt(n/2)` of problems/prob003.py:42-44, problems/prob005.py:42-44 and (complex) problems/prob004.py:42-48. -/
def coeffsOf {R : Type*} [CommRing R] (n : ℕ) (sqrtHalf : R) (indices : List ℕ) (values : List R) : List R :=
  (spikesOf n indices values).map fun a => a * sqrtHalf

/-- `prob003.generate` (problems/prob003.py:30-80). `ci, cv`: indices and values of the cosine coefficients; `si, sv`: of the
spikes. -/
def prob003 (n : ℕ) (ci : List ℕ) (cv : List ℝ) (si : List ℕ) (sv : List ℝ) : Option (Problem ℝ) :=
  (hcat (identity n n) (cosineBasis n)).bind fun h => (jit h).map fun dirac_cosine =>
    let coeffs := coeffsOf n (Real.sqrt (n / 2)) ci cv
    let cosine := (cosineBasis n).times coeffs
    let spikes := spikesOf n si sv
    { name := "cosine-spikes:dirac-dct", Phi := identity n n, Psi := dirac_cosine, A := dirac_cosine,
      b := vadd cosine spikes, reconstruct := fun x => dirac_cosine.times x, x := some (spikes ++ coeffs) }

/-- `prob004.generate` (problems/prob004.py:30-88). -/
def prob004 (n : ℕ) (ci : List ℕ) (cv : List ℂ) (si : List ℕ) (sv : List ℂ) : Option (Problem ℂ) :=
  (hcat (identity n n) (fourierBasis n)).bind fun h => (jit h).map fun dirac_fourier =>
    let coeffs := coeffsOf n ((Real.sqrt (n / 2) : ℝ) : ℂ) ci cv
    let sinusoid := (fourierBasis n).times coeffs
    let spikes := spikesOf n si sv
    { name := "complex:sinusoid-spikes:dirac-fourier", Phi := identity n n, Psi := dirac_fourier, A := dirac_fourier,
      b := vadd sinusoid spikes, reconstruct := fun x => dirac_fourier.times x, x := some (spikes ++ coeffs),
      y := some (vadd sinusoid spikes) }

/-- `prob005.generate` (problems/prob005.py:30-90). -/
def prob005 (m n : ℕ) (ci : List ℕ) (cv : List ℝ) (si : List ℕ) (sv : List ℝ) (g : ℕ → ℕ → ℝ) : Option (Problem ℝ) :=
  (hcat (identity n n) (cosineBasis n)).bind fun h => (jit h).bind fun dirac_cosine =>
    let coeffs := coeffsOf n (Real.sqrt (n / 2)) ci cv
    let cosine := (cosineBasis n).times coeffs
    let spikes := spikesOf n si sv
    let y := vadd cosine spikes
    let Phi := gaussianDict m n g
    (compose Phi dirac_cosine).map fun A =>
      { name := "cosine-spikes:dirac-dct:gaussian", Phi := Phi, Psi := dirac_cosine, A := A, b := Phi.times y,
        reconstruct := fun x => dirac_cosine.times x, x := some (spikes ++ coeffs), y := some y, both := true }

/-- `prob006.generate` (problems/prob006.py:48-90), for the piecewise polynomial signal `y`. -/
def prob006 (D : List ℝ → List ℝ × List ℝ) (S : List ℝ → List ℝ → List ℝ) (max_level m n level : ℕ) (y : List ℝ)
    (g : ℕ → ℕ → ℝ) : Option (Problem ℝ) :=
  (dwtBasis D S max_level n level).bind fun h => (jit h).bind fun db =>
    let Phi := gaussianDict m n g
    (compose Phi db).map fun A =>
      { name := "piecewise-cubic-poly:daubechies:gaussian", Phi := Phi, Psi := db, A := A, b := Phi.times y,
        reconstruct := fun x => db.times x, x := some (db.trans y), y := some y, both := true }

/-- `prob007.generate` (problems/prob007.py:30-67) with the scaled sizes (each `max(1, round(scale*size))`). -/
def prob007 (m n : ℕ) (normals : List ℝ) (indices : List ℕ) (g : ℕ → ℕ → ℝ) : Problem ℝ :=
  let values := normals.map Real.sign
  let x := spikesOf n indices values
  let Phi := gaussianDict m n g
  { name := "signed-spikes:dirac:gaussian", Phi := Phi, Psi := identity n n, A := Phi, b := Phi.times x,
    reconstruct := fun x => x, x := some x, y := some x }

/-- `prob008.generate` (problems/prob008.py:30-77). -/
def prob008 (m n : ℕ) (rn im : List ℝ) (indices : List ℕ) (g : ℕ → ℕ → ℂ) : Problem ℂ :=
  let values := List.zipWith (fun r i : ℝ => ((Real.sign r : ℝ) : ℂ) + Complex.I * (Real.sign i : ℝ)) rn im
  let x := spikesOf n indices values
  let Phi := gaussianDict m n g
  { name := "complex:signed-spikes:dirac:gaussian", Phi := Phi, Psi := identity n n, A := Phi, b := Phi.times x,
    reconstruct := fun x => x, x := some x }

/-- `prob009.generate` (problems/prob009.py:31-59) and `prob010.generate` (problems/prob010.py:31-59), which differ in `name` and
`normalized`; `b` is the signal of `signals.blocks(n)`. -/
def probHeavi (name : String) (normalized : Bool) (n : ℕ) (b : List ℝ) : Problem ℝ :=
  let heavi : Op ℝ := heaviside n normalized
  { name := name, Phi := identity n n, Psi := heavi, A := heavi, b := b,
    reconstruct := fun x => heavi.times x, x := some ((invHeaviside n normalized).times b) }

/-- problems/prob009.py:31-59. -/
def prob009 (n : ℕ) (b : List ℝ) : Problem ℝ := probHeavi "blocks:heavi-side" false n b

/-- problems/prob010.py:31-59. -/
def prob010 (n : ℕ) (b : List ℝ) : Problem ℝ := probHeavi "blocks:normalized-heavi-side" true n b

/-- `prob011.generate` (problems/prob011.py:30-67). -/
def prob011 (m n : ℕ) (normals : List ℝ) (indices : List ℕ) (g : ℕ → ℕ → ℝ) : Problem ℝ :=
  let x := spikesOf n indices normals
  let Phi := gaussianDict m n g
  { name := "gaussian-spikes:dirac:gaussian", Phi := Phi, Psi := identity n n, A := Phi, b := Phi.times x,
    reconstruct := fun x => x, x := some x }

/-- `PROBLEM_MAP` (problems/problems.py:20-33). -/
def problemMap : List (String × String) :=
  [("heavi-sine:fourier:heavi-side", "prob001"), ("blocks:haar", "prob002"), ("cosine-spikes:dirac-dct", "prob003"),
   ("complex:sinusoid-spikes:dirac-fourier", "prob004"), ("cosine-spikes:dirac-dct:gaussian", "prob005"),
   ("piecewise-cubic-poly:daubechies:gaussian", "prob006"), ("signed-spikes:dirac:gaussian", "prob007"),
   ("complex:signed-spikes:dirac:gaussian", "prob008"), ("blocks:heavi-side", "prob009"),
   ("blocks:normalized-heavi-side", "prob010"), ("gaussian-spikes:dirac:gaussian", "prob011"),
   ("src-sep-1", "prob401")]

/-- `names()` (problems/problems.py:41-44). -/
def names : List String := (problemMap.map Prod.fst).mergeSort

/-- The module chosen by `generate(name)` (problems/problems.py:46-63); `none` is the failed assertion. -/
def generateModule (name : String) : Option String := problemMap.lookup name

end Verif.Problems
