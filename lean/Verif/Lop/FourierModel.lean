import Verif.Lop.BasicModel
import Mathlib.Analysis.SpecialFunctions.Trigonometric.Basic
import Mathlib.Analysis.SpecialFunctions.Complex.Log

set_option autoImplicit false
/-!
# Model of `lop/fft.py`, `lop/onb.py`, `lop/special_matrices.py` and of the trigonometric dictionaries

`jnp.fft.*` is external; its documented semantics is written down here (`dft`, `idft`, `rfft`, `irfft`).
-/
noncomputable section
namespace Verif.Lop
open Complex (I)

/-- `exp(i θ)` -/
def cis (θ : ℝ) : ℂ := Complex.exp (θ * I)

/-- `jnp.fft.fft(x, n)`: the input is truncated or zero padded to length `n`. -/
def dft (n : ℕ) (x : List ℂ) : List ℂ :=
  (List.range n).map fun k : ℕ => ∑ j ∈ Finset.range n, cis (-(2 * Real.pi * (k * j) / n)) * ent x j

/-- `jnp.fft.ifft(x, n)`. -/
def idft (n : ℕ) (x : List ℂ) : List ℂ :=
  (List.range n).map fun j : ℕ => (1 / (n : ℂ)) * ∑ k ∈ Finset.range n, cis (2 * Real.pi * (j * k) / n) * ent x k

/-- A real array promoted to complex. -/
def toC (x : List ℝ) : List ℂ := x.map fun a : ℝ => (a : ℂ)

/-- `jnp.fft.rfft(x, n)`: the first `n/2 + 1` coefficients of the DFT of a real array. -/
def rfft (n : ℕ) (x : List ℝ) : List ℂ := (dft n (toC x)).take (n / 2 + 1)

/-- The Hermitian-symmetric spectrum of length `n` with the given first `n/2 + 1` coefficients. -/
def hermExt (n : ℕ) (X : List ℂ) : List ℂ :=
  (List.range n).map fun k : ℕ => if k ≤ n / 2 then ent X k else star (ent X (n - k))

/-- `jnp.fft.irfft(X, n)`: inverse DFT of the Hermitian extension; the imaginary parts of the coefficients `0` and
`n/2` do not contribute. -/
def irfft (n : ℕ) (X : List ℂ) : List ℝ := (idft n (hermExt n X)).map Complex.re

/-- `fourier_basis(n)` (lop/onb.py:24-37). -/
def fourierBasis (n : ℕ) : Op ℂ :=
  let n2 : ℂ := (Real.sqrt n : ℝ)
  let n3 : ℂ := 1 / n2
  { times := fun x => smul n2 (idft n x), trans := fun x => smul n3 (dft n x), shape := (n, n), real := false }

/-- `dirac_fourier_basis(n)` (lop/onb.py:40-47). -/
def diracFourierBasis (n : ℕ) : Op ℂ :=
  let n2 : ℂ := (Real.sqrt n : ℝ)
  let n3 : ℂ := 1 / n2
  { times := fun x => vadd (x.take n) (smul n2 (idft n (x.drop n))),
    trans := fun x => x ++ smul n3 (dft n x), shape := (n, 2 * n), real := false }

inductive FftMode | r2c | c2c | other

/-- `fft(m, n, mode)` (lop/fft.py:27-58); `none` for `n < m` (assertion) and an unknown mode (ValueError). -/
def fft (m n : ℕ) : FftMode → Option (Op ℂ)
  | .r2c => if n ≥ m then
      some { times := fun x => dft n (x.map fun z => (z.re : ℂ)),
             trans := fun w => (smul (n : ℂ) (idft n w)).take m, shape := (n, m), real := false } else none
  | .c2c => if n ≥ m then
      some { times := fun x => dft n x,
             trans := fun w => (smul (n : ℂ) (idft n w)).take m, shape := (n, m), real := false } else none
  | .other => none

/-- `jnp.roll(x, 1)`: the last entry moves to the front. -/
def roll1 (x : List ℝ) : List ℝ := (List.range x.length).map fun i => ent x ((i + x.length - 1) % x.length)

/-- `circulant(n, c)` (lop/special_matrices.py:23-35). -/
def circulant (n : ℕ) (c : List ℝ) : Option (Op ℝ) :=
  let r := c.length
  if n ≥ r then
    let c_padded := pad 0 (n - r) c
    let cf := rfft n c_padded
    let c_j := roll1 c_padded.reverse
    let cjf := rfft n c_j
    some { times := fun x => irfft n (vmul (rfft n x) cf), trans := fun x => irfft n (vmul (rfft n x) cjf),
           shape := (n, n) }
  else none

/-- `phi_f` (lop/onb.py:62-66). -/
def phiF (n : ℕ) : List ℂ :=
  let factor : ℂ := (Real.sqrt (2 * n) : ℝ)
  (List.range n).map fun k : ℕ =>
    let v := cis (Real.pi * k / (2 * n)) * factor
    if k = 0 then v * (Real.sqrt 2 : ℝ) else v

/-- `phi_a` (lop/onb.py:68-70). -/
def phiA (n : ℕ) : List ℂ :=
  let factor : ℂ := (Real.sqrt (2 * n) : ℝ)
  (List.range n).map fun k : ℕ =>
    let v := cis (-(Real.pi * k / (2 * n)))
    (if k = 0 then v * 1 / (Real.sqrt 2 : ℝ) else v) / factor

/-- `cosine_basis(n)` (lop/onb.py:51-85), 1-D input.  `jfft.irfft(c)` without a length uses `2 (len(c) - 1)`,
`jfft.rfft(x)` uses `len(x)`. -/
def cosineBasis (n : ℕ) : Op ℝ :=
  { times := fun x =>
      let upper := vmul (phiF n) (toC x)
      let c := upper ++ [0]
      (irfft (2 * (c.length - 1)) c).take n,
    trans := fun x =>
      let x := x ++ x.reverse
      let c := (rfft x.length x).take n
      (vmul (phiA n) c).map Complex.re,
    shape := (n, n) }

/-- `cosine_basis(N)` of dict/simple.py:226-232, as an entry function: `D[i,k] = 2 cos(π (2i+1) k / (2N))`, columns
normalised, transposed. `normalize_l2_cw` divides each column by its l2 norm. -/
def dictCosine (N : ℕ) (k i : ℕ) : ℝ :=
  let D := fun (i k : ℕ) => 2 * Real.cos (Real.pi / (2 * N) * (2 * i + 1) * k)
  D i k / Real.sqrt (∑ t ∈ Finset.range N, D t k ^ 2)

/-- `fourier_basis(n)` of dict/simple.py:250-258: conjugate transpose of the scaled DFT matrix `scipy.linalg.dft(n)`,
whose entry `(k, j)` is `exp(-2πi k j / n)`. -/
def dictFourier (n : ℕ) (i k : ℕ) : ℂ := star (cis (-(2 * Real.pi * (k * i) / n)) / (Real.sqrt n : ℝ))

end Verif.Lop
