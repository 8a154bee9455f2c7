import Verif.Lop.TwoDModel
import Verif.Lop.StructModel

set_option autoImplicit false

/-!
# Model of `problems/prob401.py`: source separation of two audio signals

The samples read from the two files are parameters. Arrays with two axes are `Arr2`; operators are `Op2`, with the
action on such arrays. The fields `figures` and `plot` are not modelled.
-/
noncomputable section
namespace Verif.Problems
open Verif.Lop

/-- `Problem` (problems/spec.py:32-68) for 2-D data, without the plotting fields; `x` is not given. -/
structure Problem2 (R : Type*) where
  name : String
  Phi : Op2 R
  Psi : Op2 R
  A : Op2 R
  b : Arr2 R
  reconstruct : Arr2 R → Arr2 R
  y : Arr2 R

/-- `l[::k]`. -/
def everyNth {α : Type*} (k : ℕ) (l : List α) : List α := (List.range ((l.length + k - 1) / k)).filterMap fun i => l[i * k]?

variable {R : Type*} [CommRing R] [StarRing R]

/-- `X @ A.T` for an `m × n` array `A`. -/
def mulTranspose (m n : ℕ) (a : ℕ → ℕ → R) (X : Arr2 R) : Arr2 R :=
  { cols := m, rows := X.rows.map fun r => (List.range m).map fun i => ∑ l ∈ Finset.range n, ent r l * a i l }

/-- `X @ jnp.conjugate(A)` for an `m × n` array `A`. -/
def mulConj (m n : ℕ) (a : ℕ → ℕ → R) (X : Arr2 R) : Arr2 R :=
  { cols := n, rows := X.rows.map fun r => (List.range n).map fun j => ∑ i ∈ Finset.range m, ent r i * star (a i j) }

/-- `matrix(A, axis=1)` (lop/basic.py:56-112): the rows of a 2-D array are multiplied. -/
def matrixAxis1 (m n : ℕ) (a : ℕ → ℕ → R) (isReal : Bool) : Op2 R :=
  { toOp := matrix m n a isReal, times2 := mulTranspose m n a, trans2 := mulConj m n a }

/-- `compose(A, B, ignore_compatibility=True)` (lop/lop.py:360-373). -/
def composeIgnore (A B : Op2 R) : Op2 R :=
  { times := fun x => A.times (B.times x), trans := fun x => B.trans (A.trans x), shape := (A.shape.1, B.shape.2),
    real := A.real && B.real, times2 := fun X => A.times2 (B.times2 X), trans2 := fun X => B.trans2 (A.trans2 X) }

/-- `jit` (lop/lop.py:178-185): raises for an operator which is not jit safe; compilation does not change the functions. -/
def jit2 (A : Op2 R) : Option (Op2 R) :=
  if A.jit_safe then
    some { times := A.times, trans := A.trans, shape := A.shape, matrix_safe := A.matrix_safe, real := A.real,
           linear := A.linear, times2 := A.times2, trans2 := A.trans2 }
  else none

/-- The two sources (problems/prob401.py:39-58): every sixth sample of the guitar file, and as many samples of the raveled
`piano[::5, :]` from sample 5000 on, side by side; `jnp.column_stack` raises when the piano is too short. -/
def audioSignal (guitar : List ℝ) (piano : List (List ℝ)) : Option (Arr2 ℝ) :=
  let guitar := everyNth 6 guitar
  let piano := (everyNth 5 piano).flatten
  let piano := slice 5000 (5000 + guitar.length) piano
  if piano.length = guitar.length then some { cols := 2, rows := List.zipWith (fun g p => [g, p]) guitar piano } else none

/-- `generate(key, mixing)` (problems/prob401.py:36-97) for a `p × 2` array `mixing` (the default is 2 × 2; `signal @ mixing.T`
raises for another number of columns). -/
def audioProblem (guitar : List ℝ) (piano : List (List ℝ)) (p : ℕ) (mixing : ℕ → ℕ → ℝ) : Option (Problem2 ℝ) :=
  (audioSignal guitar piano).bind fun signal =>
    let m := (everyNth 6 guitar).length
    let mixture := mulTranspose p 2 mixing signal
    (windowedOp id m (cosineBasis 512) 256).bind fun W =>
      let Psi := alongAxis W
      let Phi := matrixAxis1 p 2 mixing true
      let A := composeIgnore Phi Psi
      (jit2 Phi).bind fun Phi => (jit2 Psi).bind fun Psi' => (jit2 A).map fun A =>
        { name := "src-sep-1", Phi := Phi, Psi := Psi', A := A, b := mixture, reconstruct := Psi.times2, y := signal }

end Verif.Problems
