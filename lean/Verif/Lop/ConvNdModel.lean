import Mathlib.Algebra.BigOperators.Pi
import Mathlib.Algebra.BigOperators.Fin
import Mathlib.Data.Fintype.Pi
import Mathlib.Algebra.Star.Basic
import Mathlib.Algebra.Ring.Int.Defs

set_option autoImplicit false

/-!
# N-dimensional convolution (lop/conv.py:79-167)

A `d`-dimensional array of shape `s` is a function of the index tuple `Fin d → ℕ`, of which only the indices below `s` matter.
The filter, which the code reshapes, is its shape and its entries in C order.
-/
namespace Verif.Lop
variable {R : Type*} [CommRing R] {d f : ℕ}

/-- The index tuples of an array of shape `s`. -/
def idxBox (s : Fin d → ℕ) : Finset (Fin d → ℕ) := Fintype.piFinset fun a => Finset.range (s a)

/-- Position of an index tuple in C order. -/
def ravelC (s i : Fin d → ℕ) : ℕ := ∑ a, i a * ∏ b ∈ Finset.univ.filter (a < ·), s b

/-- An array by its shape and its entries in C order. -/
structure NdArr (f : ℕ) (R : Type*) where
  shape : Fin f → ℕ
  data : ℕ → R

/-- `h[i]`. -/
def NdArr.get (h : NdArr f R) (i : Fin f → ℕ) : R := h.data (ravelC h.shape i)

/-- `x[q]`, zero outside the array: reading the zero-padded array. -/
def ndZext (s : Fin d → ℕ) (x : (Fin d → ℕ) → R) (q : Fin d → ℤ) : R :=
  if ∀ a, 0 ≤ q a ∧ q a < s a then x fun a => (q a).toNat else 0

/-- `lax.conv_general_dilated(x[None, None], g[None, None], strides=1, padding=(s-1, s-1))[0, 0]` (external) at the index `k`: the
correlation of `x`, padded with `s - 1` zeros at both ends of every axis, with the kernel `g` of shape `s`. -/
def convDilated (sh : Fin d → ℕ) (x : (Fin d → ℕ) → R) (s : Fin d → ℕ) (g : (Fin d → ℕ) → R) (k : Fin d → ℕ) : R :=
  ∑ j ∈ idxBox s, ndZext sh x (fun a => (k a : ℤ) + j a - ((s a : ℤ) - 1)) * g j

/-- An operator between `d`-dimensional arrays with the shapes of its results. -/
structure NdOp (d : ℕ) (R : Type*) where
  times : ((Fin d → ℕ) → R) → (Fin d → ℕ) → R
  trans : ((Fin d → ℕ) → R) → (Fin d → ℕ) → R
  timesShape : Fin d → ℕ
  transShape : Fin d → ℕ
  shape : Fin d → ℕ

/-- `v[axes] = w` (numpy assignment, in order). -/
def setAxes {α : Type*} (axes : Fin f → Fin d) (w : Fin f → α) (v : Fin d → α) : Fin d → α :=
  (List.finRange f).foldl (fun v i => Function.update v (axes i) (w i)) v

/-- Length of `result[start:stop]` along an axis of length `len`. -/
def sliceLen (len start stop : ℕ) : ℕ := min stop len - min start len

/-- `convolveND(shape, h, offset, axes)` (lop/conv.py:89-167), offsets not negative (natural number
subtraction is used for `h_ax - 1 - off_ax`, so the adjoint is modelled for offsets inside the filter only).  The defaults are
`offset = 0` and `axes = 0, 1, …`.  `slice(None)` of an axis that is not filtered is the whole axis, which has length `n + 1 - 1`. -/
def convolveND (shape : Fin d → ℕ) (h : NdArr f R) (offset : Fin f → ℕ) (axes : Fin f → Fin d) : NdOp d R :=
  let f_start := setAxes axes offset fun _ => 0
  let f_stop := setAxes axes (fun i => offset i + shape (axes i)) shape
  let a_start := setAxes axes (fun i => h.shape i - 1 - offset i) fun _ => 0
  let a_stop := setAxes axes (fun i => h.shape i - 1 - offset i + shape (axes i)) shape
  -- extend the filter to the data dimensions
  let hx : NdArr d R :=
    if e : d = f then { shape := fun a => h.shape (a.cast e), data := h.data }
    else { shape := setAxes axes h.shape fun _ => 1, data := h.data }
  let h_conv := fun j => hx.get fun a => hx.shape a - 1 - j a
  let full := fun a => shape a + (hx.shape a - 1)
  { times := fun x k => convDilated shape x hx.shape h_conv fun a => k a + f_start a,
    trans := fun x k => convDilated shape x hx.shape hx.get fun a => k a + a_start a,
    timesShape := fun a => sliceLen (full a) (f_start a) (f_stop a),
    transShape := fun a => sliceLen (full a) (a_start a) (a_stop a),
    shape := shape }

/-- `convolve2D(shape, h, offset, axes)` (lop/conv.py:79-86): the same for a filter with two dimensions, otherwise the assertion fails. -/
def convolve2D (shape : Fin d → ℕ) (h : NdArr f R) (offset : Fin f → ℕ) (axes : Fin f → Fin d) : Option (NdOp d R) :=
  if f = 2 then some (convolveND shape h offset axes) else none

end Verif.Lop
