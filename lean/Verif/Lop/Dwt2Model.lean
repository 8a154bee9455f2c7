import Verif.Lop.StructModel

set_option autoImplicit false

/-!
# The two-dimensional wavelet transform (lop/dwt.py:56-121, 169-229)

Images are 2-D arrays; the axes are `0` and `1` in either order.  Arrays with more than two dimensions are not modelled.
-/
namespace Verif.Lop
variable {R : Type*} [CommRing R]

/-- A 2-D array of shape `(h, w)`; `px i j` is the entry `[i, j]` (only `i < h`, `j < w` matter). -/
structure Img (R : Type*) where
  h : ℕ
  w : ℕ
  px : ℕ → ℕ → R

namespace Img

/-- The array with the two axes exchanged. -/
def T (X : Img R) : Img R := { h := X.w, w := X.h, px := fun i j => X.px j i }

/-- `X[:, j]`. -/
def col (X : Img R) (j : ℕ) : List R := (List.range X.h).map fun i => X.px i j

/-- `X.shape[ax]`. -/
def dim (X : Img R) (ax : Fin 2) : ℕ := if ax = 0 then X.h else X.w

/-- `jnp.concatenate((X, Y), axis=0)`. -/
def concat0 (X Y : Img R) : Img R :=
  { h := X.h + Y.h, w := X.w, px := fun i j => if i < X.h then X.px i j else Y.px (i - X.h) j }

/-- `jnp.concatenate((X, Y), axis=ax)`. -/
def concat (ax : Fin 2) (X Y : Img R) : Img R := if ax = 0 then concat0 X Y else (concat0 X.T Y.T).T

/-- `X[a0:b0, a1:b1]`, for `b0`, `b1` inside the array. -/
def slice01 (a0 b0 a1 b1 : ℕ) (X : Img R) : Img R :=
  { h := b0 - a0, w := b1 - a1, px := fun i j => X.px (a0 + i) (a1 + j) }

/-- `X[tuple(slices)]` with `slices[ax0] = slice(a0, b0)`, `slices[ax1] = slice(a1, b1)`. -/
def slice (ax0 : Fin 2) (a0 b0 a1 b1 : ℕ) (X : Img R) : Img R :=
  if ax0 = 0 then slice01 a0 b0 a1 b1 X else slice01 a1 b1 a0 b0 X

/-- `X.at[0:n0, 0:n1].set(C)`. -/
def set01 (n0 n1 : ℕ) (C X : Img R) : Img R :=
  { X with px := fun i j => if i < n0 ∧ j < n1 then C.px i j else X.px i j }

/-- `X.at[tuple(slices)].set(C)` with `slices[ax0] = slice(0, n0)`, `slices[ax1] = slice(0, n1)`. -/
def setTo (ax0 : Fin 2) (n0 n1 : ℕ) (C X : Img R) : Img R :=
  if ax0 = 0 then set01 n0 n1 C X else set01 n1 n0 C X

/-- `jnp.pad(X, ((0, p0), (0, p1)))`. -/
def padTo (p0 p1 : ℕ) (X : Img R) : Img R :=
  { h := X.h + p0, w := X.w + p1, px := fun i j => if i < X.h ∧ j < X.w then X.px i j else 0 }

/-- `X[:n0, :n1]`; a bound beyond the array is clamped. -/
def crop (n0 n1 : ℕ) (X : Img R) : Img R := { h := min n0 X.h, w := min n1 X.w, px := X.px }

end Img

/-- `wt.dwt_axis_(X, dec_lo, dec_hi, 0, mode)` (external): the one-level transform of every column; the
number of rows of the parts is that of the transformed columns (`periodization`: half). -/
def dwtAxis0 (dwt_ : List R → List R × List R) (X : Img R) : Img R × Img R :=
  ({ h := X.h / 2, w := X.w, px := fun i j => (dwt_ (X.col j)).1.getD i 0 },
   { h := X.h / 2, w := X.w, px := fun i j => (dwt_ (X.col j)).2.getD i 0 })

/-- `wt.dwt_axis_(X, dec_lo, dec_hi, ax, mode)` (external). -/
def dwtAxis (dwt_ : List R → List R × List R) (ax : Fin 2) (X : Img R) : Img R × Img R :=
  if ax = 0 then dwtAxis0 dwt_ X else ((dwtAxis0 dwt_ X.T).1.T, (dwtAxis0 dwt_ X.T).2.T)

/-- `wt.idwt_axis_(A, D, rec_lo, rec_hi, 0, mode)` (external): synthesis of every pair of columns. -/
def idwtAxis0 (idwt_ : List R → List R → List R) (A D : Img R) : Img R :=
  { h := 2 * A.h, w := A.w, px := fun i j => (idwt_ (A.col j) (D.col j)).getD i 0 }

/-- `wt.idwt_axis_(A, D, rec_lo, rec_hi, ax, mode)` (external). -/
def idwtAxis (idwt_ : List R → List R → List R) (ax : Fin 2) (A D : Img R) : Img R :=
  if ax = 0 then idwtAxis0 idwt_ A D else (idwtAxis0 idwt_ A.T D.T).T

/-- The variables of the loop of `wavedec2`: `result`, `image` and the ends of `slices[ax0]`, `slices[ax1]`. -/
structure Dec2State (R : Type*) where
  result : Img R
  image : Img R
  n0 : ℕ
  n1 : ℕ

/-- The body of the loop of `wavedec2` (lop/dwt.py:69-78). -/
def wavedec2Step (dwt_ : List R → List R × List R) (ax0 ax1 : Fin 2) (s : Dec2State R) : Dec2State R :=
  let c := dwtAxis dwt_ ax0 s.image
  let ca := dwtAxis dwt_ ax1 c.1
  let cd := dwtAxis dwt_ ax1 c.2
  let coefs := Img.concat ax0 (Img.concat ax1 ca.1 ca.2) (Img.concat ax1 cd.1 cd.2)
  { result := Img.setTo ax0 s.n0 s.n1 coefs s.result, image := ca.1, n0 := ca.1.dim ax0, n1 := ca.1.dim ax1 }

/-- `wavedec2(image, dec_lo, dec_hi, level, axes)` (lop/dwt.py:56-79). -/
def wavedec2 (dwt_ : List R → List R × List R) (image : Img R) (level : ℕ) (ax0 ax1 : Fin 2) : Img R :=
  ((List.range level).foldl (fun s _ => wavedec2Step dwt_ ax0 ax1 s)
    { result := image, image := image, n0 := image.dim ax0, n1 := image.dim ax1 }).result

/-- The variables of the loop of `waverec2`: `caa`, `mid0`, `mid1`, `end0`, `end1`. -/
structure Rec2State (R : Type*) where
  caa : Img R
  mid0 : ℕ
  mid1 : ℕ
  end0 : ℕ
  end1 : ℕ

/-- The body of the loop of `waverec2` (lop/dwt.py:98-120). -/
def waverec2Step (idwt_ : List R → List R → List R) (coefs : Img R) (ax0 ax1 : Fin 2) (s : Rec2State R) : Rec2State R :=
  let cad := coefs.slice ax0 0 s.mid0 s.mid1 s.end1
  let cda := coefs.slice ax0 s.mid0 s.end0 0 s.mid1
  let cdd := coefs.slice ax0 s.mid0 s.end0 s.mid1 s.end1
  let ca := idwtAxis idwt_ ax1 s.caa cad
  let cd := idwtAxis idwt_ ax1 cda cdd
  { caa := idwtAxis idwt_ ax0 ca cd, mid0 := s.end0, mid1 := s.end1, end0 := s.end0 * 2, end1 := s.end1 * 2 }

/-- `waverec2(coefs, rec_lo, rec_hi, level, axes)` (lop/dwt.py:81-121). -/
def waverec2 (idwt_ : List R → List R → List R) (coefs : Img R) (level : ℕ) (ax0 ax1 : Fin 2) : Img R :=
  let mid0 := coefs.dim ax0 >>> level
  let mid1 := coefs.dim ax1 >>> level
  ((List.range level).foldl (fun s _ => waverec2Step idwt_ coefs ax0 ax1 s)
    { caa := coefs.slice ax0 0 mid0 0 mid1, mid0 := mid0, mid1 := mid1, end0 := mid0 * 2, end1 := mid1 * 2 }).caa

/-- An operator between 2-D arrays: `shape = (out_shape, in_shape)`. -/
structure ImgOp (R : Type*) where
  times : Img R → Img R
  trans : Img R → Img R
  outShape : ℕ × ℕ
  inShape : ℕ × ℕ

/-- `dwt2D(shape, wavelet, level, axes, basis)` (lop/dwt.py:169-229) for 2-D `shape = (s0, s1)` and
`axes = (ax0, ax1)`; `maxLevel n` is the external `wt.dwt_max_level(n, wavelet.dec_len)`.  `none` is the failed
assertion.  As in the code, the padding and the final crop use `h = shape[axes[0]]` on axis 0 and
`w = shape[axes[1]]` on axis 1, whatever the axes are. -/
def dwt2D (dwt_ : List R → List R × List R) (idwt_ : List R → List R → List R) (maxLevel : ℕ → ℕ)
    (shape : ℕ × ℕ) (level : ℕ) (ax0 ax1 : Fin 2) (basis : Bool) : Option (ImgOp R) :=
  let h := if ax0 = 0 then shape.1 else shape.2
  let w := if ax1 = 0 then shape.1 else shape.2
  if level ≤ min (maxLevel h) (maxLevel w) then
    let hh := nextPow2 h
    let ww := nextPow2 w
    let out_shape := if ax0 = 0 then (hh, ww) else (ww, hh)
    let times := fun X => wavedec2 dwt_ (Img.padTo (hh - h) (ww - w) X) level ax0 ax1
    let trans := fun C => Img.crop h w (waverec2 idwt_ C level ax0 ax1)
    if basis then some { times := trans, trans := times, outShape := shape, inShape := out_shape }
    else some { times := times, trans := trans, outShape := out_shape, inShape := shape }
  else none

end Verif.Lop
