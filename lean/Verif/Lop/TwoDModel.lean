import Verif.Lop.BasicModel
import Verif.Lop.FourierModel

set_option autoImplicit false

/-!
# Operators applied to 2-D arrays

A 2-D array is its number of columns and its list of rows.  `Op2` adds to the 1-D action of an operator its action on
2-D arrays (in the code both are branches, or the broadcasting, of one function).
-/
namespace Verif.Lop
variable {R : Type*}

/-- A 2-D array `x` with `x.shape[1] = cols`, as its rows. -/
structure Arr2 (R : Type*) where
  cols : ℕ
  rows : List (List R)

variable [CommRing R] [StarRing R]

/-- Column `j` of a 2-D array, `x[:, j]`. -/
def Arr2.col (X : Arr2 R) (j : ℕ) : List R := X.rows.map fun r => ent r j

/-- The array with the given columns (`jnp.apply_along_axis` and `vmap(..., out_axes=1)` assemble their results so); the
number of rows is the length of the first column. -/
def ofCols (cs : List (List R)) : Arr2 R :=
  { cols := cs.length, rows := (List.range (cs.headD []).length).map fun i => cs.map fun c => ent c i }

/-- `jnp.apply_along_axis(f, 0, x)` for a 2-D array. -/
def applyAlong0 {S : Type*} [CommRing S] (f : List R → List S) (X : Arr2 R) : Arr2 S := ofCols ((List.range X.cols).map fun j => f (X.col j))

/-- Operators with their action on 2-D arrays. -/
structure Op2 (R : Type*) extends Op R where
  times2 : Arr2 R → Arr2 R
  trans2 : Arr2 R → Arr2 R

/-- `-x` for a 2-D array. -/
def Arr2.neg (X : Arr2 R) : Arr2 R := { cols := X.cols, rows := X.rows.map vneg }
/-- `alpha * x` for a 2-D array. -/
def Arr2.smul (a : R) (X : Arr2 R) : Arr2 R := { cols := X.cols, rows := X.rows.map (Lop.smul a) }
/-- `x + y` for 2-D arrays. -/
def Arr2.add (X Y : Arr2 R) : Arr2 R := { cols := X.cols, rows := List.zipWith vadd X.rows Y.rows }
/-- `x - y` for 2-D arrays. -/
def Arr2.sub (X Y : Arr2 R) : Arr2 R := { cols := X.cols, rows := List.zipWith vsub X.rows Y.rows }
/-- `jnp.concatenate((x, y))` along axis 0. -/
def Arr2.concat (X Y : Arr2 R) : Arr2 R := { cols := X.cols, rows := X.rows ++ Y.rows }
/-- `x[:n]`. -/
def Arr2.takeRows (n : ℕ) (X : Arr2 R) : Arr2 R := { cols := X.cols, rows := X.rows.take n }
/-- `x[n:]`. -/
def Arr2.dropRows (n : ℕ) (X : Arr2 R) : Arr2 R := { cols := X.cols, rows := X.rows.drop n }
/-- `_hermitian(x)` (lop/impl.py:18-21) for a 2-D array: conjugate *transpose*. -/
def Arr2.hermitian (X : Arr2 R) : Arr2 R :=
  { cols := X.rows.length, rows := (List.range X.cols).map fun j => vconj (X.col j) }

/-! ## The algebra on 2-D arrays -/

/-- `neg` (lop/lop.py:197-208). -/
def neg2 (A : Op2 R) : Op2 R :=
  { toOp := neg A.toOp, times2 := fun X => (A.times2 X).neg, trans2 := fun X => (A.trans2 X).neg }

/-- `scale` (lop/lop.py:210-224). -/
def scale2 (A : Op2 R) (alpha : R) (pyComplex : Bool) : Op2 R :=
  { toOp := scale A.toOp alpha pyComplex, times2 := fun X => (A.times2 X).smul alpha,
    trans2 := fun X => (A.trans2 X).smul (star alpha) }

/-- `adjoint` (lop/lop.py:241-251). -/
def adjoint2 (A : Op2 R) : Op2 R := { toOp := adjoint A.toOp, times2 := A.trans2, trans2 := A.times2 }

/-- `transpose` (lop/lop.py:254-263), with `_hermitian` of a matrix. -/
def transpose2 (A : Op2 R) : Op2 R :=
  { toOp := transpose A.toOp,
    times2 := if A.real then A.trans2 else fun X => (A.trans2 X.hermitian).hermitian,
    trans2 := if A.real then A.times2 else fun X => (A.times2 X.hermitian).hermitian }

/-- `power` (lop/lop.py:277-283). -/
def power2 (A : Op2 R) (p : ℤ) : Option (Op2 R) :=
  (power A.toOp p).map fun T =>
    { toOp := T, times2 := fun X => applyN A.times2 p X, trans2 := fun X => applyN A.trans2 p X }

/-- `add` (lop/lop.py:332-343). -/
def add2 (A B : Op2 R) : Option (Op2 R) :=
  (add A.toOp B.toOp).map fun T =>
    { toOp := T, times2 := fun X => (A.times2 X).add (B.times2 X), trans2 := fun X => (A.trans2 X).add (B.trans2 X) }

/-- `subtract` (lop/lop.py:346-357). -/
def subtract2 (A B : Op2 R) : Option (Op2 R) :=
  (subtract A.toOp B.toOp).map fun T =>
    { toOp := T, times2 := fun X => (A.times2 X).sub (B.times2 X), trans2 := fun X => (A.trans2 X).sub (B.trans2 X) }

/-- `compose` (lop/lop.py:360-373). -/
def compose2 (A B : Op2 R) : Option (Op2 R) :=
  (compose A.toOp B.toOp).map fun T =>
    { toOp := T, times2 := fun X => A.times2 (B.times2 X), trans2 := fun X => B.trans2 (A.trans2 X) }

/-- `hcat` (lop/lop.py:376-388). -/
def hcat2 (A B : Op2 R) : Option (Op2 R) :=
  (hcat A.toOp B.toOp).map fun T =>
    { toOp := T,
      times2 := fun X => (A.times2 (X.takeRows A.shape.2)).add (B.times2 (X.dropRows A.shape.2)),
      trans2 := fun X => (A.trans2 X).concat (B.trans2 X) }

/-- `gram` (lop/lop.py:392-398). -/
def gram2 (A : Op2 R) : Op2 R :=
  { toOp := gram A.toOp, times2 := fun X => A.trans2 (A.times2 X), trans2 := fun X => A.trans2 (A.times2 X) }

/-- `frame` (lop/lop.py:400-406). -/
def frame2 (A : Op2 R) : Op2 R :=
  { toOp := frame A.toOp, times2 := fun X => A.times2 (A.trans2 X), trans2 := fun X => A.times2 (A.trans2 X) }

/-- Operator expressions over operators with a 2-D action (cf. `Expr`). -/
inductive Expr2 (R : Type*) where
  | leaf (T : Op2 R)
  | neg (e : Expr2 R)
  | scale (e : Expr2 R) (alpha : R) (pyComplex : Bool)
  | adjoint (e : Expr2 R)
  | transpose (e : Expr2 R)
  | power (e : Expr2 R) (p : ℤ)
  | add (a b : Expr2 R)
  | subtract (a b : Expr2 R)
  | compose (a b : Expr2 R)
  | hcat (a b : Expr2 R)
  | gram (e : Expr2 R)
  | frame (e : Expr2 R)

/-- Evaluation of an operator expression; `none` is a failed assertion. -/
def Expr2.eval : Expr2 R → Option (Op2 R)
  | .leaf T => some T
  | .neg e => e.eval.map neg2
  | .scale e a c => e.eval.map (scale2 · a c)
  | .adjoint e => e.eval.map adjoint2
  | .transpose e => e.eval.map transpose2
  | .power e p => e.eval.bind (power2 · p)
  | .add a b => a.eval.bind fun A => b.eval.bind fun B => add2 A B
  | .subtract a b => a.eval.bind fun A => b.eval.bind fun B => subtract2 A B
  | .compose a b => a.eval.bind fun A => b.eval.bind fun B => compose2 A B
  | .hcat a b => a.eval.bind fun A => b.eval.bind fun B => hcat2 A B
  | .gram e => e.eval.map gram2
  | .frame e => e.eval.map frame2

/-- The operators an expression is built from. -/
def Expr2.leaves : Expr2 R → List (Op2 R)
  | .leaf T => [T]
  | .neg e | .scale e _ _ | .adjoint e | .transpose e | .power e _ | .gram e | .frame e => e.leaves
  | .add a b | .subtract a b | .compose a b | .hcat a b => a.leaves ++ b.leaves

/-- The same expression over the 1-D actions. -/
def Expr2.forget : Expr2 R → Expr R
  | .leaf T => .leaf T.toOp
  | .neg e => .neg e.forget
  | .scale e a c => .scale e.forget a c
  | .adjoint e => .adjoint e.forget
  | .transpose e => .transpose e.forget
  | .power e p => .power e.forget p
  | .add a b => .add a.forget b.forget
  | .subtract a b => .subtract a.forget b.forget
  | .compose a b => .compose a.forget b.forget
  | .hcat a b => .hcat a.forget b.forget
  | .gram e => .gram e.forget
  | .frame e => .frame e.forget

/-! ## Constructors -/

/-- Operators built with `lop.util.apply_along_axis(times, trans, axis=0)` (lop/util.py:103-118): `identity`
(lop/identity.py:94), `diagonal` (lop/basic.py:192), `zero` (229), `heaviside` (351), `inv_heaviside` (382),
`block_diag` (lop/block_diag.py:141), `convolve` (lop/conv.py:76), `dwt` (lop/dwt.py:160), the filters (lop/filters.py:28, 40),
`circulant` (lop/special_matrices.py:34), `tv` (lop/tv.py:82), `windowed_op` (lop/windowed_op.py:81). -/
def alongAxis (T : Op R) : Op2 R := { toOp := T, times2 := applyAlong0 T.times, trans2 := applyAlong0 T.trans }

/-- `A @ X` for an `m × n` array `A` and a 2-D array `X`. -/
def matMat (m n : ℕ) (a : ℕ → ℕ → R) (X : Arr2 R) : Arr2 R :=
  { cols := X.cols,
    rows := (List.range m).map fun i => (List.range X.cols).map fun j => ∑ l ∈ Finset.range n, a i l * ent (X.rows.getD l []) j }

/-- `matrix(A, axis=0)` (lop/basic.py:56-112): the `x.ndim == 2` branches. -/
def matrix2 (m n : ℕ) (a : ℕ → ℕ → R) (isReal : Bool) : Op2 R :=
  { toOp := matrix m n a isReal, times2 := matMat m n a, trans2 := matMat n m fun j i => star (a i j) }

/-- `scalar_mult(alpha, n)` (lop/basic.py:196-211). -/
def scalarMult2 (alpha : R) (n : ℕ) : Op2 R :=
  { toOp := scalarMult alpha n, times2 := fun X => X.smul alpha, trans2 := fun X => X.smul (star alpha) }

/-- `flipud(n)` (lop/basic.py:232-236). -/
def flipud2 (n : ℕ) : Op2 R :=
  { toOp := flipud n, times2 := fun X => { cols := X.cols, rows := X.rows.reverse },
    trans2 := fun X => { cols := X.cols, rows := X.rows.reverse } }

/-- `sum(n)` (lop/basic.py:239-243): `jnp.sum(x, keepdims=True, axis=0)` and `jnp.repeat(x, n, axis=0)`. -/
def sum2 (n : ℕ) : Op2 R :=
  { toOp := sum n,
    times2 := fun X => { cols := X.cols, rows := [(List.range X.cols).map fun j => (X.col j).sum] },
    trans2 := fun X => { cols := X.cols, rows := X.rows.flatMap fun r => List.replicate n r } }

/-- `symmetrize(n)` (lop/basic.py:273-278). `x[n-1::-1]` are the rows `n-1, …, 0`. -/
def symmetrize2 (n : ℕ) : Op2 R :=
  { toOp := symmetrize n, times2 := fun X => { cols := X.cols, rows := X.rows.reverse ++ X.rows },
    trans2 := fun X => { cols := X.cols, rows := List.zipWith vadd (X.rows.drop n) (X.rows.take n).reverse } }

/-- `restriction(n, I, axis=0)` (lop/basic.py:281-312): `x[I, :]`, and `apply_along_axis` for the adjoint. -/
def restriction2 (n : ℕ) (I : List ℕ) : Op2 R :=
  { toOp := restriction n I, times2 := fun X => { cols := X.cols, rows := I.map fun i => X.rows.getD i [] },
    trans2 := applyAlong0 (restriction (R := R) n I).trans }

/-- `pad_zeros(n, before, after)` (lop/basic.py:245-258): `jnp.pad(x, (before, after))` pads *every* axis;
`x[before:before+n]` cuts rows. -/
def padZeros2 (n before after : ℕ) : Op2 R :=
  { toOp := padZeros n before after,
    times2 := fun X =>
      { cols := before + X.cols + after,
        rows := List.replicate before (List.replicate (before + X.cols + after) 0) ++ X.rows.map (pad before after) ++
          List.replicate after (List.replicate (before + X.cols + after) 0) },
    trans2 := fun X => { cols := X.cols, rows := (X.rows.take (before + n)).drop before } }

/-- `Operator.times_2d` and `trans_2d` (lop/lop.py:102-108): `vmap` over the columns of the 1-D action. -/
def times2d (T : Op R) (X : Arr2 R) : Arr2 R := ofCols ((List.range X.cols).map fun j => T.times (X.col j))
def trans2d (T : Op R) (X : Arr2 R) : Arr2 R := ofCols ((List.range X.cols).map fun j => T.trans (X.col j))

/-- `fourier_basis(n)` (lop/onb.py:24-37): `jnp.fft.ifft(x, n, axis=0)` transforms each column, then the whole array is
scaled. -/
noncomputable def fourierBasis2 (n : ℕ) : Op2 ℂ :=
  let n2 : ℂ := (Real.sqrt n : ℝ)
  let n3 : ℂ := 1 / n2
  { toOp := fourierBasis n, times2 := fun X => (applyAlong0 (idft n) X).smul n2,
    trans2 := fun X => (applyAlong0 (dft n) X).smul n3 }

/-- `dirac_fourier_basis(n)` (lop/onb.py:40-47). -/
noncomputable def diracFourierBasis2 (n : ℕ) : Op2 ℂ :=
  let n2 : ℂ := (Real.sqrt n : ℝ)
  let n3 : ℂ := 1 / n2
  { toOp := diracFourierBasis n,
    times2 := fun X => (X.takeRows n).add ((applyAlong0 (idft n) (X.dropRows n)).smul n2),
    trans2 := fun X => X.concat ((applyAlong0 (dft n) X).smul n3) }

/-- `cosine_basis(n)` (lop/onb.py:51-85): `(phi*x.T).T` multiplies row `i` by `phi[i]`; `irfft` and `rfft` act along
axis 0; `jnp.zeros((1,)+x.shape[1:])` is one zero row; `x[::-1]` reverses the rows. -/
noncomputable def cosineBasis2 (n : ℕ) : Op2 ℝ :=
  { toOp := cosineBasis n,
    times2 := fun X =>
      let upper : Arr2 ℂ := { cols := X.cols, rows := List.zipWith (fun p r => r.map fun z : ℝ => p * (z : ℂ)) (phiF n) X.rows }
      let lower : Arr2 ℂ := { cols := X.cols, rows := [List.replicate X.cols 0] }
      let c := upper.concat lower
      (applyAlong0 (irfft (2 * (c.rows.length - 1))) c).takeRows n,
    trans2 := fun X =>
      let x : Arr2 ℝ := X.concat { cols := X.cols, rows := X.rows.reverse }
      let c := (applyAlong0 (rfft x.rows.length) x).takeRows n
      { cols := c.cols, rows := List.zipWith (fun p r => r.map fun z => (p * z).re) (phiA n) c.rows } }

/-- `jnp.real(x)` as an array of complex numbers. -/
noncomputable def Arr2.realPart (X : Arr2 ℂ) : Arr2 ℂ := { cols := X.cols, rows := X.rows.map fun r => r.map fun z => (z.re : ℂ) }

/-- A transform of vectors of length `n` to vectors of length `n` along axis 0 or (`axis1`) axis 1 of a 2-D array. -/
noncomputable def fftAlong (axis1 : Bool) (n : ℕ) (f : List ℂ → List ℂ) (X : Arr2 ℂ) : Arr2 ℂ :=
  if axis1 then { cols := n, rows := X.rows.map f } else applyAlong0 f X

/-- `times` of `fft(m, n, axis, mode)` (lop/fft.py:34-58) on 2-D arrays. -/
noncomputable def fftTimes2 (axis1 : Bool) (n : ℕ) (mode : FftMode) (X : Arr2 ℂ) : Arr2 ℂ :=
  match mode with
  | .r2c => fftAlong axis1 n (dft n) X.realPart
  | _ => fftAlong axis1 n (dft n) X

/-- `trans` of `fft(m, n, axis, mode)` (lop/fft.py:42-45, 51-54) on 2-D arrays: `x[:m]` keeps the first `m` rows, whatever the axis. -/
noncomputable def fftTrans2 (axis1 : Bool) (m n : ℕ) (W : Arr2 ℂ) : Arr2 ℂ := ((fftAlong axis1 n (idft n) W).smul (n : ℂ)).takeRows m

/-- `fft(m, n, axis, mode)` (lop/fft.py:27-58) with its action on 2-D arrays. -/
noncomputable def fft2 (axis1 : Bool) (m n : ℕ) (mode : FftMode) : Option (Op2 ℂ) :=
  (fft m n mode).map fun T => { toOp := T, times2 := fftTimes2 axis1 n mode, trans2 := fftTrans2 axis1 m n }

/-- `tmp.at[I].set(x)` for a 2-D array `x`: row `I[k]` of the result is row `k` of `x` (later indices win). -/
def Arr2.scatterRows (tmp : Arr2 R) (I : List ℕ) (X : Arr2 R) : Arr2 R :=
  { cols := tmp.cols, rows := (I.zip X.rows).foldl (fun acc p => acc.set p.1 p.2) tmp.rows }

/-- `x[I]` for a 2-D array: the rows in `I`. -/
def Arr2.gatherRows (X : Arr2 R) (I : List ℕ) : Arr2 R := { cols := X.cols, rows := I.map fun i => X.rows.getD i [] }

/-- `jnp.zeros((m,) + x.shape[1:])`. -/
def zeros2 (m c : ℕ) : Arr2 R := { cols := c, rows := List.replicate m (List.replicate c 0) }

/-- `partial_op(A, picks, perm)` (lop/lop.py:285-325) on 2-D arrays. -/
def partialOp2 (A : Op2 R) (picks : List ℕ) (perm : Option (List ℕ)) : Op2 R :=
  let m := A.shape.1
  { toOp := partialOp A.toOp picks perm,
    times2 := match perm with
      | none => fun X => (A.times2 X).gatherRows picks
      | some perm => fun X => (A.times2 (X.gatherRows perm)).gatherRows picks,
    trans2 := match perm with
      | none => fun X => A.trans2 ((zeros2 m X.cols).scatterRows picks X)
      | some perm => fun X =>
        let y := A.trans2 ((zeros2 m X.cols).scatterRows picks X)
        (zeros2 y.rows.length y.cols).scatterRows perm y }

end Verif.Lop
