import Verif.Lop.BasicModel

set_option autoImplicit false
/-!
# Model of `lop/conv.py` (1-D), `lop/filters.py`, `lop/calculus.py`, `lop/tv.py`

Divisions `… / dx` are multiplications with `dxi`, where `dxi` is the inverse of `dx` (so that the model
makes sense over any commutative ring); the theorems about derivatives assume `dxi * dx = 1`.
-/
set_option linter.unusedSectionVars false
namespace Verif.Lop
variable {R : Type*} [CommRing R] [StarRing R]

/-! ## Convolution primitives -/

/-- `lax.conv_general_dilated(x, f, strides=1, padding=[(p, q)])` in one dimension: a correlation of the
padded signal with `f`. -/
def corr (p q : ℕ) (x f : List R) : List R :=
  (List.range (x.length + p + q + 1 - f.length)).map fun t =>
    ∑ k ∈ Finset.range f.length, ent f k * ent (pad p q x) (t + k)

/-- `jnp.convolve(x, y, mode)` for the three modes: JAX swaps the arguments so that the second is not
longer, flips it, and calls `conv_general_dilated` with a mode dependent padding.
`none` when one of the arrays is empty (ValueError). -/
inductive ConvMode | valid | same | full

def convolveLonger (x y : List R) : ConvMode → List R
  | .valid => corr 0 0 x y.reverse
  | .same => corr (y.length / 2) (y.length - y.length / 2 - 1) x y.reverse
  | .full => corr (y.length - 1) (y.length - 1) x y.reverse

def npConvolve (x y : List R) (mode : ConvMode) : Option (List R) :=
  if x = [] ∨ y = [] then none
  else if x.length < y.length then some (convolveLonger y x mode)
  else some (convolveLonger x y mode)

/-- Used inside operators, where a raised exception is represented by the empty array; every theorem about
these operators assumes non-empty arguments. -/
def npConvolve' (x y : List R) (mode : ConvMode) : List R := (npConvolve x y mode).getD []

/-! ## `lop/conv.py`, `lop/filters.py` -/

/-- `convolve(n, h, offset)` (lop/conv.py:29-77); `none` for the failed assertions. -/
def convolve (n : ℕ) (h : List R) (offset : ℤ) : Option (Op R) :=
  let m := h.length
  if 0 < n ∧ 0 ≤ offset ∧ offset < m then
    let forward := offset.toNat
    let adjoint := m - 1 - offset.toNat
    let h_conj := vconj h
    let h_rev := h.reverse
    some { times := fun x => slice forward (forward + n) (corr (m - 1) (m - 1) x h_rev),
           trans := fun x => slice adjoint (adjoint + n) (corr (m - 1) (m - 1) x h_conj),
           shape := (n, n) }
  else none

/-- `fir_filter(n, h)` (lop/filters.py:32-41). -/
def firFilter (n : ℕ) (h : List R) : Op R :=
  let h_conj := vconj h.reverse
  let start := h.length / 2
  { times := fun x => npConvolve' x h .same,
    trans := fun x => slice start (start + n) (npConvolve' x h_conj .full), shape := (n, n) }

/-- `running_average(n, length)` (lop/filters.py:21-29); `li` is `1/length`. -/
def runningAverage (n length : ℕ) (li : R) : Op R :=
  let start := length / 2
  let filter := List.replicate length li
  { times := fun x => npConvolve' x filter .same,
    trans := fun x => slice start (start + n) (npConvolve' x filter .full), shape := (n, n) }

/-- `running_average(n, length)` with its weights `jnp.ones(length) / length` (lop/filters.py:21-29). -/
def runningAverageK {K : Type*} [Field K] [StarRing K] (n length : ℕ) : Op K := runningAverage n length (1 / (length : K))

/-! ## `lop/calculus.py` -/

/-- `x[-1]` -/
def lastEnt (x : List R) : R := ent x (x.length - 1)

/-- `_derivative_fwd` (lop/calculus.py:25-27). -/
def derivativeFwd (dxi : R) (x : List R) : List R := smul dxi (ndiff (x ++ [lastEnt x]))

/-- `_derivative_fwd_adj` (lop/calculus.py:29-32). -/
def derivativeFwdAdj (dxi : R) (x : List R) : List R :=
  let x := x.set (x.length - 1) 0
  smul dxi (ndiff (0 :: vneg x))

/-- `_derivative_bwd` (lop/calculus.py:34-36). -/
def derivativeBwd (dxi : R) (x : List R) : List R := smul dxi (ndiff (ent x 0 :: x))

/-- `_derivative_bwd_adj` (lop/calculus.py:38-41). -/
def derivativeBwdAdj (dxi : R) (x : List R) : List R :=
  let x := x.set 0 0
  smul dxi (ndiff (vneg x ++ [0]))

/-- `_derivative_centered` (lop/calculus.py:43-45); `half` is `0.5`. -/
def derivativeCentered (half dxi : R) (x : List R) : List R :=
  let diffs := smul dxi (vsub (smul half (x.drop 2)) (smul half (x.take (x.length - 2))))
  pad 1 1 diffs

/-- `_derivative_centered_adj` (lop/calculus.py:47-51).  It ignores `dx`.
`y.at[0:-2].add(u); y.at[2:].add(v)` on a zero array is the sum of the two padded arrays.  `cast` is the conversion to the
dtype of `y = jnp.zeros(x.shape)`, a *real* array: the identity on real numbers, the real part on complex ones. -/
def derivativeCenteredAdj (cast : R → R) (half _dxi : R) (x : List R) : List R :=
  let mid := slice 1 (x.length - 1) x
  vadd (pad 0 2 ((smul (-half) mid).map cast)) (pad 2 0 ((smul half mid).map cast))

inductive DerivKind | forward | backward | centered

/-- `first_derivative(n, dx, kind)` (lop/calculus.py:54-68); for `cast` see `derivativeCenteredAdj`. -/
def firstDerivative (cast : R → R) (n : ℕ) (half dxi : R) : DerivKind → Op R
  | .forward => { times := derivativeFwd dxi, trans := derivativeFwdAdj dxi, shape := (n, n) }
  | .backward => { times := derivativeBwd dxi, trans := derivativeBwdAdj dxi, shape := (n, n) }
  | .centered =>
    { times := derivativeCentered half dxi, trans := derivativeCenteredAdj cast half dxi, shape := (n, n) }

/-- `second_derivative(n, dx)` (lop/calculus.py:71-75). -/
def secondDerivative (n : ℕ) (dxi : R) : Op R :=
  let filter := [1 * dxi * dxi, (-2) * dxi * dxi, 1 * dxi * dxi]
  { times := fun x => pad 1 1 (npConvolve' x filter .valid),
    trans := fun x => npConvolve' (slice 1 (x.length - 1) x) filter .full, shape := (n, n) }

/-! ## `lop/tv.py` -/

inductive TvKind | regular | dirichlet | circular

/-- `diff_fwd_1d_regular`, `diff_fwd_1d_dirichlet`, `diff_fwd_1d_circular` (lop/tv.py:29-31, 38-40, 46-48). -/
def diffFwd : TvKind → List R → List R
  | .regular, x => ndiff (x ++ [lastEnt x])
  | .dirichlet, x => ndiff (x ++ [0])
  | .circular, x => ndiff (x ++ [ent x 0])

/-- `diff_adj_1d_*` (lop/tv.py:33-36, 42-44, 50-52).  `cnb.vec_shift_right` and `cnb.vec_rotate_right` are
external: prepend 0 / the last entry and drop the last entry. -/
def diffAdj : TvKind → List R → List R
  | .regular, x => ndiff (0 :: vneg (x.set (x.length - 1) 0))
  | .dirichlet, x => vsub (0 :: x.dropLast) x
  | .circular, x => vsub (lastEnt x :: x.dropLast) x

/-- `tv(n, kind)` (lop/tv.py:54-83). -/
def tv (n : ℕ) (kind : TvKind) : Op R :=
  { times := diffFwd kind, trans := diffAdj kind, shape := (n, n) }

/-- `jnp.apply_along_axis(f, 1, X)` for a `p × q` image (entry function). -/
def alongRows (q : ℕ) (f : List R → List R) (X : ℕ → ℕ → R) : ℕ → ℕ → R :=
  fun i j => ent (f ((List.range q).map fun k => X i k)) j

/-- `jnp.apply_along_axis(f, 0, X)`. -/
def alongCols (p : ℕ) (f : List R → List R) (X : ℕ → ℕ → R) : ℕ → ℕ → R :=
  fun i j => ent (f ((List.range p).map fun k => X k j)) i

/-- `tv2D(shape, kind).times` (lop/tv.py:116-124); `im` is the imaginary unit `1j`. -/
def tv2DTimes (p q : ℕ) (kind : TvKind) (im : R) (X : ℕ → ℕ → R) : ℕ → ℕ → R :=
  fun i j => alongRows q (diffFwd kind) X i j + alongCols p (diffFwd kind) X i j * im

/-- `tv2D(shape, kind).trans` (lop/tv.py:126-134). -/
def tv2DTrans (p q : ℕ) (kind : TvKind) (im : R) (X : ℕ → ℕ → R) : ℕ → ℕ → R :=
  fun i j => alongRows q (diffAdj kind) X i j + alongCols p (diffAdj kind) X i j * im

end Verif.Lop
