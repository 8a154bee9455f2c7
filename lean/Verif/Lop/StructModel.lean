import Verif.Lop.BasicModel
import Mathlib.Data.Rat.Floor
import Mathlib.Analysis.Complex.Basic

set_option autoImplicit false
/-!
# Model of `lop/block_diag.py`, `lop/windowed_op.py`, `lop/dwt.py` (1-D), `lop/reshape.py` and of the dot tests

The `axis` argument (`apply_along_axis`, lop/util.py:103-118) is the identity on 1-D input and is modelled in
`Verif.Lop.TwoD`.
-/
set_option linter.unusedSectionVars false
namespace Verif.Lop
variable {R : Type*} [CommRing R] [StarRing R]

/-! ## `block_diag` -/

/-- The loop that computes `in_slices` / `out_slices` (lop/block_diag.py:108-117): consecutive slices
`(start, stop)` of the given sizes. -/
def slicesFrom (start : ℕ) : List ℕ → List (ℕ × ℕ)
  | [] => []
  | n :: ns => (start, start + n) :: slicesFrom (start + n) ns

/-- `block_diag(operators)` (lop/block_diag.py:100-142). -/
def blockDiag (operators : List (Op R)) : Option (Op R) :=
  if 2 ≤ operators.length then
    let in_slices := slicesFrom 0 (operators.map fun op => op.shape.2)
    let out_slices := slicesFrom 0 (operators.map fun op => op.shape.1)
    some { times := fun x =>
             (List.zipWith (fun (op : Op R) (s : ℕ × ℕ) => op.times (slice s.1 s.2 x)) operators in_slices).flatten,
           trans := fun x =>
             (List.zipWith (fun (op : Op R) (s : ℕ × ℕ) => op.trans (slice s.1 s.2 x)) operators out_slices).flatten,
           shape := ((operators.map fun op => op.shape.1).sum, (operators.map fun op => op.shape.2).sum) }
  else none

/-! ## `windowed_op` -/

/-- `y.at[s + arange(len(v))].add(v)` (indices out of range are dropped). -/
def addAt (y : List R) (s : ℕ) (v : List R) : List R :=
  (List.range y.length).map fun t => ent y t + if s ≤ t ∧ t < s + v.length then ent v (t - s) else 0

/-- `y.at[s + arange(len(v))].set(v)`. -/
def setAt (y : List R) (s : ℕ) (v : List R) : List R :=
  (List.range y.length).map fun t => if s ≤ t ∧ t < s + v.length then ent v (t - s) else ent y t

/-- `n_blocks = max(1, math.ceil((m - w) / offset) + 1)` (lop/windowed_op.py:48). -/
def nBlocks (m w offset : ℕ) : ℕ := (max 1 (⌈((m : ℚ) - w) / offset⌉ + 1)).toNat

/-- `windowed_op(m, T, overlap)` (lop/windowed_op.py:22-83).  `overlap` may be negative (only `overlap < w` is
asserted).  `cast` is the conversion to a real dtype: the identity on real numbers, the real part on complex ones.  It is
applied when blocks of `T.trans` output are stored in `ya = jnp.zeros(tn * n_blocks)`, a *real* array (line 62), and when
blocks of `T.times` output are added to `yf`, which is real exactly if `T.real` (lines 52, 58).  `math.ceil` of a float
division is taken to be exact. -/
def windowedOp (cast : R → R) (m : ℕ) (T : Op R) (overlap : ℤ) : Option (Op R) :=
  let tm := T.shape.1
  let tn := T.shape.2
  if overlap < tm then
    let offset := (tm - overlap).toNat
    let n_blocks := nBlocks m tm offset
    let n := n_blocks * tn
    let yl := tm + (n_blocks - 1) * offset
    some { times := fun x =>
             ((List.range n_blocks).foldl (fun y i => addAt y (i * offset)
                ((T.times (slice (i * tn) (i * tn + tn) x)).map (if T.real then cast else id)))
               (List.replicate yl 0)).take m,
           trans := fun x =>
             let x := x ++ List.replicate (tm + yl - m) 0
             (List.range n_blocks).foldl
               (fun y i => setAt y (i * tn) ((T.trans (slice (i * offset) (i * offset + tm) x)).map cast))
               (List.replicate (tn * n_blocks) 0),
           shape := (m, n), real := T.real }
  else none

/-! ## `dwt` -/

/-- `wavedec(data, dec_lo, dec_hi, level)` (lop/dwt.py:29-39).  `dwt_ x = (a, d)` is the external one-level
transform `wt.dwt_(x, dec_lo, dec_hi, 'periodization')`. -/
def wavedec (dwt_ : List R → List R × List R) (data : List R) (level : ℕ) : List R :=
  let p := dwt_ data
  let q := (List.range (level - 1)).foldl
    (fun (s : List R × List R) _ => let p := dwt_ s.1; (p.1, p.2 ++ s.2)) p
  q.1 ++ q.2

/-- `waverec(coefs, rec_lo, rec_hi, level)` (lop/dwt.py:41-54); `idwt_ a d` is the external
`wt.idwt_(a, d, rec_lo, rec_hi, 'periodization')`.  State `(a, mid, end)`. -/
def waverec (idwt_ : List R → List R → List R) (coefs : List R) (level : ℕ) : List R :=
  let mid := coefs.length >>> level
  let s := (List.range level).foldl
    (fun (s : List R × ℕ × ℕ) _ =>
      let d := slice s.2.1 s.2.2 coefs
      (idwt_ s.1 d, s.2.2, s.2.2 * 2)) (coefs.take mid, mid, mid * 2)
  s.1

/-- `wt.next_pow_of_2(n)` (external): the smallest power of two that is at least `n`. -/
def nextPow2 (n : ℕ) : ℕ := 2 ^ Nat.clog 2 n

/-- `dwt(n, wavelet, level, basis=False)` (lop/dwt.py:124-166); `max_level` is the external
`wt.dwt_max_level(n, dec_len)`. -/
def dwt (dwt_ : List R → List R × List R) (idwt_ : List R → List R → List R) (max_level : ℕ)
    (n level : ℕ) : Option (Op R) :=
  if level ≤ max_level then
    let m := nextPow2 n
    some { times := fun x => wavedec dwt_ (pad 0 (m - n) x) level,
           trans := fun c => (waverec idwt_ c level).take n, shape := (m, n) }
  else none

/-! ## Dot tests -/

/-- `dot_test_real` (lop/util.py:54-66) once the random test vectors `u`, `v` are drawn. Floating point
division by zero: `0/0` is NaN and `NaN < tol` is `False`; `x/0` for `x > 0` is `inf`, also `False`; the model's
guard returns `false` in both cases. `eps` is `1e-15`. -/
def dotTestReal (A : Op ℝ) (u v : List ℝ) (eps tol : ℝ) : Prop :=
  let yy := vdot (A.times u) v
  let xx := vdot u (A.trans v)
  let den := (yy + xx + eps) / 2
  den ≠ 0 ∧ |yy - xx| / den < tol

/-- `dot_test_complex` (lop/util.py:69-86). -/
def dotTestComplex (A : Op ℂ) (u v : List ℂ) (eps tol : ℝ) : Prop :=
  let yy := vdot (A.times u) v
  let xx := vdot u (A.trans v)
  let denr := (yy.re + xx.re + eps) / 2
  let deni := (yy.im + xx.im + eps) / 2
  (denr ≠ 0 ∧ |yy.re - xx.re| / denr < tol) ∧ (deni ≠ 0 ∧ |yy.im - xx.im| / deni < tol)

end Verif.Lop
