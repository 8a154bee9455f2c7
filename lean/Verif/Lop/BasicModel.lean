import Verif.Lop.Model
import Verif.Lop.Np
import Mathlib.Analysis.RCLike.Basic
import Mathlib.Analysis.Complex.Basic
import Mathlib.Analysis.SpecialFunctions.Sqrt

set_option autoImplicit false

/-!
# Model of `lop/basic.py` and `lop/identity.py` (1-D inputs)

The `axis` argument (columnwise application to matrices) is covered in `Verif.Lop.TwoDModel`.
-/
set_option linter.unusedSectionVars false
namespace Verif.Lop
variable {R : Type*} [CommRing R] [StarRing R]

/-- `identity(in_dim, out_dim)` (lop/identity.py:78-95). -/
def identity (in_dim out_dim : ℕ) : Op R :=
  if in_dim = out_dim then
    { times := fun x => x, trans := fun x => x, shape := (out_dim, in_dim) }
  else if in_dim > out_dim then
    { times := fun x => x.take out_dim, trans := fun x => pad 0 (in_dim - out_dim) x,
      shape := (out_dim, in_dim) }
  else
    { times := fun x => pad 0 (out_dim - in_dim) x, trans := fun x => x.take in_dim,
      shape := (out_dim, in_dim) }

/-- `A @ x` for an `m × n` array `A` (entry function `a`). -/
def matVec (m n : ℕ) (a : ℕ → ℕ → R) (x : List R) : List R :=
  (List.range m).map fun i => ∑ j ∈ Finset.range n, a i j * ent x j

/-- `x @ A` for an `m × n` array `A`. -/
def vecMat (m n : ℕ) (a : ℕ → ℕ → R) (x : List R) : List R :=
  (List.range n).map fun j => ∑ i ∈ Finset.range m, ent x i * a i j

/-- `real_matrix(A)` (lop/basic.py:26-54); `sparse_real_matrix` (lop/basic.py:115-174) has the same 1-D
action. -/
def realMatrix (m n : ℕ) (a : ℕ → ℕ → R) : Op R :=
  { times := matVec m n a, trans := vecMat m n a, shape := (m, n) }

/-- `matrix(A)` (lop/basic.py:56-112), 1-D inputs; `isReal` is `jnp.isrealobj(A)`. -/
def matrix (m n : ℕ) (a : ℕ → ℕ → R) (isReal : Bool) : Op R :=
  { times := matVec m n a, trans := fun x => vconj (vecMat m n a (vconj x)), shape := (m, n),
    real := isReal }

/-- `diagonal(d)` (lop/basic.py:177-193). -/
def diagonal (d : List R) : Op R :=
  { times := fun x => vmul d x, trans := fun x => vmul (vconj d) x, shape := (d.length, d.length) }

/-- `scalar_mult(alpha, n)` (lop/basic.py:196-211). -/
def scalarMult (alpha : R) (n : ℕ) : Op R :=
  let alpha_c := star alpha
  { times := fun x => smul alpha x, trans := fun x => smul alpha_c x, shape := (n, n) }

/-- `zero(in_dim, out_dim)` (lop/basic.py:214-230). -/
def zero (in_dim out_dim : ℕ) : Op R :=
  { times := fun _ => List.replicate out_dim 0, trans := fun _ => List.replicate in_dim 0,
    shape := (out_dim, in_dim) }

/-- `flipud(n)` (lop/basic.py:232-236). -/
def flipud (n : ℕ) : Op R :=
  { times := fun x => x.reverse, trans := fun x => x.reverse, shape := (n, n) }

/-- `sum(n)` (lop/basic.py:239-243); `repeat` of a length-1 array. -/
def sum (n : ℕ) : Op R :=
  { times := fun x => [x.sum], trans := fun x => x.flatMap fun a => List.replicate n a, shape := (1, n) }

/-- `pad_zeros(n, before, after)` (lop/basic.py:245-258). -/
def padZeros (n before after : ℕ) : Op R :=
  { times := fun x => pad before after x, trans := fun x => slice before (before + n) x,
    shape := (before + n + after, n), matrix_safe := false }

/-- `symmetrize(n)` (lop/basic.py:273-278); `x[n-1::-1]` is the reversed first half. -/
def symmetrize (n : ℕ) : Op R :=
  { times := fun x => x.reverse ++ x, trans := fun x => vadd (x.drop n) ((x.take n).reverse),
    shape := (2 * n, n) }

/-- `real(n)` (lop/basic.py:261-270), on complex vectors. -/
noncomputable def realOp (n : ℕ) : Op ℂ :=
  { times := fun x => x.map fun z => (z.re : ℂ), trans := fun x => x.map fun z => (z.re : ℂ),
    shape := (n, n), linear := false }

/-- `restriction(n, I)` (lop/basic.py:281-312). -/
def restriction (n : ℕ) (I : List ℕ) : Op R :=
  { times := fun x => gather x I, trans := fun x => scatterSet (List.replicate n 0) I x,
    shape := (I.length, n) }

/-- `partial_op(A, picks, perm)` (lop/lop.py:285-325).  `jnp.empty` is all zeros in JAX. -/
def partialOp (A : Op R) (picks : List ℕ) (perm : Option (List ℕ)) : Op R :=
  let m := A.shape.1
  match perm with
  | none =>
    { times := fun x => gather (A.times x) picks,
      trans := fun x => A.trans (scatterSet (List.replicate m 0) picks x),
      shape := (picks.length, A.shape.2), jit_safe := A.jit_safe, matrix_safe := A.matrix_safe,
      real := A.real }
  | some perm =>
    { times := fun x => gather (A.times (gather x perm)) picks,
      trans := fun x =>
        let y := A.trans (scatterSet (List.replicate m 0) picks x)
        scatterSet (List.replicate y.length 0) perm y,
      shape := (picks.length, A.shape.2), jit_safe := A.jit_safe, matrix_safe := A.matrix_safe,
      real := A.real }

section Heaviside
variable {𝕜 : Type*} [RCLike 𝕜]

/-- `w = jnp.sqrt(jnp.arange(n, 0, -1))` (lop/basic.py:333, 373). -/
noncomputable def sqrtW (𝕜 : Type*) [RCLike 𝕜] (n : ℕ) : List 𝕜 :=
  (List.range n).map fun k => ((√((n - k : ℕ) : ℝ) : ℝ) : 𝕜)

/-- `wi = 1/w` (lop/basic.py:334). -/
noncomputable def sqrtWi (𝕜 : Type*) [RCLike 𝕜] (n : ℕ) : List 𝕜 := (sqrtW 𝕜 n).map fun a => 1 / a

/-- `trans_u` inside `heaviside` (lop/basic.py:338-341). `y[-1]` is the last entry. -/
def heavisideTransU (x : List R) : List R :=
  let y := cumsum x
  let ym := ent y (y.length - 1)
  ym :: y.dropLast.map fun a => ym - a

/-- `heaviside(n, normalized)` (lop/basic.py:314-352). -/
noncomputable def heaviside (n : ℕ) (normalized : Bool) : Op 𝕜 :=
  let wi := sqrtWi 𝕜 n
  { times := if normalized then fun x => cumsum (vmul x wi) else fun x => cumsum x,
    trans := if normalized then fun x => vmul (heavisideTransU x) wi else heavisideTransU,
    shape := (n, n) }

/-- `inv_heaviside(n, normalized)` (lop/basic.py:357-383). -/
noncomputable def invHeaviside (n : ℕ) (normalized : Bool) : Op 𝕜 :=
  let w := sqrtW 𝕜 n
  { times := if normalized then fun x => vmul (ndiff (0 :: x)) w else fun x => ndiff (0 :: x),
    trans := if normalized then fun x => vneg (ndiff (vmul x w ++ [0]))
      else fun x => vneg (ndiff (x ++ [0])),
    shape := (n, n) }

/-- `cumsum(n)` (lop/basic.py:354-355) and `diff(n)` (lop/basic.py:385-386). -/
noncomputable def cumsumOp (n : ℕ) : Op 𝕜 := heaviside n false
noncomputable def diffOp (n : ℕ) : Op 𝕜 := invHeaviside n false

end Heaviside
end Verif.Lop
