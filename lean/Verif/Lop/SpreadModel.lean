import Mathlib.Algebra.BigOperators.Group.Finset.Basic
import Mathlib.Algebra.BigOperators.Ring.Finset

set_option autoImplicit false

/-!
# Model of `lop/spread.py`

A table entry is a float array entry: `none` is NaN, `some t` an integer (`astype(int)` would truncate a fraction).
`np.int` (line 55) does not exist in NumPy 1.24 and later, where the first call of `times` raises; here it is `int`.
2-D arrays are index functions; entries outside the dimensions mean nothing.
-/
namespace Verif.Lop
variable {R : Type*}

/-- The column which an index of `y.at[:, indices].add` means for `n` columns: a negative index counts from the end,
and an index outside the array is dropped (JAX's scatter semantics). -/
def scatterCol (n : ℕ) (t : ℤ) : Option ℕ :=
  if 0 ≤ t ∧ t < n then some t.toNat else if -(n : ℤ) ≤ t ∧ t < 0 then some (t + n).toNat else none

/-- `y.at[:, indices].add(value * not_nan)` (lop/spread.py:54-57): for each entry of `indices`, each *row* of `y` gets
`value` (0 for a NaN) added in the column. -/
def scatterAddCols [Add R] [Zero R] (n : ℕ) (y : ℕ → ℕ → R) (indices : List (Option ℤ)) (value : R) : ℕ → ℕ → R :=
  indices.foldl (fun y t =>
    match t.bind (scatterCol n) with
    | some c => fun r j => if j = c then y r j + value else y r j
    | none => y) y

/-- `times` of `spread_with_table` (lop/spread.py:35-58). `dtable` is looked up and not used. -/
def spreadTimes [Add R] [Zero R] (nx_in nt_in nx_out nt_out : ℕ) (table : ℕ → ℕ → ℕ → Option ℤ) (x : ℕ → ℕ → R) :
    ℕ → ℕ → R :=
  (List.range nt_in).foldl (fun y it_in =>
    (List.range nx_in).foldl (fun y ix_in =>
      scatterAddCols nt_out y ((List.range nx_out).map (table ix_in it_in)) (x ix_in it_in)) y) fun _ _ => 0

/-- `spread_with_table(in_dims, out_dims, table, dtable)` (lop/spread.py:23-64): the forward function, `none` when the
check of the table values raises (the shape checks are the ranges of the index functions). `trans` is `pass`: it
returns `None`. -/
def spreadWithTable [Add R] [Zero R] (nx_in nt_in nx_out nt_out : ℕ) (table : ℕ → ℕ → ℕ → Option ℤ) :
    Option ((ℕ → ℕ → R) → ℕ → ℕ → R) :=
  if (List.range nx_in).any (fun i => (List.range nt_in).any fun t => (List.range nx_out).any fun k =>
      match table i t k with
      | some v => decide ((nt_out : ℤ) < v)
      | none => false)
  then none
  else some (spreadTimes nx_in nt_in nx_out nt_out table)

end Verif.Lop
