import Verif.Lop.SpreadModel
import Mathlib.Tactic.Ring

set_option autoImplicit false

/-! # C121: the spread operator -/
namespace Verif.Lop
open Finset
variable {R : Type*} [CommRing R]

/-- What the comment of the code promises: "index identifies output row, value identifies output column; if value is
nan, then the corresponding output row is skipped". Entry `(k, c)` of the output is the sum of the inputs which the table
sends to column `c` of row `k`. -/
def IsSpread (nx_in nt_in nx_out nt_out : ℕ) (table : ℕ → ℕ → ℕ → Option ℤ) (f : (ℕ → ℕ → R) → ℕ → ℕ → R) : Prop :=
  ∀ x, ∀ k < nx_out, ∀ c < nt_out, f x k c =
    ∑ it ∈ range nt_in, ∑ ix ∈ range nx_in, if table ix it k = some (c : ℤ) then x ix it else 0

theorem foldl_add_entry {α : Type*} (g : (ℕ → ℕ → R) → α → ℕ → ℕ → R) (d : α → R) (r c : ℕ)
    (h : ∀ y a, g y a r c = y r c + d a) (l : List α) (y : ℕ → ℕ → R) : l.foldl g y r c = y r c + (l.map d).sum := by
  induction l generalizing y with
  | nil => simp
  | cons a l ih => rw [List.foldl_cons, ih, h, List.map_cons, List.sum_cons, add_assoc]

theorem sum_map_range (n : ℕ) (d : ℕ → R) : ((List.range n).map d).sum = ∑ i ∈ range n, d i := by
  induction n with
  | zero => simp
  | succ n ih => rw [List.range_succ, List.map_append, List.sum_append, ih, Finset.sum_range_succ]; simp

theorem scatterAddCols_entry (n : ℕ) (y : ℕ → ℕ → R) (l : List (Option ℤ)) (v : R) (r c : ℕ) :
    scatterAddCols n y l v r c = y r c + (l.map fun t => if t.bind (scatterCol n) = some c then v else 0).sum := by
  unfold scatterAddCols
  apply foldl_add_entry
  intro y t
  cases h : t.bind (scatterCol n) with
  | none => simp
  | some c' =>
    by_cases hc : c = c'
    · simp [hc]
    · simp [hc, Ne.symm hc]

/-- **C121** What `times` computes: entry `(r, c)` of the output is the sum, over all inputs and over all rows `k` of the
table, of the inputs which the table sends to column `c`. The right-hand side does not mention `r`: all the rows of the
output are equal. -/
theorem c121_times (nx_in nt_in nx_out nt_out : ℕ) (table : ℕ → ℕ → ℕ → Option ℤ) (x : ℕ → ℕ → R) (r c : ℕ) :
    spreadTimes nx_in nt_in nx_out nt_out table x r c =
      ∑ it ∈ range nt_in, ∑ ix ∈ range nx_in, ∑ k ∈ range nx_out,
        if (table ix it k).bind (scatterCol nt_out) = some c then x ix it else 0 := by
  unfold spreadTimes
  rw [foldl_add_entry (d := fun it => ∑ ix ∈ range nx_in, ∑ k ∈ range nx_out,
        if (table ix it k).bind (scatterCol nt_out) = some c then x ix it else 0), zero_add, sum_map_range]
  intro y it
  rw [foldl_add_entry (d := fun ix => ∑ k ∈ range nx_out,
        if (table ix it k).bind (scatterCol nt_out) = some c then x ix it else 0), sum_map_range]
  intro y ix
  rw [scatterAddCols_entry, List.map_map, ← sum_map_range]
  rfl

/-- **C121** `times` is linear. -/
theorem c121_linear (nx_in nt_in nx_out nt_out : ℕ) (table : ℕ → ℕ → ℕ → Option ℤ) (a b : R) (x y : ℕ → ℕ → R) (r c : ℕ) :
    spreadTimes nx_in nt_in nx_out nt_out table (fun i t => a * x i t + b * y i t) r c =
      a * spreadTimes nx_in nt_in nx_out nt_out table x r c + b * spreadTimes nx_in nt_in nx_out nt_out table y r c := by
  simp only [c121_times, Finset.mul_sum, ← Finset.sum_add_distrib]
  refine sum_congr rfl fun _ _ => sum_congr rfl fun _ _ => sum_congr rfl fun _ _ => ?_
  split_ifs <;> ring

/-- A table which passes the check, with entries that are NaN or not negative. -/
theorem scatterCol_eq {n c : ℕ} (hc : c < n) {t : ℤ} (ht : 0 ≤ t) : scatterCol n t = some c ↔ t = c := by
  unfold scatterCol
  by_cases h : t < n
  · rw [if_pos ⟨ht, h⟩, Option.some_inj]; omega
  · rw [if_neg (by omega), if_neg (by omega)]
    constructor
    · intro h; cases h
    · omega

/-- **C121** With one output row, and a table whose entries are NaN or not negative, the operator does what its comment
says. Missing: more than one output row, where it does not (`c121_spread_fails`). -/
theorem c121_spread_partial (nx_in nt_in nt_out : ℕ) (table : ℕ → ℕ → ℕ → Option ℤ)
    (ht : ∀ i t, ∀ v ∈ table i t 0, 0 ≤ v) (f : (ℕ → ℕ → R) → ℕ → ℕ → R)
    (hf : spreadWithTable nx_in nt_in 1 nt_out table = some f) : IsSpread nx_in nt_in 1 nt_out table f := by
  intro x k hk c hc
  obtain rfl : k = 0 := by omega
  unfold spreadWithTable at hf
  split_ifs at hf
  rw [← Option.some_inj.1 hf, c121_times]
  refine sum_congr rfl fun it _ => sum_congr rfl fun ix _ => ?_
  rw [sum_range_one]
  congr 1
  apply propext
  cases h : table ix it 0 with
  | none => simp
  | some v => simp [scatterCol_eq hc (ht ix it v h)]

/-- Two inputs, both sent to column 1 of the only row of the output, which has 3 columns. -/
example : spreadWithTable (R := ℤ) 2 1 1 3 (fun _ _ _ => some 1) = some (spreadTimes 2 1 1 3 fun _ _ _ => some 1) ∧
    spreadTimes 2 1 1 3 (fun _ _ _ => some 1) (fun i _ => (i : ℤ) + 5) 0 1 = 11 := by
  constructor
  · rfl
  · rw [c121_times]; decide

/-- **C121** is violated for two output rows: one input, sent to column 0 of row 0 and to column 1 of row 1, is added in
both columns of both rows. -/
theorem c121_spread_fails : ∃ (table : ℕ → ℕ → ℕ → Option ℤ) (f : (ℕ → ℕ → ℤ) → ℕ → ℕ → ℤ),
    (∀ i t, ∀ k < 2, ∃ v ∈ table i t k, 0 ≤ v ∧ v < 2) ∧ spreadWithTable 1 1 2 2 table = some f ∧ ¬ IsSpread 1 1 2 2 table f := by
  refine ⟨fun _ _ k => some k, spreadTimes 1 1 2 2 fun _ _ k => some k, fun i t k hk => ⟨k, rfl, by omega, by omega⟩, rfl, fun h => ?_⟩
  have := h (fun _ _ => 1) 0 (by decide) 1 (by decide)
  rw [c121_times] at this
  revert this
  decide

/-- **C121** All rows of the output are equal, for every table: so if the operator does what its comment says for a table
with two output rows, the table sends the same inputs to both rows, column by column. -/
theorem c121_rows_equal (nx_in nt_in nx_out nt_out : ℕ) (table : ℕ → ℕ → ℕ → Option ℤ) (f : (ℕ → ℕ → R) → ℕ → ℕ → R)
    (hf : spreadWithTable nx_in nt_in nx_out nt_out table = some f) (x : ℕ → ℕ → R) (r r' c : ℕ) : f x r c = f x r' c := by
  unfold spreadWithTable at hf
  split_ifs at hf
  rw [← Option.some_inj.1 hf, c121_times, c121_times]

/-- **C121** The check says "all values in the table must be smaller than nt_out", and lets `nt_out` through: the input is
dropped without a message. -/
theorem c121_check_fails (nt_out : ℕ) : ∃ f, spreadWithTable (R := R) 1 1 1 nt_out (fun _ _ _ => some nt_out) = some f ∧
    ∀ x r c, f x r c = 0 := by
  refine ⟨spreadTimes 1 1 1 nt_out fun _ _ _ => some nt_out, ?_, fun x r c => ?_⟩
  · unfold spreadWithTable
    rw [if_neg (by simp)]
  · rw [c121_times]
    have : scatterCol nt_out nt_out = none := by
      unfold scatterCol
      rw [if_neg (by omega), if_neg (by omega)]
    simp [this]

/-- **C121** A larger value is rejected. -/
theorem c121_check (nx_in nt_in nx_out nt_out : ℕ) (table : ℕ → ℕ → ℕ → Option ℤ) :
    spreadWithTable (R := R) nx_in nt_in nx_out nt_out table = none ↔
      ∃ i < nx_in, ∃ t < nt_in, ∃ k < nx_out, ∃ v, table i t k = some v ∧ (nt_out : ℤ) < v := by
  unfold spreadWithTable
  rw [ite_eq_left_iff]
  constructor
  · intro h
    by_contra hc
    refine absurd (h ?_) (by simp)
    simp only [List.any_eq_true, List.mem_range, not_exists, not_and]
    intro i hi t ht k hk hv
    cases e : table i t k with
    | none => simp [e] at hv
    | some v => exact hc ⟨i, hi, t, ht, k, hk, v, e, by simpa [e] using hv⟩
  · rintro ⟨i, hi, t, ht, k, hk, v, e, hv⟩ hn
    refine absurd ?_ hn
    simp only [List.any_eq_true, List.mem_range]
    exact ⟨i, hi, t, ht, k, hk, by simpa [e] using hv⟩

example := c121_spread_partial (R := ℤ) 2 1 3 (fun _ _ _ => some 1) (by simp) _ rfl

example := c121_rows_equal (R := ℤ) 2 1 1 3 (fun _ _ _ => some 1) _ rfl

end Verif.Lop
