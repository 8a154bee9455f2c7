import Verif.Lop.BasicProps

set_option autoImplicit false
/-!
# What the Heaviside, cumulative sum and difference operators compute (C04)
-/
noncomputable section
namespace Verif.Lop

variable {𝕜 : Type*} [RCLike 𝕜]

/-- **C04** `cumsum(n)` returns the running sums of its input, its adjoint the sums of the tails, and `diff(n)` the differences of
consecutive entries, the first entry being kept. -/
theorem c04_cumsum_diff_values (n : ℕ) (x : List 𝕜) (hx : x.length = n) (i : ℕ) (hi : i < n) :
    ((cumsumOp (𝕜 := 𝕜) n).times x).length = n ∧
    ent ((cumsumOp (𝕜 := 𝕜) n).times x) i = ∑ j ∈ Finset.range (i + 1), ent x j ∧
    ent ((cumsumOp (𝕜 := 𝕜) n).trans x) i = ∑ j ∈ Finset.range n, (if i ≤ j then ent x j else 0) ∧
    ent ((diffOp (𝕜 := 𝕜) n).times x) i = ent x i - (if i = 0 then 0 else ent x (i - 1)) := by
  refine ⟨by simp [cumsumOp, heaviside, hx], ?_, ?_, ?_⟩
  · simp only [cumsumOp, heaviside, Bool.false_eq_true, if_false]
    exact ent_cumsum (by omega)
  · simp only [cumsumOp, heaviside, Bool.false_eq_true, if_false]
    exact ent_heavisideTransU hx hi
  · simp only [diffOp, invHeaviside, Bool.false_eq_true, if_false]
    exact ndiff_cons_zero_ent (by omega)

/-- **C04** the normalised Heaviside operator returns the running sums of the input with entry `j` divided by `√(n - j)`, the norm of
column `j` of the cumulative sum. -/
theorem c04_heaviside_normalized_values (n : ℕ) (x : List 𝕜) (hx : x.length = n) (i : ℕ) (hi : i < n) :
    ent ((heaviside (𝕜 := 𝕜) n true).times x) i = ∑ j ∈ Finset.range (i + 1), ent x j / ((√((n - j : ℕ) : ℝ) : ℝ) : 𝕜) := by
  have hl : (sqrtWi 𝕜 n).length = n := by simp [sqrtWi, sqrtW]
  simp only [heaviside, if_true]
  rw [ent_cumsum (by simp [vmul, hx, hl]; omega)]
  refine Finset.sum_congr rfl fun j hj => ?_
  have hj' : j < n := by have := Finset.mem_range.mp hj; omega
  rw [ent_vmul]
  simp [sqrtWi, sqrtW, ent, hj', div_eq_mul_inv]

example : ent ((cumsumOp (𝕜 := ℝ) 3).times [1, 2, 3]) 2 = 6 := by
  rw [(c04_cumsum_diff_values 3 [1, 2, 3] rfl 2 (by norm_num)).2.1]
  norm_num [Finset.sum_range_succ, ent]

example := c04_heaviside_normalized_values 3 ([3, 1, 4] : List ℝ) rfl 1 (by norm_num)

end Verif.Lop
