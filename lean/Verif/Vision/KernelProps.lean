import Verif.Vision.KernelModel
import Mathlib.Tactic.Linarith
import Mathlib.Tactic.Ring
import Mathlib.Tactic.FieldSimp
import Mathlib.Tactic.Positivity
import Mathlib.Algebra.BigOperators.Field

set_option autoImplicit false
/-!
# Gaussian kernels (C79)
-/
noncomputable section
namespace Verif.Vision

theorem sum_pos' (h w : ℕ) (sx sy : ℝ) (hh : 0 < h) (hw : 0 < w) : 0 < ∑ a ∈ Finset.range h, ∑ b ∈ Finset.range w, rawGaussian h w sx sy a b :=
  Finset.sum_pos (fun _ _ => Finset.sum_pos (fun _ _ => Real.exp_pos _) ⟨0, Finset.mem_range.mpr hw⟩) ⟨0, Finset.mem_range.mpr hh⟩

theorem axis_reflect (w j : ℕ) (hj : j < w) : axisPt w (w - 1 - j) = -axisPt w j := by
  unfold axisPt
  have : ((w - 1 - j : ℕ) : ℝ) = (w : ℝ) - 1 - j := by
    rw [Nat.cast_sub (by omega), Nat.cast_sub (by omega)]; simp
  rw [this]; ring

theorem kernel_some {h w : ℕ} {sx sy : ℝ} {k : ℕ → ℕ → ℝ} (hk : kernelGaussian h w sx sy = some k) :
    (sx ≠ 0 ∧ sy ≠ 0) ∧ k = fun i j => rawGaussian h w sx sy i j / ∑ a ∈ Finset.range h, ∑ b ∈ Finset.range w, rawGaussian h w sx sy a b := by
  unfold kernelGaussian at hk
  split_ifs at hk with hs
  rw [not_or] at hs
  exact ⟨hs, (Option.some_inj.mp hk).symm⟩

/-- **C79** the kernel exists exactly for non-zero sigmas; its entries are positive and sum to one. -/
theorem c79_normalised (h w : ℕ) (hh : 0 < h) (hw : 0 < w) (sx sy : ℝ) :
    ((∃ k, kernelGaussian h w sx sy = some k) ↔ sx ≠ 0 ∧ sy ≠ 0) ∧
    ∀ k, kernelGaussian h w sx sy = some k → (∀ i j, 0 < k i j) ∧ ∑ i ∈ Finset.range h, ∑ j ∈ Finset.range w, k i j = 1 := by
  constructor
  · constructor
    · rintro ⟨k, hk⟩; exact (kernel_some hk).1
    · intro hs; exact ⟨_, if_neg (not_or.mpr hs)⟩
  · intro k hk
    obtain ⟨_, rfl⟩ := kernel_some hk
    have hp := sum_pos' h w sx sy hh hw
    refine ⟨fun i j => div_pos (Real.exp_pos _) hp, ?_⟩
    simp only [← Finset.sum_div]
    exact div_self hp.ne'

/-- **C79** the kernel is unchanged by both reflections, and by the transposition when height, width and sigmas are exchanged. -/
theorem c79_symmetric (h w : ℕ) (sx sy : ℝ) (k : ℕ → ℕ → ℝ) (hk : kernelGaussian h w sx sy = some k) :
    (∀ i j, i < h → k (h - 1 - i) j = k i j) ∧ (∀ i j, j < w → k i (w - 1 - j) = k i j) ∧
    ∀ k', kernelGaussian w h sy sx = some k' → ∀ i j, k' j i = k i j := by
  obtain ⟨_, rfl⟩ := kernel_some hk
  refine ⟨fun i j hi => ?_, fun i j hj => ?_, fun k' hk' i j => ?_⟩
  · simp only [rawGaussian, axis_reflect h i hi, neg_sq]
  · simp only [rawGaussian, axis_reflect w j hj, neg_sq]
  · obtain ⟨_, rfl⟩ := kernel_some hk'
    have e : ∀ a b, rawGaussian w h sy sx b a = rawGaussian h w sx sy a b := by
      intro a b; unfold rawGaussian; rw [add_comm]
    simp only [e]
    rw [Finset.sum_comm]

/-- **C79** entries fall off from the centre: moving further away from the centre line in either direction never increases an entry, and strictly decreases it when one distance grows. With odd height and width the middle entry is the unique maximum. -/
theorem c79_peak (h w : ℕ) (hh : 0 < h) (hw : 0 < w) (sx sy : ℝ) (k : ℕ → ℕ → ℝ) (hk : kernelGaussian h w sx sy = some k) :
    (∀ i j i' j' : ℕ, |(i : ℝ) - (h - 1) / 2| ≤ |(i' : ℝ) - (h - 1) / 2| → |(j : ℝ) - (w - 1) / 2| ≤ |(j' : ℝ) - (w - 1) / 2| → k i' j' ≤ k i j) ∧
    (∀ p q, h = 2 * p + 1 → w = 2 * q + 1 → ∀ i j, i < h → j < w → (i, j) ≠ (p, q) → k i j < k p q) := by
  obtain ⟨⟨hsx, hsy⟩, rfl⟩ := kernel_some hk
  have hp := sum_pos' h w sx sy hh hw
  have fx : 0 < 2 / sx ^ 2 := by positivity
  have fy : 0 < 2 / sy ^ 2 := by positivity
  have ax : ∀ (w j : ℕ), axisPt w j = (j : ℝ) - (w - 1) / 2 := by intro w j; unfold axisPt; ring
  constructor
  · intro i j i' j' h1 h2
    refine div_le_div_of_nonneg_right ?_ hp.le
    unfold rawGaussian
    rw [ax, ax, ax, ax]
    have s1 := sq_le_sq.mpr h1
    have s2 := sq_le_sq.mpr h2
    refine Real.exp_le_exp.mpr (neg_le_neg (add_le_add ?_ ?_))
    · exact mul_le_mul_of_nonneg_right s2 fx.le
    · exact mul_le_mul_of_nonneg_right s1 fy.le
  · intro p q e1 e2 i j hi hj hne
    refine div_lt_div_of_pos_right ?_ hp
    unfold rawGaussian
    have z1 : axisPt h p = 0 := by rw [ax, e1]; push_cast; ring
    have z2 : axisPt w q = 0 := by rw [ax, e2]; push_cast; ring
    rw [z1, z2]
    refine Real.exp_lt_exp.mpr (neg_lt_neg ?_)
    have y1 : axisPt h i = (i : ℝ) - p := by rw [ax, e1]; push_cast; ring
    have y2 : axisPt w j = (j : ℝ) - q := by rw [ax, e2]; push_cast; ring
    rw [y1, y2]
    have hor : (i : ℝ) - p ≠ 0 ∨ (j : ℝ) - q ≠ 0 := by
      by_contra hc
      push Not at hc
      exact hne (Prod.ext (by exact_mod_cast sub_eq_zero.mp hc.1) (by exact_mod_cast sub_eq_zero.mp hc.2))
    have q1 : 0 ≤ ((j : ℝ) - q) ^ 2 * (2 / sx ^ 2) := by positivity
    have q2 : 0 ≤ ((i : ℝ) - p) ^ 2 * (2 / sy ^ 2) := by positivity
    simp only [ne_eq, OfNat.ofNat_ne_zero, not_false_eq_true, zero_pow, zero_mul, add_zero]
    rcases hor with h0 | h0
    · have : 0 < ((i : ℝ) - p) ^ 2 * (2 / sy ^ 2) := by positivity
      linarith
    · have : 0 < ((j : ℝ) - q) ^ 2 * (2 / sx ^ 2) := by positivity
      linarith

/-- **C79** the width: `d` columns from the centre of an odd kernel the entry has fallen by the factor `exp(-2 d²/sigma²)`, the profile of a Gaussian with standard deviation `sigma/2`. -/
theorem c79_width (p q d : ℕ) (sx sy : ℝ) (k : ℕ → ℕ → ℝ) (hk : kernelGaussian (2 * p + 1) (2 * q + 1) sx sy = some k) :
    k p (q + d) = k p q * Real.exp (-((d : ℝ) ^ 2 / (2 * (sx / 2) ^ 2))) := by
  obtain ⟨⟨hsx, hsy⟩, rfl⟩ := kernel_some hk
  simp only
  rw [div_mul_eq_mul_div]
  congr 1
  unfold rawGaussian
  rw [← Real.exp_add]
  congr 1
  unfold axisPt
  push_cast
  field_simp
  ring

/-- **C79** the entry one column from the centre is not the one of a Gaussian with standard deviation `sigma`. -/
theorem c79_sigma_fails : ¬ ∀ (k : ℕ → ℕ → ℝ), kernelGaussian 3 3 1 1 = some k → k 1 2 = k 1 1 * Real.exp (-((1 : ℝ) ^ 2 / (2 * 1 ^ 2))) := by
  intro hall
  have hk : kernelGaussian 3 3 1 1 = some _ := if_neg (by norm_num)
  have h1 := hall _ hk
  have h2 := c79_width 1 1 1 1 1 _ hk
  have h0 := ((c79_normalised 3 3 (by norm_num) (by norm_num) 1 1).2 _ hk).1 1 1
  rw [h2] at h1
  have := Real.exp_injective (mul_left_cancel₀ h0.ne' h1)
  norm_num at this

example : ∃ k, kernelGaussian 3 5 1 2 = some k := ((c79_normalised 3 5 (by norm_num) (by norm_num) 1 2).1).mpr ⟨by norm_num, by norm_num⟩

example : ∃ k, kernelGaussian 3 5 1 2 = some k ∧ k 2 0 = k 0 0 ∧ (∀ i j, i < 3 → j < 5 → (i, j) ≠ (1, 2) → k i j < k 1 2) ∧
    k 1 3 = k 1 2 * Real.exp (-(((1 : ℕ) : ℝ) ^ 2 / (2 * (1 / 2) ^ 2))) := by
  obtain ⟨k, hk⟩ := ((c79_normalised 3 5 (by norm_num) (by norm_num) 1 2).1).mpr ⟨by norm_num, by norm_num⟩
  exact ⟨k, hk, (c79_symmetric 3 5 1 2 k hk).1 0 0 (by norm_num), (c79_peak 3 5 (by norm_num) (by norm_num) 1 2 k hk).2 1 2 rfl rfl, c79_width 1 2 1 1 2 k hk⟩

end Verif.Vision
