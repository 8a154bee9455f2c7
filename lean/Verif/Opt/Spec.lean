import Mathlib.Analysis.InnerProductSpace.PiL2
import Mathlib.Analysis.Calculus.Gradient.Basic
import Mathlib.Data.EReal.Basic

set_option autoImplicit false
/-!
# Specifications for projectors, indicators, proximal operators and smooth functions

Vectors are points of Euclidean space `ℝⁿ`; floating point numbers are idealised as reals.
-/
noncomputable section
namespace Verif.Opt
open scoped RealInnerProductSpace

/-- A real 1-D array of length `n`. -/
abbrev Vec (n : ℕ) := EuclideanSpace ℝ (Fin n)

/-- Build an array from its entries. -/
def vec {n : ℕ} (f : Fin n → ℝ) : Vec n := WithLp.toLp 2 f

@[simp] theorem vec_apply {n : ℕ} (f : Fin n → ℝ) (i : Fin n) : vec f i = f i := rfl

/-- The `ℓ₁` norm `Σ |x i|`. -/
def l1 {n : ℕ} (x : Vec n) : ℝ := ∑ i, |x i|

section
variable {E : Type*} [NormedAddCommGroup E] [InnerProductSpace ℝ E]

/-- `p` is the nearest point of `C` to `x`: it lies in `C`, no point of `C` is nearer, and every other point of `C`
is strictly farther. -/
def IsNearest (C : Set E) (x p : E) : Prop :=
  p ∈ C ∧ ∀ z ∈ C, z ≠ p → ‖x - p‖ < ‖x - z‖

/-- `p` is the proximal point of `f` at `x` with step `t`: the strict minimiser of `f z + ‖z - x‖² / (2 t)`. -/
def IsProx (f : E → ℝ) (t : ℝ) (x p : E) : Prop :=
  ∀ z, z ≠ p → f p + ‖p - x‖ ^ 2 / (2 * t) < f z + ‖z - x‖ ^ 2 / (2 * t)

/-- The same for a function restricted to a set (`+∞` outside). -/
def IsProxOn (C : Set E) (f : E → ℝ) (t : ℝ) (x p : E) : Prop :=
  p ∈ C ∧ ∀ z ∈ C, z ≠ p → f p + ‖p - x‖ ^ 2 / (2 * t) < f z + ‖z - x‖ ^ 2 / (2 * t)

/-- Variational inequality: a sufficient condition for being the nearest point. -/
theorem IsNearest.of_inner {C : Set E} {x p : E} (hp : p ∈ C) (h : ∀ z ∈ C, ⟪x - p, z - p⟫ ≤ 0) : IsNearest C x p := by
  refine ⟨hp, fun z hz hne => ?_⟩
  have e : x - z = (x - p) - (z - p) := by abel
  have h1 : ‖x - z‖ ^ 2 = ‖x - p‖ ^ 2 - 2 * ⟪x - p, z - p⟫ + ‖z - p‖ ^ 2 := by
    rw [e, norm_sub_sq_real]
  have h2 : 0 < ‖z - p‖ ^ 2 := by
    have : 0 < ‖z - p‖ := norm_pos_iff.mpr (sub_ne_zero.mpr hne)
    positivity
  have h3 := h z hz
  exact lt_of_pow_lt_pow_left₀ 2 (norm_nonneg _) (by linarith)

theorem IsNearest.le {C : Set E} {x p z : E} (h : IsNearest C x p) (hz : z ∈ C) : ‖x - p‖ ≤ ‖x - z‖ := by
  by_cases e : z = p
  · rw [e]
  · exact (h.2 z hz e).le

theorem IsNearest.unique {C : Set E} {x p p' : E} (h : IsNearest C x p) (h' : IsNearest C x p') : p = p' := by
  by_contra hne
  exact absurd (h.2 p' h'.1 (Ne.symm hne)) (not_lt.mpr (h'.le h.1))

/-- Subgradient inequality: a sufficient condition for being the proximal point. -/
theorem IsProxOn.of_subgradient {C : Set E} {f : E → ℝ} {t : ℝ} (ht : 0 < t) {x p : E} (hp : p ∈ C)
    (h : ∀ z ∈ C, f p + ⟪x - p, z - p⟫ / t ≤ f z) : IsProxOn C f t x p := by
  refine ⟨hp, fun z hz hne => ?_⟩
  have e : z - x = (z - p) - (x - p) := by abel
  have h1 : ‖z - x‖ ^ 2 = ‖z - p‖ ^ 2 - 2 * ⟪x - p, z - p⟫ + ‖p - x‖ ^ 2 := by
    rw [e, norm_sub_sq_real, real_inner_comm, norm_sub_rev x p]
  have h2 : 0 < ‖z - p‖ ^ 2 := by
    have : 0 < ‖z - p‖ := norm_pos_iff.mpr (sub_ne_zero.mpr hne)
    positivity
  have h3 := h z hz
  have h4 : ‖z - x‖ ^ 2 / (2 * t) = ‖z - p‖ ^ 2 / (2 * t) - ⟪x - p, z - p⟫ / t + ‖p - x‖ ^ 2 / (2 * t) := by
    rw [h1]; field_simp
  have h5 : 0 < ‖z - p‖ ^ 2 / (2 * t) := by positivity
  rw [h4]; linarith

theorem IsProx.of_subgradient {f : E → ℝ} {t : ℝ} (ht : 0 < t) {x p : E}
    (h : ∀ z, f p + ⟪x - p, z - p⟫ / t ≤ f z) : IsProx f t x p := fun z hne =>
  (IsProxOn.of_subgradient (C := Set.univ) ht (Set.mem_univ _) fun z _ => h z).2 z (Set.mem_univ _) hne
end

theorem inner_sum {n : ℕ} (x y : Vec n) : ⟪x, y⟫ = ∑ i, x i * y i := by
  rw [PiLp.inner_apply]
  exact Finset.sum_congr rfl fun i _ => by simp [mul_comm]

theorem norm_sq_sum {n : ℕ} (x : Vec n) : ‖x‖ ^ 2 = ∑ i, x i ^ 2 := EuclideanSpace.real_norm_sq_eq x

end Verif.Opt
