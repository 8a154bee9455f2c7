import Verif.Pursuit.IhtRecoveryProps
import Verif.Dict.PropsProps
import Mathlib.Tactic.IntervalCases

set_option autoImplicit false
/-!
# Low coherence gives the restricted isometry property (C135)
-/
noncomputable section
namespace Verif.Pursuit
open Verif.Loop

variable {𝕜 : Type*} [RCLike 𝕜] {E : Type*} [NormedAddCommGroup E] [InnerProductSpace 𝕜 E]

theorem synth_restrict (phi : ℕ → E) (n : ℕ) (z : ℕ → 𝕜) (T : Finset ℕ) (hz : SuppIn n T z) :
    synth phi n z = ∑ i ∈ (Finset.range n).filter (· ∈ T), z i • phi i ∧
    l2 n z ^ 2 = ∑ i ∈ (Finset.range n).filter (· ∈ T), ‖z i‖ ^ 2 := by
  constructor
  · rw [synth, Finset.sum_filter]
    refine Finset.sum_congr rfl fun i hi => ?_
    by_cases h : i ∈ T
    · rw [if_pos h]
    · rw [if_neg h, hz i (Finset.mem_range.mp hi) h, zero_smul]
  · rw [l2_sq, Finset.sum_filter]
    refine Finset.sum_congr rfl fun i hi => ?_
    by_cases h : i ∈ T
    · rw [if_pos h]
    · rw [if_neg h, hz i (Finset.mem_range.mp hi) h]; simp

/-- Gershgorin's argument: row sums of the off-diagonal inner products bound the deviation from isometry. -/
theorem gersh (phi : ℕ → E) (U : Finset ℕ) (hu : ∀ i ∈ U, ‖phi i‖ = 1) (δ : ℝ)
    (hrow : ∀ i ∈ U, ∑ j ∈ U.erase i, ‖inner 𝕜 (phi i) (phi j)‖ ≤ δ) (z : ℕ → 𝕜) :
    |‖∑ i ∈ U, z i • phi i‖ ^ 2 - ∑ i ∈ U, ‖z i‖ ^ 2| ≤ δ * ∑ i ∈ U, ‖z i‖ ^ 2 := by
  classical
  have hnorm : ((‖∑ i ∈ U, z i • phi i‖ ^ 2 : ℝ) : 𝕜) = ∑ i ∈ U, ∑ j ∈ U, (starRingEnd 𝕜 (z i) * z j) * inner 𝕜 (phi i) (phi j) := by
    rw [RCLike.ofReal_pow, ← inner_self_eq_norm_sq_to_K (𝕜 := 𝕜), sum_inner]
    refine Finset.sum_congr rfl fun i _ => ?_
    rw [inner_sum]
    refine Finset.sum_congr rfl fun j _ => ?_
    rw [inner_smul_left, inner_smul_right, mul_assoc]
  have hsplit : ((‖∑ i ∈ U, z i • phi i‖ ^ 2 - ∑ i ∈ U, ‖z i‖ ^ 2 : ℝ) : 𝕜) =
      ∑ i ∈ U, ∑ j ∈ U.erase i, (starRingEnd 𝕜 (z i) * z j) * inner 𝕜 (phi i) (phi j) := by
    rw [RCLike.ofReal_sub, hnorm, RCLike.ofReal_sum, ← Finset.sum_sub_distrib]
    refine Finset.sum_congr rfl fun i hi => ?_
    rw [← Finset.add_sum_erase U _ hi, inner_self_eq_norm_sq_to_K, hu i hi, RCLike.conj_mul]
    simp
  have h1 : |‖∑ i ∈ U, z i • phi i‖ ^ 2 - ∑ i ∈ U, ‖z i‖ ^ 2| ≤
      ∑ i ∈ U, ∑ j ∈ U.erase i, ‖z i‖ * ‖z j‖ * ‖inner 𝕜 (phi i) (phi j)‖ := by
    rw [← RCLike.norm_ofReal (K := 𝕜), hsplit]
    refine (norm_sum_le _ _).trans (Finset.sum_le_sum fun i _ => (norm_sum_le _ _).trans (Finset.sum_le_sum fun j _ => ?_))
    rw [norm_mul, norm_mul, RCLike.norm_conj]
  have hsym : ∑ i ∈ U, ∑ j ∈ U.erase i, ‖z j‖ ^ 2 * ‖inner 𝕜 (phi i) (phi j)‖ = ∑ i ∈ U, ∑ j ∈ U.erase i, ‖z i‖ ^ 2 * ‖inner 𝕜 (phi i) (phi j)‖ := by
    rw [Finset.sum_comm' (t' := U) (s' := fun j => U.erase j)
      (fun i j => by simp only [Finset.mem_erase]; exact ⟨fun ⟨a, b, c⟩ => ⟨⟨Ne.symm b, a⟩, c⟩, fun ⟨⟨a, b⟩, c⟩ => ⟨b, Ne.symm a, c⟩⟩)]
    refine Finset.sum_congr rfl fun i _ => Finset.sum_congr rfl fun j _ => ?_
    rw [norm_inner_symm]
  have h2 : ∑ i ∈ U, ∑ j ∈ U.erase i, ‖z i‖ * ‖z j‖ * ‖inner 𝕜 (phi i) (phi j)‖ ≤
      ∑ i ∈ U, ∑ j ∈ U.erase i, ‖z i‖ ^ 2 * ‖inner 𝕜 (phi i) (phi j)‖ := by
    have : ∑ i ∈ U, ∑ j ∈ U.erase i, ‖z i‖ * ‖z j‖ * ‖inner 𝕜 (phi i) (phi j)‖ ≤
        ∑ i ∈ U, ∑ j ∈ U.erase i, ((‖z i‖ ^ 2 * ‖inner 𝕜 (phi i) (phi j)‖) / 2 + (‖z j‖ ^ 2 * ‖inner 𝕜 (phi i) (phi j)‖) / 2) := by
      refine Finset.sum_le_sum fun i _ => Finset.sum_le_sum fun j _ => ?_
      have a1 := norm_nonneg (inner 𝕜 (phi i) (phi j))
      nlinarith [mul_nonneg (sq_nonneg (‖z i‖ - ‖z j‖)) a1]
    refine this.trans (le_of_eq ?_)
    simp only [Finset.sum_add_distrib, ← Finset.sum_div]
    rw [hsym]; ring
  refine h1.trans (h2.trans ?_)
  rw [Finset.mul_sum]
  refine Finset.sum_le_sum fun i hi => ?_
  rw [← Finset.mul_sum, mul_comm δ]
  exact mul_le_mul_of_nonneg_left (hrow i hi) (sq_nonneg _)

/-- **C135** Low coherence gives the restricted isometry property: unit-norm atoms, real or complex, whose inner products are at most `mu` in magnitude
have the restricted isometry constant `(s - 1) mu` of order `s`. -/
theorem c135_rip_of_coherence (phi : ℕ → E) (n : ℕ) (mu : ℝ) (hmu : 0 ≤ mu) (hu : ∀ i, i < n → ‖phi i‖ = 1)
    (hc : ∀ i j, i < n → j < n → i ≠ j → ‖inner 𝕜 (phi i) (phi j)‖ ≤ mu) (s : ℕ) (hs : 1 ≤ s) : Rip 𝕜 phi n 1 s ((s - 1) * mu) := by
  classical
  intro z T hT hz
  obtain ⟨e1, e2⟩ := synth_restrict phi n z T hz
  rw [e1, e2, one_mul]
  refine gersh phi _ (fun i hi => hu i (by simpa using (Finset.mem_filter.mp hi).1)) _ (fun i hi => ?_) z
  have hsub : (Finset.range n).filter (· ∈ T) ⊆ T := fun i hi => (Finset.mem_filter.mp hi).2
  have hin := Finset.mem_range.mp (Finset.mem_filter.mp hi).1
  calc _ ≤ ∑ j ∈ ((Finset.range n).filter (· ∈ T)).erase i, mu := Finset.sum_le_sum fun j hj => by
        obtain ⟨a, b⟩ := Finset.mem_erase.mp hj
        exact hc i j hin (Finset.mem_range.mp (Finset.mem_filter.mp b).1) (Ne.symm a)
    _ = (((Finset.range n).filter (· ∈ T)).card - 1 : ℕ) * mu := by rw [Finset.sum_const, Finset.card_erase_of_mem hi, nsmul_eq_mul]
    _ ≤ (s - 1) * mu := by
        refine mul_le_mul_of_nonneg_right ?_ hmu
        have : ((Finset.range n).filter (· ∈ T)).card - 1 ≤ s - 1 := Nat.sub_le_sub_right ((Finset.card_le_card hsub).trans hT) 1
        calc (((((Finset.range n).filter (· ∈ T)).card - 1 : ℕ)) : ℝ) ≤ ((s - 1 : ℕ) : ℝ) := by exact_mod_cast this
          _ = s - 1 := by rw [Nat.cast_sub hs, Nat.cast_one]

end Verif.Pursuit

namespace Verif.Pursuit
open Verif.Dict
variable {E : Type*} [NormedAddCommGroup E] [InnerProductSpace ℝ E]

/-- **C135** The babel function bounds the restricted isometry constants: for unit-norm real atoms entry `s - 2` of `babel` (the largest sum of `s - 1`
inner products with one atom) is a restricted isometry constant of order `s`. -/
theorem c135_rip_of_babel (phi : ℕ → E) (n : ℕ) (hu : ∀ i, i < n → ‖phi i‖ = 1) (s : ℕ) (hs : 2 ≤ s) (hsn : s ≤ n) :
    Rip ℝ phi n 1 s (babel ℝ phi n (s - 2)) := by
  classical
  intro z T hT hz
  obtain ⟨e1, e2⟩ := synth_restrict phi n z T hz
  rw [e1, e2, one_mul]
  refine gersh phi _ (fun i hi => hu i (by simpa using (Finset.mem_filter.mp hi).1)) _ (fun i hi => ?_) z
  have hsub : (Finset.range n).filter (· ∈ T) ⊆ T := fun i hi => (Finset.mem_filter.mp hi).2
  have hin := Finset.mem_range.mp (Finset.mem_filter.mp hi).1
  have hb := c67_babel phi n hu (s - 1) (by omega) (by omega)
  rw [show s - 1 - 1 = s - 2 from rfl] at hb
  set U := ((Finset.range n).filter (· ∈ T)).erase i with hU
  have hUc : U.card ≤ s - 1 := by
    rw [hU, Finset.card_erase_of_mem hi]; exact Nat.sub_le_sub_right ((Finset.card_le_card hsub).trans hT) 1
  have hUn : U ⊆ (Finset.range n).erase i := Finset.erase_subset_erase _ (Finset.filter_subset _ _)
  obtain ⟨V, hV1, hV2, hV3⟩ := Finset.exists_subsuperset_card_eq hUn hUc (by
    rw [Finset.card_erase_of_mem (Finset.mem_range.mpr hin), Finset.card_range]; omega)
  refine le_trans (Finset.sum_le_sum_of_subset_of_nonneg hV1 fun j _ _ => norm_nonneg _) ?_
  refine hb.2 ⟨i, hin, V, fun j hj => ?_, hV3, rfl⟩
  have := Finset.mem_erase.mp (hV2 hj)
  exact ⟨Finset.mem_range.mp this.2, this.1⟩

/-- The hypotheses hold for the atoms `1`, `i`, `(3 + 4i)/5` of the plane and `mu = 4/5`. -/
theorem ex_three_unit : (∀ i, i < 3 → ‖(fun i : ℕ => if i = 0 then (1 : ℂ) else if i = 1 then Complex.I else ⟨3 / 5, 4 / 5⟩) i‖ = 1) := by
  intro i hi
  have h3 : ‖(⟨3 / 5, 4 / 5⟩ : ℂ)‖ = 1 := by
    rw [← sq_eq_sq₀ (norm_nonneg _) zero_le_one, ← Complex.normSq_eq_norm_sq, Complex.normSq_mk]; norm_num
  interval_cases i <;> simp [h3]

example := c135_rip_of_babel (fun i : ℕ => if i = 0 then (1 : ℂ) else if i = 1 then Complex.I else ⟨3 / 5, 4 / 5⟩) 3 ex_three_unit 2 le_rfl (by norm_num)

end Verif.Pursuit
