import Verif.Cluster.SpectralModel
import Mathlib.Tactic.FieldSimp

set_option autoImplicit false
/-!
# Graph Laplacians (C56)
-/
noncomputable section
namespace Verif.Cluster
open Matrix

variable {n : ℕ}

/-- An affinity matrix: symmetric with non-negative entries. -/
structure IsAffinity (W : Matrix (Fin n) (Fin n) ℝ) : Prop where
  symm : ∀ i j, W i j = W j i
  nonneg : ∀ i j, 0 ≤ W i j

theorem degrees_row {W : Matrix (Fin n) (Fin n) ℝ} (h : IsAffinity W) (i : Fin n) : ∑ j, W i j = degrees W i :=
  Finset.sum_congr rfl fun j _ => h.symm i j

/-- **C56** the unnormalised Laplacian of an affinity matrix: symmetric, zero row sums, and its quadratic form is `½ ∑ W_ij (x_i - x_j)²`, hence non-negative, and zero exactly for the vectors that are constant across every edge. -/
theorem c56_unnormalized (W : Matrix (Fin n) (Fin n) ℝ) (h : IsAffinity W) :
    (unnormalizedLaplacian W)ᵀ = unnormalizedLaplacian W ∧ (∀ i, ∑ j, unnormalizedLaplacian W i j = 0) ∧
    (∀ x : Fin n → ℝ, x ⬝ᵥ (unnormalizedLaplacian W *ᵥ x) = (∑ i, ∑ j, W i j * (x i - x j) ^ 2) / 2) ∧
    (∀ x : Fin n → ℝ, 0 ≤ x ⬝ᵥ (unnormalizedLaplacian W *ᵥ x)) ∧
    (∀ x : Fin n → ℝ, unnormalizedLaplacian W *ᵥ x = 0 ↔ ∀ i j, 0 < W i j → x i = x j) := by
  have hq : ∀ x : Fin n → ℝ, x ⬝ᵥ (unnormalizedLaplacian W *ᵥ x) = (∑ i, ∑ j, W i j * (x i - x j) ^ 2) / 2 := by
    intro x
    have e1 : x ⬝ᵥ (unnormalizedLaplacian W *ᵥ x) = ∑ i, degrees W i * x i ^ 2 - ∑ i, ∑ j, W i j * (x i * x j) := by
      simp only [unnormalizedLaplacian, Matrix.sub_mulVec, dotProduct_sub]
      congr 1
      · simp only [dotProduct, mulVec_diagonal]; exact Finset.sum_congr rfl fun i _ => by ring
      · simp only [dotProduct, mulVec, Finset.mul_sum]; exact Finset.sum_congr rfl fun i _ => Finset.sum_congr rfl fun j _ => by ring
    have e2 : ∑ i, ∑ j, W i j * (x i - x j) ^ 2 = ∑ i, ∑ j, W i j * x i ^ 2 + ∑ i, ∑ j, W i j * x j ^ 2 - 2 * ∑ i, ∑ j, W i j * (x i * x j) := by
      rw [Finset.mul_sum, ← Finset.sum_add_distrib, ← Finset.sum_sub_distrib]
      refine Finset.sum_congr rfl fun i _ => ?_
      rw [Finset.mul_sum, ← Finset.sum_add_distrib, ← Finset.sum_sub_distrib]
      exact Finset.sum_congr rfl fun j _ => by ring
    have e3 : ∑ i, ∑ j, W i j * x i ^ 2 = ∑ i, degrees W i * x i ^ 2 := Finset.sum_congr rfl fun i _ => by rw [← Finset.sum_mul, degrees_row h]
    have e4 : ∑ i, ∑ j, W i j * x j ^ 2 = ∑ i, degrees W i * x i ^ 2 := by
      rw [Finset.sum_comm]; exact Finset.sum_congr rfl fun i _ => by rw [← Finset.sum_mul]; rfl
    rw [e1, e2, e3, e4]; ring
  have hrow : ∀ i, ∑ j, unnormalizedLaplacian W i j = 0 := by
    intro i
    simp only [unnormalizedLaplacian, Matrix.sub_apply, Finset.sum_sub_distrib, degrees_row h, diagonal_apply]
    simp
  refine ⟨?_, hrow, hq, fun x => ?_, fun x => ⟨fun h0 i j hW => ?_, fun hc => ?_⟩⟩
  · ext i j
    simp only [transpose_apply, unnormalizedLaplacian, Matrix.sub_apply, diagonal_apply, h.symm j i]
    by_cases hij : i = j
    · subst hij; simp
    · simp [hij, Ne.symm hij]
  · rw [hq]
    exact div_nonneg (Finset.sum_nonneg fun i _ => Finset.sum_nonneg fun j _ => mul_nonneg (h.nonneg i j) (sq_nonneg _)) two_pos.le
  · have := hq x
    rw [h0, dotProduct_zero] at this
    have hs : ∑ i, ∑ j, W i j * (x i - x j) ^ 2 = 0 := by linarith
    rw [Finset.sum_eq_zero_iff_of_nonneg fun i _ => Finset.sum_nonneg fun j _ => mul_nonneg (h.nonneg i j) (sq_nonneg _)] at hs
    have h1 := hs i (Finset.mem_univ i)
    rw [Finset.sum_eq_zero_iff_of_nonneg fun j _ => mul_nonneg (h.nonneg i j) (sq_nonneg _)] at h1
    have h2 := h1 j (Finset.mem_univ j)
    rcases mul_eq_zero.mp h2 with h3 | h3
    · exact absurd h3 hW.ne'
    · exact sub_eq_zero.mp (pow_eq_zero_iff two_ne_zero |>.mp h3)
  · funext i
    have e : (unnormalizedLaplacian W *ᵥ x) i = ∑ j, W i j * (x i - x j) := by
      simp only [unnormalizedLaplacian, Matrix.sub_mulVec, Pi.sub_apply, mulVec_diagonal, mul_sub, Finset.sum_sub_distrib, ← Finset.sum_mul, degrees_row h]
      rfl
    rw [e]
    refine Finset.sum_eq_zero fun j _ => ?_
    rcases (h.nonneg i j).eq_or_lt with h0 | hp
    · rw [← h0, zero_mul]
    · rw [hc i j hp, sub_self, mul_zero]

/-- **C56** the random-walk Laplacian has zero row sums, and `D` times it is the unnormalised Laplacian (so both have the same kernel). -/
theorem c56_random_walk (W : Matrix (Fin n) (Fin n) ℝ) (h : IsAffinity W) (hd : ∀ i, 0 < degrees W i) :
    (∀ i, ∑ j, randomWalkLaplacian W i j = 0) ∧ diagonal (degrees W) * randomWalkLaplacian W = unnormalizedLaplacian W ∧
    (∀ x : Fin n → ℝ, randomWalkLaplacian W *ᵥ x = 0 ↔ unnormalizedLaplacian W *ᵥ x = 0) := by
  have hdm : diagonal (degrees W) * randomWalkLaplacian W = unnormalizedLaplacian W := by
    ext i j
    rw [diagonal_mul]
    simp only [randomWalkLaplacian, unnormalizedLaplacian, Matrix.sub_apply, diagonal_apply]
    have := (hd i).ne'
    by_cases hij : i = j
    · simp only [hij, if_true]; rw [hij] at this; field_simp; ring
    · simp only [hij, if_false]; field_simp; ring
  refine ⟨fun i => ?_, hdm, fun x => ?_⟩
  · simp only [randomWalkLaplacian, Finset.sum_add_distrib, Finset.sum_neg_distrib, ← Finset.mul_sum, degrees_row h, inv_mul_cancel₀ (hd i).ne']
    simp
  · rw [← hdm, ← mulVec_mulVec]
    constructor
    · intro h0; rw [h0, mulVec_zero]
    · intro h0
      funext i
      have := congrFun h0 i
      rw [mulVec_diagonal, Pi.zero_apply] at this
      exact (mul_eq_zero.mp this).resolve_left (hd i).ne'

/-- **C56** the normalised affinity is symmetric with non-negative entries, fixes the vector of square roots of the degrees, and `I - W_norm` is the unnormalised Laplacian scaled by `D^(-1/2)` on both sides, hence positive semidefinite. -/
theorem c56_normalized_symmetric (W : Matrix (Fin n) (Fin n) ℝ) (h : IsAffinity W) (hd : ∀ i, 0 < degrees W i) :
    IsAffinity (normalizedSymmetricW W) ∧
    (normalizedSymmetricW W *ᵥ fun i => Real.sqrt (degrees W i)) = (fun i => Real.sqrt (degrees W i)) ∧
    (∀ x : Fin n → ℝ, x ⬝ᵥ (normalizedSymmetricW W *ᵥ x) ≤ x ⬝ᵥ x) := by
  have hp : ∀ i, (degrees W i) ^ (-(1 / 2) : ℝ) = (Real.sqrt (degrees W i))⁻¹ := by
    intro i; rw [Real.rpow_neg (hd i).le, ← Real.sqrt_eq_rpow]
  have hs : ∀ i, 0 < Real.sqrt (degrees W i) := fun i => Real.sqrt_pos.mpr (hd i)
  refine ⟨⟨fun i j => ?_, fun i j => ?_⟩, ?_, fun x => ?_⟩
  · simp only [normalizedSymmetricW, h.symm i j]; ring
  · simp only [normalizedSymmetricW, hp]
    exact mul_nonneg (mul_nonneg (inv_nonneg.mpr (hs i).le) (h.nonneg i j)) (inv_nonneg.mpr (hs j).le)
  · funext i
    simp only [mulVec, dotProduct, normalizedSymmetricW, hp]
    have e : ∀ j, (Real.sqrt (degrees W i))⁻¹ * W i j * (Real.sqrt (degrees W j))⁻¹ * Real.sqrt (degrees W j) = (Real.sqrt (degrees W i))⁻¹ * W i j := by
      intro j; rw [mul_assoc, inv_mul_cancel₀ (hs j).ne', mul_one]
    simp only [e, ← Finset.mul_sum, degrees_row h]
    rw [inv_mul_eq_div, div_eq_iff (hs i).ne', Real.mul_self_sqrt (hd i).le]
  · set u : Fin n → ℝ := fun i => (Real.sqrt (degrees W i))⁻¹ * x i with hu
    have h0 := (c56_unnormalized W h).2.2.2.1 u
    have e1 : u ⬝ᵥ (unnormalizedLaplacian W *ᵥ u) = x ⬝ᵥ x - x ⬝ᵥ (normalizedSymmetricW W *ᵥ x) := by
      simp only [unnormalizedLaplacian, Matrix.sub_mulVec, dotProduct_sub]
      congr 1
      · simp only [dotProduct, mulVec_diagonal, hu]
        refine Finset.sum_congr rfl fun i _ => ?_
        have : degrees W i = Real.sqrt (degrees W i) * Real.sqrt (degrees W i) := (Real.mul_self_sqrt (hd i).le).symm
        have hne := (hs i).ne'
        field_simp
        rw [Real.sq_sqrt (hd i).le]; ring
      · simp only [dotProduct, mulVec, normalizedSymmetricW, hp, Finset.mul_sum, hu]
        exact Finset.sum_congr rfl fun i _ => Finset.sum_congr rfl fun j _ => by ring
    linarith

theorem colSums_eq (W : Coo n) (j : Fin n) : W.colSums j = degrees W.dense j := by
  have key : ∀ l : List (Fin n × Fin n × ℝ), (l.map fun e => if e.2.1 = j then e.2.2 else 0).sum = ∑ i, (l.map fun e => if e.1 = i ∧ e.2.1 = j then e.2.2 else 0).sum := by
    intro l
    induction l with
    | nil => simp
    | cons e t ih =>
      simp only [List.map_cons, List.sum_cons, ih, Finset.sum_add_distrib]
      congr 1
      by_cases h : e.2.1 = j
      · simp [h]
      · simp [h]
  exact key W

/-- **C56** the sparse version of the normalised affinity agrees with the dense one, also when positions are repeated. -/
theorem c56_sparse (W : Coo n) : (normalizedSymmetricSparseW W).dense = normalizedSymmetricW W.dense := by
  ext i j
  have key : ∀ l : List (Fin n × Fin n × ℝ), (l.map fun e => if e.1 = i ∧ e.2.1 = j then e.2.2 * W.colSums e.1 ^ (-(1 / 2) : ℝ) * W.colSums e.2.1 ^ (-(1 / 2) : ℝ) else 0).sum =
      W.colSums i ^ (-(1 / 2) : ℝ) * (l.map fun e => if e.1 = i ∧ e.2.1 = j then e.2.2 else 0).sum * W.colSums j ^ (-(1 / 2) : ℝ) := by
    intro l
    induction l with
    | nil => simp
    | cons e t ih =>
      simp only [List.map_cons, List.sum_cons, ih]
      split_ifs with h
      · rw [h.1, h.2]; ring
      · ring
  rw [normalizedSymmetricW, ← colSums_eq, ← colSums_eq]
  refine Eq.trans ?_ (key W)
  simp only [Coo.dense, normalizedSymmetricSparseW, List.map_map]
  rfl

/-- A sparse matrix with a repeated position. -/
example : (Coo.dense [(0, 1, 1), (1, 0, 3), (0, 1, 2)] : Matrix (Fin 2) (Fin 2) ℝ) = !![0, 3; 3, 0] := by
  ext i j
  fin_cases i <;> fin_cases j <;> simp [Coo.dense] <;> norm_num

/-- A triangle graph meets the hypotheses. -/
example : IsAffinity (fun i j : Fin 3 => if i = j then (0 : ℝ) else 1) ∧ ∀ i, 0 < degrees (fun i j : Fin 3 => if i = j then (0 : ℝ) else 1) i := by
  refine ⟨⟨fun i j => ?_, fun i j => ?_⟩, fun i => ?_⟩
  · by_cases h : i = j
    · subst h; rfl
    · simp [h, Ne.symm h]
  · split_ifs <;> norm_num
  · fin_cases i <;> simp [degrees, Fin.sum_univ_three]

theorem triangle_affinity : IsAffinity (fun i j : Fin 3 => if i = j then (0 : ℝ) else 1) ∧ ∀ i, 0 < degrees (fun i j : Fin 3 => if i = j then (0 : ℝ) else 1) i := by
  refine ⟨⟨fun i j => ?_, fun i j => ?_⟩, fun i => ?_⟩
  · by_cases h : i = j
    · subst h; rfl
    · simp [h, Ne.symm h]
  · split_ifs <;> norm_num
  · fin_cases i <;> simp [degrees, Fin.sum_univ_three]

/-- The triangle. -/
example := c56_random_walk _ triangle_affinity.1 triangle_affinity.2

example := c56_normalized_symmetric _ triangle_affinity.1 triangle_affinity.2

end Verif.Cluster
