import Verif.Block.BsblRoot
import Mathlib.LinearAlgebra.Matrix.SchurComplement
import Mathlib.Analysis.Matrix.Spectrum
import Mathlib.Analysis.SpecialFunctions.Log.Basic

set_option autoImplicit false
/-!
# Helper lemmas for the evidence of sparse Bayesian learning (C131)
-/
noncomputable section
namespace Verif.Block
open Matrix

variable {m n : ℕ}

/-- The logarithm of the determinant lies below its tangents. -/
theorem logdet_le {k : ℕ} {P Q : Matrix (Fin k) (Fin k) ℝ} (hP : P.PosDef) (hQ : Q.PosDef) : Real.log Q.det ≤ Real.log P.det + (P⁻¹ * Q).trace - k := by
  obtain ⟨R, hR⟩ := posDef_factor (posDef_psd hP.inv)
  have hdet : P.det * (R.det * R.det) = 1 := by
    have : (P * P⁻¹).det = 1 := by rw [posDef_mul_inv hP, det_one]
    rwa [hR, det_mul, det_mul, det_transpose] at this
  have hRne : R.det ≠ 0 := by
    intro h0
    rw [h0, mul_zero, mul_zero] at hdet
    exact zero_ne_one hdet
  have hT : (R * Q * Rᵀ).PosDef := by
    refine posDef_iff.2 ⟨?_, fun v hv => ?_⟩
    · rw [transpose_mul, transpose_mul, transpose_transpose, (posDef_iff.1 hQ).1, Matrix.mul_assoc]
    · have hne : Rᵀ *ᵥ v ≠ 0 := by
        intro h0
        refine hv ?_
        have : Rᵀ.det ≠ 0 := by rwa [det_transpose]
        have e : Rᵀ⁻¹ *ᵥ (Rᵀ *ᵥ v) = v := by rw [mulVec_mulVec, nonsing_inv_mul _ (isUnit_iff_ne_zero.2 this), one_mulVec]
        rw [← e, h0, mulVec_zero]
      have := (posDef_iff.1 hQ).2 _ hne
      rwa [← mulVec_mulVec, ← mulVec_mulVec, ← trans_dot, ]
  have htr : (R * Q * Rᵀ).trace = (P⁻¹ * Q).trace := by
    rw [hR, Matrix.mul_assoc, trace_mul_comm, Matrix.mul_assoc, trace_mul_comm Q, ]
  have hd : (R * Q * Rᵀ).det = Q.det / P.det := by
    rw [det_mul, det_mul, det_transpose, eq_div_iff hP.det_pos.ne']
    linear_combination Q.det * hdet
  have hH : (R * Q * Rᵀ).IsHermitian := hT.1
  have h1 : Real.log (R * Q * Rᵀ).det = ∑ i, Real.log (hH.eigenvalues i) := by
    rw [hH.det_eq_prod_eigenvalues]
    simp only [RCLike.ofReal_real_eq_id, id_eq]
    exact Real.log_prod fun i _ => (hT.eigenvalues_pos i).ne'
  have h2 : (R * Q * Rᵀ).trace = ∑ i, hH.eigenvalues i := by
    rw [hH.trace_eq_sum_eigenvalues]
    simp
  have h3 : ∑ i, Real.log (hH.eigenvalues i) ≤ ∑ i, (hH.eigenvalues i - 1) := Finset.sum_le_sum fun i _ => Real.log_le_sub_one_of_pos (hT.eigenvalues_pos i)
  rw [← h1, Finset.sum_sub_distrib, ← h2, hd, Real.log_div hQ.det_pos.ne' hP.det_pos.ne', htr] at h3
  simp at h3
  linarith

/-- The covariance of the measurements for the prior variances `g` and the noise variance `l`. -/
def covY (A : Matrix (Fin m) (Fin n) ℝ) (g : Fin n → ℝ) (l : ℝ) : Matrix (Fin m) (Fin m) ℝ := A * diagonal g * Aᵀ + l • (1 : Matrix (Fin m) (Fin m) ℝ)

theorem covY_form (A : Matrix (Fin m) (Fin n) ℝ) (g : Fin n → ℝ) (l : ℝ) (v : Fin m → ℝ) :
    v ⬝ᵥ (covY A g l *ᵥ v) = (∑ i, g i * ((Aᵀ *ᵥ v) i) ^ 2) + l * (v ⬝ᵥ v) := by
  rw [covY, add_mulVec, dotProduct_add, smul_mulVec, one_mulVec, dotProduct_smul, smul_eq_mul, ← mulVec_mulVec, ← mulVec_mulVec, ← trans_dot]
  congr 1
  refine Finset.sum_congr rfl fun i _ => ?_
  rw [mulVec_diagonal]
  ring

theorem covY_symm (A : Matrix (Fin m) (Fin n) ℝ) (g : Fin n → ℝ) (l : ℝ) : (covY A g l)ᵀ = covY A g l := by
  rw [covY, transpose_add, transpose_smul, transpose_one, transpose_mul, transpose_mul, transpose_transpose, diagonal_transpose, Matrix.mul_assoc]

theorem covY_posDef (A : Matrix (Fin m) (Fin n) ℝ) {g : Fin n → ℝ} {l : ℝ} (hg : ∀ i, 0 ≤ g i) (hl : 0 < l) : (covY A g l).PosDef := by
  refine posDef_iff.2 ⟨covY_symm A g l, fun v hv => ?_⟩
  rw [covY_form]
  have := Finset.sum_nonneg fun i (_ : i ∈ Finset.univ) => mul_nonneg (hg i) (sq_nonneg ((Aᵀ *ᵥ v) i))
  have := mul_pos hl (dot_self_pos hv)
  linarith

/-- Specification (for scalar blocks): minus twice the logarithm of the density of `y`, up to a constant. -/
def evid (A : Matrix (Fin m) (Fin n) ℝ) (y : Fin m → ℝ) (g : Fin n → ℝ) (l : ℝ) : ℝ := Real.log (covY A g l).det + y ⬝ᵥ ((covY A g l)⁻¹ *ᵥ y)

/-- The quadratic part is at most the value of the regularised problem at any `x`. -/
theorem quad_le_obj (A : Matrix (Fin m) (Fin n) ℝ) (y : Fin m → ℝ) {g : Fin n → ℝ} {l : ℝ} (hg : ∀ i, 0 ≤ g i) (hl : 0 < l) (x : Fin n → ℝ) (hx : ∀ i, g i = 0 → x i = 0) :
    y ⬝ᵥ ((covY A g l)⁻¹ *ᵥ y) ≤ ((y - A *ᵥ x) ⬝ᵥ (y - A *ᵥ x)) / l + ∑ i, x i ^ 2 / g i := by
  set v := (covY A g l)⁻¹ *ᵥ y with hv
  have hC := covY_posDef A hg hl
  have hvy : covY A g l *ᵥ v = y := by rw [hv, mulVec_mulVec, posDef_mul_inv hC, one_mulVec]
  have e1 : y ⬝ᵥ v = 2 * (v ⬝ᵥ y) - v ⬝ᵥ (covY A g l *ᵥ v) := by rw [hvy, dotProduct_comm]; ring
  have e2 : v ⬝ᵥ y = v ⬝ᵥ (y - A *ᵥ x) + ∑ i, (Aᵀ *ᵥ v) i * x i := by
    rw [dotProduct_sub, ← trans_dot]
    simp only [dotProduct]
    ring
  rw [e1, covY_form, e2]
  have h1 : 2 * (v ⬝ᵥ (y - A *ᵥ x)) - l * (v ⬝ᵥ v) ≤ ((y - A *ᵥ x) ⬝ᵥ (y - A *ᵥ x)) / l := by
    rw [le_div_iff₀ hl]
    generalize y - A *ᵥ x = r
    have := dot_self_nonneg (r - l • v)
    rw [sub_dotProduct, dotProduct_sub, dotProduct_sub, smul_dotProduct, dotProduct_smul, smul_dotProduct, dotProduct_smul, smul_eq_mul, smul_eq_mul, smul_eq_mul, smul_eq_mul, dotProduct_comm r v] at this
    nlinarith
  have h2 : ∑ i, (2 * ((Aᵀ *ᵥ v) i * x i) - g i * ((Aᵀ *ᵥ v) i) ^ 2) ≤ ∑ i, x i ^ 2 / g i := by
    refine Finset.sum_le_sum fun i _ => ?_
    rcases (hg i).eq_or_lt with h0 | h0
    · rw [hx i h0.symm, ← h0]; simp
    · rw [le_div_iff₀ h0]
      nlinarith [sq_nonneg (x i - g i * (Aᵀ *ᵥ v) i)]
  rw [Finset.sum_sub_distrib, ← Finset.mul_sum] at h2
  linarith

/-- … with equality at the posterior mean. -/
theorem quad_eq_obj (A : Matrix (Fin m) (Fin n) ℝ) (y : Fin m → ℝ) {g : Fin n → ℝ} {l : ℝ} (hg : ∀ i, 0 ≤ g i) (hl : 0 < l) :
    let h := Aᵀ *ᵥ ((covY A g l)⁻¹ *ᵥ y)
    let x : Fin n → ℝ := fun i => g i * h i
    y ⬝ᵥ ((covY A g l)⁻¹ *ᵥ y) = ((y - A *ᵥ x) ⬝ᵥ (y - A *ᵥ x)) / l + ∑ i, x i ^ 2 / g i := by
  intro h x
  set v := (covY A g l)⁻¹ *ᵥ y with hv
  have hC := covY_posDef A hg hl
  have hvy : covY A g l *ᵥ v = y := by rw [hv, mulVec_mulVec, posDef_mul_inv hC, one_mulVec]
  have hx : x = diagonal g *ᵥ (Aᵀ *ᵥ v) := by
    funext i
    rw [mulVec_diagonal]
  have hr : y - A *ᵥ x = l • v := by
    rw [hx, mulVec_mulVec, mulVec_mulVec, sub_eq_iff_eq_add, ← hvy, covY, add_mulVec, smul_mulVec, one_mulVec, add_comm]
  have e : y ⬝ᵥ v = v ⬝ᵥ (covY A g l *ᵥ v) := by rw [hvy, dotProduct_comm]
  rw [e, covY_form, hr, smul_dotProduct, dotProduct_smul, smul_eq_mul, smul_eq_mul, mul_div_assoc, mul_div_assoc, mul_div_cancel₀ _ hl.ne', add_comm]
  congr 1
  refine Finset.sum_congr rfl fun i _ => ?_
  show g i * (Aᵀ *ᵥ v) i ^ 2 = (g i * (Aᵀ *ᵥ v) i) ^ 2 / g i
  rcases (hg i).eq_or_lt with h0 | h0
  · rw [← h0]; simp
  · rw [eq_div_iff h0.ne']; ring

/-- The leverage of column `i`. -/
def lev (A : Matrix (Fin m) (Fin n) ℝ) (g : Fin n → ℝ) (l : ℝ) (i : Fin n) : ℝ := (Aᵀ * (covY A g l)⁻¹ * A) i i

theorem lev_eq (A : Matrix (Fin m) (Fin n) ℝ) (g : Fin n → ℝ) (l : ℝ) (i : Fin n) : lev A g l i = (fun r => A r i) ⬝ᵥ ((covY A g l)⁻¹ *ᵥ fun r => A r i) := by
  rw [lev, Matrix.mul_assoc, Matrix.mul_apply]
  rfl

theorem lev_nonneg (A : Matrix (Fin m) (Fin n) ℝ) {g : Fin n → ℝ} {l : ℝ} (hg : ∀ i, 0 ≤ g i) (hl : 0 < l) (i : Fin n) : 0 ≤ lev A g l i := by
  rw [lev_eq]
  exact (posDef_psd (covY_posDef A hg hl).inv).2 _

/-- The column is zero when its leverage is. -/
theorem lev_zero (A : Matrix (Fin m) (Fin n) ℝ) {g : Fin n → ℝ} {l : ℝ} (hg : ∀ i, 0 ≤ g i) (hl : 0 < l) {i : Fin n} (h : lev A g l i = 0) (r : Fin m) : A r i = 0 := by
  by_contra hr
  have := (posDef_iff.1 (covY_posDef A hg hl).inv).2 (fun r => A r i) (fun h0 => hr (congrFun h0 r))
  rw [← lev_eq, h] at this
  exact lt_irrefl _ this

/-- The tangent bound for the determinant in terms of the variances. -/
theorem logdet_bo (A : Matrix (Fin m) (Fin n) ℝ) {g g' : Fin n → ℝ} {l : ℝ} (hg : ∀ i, 0 ≤ g i) (hg' : ∀ i, 0 ≤ g' i) (hl : 0 < l) :
    Real.log (covY A g' l).det ≤ Real.log (covY A g l).det + ∑ i, lev A g l i * (g' i - g i) := by
  have h := logdet_le (covY_posDef A hg hl) (covY_posDef A hg' hl)
  have e : covY A g' l = covY A g l + A * diagonal (fun i => g' i - g i) * Aᵀ := by
    have : diagonal (fun i => g' i - g i) = diagonal g' - diagonal g := by rw [diagonal_sub]
    rw [this, Matrix.mul_sub, Matrix.sub_mul, covY, covY]
    abel
  have e2 : ((covY A g l)⁻¹ * covY A g' l).trace = m + ∑ i, lev A g l i * (g' i - g i) := by
    rw [e, Matrix.mul_add, posDef_inv_mul (covY_posDef A hg hl), trace_add, trace_one, Fintype.card_fin]
    congr 1
    rw [← Matrix.mul_assoc, ← Matrix.mul_assoc, trace_mul_comm, ← Matrix.mul_assoc, ← Matrix.mul_assoc, Matrix.trace]
    refine Finset.sum_congr rfl fun i _ => ?_
    rw [diag_apply, mul_diagonal, lev]
  rw [e2] at h
  linarith

/-- **Bound optimisation.** The update never increases the evidence cost. -/
theorem evid_bo (A : Matrix (Fin m) (Fin n) ℝ) (y : Fin m → ℝ) {g g' : Fin n → ℝ} {l : ℝ} (hg : ∀ i, 0 ≤ g i) (hg' : ∀ i, 0 ≤ g' i) (hl : 0 < l)
    (h : ∀ i, lev A g l i ≠ 0 → g' i = g i * |(Aᵀ *ᵥ ((covY A g l)⁻¹ *ᵥ y)) i| / Real.sqrt (lev A g l i)) : evid A y g' l ≤ evid A y g l := by
  have h1 := logdet_bo A hg hg' hl
  have h2 := quad_eq_obj A y hg hl
  set hh := Aᵀ *ᵥ ((covY A g l)⁻¹ *ᵥ y) with hhe
  dsimp only at h2
  have hzero : ∀ i, lev A g l i = 0 → hh i = 0 := by
    intro i hi
    rw [hhe]
    show (fun r => A r i) ⬝ᵥ _ = 0
    have : (fun r => A r i) = 0 := funext fun r => lev_zero A hg hl hi r
    rw [this, zero_dotProduct]
  have h3 := quad_le_obj A y hg' hl (fun i => g i * hh i) (by
    intro i hi
    by_cases hu : lev A g l i = 0
    · show g i * hh i = 0
      rw [hzero i hu, mul_zero]
    · have hs : Real.sqrt (lev A g l i) ≠ 0 := (Real.sqrt_pos.2 (lt_of_le_of_ne (lev_nonneg A hg hl i) (Ne.symm hu))).ne'
      have e := h i hu
      rw [hi, eq_comm, div_eq_zero_iff, or_iff_left hs, mul_eq_zero, abs_eq_zero] at e
      show g i * hh i = 0
      rcases e with e | e <;> rw [e] <;> simp)
  unfold evid
  have h4 : ∀ i, lev A g l i * (g' i - g i) + (g i * hh i) ^ 2 / g' i ≤ (g i * hh i) ^ 2 / g i := by
    intro i
    by_cases hu : lev A g l i = 0
    · rw [hu, hzero i hu]; simp
    have hupos : 0 < lev A g l i := lt_of_le_of_ne (lev_nonneg A hg hl i) (Ne.symm hu)
    have hs := Real.sqrt_pos.2 hupos
    have hsq := Real.sq_sqrt hupos.le
    rw [h i hu]
    rcases (hg i).eq_or_lt with h0 | h0
    · rw [← h0]; simp
    by_cases hz : hh i = 0
    · rw [hz]; simp
      exact mul_nonneg hupos.le h0.le
    have hz' := abs_pos.2 hz
    set q := Real.sqrt (lev A g l i)
    have e1 : (g i * hh i) ^ 2 / (g i * |hh i| / q) = g i * |hh i| * q := by
      rw [div_div_eq_mul_div, div_eq_iff (mul_pos h0 hz').ne', mul_pow, ← sq_abs (hh i)]; ring
    have e2 : (g i * hh i) ^ 2 / g i = g i * |hh i| ^ 2 := by
      rw [div_eq_iff h0.ne', mul_pow, ← sq_abs (hh i)]; ring
    have e3 : lev A g l i * (g i * |hh i| / q - g i) = g i * |hh i| * q - q ^ 2 * g i := by
      rw [← hsq, mul_sub]
      congr 1
      field_simp
    rw [e1, e2, e3]
    nlinarith [mul_nonneg h0.le (sq_nonneg (q - |hh i|))]
  have h5 := Finset.sum_le_sum fun i (_ : i ∈ Finset.univ) => h4 i
  rw [Finset.sum_add_distrib] at h5
  linarith

theorem covY_scale (A : Matrix (Fin m) (Fin n) ℝ) {g t : Fin n → ℝ} (hg : ∀ i, 0 ≤ g i) (l : ℝ) :
    covY A (fun i => t i * g i) l = (A * diagonal fun i => Real.sqrt (g i)) * (diagonal t * (A * diagonal fun i => Real.sqrt (g i))ᵀ) + l • 1 := by
  rw [covY, transpose_mul, diagonal_transpose, Matrix.mul_assoc A (diagonal _) (diagonal t * _), ← Matrix.mul_assoc (diagonal t), ← Matrix.mul_assoc (diagonal _) (diagonal t * _),
    ← Matrix.mul_assoc (diagonal _) (diagonal t), diagonal_mul_diagonal, diagonal_mul_diagonal, ← Matrix.mul_assoc]
  congr 4
  funext i
  linear_combination -(t i) * Real.mul_self_sqrt (hg i)

theorem det_covY (A : Matrix (Fin m) (Fin n) ℝ) {g t : Fin n → ℝ} (hg : ∀ i, 0 ≤ g i) {l : ℝ} (hl : 0 < l) :
    (covY A (fun i => t i * g i) l).det = l ^ m *
      (1 + diagonal t * (l⁻¹ • ((A * diagonal fun i => Real.sqrt (g i))ᵀ * (A * diagonal fun i => Real.sqrt (g i))))).det := by
  rw [covY_scale A hg l]
  generalize A * diagonal (fun i => Real.sqrt (g i)) = K
  have : K * (diagonal t * Kᵀ) + l • (1 : Matrix (Fin m) (Fin m) ℝ) = l • (1 + K * (l⁻¹ • (diagonal t * Kᵀ))) := by
    rw [smul_add, Matrix.mul_smul, smul_smul, mul_inv_cancel₀ hl.ne', one_smul, add_comm]
  rw [this, det_smul, Fintype.card_fin, det_one_add_mul_comm, smul_mul, Matrix.mul_assoc, Matrix.mul_smul]

/-- The determinant bound of the expectation maximisation step. -/
theorem logdet_em (A : Matrix (Fin m) (Fin n) ℝ) {g t : Fin n → ℝ} {l : ℝ} (hg : ∀ i, 0 ≤ g i) (hl : 0 < l) (ht : ∀ i, 0 < t i) :
    (∀ i, g i * lev A g l i < 1) ∧
    Real.log (covY A (fun i => t i * g i) l).det ≤ Real.log (covY A g l).det + ∑ i, (Real.log (t i) + (1 - g i * lev A g l i) * ((t i)⁻¹ - 1)) := by
  obtain ⟨K, hK⟩ : ∃ K, K = A * diagonal (fun i => Real.sqrt (g i)) := ⟨_, rfl⟩
  obtain ⟨M, hM⟩ : ∃ M, M = l⁻¹ • (Kᵀ * K) := ⟨_, rfl⟩
  have hform : ∀ d : Fin n → ℝ, (∀ i, 0 < d i) → (diagonal d + M).PosDef := by
    intro d hd
    refine posDef_iff.2 ⟨?_, fun v hv => ?_⟩
    · rw [transpose_add, diagonal_transpose, hM, transpose_smul, transpose_mul, transpose_transpose]
    · rw [add_mulVec, dotProduct_add, hM, smul_mulVec, dotProduct_smul, smul_eq_mul, ← mulVec_mulVec, dotProduct_comm v (Kᵀ *ᵥ _), trans_dot]
      have h1 : 0 < v ⬝ᵥ (diagonal d *ᵥ v) := by
        obtain ⟨i, hi⟩ := Function.ne_iff.1 hv
        refine Finset.sum_pos' (fun j _ => ?_) ⟨i, Finset.mem_univ _, ?_⟩
        · rw [mulVec_diagonal]
          nlinarith [mul_nonneg (hd j).le (mul_self_nonneg (v j))]
        · rw [mulVec_diagonal]
          nlinarith [mul_pos (hd i) (mul_self_pos.2 hi)]
      have h2 := mul_nonneg (inv_pos.2 hl).le (dot_self_nonneg (K *ᵥ v))
      linarith
  have h1M : (1 + M).PosDef := by
    have := hform (fun _ => 1) fun _ => one_pos
    rwa [diagonal_one] at this
  have hCK : covY A g l = K * Kᵀ + l • 1 := by
    have := covY_scale A (t := fun _ => 1) hg l
    simpa only [one_mul, diagonal_one, Matrix.one_mul, ← hK] using this
  have hC := covY_posDef A hg hl
  have hinv : (1 + M)⁻¹ = 1 - Kᵀ * (covY A g l)⁻¹ * K := by
    refine inv_eq_right_inv ?_
    have e1 : M * Kᵀ = l⁻¹ • (Kᵀ * covY A g l) - Kᵀ := by
      rw [hCK, Matrix.mul_add, Matrix.mul_smul, Matrix.mul_one, smul_add, smul_smul, inv_mul_cancel₀ hl.ne', one_smul, add_sub_cancel_right, hM, smul_mul, Matrix.mul_assoc]
    have e2 : M * (Kᵀ * (covY A g l)⁻¹ * K) = M - Kᵀ * (covY A g l)⁻¹ * K := by
      rw [← Matrix.mul_assoc, ← Matrix.mul_assoc, e1, Matrix.sub_mul, Matrix.sub_mul, smul_mul, smul_mul, Matrix.mul_assoc Kᵀ _ (_⁻¹), posDef_mul_inv hC, Matrix.mul_one, ← hM]
    rw [Matrix.mul_sub, Matrix.mul_one, Matrix.add_mul, Matrix.one_mul, e2]
    abel
  have hdiag : ∀ i, (1 + M)⁻¹ i i = 1 - g i * lev A g l i := by
    intro i
    rw [hinv, Matrix.sub_apply, one_apply_eq, hK, transpose_mul, diagonal_transpose, Matrix.mul_assoc, Matrix.mul_assoc, diagonal_mul, ← Matrix.mul_assoc, ← Matrix.mul_assoc, mul_diagonal, lev]
    linear_combination -(Aᵀ * (covY A g l)⁻¹ * A) i i * Real.mul_self_sqrt (hg i)
  refine ⟨fun i => ?_, ?_⟩
  · have := posDef_diag h1M.inv i
    rw [hdiag] at this
    linarith
  · have hD := hform (fun i => (t i)⁻¹) fun i => inv_pos.2 (ht i)
    have e1 := det_covY A (t := t) hg hl
    have e0 := det_covY A (t := fun _ => 1) hg hl
    simp only [one_mul, diagonal_one, Matrix.one_mul] at e0
    rw [← hK, ← hM] at e1 e0
    have e2 : 1 + diagonal t * M = diagonal t * (diagonal (fun i => (t i)⁻¹) + M) := by
      rw [Matrix.mul_add, diagonal_mul_diagonal]
      congr 1
      rw [← diagonal_one]
      congr 1
      funext i
      exact (mul_inv_cancel₀ (ht i).ne').symm
    rw [e2, det_mul, det_diagonal] at e1
    have hp := Finset.prod_pos fun i (_ : i ∈ Finset.univ) => ht i
    have hlm := pow_pos hl m
    rw [e1, e0, Real.log_mul hlm.ne' (mul_pos hp hD.det_pos).ne', Real.log_mul hp.ne' hD.det_pos.ne', Real.log_mul hlm.ne' h1M.det_pos.ne', Real.log_prod fun i _ => (ht i).ne']
    have h3 := logdet_le h1M hD
    have e3 : ((1 + M)⁻¹ * (diagonal (fun i => (t i)⁻¹) + M)).trace = n + ∑ i, (1 - g i * lev A g l i) * ((t i)⁻¹ - 1) := by
      have : diagonal (fun i => (t i)⁻¹) + M = (1 + M) + diagonal (fun i => (t i)⁻¹ - 1) := by
        have : diagonal (fun i => (t i)⁻¹ - 1) = diagonal (fun i => (t i)⁻¹) - 1 := by rw [← diagonal_one, diagonal_sub]
        rw [this]
        abel
      rw [this, Matrix.mul_add, posDef_inv_mul h1M, trace_add, trace_one, Fintype.card_fin]
      congr 1
      refine Finset.sum_congr rfl fun i _ => ?_
      rw [diag_apply, mul_diagonal, hdiag]
    rw [e3] at h3
    rw [Finset.sum_add_distrib]
    linarith

/-- **Expectation maximisation.** The update never increases the evidence cost. -/
theorem evid_em (A : Matrix (Fin m) (Fin n) ℝ) (y : Fin m → ℝ) {g g' : Fin n → ℝ} {l : ℝ} (hg : ∀ i, 0 ≤ g i) (hl : 0 < l)
    (h : ∀ i, g' i = g i - g i * lev A g l i * g i + (g i * (Aᵀ *ᵥ ((covY A g l)⁻¹ *ᵥ y)) i) ^ 2) : (∀ i, 0 ≤ g' i) ∧ evid A y g' l ≤ evid A y g l := by
  set hh := Aᵀ *ᵥ ((covY A g l)⁻¹ *ᵥ y) with hhe
  have hlt := (logdet_em A hg hl (t := fun _ => 1) fun _ => one_pos).1
  set t : Fin n → ℝ := fun i => (1 - g i * lev A g l i) + g i * hh i ^ 2 with ht
  have htpos : ∀ i, 0 < t i := fun i => by
    have := hlt i
    have := mul_nonneg (hg i) (sq_nonneg (hh i))
    show 0 < (1 - g i * lev A g l i) + g i * hh i ^ 2
    linarith
  have hg'e : g' = fun i => t i * g i := by
    funext i
    rw [h i]
    show _ = ((1 - g i * lev A g l i) + g i * hh i ^ 2) * g i
    ring
  have hg' : ∀ i, 0 ≤ g' i := fun i => by
    rw [hg'e]
    exact mul_nonneg (htpos i).le (hg i)
  refine ⟨hg', ?_⟩
  have h1 := (logdet_em A hg hl htpos).2
  rw [← hg'e] at h1
  have h2 := quad_eq_obj A y hg hl
  dsimp only at h2
  rw [← hhe] at h2
  have h3 := quad_le_obj A y hg' hl (fun i => g i * hh i) (by
    intro i hi
    rw [hg'e] at hi
    have : g i = 0 := by
      rcases mul_eq_zero.1 hi with h0 | h0
      · exact absurd h0 (htpos i).ne'
      · exact h0
    show g i * hh i = 0
    rw [this, zero_mul])
  have h4 : ∀ i, (Real.log (t i) + (1 - g i * lev A g l i) * ((t i)⁻¹ - 1)) + (g i * hh i) ^ 2 / g' i ≤ (g i * hh i) ^ 2 / g i := by
    intro i
    have hti := htpos i
    have hlog := Real.log_le_sub_one_of_pos hti
    have e1 : (g i * hh i) ^ 2 / g i = g i * hh i ^ 2 := by
      rcases (hg i).eq_or_lt with h0 | h0
      · rw [← h0]; simp
      · rw [div_eq_iff h0.ne']; ring
    have e2 : (g i * hh i) ^ 2 / g' i = g i * hh i ^ 2 * (t i)⁻¹ := by
      rw [hg'e]
      show (g i * hh i) ^ 2 / (t i * g i) = _
      rw [mul_comm (t i), ← div_div, e1, div_eq_mul_inv]
    rw [e1, e2]
    have e3 : (1 - g i * lev A g l i) = t i - g i * hh i ^ 2 := by
      show _ = ((1 - g i * lev A g l i) + g i * hh i ^ 2) - _
      ring
    rw [e3]
    have e4 : t i * (t i)⁻¹ = 1 := mul_inv_cancel₀ hti.ne'
    nlinarith
  have h5 := Finset.sum_le_sum fun i (_ : i ∈ Finset.univ) => h4 i
  rw [Finset.sum_add_distrib] at h5
  unfold evid
  linarith

end Verif.Block
