import Verif.Block.BsblModel
import Mathlib.LinearAlgebra.Matrix.PosDef
import Mathlib.LinearAlgebra.Matrix.ToLinearEquiv
import Mathlib.Analysis.Matrix.PosDef
import Mathlib.Analysis.Matrix.Order

set_option autoImplicit false
/-!
# Block sparse Bayesian learning: lemmas
-/
noncomputable section
namespace Verif.Block
open Verif.Loop Matrix

variable {m nb b : ℕ}

theorem osum_some {M : Type*} [AddCommMonoid M] {f : Fin nb → Option M} {g : Fin nb → M} (h : ∀ i, f i = some (g i)) : osum f = some (∑ i, g i) := by
  have h' : ∀ i, (f i).isSome := fun i => by rw [h i]; rfl
  unfold osum
  rw [dif_pos h']
  congr 1
  exact Finset.sum_congr rfl fun i _ => by simp [h i]

theorem osum_none {M : Type*} [AddCommMonoid M] {f : Fin nb → Option M} {i : Fin nb} (h : f i = none) : osum f = none := by
  unfold osum
  rw [dif_neg]
  intro h'
  have := h' i
  rw [h] at this
  exact absurd this (by simp)

theorem gather_some {α : Type*} {f : Fin nb → Option α} {g : Fin nb → α} (h : ∀ i, f i = some (g i)) : gather f = some g := by
  have h' : ∀ i, (f i).isSome := fun i => by rw [h i]; rfl
  unfold gather
  rw [dif_pos h']
  congr 1
  funext i
  simp [h i]

theorem gather_none {α : Type*} {f : Fin nb → Option α} {i : Fin nb} (h : f i = none) : gather f = none := by
  unfold gather
  rw [dif_neg]
  intro h'
  have := h' i
  rw [h] at this
  exact absurd this (by simp)

theorem gather_eq_some {α : Type*} {f : Fin nb → Option α} {g : Fin nb → α} (h : gather f = some g) (i : Fin nb) : f i = some (g i) := by
  unfold gather at h
  split at h
  · rw [Option.some.injEq] at h
    rw [← h]
    simp
  · exact absurd h (by simp)

/-! ## Blocks -/

theorem getSubdicts_apply (Phi : Matrix (Fin m) (Fin (nb * b)) ℝ) (i : Fin nb) (r : Fin m) (c : Fin b) :
    getSubdicts Phi i r c = Phi r (finProdFinEquiv (i, c)) := by
  show flatten2 (fun k r => Phi r k) (finProdFinEquiv (finProdFinEquiv (i, c), r)) = _
  rw [flatten2, Equiv.symm_apply_apply]

theorem sum_blocks {M : Type*} [AddCommMonoid M] (f : Fin (nb * b) → M) : ∑ k, f k = ∑ i : Fin nb, ∑ j : Fin b, f (finProdFinEquiv (i, j)) := by
  rw [← finProdFinEquiv.sum_comp, Fintype.sum_prod_type]

theorem flatten2_apply {p q : ℕ} (A : Fin p → Fin q → ℝ) (i : Fin p) (j : Fin q) : flatten2 A (finProdFinEquiv (i, j)) = A i j := by
  rw [flatten2, Equiv.symm_apply_apply]

theorem reshape2_flatten2 {p q : ℕ} (A : Fin p → Fin q → ℝ) : reshape2 (flatten2 A) = A := by
  funext i j
  exact flatten2_apply A i j

theorem flatten2_reshape2 {p q : ℕ} (x : Fin (p * q) → ℝ) : flatten2 (reshape2 x) = x := by
  funext k
  show x (finProdFinEquiv (finProdFinEquiv.symm k)) = x k
  rw [Equiv.apply_symm_apply]

theorem mulVec_blocks (Phi : Matrix (Fin m) (Fin (nb * b)) ℝ) (x : Fin (nb * b) → ℝ) :
    Phi *ᵥ x = ∑ i, getSubdicts Phi i *ᵥ reshape2 x i := by
  funext r
  rw [Finset.sum_apply]
  show ∑ k, Phi r k * x k = ∑ i, ∑ j, getSubdicts Phi i r j * reshape2 x i j
  rw [sum_blocks]
  exact Finset.sum_congr rfl fun i _ => Finset.sum_congr rfl fun j _ => by rw [getSubdicts_apply]; rfl

/-! ## The regularised Gram matrix -/

/-- The quadratic form of a symmetric matrix. -/
def Psd {k : ℕ} (S : Matrix (Fin k) (Fin k) ℝ) : Prop := Sᵀ = S ∧ ∀ v, 0 ≤ v ⬝ᵥ (S *ᵥ v)

theorem psd_zero {k : ℕ} : Psd (0 : Matrix (Fin k) (Fin k) ℝ) := ⟨transpose_zero, fun v => by simp⟩

theorem posDef_iff {k : ℕ} {S : Matrix (Fin k) (Fin k) ℝ} : S.PosDef ↔ Sᵀ = S ∧ ∀ v, v ≠ 0 → 0 < v ⬝ᵥ (S *ᵥ v) := by
  rw [Matrix.posDef_iff_dotProduct_mulVec]
  refine ⟨fun h => ⟨?_, fun v hv => ?_⟩, fun h => ⟨?_, fun {v} hv => ?_⟩⟩
  · have := h.1
    rwa [IsHermitian, conjTranspose_eq_transpose_of_trivial] at this
  · simpa using h.2 hv
  · rw [IsHermitian, conjTranspose_eq_transpose_of_trivial]
    exact h.1
  · simpa using h.2 v hv

theorem posDef_psd {k : ℕ} {S : Matrix (Fin k) (Fin k) ℝ} (h : S.PosDef) : Psd S := by
  have h := posDef_iff.mp h
  refine ⟨h.1, fun v => ?_⟩
  by_cases hv : v = 0
  · rw [hv, zero_dotProduct]
  · exact (h.2 v hv).le

/-- Symmetric matrices move across the dot product. -/
theorem symm_dot {k : ℕ} {S : Matrix (Fin k) (Fin k) ℝ} (h : Sᵀ = S) (u v : Fin k → ℝ) : (S *ᵥ u) ⬝ᵥ v = u ⬝ᵥ (S *ᵥ v) := by
  rw [dotProduct_mulVec, ← mulVec_transpose, h]

theorem trans_dot {k l : ℕ} (D : Matrix (Fin k) (Fin l) ℝ) (u : Fin k → ℝ) (v : Fin l → ℝ) : (Dᵀ *ᵥ u) ⬝ᵥ v = u ⬝ᵥ (D *ᵥ v) := by
  rw [dotProduct_mulVec, ← mulVec_transpose]

/-- `Σ_i D_i S_i D_iᵀ + lam I`. -/
def regGram (D : Fin nb → Matrix (Fin m) (Fin b) ℝ) (S : Fin nb → Matrix (Fin b) (Fin b) ℝ) (lam : ℝ) : Matrix (Fin m) (Fin m) ℝ :=
  (∑ i, D i * S i * (D i)ᵀ) + lam • (1 : Matrix (Fin m) (Fin m) ℝ)

section
variable {D : Fin nb → Matrix (Fin m) (Fin b) ℝ} {S : Fin nb → Matrix (Fin b) (Fin b) ℝ} {lam : ℝ}

theorem regGram_mulVec (D : Fin nb → Matrix (Fin m) (Fin b) ℝ) (S : Fin nb → Matrix (Fin b) (Fin b) ℝ) (lam : ℝ) (v : Fin m → ℝ) :
    regGram D S lam *ᵥ v = (∑ i, D i *ᵥ (S i *ᵥ ((D i)ᵀ *ᵥ v))) + lam • v := by
  rw [regGram, add_mulVec, smul_mulVec, one_mulVec, sum_mulVec]
  congr 1
  exact Finset.sum_congr rfl fun i _ => by rw [← mulVec_mulVec, ← mulVec_mulVec]

theorem regGram_symm (hS : ∀ i, Psd (S i)) : (regGram D S lam)ᵀ = regGram D S lam := by
  rw [regGram, transpose_add, transpose_smul, transpose_one, transpose_sum]
  congr 1
  exact Finset.sum_congr rfl fun i _ => by rw [transpose_mul, transpose_mul, transpose_transpose, (hS i).1, Matrix.mul_assoc]

theorem regGram_form (v : Fin m → ℝ) :
    v ⬝ᵥ (regGram D S lam *ᵥ v) = (∑ i, ((D i)ᵀ *ᵥ v) ⬝ᵥ (S i *ᵥ ((D i)ᵀ *ᵥ v))) + lam * (v ⬝ᵥ v) := by
  rw [regGram_mulVec, dotProduct_add, dotProduct_smul, smul_eq_mul, dotProduct_sum]
  congr 1
  exact Finset.sum_congr rfl fun i _ => by rw [trans_dot]

theorem dot_self_nonneg {k : ℕ} (v : Fin k → ℝ) : 0 ≤ v ⬝ᵥ v := Finset.sum_nonneg fun i _ => mul_self_nonneg _

theorem dot_self_pos {k : ℕ} {v : Fin k → ℝ} (h : v ≠ 0) : 0 < v ⬝ᵥ v :=
  lt_of_le_of_ne (dot_self_nonneg v) fun h1 => h (dotProduct_self_eq_zero.mp h1.symm)

theorem regGram_posDef (hS : ∀ i, Psd (S i)) (hl : 0 < lam) : (regGram D S lam).PosDef := by
  refine posDef_iff.mpr ⟨regGram_symm hS, fun v hv => ?_⟩
  rw [regGram_form]
  have := Finset.sum_nonneg fun i (_ : i ∈ Finset.univ) => (hS i).2 ((D i)ᵀ *ᵥ v)
  have := mul_pos hl (dot_self_pos hv)
  linarith

theorem posDef_det {k : ℕ} {S : Matrix (Fin k) (Fin k) ℝ} (h : S.PosDef) : S.det ≠ 0 := (Matrix.PosDef.det_pos h).ne'

theorem posDef_mul_inv {k : ℕ} {S : Matrix (Fin k) (Fin k) ℝ} (h : S.PosDef) : S * S⁻¹ = 1 := Matrix.mul_nonsing_inv _ (isUnit_iff_ne_zero.mpr (posDef_det h))

theorem posDef_inv_mul {k : ℕ} {S : Matrix (Fin k) (Fin k) ℝ} (h : S.PosDef) : S⁻¹ * S = 1 := Matrix.nonsing_inv_mul _ (isUnit_iff_ne_zero.mpr (posDef_det h))

theorem minv_posDef {k : ℕ} {S : Matrix (Fin k) (Fin k) ℝ} (h : S.PosDef) : minv S = some S⁻¹ := if_pos (posDef_det h)

end

/-! ## The posterior -/

section
variable {D : Fin nb → Matrix (Fin m) (Fin b) ℝ} {S : Fin nb → Matrix (Fin b) (Fin b) ℝ} {lam : ℝ}

/-- Completing the square: the quadratic form of the posterior covariance of one block. -/
theorem sigma_form (hS : ∀ i, Psd (S i)) (hl : 0 < lam) (i : Fin nb) (u : Fin b → ℝ) (w : Fin m → ℝ)
    (hw : w = (regGram D S lam)⁻¹ *ᵥ (D i *ᵥ (S i *ᵥ u))) :
    u ⬝ᵥ ((S i - S i * ((D i)ᵀ * (regGram D S lam)⁻¹ * D i) * S i) *ᵥ u) =
      (∑ k, (Pi.single (M := fun _ => Fin b → ℝ) i u k - (D k)ᵀ *ᵥ w) ⬝ᵥ (S k *ᵥ (Pi.single (M := fun _ => Fin b → ℝ) i u k - (D k)ᵀ *ᵥ w))) + lam * (w ⬝ᵥ w) := by
  have hA := regGram_posDef (D := D) hS hl
  have hAw : regGram D S lam *ᵥ w = D i *ᵥ (S i *ᵥ u) := by
    rw [hw, mulVec_mulVec, posDef_mul_inv hA, one_mulVec]
  have h1 : u ⬝ᵥ ((S i - S i * ((D i)ᵀ * (regGram D S lam)⁻¹ * D i) * S i) *ᵥ u) = u ⬝ᵥ (S i *ᵥ u) - (D i *ᵥ (S i *ᵥ u)) ⬝ᵥ w := by
    rw [sub_mulVec, dotProduct_sub, ← mulVec_mulVec, ← mulVec_mulVec, ← mulVec_mulVec, ← mulVec_mulVec, ← hw, ← symm_dot (hS i).1 u ((D i)ᵀ *ᵥ w),
      dotProduct_comm _ ((D i)ᵀ *ᵥ w), trans_dot, dotProduct_comm w]
  have h2 : (D i *ᵥ (S i *ᵥ u)) ⬝ᵥ w = (∑ k, ((D k)ᵀ *ᵥ w) ⬝ᵥ (S k *ᵥ ((D k)ᵀ *ᵥ w))) + lam * (w ⬝ᵥ w) := by
    rw [← hAw, dotProduct_comm, regGram_form]
  have h3 : ∑ k, (Pi.single (M := fun _ => Fin b → ℝ) i u k - (D k)ᵀ *ᵥ w) ⬝ᵥ (S k *ᵥ (Pi.single (M := fun _ => Fin b → ℝ) i u k - (D k)ᵀ *ᵥ w)) =
      u ⬝ᵥ (S i *ᵥ u) - 2 * ((D i *ᵥ (S i *ᵥ u)) ⬝ᵥ w) + ∑ k, ((D k)ᵀ *ᵥ w) ⬝ᵥ (S k *ᵥ ((D k)ᵀ *ᵥ w)) := by
    have e : ∀ k, (Pi.single (M := fun _ => Fin b → ℝ) i u k - (D k)ᵀ *ᵥ w) ⬝ᵥ (S k *ᵥ (Pi.single (M := fun _ => Fin b → ℝ) i u k - (D k)ᵀ *ᵥ w)) =
        (if k = i then u ⬝ᵥ (S i *ᵥ u) - 2 * ((D i *ᵥ (S i *ᵥ u)) ⬝ᵥ w) else 0) + ((D k)ᵀ *ᵥ w) ⬝ᵥ (S k *ᵥ ((D k)ᵀ *ᵥ w)) := fun k => by
      rw [mulVec_sub, sub_dotProduct, dotProduct_sub, dotProduct_sub]
      by_cases hk : k = i
      · subst hk
        rw [if_pos rfl, Pi.single_eq_same]
        have e1 := trans_dot (D k) w (S k *ᵥ u)
        have e2 := dotProduct_comm (D k *ᵥ (S k *ᵥ u)) w
        have e3 := symm_dot (hS k).1 u ((D k)ᵀ *ᵥ w)
        have e4 := dotProduct_comm (S k *ᵥ u) ((D k)ᵀ *ᵥ w)
        linarith
      · rw [if_neg hk, Pi.single_eq_of_ne hk, mulVec_zero]
        simp
    rw [Finset.sum_congr rfl fun k _ => e k, Finset.sum_add_distrib, Finset.sum_ite_eq' Finset.univ i, if_pos (Finset.mem_univ i)]
  rw [h1, h3]
  linarith

theorem sigma_symm (hS : ∀ i, Psd (S i)) (i : Fin nb) :
    (S i - S i * ((D i)ᵀ * (regGram D S lam)⁻¹ * D i) * S i)ᵀ = S i - S i * ((D i)ᵀ * (regGram D S lam)⁻¹ * D i) * S i := by
  rw [transpose_sub, transpose_mul, transpose_mul, transpose_mul, transpose_mul, transpose_transpose, transpose_nonsing_inv, regGram_symm hS, (hS i).1]
  simp only [Matrix.mul_assoc]

/-- The posterior covariance of a block is positive semidefinite, and positive definite when the prior covariance is. -/
theorem sigma_psd (hS : ∀ i, Psd (S i)) (hl : 0 < lam) (i : Fin nb) : Psd (S i - S i * ((D i)ᵀ * (regGram D S lam)⁻¹ * D i) * S i) := by
  refine ⟨sigma_symm hS i, fun u => ?_⟩
  rw [sigma_form hS hl i u _ rfl]
  exact add_nonneg (Finset.sum_nonneg fun k _ => (hS k).2 _) (mul_nonneg hl.le (dot_self_nonneg _))

theorem sigma_posDef (hS : ∀ i, Psd (S i)) (hl : 0 < lam) (i : Fin nb) (hi : (S i).PosDef) :
    (S i - S i * ((D i)ᵀ * (regGram D S lam)⁻¹ * D i) * S i).PosDef := by
  refine posDef_iff.mpr ⟨sigma_symm hS i, fun u hu => ?_⟩
  rw [sigma_form hS hl i u _ rfl]
  set w := (regGram D S lam)⁻¹ *ᵥ (D i *ᵥ (S i *ᵥ u)) with hw
  have h1 : ∀ k ∈ Finset.univ, 0 ≤ (Pi.single (M := fun _ => Fin b → ℝ) i u k - (D k)ᵀ *ᵥ w) ⬝ᵥ (S k *ᵥ (Pi.single (M := fun _ => Fin b → ℝ) i u k - (D k)ᵀ *ᵥ w)) :=
    fun k _ => (hS k).2 _
  by_cases h0 : w = 0
  · have := Finset.sum_pos' h1 ⟨i, Finset.mem_univ i, by
      rw [Pi.single_eq_same, h0, mulVec_zero, sub_zero]
      exact (posDef_iff.mp hi).2 u hu⟩
    have := mul_nonneg hl.le (dot_self_nonneg w)
    linarith
  · have := Finset.sum_nonneg h1
    have := mul_pos hl (dot_self_pos h0)
    linarith

end

/-! ## The correlation matrix -/

theorem ar_sum (r : ℝ) (p : ℕ) : ∑ k ∈ Finset.range (p + 1), (if k = 0 then 1 else 1 - r ^ 2) * (r ^ (p - k) * r ^ (p - k)) = 1 := by
  induction p with
  | zero => simp
  | succ p ih =>
    rw [Finset.sum_range_succ, if_neg (Nat.succ_ne_zero p), Nat.sub_self]
    have e : ∀ k ∈ Finset.range (p + 1), (if k = 0 then (1 : ℝ) else 1 - r ^ 2) * (r ^ (p + 1 - k) * r ^ (p + 1 - k)) =
        r ^ 2 * ((if k = 0 then 1 else 1 - r ^ 2) * (r ^ (p - k) * r ^ (p - k))) := fun k hk => by
      rw [Nat.succ_sub (Nat.lt_succ_iff.mp (Finset.mem_range.mp hk)), Nat.succ_eq_add_one, pow_succ]
      ring
    rw [Finset.sum_congr rfl e, ← Finset.mul_sum, ih]
    ring

/-- The lower triangular factor. -/
def arL (b : ℕ) (r : ℝ) : Matrix (Fin b) (Fin b) ℝ := Matrix.of fun i k => if (k : ℕ) ≤ i then r ^ ((i : ℕ) - k) else 0

def arD (b : ℕ) (r : ℝ) : Fin b → ℝ := fun k => if (k : ℕ) = 0 then 1 else 1 - r ^ 2

theorem ar_entry (r : ℝ) (p q : ℕ) (hpq : p ≤ q) :
    ∑ k ∈ Finset.range (p + 1), (if k = 0 then 1 else 1 - r ^ 2) * (r ^ (p - k) * r ^ (q - k)) = r ^ (q - p) := by
  have e : ∀ k ∈ Finset.range (p + 1), (if k = 0 then (1 : ℝ) else 1 - r ^ 2) * (r ^ (p - k) * r ^ (q - k)) =
      r ^ (q - p) * ((if k = 0 then 1 else 1 - r ^ 2) * (r ^ (p - k) * r ^ (p - k))) := fun k hk => by
    have hk := Nat.lt_succ_iff.mp (Finset.mem_range.mp hk)
    have : q - k = (q - p) + (p - k) := by omega
    rw [this, pow_add]
    ring
  rw [Finset.sum_congr rfl e, ← Finset.mul_sum, ar_sum, mul_one]

theorem ar_factor (r : ℝ) (i j : Fin b) : arMat b r i j = ∑ k, arD b r k * (arL b r i k * arL b r j k) := by
  show r ^ (max (i : ℕ) j - min (i : ℕ) j) = _
  rw [← ar_entry r (min (i : ℕ) j) (max (i : ℕ) j) min_le_max]
  have e : ∀ k : Fin b, arD b r k * (arL b r i k * arL b r j k) =
      (fun k : ℕ => if k ≤ min (i : ℕ) j then (if k = 0 then 1 else 1 - r ^ 2) * (r ^ (min (i : ℕ) j - k) * r ^ (max (i : ℕ) j - k)) else 0) (k : ℕ) := fun k => by
    show (if (k : ℕ) = 0 then (1 : ℝ) else 1 - r ^ 2) * ((if (k : ℕ) ≤ i then r ^ ((i : ℕ) - k) else 0) * (if (k : ℕ) ≤ j then r ^ ((j : ℕ) - k) else 0)) = _
    by_cases h : (k : ℕ) ≤ min (i : ℕ) j
    · have h1 := h.trans (min_le_left _ _)
      have h2 := h.trans (min_le_right _ _)
      simp only [if_pos h1, if_pos h2, if_pos h]
      rcases le_total (i : ℕ) j with h3 | h3
      · rw [min_eq_left h3, max_eq_right h3]
      · rw [min_eq_right h3, max_eq_left h3, mul_comm (r ^ ((i : ℕ) - k))]
    · simp only [if_neg h]
      rcases not_and_or.mp (fun h' : (k : ℕ) ≤ i ∧ (k : ℕ) ≤ j => h (le_min h'.1 h'.2)) with h1 | h1
      · rw [if_neg h1, zero_mul, mul_zero]
      · rw [if_neg h1, mul_zero, mul_zero]
  rw [Finset.sum_congr rfl fun k _ => e k, Fin.sum_univ_eq_sum_range (fun k : ℕ => if k ≤ min (i : ℕ) j then
    (if k = 0 then 1 else 1 - r ^ 2) * (r ^ (min (i : ℕ) j - k) * r ^ (max (i : ℕ) j - k)) else 0) b, ← Finset.sum_filter]
  refine Finset.sum_congr ?_ fun _ _ => rfl
  ext k
  simp only [Finset.mem_range, Finset.mem_filter]
  have := i.isLt
  omega

theorem arMat_form (r : ℝ) (v : Fin b → ℝ) : v ⬝ᵥ (arMat b r *ᵥ v) = ∑ k, arD b r k * (∑ i, arL b r i k * v i) ^ 2 := by
  show ∑ i, v i * ∑ j, arMat b r i j * v j = _
  simp only [ar_factor, Finset.sum_mul, Finset.mul_sum, sq, Finset.sum_mul_sum]
  rw [Finset.sum_congr rfl fun i _ => Finset.sum_comm, Finset.sum_comm]
  exact Finset.sum_congr rfl fun k _ => Finset.sum_congr rfl fun i _ => Finset.sum_congr rfl fun j _ => by ring

theorem arMat_posDef {r : ℝ} (h : r ^ 2 < 1) : (arMat b r).PosDef := by
  refine posDef_iff.mpr ⟨?_, fun v hv => ?_⟩
  · ext i j
    show r ^ _ = r ^ _
    rw [max_comm, min_comm]
  · rw [arMat_form]
    have hD : ∀ k, 0 < arD b r k := fun k => by
      unfold arD
      split
      · exact one_pos
      · linarith
    have hne : (Finset.univ.filter fun i => v i ≠ 0).Nonempty := by
      obtain ⟨i, hi⟩ := Function.ne_iff.mp hv
      exact ⟨i, by simpa using hi⟩
    set t := (Finset.univ.filter fun i => v i ≠ 0).max' hne with ht
    have htm : v t ≠ 0 := (Finset.mem_filter.mp (Finset.max'_mem _ hne)).2
    have hgt : ∀ i, t < i → v i = 0 := fun i hi => by
      by_contra h'
      exact absurd (Finset.le_max' _ i (by simpa using h')) (not_le.mpr hi)
    refine Finset.sum_pos' (fun k _ => mul_nonneg (hD k).le (sq_nonneg _)) ⟨t, Finset.mem_univ t, mul_pos (hD t) ?_⟩
    have e : ∑ i, arL b r i t * v i = v t := by
      rw [Finset.sum_eq_single t]
      · show (if (t : ℕ) ≤ t then r ^ ((t : ℕ) - t) else 0) * v t = v t
        rw [if_pos le_rfl, Nat.sub_self, pow_zero, one_mul]
      · intro i _ hi
        rcases lt_or_gt_of_ne hi with h1 | h1
        · show (if (t : ℕ) ≤ i then r ^ ((i : ℕ) - t) else 0) * v i = 0
          rw [if_neg (not_le.mpr (Fin.lt_def.mp h1)), zero_mul]
        · rw [hgt i h1, mul_zero]
      · intro h'
        exact absurd (Finset.mem_univ t) h'
    rw [e]
    positivity

open scoped MatrixOrder in
theorem posDef_factor {k : ℕ} {A : Matrix (Fin k) (Fin k) ℝ} (h : Psd A) : ∃ R : Matrix (Fin k) (Fin k) ℝ, A = Rᵀ * R := by
  have h' : A.PosSemidef := by
    refine Matrix.PosSemidef.of_dotProduct_mulVec_nonneg ?_ fun v => ?_
    · rw [IsHermitian, conjTranspose_eq_transpose_of_trivial]
      exact h.1
    · simpa using h.2 v
  obtain ⟨R, hR⟩ := CStarAlgebra.nonneg_iff_eq_star_mul_self.mp h'.nonneg
  refine ⟨R, ?_⟩
  rw [hR, star_eq_conjTranspose, conjTranspose_eq_transpose_of_trivial]

/-- The trace of a product of two positive semidefinite matrices is nonnegative. -/
theorem trace_mul_nonneg {k : ℕ} {A C : Matrix (Fin k) (Fin k) ℝ} (hA : Psd A) (hC : Psd C) : 0 ≤ (A * C).trace := by
  obtain ⟨R, rfl⟩ := posDef_factor hA
  rw [Matrix.mul_assoc, trace_mul_comm, Matrix.mul_assoc]
  refine Finset.sum_nonneg fun i _ => ?_
  have : (R * (C * Rᵀ)).diag i = (R i) ⬝ᵥ (C *ᵥ (R i)) := rfl
  rw [this]
  exact hC.2 _

/-! ## One iteration -/

theorem active_true {prune : ℝ} {gammas : Fin nb → Option ℝ} {i : Fin nb} : activeBlocks prune gammas i = true ↔ ∃ g, gammas i = some g ∧ prune < g := by
  unfold activeBlocks
  cases h : gammas i with
  | none => simp
  | some g => simp

/-- The states from which an iteration is well defined. -/
structure Valid (opt : BsblOptions) (s : BsblState m nb b) : Prop where
  lam : ∃ l, s.lam = some l ∧ 0 < l
  prior : ∀ i g, s.gammas i = some g → opt.pruneGamma < g → ∃ S, s.sigma0 i = some S ∧ S.PosDef

/-- The prior covariances in effect: those of the active blocks, zero elsewhere. -/
structure Prior (opt : BsblOptions) (s : BsblState m nb b) (S : Fin nb → Matrix (Fin b) (Fin b) ℝ) (l : ℝ) : Prop where
  lam : s.lam = some l
  pos : 0 < l
  active : ∀ i, activeBlocks opt.pruneGamma s.gammas i = true → s.sigma0 i = some (S i) ∧ (S i).PosDef
  inactive : ∀ i, activeBlocks opt.pruneGamma s.gammas i = false → S i = 0

theorem Valid.exists_prior {opt : BsblOptions} {s : BsblState m nb b} (h : Valid opt s) : ∃ S l, Prior opt s S l := by
  obtain ⟨l, hl, hl0⟩ := h.lam
  have : ∀ i, ∃ S : Matrix (Fin b) (Fin b) ℝ, (activeBlocks opt.pruneGamma s.gammas i = true → s.sigma0 i = some S ∧ S.PosDef) ∧
      (activeBlocks opt.pruneGamma s.gammas i = false → S = 0) := fun i => by
    cases ha : activeBlocks opt.pruneGamma s.gammas i with
    | false => exact ⟨0, fun h => absurd h (by simp), fun _ => rfl⟩
    | true =>
      obtain ⟨g, hg, hp⟩ := active_true.mp ha
      obtain ⟨S, h1, h2⟩ := h.prior i g hg hp
      exact ⟨S, fun _ => ⟨h1, h2⟩, fun h => absurd h (by simp)⟩
  choose S hS using this
  exact ⟨S, l, hl, hl0, fun i => (hS i).1, fun i => (hS i).2⟩

section
variable {Phi : Matrix (Fin m) (Fin (nb * b)) ℝ} {y : Fin m → ℝ} {opt : BsblOptions} {s : BsblState m nb b}
  {S : Fin nb → Matrix (Fin b) (Fin b) ℝ} {l : ℝ}

theorem Prior.psd (h : Prior opt s S l) (i : Fin nb) : Psd (S i) := by
  cases ha : activeBlocks opt.pruneGamma s.gammas i with
  | false => rw [h.inactive i ha]; exact psd_zero
  | true => exact posDef_psd (h.active i ha).2

theorem computeH_eq {P : Matrix (Fin m) (Fin m) ℝ} (Phi : Matrix (Fin m) (Fin (nb * b)) ℝ) (hA : (P + l • (1 : Matrix (Fin m) (Fin m) ℝ)).PosDef) :
    computeH Phi P l = some (((P + l • (1 : Matrix (Fin m) (Fin m) ℝ))⁻¹ * Phi)ᵀ) := by
  rw [computeH, minv_posDef hA, Option.map_some]

theorem stepH_eq (h : Prior opt s S l) : stepH Phi opt s = some (((regGram (getSubdicts Phi) S l)⁻¹ * Phi)ᵀ) := by
  have h1 : cumPhiBPhiPruned (getSubdicts Phi) s.sigma0 (activeBlocks opt.pruneGamma s.gammas) =
      some (∑ i, getSubdicts Phi i * S i * (getSubdicts Phi i)ᵀ) := by
    refine osum_some fun i => ?_
    cases ha : activeBlocks opt.pruneGamma s.gammas i with
    | false => rw [if_neg (by simp), h.inactive i ha]; simp
    | true => rw [if_pos rfl, (h.active i ha).1, Option.map_some]
  have hA : ((∑ i, getSubdicts Phi i * S i * (getSubdicts Phi i)ᵀ) + l • (1 : Matrix (Fin m) (Fin m) ℝ)).PosDef :=
    regGram_posDef (D := getSubdicts Phi) h.psd h.pos
  rw [stepH, h1, Option.bind_some, h.lam, Option.bind_some, computeH_eq Phi hA]
  rfl

theorem hy_block {A : Matrix (Fin m) (Fin m) ℝ} (hA : Aᵀ = A) (i : Fin nb) : reshape2 ((A * Phi)ᵀ *ᵥ y) i = (getSubdicts Phi i)ᵀ *ᵥ (A *ᵥ y) := by
  rw [transpose_mul, hA, ← mulVec_mulVec]
  funext j
  show ∑ r, Phi r (finProdFinEquiv (i, j)) * _ = ∑ r, getSubdicts Phi i r j * _
  exact Finset.sum_congr rfl fun r _ => by rw [getSubdicts_apply]

theorem hphi_block {A : Matrix (Fin m) (Fin m) ℝ} (hA : Aᵀ = A) (i : Fin nb) :
    diagBlocks ((A * Phi)ᵀ * Phi) i = (getSubdicts Phi i)ᵀ * A * getSubdicts Phi i := by
  rw [transpose_mul, hA]
  ext j k
  show ∑ r, (∑ t, Phi t (finProdFinEquiv (i, j)) * A t r) * Phi r (finProdFinEquiv (i, k)) = ∑ r, (∑ t, getSubdicts Phi i t j * A t r) * getSubdicts Phi i r k
  simp only [getSubdicts_apply]

theorem regGram_inv_symm {D : Fin nb → Matrix (Fin m) (Fin b) ℝ} (hS : ∀ i, Psd (S i)) : ((regGram D S l)⁻¹)ᵀ = (regGram D S l)⁻¹ := by
  rw [transpose_nonsing_inv, regGram_symm hS]

/-- The posterior mean of the blocks. -/
def postMean (D : Fin nb → Matrix (Fin m) (Fin b) ℝ) (S : Fin nb → Matrix (Fin b) (Fin b) ℝ) (l : ℝ) (y : Fin m → ℝ) (i : Fin nb) : Fin b → ℝ :=
  S i *ᵥ ((D i)ᵀ *ᵥ ((regGram D S l)⁻¹ *ᵥ y))

/-- The posterior covariance of a block. -/
def postCov (D : Fin nb → Matrix (Fin m) (Fin b) ℝ) (S : Fin nb → Matrix (Fin b) (Fin b) ℝ) (l : ℝ) (i : Fin nb) : Matrix (Fin b) (Fin b) ℝ :=
  S i - S i * ((D i)ᵀ * (regGram D S l)⁻¹ * D i) * S i

theorem stepMu_eq (h : Prior opt s S l) (i : Fin nb) : stepMu Phi y opt s i = some (postMean (getSubdicts Phi) S l y i) := by
  unfold stepMu computeMuXPruned computeHy
  rw [stepH_eq h]
  cases ha : activeBlocks opt.pruneGamma s.gammas i with
  | false =>
    rw [if_neg (by simp), postMean, h.inactive i ha, zero_mulVec]
  | true =>
    rw [if_pos rfl, (h.active i ha).1]
    show some (S i *ᵥ reshape2 _ i) = _
    rw [hy_block (regGram_inv_symm h.psd)]
    rfl

theorem stepSigma_eq (h : Prior opt s S l) (i : Fin nb) : stepSigma Phi opt s i = some (postCov (getSubdicts Phi) S l i) := by
  unfold stepSigma computeSigmaXPruned computeHPhi
  rw [stepH_eq h]
  cases ha : activeBlocks opt.pruneGamma s.gammas i with
  | false =>
    rw [if_neg (by simp), postCov, h.inactive i ha, zero_mul, zero_mul, sub_zero]
  | true =>
    rw [if_pos rfl, (h.active i ha).1]
    show some (S i - S i * diagBlocks _ i * S i) = _
    rw [hphi_block (regGram_inv_symm h.psd)]
    rfl

theorem stepCov_eq (h : Prior opt s S l) (i : Fin nb) :
    stepCov Phi y opt s i = some (computeCovX (postCov (getSubdicts Phi) S l i) (postMean (getSubdicts Phi) S l y i)) := by
  rw [stepCov, covBlocks, stepSigma_eq h, stepMu_eq h]
  rfl

theorem xHat_eq (h : Prior opt s S l) : xHat (stepMu Phi y opt s) = some (flatten2 (postMean (getSubdicts Phi) S l y)) := by
  rw [xHat, gather_some (stepMu_eq h), Option.map_some]

/-- The residual of the posterior mean. -/
theorem post_residual (hS : ∀ i, Psd (S i)) (hl : 0 < l) :
    y - Phi *ᵥ flatten2 (postMean (getSubdicts Phi) S l y) = l • ((regGram (getSubdicts Phi) S l)⁻¹ *ᵥ y) := by
  have h1 := regGram_mulVec (getSubdicts Phi) S l ((regGram (getSubdicts Phi) S l)⁻¹ *ᵥ y)
  rw [mulVec_mulVec, posDef_mul_inv (regGram_posDef hS hl), one_mulVec] at h1
  rw [mulVec_blocks, reshape2_flatten2, sub_eq_iff_eq_add, add_comm]
  exact h1

theorem stepRes_eq (h : Prior opt s S l) : stepRes Phi y opt s = some (l • ((regGram (getSubdicts Phi) S l)⁻¹ *ᵥ y)) := by
  rw [stepRes, xHat_eq h, Option.map_some, post_residual h.psd h.pos]

theorem covX_psd {sx : Matrix (Fin b) (Fin b) ℝ} (h : Psd sx) (mx : Fin b → ℝ) : Psd (computeCovX sx mx) := by
  refine ⟨?_, fun v => ?_⟩
  · rw [computeCovX, transpose_add, h.1]
    rfl
  · rw [computeCovX, add_mulVec, dotProduct_add]
    have e : v ⬝ᵥ ((Matrix.of fun _ _ => mx ⬝ᵥ mx : Matrix (Fin b) (Fin b) ℝ) *ᵥ v) = (mx ⬝ᵥ mx) * (∑ i, v i) ^ 2 := by
      show ∑ i, v i * ∑ j, (mx ⬝ᵥ mx) * v j = _
      rw [← Finset.sum_mul, ← Finset.mul_sum]
      ring
    rw [e]
    exact add_nonneg (h.2 v) (mul_nonneg (dot_self_nonneg mx) (sq_nonneg _))

theorem psd_diag {k : ℕ} {C : Matrix (Fin k) (Fin k) ℝ} (h : Psd C) (j : Fin k) : 0 ≤ C j j := by
  have := h.2 (Pi.single j 1)
  simpa using this

theorem posDef_diag {k : ℕ} {C : Matrix (Fin k) (Fin k) ℝ} (h : C.PosDef) (j : Fin k) : 0 < C j j := by
  have := (posDef_iff.mp h).2 (Pi.single j 1) (by simp)
  simpa using this

/-- With nonnegative pruning threshold and an active block, the correlation matrix is positive definite. -/
theorem stepB_eq (hp : 0 ≤ opt.pruneGamma) (h : Prior opt s S l) (i : Fin nb) (hi : activeBlocks opt.pruneGamma s.gammas i = true) :
    ∃ r : ℝ, r ^ 2 < 1 ∧ stepB Phi y opt s = some (arMat b r) := by
  unfold stepB computeB
  split
  · exact ⟨0, by norm_num, rfl⟩
  · rename_i hb
    set C : Fin nb → Matrix (Fin b) (Fin b) ℝ := fun i => computeCovX (postCov (getSubdicts Phi) S l i) (postMean (getSubdicts Phi) S l y i) with hC
    set f : Fin nb → ℝ := fun i => if activeBlocks opt.pruneGamma s.gammas i = true then ((s.gammas i).getD 1)⁻¹ else 1 with hf
    have hfpos : ∀ i, 0 < f i := fun i => by
      simp only [hf]
      split
      · rename_i ha
        obtain ⟨g, hg, hpg⟩ := active_true.mp ha
        rw [hg, Option.getD_some]
        exact inv_pos.mpr (lt_of_le_of_lt hp hpg)
      · exact one_pos
    have hsum : covSumPruned (stepCov Phi y opt s) s.gammas (activeBlocks opt.pruneGamma s.gammas) = some (∑ i, f i • C i) := by
      refine osum_some fun i => ?_
      cases ha : activeBlocks opt.pruneGamma s.gammas i with
      | false =>
        rw [if_neg (by simp), stepCov_eq h]
        simp [hf, ha, hC]
      | true =>
        obtain ⟨g, hg, hpg⟩ := active_true.mp ha
        rw [if_pos rfl, stepCov_eq h, Option.bind_some, hg, Option.bind_some, mdiv, if_neg (lt_of_le_of_lt hp hpg).ne']
        simp [hf, ha, hC, hg]
    have hCpsd : ∀ i, Psd (C i) := fun i => covX_psd (sigma_psd h.psd h.pos i) _
    have hCi : ∀ j, 0 < C i j j := fun j => by
      show 0 < postCov (getSubdicts Phi) S l i j j + _
      exact add_pos_of_pos_of_nonneg (posDef_diag (sigma_posDef h.psd h.pos i (h.active i hi).2) j) (dot_self_nonneg _)
    have hdiag : ∀ j, 0 < (∑ i, f i • C i) j j := fun j => by
      rw [Matrix.sum_apply]
      exact Finset.sum_pos' (fun k _ => mul_nonneg (hfpos k).le (psd_diag (hCpsd k) j)) ⟨i, Finset.mem_univ i, mul_pos (hfpos i) (hCi j)⟩
    have hm : meanDiag (∑ i, f i • C i) ≠ 0 := by
      refine (div_pos (Finset.sum_pos (fun j _ => hdiag j) ⟨⟨0, by omega⟩, Finset.mem_univ _⟩) ?_).ne'
      exact_mod_cast (by omega : 0 < b)
    rw [hsum, Option.bind_some, arCoef, if_neg hb]
    dsimp only
    rw [if_neg hm, Option.map_some]
    refine ⟨_, ?_, rfl⟩
    set t := min (max (meanUpper (∑ i, f i • C i) / meanDiag (∑ i, f i • C i)) (-0.99)) 0.99 with ht
    have h1 : t ≤ 0.99 := min_le_right _ _
    have h2 : -0.99 ≤ t := le_min (le_max_right _ _) (by norm_num)
    rw [sq_lt_one_iff_abs_lt_one, abs_lt]
    constructor
    · refine lt_of_lt_of_le ?_ h2; norm_num
    · refine lt_of_le_of_lt h1 ?_; norm_num

end

end Verif.Block
