import Verif.Cluster.FastSpectralModel
import Verif.Cluster.SpectralClusterProps

set_option autoImplicit false
/-!
# Fast normalised symmetric spectral clustering finds the connected components (C115)
-/
noncomputable section
namespace Verif.Cluster
open Verif.Loop Verif.Pursuit Matrix
open scoped RealInnerProductSpace

variable {n k : ℕ}

/-! ## Specification -/

/-- No component of the graph can be split in two sides with all edges between the sides: the only real labelling which changes sign along every edge is zero. -/
def NoBipartite (W : Matrix (Fin n) (Fin n) ℝ) : Prop := ∀ y : Fin n → ℝ, (∀ i j, 0 < W i j → y i = -y j) → ∀ i, y i = 0

/-- The result of `lansvd` is exact: the `r` leading singular values and right singular vectors of some full SVD. -/
def IsLeadingSvd {r : ℕ} (N : Matrix (Fin n) (Fin n) ℝ) (o : LanSvdOut n r) : Prop :=
  ∃ (hr : r ≤ n) (d : SquareSvd n), IsSquareSvd N d ∧ ∀ a : Fin r, o.S a = d.S (a.castLE hr) ∧ ∀ i, o.V i a = d.VH (a.castLE hr) i

/-- The sum of the degrees of the nodes of a component. -/
def compVol (W : Matrix (Fin n) (Fin n) ℝ) (comp : Fin n → Fin k) (c : Fin k) : ℝ := ∑ i ∈ Finset.univ.filter (fun i => comp i = c), degrees W i

/-! ## Lemmas -/

theorem rpow_half_inv {x : ℝ} (h : 0 < x) : x ^ (-(1 / 2) : ℝ) = (Real.sqrt x)⁻¹ := by
  rw [Real.rpow_neg h.le, ← Real.sqrt_eq_rpow]

/-- The normalised matrix in terms of `y = D^(-1/2) x`. -/
theorem normW_mulVec {W : Matrix (Fin n) (Fin n) ℝ} (hd : ∀ i, 0 < degrees W i) (y : Fin n → ℝ) (i : Fin n) :
    Real.sqrt (degrees W i) * (normalizedSymmetricW W *ᵥ fun j => Real.sqrt (degrees W j) * y j) i = ∑ j, W i j * y j := by
  simp only [mulVec, dotProduct, normalizedSymmetricW, rpow_half_inv (hd _), Finset.mul_sum]
  refine Finset.sum_congr rfl fun j _ => ?_
  have h1 := (Real.sqrt_pos.mpr (hd i)).ne'
  have h2 := (Real.sqrt_pos.mpr (hd j)).ne'
  field_simp

theorem scale_back {W : Matrix (Fin n) (Fin n) ℝ} (hd : ∀ i, 0 < degrees W i) (x : Fin n → ℝ) : (fun j => Real.sqrt (degrees W j) * (x j / Real.sqrt (degrees W j))) = x := by
  funext j
  exact mul_div_cancel₀ (x j) (Real.sqrt_pos.mpr (hd j)).ne'

/-- The vectors fixed by the normalised matrix are `D^(1/2)` times the vectors constant along edges. -/
theorem normW_fixed {W : Matrix (Fin n) (Fin n) ℝ} (hW : IsAffinity W) (hd : ∀ i, 0 < degrees W i) (x : Fin n → ℝ) :
    normalizedSymmetricW W *ᵥ x = x ↔ ∀ i j, 0 < W i j → x i / Real.sqrt (degrees W i) = x j / Real.sqrt (degrees W j) := by
  set y : Fin n → ℝ := fun j => x j / Real.sqrt (degrees W j) with hy
  rw [show (∀ i j, 0 < W i j → x i / Real.sqrt (degrees W i) = x j / Real.sqrt (degrees W j)) ↔ unnormalizedLaplacian W *ᵥ y = 0 from ((c56_unnormalized W hW).2.2.2.2 y).symm]
  have hx : (fun j => Real.sqrt (degrees W j) * y j) = x := scale_back hd x
  have e : ∀ i, (unnormalizedLaplacian W *ᵥ y) i = Real.sqrt (degrees W i) * (x i - (normalizedSymmetricW W *ᵥ x) i) := by
    intro i
    have h1 := normW_mulVec hd y i
    rw [hx] at h1
    rw [mul_sub, h1, unnormalizedLaplacian, sub_mulVec, Pi.sub_apply, mulVec_diagonal]
    congr 1
    conv_lhs => rw [← Real.mul_self_sqrt (hd i).le]
    rw [mul_assoc]
    congr 1
    exact congrFun hx i
  constructor
  · intro h
    funext i
    rw [e, h, sub_self, mul_zero, Pi.zero_apply]
  · intro h
    funext i
    have := congrFun h i
    rw [e, Pi.zero_apply] at this
    exact (sub_eq_zero.mp ((mul_eq_zero.mp this).resolve_left (Real.sqrt_pos.mpr (hd i)).ne')).symm

/-- The quadratic form of `I + N`. -/
theorem normW_plus_form {W : Matrix (Fin n) (Fin n) ℝ} (hW : IsAffinity W) (hd : ∀ i, 0 < degrees W i) (x : Fin n → ℝ) :
    x ⬝ᵥ x + x ⬝ᵥ (normalizedSymmetricW W *ᵥ x) = (∑ i, ∑ j, W i j * (x i / Real.sqrt (degrees W i) + x j / Real.sqrt (degrees W j)) ^ 2) / 2 := by
  set y : Fin n → ℝ := fun j => x j / Real.sqrt (degrees W j) with hy
  have hx : (fun j => Real.sqrt (degrees W j) * y j) = x := scale_back hd x
  have e0 : x ⬝ᵥ x = ∑ i, degrees W i * y i ^ 2 := by
    refine Finset.sum_congr rfl fun i _ => ?_
    have : x i = Real.sqrt (degrees W i) * y i := (congrFun hx i).symm
    rw [this]
    calc _ = (Real.sqrt (degrees W i) * Real.sqrt (degrees W i)) * y i ^ 2 := by ring
      _ = _ := by rw [Real.mul_self_sqrt (hd i).le]
  have e1 : x ⬝ᵥ (normalizedSymmetricW W *ᵥ x) = ∑ i, ∑ j, W i j * (y i * y j) := by
    refine Finset.sum_congr rfl fun i _ => ?_
    have h1 := normW_mulVec hd y i
    rw [hx] at h1
    have : x i = Real.sqrt (degrees W i) * y i := (congrFun hx i).symm
    conv_lhs => rw [this]
    rw [mul_comm (Real.sqrt _), mul_assoc, h1, Finset.mul_sum]
    exact Finset.sum_congr rfl fun j _ => by ring
  have e2 : ∑ i, ∑ j, W i j * (y i + y j) ^ 2 = ∑ i, ∑ j, W i j * y i ^ 2 + ∑ i, ∑ j, W i j * y j ^ 2 + 2 * ∑ i, ∑ j, W i j * (y i * y j) := by
    rw [Finset.mul_sum, ← Finset.sum_add_distrib, ← Finset.sum_add_distrib]
    refine Finset.sum_congr rfl fun i _ => ?_
    rw [Finset.mul_sum, ← Finset.sum_add_distrib, ← Finset.sum_add_distrib]
    exact Finset.sum_congr rfl fun j _ => by ring
  have e3 : ∑ i, ∑ j, W i j * y i ^ 2 = ∑ i, degrees W i * y i ^ 2 := Finset.sum_congr rfl fun i _ => by rw [← Finset.sum_mul, degrees_row hW]
  have e4 : ∑ i, ∑ j, W i j * y j ^ 2 = ∑ i, degrees W i * y i ^ 2 := by
    rw [Finset.sum_comm]; exact Finset.sum_congr rfl fun i _ => by rw [← Finset.sum_mul]; rfl
  show _ = (∑ i, ∑ j, W i j * (y i + y j) ^ 2) / 2
  rw [e0, e1, e2, e3, e4]; ring

theorem normW_plus_nonneg {W : Matrix (Fin n) (Fin n) ℝ} (hW : IsAffinity W) (hd : ∀ i, 0 < degrees W i) (x : Fin n → ℝ) : 0 ≤ x ⬝ᵥ x + x ⬝ᵥ (normalizedSymmetricW W *ᵥ x) := by
  rw [normW_plus_form hW hd]
  exact div_nonneg (Finset.sum_nonneg fun i _ => Finset.sum_nonneg fun j _ => mul_nonneg (hW.nonneg i j) (sq_nonneg _)) two_pos.le

/-- `-1` is not an eigenvalue. -/
theorem normW_neg {W : Matrix (Fin n) (Fin n) ℝ} (hW : IsAffinity W) (hd : ∀ i, 0 < degrees W i) (hb : NoBipartite W) {x : Fin n → ℝ} (h : normalizedSymmetricW W *ᵥ x = -x) : x = 0 := by
  have hq := normW_plus_form hW hd x
  rw [h, dotProduct_neg, add_neg_cancel] at hq
  have hs : ∑ i, ∑ j, W i j * (x i / Real.sqrt (degrees W i) + x j / Real.sqrt (degrees W j)) ^ 2 = 0 := by linarith
  rw [Finset.sum_eq_zero_iff_of_nonneg fun i _ => Finset.sum_nonneg fun j _ => mul_nonneg (hW.nonneg i j) (sq_nonneg _)] at hs
  have hy := hb (fun i => x i / Real.sqrt (degrees W i)) fun i j hij => by
    have h1 := hs i (Finset.mem_univ i)
    rw [Finset.sum_eq_zero_iff_of_nonneg fun j _ => mul_nonneg (hW.nonneg i j) (sq_nonneg _)] at h1
    have h2 := (mul_eq_zero.mp (h1 j (Finset.mem_univ j))).resolve_left hij.ne'
    exact eq_neg_of_add_eq_zero_left (pow_eq_zero_iff two_ne_zero |>.mp h2)
  funext i
  exact (div_eq_zero_iff.mp (hy i)).resolve_right (Real.sqrt_pos.mpr (hd i)).ne'

/-- `N² x = x` only for fixed vectors. -/
theorem normW_sq {W : Matrix (Fin n) (Fin n) ℝ} (hW : IsAffinity W) (hd : ∀ i, 0 < degrees W i) (hb : NoBipartite W) (x : Fin n → ℝ) :
    normalizedSymmetricW W *ᵥ (normalizedSymmetricW W *ᵥ x) = x ↔ normalizedSymmetricW W *ᵥ x = x := by
  constructor
  · intro h
    have : normalizedSymmetricW W *ᵥ (normalizedSymmetricW W *ᵥ x - x) = -(normalizedSymmetricW W *ᵥ x - x) := by
      rw [mulVec_sub, h, neg_sub]
    exact sub_eq_zero.mp (normW_neg hW hd hb this)
  · intro h; rw [h, h]

theorem normW_transpose {W : Matrix (Fin n) (Fin n) ℝ} (hW : IsAffinity W) (hd : ∀ i, 0 < degrees W i) : (normalizedSymmetricW W)ᵀ = normalizedSymmetricW W := by
  ext i j
  exact (c56_normalized_symmetric W hW hd).1.symm j i

/-- The square of a symmetric matrix from its SVD. -/
theorem svd_sq {N : Matrix (Fin n) (Fin n) ℝ} (hN : Nᵀ = N) {d : SquareSvd n} (h : IsSquareSvd N d) (x : Fin n → ℝ) (a : Fin n) :
    (d.VH *ᵥ (N *ᵥ (N *ᵥ x))) a = d.S a ^ 2 * (d.VH *ᵥ x) a := by
  have e1 : N *ᵥ x = d.U *ᵥ (diagonal d.S *ᵥ (d.VH *ᵥ x)) := by rw [mulVec_mulVec, mulVec_mulVec, ← h.factor]
  have e2 : N = d.VHᵀ * (diagonal d.S * d.Uᵀ) := by
    conv_lhs => rw [← hN, h.factor]
    rw [transpose_mul, transpose_mul, diagonal_transpose]
  have e3 : d.VH *ᵥ (N *ᵥ (N *ᵥ x)) = diagonal d.S *ᵥ (diagonal d.S *ᵥ (d.VH *ᵥ x)) := by
    rw [e1]
    conv_lhs => rw [e2]
    rw [mulVec_mulVec, ← Matrix.mul_assoc, h.VH, Matrix.one_mul, mulVec_mulVec, Matrix.mul_assoc, h.U, Matrix.mul_one]
  rw [e3, mulVec_diagonal, mulVec_diagonal]; ring

theorem svd_sq_fixed {N : Matrix (Fin n) (Fin n) ℝ} (hN : Nᵀ = N) {d : SquareSvd n} (h : IsSquareSvd N d) (x : Fin n → ℝ) :
    N *ᵥ (N *ᵥ x) = x ↔ ∀ a, d.S a ≠ 1 → (d.VH *ᵥ x) a = 0 := by
  constructor
  · intro hx a ha
    have := svd_sq hN h x a
    rw [hx] at this
    have h2 : (1 - d.S a ^ 2) * (d.VH *ᵥ x) a = 0 := by rw [sub_mul, one_mul, ← this, sub_self]
    refine (mul_eq_zero.mp h2).resolve_left fun h0 => ha ?_
    exact (sq_eq_sq₀ (h.nonneg a) zero_le_one).mp (by rw [one_pow]; linarith)
  · intro hx
    have : d.VH *ᵥ (N *ᵥ (N *ᵥ x)) = d.VH *ᵥ x := by
      funext a
      rw [svd_sq hN h]
      by_cases ha : d.S a = 1
      · rw [ha, one_pow, one_mul]
      · rw [hx a ha, mul_zero]
    have h2 := congrArg (fun y => d.VHᵀ *ᵥ y) this
    simpa only [mulVec_mulVec, ← Matrix.mul_assoc, h.VH', one_mulVec, Matrix.one_mul] using h2

/-- The singular values are at most 1. -/
theorem normW_sv_le {W : Matrix (Fin n) (Fin n) ℝ} (hW : IsAffinity W) (hd : ∀ i, 0 < degrees W i) {d : SquareSvd n} (h : IsSquareSvd (normalizedSymmetricW W) d) (a : Fin n) : d.S a ≤ 1 := by
  set N := normalizedSymmetricW W with hN
  set v : Fin n → ℝ := fun i => d.VH a i with hv
  have hvv : v ⬝ᵥ v = 1 := by
    have := congrFun (congrFun h.VH a) a
    rwa [Matrix.mul_apply, Matrix.one_apply_eq] at this
  have hVHv : ∀ b, (d.VH *ᵥ v) b = if b = a then 1 else 0 := by
    intro b
    have := congrFun (congrFun h.VH b) a
    rwa [Matrix.mul_apply, Matrix.one_apply] at this
  have hsq : N *ᵥ (N *ᵥ v) = d.S a ^ 2 • v := by
    have h1 : d.VH *ᵥ (N *ᵥ (N *ᵥ v)) = d.VH *ᵥ (d.S a ^ 2 • v) := by
      funext b
      rw [svd_sq (normW_transpose hW hd) h, mulVec_smul, Pi.smul_apply, smul_eq_mul, hVHv]
      split_ifs with hb
      · rw [hb]
      · rw [mul_zero, mul_zero]
    have h2 := congrArg (fun y => d.VHᵀ *ᵥ y) h1
    simpa only [mulVec_mulVec, ← Matrix.mul_assoc, h.VH', one_mulVec, Matrix.one_mul] using h2
  set w : Fin n → ℝ := N *ᵥ v + d.S a • v with hw
  have hNw : N *ᵥ w = d.S a • w := by
    rw [hw, mulVec_add, hsq, mulVec_smul, smul_add, smul_smul, ← sq, add_comm]
  by_cases hw0 : w = 0
  · have h1 : N *ᵥ v = -(d.S a • v) := eq_neg_of_add_eq_zero_left hw0
    have h2 := normW_plus_nonneg hW hd v
    rw [← hN, h1, dotProduct_neg, dotProduct_smul, hvv, smul_eq_mul, mul_one] at h2
    linarith
  · have h1 := (c56_normalized_symmetric W hW hd).2.2 w
    rw [← hN, hNw, dotProduct_smul, smul_eq_mul] at h1
    have hpos : 0 < w ⬝ᵥ w := by
      obtain ⟨i, hi⟩ := Function.ne_iff.mp hw0
      exact Finset.sum_pos' (fun j _ => mul_self_nonneg _) ⟨i, Finset.mem_univ i, mul_self_pos.mpr hi⟩
    by_contra hgt
    push Not at hgt
    nlinarith

/-- The projection of the unit vectors on the fixed vectors. -/
theorem fixed_projection {W : Matrix (Fin n) (Fin n) ℝ} (hW : IsAffinity W) (hd : ∀ i, 0 < degrees W i) (hb : NoBipartite W) {comp : Fin n → Fin k} (hc : Components W k comp) {d : SquareSvd n}
    (h : IsSquareSvd (normalizedSymmetricW W) d) (i j : Fin n) :
    ∑ a, (if d.S a = 1 then d.VH a j * d.VH a i else 0) = if comp i = comp j then Real.sqrt (degrees W i) * Real.sqrt (degrees W j) / compVol W comp (comp i) else 0 := by
  have hN := normW_transpose hW hd
  have hs : ∀ i, 0 < Real.sqrt (degrees W i) := fun i => Real.sqrt_pos.mpr (hd i)
  have hfix : ∀ x : Fin n → ℝ, (∀ a, d.S a ≠ 1 → (d.VH *ᵥ x) a = 0) ↔ ∀ i j, 0 < W i j → x i / Real.sqrt (degrees W i) = x j / Real.sqrt (degrees W j) := fun x =>
    ((svd_sq_fixed hN h x).symm.trans (normW_sq hW hd hb x)).trans (normW_fixed hW hd x)
  set p : Fin n → ℝ := fun i => ∑ a, (if d.S a = 1 then d.VH a j * d.VH a i else 0) with hp
  have hVHp : ∀ b, (d.VH *ᵥ p) b = if d.S b = 1 then d.VH b j else 0 := by
    intro b
    have e : (d.VH *ᵥ p) b = ∑ a, (if d.S a = 1 then d.VH a j else 0) * (d.VH * d.VHᵀ) b a := by
      simp only [mulVec, dotProduct, hp, Finset.mul_sum, Matrix.mul_apply, transpose_apply]
      rw [Finset.sum_comm]
      refine Finset.sum_congr rfl fun a _ => Finset.sum_congr rfl fun i _ => ?_
      split_ifs <;> ring
    rw [e, h.VH, Finset.sum_eq_single b]
    · rw [Matrix.one_apply_eq, mul_one]
    · intro a _ hab
      rw [Matrix.one_apply_ne (Ne.symm hab), mul_zero]
    · intro hb; exact absurd (Finset.mem_univ b) hb
  have hker := (hfix p).mp fun a ha => by rw [hVHp, if_neg ha]
  have hconst : ∀ i', comp i' = comp i → p i' / Real.sqrt (degrees W i') = p i / Real.sqrt (degrees W i) := fun i' hi' => hc.const (x := fun i => p i / Real.sqrt (degrees W i)) hker hi'
  set x : Fin n → ℝ := fun i' => if comp i' = comp i then Real.sqrt (degrees W i') else 0 with hx
  have hxa : ∀ a, d.S a ≠ 1 → (d.VH *ᵥ x) a = 0 := (hfix x).mpr fun a b hab => by
    simp only [hx, hc.edge a b hab]
    split_ifs
    · rw [div_self (hs a).ne', div_self (hs b).ne']
    · rw [zero_div, zero_div]
  have hsum : ∑ i', x i' * p i' = x j := by
    have e1 : ∑ i', x i' * p i' = ∑ a, (if d.S a = 1 then d.VH a j else 0) * (d.VH *ᵥ x) a := by
      simp only [hp, mulVec, dotProduct, Finset.mul_sum]
      rw [Finset.sum_comm]
      refine Finset.sum_congr rfl fun a _ => Finset.sum_congr rfl fun i _ => ?_
      split_ifs <;> ring
    have e2 : ∑ a, (if d.S a = 1 then d.VH a j else 0) * (d.VH *ᵥ x) a = (d.VHᵀ *ᵥ (d.VH *ᵥ x)) j := by
      simp only [mulVec, dotProduct, transpose_apply]
      refine Finset.sum_congr rfl fun a _ => ?_
      split_ifs with ha
      · rfl
      · have := hxa a ha
        simp only [mulVec, dotProduct] at this
        rw [this, mul_zero, mul_zero]
    rw [e1, e2, mulVec_mulVec, h.VH', one_mulVec]
  have hsz : ∑ i', x i' * p i' = compVol W comp (comp i) * (p i / Real.sqrt (degrees W i)) := by
    have : ∀ i', x i' * p i' = if comp i' = comp i then degrees W i' * (p i / Real.sqrt (degrees W i)) else 0 := by
      intro i'
      simp only [hx]
      split_ifs with hi'
      · rw [← hconst i' hi']
        conv_rhs => rw [← Real.mul_self_sqrt (hd i').le]
        have := (hs i').ne'
        field_simp
        rw [Real.sqrt_sq (hs i').le, mul_comm]
      · rw [zero_mul]
    rw [Finset.sum_congr rfl fun i' _ => this i', ← Finset.sum_filter, ← Finset.sum_mul]; rfl
  have hpos : 0 < compVol W comp (comp i) := Finset.sum_pos (fun i _ => hd i) ⟨i, by simp⟩
  show p i = _
  have e : compVol W comp (comp i) * (p i / Real.sqrt (degrees W i)) = x j := hsz.symm.trans hsum
  have e' : p i = Real.sqrt (degrees W i) * x j / compVol W comp (comp i) := by
    have h1 := (hs i).ne'
    have h2 := hpos.ne'
    field_simp at e ⊢
    linarith
  rw [e']
  simp only [hx, eq_comm (a := comp j)]
  split_ifs
  · rfl
  · rw [mul_zero, zero_div]

theorem compVol_pos {W : Matrix (Fin n) (Fin n) ℝ} (hd : ∀ i, 0 < degrees W i) (comp : Fin n → Fin k) (i : Fin n) : 0 < compVol W comp (comp i) := Finset.sum_pos (fun i _ => hd i) ⟨i, by simp⟩

theorem ones_card {W : Matrix (Fin n) (Fin n) ℝ} (hW : IsAffinity W) (hd : ∀ i, 0 < degrees W i) (hb : NoBipartite W) {comp : Fin n → Fin k} (hc : Components W k comp) {d : SquareSvd n}
    (h : IsSquareSvd (normalizedSymmetricW W) d) : (Finset.univ.filter fun a => d.S a = 1).card = k := by
  have e1 : ∑ i, ∑ a, (if d.S a = 1 then d.VH a i * d.VH a i else 0) = (Finset.univ.filter fun a => d.S a = 1).card := by
    rw [Finset.sum_comm, Finset.card_filter, Nat.cast_sum]
    refine Finset.sum_congr rfl fun a _ => ?_
    have : ∑ i, d.VH a i * d.VH a i = 1 := by
      have := congrFun (congrFun h.VH a) a
      rwa [Matrix.mul_apply, Matrix.one_apply_eq] at this
    split_ifs with ha
    · simpa using this
    · simp
  have e2 : ∑ i, ∑ a, (if d.S a = 1 then d.VH a i * d.VH a i else 0) = (k : ℝ) := by
    simp only [fixed_projection hW hd hb hc h, if_true, Real.mul_self_sqrt (hd _).le]
    rw [← Finset.sum_fiberwise Finset.univ comp]
    have : ∀ c : Fin k, ∑ i ∈ Finset.univ.filter (fun i => comp i = c), degrees W i / compVol W comp (comp i) = 1 := by
      intro c
      rw [Finset.sum_congr rfl fun i hi => by rw [(Finset.mem_filter.mp hi).2], ← Finset.sum_div]
      obtain ⟨i, hi⟩ := hc.onto c
      exact div_self (hi ▸ (compVol_pos hd comp i).ne')
    simp only [this, Finset.sum_const, Finset.card_univ, Fintype.card_fin, nsmul_eq_mul, mul_one]
  rw [e1] at e2
  exact_mod_cast e2

/-- Exactly the first `k` singular values are 1. -/
theorem ones_first {W : Matrix (Fin n) (Fin n) ℝ} (hW : IsAffinity W) (hd : ∀ i, 0 < degrees W i) (hb : NoBipartite W) {comp : Fin n → Fin k} (hc : Components W k comp) {d : SquareSvd n}
    (h : IsSquareSvd (normalizedSymmetricW W) d) (a : Fin n) : d.S a = 1 ↔ a.1 < k := by
  have hkn := hc.le
  set Z := Finset.univ.filter fun a => d.S a = 1 with hZ
  have hZc : Z.card = k := ones_card hW hd hb hc h
  set T := Finset.univ.filter fun a : Fin n => a.1 < k with hT
  have hsub : Z ⊆ T := by
    intro a ha
    have ha0 : d.S a = 1 := (Finset.mem_filter.mp ha).2
    have hup : Finset.Iic a ⊆ Z := fun b hb' => Finset.mem_filter.mpr ⟨Finset.mem_univ _, le_antisymm (normW_sv_le hW hd h b) (ha0 ▸ h.anti (Finset.mem_Iic.mp hb'))⟩
    have := Finset.card_le_card hup
    rw [Fin.card_Iic, hZc] at this
    exact Finset.mem_filter.mpr ⟨Finset.mem_univ _, by omega⟩
  have hTc : T.card = k := by
    rw [hT, Fin.card_filter_val_lt]
    omega
  have heq : Z = T := Finset.eq_of_subset_of_card_le hsub (by rw [hTc, hZc])
  have h1 : a ∈ Z ↔ a ∈ T := by rw [heq]
  simpa [hZ, hT] using h1

theorem leadingRow_inner {W : Matrix (Fin n) (Fin n) ℝ} (hW : IsAffinity W) (hd : ∀ i, 0 < degrees W i) (hb : NoBipartite W) {comp : Fin n → Fin k} (hc : Components W k comp) {o : LanSvdOut n (5 * k)}
    (h : IsLeadingSvd (normalizedSymmetricW W) o) (i j : Fin n) :
    ⟪leadingRow o.V i, leadingRow o.V j⟫ = if comp i = comp j then Real.sqrt (degrees W i) * Real.sqrt (degrees W j) / compVol W comp (comp i) else 0 := by
  obtain ⟨hr, d, hsvd, ho⟩ := h
  rw [← fixed_projection hW hd hb hc hsvd i j]
  simp only [ones_first hW hd hb hc hsvd, ← Finset.sum_filter, leadingRow, PiLp.inner_apply, i.2, j.2, dif_pos]
  refine Finset.sum_bij (fun t _ => (⟨t.1, by have := hc.le; omega⟩ : Fin n)) (fun t _ => by simp) (fun a _ b _ hab => by simpa [Fin.ext_iff] using hab) (fun b hb => ?_) (fun t _ => ?_)
  · have hb' : b.1 < k := (Finset.mem_filter.mp hb).2
    exact ⟨⟨b.1, hb'⟩, Finset.mem_univ _, rfl⟩
  · rw [(ho _).2, (ho _).2]
    simp [mul_comm]

/-- The normalised rows: equal in the same component, orthogonal in different ones. -/
theorem normRow_inner {W : Matrix (Fin n) (Fin n) ℝ} (hW : IsAffinity W) (hd : ∀ i, 0 < degrees W i) (hb : NoBipartite W) {comp : Fin n → Fin k} (hc : Components W k comp) {o : LanSvdOut n (5 * k)}
    (h : IsLeadingSvd (normalizedSymmetricW W) o) (i j : Fin n) :
    leadingRow o.V i ≠ 0 ∧ ⟪normalizeRw (leadingRow o.V) i, normalizeRw (leadingRow o.V) j⟫ = if comp i = comp j then 1 else 0 := by
  have hs : ∀ i, 0 < Real.sqrt (degrees W i) := fun i => Real.sqrt_pos.mpr (hd i)
  have hn : ∀ i : Fin n, ‖leadingRow o.V i‖ = Real.sqrt (degrees W i) / Real.sqrt (compVol W comp (comp i)) := by
    intro i
    have := leadingRow_inner hW hd hb hc h i i
    rw [if_pos rfl, real_inner_self_eq_norm_sq, Real.mul_self_sqrt (hd i).le] at this
    rw [← Real.sqrt_div (hd i).le, ← this, Real.sqrt_sq (norm_nonneg _)]
  have hv : ∀ i : Fin n, 0 < Real.sqrt (compVol W comp (comp i)) := fun i => Real.sqrt_pos.mpr (compVol_pos hd comp i)
  refine ⟨norm_pos_iff.mp (by rw [hn]; exact div_pos (hs i) (hv i)), ?_⟩
  rw [normalizeRw, normalizeRw, real_inner_smul_left, real_inner_smul_right, leadingRow_inner hW hd hb hc h i j, hn, hn]
  split_ifs with hij
  · rw [← hij]
    have h1 := (hs i).ne'
    have h2 := (hs j).ne'
    have h3 := (hv i).ne'
    have h4 : compVol W comp (comp i) = Real.sqrt (compVol W comp (comp i)) * Real.sqrt (compVol W comp (comp i)) := (Real.mul_self_sqrt (compVol_pos hd comp i).le).symm
    conv_lhs => enter [2, 2, 2]; rw [h4]
    field_simp
  · rw [mul_zero, mul_zero]

theorem normRow_same {W : Matrix (Fin n) (Fin n) ℝ} (hW : IsAffinity W) (hd : ∀ i, 0 < degrees W i) (hb : NoBipartite W) {comp : Fin n → Fin k} (hc : Components W k comp) {o : LanSvdOut n (5 * k)}
    (h : IsLeadingSvd (normalizedSymmetricW W) o) (i j : Fin n) : normalizeRw (leadingRow o.V) i = normalizeRw (leadingRow o.V) j ↔ comp i = comp j := by
  have hii := (normRow_inner hW hd hb hc h i i).2
  have hij := (normRow_inner hW hd hb hc h i j).2
  have hjj := (normRow_inner hW hd hb hc h j j).2
  rw [if_pos rfl] at hii hjj
  constructor
  · intro heq
    by_contra hne
    rw [if_neg hne, ← heq, hii] at hij
    exact one_ne_zero hij
  · intro heq
    rw [if_pos heq] at hij
    rw [← sub_eq_zero, ← norm_eq_zero, ← sq_eq_zero_iff, norm_sub_sq_real, ← real_inner_self_eq_norm_sq, ← real_inner_self_eq_norm_sq, hii, hij, hjj]
    ring

/-- k-means on points with one value per component. -/
theorem kmeans_components {E : Type*} [NormedAddCommGroup E] [InnerProductSpace ℝ E] {pts : ℕ → E} {comp : Fin n → Fin k} (hk : 0 < k) (hpts : ∀ i j : Fin n, pts i = pts j ↔ comp i = comp j)
    {seeds : List (ℕ → ℕ)} {thresh : ℝ} {maxIters : ℕ} {s : KState E} (h : Kmeans pts n k seeds thresh maxIters s) :
    (∀ i, s.asg i < k) ∧ (∀ i j : Fin n, comp i = comp j → s.asg i = s.asg j) ∧
    ((∃ seed ∈ seeds, ∀ c, ∃ t < k, ∃ i : Fin n, seed t = i ∧ comp i = c) → ∀ i j : Fin n, s.asg i = s.asg j ↔ comp i = comp j) := by
  obtain ⟨results, hres, hsel⟩ := h
  have hmem : s ∈ results := by
    unfold kmeansSelect at hsel
    exact List.mem_of_getElem? hsel
  obtain ⟨ind, -, hs⟩ := forall₂_mem_right hres s hmem
  have hg := c53_assignment _ n k hk ind _ s hs.1
  refine ⟨fun i => hg.range i, fun i j hij => asg_eq_of_eq hk hs.1 ((hpts i j).mpr hij), fun ⟨seed, hseed, hcov⟩ i j => ?_⟩
  refine ⟨fun hij => ?_, fun hij => asg_eq_of_eq hk hs.1 ((hpts i j).mpr hij)⟩
  obtain ⟨s', hs', hrun⟩ := forall₂_mem_left hres seed hseed
  have h0 : s'.dist = 0 := by
    refine dist_zero_of_start hk hrun fun i hi => ?_
    obtain ⟨t, ht, i', hi', hci⟩ := hcov (comp ⟨i, hi⟩)
    refine ⟨t, ht, ?_⟩
    rw [hi']
    exact (hpts i' ⟨i, hi⟩).mpr hci
  obtain ⟨s2, hs2, -, hmin⟩ := c54_kmeans_selects results (List.ne_nil_of_mem hmem)
  rw [hsel] at hs2
  obtain rfl := Option.some.inj hs2
  have hd : s.dist = 0 := le_antisymm (h0 ▸ hmin s' hs') (dist_nonneg' hg)
  exact (hpts i j).mp (eq_of_asg_eq hg hd i.2 j.2 hij)

/-! ## Properties -/

/-- **C115** `normalized_symmetric_fast_k(key, W, k)` for an affinity matrix without isolated nodes, whose graph has exactly `k` connected components, none of them bipartite, when the Lanczos SVD is exact:
exactly the first `k` singular values are 1 and the others are smaller, labels are below `k`, nodes of the same component get the same label,
and when one of the restarts of k-means starts with a node of each component, two nodes get the same label exactly when they are in the same component. -/
theorem c115_fast_k_partial {lansvd : Matrix (Fin n) (Fin n) ℝ → LanSvdOut n (5 * k)} {W : Matrix (Fin n) (Fin n) ℝ} (hW : IsAffinity W) (hd : ∀ i, 0 < degrees W i) (hb : NoBipartite W)
    {comp : Fin n → Fin k} (hk : 0 < k) (hc : Components W k comp) (hsvd : IsLeadingSvd (normalizedSymmetricW W) (lansvd (normalizedSymmetricW W))) {seeds : List (ℕ → ℕ)} {sol : FastSolution n k}
    (h : NormalizedSymmetricFastK k lansvd W seeds sol) :
    (∀ a, sol.singularValues a ≤ 1) ∧ (∀ a, sol.singularValues a = 1 ↔ a.1 < k) ∧ (∀ i, sol.assignment i < k) ∧ (∀ i j, comp i = comp j → sol.assignment i = sol.assignment j) ∧
    ((∃ seed ∈ seeds, ∀ c, ∃ t < k, ∃ i : Fin n, seed t = i ∧ comp i = c) → ∀ i j, sol.assignment i = sol.assignment j ↔ comp i = comp j) := by
  obtain ⟨s, hs, rfl⟩ := h
  obtain ⟨h1, h2, h3⟩ := kmeans_components hk (normRow_same hW hd hb hc hsvd) hs
  obtain ⟨hr, d, hd', ho⟩ := hsvd
  refine ⟨fun a => ?_, fun a => ?_, fun i => h1 i, h2, h3⟩
  · show (lansvd _).S a ≤ 1
    rw [(ho a).1]; exact normW_sv_le hW hd hd' _
  · show (lansvd _).S a = 1 ↔ _
    rw [(ho a).1, ones_first hW hd hb hc hd']; rfl

/-- **C115** the rows given to k-means are defined: the row of a node is never zero, its normalised form has norm 1, and rows of different components are orthogonal. -/
theorem c115_rows {W : Matrix (Fin n) (Fin n) ℝ} (hW : IsAffinity W) (hd : ∀ i, 0 < degrees W i) (hb : NoBipartite W) {comp : Fin n → Fin k} (hc : Components W k comp) {o : LanSvdOut n (5 * k)}
    (h : IsLeadingSvd (normalizedSymmetricW W) o) (i j : Fin n) :
    leadingRow o.V i ≠ 0 ∧ ⟪normalizeRw (leadingRow o.V) i, normalizeRw (leadingRow o.V) j⟫ = if comp i = comp j then 1 else 0 := normRow_inner hW hd hb hc h i j

/-- **C115** the sparse function computes the same as the dense one. -/
theorem c115_sparse {lansvd : Matrix (Fin n) (Fin n) ℝ → LanSvdOut n (5 * k)} (W : Coo n) {seeds : List (ℕ → ℕ)} {sol : FastSolution n k} :
    NormalizedSymmetricSparseFastK k lansvd W seeds sol ↔ NormalizedSymmetricFastK k lansvd W.dense seeds sol := by
  unfold NormalizedSymmetricSparseFastK NormalizedSymmetricFastK
  rw [c56_sparse]

/-! ## Concrete graphs -/

/-- Casting an SVD with rational entries. -/
def ratSvd (U : Fin n → Fin n → ℚ) (S : Fin n → ℚ) (VH : Fin n → Fin n → ℚ) : SquareSvd n := { U := fun i j => (U i j : ℝ), S := fun i => (S i : ℝ), VH := fun i j => (VH i j : ℝ) }

theorem ratSvd_ok {U VH N : Fin n → Fin n → ℚ} {S : Fin n → ℚ} (h1 : ∀ i j, ∑ l, U l i * U l j = if i = j then 1 else 0) (h2 : ∀ i j, ∑ l, VH i l * VH j l = if i = j then 1 else 0)
    (h3 : ∀ i j, N i j = ∑ l, U i l * S l * VH l j) (h4 : ∀ a, 0 ≤ S a) (h5 : ∀ a b, a ≤ b → S b ≤ S a) : IsSquareSvd (fun i j => (N i j : ℝ)) (ratSvd U S VH) := by
  constructor
  · ext i j
    rw [Matrix.mul_apply, Matrix.one_apply]
    have := congrArg (Rat.cast : ℚ → ℝ) (h1 i j)
    rw [apply_ite (Rat.cast : ℚ → ℝ)] at this
    push_cast at this
    exact this
  · ext i j
    rw [Matrix.mul_apply, Matrix.one_apply]
    have := congrArg (Rat.cast : ℚ → ℝ) (h2 i j)
    rw [apply_ite (Rat.cast : ℚ → ℝ)] at this
    push_cast at this
    exact this
  · ext i j
    rw [Matrix.mul_apply]
    simp only [mul_diagonal]
    have := congrArg (Rat.cast : ℚ → ℝ) (h3 i j)
    push_cast at this
    simpa [ratSvd] using this
  · intro a
    show (0 : ℝ) ≤ (S a : ℝ)
    exact_mod_cast h4 a
  · intro a b hab
    show (S b : ℝ) ≤ (S a : ℝ)
    exact_mod_cast h5 a b hab

/-- A normalised matrix with rational entries: `r i ^ 2` is the degree of `i`. -/
theorem normW_rat {W N : Fin n → Fin n → ℚ} {r : Fin n → ℚ} (hr : ∀ i, 0 < r i) (hdeg : ∀ j, ∑ i, W i j = r j ^ 2) (hN : ∀ i j, N i j = W i j / (r i * r j)) :
    (∀ i, 0 < degrees (fun i j => (W i j : ℝ)) i) ∧ normalizedSymmetricW (fun i j => (W i j : ℝ)) = fun i j => (N i j : ℝ) := by
  have hd : ∀ j, degrees (fun i j => (W i j : ℝ)) j = (r j : ℝ) ^ 2 := by
    intro j
    have := congrArg (Rat.cast : ℚ → ℝ) (hdeg j)
    push_cast at this
    exact this
  have hr' : ∀ i, (0 : ℝ) < r i := fun i => by exact_mod_cast hr i
  refine ⟨fun i => by rw [hd]; exact pow_pos (hr' i) 2, ?_⟩
  ext i j
  unfold normalizedSymmetricW
  rw [hd, hd, rpow_half_inv (pow_pos (hr' i) 2), rpow_half_inv (pow_pos (hr' j) 2), Real.sqrt_sq (hr' i).le, Real.sqrt_sq (hr' j).le, hN]
  push_cast
  have := (hr' i).ne'
  have := (hr' j).ne'
  field_simp

/-- Ten nodes in two groups of five. -/
def tenComp (i : Fin 10) : Fin 2 := ⟨i.1 / 5, by omega⟩

/-- Each group is a star around its first node. -/
def starW (i j : Fin 10) : ℚ := if i.1 / 5 = j.1 / 5 ∧ ((i.1 % 5 = 0) ≠ (j.1 % 5 = 0)) then 1 else 0

/-- Square roots of the degrees. -/
def starR (i : Fin 10) : ℚ := if i.1 % 5 = 0 then 2 else 1

/-- Half of a Hadamard matrix. -/
def had (a b : ℕ) : ℚ := (if (a &&& b) = 0 ∨ (a &&& b) = 3 then 1 else -1) / 2

/-- The basis vectors: the centre of a group, or a Hadamard vector on its leaves. -/
def starBasis (g a : ℕ) (i : Fin 10) : ℚ := if i.1 / 5 ≠ g then 0 else if i.1 % 5 = 0 then (if a = 0 then 1 else 0) else if a = 0 then 0 else had (a - 1) (i.1 % 5 - 1)

/-- The right singular vectors: first those of the first star. -/
def starVH (a i : Fin 10) : ℚ := match a.1 with
  | 0 => starBasis 0 0 i | 1 => starBasis 0 1 i | 2 => starBasis 1 0 i | 3 => starBasis 1 1 i | 4 => starBasis 0 2 i | 5 => starBasis 0 3 i | 6 => starBasis 0 4 i | 7 => starBasis 1 2 i | 8 => starBasis 1 3 i | _ => starBasis 1 4 i

/-- The left singular vectors: centre and leaves swapped. -/
def starU (i a : Fin 10) : ℚ := match a.1 with
  | 0 => starBasis 0 1 i | 1 => starBasis 0 0 i | 2 => starBasis 1 1 i | 3 => starBasis 1 0 i | 4 => starBasis 0 2 i | 5 => starBasis 0 3 i | 6 => starBasis 0 4 i | 7 => starBasis 1 2 i | 8 => starBasis 1 3 i | _ => starBasis 1 4 i

/-- The singular values. -/
def starS (a : Fin 10) : ℚ := if a.1 < 4 then 1 else 0

theorem star_norm : (∀ i, 0 < degrees (fun i j => (starW i j : ℝ)) i) ∧ normalizedSymmetricW (fun i j => (starW i j : ℝ)) = fun i j => ((starW i j / (starR i * starR j) : ℚ) : ℝ) :=
  normW_rat (r := starR) (by decide +kernel) (by decide +kernel) fun _ _ => rfl

theorem star_svd : IsSquareSvd (normalizedSymmetricW fun i j => (starW i j : ℝ)) (ratSvd starU starS starVH) := by
  rw [star_norm.2]
  exact ratSvd_ok (by decide +kernel) (by decide +kernel) (by decide +kernel) (by decide +kernel) (by decide +kernel)

theorem path_via {W : Matrix (Fin n) (Fin n) ℝ} {comp : Fin n → Fin k} (centre : Fin k → Fin n) (h : ∀ i, i = centre (comp i) ∨ (0 < W i (centre (comp i)) ∧ 0 < W (centre (comp i)) i)) (i j : Fin n)
    (hij : comp i = comp j) : Relation.ReflTransGen (fun a b => 0 < W a b) i j := by
  have h1 : Relation.ReflTransGen (fun a b => 0 < W a b) i (centre (comp i)) := by
    rcases h i with h | h
    · rw [← h]
    · exact .single h.1
  have h2 : Relation.ReflTransGen (fun a b => 0 < W a b) (centre (comp j)) j := by
    rcases h j with h | h
    · rw [← h]
    · exact .single h.2
  rw [hij] at h1
  exact h1.trans h2

/-- The centre of each group. -/
def tenCentre (c : Fin 2) : Fin 10 := ⟨5 * c.1, by omega⟩

theorem star_components : Components (fun i j => (starW i j : ℝ)) 2 tenComp := by
  refine ⟨fun c => ⟨tenCentre c, by revert c; decide⟩, fun i j h => ?_, path_via tenCentre fun i => ?_⟩
  · have h' : 0 < starW i j := by exact_mod_cast h
    have : ∀ i j, 0 < starW i j → tenComp i = tenComp j := by decide +kernel
    exact this i j h'
  · have : ∀ i, i = tenCentre (tenComp i) ∨ (0 < starW i (tenCentre (tenComp i)) ∧ 0 < starW (tenCentre (tenComp i)) i) := by decide +kernel
    exact_mod_cast this i

theorem star_tail : ∀ (i : Fin 10) (t : Fin 2), 5 ≤ i.1 → starVH ⟨t.1, t.2.trans (by norm_num)⟩ i = 0 := by decide +kernel

/-- **C115** needs components which are not bipartite: for two disjoint stars of five nodes with `k = 2`, an exact SVD may return two singular vectors of the first star. Then the rows of the centre and of the leaves of the first star are orthogonal unit vectors
although they are in one component, and all rows of the second star are zero, so that normalising them divides zero by zero. -/
theorem c115_bipartite_fails : ∃ (W : Matrix (Fin 10) (Fin 10) ℝ) (comp : Fin 10 → Fin 2) (o : LanSvdOut 10 (5 * 2)), IsAffinity W ∧ (∀ i, 0 < degrees W i) ∧ Components W 2 comp ∧
    IsLeadingSvd (normalizedSymmetricW W) o ∧ comp 0 = comp 1 ∧ ‖leadingRow o.V 0‖ = 1 ∧ leadingRow o.V 1 ≠ 0 ∧ ⟪leadingRow o.V 0, leadingRow o.V 1⟫ = 0 ∧ ∀ i, 5 ≤ i → leadingRow o.V i = 0 := by
  refine ⟨fun i j => (starW i j : ℝ), tenComp, { S := (ratSvd starU starS starVH).S, V := fun i a => (starVH a i : ℝ) }, ⟨fun i j => ?_, fun i j => ?_⟩, star_norm.1, star_components,
    ⟨le_refl _, _, star_svd, fun a => ⟨rfl, fun i => rfl⟩⟩, by decide, ?_, ?_, ?_, ?_⟩
  · have : ∀ i j, starW i j = starW j i := by decide +kernel
    exact congrArg _ (this i j)
  · have : ∀ i j, 0 ≤ starW i j := by decide +kernel
    show (0 : ℝ) ≤ (starW i j : ℝ)
    exact_mod_cast this i j
  · rw [EuclideanSpace.norm_eq]
    simp [leadingRow, Fin.sum_univ_succ, starVH, starBasis]
  · intro h
    have := congrFun (congrArg WithLp.ofLp h) 1
    simp [leadingRow, starVH, starBasis, had] at this
  · simp [leadingRow, PiLp.inner_apply, Fin.sum_univ_succ, starVH, starBasis]
  · intro i hi
    ext t
    simp only [leadingRow]
    split_ifs with hi2
    · have := star_tail ⟨i, hi2⟩ t hi
      simp [this]
    · rfl

/-- Each group is a complete weighted graph with loops: nodes have weights 4, 4, 4, 4, 9 and the weight of an edge is the product. -/
def fullR (i : Fin 10) : ℚ := if i.1 % 5 = 4 then 3 else 2
def fullW (i j : Fin 10) : ℚ := if i.1 / 5 = j.1 / 5 then (fullR i * fullR j) ^ 2 else 0

/-- A reflection whose first row is the normalised vector of roots of the weights. -/
def reflRow (a b : ℕ) : ℚ :=
  let v : ℕ → ℚ := fun t => if t = 0 then -3 else if t = 4 then 3 else 2
  (if a = b then 1 else 0) - v a * v b / 15

def fullVH (a i : Fin 10) : ℚ :=
  let g := if a.1 < 2 then a.1 else (a.1 - 2) / 4
  let r := if a.1 < 2 then 0 else (a.1 - 2) % 4 + 1
  if i.1 / 5 = g then reflRow r (i.1 % 5) else 0

def fullS (a : Fin 10) : ℚ := if a.1 < 2 then 1 else 0

theorem full_norm : (∀ i, 0 < degrees (fun i j => (fullW i j : ℝ)) i) ∧ normalizedSymmetricW (fun i j => (fullW i j : ℝ)) = fun i j => ((fullW i j / (5 * fullR i * (5 * fullR j)) : ℚ) : ℝ) :=
  normW_rat (r := fun i => 5 * fullR i) (by decide +kernel) (by decide +kernel) fun _ _ => rfl

theorem full_svd : IsSquareSvd (normalizedSymmetricW fun i j => (fullW i j : ℝ)) (ratSvd (fun i a => fullVH a i) fullS fullVH) := by
  rw [full_norm.2]
  exact ratSvd_ok (by decide +kernel) (by decide +kernel) (by decide +kernel) (by decide +kernel) (by decide +kernel)

theorem full_pos : ∀ i j, tenComp i = tenComp j ↔ 0 < fullW i j := by decide +kernel

theorem full_components : Components (fun i j => (fullW i j : ℝ)) 2 tenComp := by
  refine ⟨fun c => ⟨tenCentre c, by revert c; decide⟩, fun i j h => (full_pos i j).mpr (by exact_mod_cast h), fun i j h => .single ?_⟩
  exact_mod_cast (full_pos i j).mp h

theorem full_affinity : IsAffinity (fun i j => (fullW i j : ℝ)) := by
  refine ⟨fun i j => ?_, fun i j => ?_⟩
  · have : ∀ i j, fullW i j = fullW j i := by decide +kernel
    exact congrArg _ (this i j)
  · have : ∀ i j, 0 ≤ fullW i j := by decide +kernel
    exact_mod_cast this i j

theorem full_noBipartite : NoBipartite (fun i j => (fullW i j : ℝ)) := by
  intro y h i
  have h1 : 0 < fullW i i := (full_pos i i).mp rfl
  have := h i i (by show (0 : ℝ) < (fullW i i : ℝ); exact_mod_cast h1)
  linarith

/-- The hypotheses of `c115_fast_k_partial` are met by two complete groups of five nodes, with a seed that hits both. -/
example : ∃ (lansvd : Matrix (Fin 10) (Fin 10) ℝ → LanSvdOut 10 (5 * 2)) (W : Matrix (Fin 10) (Fin 10) ℝ) (sol : FastSolution 10 2), IsAffinity W ∧ (∀ i, 0 < degrees W i) ∧ NoBipartite W ∧ Components W 2 tenComp ∧
    IsLeadingSvd (normalizedSymmetricW W) (lansvd (normalizedSymmetricW W)) ∧ NormalizedSymmetricFastK 2 lansvd W [fun t => 5 * t] sol ∧
    ∃ seed ∈ [fun t => 5 * t], ∀ c, ∃ t < 2, ∃ i : Fin 10, seed t = i.1 ∧ tenComp i = c := by
  set o : LanSvdOut 10 (5 * 2) := { S := (ratSvd (fun i a => fullVH a i) fullS fullVH).S, V := fun i a => (fullVH a i : ℝ) }
  obtain ⟨s, hs⟩ := (c54_terminates (normalizeRw (leadingRow o.V)) 10 2 (fun t => 5 * t) 1e-5 100).1
  refine ⟨fun _ => o, fun i j => (fullW i j : ℝ), _, full_affinity, full_norm.1, full_noBipartite, full_components, ⟨le_refl _, _, full_svd, fun a => ⟨rfl, fun i => rfl⟩⟩, ⟨s, ⟨[s], .cons hs .nil, ?_⟩, rfl⟩,
    fun t => 5 * t, List.mem_singleton_self _, fun c => ⟨c.1, c.2, tenCentre c, rfl, by revert c; decide⟩⟩
  obtain ⟨s', h1, h2, -⟩ := c54_kmeans_selects [s] (by simp)
  rw [h1, List.mem_singleton.mp h2]

/-- The leading singular vectors of the ten point graph. -/
def fullLan : LanSvdOut 10 (5 * 2) := { S := (ratSvd (fun i a => fullVH a i) fullS fullVH).S, V := fun i a => (fullVH a i : ℝ) }

theorem fullLan_ok : IsLeadingSvd (normalizedSymmetricW fun i j => (fullW i j : ℝ)) fullLan := ⟨le_refl _, _, full_svd, fun a => ⟨rfl, fun i => rfl⟩⟩

example (sol : FastSolution 10 2) (h : NormalizedSymmetricFastK 2 (fun _ => fullLan) (fun i j => (fullW i j : ℝ)) [fun t => 5 * t] sol) :=
  c115_fast_k_partial full_affinity full_norm.1 full_noBipartite (by norm_num) full_components fullLan_ok h

example := c115_rows full_affinity full_norm.1 full_noBipartite full_components fullLan_ok 3 8

end Verif.Cluster
