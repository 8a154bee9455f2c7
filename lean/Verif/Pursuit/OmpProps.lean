import Verif.Pursuit.OmpModel
import Verif.Pursuit.MpProps

set_option autoImplicit false
/-!
# Orthogonal matching pursuit (C45, C46)
-/
noncomputable section
namespace Verif.Pursuit
open Verif.Loop
open scoped RealInnerProductSpace

/-! ## Triangular solves and the Cholesky update -/

/-- `L` is a lower triangular matrix of order `k` with non-zero diagonal. -/
structure LowerTri (L : ℕ → ℕ → ℝ) (k : ℕ) : Prop where
  zero : ∀ i j, i < j → j < k → L i j = 0
  diag : ∀ i, i < k → L i i ≠ 0

theorem fwdSub_spec {L : ℕ → ℕ → ℝ} {k : ℕ} (hL : LowerTri L k) (b : ℕ → ℝ) {i : ℕ} (hi : i < k) :
    ∑ j ∈ Finset.range k, L i j * fwdSub L b j = b i := by
  have h1 : ∑ j ∈ Finset.range k, L i j * fwdSub L b j = ∑ j ∈ Finset.range (i + 1), L i j * fwdSub L b j := by
    symm
    refine Finset.sum_subset (fun j hj => by simp at hj ⊢; omega) fun j hj hj' => ?_
    simp at hj hj'
    rw [hL.zero i j (by omega) hj, zero_mul]
  rw [h1, Finset.sum_range_succ]
  conv_lhs => rw [fwdSub.eq_def L b i]
  rw [mul_div_cancel₀ _ (hL.diag i hi), Finset.sum_range fun j => L i j * fwdSub L b j]
  ring

theorem backSub_spec {L : ℕ → ℕ → ℝ} {k : ℕ} (hL : LowerTri L k) (b : ℕ → ℝ) {i : ℕ} (hi : i < k) :
    ∑ j ∈ Finset.range k, L j i * backSub L k b j = b i := by
  have e : k = i + (1 + (k - (i + 1))) := by omega
  have h1 : ∑ j ∈ Finset.range k, L j i * backSub L k b j = L i i * backSub L k b i + ∑ j ∈ Finset.range (k - (i + 1)), L (i + 1 + j) i * backSub L k b (i + 1 + j) := by
    conv_lhs => rw [e]
    rw [Finset.sum_range_add, Finset.sum_range_add]
    have z : ∑ j ∈ Finset.range i, L j i * backSub L (i + (1 + (k - (i + 1)))) b j = 0 :=
      Finset.sum_eq_zero fun j hj => by rw [hL.zero j i (by simpa using hj) hi, zero_mul]
    rw [z, zero_add, ← e]
    simp [add_assoc]
  rw [h1]
  conv_lhs => rw [backSub.eq_def L k b i]
  rw [mul_div_cancel₀ _ (hL.diag i hi), Finset.sum_range fun j => L (i + 1 + j) i * backSub L k b (i + 1 + j)]
  ring

/-- `solve_spd_chol` solves `(L Lᵀ) x = b`. -/
theorem solveSpdChol_spec {L : ℕ → ℕ → ℝ} {k : ℕ} (hL : LowerTri L k) (b : ℕ → ℝ) {i : ℕ} (hi : i < k) :
    ∑ j ∈ Finset.range k, (∑ l ∈ Finset.range k, L i l * L j l) * solveSpdChol L k b j = b i := by
  rw [← fwdSub_spec hL b hi]
  simp only [Finset.sum_mul]
  rw [Finset.sum_comm]
  refine Finset.sum_congr rfl fun l hl => ?_
  rw [← backSub_spec hL (fwdSub L b) (Finset.mem_range.mp hl), Finset.mul_sum]
  exact Finset.sum_congr rfl fun j _ => by rw [solveSpdChol]; ring

variable {E : Type*} [NormedAddCommGroup E] [InnerProductSpace ℝ E]

theorem lin_ne_zero {a : ℕ → E} {k : ℕ} {r u : E} (horth : ∀ i, i < k → ⟪a i, r⟫ = 0) (hu : ⟪u, r⟫ ≠ 0) (c : ℕ → ℝ) :
    u - ∑ j ∈ Finset.range k, c j • a j ≠ 0 := by
  intro h
  have : ⟪u - ∑ j ∈ Finset.range k, c j • a j, r⟫ = 0 := by rw [h, inner_zero_left]
  rw [inner_sub_left, sum_inner] at this
  have z : ∑ j ∈ Finset.range k, ⟪c j • a j, r⟫ = 0 :=
    Finset.sum_eq_zero fun j hj => by rw [real_inner_smul_left, horth j (Finset.mem_range.mp hj), mul_zero]
  rw [z, sub_zero] at this
  exact hu this

/-- The factor of the Gram matrix of the first `k` vectors `a`. -/
def IsChol (L : ℕ → ℕ → ℝ) (k : ℕ) (a : ℕ → E) : Prop :=
  LowerTri L k ∧ ∀ i j, i < k → j < k → ∑ l ∈ Finset.range k, L i l * L j l = ⟪a i, a j⟫

/-- **C45** (Cholesky update) if `L Lᵀ` is the Gram matrix of `k` vectors, `u` is a unit vector outside their span (its residual is non-zero for all
coefficients), then `gram_chol_update` returns the Cholesky factor of the Gram matrix of the `k + 1` vectors, with positive last pivot. -/
theorem c45_gram_chol_update {L : ℕ → ℕ → ℝ} {k : ℕ} {a : ℕ → E} (h : IsChol L k a) (u : E) (hu : ‖u‖ = 1)
    (hind : ∀ c : ℕ → ℝ, u - ∑ j ∈ Finset.range k, c j • a j ≠ 0) :
    IsChol (gramCholUpdate L k fun j => ⟪a j, u⟫) (k + 1) (Function.update a k u) ∧ 0 < gramCholUpdate L k (fun j => ⟪a j, u⟫) k k := by
  obtain ⟨hL, hG⟩ := h
  set v : ℕ → ℝ := fun j => ⟪a j, u⟫ with hv
  set w := fwdSub L v with hw
  have hLw : ∀ i, i < k → ∑ j ∈ Finset.range k, L i j * w j = v i := fun i hi => fwdSub_spec hL v hi
  -- the distance of `u` from the span
  have hpos : 0 < 1 - ∑ j ∈ Finset.range k, w j * w j := by
    set c := backSub L k w with hc
    have hLc : ∀ i, i < k → ∑ j ∈ Finset.range k, L j i * c j = w i := fun i hi => backSub_spec hL w hi
    have hcv : ∑ i ∈ Finset.range k, c i * v i = ∑ j ∈ Finset.range k, w j * w j := by
      calc ∑ i ∈ Finset.range k, c i * v i = ∑ i ∈ Finset.range k, ∑ j ∈ Finset.range k, c i * (L i j * w j) :=
            Finset.sum_congr rfl fun i hi => by rw [← hLw i (Finset.mem_range.mp hi), Finset.mul_sum]
        _ = ∑ j ∈ Finset.range k, ∑ i ∈ Finset.range k, c i * (L i j * w j) := Finset.sum_comm
        _ = _ := Finset.sum_congr rfl fun j hj => by
            conv_rhs => rw [← hLc j (Finset.mem_range.mp hj)]
            rw [Finset.sum_mul]
            exact Finset.sum_congr rfl fun i _ => by rw [← hLc j (Finset.mem_range.mp hj)]; ring
    have hcc : ⟪∑ j ∈ Finset.range k, c j • a j, ∑ j ∈ Finset.range k, c j • a j⟫ = ∑ j ∈ Finset.range k, w j * w j := by
      rw [← hcv, sum_inner]
      refine Finset.sum_congr rfl fun i hi => ?_
      rw [real_inner_smul_left, _root_.inner_sum]
      congr 1
      rw [← hLw i (Finset.mem_range.mp hi)]
      calc ∑ j ∈ Finset.range k, ⟪a i, c j • a j⟫ = ∑ j ∈ Finset.range k, ∑ l ∈ Finset.range k, L i l * (L j l * c j) :=
            Finset.sum_congr rfl fun j hj => by
              rw [real_inner_smul_right, ← hG i j (Finset.mem_range.mp hi) (Finset.mem_range.mp hj), Finset.mul_sum]
              exact Finset.sum_congr rfl fun l _ => by ring
        _ = ∑ l ∈ Finset.range k, ∑ j ∈ Finset.range k, L i l * (L j l * c j) := Finset.sum_comm
        _ = _ := Finset.sum_congr rfl fun l hl => by rw [← Finset.mul_sum, hLc l (Finset.mem_range.mp hl)]
    have hcu : ⟪u, ∑ j ∈ Finset.range k, c j • a j⟫ = ∑ j ∈ Finset.range k, w j * w j := by
      rw [← hcv, _root_.inner_sum]
      exact Finset.sum_congr rfl fun i _ => by rw [real_inner_smul_right, real_inner_comm]
    have hn := norm_pos_iff.mpr (hind c)
    have e : ‖u - ∑ j ∈ Finset.range k, c j • a j‖ ^ 2 = 1 - ∑ j ∈ Finset.range k, w j * w j := by
      rw [norm_sub_sq_real, hcu, ← real_inner_self_eq_norm_sq (∑ j ∈ Finset.range k, c j • a j), hcc, hu]; ring
    rw [← e]; positivity
  set s := Real.sqrt (1 - ∑ j ∈ Finset.range k, w j * w j) with hs
  have hs0 : 0 < s := Real.sqrt_pos.mpr hpos
  have hss : s * s = 1 - ∑ j ∈ Finset.range k, w j * w j := Real.mul_self_sqrt hpos.le
  set M := gramCholUpdate L k v with hM
  have m1 : ∀ i j, i < k → j < k → M i j = L i j := fun i j hi hj => by simp [hM, gramCholUpdate, hi, hj]
  have m2 : ∀ i, i < k → M i k = 0 := fun i hi => by simp [hM, gramCholUpdate, hi]
  have m3 : ∀ j, j < k → M k j = w j := fun j hj => by simp [hM, gramCholUpdate, hj, hw]
  have m4 : M k k = s := by simp [hM, gramCholUpdate, hs, hw]
  have g1 : ∀ i j, i < k → j < k → ∑ l ∈ Finset.range (k + 1), M i l * M j l = ⟪a i, a j⟫ := by
    intro i j hi hj
    rw [Finset.sum_range_succ, m2 i hi, zero_mul, add_zero, ← hG i j hi hj]
    exact Finset.sum_congr rfl fun l hl => by rw [m1 i l hi (Finset.mem_range.mp hl), m1 j l hj (Finset.mem_range.mp hl)]
  have g2 : ∀ i, i < k → ∑ l ∈ Finset.range (k + 1), M i l * M k l = ⟪a i, u⟫ := by
    intro i hi
    rw [Finset.sum_range_succ, m2 i hi, zero_mul, add_zero]
    have : v i = ⟪a i, u⟫ := rfl
    rw [← this, ← hLw i hi]
    exact Finset.sum_congr rfl fun l hl => by rw [m1 i l hi (Finset.mem_range.mp hl), m3 l (Finset.mem_range.mp hl)]
  have g3 : ∑ l ∈ Finset.range (k + 1), M k l * M k l = ⟪u, u⟫ := by
    rw [Finset.sum_range_succ, m4, hss, real_inner_self_eq_norm_sq, hu]
    rw [Finset.sum_congr rfl fun l hl => by rw [m3 l (Finset.mem_range.mp hl)]]; ring
  refine ⟨⟨⟨?_, ?_⟩, ?_⟩, by rw [m4]; exact hs0⟩
  · intro i j hij hj
    rcases Nat.lt_succ_iff_lt_or_eq.mp hj with hj | rfl
    · rw [m1 i j (by omega) hj]; exact hL.zero i j hij hj
    · exact m2 i hij
  · intro i hi
    rcases Nat.lt_succ_iff_lt_or_eq.mp hi with hi | rfl
    · rw [m1 i i hi hi]; exact hL.diag i hi
    · rw [m4]; exact hs0.ne'
  · intro i j hi hj
    rcases Nat.lt_succ_iff_lt_or_eq.mp hi with hi | rfl
    · rw [Function.update_of_ne (by omega)]
      rcases Nat.lt_succ_iff_lt_or_eq.mp hj with hj | rfl
      · rw [Function.update_of_ne (by omega)]; exact g1 i j hi hj
      · rw [Function.update_self]; exact g2 i hi
    · rw [Function.update_self]
      rcases Nat.lt_succ_iff_lt_or_eq.mp hj with hj | rfl
      · rw [Function.update_of_ne (by omega), real_inner_comm, ← g2 j hj]
        exact Finset.sum_congr rfl fun l _ => mul_comm _ _
      · rw [Function.update_self]; exact g3

/-! ## The algorithm -/

/-- What is expected of an OMP state: the selected atoms are atoms of the dictionary, pairwise distinct and linearly independent; the residual
is `y` minus the combination of the selected atoms with the returned coefficients; the residual is orthogonal to every selected atom (least
squares); its squared norm is reported. -/
structure OmpGood (phi : ℕ → E) (n : ℕ) (y : E) (s : OmpState E) : Prop where
  range : ∀ i, i < s.k → s.I i < n
  distinct : ∀ i j, i < s.k → j < s.k → s.I i = s.I j → i = j
  indep : ∀ c : ℕ → ℝ, ∑ i ∈ Finset.range s.k, c i • phi (s.I i) = 0 → ∀ i, i < s.k → c i = 0
  residual : s.r = y - ∑ i ∈ Finset.range s.k, s.x i • phi (s.I i)
  orth : ∀ i, i < s.k → ⟪phi (s.I i), s.r⟫ = 0

structure OmpInv (phi : ℕ → E) (n : ℕ) (y : E) (s : OmpState E) : Prop extends OmpGood phi n y s where
  atoms : ∀ i, i < s.k → s.phiI i = phi (s.I i)
  chol : IsChol s.L s.k s.phiI

theorem ompInit_inv (phi : ℕ → E) {n : ℕ} (hn : 0 < n) (hu : ∀ i, i < n → ‖phi i‖ = 1) (y : E) : OmpInv phi n y (ompInit phi n y) := by
  obtain ⟨hb, -⟩ := best_spec phi hn y
  have e := corr_getD (𝕜 := ℝ) phi n y hb
  set b := absMaxIdx (corr ℝ phi n y) with hbd
  have hnorm : ⟪phi b, phi b⟫ = 1 := by rw [real_inner_self_eq_norm_sq, hu b hb]; ring
  have hne : phi b ≠ 0 := by rw [← norm_pos_iff, hu b hb]; exact one_pos
  have k1 : ∀ i, i < (ompInit phi n y).k → i = 0 := fun i hi => by simp [ompInit] at hi; exact hi
  refine ⟨⟨fun i _ => hb, fun i j hi hj _ => by rw [k1 i hi, k1 j hj], ?_, ?_, ?_⟩, fun i _ => rfl, ⟨?_, ?_⟩, ?_⟩
  · intro c hc i hi
    rw [k1 i hi]
    simpa [ompInit, ← hbd, hne] using hc
  · simp [ompInit]
  · intro i _
    show ⟪phi b, y - (corr ℝ phi n y).getD b 0 • phi b⟫ = 0
    rw [e, inner_sub_right, real_inner_smul_right, hnorm]; ring
  · intro i j hij hj
    have := k1 j hj; omega
  · intro i _; simp [ompInit]
  · intro i j _ _
    show ∑ l ∈ Finset.range 1, (1 : ℝ) * 1 = ⟪phi b, phi b⟫
    rw [hnorm]; simp

theorem ompStep_inv (phi : ℕ → E) {n : ℕ} (hn : 0 < n) (hu : ∀ i, i < n → ‖phi i‖ = 1) (y : E) (s : OmpState E) (h : OmpInv phi n y s)
    (hcor : ∃ i, i < n ∧ ⟪phi i, s.r⟫ ≠ 0) : OmpInv phi n y (ompStep phi n y s) := by
  obtain ⟨hb, hmax⟩ := best_spec phi hn s.r
  set b := absMaxIdx (corr ℝ phi n s.r) with hbd
  have hbne : ⟪phi b, s.r⟫ ≠ 0 := by
    obtain ⟨i, hi, hne⟩ := hcor
    intro h0
    have := hmax i hi
    rw [h0, abs_zero] at this
    exact hne (abs_nonpos_iff.mp this)
  have hind : ∀ c : ℕ → ℝ, phi b - ∑ j ∈ Finset.range s.k, c j • s.phiI j ≠ 0 :=
    lin_ne_zero (fun i hi => by rw [h.atoms i hi]; exact h.orth i hi) hbne
  have hch := (c45_gram_chol_update h.chol (phi b) (hu b hb) hind).1
  have hk : (ompStep phi n y s).k = s.k + 1 := rfl
  have hI : (ompStep phi n y s).I = Function.update s.I s.k b := rfl
  have hP : (ompStep phi n y s).phiI = Function.update s.phiI s.k (phi b) := rfl
  have hatoms : ∀ i, i < s.k + 1 → Function.update s.phiI s.k (phi b) i = phi (Function.update s.I s.k b i) := by
    intro i hi
    rcases Nat.lt_succ_iff_lt_or_eq.mp hi with hi | rfl
    · rw [Function.update_of_ne (by omega), Function.update_of_ne (by omega)]; exact h.atoms i hi
    · rw [Function.update_self, Function.update_self]
  have hrange : ∀ i, i < s.k + 1 → Function.update s.I s.k b i < n := by
    intro i hi
    rcases Nat.lt_succ_iff_lt_or_eq.mp hi with hi | rfl
    · rw [Function.update_of_ne (by omega)]; exact h.range i hi
    · rw [Function.update_self]; exact hb
  have hnew : ∀ i, i < s.k → s.I i ≠ b := by
    intro i hi hEq
    exact hbne (by rw [← hEq]; exact h.orth i hi)
  have hres : (ompStep phi n y s).r = y - ∑ i ∈ Finset.range (s.k + 1), (ompStep phi n y s).x i • phi (Function.update s.I s.k b i) := by
    show y - ∑ j ∈ Finset.range (s.k + 1), (ompStep phi n y s).x j • Function.update s.phiI s.k (phi b) j = _
    congr 1
    exact Finset.sum_congr rfl fun i hi => by rw [hatoms i (Finset.mem_range.mp hi)]
  refine ⟨⟨?_, ?_, ?_, ?_, ?_⟩, ?_, ?_⟩
  · rw [hk, hI]; exact hrange
  · rw [hk, hI]
    intro i j hi hj hij
    rcases Nat.lt_succ_iff_lt_or_eq.mp hi with hi | rfl
    · rw [Function.update_of_ne (by omega)] at hij
      rcases Nat.lt_succ_iff_lt_or_eq.mp hj with hj | rfl
      · rw [Function.update_of_ne (by omega)] at hij; exact h.distinct i j hi hj hij
      · rw [Function.update_self] at hij; exact absurd hij (hnew i hi)
    · rw [Function.update_self] at hij
      rcases Nat.lt_succ_iff_lt_or_eq.mp hj with hj | rfl
      · rw [Function.update_of_ne (by omega)] at hij; exact absurd hij.symm (hnew j hj)
      · rfl
  · rw [hk, hI]
    intro c hc
    rw [Finset.sum_range_succ, Function.update_self] at hc
    have hlow : ∀ i, i < s.k → Function.update s.I s.k b i = s.I i := fun i hi => Function.update_of_ne (by omega) _ _
    have hsum : ∑ i ∈ Finset.range s.k, c i • phi (Function.update s.I s.k b i) = ∑ i ∈ Finset.range s.k, c i • phi (s.I i) :=
      Finset.sum_congr rfl fun i hi => by rw [hlow i (Finset.mem_range.mp hi)]
    rw [hsum] at hc
    have hck : c s.k = 0 := by
      have h1 : ⟪∑ i ∈ Finset.range s.k, c i • phi (s.I i) + c s.k • phi b, s.r⟫ = 0 := by rw [hc, inner_zero_left]
      rw [inner_add_left, sum_inner, real_inner_smul_left] at h1
      have z : ∑ i ∈ Finset.range s.k, ⟪c i • phi (s.I i), s.r⟫ = 0 :=
        Finset.sum_eq_zero fun i hi => by rw [real_inner_smul_left, h.orth i (Finset.mem_range.mp hi), mul_zero]
      rw [z, zero_add] at h1
      exact (mul_eq_zero.mp h1).resolve_right hbne
    rw [hck, zero_smul, add_zero] at hc
    intro i hi
    rcases Nat.lt_succ_iff_lt_or_eq.mp hi with hi | rfl
    · exact h.indep c hc i hi
    · exact hck
  · rw [hk, hI]; exact hres
  · rw [hk, hI]
    intro i hi
    have hsol := solveSpdChol_spec hch.1 (fun j => (corr ℝ phi n y).getD (Function.update s.I s.k b j) 0) hi
    rw [corr_getD phi n y (hrange i hi)] at hsol
    rw [hres, inner_sub_right, _root_.inner_sum, sub_eq_zero, ← hsol]
    refine Finset.sum_congr rfl fun j hj => ?_
    rw [hch.2 i j hi (Finset.mem_range.mp hj), hatoms i hi, hatoms j (Finset.mem_range.mp hj), real_inner_smul_right, mul_comm]
    rfl
  · rw [hk, hI, hP]; exact hatoms
  · rw [hk, hP]; exact hch

/-- Least squares: orthogonality of the residual is minimality over all coefficients. -/
theorem OmpGood.least_squares {phi : ℕ → E} {n : ℕ} {y : E} {s : OmpState E} (h : OmpGood phi n y s) (z : ℕ → ℝ) :
    ‖s.r‖ ≤ ‖y - ∑ i ∈ Finset.range s.k, z i • phi (s.I i)‖ := by
  have e : y - ∑ i ∈ Finset.range s.k, z i • phi (s.I i) = s.r + ∑ i ∈ Finset.range s.k, (s.x i - z i) • phi (s.I i) := by
    rw [h.residual]; simp only [sub_smul, Finset.sum_sub_distrib]; abel
  have ho : ⟪s.r, ∑ i ∈ Finset.range s.k, (s.x i - z i) • phi (s.I i)⟫ = 0 := by
    rw [_root_.inner_sum]
    exact Finset.sum_eq_zero fun i hi => by rw [real_inner_smul_right, real_inner_comm, h.orth i (Finset.mem_range.mp hi), mul_zero]
  refine (pow_le_pow_iff_left₀ (norm_nonneg _) (norm_nonneg _) two_ne_zero).mp ?_
  rw [e, norm_add_sq_real, ho]
  nlinarith [sq_nonneg ‖∑ i ∈ Finset.range s.k, (s.x i - z i) • phi (s.I i)‖]

/-- The states of `matrix_solve` after each pass. -/
def ompSeq (phi : ℕ → E) (n : ℕ) (y : E) (j : ℕ) : OmpState E := (ompStep phi n y)^[j] (ompInit phi n y)

theorem ompSeq_inv (phi : ℕ → E) {n : ℕ} (hn : 0 < n) (hu : ∀ i, i < n → ‖phi i‖ = 1) (y : E) (j : ℕ)
    (hcor : ∀ j', j' < j → ∃ i, i < n ∧ ⟪phi i, (ompSeq phi n y j').r⟫ ≠ 0) : OmpInv phi n y (ompSeq phi n y j) := by
  induction j with
  | zero => exact ompInit_inv phi hn hu y
  | succ j ih =>
    have e : ompSeq phi n y (j + 1) = ompStep phi n y (ompSeq phi n y j) := by simp only [ompSeq, Function.iterate_succ_apply']
    rw [e]
    exact ompStep_inv phi hn hu y _ (ih fun j' hj' => hcor j' (by omega)) (hcor j (by omega))

theorem ompSeq_k (phi : ℕ → E) (n : ℕ) (y : E) (j : ℕ) : (ompSeq phi n y j).k = j + 1 := by
  induction j with
  | zero => rfl
  | succ j ih =>
    have e : ompSeq phi n y (j + 1) = ompStep phi n y (ompSeq phi n y j) := by simp only [ompSeq, Function.iterate_succ_apply']
    rw [e]; show (ompSeq phi n y j).k + 1 = _; rw [ih]

/-- **C45, C46** for a dictionary of unit-norm atoms: while the residual is correlated with some atom, the state of OMP after every pass has one atom
per pass, the atoms are distinct and linearly independent, the coefficients are the least-squares solution on them (residual orthogonal to each
selected atom, and no other coefficients do better), and the reported squared norm is that of the residual. -/
theorem c45_omp_least_squares_partial (phi : ℕ → E) (n : ℕ) (hn : 0 < n) (hu : ∀ i, i < n → ‖phi i‖ = 1) (y : E) (j : ℕ)
    (hcor : ∀ j', j' < j → ∃ i, i < n ∧ ⟪phi i, (ompSeq phi n y j').r⟫ ≠ 0) :
    (ompSeq phi n y j).k = j + 1 ∧ OmpGood phi n y (ompSeq phi n y j) ∧
    (∀ z : ℕ → ℝ, ‖(ompSeq phi n y j).r‖ ≤ ‖y - ∑ i ∈ Finset.range (j + 1), z i • phi ((ompSeq phi n y j).I i)‖) ∧
    (ompSeq phi n y j).rr = ‖(ompSeq phi n y j).r‖ ^ 2 := by
  have h := ompSeq_inv phi hn hu y j hcor
  refine ⟨ompSeq_k phi n y j, h.toOmpGood, fun z => ?_, ?_⟩
  · have := h.toOmpGood.least_squares z
    rwa [ompSeq_k] at this
  · cases j with
    | zero => rfl
    | succ j => simp only [ompSeq, Function.iterate_succ_apply']; rfl

theorem ompStep_decrease (phi : ℕ → E) {n : ℕ} (hn : 0 < n) (hu : ∀ i, i < n → ‖phi i‖ = 1) (y : E) (s : OmpState E) (h : OmpInv phi n y s)
    (hcor : ∃ i, i < n ∧ ⟪phi i, s.r⟫ ≠ 0) : ‖(ompStep phi n y s).r‖ < ‖s.r‖ := by
  have h' := ompStep_inv phi hn hu y s h hcor
  obtain ⟨hb, hmax⟩ := best_spec phi hn s.r
  set b := absMaxIdx (corr ℝ phi n s.r) with hbd
  have hbne : ⟪phi b, s.r⟫ ≠ 0 := by
    obtain ⟨i, hi, hne⟩ := hcor
    intro h0
    have := hmax i hi
    rw [h0, abs_zero] at this
    exact hne (abs_nonpos_iff.mp this)
  have hls := h'.toOmpGood.least_squares (Function.update s.x s.k ⟪phi b, s.r⟫)
  have hk : (ompStep phi n y s).k = s.k + 1 := rfl
  have hI : (ompStep phi n y s).I = Function.update s.I s.k b := rfl
  rw [hk, hI, Finset.sum_range_succ, Function.update_self, Function.update_self] at hls
  have hsum : ∑ i ∈ Finset.range s.k, Function.update s.x s.k ⟪phi b, s.r⟫ i • phi (Function.update s.I s.k b i) =
      ∑ i ∈ Finset.range s.k, s.x i • phi (s.I i) :=
    Finset.sum_congr rfl fun i hi => by
      have : i ≠ s.k := by have := Finset.mem_range.mp hi; omega
      rw [Function.update_of_ne this, Function.update_of_ne this]
  rw [hsum, ← sub_sub, ← h.residual] at hls
  refine lt_of_le_of_lt hls ?_
  refine (pow_lt_pow_iff_left₀ (norm_nonneg _) (norm_nonneg _) two_ne_zero).mp ?_
  rw [norm_sub_sq_real, real_inner_smul_right, norm_smul, hu _ hb, real_inner_comm, Real.norm_eq_abs, mul_one, sq_abs]
  have : 0 < ⟪phi b, s.r⟫ ^ 2 := by positivity
  rw [real_inner_comm] at this
  nlinarith

/-- **C46** each pass strictly shrinks the residual norm while the residual is correlated with some atom. -/
theorem c46_omp_strict_decrease_partial (phi : ℕ → E) (n : ℕ) (hn : 0 < n) (hu : ∀ i, i < n → ‖phi i‖ = 1) (y : E) (j : ℕ)
    (hcor : ∀ j', j' ≤ j → ∃ i, i < n ∧ ⟪phi i, (ompSeq phi n y j').r⟫ ≠ 0) : ‖(ompSeq phi n y (j + 1)).r‖ < ‖(ompSeq phi n y j).r‖ := by
  have e : ompSeq phi n y (j + 1) = ompStep phi n y (ompSeq phi n y j) := by simp only [ompSeq, Function.iterate_succ_apply']
  rw [e]
  exact ompStep_decrease phi hn hu y _ (ompSeq_inv phi hn hu y j fun j' hj' => hcor j' hj'.le) (hcor j le_rfl)

/-- **C46** what `matrix_solve` returns: exactly `max_iters` atoms when `max_iters ≥ 2`; an error for `max_iters ≤ 1`. -/
theorem c46_matrix_solve (phi : ℕ → E) (n : ℕ) (y : E) (K : ℕ) :
    (2 ≤ K → ompMatrixSolve phi n y K = some (ompSeq phi n y (K - 1)) ∧ (ompSeq phi n y (K - 1)).k = K) ∧
    (K ≤ 1 → ompMatrixSolve phi n y K = none) := by
  refine ⟨fun hK => ⟨by simp only [ompMatrixSolve, if_neg (by omega : ¬ K ≤ 1)]; rfl, by rw [ompSeq_k]; omega⟩, fun hK => by
    simp only [ompMatrixSolve, if_pos hK]⟩

theorem ompOp_step_eq (phi : ℕ → E) (n : ℕ) (y : E) : ompStep phi n y (ompOpInit phi n y) = ompStep phi n y (ompInit phi n y) := rfl

/-- **C45, C46** `operator_solve` on a dictionary of unit-norm atoms that spans (every non-zero vector is correlated with some atom), for
`y ≠ 0` whose first residual is non-zero: the result has at most `K` distinct, linearly independent atoms, `r = y - Phi_I x_I`, the residual is
orthogonal to every selected atom; it meets the tolerance `|r|² ≤ rtol² |y|²` or has `K` atoms, provided more than the first atom was selected;
and the search returns. -/
theorem c46_operator_solve_partial (phi : ℕ → E) (n : ℕ) (hn : 0 < n) (hu : ∀ i, i < n → ‖phi i‖ = 1)
    (hspan : ∀ r : E, r ≠ 0 → ∃ i, i < n ∧ ⟪phi i, r⟫ ≠ 0) (y : E) (hy : y ≠ 0) (K : ℕ) (hK : 1 ≤ K) (rtol : ℝ)
    (hfirst : (ompInit phi n ((1 / ‖y‖) • y)).r ≠ 0) :
    (∃ s, OmpOperatorSolve phi n y K rtol s) ∧
    ∀ s, OmpOperatorSolve phi n y K rtol s → OmpGood phi n y s ∧ 1 ≤ s.k ∧ s.k ≤ K ∧
      (2 ≤ s.k → s.rr = ‖s.r‖ ^ 2 ∧ (‖s.r‖ ^ 2 ≤ rtol ^ 2 * ‖y‖ ^ 2 ∨ s.k = K)) := by
  set u := (1 / ‖y‖) • y with hud
  have hny : 0 < ‖y‖ := norm_pos_iff.mpr hy
  constructor
  · obtain ⟨t, ht⟩ : ∃ t, Out (ompCond K rtol) (ompStep phi n u) (ompOpInit phi n u) t :=
      exists_out (fun s => s.k) K (fun s h => h.2) fun s => Nat.lt_succ_self _
    exact ⟨_, t, ht, rfl⟩
  rintro s ⟨t, ⟨hr, hc⟩, rfl⟩
  have hinv : OmpInv phi n u t ∧ 1 ≤ t.k ∧ t.k ≤ K ∧ (2 ≤ t.k → t.rr = ‖t.r‖ ^ 2) ∧ (t.k = 1 → t.r ≠ 0) := by
    refine hr.inv (fun t => OmpInv phi n u t ∧ 1 ≤ t.k ∧ t.k ≤ K ∧ (2 ≤ t.k → t.rr = ‖t.r‖ ^ 2) ∧ (t.k = 1 → t.r ≠ 0)) ?_ ?_
    · have h0 := ompInit_inv phi hn hu u
      exact ⟨⟨⟨h0.range, h0.distinct, h0.indep, h0.residual, h0.orth⟩, h0.atoms, h0.chol⟩, le_rfl, hK, fun h => by simp [ompOpInit, ompInit] at h, fun _ => hfirst⟩
    · rintro t ⟨h1, h2, h3, h4, h5⟩ hcd
      have hne : t.r ≠ 0 := by
        by_cases hk : t.k = 1
        · exact h5 hk
        · intro h0
          have := hcd.1
          rw [h4 (by omega), h0, norm_zero] at this
          nlinarith [sq_nonneg rtol]
      refine ⟨ompStep_inv phi hn hu u t h1 (hspan _ hne), ?_, hcd.2, fun _ => rfl, fun h => ?_⟩
      · show 1 ≤ t.k + 1; omega
      · have : t.k + 1 = 1 := h
        omega
  obtain ⟨h1, h2, h3, h4, -⟩ := hinv
  have hres : ‖y‖ • t.r = y - ∑ i ∈ Finset.range t.k, (‖y‖ * t.x i) • phi (t.I i) := by
    rw [h1.residual, smul_sub, hud, smul_smul, mul_one_div_cancel hny.ne', one_smul, Finset.smul_sum]
    simp only [smul_smul]
  refine ⟨⟨h1.range, h1.distinct, h1.indep, hres, fun i hi => ?_⟩, h2, h3, fun hk => ⟨?_, ?_⟩⟩
  · show ⟪phi (t.I i), ‖y‖ • t.r⟫ = 0
    rw [real_inner_smul_right, h1.orth i hi, mul_zero]
  · show t.rr * ‖y‖ ^ 2 = ‖‖y‖ • t.r‖ ^ 2
    rw [h4 hk, norm_smul, norm_norm]; ring
  · show ‖‖y‖ • t.r‖ ^ 2 ≤ rtol ^ 2 * ‖y‖ ^ 2 ∨ t.k = K
    have hc' := hc
    unfold ompCond at hc'
    rw [h4 hk] at hc'
    by_cases hkK : t.k = K
    · exact .inr hkK
    · left
      have : ¬ ‖t.r‖ ^ 2 > rtol ^ 2 := fun hgt => hc' ⟨hgt, by omega⟩
      rw [norm_smul, norm_norm, mul_pow]
      push Not at this
      nlinarith [sq_nonneg ‖y‖]

/-- The hypotheses of `c45_omp_least_squares_partial` hold in a concrete case with two atoms: `1, i` in the plane `ℂ`, `y = 2 + i`, two passes. -/
theorem ex_corr : ∀ j', j' < 1 → ∃ i, i < 2 ∧ ⟪(fun i => if i = 0 then (1 : ℂ) else Complex.I) i, (ompSeq (fun i => if i = 0 then (1 : ℂ) else Complex.I) 2 ⟨2, 1⟩ j').r⟫ ≠ 0 := by
  intro j' hj'
  obtain rfl : j' = 0 := by omega
  set phi : ℕ → ℂ := fun i => if i = 0 then (1 : ℂ) else Complex.I with hphi
  have i0 : ∀ z : ℂ, ⟪phi 0, z⟫ = z.re := fun z => by simp [hphi, Complex.inner]
  have i1 : ∀ z : ℂ, ⟪phi 1, z⟫ = z.im := fun z => by simp [hphi, Complex.inner]
  obtain ⟨hb, hmax⟩ := best_spec phi (n := 2) (by norm_num) (⟨2, 1⟩ : ℂ)
  have hb0 : absMaxIdx (corr ℝ phi 2 (⟨2, 1⟩ : ℂ)) = 0 := by
    by_contra hne
    have h1 : absMaxIdx (corr ℝ phi 2 (⟨2, 1⟩ : ℂ)) = 1 := by omega
    have := hmax 0 (by norm_num)
    rw [h1, i0, i1] at this
    norm_num at this
  refine ⟨1, by norm_num, ?_⟩
  have hr : (ompSeq phi 2 (⟨2, 1⟩ : ℂ) 0).r = Complex.I := by
    show (⟨2, 1⟩ : ℂ) - (corr ℝ phi 2 ⟨2, 1⟩).getD (absMaxIdx (corr ℝ phi 2 (⟨2, 1⟩ : ℂ))) 0 • phi (absMaxIdx (corr ℝ phi 2 (⟨2, 1⟩ : ℂ))) = _
    rw [hb0, corr_getD phi 2 _ (by norm_num), i0]
    apply Complex.ext <;> simp [hphi]
  rw [hr, i1]; simp

/-- **C46 fails** when the residual becomes zero before `max_iters`: for the dictionary with the single atom `1` and `y = 1`, `matrix_solve` with `max_iters = 2`
selects the atom `0` twice and the new pivot of the Cholesky factor is `0` (the code then divides by it). -/
theorem c46_zero_residual_fails : ∃ s : OmpState ℝ, ompMatrixSolve (fun _ => (1 : ℝ)) 1 1 2 = some s ∧ s.k = 2 ∧ s.I 0 = s.I 1 ∧ s.L 1 1 = 0 := by
  obtain ⟨hb, -⟩ := best_spec (fun _ => (1 : ℝ)) (n := 1) one_pos (1 : ℝ)
  refine ⟨_, by simp [ompMatrixSolve]; rfl, rfl, ?_, ?_⟩
  · have h1 := (best_spec (fun _ => (1 : ℝ)) (n := 1) one_pos (ompInit (fun _ => (1 : ℝ)) 1 1).r).1
    set t := ompInit (fun _ => (1 : ℝ)) 1 (1 : ℝ) with ht
    have e0 : (ompStep (fun _ => (1 : ℝ)) 1 1 t).I 0 = absMaxIdx (corr ℝ (fun _ => (1 : ℝ)) 1 (1 : ℝ)) := by
      show Function.update t.I t.k (absMaxIdx (corr ℝ (fun _ => (1 : ℝ)) 1 t.r)) 0 = _
      rw [Function.update_of_ne (by simp [ht, ompInit])]; rfl
    have e1 : (ompStep (fun _ => (1 : ℝ)) 1 1 t).I 1 = absMaxIdx (corr ℝ (fun _ => (1 : ℝ)) 1 t.r) := by
      show Function.update t.I 1 (absMaxIdx (corr ℝ (fun _ => (1 : ℝ)) 1 t.r)) 1 = _
      rw [Function.update_self]
    show (ompStep (fun _ => (1 : ℝ)) 1 1 t).I 0 = (ompStep (fun _ => (1 : ℝ)) 1 1 t).I 1
    rw [e0, e1]
    omega
  · show gramCholUpdate (fun _ _ => 1) 1 (fun _ => ⟪(1 : ℝ), 1⟫) 1 1 = 0
    have hf : fwdSub (fun _ _ => 1) (fun _ => 1) 0 = 1 := by rw [fwdSub]; simp
    simp [gramCholUpdate, hf]

/-- **C46 fails** `operator_solve` with `K = 1` reports the norm of `y` as the residual norm: for the single atom `1` and `y = 1` the residual is `0`
and the reported squared norm is `1`. -/
theorem c46_operator_K1_fails : ∃ s : OmpState ℝ, OmpOperatorSolve (fun _ => (1 : ℝ)) 1 1 1 0 s ∧ s.k = 1 ∧ s.r = 0 ∧ s.rr = 1 := by
  obtain ⟨hb, -⟩ := best_spec (fun _ => (1 : ℝ)) (n := 1) one_pos (1 : ℝ)
  refine ⟨_, ⟨ompOpInit (fun _ => (1 : ℝ)) 1 ((1 / ‖(1 : ℝ)‖) • (1 : ℝ)), ⟨.init, fun h => absurd h.2 (by simp [ompOpInit, ompInit])⟩, rfl⟩, rfl, ?_, ?_⟩
  · have e : (1 / ‖(1 : ℝ)‖) • (1 : ℝ) = 1 := by norm_num
    rw [e]
    show ‖(1 : ℝ)‖ • ((1 : ℝ) - (corr ℝ (fun _ => (1 : ℝ)) 1 1).getD _ 0 • (1 : ℝ)) = 0
    rw [corr_getD _ _ _ hb]; norm_num
  · show ‖(1 / ‖(1 : ℝ)‖) • (1 : ℝ)‖ ^ 2 * ‖(1 : ℝ)‖ ^ 2 = 1
    norm_num

theorem absMaxIdx_eq_zero (phi : ℕ → E) {n : ℕ} (hn : 0 < n) (r : E) (h : ∀ i, i < n → |⟪phi i, r⟫| ≤ |⟪phi 0, r⟫|) : absMaxIdx (corr ℝ phi n r) = 0 := by
  have hne : corr ℝ phi n r ≠ [] := by
    intro h
    have := corr_length (𝕜 := ℝ) phi n r
    rw [h] at this
    simp at this
    omega
  obtain ⟨h1, -, h3⟩ := c51_abs_max_idx (corr ℝ phi n r) hne
  rw [corr_length] at h1
  by_contra h0
  have := h3 0 (Nat.pos_of_ne_zero h0)
  rw [corr_getD phi n r hn, corr_getD phi n r h1, Real.norm_eq_abs, Real.norm_eq_abs] at this
  exact absurd (h _ h1) (not_le.mpr this)

theorem first_atom_second_pass (phi : ℕ → E) (n : ℕ) (hn : 0 < n) (hu : ∀ i, i < n → ‖phi i‖ = 1) (c : ℝ) :
    (ompInit phi n (c • phi 0)).I 0 = 0 ∧ (ompInit phi n (c • phi 0)).r = 0 ∧
    ∀ s : OmpState E, s.k = 1 → s.I = (ompInit phi n (c • phi 0)).I → s.r = 0 → s.L = (ompInit phi n (c • phi 0)).L → s.phiI = (ompInit phi n (c • phi 0)).phiI →
      (ompStep phi n (c • phi 0) s).I 0 = 0 ∧ (ompStep phi n (c • phi 0) s).I 1 = 0 ∧ (ompStep phi n (c • phi 0) s).L 1 1 = 0 := by
  have h00 : ⟪phi 0, phi 0⟫ = 1 := by rw [real_inner_self_eq_norm_sq, hu 0 hn]; norm_num
  have e1 : absMaxIdx (corr ℝ phi n (c • phi 0)) = 0 := absMaxIdx_eq_zero phi hn _ fun i hi => by
    rw [real_inner_smul_right, real_inner_smul_right, abs_mul, abs_mul, h00, abs_one]
    refine mul_le_mul_of_nonneg_left ?_ (abs_nonneg _)
    have := abs_real_inner_le_norm (phi i) (phi 0)
    rwa [hu i hi, hu 0 hn, one_mul] at this
  refine ⟨e1, ?_, ?_⟩
  · show c • phi 0 - (corr ℝ phi n (c • phi 0)).getD (absMaxIdx (corr ℝ phi n (c • phi 0))) 0 • phi (absMaxIdx (corr ℝ phi n (c • phi 0))) = 0
    rw [e1, corr_getD phi n _ hn, real_inner_smul_right, h00, mul_one, sub_self]
  · intro s hk hI hr hL hP
    have e2 : absMaxIdx (corr ℝ phi n s.r) = 0 := absMaxIdx_eq_zero phi hn _ fun i hi => by simp [hr]
    refine ⟨?_, ?_, ?_⟩
    · show Function.update s.I s.k (absMaxIdx (corr ℝ phi n s.r)) 0 = 0
      rw [hk, Function.update_of_ne (by norm_num), hI]; exact e1
    · show Function.update s.I s.k (absMaxIdx (corr ℝ phi n s.r)) 1 = 0
      rw [hk, Function.update_self, e2]
    · show gramCholUpdate s.L s.k (fun j => ⟪s.phiI j, phi (absMaxIdx (corr ℝ phi n s.r))⟫) 1 1 = 0
      rw [hk, hL, hP, e2]
      have hf : fwdSub (fun _ _ => 1) (fun j => ⟪(ompInit phi n (c • phi 0)).phiI j, phi 0⟫) 0 = 1 := by
        rw [fwdSub]
        show (⟪phi (absMaxIdx (corr ℝ phi n (c • phi 0))), phi 0⟫ - _) / _ = _
        rw [e1, h00]; simp
      show gramCholUpdate (fun _ _ => 1) 1 _ 1 1 = 0
      simp [gramCholUpdate, hf]

/-- **C46 fails** on every non-zero multiple of the first atom, for every dictionary of unit-norm atoms: the first pass is an exact fit, yet `matrix_solve` with `max_iters = 2`, and
`operator_solve` with `K ≥ 2` and any tolerance below one, make a second pass, which selects the same atom again and gives the Cholesky factor the pivot `0` (the code then divides by it). -/
theorem c46_first_atom_fails (phi : ℕ → E) (n : ℕ) (hn : 0 < n) (hu : ∀ i, i < n → ‖phi i‖ = 1) (c : ℝ) (hc : c ≠ 0) (K : ℕ) (hK : 2 ≤ K) (rtol : ℝ) (ht : |rtol| < 1) :
    (∃ s, ompMatrixSolve phi n (c • phi 0) 2 = some s ∧ s.I 0 = 0 ∧ s.I 1 = 0 ∧ s.L 1 1 = 0) ∧
    ∃ s, Reach (ompCond K rtol) (ompStep phi n ((1 / ‖c • phi 0‖) • (c • phi 0))) (ompOpInit phi n ((1 / ‖c • phi 0‖) • (c • phi 0))) s ∧
      s.I 0 = 0 ∧ s.I 1 = 0 ∧ s.L 1 1 = 0 := by
  constructor
  · obtain ⟨-, h1, h2⟩ := first_atom_second_pass phi n hn hu c
    exact ⟨_, rfl, h2 _ rfl rfl h1 rfl rfl⟩
  · have hy : ‖(1 / ‖c • phi 0‖) • (c • phi 0)‖ = 1 := by
      rw [norm_smul, norm_smul, hu 0 hn]
      have : |c| ≠ 0 := abs_ne_zero.mpr hc
      simp [this]
    rw [smul_smul] at hy ⊢
    obtain ⟨-, h1, h2⟩ := first_atom_second_pass phi n hn hu (1 / ‖c • phi 0‖ * c)
    refine ⟨_, .step .init ⟨?_, ?_⟩, h2 _ rfl rfl h1 rfl rfl⟩
    · show ‖(1 / ‖c • phi 0‖ * c) • phi 0‖ ^ 2 > rtol ^ 2
      rw [hy]
      have := (sq_lt_one_iff_abs_lt_one rtol).mpr ht
      linarith
    · show 1 < K
      omega

example : ∀ i, i < 1 → ‖(fun _ : ℕ => (1 : ℝ)) i‖ = 1 := by simp

/-! Instances on the atoms `1`, `i` of the plane and the signal `2 + i`. -/

/-- The first factor `[[1]]` of one unit atom, extended by an independent one. -/
example (L : ℕ → ℕ → ℝ) (h : IsChol L 1 fun _ => (1 : ℂ)) := c45_gram_chol_update h Complex.I (by simp) (fun c hc => by
  simpa using congrArg Complex.im hc)
example := c45_omp_least_squares_partial (fun i => if i = 0 then (1 : ℂ) else Complex.I) 2 (by norm_num) ex_unit2 ⟨2, 1⟩ 1 ex_corr
example := c46_omp_strict_decrease_partial (fun i => if i = 0 then (1 : ℂ) else Complex.I) 2 (by norm_num) ex_unit2 ⟨2, 1⟩ 0 (fun j' h => ex_corr j' (by omega))
example (hf : (ompInit (fun i => if i = 0 then (1 : ℂ) else Complex.I) 2 ((1 / ‖(⟨2, 1⟩ : ℂ)‖) • (⟨2, 1⟩ : ℂ))).r ≠ 0) :=
  c46_operator_solve_partial (fun i => if i = 0 then (1 : ℂ) else Complex.I) 2 (by norm_num) ex_unit2 (fun r hr => by
    by_cases h : r.re = 0
    · refine ⟨1, by norm_num, fun h1 => hr (Complex.ext h ?_)⟩
      simpa [Complex.inner] using h1
    · exact ⟨0, by norm_num, fun h1 => h (by simpa [Complex.inner] using h1)⟩) ⟨2, 1⟩ (fun h => by simpa using congrArg Complex.re h) 2 (by norm_num) 0 hf
example := c46_first_atom_fails (fun i => if i = 0 then (1 : ℂ) else Complex.I) 2 (by norm_num) ex_unit2 3 (by norm_num) 2 le_rfl (1e-3) (by norm_num [abs_lt])

end Verif.Pursuit
