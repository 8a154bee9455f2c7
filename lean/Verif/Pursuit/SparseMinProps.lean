import Verif.Pursuit.IhtConvProps

set_option autoImplicit false
/-!
# C148: what IHT and HTP converge to, as minimisers of the sparse least squares problem
-/
noncomputable section
namespace Verif.Pursuit
open Verif.Loop Filter Topology

variable {𝕜 : Type*} [RCLike 𝕜] {E : Type*} [NormedAddCommGroup E] [InnerProductSpace 𝕜 E]

/-- `x` has at most `K` non-zero entries and no vector with at most `K` non-zero entries fits the data better. -/
structure SparseMin (phi : ℕ → E) (n : ℕ) (y : E) (K : ℕ) (x : ℕ → 𝕜) : Prop where
  sparse : SparseOn n K x
  least : ∀ z : ℕ → 𝕜, SparseOn n K z → ‖y - synth phi n x‖ ≤ ‖y - synth phi n z‖

/-- **C148** a limit of IHT, or a result of HTP stopped by its support rule, is a local minimiser of the sparse least squares problem: no vector with at most `K` non-zero entries that is non-zero wherever
`x` is non-zero fits the data better. -/
theorem c148_local (phi : ℕ → E) (n : ℕ) (mu : ℝ) (hmu : 0 < mu) (y : E) (K : ℕ) (x : ℕ → 𝕜) (h : HardFixed phi n mu y K x)
    (z : ℕ → 𝕜) (hz : SparseOn n K z) (hsupp : ∀ i, x i ≠ 0 → z i ≠ 0) : ‖y - synth phi n x‖ ≤ ‖y - synth phi n z‖ := by
  classical
  obtain ⟨h1, -, h3⟩ := c147_fixed_optimality phi n mu hmu y K x h
  by_cases hc : ((Finset.range n).filter fun i => x i ≠ 0).card < K
  · exact (h3 hc).2 z
  push Not at hc
  obtain ⟨Z, hZn, hZK, hZ⟩ := hz
  have hsub : ((Finset.range n).filter fun i => x i ≠ 0) ⊆ Z := by
    intro i hi
    by_contra hiZ
    exact hsupp i (Finset.mem_filter.mp hi).2 (hZ i hiZ)
  have hEq := Finset.eq_of_subset_of_card_le hsub (hZK.trans hc)
  have e : y - synth phi n z = (y - synth phi n x) - synth phi n (fun i => z i - x i) := by rw [synth_sub]; abel
  refine (pow_le_pow_iff_left₀ (norm_nonneg _) (norm_nonneg _) two_ne_zero).mp ?_
  have h0 : inner 𝕜 (y - synth phi n x) (synth phi n (fun i => z i - x i)) = 0 := by
    conv_lhs => arg 3; rw [synth]
    rw [_root_.inner_sum]
    refine Finset.sum_eq_zero fun i hi => ?_
    by_cases hxi : x i = 0
    · have : z i = 0 := hZ i fun hm => by
        rw [← hEq] at hm
        exact (Finset.mem_filter.mp hm).2 hxi
      rw [hxi, this, sub_zero, zero_smul, inner_zero_right]
    · rw [inner_smul_right, ← inner_conj_symm, h1 i hxi]; simp
  rw [e, @norm_sub_sq 𝕜 _ _ _ _ (y - synth phi n x) (synth phi n fun i => z i - x i), h0]
  simp

/-- **C148** the same in terms of distance: within the smallest non-zero magnitude of `x` no sparse vector fits better. -/
theorem c148_local_radius (phi : ℕ → E) (n : ℕ) (mu : ℝ) (hmu : 0 < mu) (y : E) (K : ℕ) (x : ℕ → 𝕜) (h : HardFixed phi n mu y K x) (ε : ℝ) (hε : ∀ i, x i ≠ 0 → ε ≤ ‖x i‖)
    (z : ℕ → 𝕜) (hz : SparseOn n K z) (hd : ∀ i, ‖z i - x i‖ < ε) : ‖y - synth phi n x‖ ≤ ‖y - synth phi n z‖ := by
  refine c148_local phi n mu hmu y K x h z hz fun i hi h0 => ?_
  have := hd i
  rw [h0, zero_sub, norm_neg] at this
  exact absurd (hε i hi) (not_le.mpr this)

/-- **C148** every global minimiser of the sparse least squares problem is kept by IHT's gradient and thresholding step, for a step of at most `1/|Phi|²`. -/
theorem c148_global_fixed (phi : ℕ → E) (n : ℕ) (mu : ℝ) (hb : ∀ z : ℕ → 𝕜, mu * ‖synth phi n z‖ ^ 2 ≤ ∑ i ∈ Finset.range n, ‖z i‖ ^ 2) (hmu : 0 < mu)
    (y : E) (K : ℕ) (x : ℕ → 𝕜) (h : SparseMin phi n y K x) : HardFixed phi n mu y K x := by
  refine ⟨h.sparse, fun z hz => ?_⟩
  have hle := h.least z hz
  have hsq : ‖y - synth phi n x‖ ^ 2 ≤ ‖y - synth phi n z‖ ^ 2 := pow_le_pow_left₀ (norm_nonneg _) hle 2
  have e : y - synth phi n z = (y - synth phi n x) - synth phi n (fun i => z i - x i) := by rw [synth_sub]; abel
  rw [e, @norm_sub_sq 𝕜 _ _ _ _ (y - synth phi n x) (synth phi n fun i => z i - x i), re_inner_synth] at hsq
  have hbd := hb fun i => z i - x i
  set r := y - synth phi n x with hr
  have e2 : ∀ i ∈ Finset.range n, ‖x i + (mu : 𝕜) * inner 𝕜 (phi i) r - z i‖ ^ 2 =
      ‖(mu : 𝕜) * inner 𝕜 (phi i) r‖ ^ 2 - 2 * mu * RCLike.re (inner 𝕜 (inner 𝕜 (phi i) r) (z i - x i)) + ‖z i - x i‖ ^ 2 := by
    intro i _
    have : x i + (mu : 𝕜) * inner 𝕜 (phi i) r - z i = (mu : 𝕜) * inner 𝕜 (phi i) r - (z i - x i) := by ring
    rw [this, @norm_sub_sq 𝕜, ← smul_eq_mul, inner_smul_left, RCLike.conj_ofReal, RCLike.re_ofReal_mul]; ring
  rw [Finset.sum_congr rfl e2, Finset.sum_add_distrib, Finset.sum_sub_distrib, ← Finset.mul_sum]
  nlinarith

/-- **C148** IHT converges to a local minimiser of the sparse least squares problem whose residual norm is at most that of every iterate. -/
theorem c148_iht_limit (phi : ℕ → E) (n : ℕ) (mu ρ : ℝ) (hmu : 0 < mu) (hρ : ρ < 1) (hb : ∀ z : ℕ → 𝕜, mu * ‖synth phi n z‖ ^ 2 ≤ ρ * ∑ i ∈ Finset.range n, ‖z i‖ ^ 2)
    (y : E) (K : ℕ) (hK : K ≤ n) (hsp : SparkGt 𝕜 phi n K) :
    ∃ x : ℕ → 𝕜, (∀ i, Tendsto (fun k => ihtSig phi n mu y K k i) atTop (𝓝 (x i))) ∧ SparseOn n K x ∧
      (∀ z : ℕ → 𝕜, SparseOn n K z → (∀ i, x i ≠ 0 → z i ≠ 0) → ‖y - synth phi n x‖ ≤ ‖y - synth phi n z‖) ∧
      ∀ k, ‖y - synth phi n x‖ ≤ ‖(ihtSeq (𝕜 := 𝕜) phi n mu y K k).r‖ := by
  obtain ⟨x, hx, hlim, hr⟩ := c147_iht_converges phi n mu ρ hmu hρ hb y K hK hsp
  refine ⟨x, hlim, hx.sparse, fun z hz hs => c148_local phi n mu hmu y K x hx z hz hs, fun k => ?_⟩
  refine le_of_tendsto hr (eventually_atTop.mpr ⟨k, fun l hl => ?_⟩)
  induction l, hl using Nat.le_induction with
  | base => exact le_rfl
  | succ l _ ih =>
    refine le_trans ?_ ih
    have hd := c147_iht_descent phi n mu ρ hmu hb y K hK _ _ (ihtSeq_reach (𝕜 := 𝕜) phi n mu y K l)
    rw [← ihtSeq_succ] at hd
    have hc : 0 ≤ (1 - ρ) / mu := div_nonneg (by linarith) hmu.le
    refine (pow_le_pow_iff_left₀ (norm_nonneg _) (norm_nonneg _) two_ne_zero).mp ((le_add_of_nonneg_right ?_).trans hd)
    exact mul_nonneg hc (Finset.sum_nonneg fun i _ => by positivity)

/-! ## Non-vacuity -/

example (x : ℕ → ℝ) (h : HardFixed exAtoms4 4 (1 / 2) !₂[1, 1, 1, 1] 2 x) (z : ℕ → ℝ) (hz : SparseOn 4 2 z) (hs : ∀ i, x i ≠ 0 → z i ≠ 0) :=
  c148_local (𝕜 := ℝ) exAtoms4 4 (1 / 2) (by norm_num) !₂[1, 1, 1, 1] 2 x h z hz hs

/-- The best fit with one atom of data along the first atom. -/
theorem ex_sparseMin : SparseMin (𝕜 := ℝ) exAtoms4 4 (exAtoms4 0) 1 (fun i => if i = 0 then 1 else 0) := by
  refine ⟨⟨{0}, by simp, by simp, fun i hi => by simp at hi; simp [hi]⟩, fun z _ => ?_⟩
  have : exAtoms4 0 - synth (𝕜 := ℝ) exAtoms4 4 (fun i => if i = 0 then 1 else 0) = 0 := by
    simp [synth]
  rw [this, norm_zero]
  exact norm_nonneg _

example : HardFixed (𝕜 := ℝ) exAtoms4 4 1 (exAtoms4 0) 1 (fun i => if i = 0 then 1 else 0) :=
  c148_global_fixed exAtoms4 4 1 ex_frame4 one_pos _ 1 _ ex_sparseMin
example := c148_local_radius (𝕜 := ℝ) exAtoms4 4 1 one_pos (exAtoms4 0) 1 (fun i => if i = 0 then 1 else 0)
  (c148_global_fixed exAtoms4 4 1 ex_frame4 one_pos _ 1 _ ex_sparseMin) 1 (fun i hi => by by_cases h : i = 0 <;> simp_all)
example := c148_iht_limit (𝕜 := ℝ) exAtoms4 4 (1 / 2) (1 / 2) (by norm_num) (by norm_num) ex_frame_half !₂[1, 1, 1, 1] 2 (by norm_num) (ex_spark4 2)

end Verif.Pursuit
