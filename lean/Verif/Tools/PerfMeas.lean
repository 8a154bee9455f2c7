import Verif.Tools.PerfProps
import Verif.Pursuit.RipProps
import Verif.Pursuit.CoherenceRip

set_option autoImplicit false
/-!
# Recovery performance in the measurement space (C76)

The residual and the measurement SNR of tools/performance.py, and what they say about the recovery error when the dictionary has the restricted isometry property.
-/
noncomputable section
namespace Verif.Tools
open Verif.Pursuit

variable {E : Type*} [NormedAddCommGroup E] [InnerProductSpace ℝ E]

/-- `r = y - Phi @ x_hat` (tools/performance.py:127-128) for a dictionary with `N` atoms. -/
def measR (phi : ℕ → E) (N : ℕ) (y : E) (xhat : List ℝ) : E := y - synth phi N fun i => xhat.getD i 0

/-- `measurement_snr` (tools/performance.py:132), for `y ≠ 0`; `⊤` is the `inf` for a zero residual. -/
def measSnr (phi : ℕ → E) (N : ℕ) (y : E) (xhat : List ℝ) : WithTop ℝ :=
  if ‖measR phi N y xhat‖ = 0 then ⊤ else ((20 * Real.logb 10 (‖y‖ / ‖measR phi N y xhat‖) : ℝ) : WithTop ℝ)

/-- `h_by_r_norms` (tools/performance.py:134); `none` is the `inf` or NaN of a zero residual. -/
def hByR (phi : ℕ → E) (N : ℕ) (y : E) (x xhat : List ℝ) : Option ℝ :=
  if ‖measR phi N y xhat‖ = 0 then none else some (listNorm (perfH x xhat) / ‖measR phi N y xhat‖)

theorem l2_list (x : List ℝ) : l2 x.length (fun i => x.getD i 0) = listNorm x := by
  unfold l2 listNorm
  congr 1
  induction x with
  | nil => simp
  | cons a l ih => rw [List.length_cons, Finset.sum_range_succ', List.map_cons, List.sum_cons, add_comm]; simpa using ih

theorem l2_perfH (x xhat : List ℝ) : l2 x.length (fun i => x.getD i 0 - xhat.getD i 0) = listNorm (perfH x xhat) := by
  rw [← l2_list, perfH_length]
  unfold l2
  congr 1
  refine Finset.sum_congr rfl fun i hi => ?_
  show ‖x.getD i 0 - xhat.getD i 0‖ ^ 2 = ‖(perfH x xhat).getD i 0‖ ^ 2
  rw [perfH_getD _ _ (Finset.mem_range.mp hi)]

/-- **C76** For measurements `y = Phi x + e` the residual reported is `Phi (x - x_hat) + e`, and the measurement SNR exceeds `d` dB exactly when the residual is
shorter than the measurements by the factor `10^(d/20)`. -/
theorem c76_residual (phi : ℕ → E) (N : ℕ) (x xhat : List ℝ) (y e : E) (hy : y = (∑ i ∈ Finset.range N, x.getD i 0 • phi i) + e) :
    measR phi N y xhat = (∑ i ∈ Finset.range N, (x.getD i 0 - xhat.getD i 0) • phi i) + e ∧
    (y ≠ 0 → ∀ d : ℝ, measSnr phi N y xhat > (d : WithTop ℝ) ↔ ‖measR phi N y xhat‖ * (10 : ℝ) ^ (d / 20) < ‖y‖) := by
  constructor
  · simp only [measR, synth, hy, sub_smul, Finset.sum_sub_distrib]
    abel
  · intro hy0 d
    have hyp := norm_pos_iff.mpr hy0
    unfold measSnr
    split
    · rename_i h0
      rw [h0, zero_mul]
      simp [hyp]
    · rename_i h0
      have hr : 0 < ‖measR phi N y xhat‖ := lt_of_le_of_ne (norm_nonneg _) (Ne.symm h0)
      rw [gt_iff_lt, WithTop.coe_lt_coe, ← lt_div_iff₀' hr, ← Real.lt_logb_iff_rpow_lt (by norm_num) (by positivity)]
      constructor <;> intro h <;> linarith

/-- The two norm inequalities of the restricted isometry property for the recovery error. -/
theorem rip_error (phi : ℕ → E) (x xhat : List ℝ) (s : ℕ) (δ : ℝ) (hrip : Rip ℝ phi x.length 1 s δ)
    (hs : ((Finset.range x.length).filter fun i => x.getD i 0 ≠ xhat.getD i 0).card ≤ s) :
    (1 - δ) * listNorm (perfH x xhat) ^ 2 ≤ ‖synth phi x.length fun i => x.getD i 0 - xhat.getD i 0‖ ^ 2 ∧
    ‖synth phi x.length fun i => x.getD i 0 - xhat.getD i 0‖ ^ 2 ≤ (1 + δ) * listNorm (perfH x xhat) ^ 2 := by
  have h := hrip (fun i => x.getD i 0 - xhat.getD i 0) _ hs fun i hi hn => by
    simp only [Finset.mem_filter, Finset.mem_range, hi, true_and, not_not] at hn
    exact sub_eq_zero.mpr hn
  rw [l2_perfH, abs_le] at h
  constructor <;> linarith [h.1, h.2]

/-- **C76** If the dictionary has the restricted isometry property of an order at least the number of wrong entries of the estimate, the recovery error is bounded by the
residual reported and the noise: `sqrt(1-δ) ‖h‖ ≤ ‖r‖ + ‖e‖`. Without noise the reported ratio `‖h‖/‖r‖` lies between `1/sqrt(1+δ)` and `1/sqrt(1-δ)`. -/
theorem c76_error_by_residual (phi : ℕ → E) (x xhat : List ℝ) (y e : E) (hy : y = (∑ i ∈ Finset.range x.length, x.getD i 0 • phi i) + e) (s : ℕ) (δ : ℝ) (hδ0 : 0 ≤ δ) (hδ : δ < 1)
    (hrip : Rip ℝ phi x.length 1 s δ) (hs : ((Finset.range x.length).filter fun i => x.getD i 0 ≠ xhat.getD i 0).card ≤ s) :
    Real.sqrt (1 - δ) * listNorm (perfH x xhat) ≤ ‖measR phi x.length y xhat‖ + ‖e‖ ∧
    (e = 0 → ∀ q, hByR phi x.length y x xhat = some q → 1 / Real.sqrt (1 + δ) ≤ q ∧ q ≤ 1 / Real.sqrt (1 - δ)) := by
  obtain ⟨h1, h2⟩ := rip_error phi x xhat s δ hrip hs
  have hr := (c76_residual phi x.length x xhat y e hy).1
  obtain ⟨v, hv⟩ : ∃ v, v = synth phi x.length fun i => x.getD i 0 - xhat.getD i 0 := ⟨_, rfl⟩
  have hr' : measR phi x.length y xhat = v + e := by rw [hr, hv]; rfl
  rw [← hv] at h1 h2
  have hh := listNorm_nonneg (perfH x xhat)
  have hlow : Real.sqrt (1 - δ) * listNorm (perfH x xhat) ≤ ‖v‖ := by
    rw [← abs_of_nonneg (norm_nonneg v), ← abs_of_nonneg (mul_nonneg (Real.sqrt_nonneg _) hh), ← sq_le_sq, mul_pow, Real.sq_sqrt (by linarith)]
    exact h1
  have hup : ‖v‖ ≤ Real.sqrt (1 + δ) * listNorm (perfH x xhat) := by
    rw [← abs_of_nonneg (norm_nonneg v), ← abs_of_nonneg (mul_nonneg (Real.sqrt_nonneg _) hh), ← sq_le_sq, mul_pow, Real.sq_sqrt (by linarith)]
    exact h2
  refine ⟨?_, fun he q hq => ?_⟩
  · rw [hr']
    have : ‖v‖ ≤ ‖v + e‖ + ‖e‖ := by simpa using norm_sub_le (v + e) e
    linarith
  · rw [hByR, hr', he, add_zero] at hq
    split at hq
    · exact absurd hq (by simp)
    · rename_i h0
      have hvp : 0 < ‖v‖ := lt_of_le_of_ne (norm_nonneg _) (Ne.symm h0)
      simp only [Option.some.injEq] at hq
      rw [← hq, div_le_div_iff₀ (Real.sqrt_pos.mpr (by linarith)) hvp, div_le_div_iff₀ hvp (Real.sqrt_pos.mpr (by linarith))]
      constructor <;> linarith

/-- **C76** For noiseless measurements under the restricted isometry property the two SNRs reported differ by at most `10 log10((1+δ)/(1-δ))` dB. -/
theorem c76_snr_agree (phi : ℕ → E) (x xhat : List ℝ) (s : ℕ) (δ : ℝ) (hδ0 : 0 ≤ δ) (hδ : δ < 1) (hrip : Rip ℝ phi x.length 1 s δ)
    (hs : ((Finset.range x.length).filter fun i => x.getD i 0 ≠ xhat.getD i 0).card ≤ s) (hsx : ((Finset.range x.length).filter fun i => x.getD i 0 ≠ 0).card ≤ s)
    (hx : ∃ i, i < x.length ∧ x.getD i 0 ≠ 0) (y : E) (hy : y = ∑ i ∈ Finset.range x.length, x.getD i 0 • phi i) :
    (recoverySnr x xhat = ⊤ ↔ measSnr phi x.length y xhat = ⊤) ∧
    ∀ a b : ℝ, recoverySnr x xhat = (a : WithTop ℝ) → measSnr phi x.length y xhat = (b : WithTop ℝ) → |a - b| ≤ 10 * Real.logb 10 ((1 + δ) / (1 - δ)) := by
  obtain ⟨h1, h2⟩ := rip_error phi x xhat s δ hrip hs
  have hr : measR phi x.length y xhat = synth phi x.length fun i => x.getD i 0 - xhat.getD i 0 := by
    rw [(c76_residual phi x.length x xhat y 0 (by rw [add_zero]; exact hy)).1, add_zero]; rfl
  rw [← hr] at h1 h2
  have hg := hrip (fun i => x.getD i 0) _ hsx fun i hi hn => by
    simpa only [Finset.mem_filter, Finset.mem_range, hi, true_and, not_not] using hn
  have hy' : synth phi x.length (fun i => x.getD i 0) = y := by rw [hy]; rfl
  rw [l2_list, hy', abs_le] at hg
  have hxp : 0 < listNorm x := by
    obtain ⟨i, hi, hxi⟩ := hx
    exact listNorm_pos x fun h0 => by
      have : i ∈ suppT0 x := (mem_T0 x i).mpr ⟨hi, hxi⟩
      rw [perfK, List.length_eq_zero_iff] at h0
      rw [h0] at this
      simp at this
  have hyp : 0 < ‖y‖ := by
    by_contra h0
    have h0' : ‖y‖ = 0 := le_antisymm (not_lt.mp h0) (norm_nonneg _)
    rw [h0'] at hg
    nlinarith [mul_pos (by linarith : (0 : ℝ) < 1 - δ) (pow_pos hxp 2), hg.1, hg.2]
  have hh := listNorm_nonneg (perfH x xhat)
  obtain ⟨H, hH⟩ : ∃ H, H = listNorm (perfH x xhat) := ⟨_, rfl⟩
  obtain ⟨R, hR⟩ : ∃ R, R = ‖measR phi x.length y xhat‖ := ⟨_, rfl⟩
  obtain ⟨X, hX⟩ : ∃ X, X = listNorm x := ⟨_, rfl⟩
  obtain ⟨Y, hY⟩ : ∃ Y, Y = ‖y‖ := ⟨_, rfl⟩
  have hRn : 0 ≤ R := by rw [hR]; exact norm_nonneg _
  unfold recoverySnr measSnr
  rw [← hH, ← hR] at h1 h2
  rw [← hH] at hh
  rw [← hH, ← hR, ← hX, ← hY]
  rw [← hX] at hxp
  rw [← hY] at hyp
  rw [← hX, ← hY] at hg
  have hd : 0 < 1 - δ := by linarith
  have hzero : H = 0 ↔ R = 0 := by
    constructor
    · intro h0
      rw [h0] at h2
      have : R ^ 2 ≤ 0 := by simpa using h2
      exact pow_eq_zero_iff two_ne_zero |>.mp (le_antisymm this (sq_nonneg _))
    · intro h0
      rw [h0] at h1
      have : H ^ 2 ≤ 0 := by
        by_contra hc
        have := mul_pos hd (not_le.mp hc)
        norm_num at h1
        linarith
      exact pow_eq_zero_iff two_ne_zero |>.mp (le_antisymm this (sq_nonneg _))
  by_cases h0 : H = 0
  · simp [h0, hzero.mp h0]
  · have hR0 : R ≠ 0 := fun h => h0 (hzero.mpr h)
    have hHp : 0 < H := lt_of_le_of_ne hh (Ne.symm h0)
    have hRp : 0 < R := lt_of_le_of_ne hRn (Ne.symm hR0)
    rw [if_neg h0, if_neg hR0]
    refine ⟨iff_of_false (WithTop.coe_ne_top) (WithTop.coe_ne_top), fun a b ha hb => ?_⟩
    rw [WithTop.coe_inj] at ha hb
    have key : ∀ p q : ℝ, 0 < p → 0 < q → p ^ 2 * (1 - δ) ≤ (1 + δ) * q ^ 2 → 20 * Real.logb 10 p - 20 * Real.logb 10 q ≤ 10 * Real.logb 10 ((1 + δ) / (1 - δ)) := by
      intro p q hp hq hpq
      have e1 : Real.logb 10 (p ^ 2) = 2 * Real.logb 10 p := by rw [Real.logb_pow]; norm_num
      have e2 : Real.logb 10 (q ^ 2) = 2 * Real.logb 10 q := by rw [Real.logb_pow]; norm_num
      have h3 : Real.logb 10 (p ^ 2) ≤ Real.logb 10 ((1 + δ) / (1 - δ) * q ^ 2) :=
        Real.logb_le_logb_of_le (by norm_num) (by positivity) (by rw [div_mul_eq_mul_div, le_div_iff₀ hd]; exact hpq)
      rw [Real.logb_mul (by positivity) (by positivity), e1, e2] at h3
      linarith
    have p1 := key (X / H) (Y / R) (by positivity) (by positivity) (by
      rw [div_pow, div_pow, div_mul_eq_mul_div, mul_div_assoc', div_le_div_iff₀ (by positivity) (by positivity)]
      have i1 : (1 - δ) * X ^ 2 ≤ Y ^ 2 := by linarith [hg.1]
      calc X ^ 2 * (1 - δ) * R ^ 2 ≤ Y ^ 2 * R ^ 2 := by nlinarith [sq_nonneg R]
        _ ≤ Y ^ 2 * ((1 + δ) * H ^ 2) := mul_le_mul_of_nonneg_left h2 (sq_nonneg _)
        _ = _ := by ring)
    have p2 := key (Y / R) (X / H) (by positivity) (by positivity) (by
      rw [div_pow, div_pow, div_mul_eq_mul_div, mul_div_assoc', div_le_div_iff₀ (by positivity) (by positivity)]
      have i1 : Y ^ 2 ≤ (1 + δ) * X ^ 2 := by linarith [hg.2]
      calc Y ^ 2 * (1 - δ) * H ^ 2 = Y ^ 2 * ((1 - δ) * H ^ 2) := by ring
        _ ≤ Y ^ 2 * R ^ 2 := mul_le_mul_of_nonneg_left h1 (sq_nonneg _)
        _ ≤ (1 + δ) * X ^ 2 * R ^ 2 := mul_le_mul_of_nonneg_right i1 (sq_nonneg _))
    rw [← ha, ← hb, abs_le]
    constructor <;> linarith

/-- Orthonormal atoms have the property with `δ = 0`, of every order. -/
theorem ex_rip_orthonormal (phi : ℕ → E) (hu : ∀ i, i < 3 → ‖phi i‖ = 1) (ho : ∀ i j, i < 3 → j < 3 → i ≠ j → inner ℝ (phi i) (phi j) = 0) : Rip ℝ phi 3 1 2 0 := by
  have := c135_rip_of_coherence (𝕜 := ℝ) phi 3 0 le_rfl hu (fun i j hi hj hij => by rw [ho i j hi hj hij, norm_zero]) 2 (by norm_num)
  simpa using this

section
variable {E : Type*} [NormedAddCommGroup E] [InnerProductSpace ℝ E]

theorem ex_card (x : List ℝ) (p : ℕ → Prop) [DecidablePred p] (hl : x.length = 3) (h1 : ¬ p 1) : ((Finset.range x.length).filter p).card ≤ 2 := by
  have : (Finset.range x.length).filter p ⊆ {0, 2} := by
    intro i hi
    simp only [Finset.mem_filter, Finset.mem_range, hl] at hi
    have : i ≠ 1 := fun h => h1 (h ▸ hi.2)
    simp; omega
  exact (Finset.card_le_card this).trans (by decide)

example (phi : ℕ → E) (e : E) := c76_residual phi 3 [1, 0, 2] [1, 0, 0] _ e rfl

/-- Three orthonormal atoms, an estimate missing one of two entries. -/
example (phi : ℕ → E) (e : E) (hu : ∀ i, i < 3 → ‖phi i‖ = 1) (ho : ∀ i j, i < 3 → j < 3 → i ≠ j → inner ℝ (phi i) (phi j) = 0) :=
  c76_error_by_residual phi [1, 0, 2] [1, 0, 0] _ e rfl 2 0 le_rfl one_pos (ex_rip_orthonormal phi hu ho)
    (ex_card [1, 0, 2] _ rfl (by simp))

example (phi : ℕ → E) (hu : ∀ i, i < 3 → ‖phi i‖ = 1) (ho : ∀ i j, i < 3 → j < 3 → i ≠ j → inner ℝ (phi i) (phi j) = 0) :=
  c76_snr_agree phi [1, 0, 2] [1, 0, 0] 2 0 le_rfl one_pos (ex_rip_orthonormal phi hu ho)
    (ex_card [1, 0, 2] _ rfl (by simp)) (ex_card [1, 0, 2] _ rfl (by simp)) ⟨0, by simp⟩ _ rfl
end

end Verif.Tools
