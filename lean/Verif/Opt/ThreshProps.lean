import Verif.Opt.ProxProps
import Mathlib.Analysis.SpecialFunctions.Trigonometric.Chebyshev.Basic

set_option autoImplicit false
/-!
# Thresholding operators (C36)
-/
noncomputable section
namespace Verif.Opt

/-- **C36** soft thresholding: entries of magnitude at most `tau` become 0, the others are shrunk by `tau` keeping their sign; it is the
proximal operator of `tau |z|`. -/
theorem c36_soft (x tau : ℝ) (h : 0 ≤ tau) :
    (softThreshold x tau = 0 ↔ |x| ≤ tau) ∧ (tau < x → softThreshold x tau = x - tau) ∧ (x < -tau → softThreshold x tau = x + tau) ∧
    |softThreshold x tau| = max (|x| - tau) 0 ∧ 0 ≤ softThreshold x tau * x ∧
    ∀ z, tau * |softThreshold x tau| + (softThreshold x tau - x) ^ 2 / 2 ≤ tau * |z| + (z - x) ^ 2 / 2 := by
  obtain ⟨h1, h2, h3⟩ := shrink1_cases tau x h
  change |softThreshold x tau| = _ at h1
  change |x - softThreshold x tau| ≤ tau at h2
  change (x - softThreshold x tau) * softThreshold x tau = tau * |softThreshold x tau| at h3
  refine ⟨?_, fun hx => ?_, fun hx => ?_, h1, ?_, fun z => ?_⟩
  · rw [← abs_eq_zero, h1]
    constructor
    · intro e
      have := le_max_left (|x| - tau) 0
      linarith
    · intro e; exact max_eq_right (by linarith)
  · unfold softThreshold; rw [max_eq_right (by linarith), min_eq_left (by linarith), add_zero]
  · unfold softThreshold; rw [max_eq_left (by linarith), min_eq_right (by linarith), zero_add]
  · nlinarith [abs_nonneg (softThreshold x tau), mul_nonneg h (abs_nonneg (softThreshold x tau)), sq_nonneg (softThreshold x tau)]
  · have h4 : (x - softThreshold x tau) * z ≤ tau * |z| := by
      calc _ ≤ |(x - softThreshold x tau) * z| := le_abs_self _
        _ = |x - softThreshold x tau| * |z| := abs_mul _ _
        _ ≤ _ := mul_le_mul_of_nonneg_right h2 (abs_nonneg _)
    nlinarith [sq_nonneg (z - softThreshold x tau)]

example : softThreshold 3 1 = 2 := ((c36_soft 3 1 zero_le_one).2.1 (by norm_num)).trans (by norm_num)

/-- **C36** the complex branch of soft thresholding shrinks the modulus by `tau` and keeps the phase; it is the proximal operator of
`tau |z|` on complex numbers. -/
theorem c36_soft_complex (x : ℂ) (tau : ℝ) (h : 0 ≤ tau) :
    (softThresholdC x tau = 0 ↔ ‖x‖ ≤ tau) ∧ ‖softThresholdC x tau‖ = max (‖x‖ - tau) 0 ∧
    (tau < ‖x‖ → softThresholdC x tau = (1 - tau / ‖x‖ : ℝ) * x) ∧
    ∀ z : ℂ, tau * ‖softThresholdC x tau‖ + ‖softThresholdC x tau - x‖ ^ 2 / 2 ≤ tau * ‖z‖ + ‖z - x‖ ^ 2 / 2 := by
  have hn : ‖softThresholdC x tau‖ = max (‖x‖ - tau) 0 := by
    rw [softThresholdC, norm_mul, Complex.norm_real, Real.norm_of_nonneg (le_max_right _ _), mul_comm Complex.I,
      Complex.norm_exp_ofReal_mul_I, mul_one]
  have hbig : tau < ‖x‖ → softThresholdC x tau = (1 - tau / ‖x‖ : ℝ) * x := by
    intro hx
    have hx0 : 0 < ‖x‖ := h.trans_lt hx
    rw [softThresholdC, max_eq_left (by linarith), mul_comm Complex.I]
    have e := Complex.norm_mul_exp_arg_mul_I x
    conv_rhs => rw [← e]
    rw [← mul_assoc]
    congr 1
    rw [← Complex.ofReal_mul]
    simp only [e]
    congr 1
    field_simp
  refine ⟨?_, hn, hbig, fun z => ?_⟩
  · rw [← norm_eq_zero, hn]
    constructor
    · intro e
      have := le_max_left (‖x‖ - tau) 0
      linarith
    · intro e; exact max_eq_right (by linarith)
  · rw [hn]
    have hd : ‖softThresholdC x tau - x‖ = min ‖x‖ tau := by
      rcases lt_or_ge tau ‖x‖ with hx | hx
      · have hx0 : 0 < ‖x‖ := h.trans_lt hx
        rw [hbig hx]
        have : ((1 - tau / ‖x‖ : ℝ) : ℂ) * x - x = ((-(tau / ‖x‖) : ℝ) : ℂ) * x := by push_cast; ring
        rw [this, norm_mul, Complex.norm_real, norm_neg, Real.norm_of_nonneg (by positivity), div_mul_cancel₀ _ hx0.ne',
          min_eq_right hx.le]
      · have : softThresholdC x tau = 0 := by
          rw [← norm_eq_zero, hn, max_eq_right (by linarith)]
        rw [this, zero_sub, norm_neg, min_eq_left hx]
    rw [hd]
    have ht : |‖z‖ - ‖x‖| ≤ ‖z - x‖ := abs_norm_sub_norm_le z x
    have ht2 : (‖z‖ - ‖x‖) ^ 2 ≤ ‖z - x‖ ^ 2 := by
      rw [← sq_abs (‖z‖ - ‖x‖)]; exact pow_le_pow_left₀ (abs_nonneg _) ht 2
    have hz := norm_nonneg z
    rcases le_total ‖x‖ tau with hx | hx
    · rw [max_eq_right (by linarith), min_eq_left hx]
      nlinarith [norm_nonneg x]
    · rw [max_eq_left (by linarith), min_eq_right hx]
      nlinarith [sq_nonneg (‖z‖ - (‖x‖ - tau))]

example : softThresholdC (4 * Complex.I) 1 = ((1 - 1 / 4 : ℝ) : ℂ) * (4 * Complex.I) := by
  have h4 : ‖(4 * Complex.I : ℂ)‖ = 4 := by simp
  have := (c36_soft_complex (4 * Complex.I) 1 zero_le_one).2.2.1 (by rw [h4]; norm_num)
  rwa [h4] at this

/-- **C36** hard thresholding: entries of magnitude at most `√(2 tau)` become 0 and the others are unchanged; it minimises
`tau · [z ≠ 0] + |z - x|²/2`; with `tau = gamma_to_tau_hard_threshold(gamma)` the threshold is `gamma`. -/
theorem c36_hard (x : ℂ) (tau : ℝ) (h : 0 ≤ tau) :
    (‖x‖ ≤ Real.sqrt (2 * tau) → hardThreshold x tau = 0) ∧ (Real.sqrt (2 * tau) < ‖x‖ → hardThreshold x tau = x) ∧
    (∀ z : ℂ, tau * (if hardThreshold x tau = 0 then 0 else 1) + ‖hardThreshold x tau - x‖ ^ 2 / 2 ≤
      tau * (if z = 0 then 0 else 1) + ‖z - x‖ ^ 2 / 2) ∧
    (∀ gamma, 0 ≤ gamma → Real.sqrt (2 * gammaToTauHard gamma) = gamma) := by
  have hs : Real.sqrt (2 * tau) ^ 2 = 2 * tau := Real.sq_sqrt (by linarith)
  have hs0 := Real.sqrt_nonneg (2 * tau)
  refine ⟨fun hx => if_neg (not_lt.mpr hx), fun hx => if_pos hx, fun z => ?_, fun g hg => ?_⟩
  · unfold hardThreshold
    by_cases hx : ‖x‖ > Real.sqrt (2 * tau)
    · have hx0 : x ≠ 0 := by rintro rfl; rw [norm_zero] at hx; linarith
      simp only [hx, if_true, hx0, if_false, sub_self, norm_zero]
      by_cases hz : z = 0
      · subst hz
        simp only [if_true, zero_sub, norm_neg]
        nlinarith
      · simp only [hz, if_false]
        nlinarith [sq_nonneg ‖z - x‖]
    · simp only [hx, if_false, if_true, zero_sub, norm_neg]
      by_cases hz : z = 0
      · simp [hz]
      · simp only [hz, if_false]
        push Not at hx
        nlinarith [sq_nonneg ‖z - x‖, norm_nonneg x]
  · have : 2 * gammaToTauHard g = g ^ 2 := by unfold gammaToTauHard; ring
    rw [this, Real.sqrt_sq hg]

example : hardThreshold 3 2 = 3 := by
  refine (c36_hard 3 2 (by norm_num)).2.1 ?_
  rw [show (2 : ℝ) * 2 = 2 ^ 2 by norm_num, Real.sqrt_sq (by norm_num)]; norm_num

/-! ### Half thresholding -/

theorem halfGamma_pow (tau : ℝ) (h : 0 ≤ tau) : halfGamma tau ^ (1.5 : ℝ) = Real.sqrt 54 / 8 * tau := by
  have h54 : (0 : ℝ) ≤ 54 ^ (1 / 3 : ℝ) := by positivity
  have ht : (0 : ℝ) ≤ tau ^ (2 / 3 : ℝ) := by positivity
  unfold halfGamma
  rw [Real.mul_rpow (by positivity) ht, Real.div_rpow h54 (by norm_num), ← Real.rpow_mul (by norm_num), ← Real.rpow_mul h,
    Real.sqrt_eq_rpow]
  have e4 : (4 : ℝ) ^ (1.5 : ℝ) = 8 := by
    rw [show (4 : ℝ) = 2 ^ (2 : ℝ) by norm_num, ← Real.rpow_mul (by norm_num)]; norm_num
  rw [e4]
  norm_num

theorem halfGamma_nonneg (tau : ℝ) (h : 0 ≤ tau) : 0 ≤ halfGamma tau := by unfold halfGamma; positivity

theorem rpow_15 (a : ℝ) (h : 0 ≤ a) : a ^ (1.5 : ℝ) = a * Real.sqrt a := by
  rcases h.eq_or_lt with rfl | h
  · norm_num
  · rw [show (1.5 : ℝ) = 1 + 1 / 2 by norm_num, Real.rpow_add h, Real.rpow_one, Real.sqrt_eq_rpow]

/-- The argument of `arccos` at an input `x ≥ γ`. -/
theorem half_arg (x tau : ℝ) (h : 0 < tau) (hx : halfGamma tau ≤ x) :
    0 < x ∧ 0 ≤ tau / 8 * (x / 3) ^ (-1.5 : ℝ) ∧ tau / 8 * (x / 3) ^ (-1.5 : ℝ) ≤ Real.sqrt 2 / 2 ∧
    tau / 8 * (x / 3) ^ (-1.5 : ℝ) * (x / 3 * Real.sqrt (x / 3)) = tau / 8 := by
  have hg : 0 < halfGamma tau := by unfold halfGamma; positivity
  have hx0 : 0 < x := hg.trans_le hx
  have hx3 : 0 < x / 3 := by positivity
  have e : (x / 3) ^ (-1.5 : ℝ) = (x / 3 * Real.sqrt (x / 3))⁻¹ := by
    rw [Real.rpow_neg hx3.le, rpow_15 _ hx3.le]
  have hpos : 0 < x / 3 * Real.sqrt (x / 3) := mul_pos hx3 (Real.sqrt_pos.mpr hx3)
  refine ⟨hx0, by positivity, ?_, by rw [e, mul_assoc, inv_mul_cancel₀ hpos.ne', mul_one]⟩
  rw [e]
  have h1 : Real.sqrt 54 / 8 * tau ≤ x * Real.sqrt x := by
    rw [← halfGamma_pow tau h.le, ← rpow_15 x hx0.le]
    exact Real.rpow_le_rpow hg.le hx (by norm_num)
  have h2 : x / 3 * Real.sqrt (x / 3) = x * Real.sqrt x / Real.sqrt 27 := by
    have : Real.sqrt 27 = 3 * Real.sqrt 3 := by
      rw [show (27 : ℝ) = 3 ^ 2 * 3 by norm_num, Real.sqrt_mul (by norm_num), Real.sqrt_sq (by norm_num)]
    rw [this, Real.sqrt_div hx0.le]
    field_simp
  have h27 : 0 < Real.sqrt 27 := Real.sqrt_pos.mpr (by norm_num)
  have h3 : Real.sqrt 54 = Real.sqrt 2 * Real.sqrt 27 := by rw [← Real.sqrt_mul (by norm_num)]; norm_num
  rw [h2, inv_div, ← mul_div_assoc, div_le_iff₀ (mul_pos hx0 (Real.sqrt_pos.mpr hx0))]
  have h22 : Real.sqrt 2 * Real.sqrt 2 = 2 := Real.mul_self_sqrt (by norm_num)
  rw [h3] at h1
  have h4 : Real.sqrt 2 / 2 * (Real.sqrt 2 * Real.sqrt 27 / 8 * tau) = tau / 8 * Real.sqrt 27 := by
    calc _ = Real.sqrt 2 * Real.sqrt 2 / 2 * (Real.sqrt 27 / 8 * tau) := by ring
      _ = _ := by rw [h22]; ring
  rw [← h4]
  exact mul_le_mul_of_nonneg_left h1 (by positivity)

/-- The value `s = √(half_threshold(x))` for `x ≥ γ`: a root of `s³ - x s + τ/4`, with `2x ≤ 3s²` and `s² ≤ x`. -/
theorem half_root (x tau : ℝ) (h : 0 < tau) (hx : halfGamma tau ≤ x) :
    ∃ s, 0 < s ∧ s ^ 2 = 2 / 3 * x * (1 + Real.cos (2 * Real.pi / 3 - 2 / 3 * Real.arccos (tau / 8 * (x / 3) ^ (-1.5 : ℝ)))) ∧
      s ^ 3 - x * s + tau / 4 = 0 ∧ 2 * x ≤ 3 * s ^ 2 ∧ s ^ 2 ≤ x := by
  obtain ⟨hx0, ha0, ha1, hae⟩ := half_arg x tau h hx
  set a := tau / 8 * (x / 3) ^ (-1.5 : ℝ) with ha
  set b := Real.arccos a with hb
  have hs2 : Real.sqrt 2 / 2 ≤ 1 := by
    have : Real.sqrt 2 ≤ 2 := by rw [Real.sqrt_le_left (by norm_num)]; norm_num
    linarith
  have hcos : Real.cos b = a := Real.cos_arccos (by linarith) (by linarith)
  have hb1 : Real.pi / 4 ≤ b := by
    rw [hb, ← Real.arccos_cos (x := Real.pi / 4) (by positivity) (by linarith [Real.pi_pos]), Real.cos_pi_div_four]
    exact Real.antitone_arccos ha1
  have hb2 : b ≤ Real.pi / 2 := Real.arccos_le_pi_div_two.mpr ha0
  set θ := Real.pi / 3 - b / 3 with hθ
  have hθ2 : 2 * Real.pi / 3 - 2 / 3 * b = 2 * θ := by rw [hθ]; ring
  have hpi := Real.pi_pos
  have hθpos : Real.pi / 6 ≤ θ := by rw [hθ]; linarith
  have hθle : θ ≤ Real.pi / 4 := by rw [hθ]; linarith
  have hcθ : Real.sqrt 2 / 2 ≤ Real.cos θ := by
    rw [← Real.cos_pi_div_four]
    exact Real.cos_le_cos_of_nonneg_of_le_pi (by linarith) (by linarith) hθle
  have hcθ2 : Real.cos θ ≤ Real.sqrt 3 / 2 := by
    rw [← Real.cos_pi_div_six]
    exact Real.cos_le_cos_of_nonneg_of_le_pi (by linarith) (by linarith) hθpos
  have h3θ : Real.cos (3 * θ) = -a := by
    have : 3 * θ = Real.pi - b := by rw [hθ]; ring
    rw [this, Real.cos_pi_sub, hcos]
  set c := Real.cos θ with hc
  have hcpos : 0 < c := lt_of_lt_of_le (by positivity) hcθ
  set w := Real.sqrt (x / 3) with hw
  have hw2 : w ^ 2 = x / 3 := Real.sq_sqrt (by positivity)
  have hwpos : 0 < w := Real.sqrt_pos.mpr (by positivity)
  have h22 : Real.sqrt 2 ^ 2 = 2 := Real.sq_sqrt (by norm_num)
  have h33 : Real.sqrt 3 ^ 2 = 3 := Real.sq_sqrt (by norm_num)
  have hc1 : 1 / 2 ≤ c ^ 2 := by
    have := pow_le_pow_left₀ (by positivity) hcθ 2
    rw [div_pow, h22] at this
    linarith
  have hc2 : c ^ 2 ≤ 3 / 4 := by
    have := pow_le_pow_left₀ hcpos.le hcθ2 2
    rw [div_pow, h33] at this
    linarith
  have hsq : (2 * w * c) ^ 2 = 4 * (x / 3) * c ^ 2 := by rw [mul_pow, mul_pow, hw2]; ring
  refine ⟨2 * w * c, by positivity, ?_, ?_, ?_, ?_⟩
  · rw [hθ2, Real.cos_two_mul, ← hc, hsq]; ring
  · rw [Real.cos_three_mul, ← hc] at h3θ
    have e : (2 * w * c) ^ 3 - x * (2 * w * c) = 2 * (x / 3 * w) * (4 * c ^ 3 - 3 * c) := by
      have : (2 * w * c) ^ 3 = 8 * w ^ 2 * w * c ^ 3 := by ring
      rw [this, hw2]; ring
    rw [e, h3θ]
    linarith
  · rw [hsq]; nlinarith
  · rw [hsq]; nlinarith

theorem half_obj (x tau s s' : ℝ) (hr : s ^ 3 - x * s + tau / 4 = 0) :
    ((s' ^ 2 - x) ^ 2 + tau * s') - ((s ^ 2 - x) ^ 2 + tau * s) = (s' - s) ^ 2 * (s' ^ 2 + 2 * s * s' + (3 * s ^ 2 - 2 * x)) := by
  have : tau = 4 * (x * s - s ^ 3) := by linarith
  rw [this]; ring

theorem half_nonneg_case (x tau : ℝ) (h : 0 < tau) (hx : halfGamma tau ≤ x) :
    0 < halfThreshold x tau ∧ halfThreshold x tau ≤ x ∧ 2 / 3 * x ≤ halfThreshold x tau ∧
    ∀ z, (halfThreshold x tau - x) ^ 2 + tau * Real.sqrt |halfThreshold x tau| ≤ (z - x) ^ 2 + tau * Real.sqrt |z| := by
  have hx0 : 0 < x := (half_arg x tau h hx).1
  obtain ⟨s, hs, hse, hr, h1, h2⟩ := half_root x tau h hx
  have hv : halfThreshold x tau = s ^ 2 := by
    simp only [halfThreshold, abs_of_pos hx0, ge_iff_le, hx, if_true]
    rw [hse]
  rw [hv]
  refine ⟨by positivity, h2, by linarith, fun z => ?_⟩
  rw [abs_of_nonneg (sq_nonneg s), Real.sqrt_sq hs.le]
  have hz : (Real.sqrt |z| ^ 2 - x) ^ 2 ≤ (z - x) ^ 2 := by
    rw [Real.sq_sqrt (abs_nonneg z)]
    rcases le_total 0 z with h0 | h0
    · rw [abs_of_nonneg h0]
    · rw [abs_of_nonpos h0]; nlinarith
  have h3 := half_obj x tau s (Real.sqrt |z|) hr
  have h4 : 0 ≤ (Real.sqrt |z| - s) ^ 2 * (Real.sqrt |z| ^ 2 + 2 * s * Real.sqrt |z| + (3 * s ^ 2 - 2 * x)) := by
    have := Real.sqrt_nonneg |z|
    have : 0 ≤ 3 * s ^ 2 - 2 * x := by linarith
    positivity
  linarith

theorem half_zero_case (x tau : ℝ) (h : 0 < tau) (hx0 : 0 ≤ x) (hx : x < halfGamma tau) (z : ℝ) :
    x ^ 2 ≤ (z - x) ^ 2 + tau * Real.sqrt |z| := by
  set s := Real.sqrt |z| with hs
  have hs0 : 0 ≤ s := Real.sqrt_nonneg _
  have hz : (s ^ 2 - x) ^ 2 ≤ (z - x) ^ 2 := by
    rw [hs, Real.sq_sqrt (abs_nonneg z)]
    rcases le_total 0 z with h0 | h0
    · rw [abs_of_nonneg h0]
    · rw [abs_of_nonpos h0]; nlinarith
  have h1 : x * Real.sqrt x ≤ Real.sqrt 54 / 8 * tau := by
    rw [← halfGamma_pow tau h.le, ← rpow_15 x hx0]
    exact Real.rpow_le_rpow hx0 hx.le (by norm_num)
  -- `s³ - 2 x s + τ ≥ 0`
  set w := Real.sqrt (2 * x / 3) with hw
  have hw2 : w ^ 2 = 2 * x / 3 := Real.sq_sqrt (by positivity)
  have hw0 : 0 ≤ w := Real.sqrt_nonneg _
  have h2 : 4 * x / 3 * w ≤ tau := by
    have e : w = Real.sqrt 2 / Real.sqrt 3 * Real.sqrt x := by
      rw [hw, mul_div_right_comm, Real.sqrt_mul (by norm_num), Real.sqrt_div (by norm_num)]
    have h3 : Real.sqrt 54 = 3 * (Real.sqrt 2 * Real.sqrt 3) := by
      rw [← Real.sqrt_mul (by norm_num), show (54 : ℝ) = 3 ^ 2 * (2 * 3) by norm_num, Real.sqrt_mul (by norm_num),
        Real.sqrt_sq (by norm_num)]
    have p2 : Real.sqrt 2 * Real.sqrt 2 = 2 := Real.mul_self_sqrt (by norm_num)
    have hs3 : 0 < Real.sqrt 3 := Real.sqrt_pos.mpr (by norm_num)
    have hs2 : 0 < Real.sqrt 2 := Real.sqrt_pos.mpr (by norm_num)
    calc 4 * x / 3 * w = 4 / 3 * (Real.sqrt 2 / Real.sqrt 3) * (x * Real.sqrt x) := by rw [e]; ring
      _ ≤ 4 / 3 * (Real.sqrt 2 / Real.sqrt 3) * (Real.sqrt 54 / 8 * tau) := mul_le_mul_of_nonneg_left h1 (by positivity)
      _ = (Real.sqrt 2 * Real.sqrt 2) / 2 * tau := by rw [h3]; field_simp; norm_num
      _ = tau := by rw [p2]; ring
  have h3 : 0 ≤ s ^ 3 - 2 * x * s + tau := by
    have hx2 : x = 3 / 2 * w ^ 2 := by linarith
    have : 0 ≤ (s - w) ^ 2 * (s + 2 * w) := by positivity
    have h4 : 2 * w ^ 3 ≤ tau := by
      have : 4 * x / 3 * w = 2 * w ^ 3 := by rw [hx2]; ring
      linarith
    rw [hx2]
    nlinarith
  nlinarith [mul_nonneg hs0 h3]

theorem half_neg (x tau : ℝ) : halfThreshold (-x) tau = -halfThreshold x tau := by
  simp only [halfThreshold, abs_neg]
  split <;> ring

/-- **C36** half thresholding, `tau > 0`: entries of magnitude below `γ = 54^{1/3}/4 · tau^{2/3}` become 0, the others keep their sign and
keep between two thirds and all of their magnitude; it minimises `(z - x)² + tau √|z|`; with `tau = gamma_to_tau_half_threshold(γ)` the
threshold is `γ`. -/
theorem c36_half (x tau : ℝ) (h : 0 < tau) :
    (|x| < halfGamma tau → halfThreshold x tau = 0) ∧
    (halfGamma tau ≤ |x| → 0 < halfThreshold x tau * x ∧ 2 / 3 * |x| ≤ |halfThreshold x tau| ∧ |halfThreshold x tau| ≤ |x|) ∧
    (∀ z, (halfThreshold x tau - x) ^ 2 + tau * Real.sqrt |halfThreshold x tau| ≤ (z - x) ^ 2 + tau * Real.sqrt |z|) ∧
    (∀ gamma, 0 ≤ gamma → halfGamma (gammaToTauHalf gamma) = gamma) := by
  have hz : ∀ x, |x| < halfGamma tau → halfThreshold x tau = 0 := fun x hx => by simp [halfThreshold, not_le.mpr hx]
  refine ⟨hz x, fun hx => ?_, fun z => ?_, fun g hg => ?_⟩
  · rcases le_total 0 x with h0 | h0
    · rw [abs_of_nonneg h0] at hx ⊢
      obtain ⟨h1, h2, h3, _⟩ := half_nonneg_case x tau h hx
      have hx0 : 0 < x := (half_arg x tau h hx).1
      rw [abs_of_pos h1]
      exact ⟨by positivity, h3, h2⟩
    · rw [abs_of_nonpos h0] at hx ⊢
      obtain ⟨h1, h2, h3, _⟩ := half_nonneg_case (-x) tau h hx
      have hx0 : 0 < -x := (half_arg (-x) tau h hx).1
      rw [half_neg] at h1 h2 h3
      rw [abs_of_neg (by linarith)]
      exact ⟨by nlinarith, h3, h2⟩
  · rcases lt_or_ge |x| (halfGamma tau) with hx | hx
    · rw [hz x hx]
      simp only [zero_sub, even_two.neg_pow, abs_zero, Real.sqrt_zero, mul_zero, add_zero]
      rcases le_total 0 x with h0 | h0
      · rw [abs_of_nonneg h0] at hx
        exact half_zero_case x tau h h0 hx z
      · rw [abs_of_nonpos h0] at hx
        have := half_zero_case (-x) tau h (by linarith) hx (-z)
        rw [abs_neg] at this
        linarith [this, show (-z - -x) ^ 2 = (z - x) ^ 2 by ring, show (-x) ^ 2 = x ^ 2 by ring]
    · rcases le_total 0 x with h0 | h0
      · rw [abs_of_nonneg h0] at hx
        exact (half_nonneg_case x tau h hx).2.2.2 z
      · rw [abs_of_nonpos h0] at hx
        have := (half_nonneg_case (-x) tau h hx).2.2.2 (-z)
        rw [half_neg, abs_neg, abs_neg] at this
        linarith [this, show (-z - -x) ^ 2 = (z - x) ^ 2 by ring,
          show (-halfThreshold x tau - -x) ^ 2 = (halfThreshold x tau - x) ^ 2 by ring]
  · unfold halfGamma gammaToTauHalf
    have h54 : (0 : ℝ) < 54 ^ (1 / 3 : ℝ) := by positivity
    rw [← Real.rpow_mul (by positivity)]
    norm_num
    field_simp

example : 0 < halfThreshold 100 1 * 100 := by
  refine ((c36_half 100 1 one_pos).2.1 ?_).1
  have h54 : (54 : ℝ) ^ (1 / 3 : ℝ) ≤ 54 := by
    calc (54 : ℝ) ^ (1 / 3 : ℝ) ≤ 54 ^ (1 : ℝ) := Real.rpow_le_rpow_of_exponent_le (by norm_num) (by norm_num)
      _ = 54 := Real.rpow_one _
  simp only [halfGamma, Real.one_rpow, mul_one]
  rw [abs_of_pos (by norm_num)]
  linarith

end Verif.Opt
