import Verif.Geo.RickerModel
import Mathlib.Analysis.SpecialFunctions.Gaussian.FourierTransform
import Mathlib.Analysis.Fourier.FourierTransformDeriv

set_option autoImplicit false

/-! # C99: the Ricker wavelet -/
namespace Verif.Geo
open MeasureTheory Real FourierTransform
open Complex (I)

/-- **C99** (shape) `ricker(·, f0)`, `f0 ≠ 0`: even in time, 1 at time 0 and smaller elsewhere; zero exactly at `±1/(√2 π f0)`; its
smallest value `-2 e^{-3/2}` is taken exactly where `(π f0 t)² = 3/2`. -/
theorem c99_shape (f0 : ℝ) (hf : f0 ≠ 0) :
    ricker 0 f0 = 1 ∧ (∀ t, ricker (-t) f0 = ricker t f0) ∧ (∀ t, t ≠ 0 → ricker t f0 < 1) ∧
    (∀ t, ricker t f0 = 0 ↔ |t| = 1 / (√2 * π * |f0|)) ∧
    (∀ t, -2 * exp (-(3 / 2)) ≤ ricker t f0) ∧ (∀ t, ricker t f0 = -2 * exp (-(3 / 2)) ↔ (π * f0 * t) ^ 2 = 3 / 2) := by
  have key : ∀ u : ℝ, (1 - 2 * u) * exp (-u) = -2 * exp (-(3 / 2)) + exp (-u) * (2 * (exp (u - 3 / 2) - (u - 3 / 2 + 1))) := by
    intro u
    have : exp (-(3 / 2)) = exp (-u) * exp (u - 3 / 2) := by rw [← exp_add]; congr 1; ring
    rw [this]; ring
  refine ⟨by simp [ricker], fun t => by simp [ricker], fun t ht => ?_, fun t => ?_, fun t => ?_, fun t => ?_⟩
  · have h0 : π * f0 * t ≠ 0 := by simp [pi_ne_zero, hf, ht]
    have h1 : 0 < (π * f0 * t) ^ 2 := by positivity
    unfold ricker
    have h2 : exp (-(π * f0 * t) ^ 2) < 1 := by rw [exp_lt_one_iff]; linarith
    have h3 := exp_pos (-(π * f0 * t) ^ 2)
    nlinarith
  · have h3 := (exp_pos (-(π * f0 * t) ^ 2)).ne'
    have hp : 0 < |f0| := abs_pos.2 hf
    have h2 : (0 : ℝ) < √2 := by positivity
    have hs : √2 ^ 2 = 2 := sq_sqrt (by norm_num)
    rw [ricker, mul_eq_zero, or_iff_left h3, eq_div_iff (by positivity)]
    have e : 2 * (π * f0 * t) ^ 2 = (|t| * (√2 * π * |f0|)) ^ 2 := by
      simp only [mul_pow, sq_abs, hs]; ring
    rw [e]
    have hq : 0 ≤ |t| * (√2 * π * |f0|) := by positivity
    constructor
    · intro h; nlinarith
    · intro h; rw [h]; norm_num
  · rw [ricker, show -(π * f0 * t) ^ 2 = -((π * f0 * t) ^ 2) by ring, key]
    have := add_one_le_exp ((π * f0 * t) ^ 2 - 3 / 2)
    have h3 := exp_pos (-((π * f0 * t) ^ 2))
    nlinarith [mul_nonneg h3.le (sub_nonneg.2 this)]
  · rw [ricker, show -(π * f0 * t) ^ 2 = -((π * f0 * t) ^ 2) by ring, key]
    have h3 := exp_pos (-((π * f0 * t) ^ 2))
    constructor
    · intro h
      by_contra hne
      have := add_one_lt_exp (x := (π * f0 * t) ^ 2 - 3 / 2) (fun h => hne (by linarith))
      nlinarith [mul_pos h3 (sub_pos.2 this)]
    · intro h; rw [h]; simp

/-- The wavelet with values in ℂ (the Fourier transform of a real function is taken there). -/
noncomputable def rickerC (f0 : ℝ) (t : ℝ) : ℂ := (ricker t f0 : ℂ)

theorem hasDerivAt_gauss (b : ℂ) (x : ℝ) :
    HasDerivAt (fun t : ℝ => Complex.exp (-b * (t : ℂ) ^ 2)) (-2 * b * x * Complex.exp (-b * (x : ℂ) ^ 2)) x := by
  have h := ((hasDerivAt_pow 2 (x : ℂ)).const_mul (-b)).cexp.comp_ofReal
  convert h using 1
  push_cast
  ring

theorem hasDerivAt_tgauss (b : ℂ) (x : ℝ) :
    HasDerivAt (fun t : ℝ => (t : ℂ) * Complex.exp (-b * (t : ℂ) ^ 2))
      ((1 - 2 * b * (x : ℂ) ^ 2) * Complex.exp (-b * (x : ℂ) ^ 2)) x := by
  have h := (hasDerivAt_id (x : ℂ)).comp_ofReal.mul (hasDerivAt_gauss b x)
  refine HasDerivAt.congr_deriv h ?_
  simp only [id_eq]
  ring

theorem integrable_ricker (b : ℝ) (hb : 0 < b) :
    Integrable fun x : ℝ => (1 - 2 * (b : ℂ) * (x : ℂ) ^ 2) * Complex.exp (-b * (x : ℂ) ^ 2) := by
  have h1 : Integrable fun x : ℝ => exp (-b * x ^ 2) := integrable_exp_neg_mul_sq hb
  have h2 : Integrable fun x : ℝ => x ^ 2 * exp (-b * x ^ 2) := by
    simpa using integrable_rpow_mul_exp_neg_mul_sq hb (s := 2) (by norm_num)
  have h3 : Integrable fun x : ℝ => exp (-b * x ^ 2) - 2 * b * (x ^ 2 * exp (-b * x ^ 2)) := h1.sub (h2.const_mul _)
  convert h3.ofReal (𝕜 := ℂ) using 2 with x
  simp
  ring

theorem rickerC_eq (f0 : ℝ) :
    rickerC f0 = fun x : ℝ => (1 - 2 * ((π ^ 2 * f0 ^ 2 : ℝ) : ℂ) * (x : ℂ) ^ 2) *
      Complex.exp (-((π ^ 2 * f0 ^ 2 : ℝ) : ℂ) * (x : ℂ) ^ 2) := by
  funext x
  simp only [rickerC, ricker]
  push_cast
  congr 1
  · ring
  · congr 1; ring

/-- **C99** (spectrum) for a peak frequency `f0 > 0` the wavelet is integrable with integral 0, its Fourier transform at the frequency
`f` is `2 f² / (√π f0³) · exp(-f²/f0²)`, and the magnitude of the spectrum is largest exactly at `f = ±f0`. -/
theorem c99_spectrum (f0 : ℝ) (hf : 0 < f0) :
    Integrable (fun t => ricker t f0) ∧ (∫ t, ricker t f0) = 0 ∧
    (∀ f : ℝ, 𝓕 (rickerC f0) f = ((2 * f ^ 2 / (√π * f0 ^ 3) * exp (-(f ^ 2 / f0 ^ 2)) : ℝ) : ℂ)) ∧
    (∀ f : ℝ, ‖𝓕 (rickerC f0) f‖ ≤ ‖𝓕 (rickerC f0) f0‖) ∧
    (∀ f : ℝ, ‖𝓕 (rickerC f0) f‖ = ‖𝓕 (rickerC f0) f0‖ → |f| = f0) := by
  set b : ℝ := π ^ 2 * f0 ^ 2 with hb
  have hb0 : 0 < b := by positivity
  have hbC : (0 : ℝ) < (b : ℂ).re := by simpa using hb0
  have hbne : (b : ℂ) ≠ 0 := by exact_mod_cast hb0.ne'
  set G : ℝ → ℂ := fun t => Complex.exp (-(b : ℂ) * (t : ℂ) ^ 2) with hG
  have dG : deriv G = fun x : ℝ => (-2 * (b : ℂ)) * ((x : ℂ) * Complex.exp (-(b : ℂ) * (x : ℂ) ^ 2)) := by
    funext x; rw [(hasDerivAt_gauss b x).deriv]; ring
  set H : ℝ → ℂ := fun t => (t : ℂ) * Complex.exp (-(b : ℂ) * (t : ℂ) ^ 2) with hH
  have dH : deriv H = rickerC f0 := by
    funext x; rw [(hasDerivAt_tgauss b x).deriv, rickerC_eq]
  have iG : Integrable G := integrable_cexp_neg_mul_sq hbC
  have iH : Integrable H := integrable_mul_cexp_neg_mul_sq hbC
  have iR : Integrable (rickerC f0) := by rw [rickerC_eq]; exact integrable_ricker b hb0
  have fG : ∀ f : ℝ, 𝓕 G f = ((1 / (√π * f0) * exp (-(f ^ 2 / f0 ^ 2)) : ℝ) : ℂ) := by
    intro f
    have hb' : (0 : ℝ) < ((π * f0 ^ 2 : ℝ) : ℂ).re := by rw [Complex.ofReal_re]; positivity
    have h := congrFun (fourier_gaussian_pi hb') f
    have e : (fun x : ℝ => Complex.exp (-(π : ℂ) * ((π * f0 ^ 2 : ℝ) : ℂ) * (x : ℂ) ^ 2)) = G := by
      funext x; simp only [hG, hb]; congr 1; push_cast; ring
    rw [e] at h
    rw [h]
    have hsq : ((π * f0 ^ 2 : ℝ) : ℂ) ^ (1 / 2 : ℂ) = ((√π * f0 : ℝ) : ℂ) := by
      rw [show (1 / 2 : ℂ) = ((1 / 2 : ℝ) : ℂ) by norm_num, ← Complex.ofReal_cpow (by positivity), ← sqrt_eq_rpow,
        sqrt_mul (by positivity), sqrt_sq hf.le]
    rw [hsq]
    push_cast
    congr 2
    have h1 : (π : ℂ) ≠ 0 := by exact_mod_cast pi_ne_zero
    have h2 : (f0 : ℂ) ≠ 0 := by exact_mod_cast hf.ne'
    field_simp
  have fH : ∀ f : ℝ, -2 * (b : ℂ) * 𝓕 H f = (2 * π * I * f) * 𝓕 G f := by
    intro f
    have h := congrFun (fourier_deriv iG (fun x => (hasDerivAt_gauss b x).differentiableAt)
      (by rw [dG]; exact iH.const_mul _)) f
    rw [smul_eq_mul] at h
    rw [← h, dG]
    rw [fourier_real_eq_integral_exp_smul, fourier_real_eq_integral_exp_smul, ← integral_const_mul]
    congr 1
    funext x
    simp only [smul_eq_mul, hH]
    ring
  have fR : ∀ f : ℝ, 𝓕 (rickerC f0) f = ((2 * f ^ 2 / (√π * f0 ^ 3) * exp (-(f ^ 2 / f0 ^ 2)) : ℝ) : ℂ) := by
    intro f
    have h := congrFun (fourier_deriv iH (fun x => (hasDerivAt_tgauss b x).differentiableAt) (by rw [dH]; exact iR)) f
    rw [smul_eq_mul, dH] at h
    have e : 𝓕 H f = (2 * π * I * f) * 𝓕 G f / (-2 * (b : ℂ)) := by
      rw [← fH f]; field_simp
    rw [h, e, fG, hb]
    have h1 : (π : ℂ) ≠ 0 := by exact_mod_cast pi_ne_zero
    have h2 : (f0 : ℂ) ≠ 0 := by exact_mod_cast hf.ne'
    have h3 : ((√π : ℝ) : ℂ) ≠ 0 := by exact_mod_cast (sqrt_pos.2 pi_pos).ne'
    push_cast
    field_simp
    rw [Complex.I_sq]
    ring
  have nR : ∀ f : ℝ, ‖𝓕 (rickerC f0) f‖ = 2 / (√π * f0) * (f ^ 2 / f0 ^ 2 * exp (-(f ^ 2 / f0 ^ 2))) := by
    intro f
    rw [fR, Complex.norm_real, norm_of_nonneg (by positivity)]
    field_simp
  have hu : ∀ u : ℝ, u * exp (-u) ≤ 1 * exp (-1) ∧ (u * exp (-u) = 1 * exp (-1) → u = 1) := by
    intro u
    have e : exp (-1) = exp (-u) * exp (u - 1) := by rw [← exp_add]; congr 1; ring
    have hp := exp_pos (-u)
    refine ⟨?_, fun h => ?_⟩
    · have := add_one_le_exp (u - 1)
      rw [e]; nlinarith
    · by_contra hne
      have := add_one_lt_exp (x := u - 1) (fun h => hne (by linarith))
      rw [e] at h; nlinarith
  have h1 : f0 ^ 2 / f0 ^ 2 = 1 := div_self (by positivity)
  have hi : (∫ t, rickerC f0 t) = 0 := by
    have := fR 0
    rw [fourier_real_eq_integral_exp_smul] at this
    simpa using this
  refine ⟨?_, ?_, fR, fun f => ?_, fun f h => ?_⟩
  · have := iR.re
    simpa [rickerC] using this
  · have : ((∫ t, ricker t f0 : ℝ) : ℂ) = 0 := by rw [← hi]; exact integral_ofReal.symm
    exact_mod_cast this
  · rw [nR, nR, h1]
    exact mul_le_mul_of_nonneg_left (hu _).1 (by positivity)
  · rw [nR, nR, h1] at h
    have h2 := (hu _).2 (mul_left_cancel₀ (by positivity) h)
    rw [div_eq_one_iff_eq (by positivity)] at h2
    rw [← abs_of_pos hf]
    exact sq_eq_sq_iff_abs_eq_abs _ _ |>.1 h2

/-- The default peak frequency. -/
example : ∀ f : ℝ, ‖𝓕 (rickerC 10) f‖ ≤ ‖𝓕 (rickerC 10) 10‖ := (c99_spectrum 10 (by norm_num)).2.2.2.1

example := c99_shape 10 (by norm_num)

end Verif.Geo
