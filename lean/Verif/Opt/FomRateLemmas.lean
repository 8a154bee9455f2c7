import Verif.Opt.FomProps

set_option autoImplicit false
/-!
# Lemmas on the first order solver when its estimate of the Lipschitz constant is too small (C132)
-/
noncomputable section
namespace Verif.Opt
open Verif.Loop
open scoped RealInnerProductSpace

variable {E F : Type*} [NormedAddCommGroup E] [InnerProductSpace ℝ E] [NormedAddCommGroup F] [InnerProductSpace ℝ F]
variable {p : FomArgs E F} {A : E →ₗ[ℝ] F} {C : Set E} {h : E → ℝ} {K : ℝ}

/-- Twice the curvature of the smooth part along `A` is at most `K`. -/
def Curv (p : FomArgs E F) (A : E →ₗ[ℝ] F) (K : ℝ) : Prop :=
  ∀ u v, 2 * ⟪A u - A v, p.f.grad (A u + p.b) - p.f.grad (A v + p.b)⟫ ≤ K * ‖u - v‖ ^ 2

theorem fom_L (hs : FomSetting p A C h) (s : FomState E F) :
    (fomBody p s).L = backtrackL (fomBody p s).x (A (fomBody p s).x) (p.f.grad (A (fomBody p s).x + p.b)) (fomBody p s).y
      (A (fomBody p s).y) (p.f.grad (A (fomBody p s).y + p.b)) (s.L * p.opts.alpha) p.opts.Lexact p.opts.beta := by
  simp only [fomBody, smoothTranslate]; rw [hs.pair, hs.pair, hs.times]

/-- The estimate is kept, or divided by at least `beta`; then it was below `K`. -/
theorem fom_L_cases (hs : FomSetting p A C h) (hK : Curv p A K) (hx : p.opts.Lexact = none) (s : FomState E F) :
    (fomBody p s).L = s.L * p.opts.alpha ∨ (s.L * p.opts.alpha / p.opts.beta ≤ (fomBody p s).L ∧ s.L * p.opts.alpha < K) := by
  rw [fom_L hs s]
  have hk := hK (fomBody p s).x (fomBody p s).y
  generalize (fomBody p s).x = x at *
  generalize (fomBody p s).y = y at *
  by_cases hg : 2 * ⟪A x - A y, p.f.grad (A x + p.b) - p.f.grad (A y + p.b)⟫ ≤ s.L * p.opts.alpha * ‖x - y‖ ^ 2
  · exact Or.inl ((c40_backtrack x y _ _ _ _ _ _ _).1 hg)
  · push Not at hg
    have hxy : x ≠ y := by rintro rfl; simp at hg
    have hn0 : 0 < ‖x - y‖ ^ 2 := by have := norm_pos_iff.mpr (sub_ne_zero.mpr hxy); positivity
    refine Or.inr ⟨?_, lt_of_mul_lt_mul_right (hg.trans_le hk) hn0.le⟩
    rw [((c40_backtrack x y (A x) (p.f.grad (A x + p.b)) (A y) (p.f.grad (A y + p.b)) (s.L * p.opts.alpha) p.opts.beta p.opts.Lexact).2 hxy hg).1 hx]
    exact le_max_right _ _

/-- The quadratic upper bound with the constant `K` holds at every step. -/
theorem fom_upper (hs : FomSetting p A C h) (hK : Curv p A K) (s : FomState E F) :
    (fomBody p s).fx ≤ (fomBody p s).fy + ⟪(fomBody p s).gy, (fomBody p s).x - (fomBody p s).y⟫ + K / 2 * ‖(fomBody p s).x - (fomBody p s).y‖ ^ 2 := by
  have e1 : (fomBody p s).fx = p.f.func (A (fomBody p s).x + p.b) := by simp only [fomBody, smoothTranslate]; rw [hs.pair, hs.times]
  have e2 : (fomBody p s).fy = p.f.func (A (fomBody p s).y + p.b) := by simp only [fomBody, smoothTranslate]; rw [hs.pair, hs.times]
  have e3 : (fomBody p s).gy = p.trans (p.f.grad (A (fomBody p s).y + p.b)) := by simp only [fomBody, smoothTranslate]; rw [hs.pair, hs.times]
  rw [e1, e2, e3]
  clear e1 e2 e3
  generalize (fomBody p s).x = x
  generalize (fomBody p s).y = y
  rw [real_inner_comm, ← hs.adj, real_inner_comm]
  have hcv := hs.fconv (A x + p.b) (A y + p.b)
  have ed : A y + p.b - (A x + p.b) = -(A (x - y)) := by rw [map_sub]; abel
  rw [ed, inner_neg_right] at hcv
  have hg := hK x y
  rw [← map_sub, inner_sub_right, real_inner_comm, real_inner_comm _ (A (x - y))] at hg
  linarith

theorem fom_xy (s : FomState E F) :
    ‖(fomBody p s).x - (fomBody p s).y‖ ^ 2 = advanceTheta s.theta (s.L * p.opts.alpha) s.L ^ 2 * ‖(fomBody p s).z - s.z‖ ^ 2 := by
  have e : (fomBody p s).x - (fomBody p s).y = advanceTheta s.theta (s.L * p.opts.alpha) s.L • ((fomBody p s).z - s.z) := by
    simp only [fomBody]; module
  rw [e, norm_smul, mul_pow, Real.norm_eq_abs, sq_abs]

/-- One iteration, whether or not its estimate is accepted. -/
theorem fom_step_any (hs : FomSetting p A C h) (hK : Curv p A K) (s : FomState E F) (hL : 0 < s.L) (hx : s.x ∈ C) (u : E) (hu : u ∈ C) :
    let θ := advanceTheta s.theta (s.L * p.opts.alpha) s.L
    fomObj p h (fomBody p s).x - fomObj p h u ≤ (1 - θ) * (fomObj p h s.x - fomObj p h u) +
      θ ^ 2 * (s.L * p.opts.alpha) / 2 * (‖u - s.z‖ ^ 2 - ‖u - (fomBody p s).z‖ ^ 2) + θ ^ 2 * (K - s.L * p.opts.alpha) / 2 * ‖(fomBody p s).z - s.z‖ ^ 2 := by
  intro θ
  have hub := fom_upper hs hK s
  have := fom_step_err hs s hL hx ((K - s.L * p.opts.alpha) / 2 * ‖(fomBody p s).x - (fomBody p s).y‖ ^ 2) (by linarith) u hu
  rw [fom_xy] at this
  have e : advanceTheta s.theta (s.L * p.opts.alpha) s.L = θ := rfl
  simp only [e] at this
  linarith

/-- The momentum parameter goes down to `1 - alpha` at least as fast as `2 alpha / (k + 1)`. -/
theorem theta_upper {a t T k : ℝ} (ha0 : 0 < a) (ha1 : a ≤ 1) (ht0 : 0 < t) (hT0 : 0 < T) (hk : 0 ≤ k) (h : (1 - T) * t ^ 2 = a * T ^ 2)
    (ht : t ≤ 1 - a + 2 * a / (k + 1)) : T ≤ 1 - a + 2 * a / (k + 2) := by
  set r := 1 - a + 2 * a / (k + 1) with hr
  set R := 1 - a + 2 * a / (k + 2) with hR
  by_contra hc
  push Not at hc
  have hR0 : 0 < R := by
    have : 0 < 2 * a / (k + 2) := by positivity
    linarith
  have h1 : (k + 1) / (k + 2) * r ≤ R := by
    have e : (k + 1) / (k + 2) * r = (1 - a) * ((k + 1) / (k + 2)) + 2 * a / (k + 2) := by rw [hr]; field_simp
    have : (k + 1) / (k + 2) ≤ 1 := by rw [div_le_one (by positivity)]; linarith
    rw [e, hR]
    nlinarith
  have h2 : 1 - R = a * (k / (k + 2)) := by rw [hR]; field_simp; ring
  have h3 : k / (k + 2) ≤ ((k + 1) / (k + 2)) ^ 2 := by
    rw [div_pow, div_le_div_iff₀ (by positivity) (by positivity)]
    nlinarith
  have h4 : (1 - R) * r ^ 2 ≤ a * R ^ 2 := by
    rw [h2]
    have hr0 : 0 < r := ht0.trans_le ht
    have : ((k + 1) / (k + 2) * r) ^ 2 ≤ R ^ 2 := pow_le_pow_left₀ (by positivity) h1 2
    rw [mul_pow] at this
    have h5 : k / (k + 2) * r ^ 2 ≤ R ^ 2 := (mul_le_mul_of_nonneg_right h3 (by positivity)).trans this
    nlinarith
  have h6 : t ^ 2 ≤ r ^ 2 := pow_le_pow_left₀ ht0.le ht 2
  have hR1 : 0 ≤ 1 - R := by rw [h2]; positivity
  have h7 : (1 - T) * t ^ 2 < (1 - R) * t ^ 2 := mul_lt_mul_of_pos_right (by linarith) (by positivity)
  have h8 : (1 - R) * t ^ 2 ≤ (1 - R) * r ^ 2 := mul_le_mul_of_nonneg_left h6 hR1
  have h9 : a * R ^ 2 < a * T ^ 2 := mul_lt_mul_of_pos_left (pow_lt_pow_left₀ hc hR0.le two_ne_zero) ha0
  linarith

/-- … and never below `1 - alpha`. -/
theorem theta_lower {a t T : ℝ} (ha0 : 0 < a) (hT0 : 0 < T) (hT1 : T ≤ 1) (h : (1 - T) * t ^ 2 = a * T ^ 2) (ha1 : a ≤ 1) (ht : 1 - a ≤ t) : 1 - a ≤ T := by
  by_contra hc
  push Not at hc
  have h1 : (1 - a) ^ 2 ≤ t ^ 2 := pow_le_pow_left₀ (by linarith) ht 2
  have h2 : (1 - T) * (1 - a) ^ 2 ≤ a * T ^ 2 := h ▸ mul_le_mul_of_nonneg_left h1 (by linarith)
  have h3 : a * (1 - a) ^ 2 ≤ (1 - T) * (1 - a) ^ 2 := mul_le_mul_of_nonneg_right (by linarith) (sq_nonneg _)
  have h4 : a * T ^ 2 < a * (1 - a) ^ 2 := mul_lt_mul_of_pos_left (pow_lt_pow_left₀ hc hT0.le two_ne_zero) ha0
  linarith

/-- The bound `2 θ B` is kept by the recursion `Φ⁺ ≤ (1 - θ⁺) Φ + θ⁺² B`. -/
theorem theta_double {a t T : ℝ} (ha1 : a ≤ 1) (ht0 : 0 < t) (hT0 : 0 < T) (hT1 : T ≤ 1) (h : (1 - T) * t ^ 2 = a * T ^ 2) :
    (1 - T) * (2 * t) + T ^ 2 ≤ 2 * T := by
  have h1 : ((1 - T) * t) ^ 2 ≤ (T * (1 - T / 2)) ^ 2 := by
    have e : ((1 - T) * t) ^ 2 = (1 - T) * (a * T ^ 2) := by rw [← h]; ring
    rw [e]
    have h3 : (1 - T) * (a * T ^ 2) ≤ (1 - T) * (1 * T ^ 2) :=
      mul_le_mul_of_nonneg_left (mul_le_mul_of_nonneg_right ha1 (sq_nonneg T)) (by linarith)
    nlinarith [sq_nonneg (T ^ 2)]
  have h2 : (1 - T) * t ≤ T * (1 - T / 2) := le_of_sq_le_sq h1 (mul_nonneg hT0.le (by linarith))
  nlinarith

end Verif.Opt
