import Verif.Sls.IstaRateProps

set_option autoImplicit false
/-!
# C179: ISTA runs on different data

`sls/ista.py:40-125`.
-/
noncomputable section
namespace Verif.Sls
open Verif.Loop Verif.Opt
open scoped RealInnerProductSpace

variable {E F G : Type*} [NormedAddCommGroup E] [InnerProductSpace ℝ E] [NormedAddCommGroup F] [InnerProductSpace ℝ F]
  [NormedAddCommGroup G] [InnerProductSpace ℝ G]

section setting
variable {p : IstaArgs E F G} {A : E →ₗ[ℝ] F} {B : E ≃ₗᵢ[ℝ] G} {R : G → ℝ} (hs : IstaSetting p A B R)
include hs

/-- The setting does not depend on the data or the start. -/
theorem IstaSetting.data (b' : F) (y0 : E) : IstaSetting { p with b := b', x0 := y0 } A B R := ⟨hs.times, hs.adj, hs.bTrans, hs.bTimes, hs.step_pos, hs.step_le, hs.conv, hs.prox⟩

theorem ista_step_data {σ : ℝ} (hσ : ∀ d, σ * ‖d‖ ^ 2 ≤ ‖A d‖ ^ 2) (b' : F) (y0 : E) (s t : IstaState E F) (hsr : s.r = p.b - p.times s.x) (htr : t.r = b' - p.times t.x) :
    ‖(istaStep p s).x - (istaStep { p with b := b', x0 := y0 } t).x‖ ≤ (1 - p.step * σ) * ‖s.x - t.x‖ + p.step * ‖p.trans (p.b - b')‖ := by
  have hprox : ∀ (i : ℕ) (z : G), IsProxOn Set.univ R p.step z (p.thresh i z) := fun i z => ⟨trivial, fun w _ hw => hs.prox i z w hw⟩
  have e1 : (istaStep p s).x = B.symm (p.thresh s.iters (B (s.x + p.step • p.trans s.r))) := by simp only [istaStep, hs.bTimes, hs.bTrans]
  have e2 : (istaStep { p with b := b', x0 := y0 } t).x = B.symm (p.thresh t.iters (B (t.x + p.step • p.trans t.r))) := by simp only [istaStep, hs.bTimes, hs.bTrans]
  rw [e1, e2, ← map_sub, LinearIsometryEquiv.norm_map]
  refine ((hprox t.iters _).nonexpansive hs.conv hs.step_pos (hprox s.iters _)).trans ?_
  rw [← map_sub, LinearIsometryEquiv.norm_map]
  have e3 : s.x + p.step • p.trans s.r - (t.x + p.step • p.trans t.r) = ((s.x - t.x) - p.step • p.trans (A (s.x - t.x))) + p.step • p.trans (p.b - b') := by
    rw [hsr, htr, hs.times, map_sub, trans_sub' hs, trans_sub' hs, trans_sub' hs, trans_sub' hs]
    module
  rw [e3]
  refine (norm_add_le _ _).trans (add_le_add (grad_contract hs hσ _) (le_of_eq ?_))
  rw [norm_smul, Real.norm_eq_abs, abs_of_pos hs.step_pos]

/-- A step below the inverse squared norm bounds the adjoint. -/
theorem step_trans_le (d : F) : p.step * ‖p.trans d‖ ≤ √p.step * ‖d‖ := by
  have hp := hs.step_pos
  set g := p.trans d with hg
  have h1 : ‖g‖ ^ 2 ≤ ‖A g‖ * ‖d‖ := by
    rw [← real_inner_self_eq_norm_sq]
    conv_lhs => rw [hg, ← hs.adj]
    exact real_inner_le_norm _ _
  have h2 : √p.step * ‖A g‖ ≤ ‖g‖ := by
    refine abs_le_of_sq_le_sq' ?_ (norm_nonneg _) |>.2
    rw [mul_pow, Real.sq_sqrt hp.le]
    exact hs.step_le g
  have h3 : √p.step * ‖g‖ ≤ ‖d‖ := by
    rcases eq_or_lt_of_le (norm_nonneg g) with h0 | h0
    · rw [← h0, mul_zero]; exact norm_nonneg d
    · refine le_of_mul_le_mul_right ?_ h0
      calc √p.step * ‖g‖ * ‖g‖ = √p.step * ‖g‖ ^ 2 := by ring
        _ ≤ √p.step * (‖A g‖ * ‖d‖) := mul_le_mul_of_nonneg_left h1 (Real.sqrt_nonneg _)
        _ = (√p.step * ‖A g‖) * ‖d‖ := by ring
        _ ≤ ‖g‖ * ‖d‖ := mul_le_mul_of_nonneg_right h2 (norm_nonneg _)
        _ = ‖d‖ * ‖g‖ := mul_comm _ _
  calc p.step * ‖g‖ = √p.step * (√p.step * ‖g‖) := by rw [← mul_assoc, Real.mul_self_sqrt hp.le]
    _ ≤ _ := mul_le_mul_of_nonneg_left h3 (Real.sqrt_nonneg _)

/-- **C179** two runs of `ista` on data `b`, `b'` from starts `x0`, `y0`: after `k` iterations the iterates are within `|x0 - y0| + k √step |b - b'|` of each other, whatever the operator and the regulariser. -/
theorem c179_ista (b' : F) (y0 : E) (k : ℕ) :
    ‖((istaStep p)^[k] (istaInit p)).x - ((istaStep { p with b := b', x0 := y0 })^[k] (istaInit { p with b := b', x0 := y0 })).x‖ ≤ ‖p.x0 - y0‖ + k * (√p.step * ‖p.b - b'‖) := by
  induction k with
  | zero => simp [istaInit]
  | succ k ih =>
    rw [Function.iterate_succ_apply', Function.iterate_succ_apply']
    have h := ista_step_data hs (σ := 0) (fun d => by rw [zero_mul]; positivity) b' y0 _ _ (iterate_residual p k) (iterate_residual { p with b := b', x0 := y0 } k)
    rw [mul_zero, sub_zero, one_mul] at h
    have h' := step_trans_le hs (p.b - b')
    push_cast
    linarith

/-- **C179** (bounded below operators) if `σ ‖d‖² ≤ ‖A d‖²` for all `d` with `σ > 0`, the distance stays bounded over all iterations: the start is forgotten at the rate `(1 - step σ)ᵏ`, and the data contribute at most `|Aᵀ(b - b')| / σ`. -/
theorem c179_uniform {σ : ℝ} (hpos : 0 < σ) (hσ : ∀ d, σ * ‖d‖ ^ 2 ≤ ‖A d‖ ^ 2) (b' : F) (y0 : E) (k : ℕ) :
    ‖((istaStep p)^[k] (istaInit p)).x - ((istaStep { p with b := b', x0 := y0 })^[k] (istaInit { p with b := b', x0 := y0 })).x‖ ≤ (1 - p.step * σ) ^ k * ‖p.x0 - y0‖ + ‖p.trans (p.b - b')‖ / σ := by
  rcases subsingleton_or_nontrivial E with h | h
  · rw [Subsingleton.elim p.x0 y0, Subsingleton.elim ((istaStep p)^[k] (istaInit p)).x ((istaStep { p with b := b', x0 := y0 })^[k] (istaInit { p with b := b', x0 := y0 })).x, Subsingleton.elim (p.trans (p.b - b')) 0]
    simp
  have h0 := step_factor_nonneg hs hσ
  induction k with
  | zero => simp only [Function.iterate_zero, id, pow_zero, one_mul, istaInit]; linarith [show 0 ≤ ‖p.trans (p.b - b')‖ / σ by positivity]
  | succ k ih =>
    rw [Function.iterate_succ_apply', Function.iterate_succ_apply']
    refine (ista_step_data hs hσ b' y0 _ _ (iterate_residual p k) (iterate_residual { p with b := b', x0 := y0 } k)).trans ?_
    refine (add_le_add_left (mul_le_mul_of_nonneg_left ih h0) _).trans (le_of_eq ?_)
    field_simp
    ring

/-- **C179** (solutions) in that case the minimisers `u`, `u'` of the two objectives satisfy `|u - u'| ≤ |Aᵀ(b - b')| / σ`. -/
theorem c179_solutions {σ : ℝ} (hpos : 0 < σ) (hσ : ∀ d, σ * ‖d‖ ^ 2 ≤ ‖A d‖ ^ 2) (b' : F) (u u' : E) (hu : ∀ v, 1 / 2 * ‖p.b - A u‖ ^ 2 + R (B u) ≤ 1 / 2 * ‖p.b - A v‖ ^ 2 + R (B v))
    (hu' : ∀ v, 1 / 2 * ‖b' - A u'‖ ^ 2 + R (B u') ≤ 1 / 2 * ‖b' - A v‖ ^ 2 + R (B v)) : ‖u - u'‖ ≤ ‖p.trans (p.b - b')‖ / σ := by
  have f1 := c153_minimizer_fixed (hs.data p.b u) (istaInit { p with b := p.b, x0 := u }) rfl (fun v => by simp only [obj, istaInit, hs.times, hs.bTrans]; exact hu v)
  have f2 := c153_minimizer_fixed (hs.data b' u') (istaInit { p with b := b', x0 := u' }) rfl (fun v => by simp only [obj, istaInit, hs.times, hs.bTrans]; exact hu' v)
  have h := ista_step_data hs hσ b' u' (istaInit { p with b := p.b, x0 := u }) (istaInit { p with b := b', x0 := u' }) rfl rfl
  have e : istaStep p = istaStep { p with b := p.b, x0 := u } := rfl
  rw [e, f1, f2] at h
  have h' : ‖u - u'‖ ≤ (1 - p.step * σ) * ‖u - u'‖ + p.step * ‖p.trans (p.b - b')‖ := h
  have hp := hs.step_pos
  rw [le_div_iff₀ hpos]
  refine le_of_mul_le_mul_left ?_ hp
  linarith

end setting

/-! Instances: `A = 2 I` on `ℝ³`, step `1/8`, soft thresholding. -/

example (b' y0 : Vec 3) (k : ℕ) := c179_ista exIsta8_setting b' y0 k
example (b' y0 : Vec 3) (k : ℕ) := c179_uniform exIsta8_setting (by norm_num) exTwo_below b' y0 k
example (b' u u' : Vec 3) (hu) (hu') := c179_solutions exIsta8_setting (by norm_num) exTwo_below b' u u' hu hu'

end Verif.Sls
