import Verif.Sls.IstaModel
import Verif.Opt.ProxProps
import Verif.Opt.ThreshProps
import Mathlib.Analysis.InnerProductSpace.Adjoint

set_option autoImplicit false
/-!
# ISTA and FISTA (C41, C42)
-/
noncomputable section
namespace Verif.Sls
open Verif.Loop Verif.Opt
open scoped RealInnerProductSpace

variable {E F G : Type*} [NormedAddCommGroup E] [InnerProductSpace ℝ E] [NormedAddCommGroup F] [InnerProductSpace ℝ F]
  [NormedAddCommGroup G] [InnerProductSpace ℝ G]

/-- The setting of the convergence claims: `A` is linear with adjoint `trans`, the basis is orthonormal (`trans` is an isometry onto, with inverse
`times`), `step · |A|² ≤ 1`, and the threshold is the proximal operator of a convex regulariser `R` for the step size. -/
structure IstaSetting (p : IstaArgs E F G) (A : E →ₗ[ℝ] F) (B : E ≃ₗᵢ[ℝ] G) (R : G → ℝ) : Prop where
  times : p.times = A
  adj : ∀ x y, ⟪A x, y⟫ = ⟪x, p.trans y⟫
  bTrans : p.basisTrans = B
  bTimes : p.basisTimes = B.symm
  step_pos : 0 < p.step
  step_le : ∀ d, p.step * ‖A d‖ ^ 2 ≤ ‖d‖ ^ 2
  conv : ConvexOn ℝ Set.univ R
  prox : ∀ i x, IsProx R p.step x (p.thresh i x)

/-- The objective `½‖b - A x‖² + R(Bᴴ x)` from the documentation of `ista`. -/
def obj (p : IstaArgs E F G) (R : G → ℝ) (x : E) : ℝ := 1 / 2 * ‖p.b - p.times x‖ ^ 2 + R (p.basisTrans x)

/-- The proximal gradient inequality. -/
theorem pg_ineq {p : IstaArgs E F G} {A : E →ₗ[ℝ] F} {B : E ≃ₗᵢ[ℝ] G} {R : G → ℝ} (h : IstaSetting p A B R) (i : ℕ) (z u : E) :
    obj p R (p.basisTimes (p.thresh i (p.basisTrans (z + p.step • p.trans (p.b - p.times z))))) ≤
      obj p R u + (‖u - z‖ ^ 2 - ‖u - p.basisTimes (p.thresh i (p.basisTrans (z + p.step • p.trans (p.b - p.times z))))‖ ^ 2) / (2 * p.step) := by
  have hs := h.step_pos
  set g := p.trans (p.b - p.times z) with hg
  set y := p.basisTimes (p.thresh i (p.basisTrans (z + p.step • g))) with hy
  have hBy : p.thresh i (p.basisTrans (z + p.step • g)) = B y := by rw [hy, h.bTimes]; simp
  have hp : IsProxOn Set.univ R p.step (B (z + p.step • g)) (B y) := by
    have := h.prox i (p.basisTrans (z + p.step • g))
    rw [hBy, h.bTrans] at this
    exact ⟨trivial, fun w _ hw => this w hw⟩
  have h1 := hp.subgradient h.conv hs (z := B u) trivial
  rw [← map_sub, ← map_sub, LinearIsometryEquiv.inner_map_map] at h1
  have h2 := h.step_le (y - z)
  have e1 : ∀ w, 1 / 2 * ‖p.b - A w‖ ^ 2 = 1 / 2 * ‖p.b - A z‖ ^ 2 - ⟪g, w - z⟫ + 1 / 2 * ‖A (w - z)‖ ^ 2 := by
    intro w
    have e : p.b - A w = (p.b - A z) - A (w - z) := by rw [map_sub]; abel
    rw [e, norm_sub_sq_real, real_inner_comm, h.adj, hg, h.times, real_inner_comm _ (w - z)]; ring
  have e2 : ⟪z + p.step • g - y, u - y⟫ = ⟪z - y, u - y⟫ + p.step * ⟪g, u - y⟫ := by
    rw [show z + p.step • g - y = (z - y) + p.step • g by abel, inner_add_left, inner_smul_left]; rfl
  have e3 : 2 * ⟪z - y, u - y⟫ = ‖y - z‖ ^ 2 + ‖u - y‖ ^ 2 - ‖u - z‖ ^ 2 := by
    have : u - z = (u - y) - (z - y) := by abel
    rw [this, norm_sub_sq_real (u - y) (z - y), norm_sub_rev y z, real_inner_comm (u - y)]; ring
  have e4 : ⟪g, u - z⟫ = ⟪g, u - y⟫ + ⟪g, y - z⟫ := by rw [← inner_add_right]; congr 1; abel
  unfold obj
  rw [h.times, h.bTrans, e1 y, e1 u]
  rw [e2, add_div, mul_div_cancel_left₀ _ hs.ne'] at h1
  have h3 : 0 ≤ 1 / 2 * ‖A (u - z)‖ ^ 2 := by positivity
  have h4 : ⟪z - y, u - y⟫ / p.step = (‖y - z‖ ^ 2 + ‖u - y‖ ^ 2 - ‖u - z‖ ^ 2) / (2 * p.step) := by
    rw [← e3]; field_simp
  have h5 : 1 / 2 * ‖A (y - z)‖ ^ 2 ≤ ‖y - z‖ ^ 2 / (2 * p.step) := by
    rw [le_div_iff₀ (by positivity)]; linarith
  rw [h4] at h1
  have h6 : (‖y - z‖ ^ 2 + ‖u - y‖ ^ 2 - ‖u - z‖ ^ 2) / (2 * p.step) = ‖y - z‖ ^ 2 / (2 * p.step) - (‖u - z‖ ^ 2 - ‖u - y‖ ^ 2) / (2 * p.step) := by
    ring
  rw [h6] at h1
  linarith

section ista
variable (p : IstaArgs E F G)

/-- **C41** (bookkeeping) at every state of `ista`, for any operator and any threshold: the residual is `b - A x`, the stored squared norm is its
squared norm, and at most `max_iters` iterations are counted; the loop returns. -/
theorem c41_ista_residual (s : IstaState E F) (h : Reach (istaCond p) (istaStep p) (istaInit p) s) :
    s.r = p.b - p.times s.x ∧ s.rr = ‖s.r‖ ^ 2 ∧ s.iters ≤ p.maxIters ∧ ∃ s', Out (istaCond p) (istaStep p) (istaInit p) s' := by
  refine ⟨?_, ?_, by simpa [istaInit] using h.cnt_le (fun s => s.iters) p.maxIters (fun s hc => hc.1) fun s => rfl,
    exists_out (fun s => s.iters) p.maxIters (fun s h => h.1) fun s => Nat.lt_succ_self _⟩
  · exact h.inv (fun s => s.r = p.b - p.times s.x) rfl fun s _ _ => rfl
  · exact h.inv (fun s => s.rr = ‖s.r‖ ^ 2) rfl fun s _ _ => rfl

variable {p} {A : E →ₗ[ℝ] F} {B : E ≃ₗᵢ[ℝ] G} {R : G → ℝ} (hs : IstaSetting p A B R)

include hs in
theorem ista_ineq (s : IstaState E F) (h : Reach (istaCond p) (istaStep p) (istaInit p) s) (u : E) :
    obj p R (istaStep p s).x ≤ obj p R u + (‖u - s.x‖ ^ 2 - ‖u - (istaStep p s).x‖ ^ 2) / (2 * p.step) := by
  have := pg_ineq hs s.iters s.x u
  rw [← (c41_ista_residual p s h).1] at this
  exact this

include hs in
/-- **C41** along `ista` with a step at most `1/|A|²` and the matching threshold, the objective never increases; it decreases by at least
`|change|²/(2 step)`. -/
theorem c41_ista_monotone (s : IstaState E F) (h : Reach (istaCond p) (istaStep p) (istaInit p) s) :
    obj p R (istaStep p s).x + ‖(istaStep p s).x - s.x‖ ^ 2 / (2 * p.step) ≤ obj p R s.x := by
  have := ista_ineq hs s h s.x
  rw [sub_self, norm_zero, norm_sub_rev] at this
  have e : ((0 : ℝ) ^ 2 - ‖(istaStep p s).x - s.x‖ ^ 2) / (2 * p.step) = -(‖(istaStep p s).x - s.x‖ ^ 2 / (2 * p.step)) := by ring
  rw [e] at this
  linarith

include hs in
/-- **C41** rate: after `k ≥ 1` iterations the objective exceeds the value at any point `u` (in particular a minimiser) by at most
`|x0 - u|² / (2 step k)`. -/
theorem c41_ista_rate (s : IstaState E F) (h : Reach (istaCond p) (istaStep p) (istaInit p) s) (h1 : 1 ≤ s.iters) (u : E) :
    obj p R s.x - obj p R u ≤ ‖p.x0 - u‖ ^ 2 / (2 * p.step * s.iters) := by
  have hpos := hs.step_pos
  have key : (s.iters : ℝ) * (obj p R s.x - obj p R u) + ‖u - s.x‖ ^ 2 / (2 * p.step) ≤ ‖p.x0 - u‖ ^ 2 / (2 * p.step) := by
    refine h.inv' (fun s => (s.iters : ℝ) * (obj p R s.x - obj p R u) + ‖u - s.x‖ ^ 2 / (2 * p.step) ≤ ‖p.x0 - u‖ ^ 2 / (2 * p.step)) ?_ ?_
    · simp [istaInit, norm_sub_rev]
    · intro s hr ih _
      have a1 := ista_ineq hs s hr u
      have a2 := c41_ista_monotone hs s hr
      have a3 : 0 ≤ ‖(istaStep p s).x - s.x‖ ^ 2 / (2 * p.step) := by positivity
      have a4 : obj p R (istaStep p s).x ≤ obj p R s.x := by linarith
      have e : ((istaStep p s).iters : ℝ) = s.iters + 1 := by simp [istaStep]
      rw [e]
      have a5 : (s.iters : ℝ) * (obj p R (istaStep p s).x - obj p R u) ≤ s.iters * (obj p R s.x - obj p R u) :=
        mul_le_mul_of_nonneg_left (by linarith) (Nat.cast_nonneg _)
      have a6 : (‖u - s.x‖ ^ 2 - ‖u - (istaStep p s).x‖ ^ 2) / (2 * p.step) = ‖u - s.x‖ ^ 2 / (2 * p.step) - ‖u - (istaStep p s).x‖ ^ 2 / (2 * p.step) :=
        sub_div _ _ _
      rw [a6] at a1
      linarith
  have hk : (0 : ℝ) < s.iters := by exact_mod_cast h1
  have h0 : 0 ≤ ‖u - s.x‖ ^ 2 / (2 * p.step) := by positivity
  rw [← div_div, le_div_iff₀ hk]
  linarith
end ista

/-! ## FISTA -/
section fista
variable (p : IstaArgs E F G)

/-- **C42** (bookkeeping) at every state of `fista` the stored residual is `b - A z` for the extrapolated point `z` (not for `x`), its squared norm is
stored, and the loop returns within `max_iters` iterations. -/
theorem c42_fista_residual (s : FistaState E F) (h : Reach (fistaCond p) (fistaStep p) (fistaInit p) s) :
    s.r = p.b - p.times s.z ∧ s.rr = ‖s.r‖ ^ 2 ∧ s.iters ≤ p.maxIters ∧ ∃ s', Out (fistaCond p) (fistaStep p) (fistaInit p) s' := by
  refine ⟨?_, ?_, by simpa [fistaInit] using h.cnt_le (fun s => s.iters) p.maxIters (fun s hc => hc.1) fun s => rfl,
    exists_out (fun s => s.iters) p.maxIters (fun s h => h.1) fun s => Nat.lt_succ_self _⟩
  · exact h.inv (fun s => s.r = p.b - p.times s.z) rfl fun s _ _ => rfl
  · exact h.inv (fun s => s.rr = ‖s.r‖ ^ 2) rfl fun s _ _ => rfl

variable {p} {A : E →ₗ[ℝ] F} {B : E ≃ₗᵢ[ℝ] G} {R : G → ℝ} (hs : IstaSetting p A B R)

theorem t_rec (t : ℝ) (ht : 1 ≤ t) : let t' := (1 + Real.sqrt (1 + 4 * t ^ 2)) / 2; t' ^ 2 - t' = t ^ 2 ∧ t + 1 / 2 ≤ t' := by
  have h : 0 ≤ 1 + 4 * t ^ 2 := by positivity
  have hsq := Real.sq_sqrt h
  refine ⟨by nlinarith, ?_⟩
  have : 2 * t ≤ Real.sqrt (1 + 4 * t ^ 2) := Real.le_sqrt_of_sq_le (by nlinarith)
  linarith

theorem fista_t (s : FistaState E F) (h : Reach (fistaCond p) (fistaStep p) (fistaInit p) s) : ((s.iters : ℝ) + 2) / 2 ≤ s.t ∧ 1 ≤ s.t := by
  refine h.inv (fun s => ((s.iters : ℝ) + 2) / 2 ≤ s.t ∧ 1 ≤ s.t) (by simp [fistaInit]) fun s ih _ => ?_
  have := (t_rec s.t ih.2).2
  simp only [fistaStep, Nat.cast_add, Nat.cast_one]
  constructor <;> linarith [ih.1, ih.2]

include hs in
/-- The potential `(t² - t) δ + ‖u - w‖²/(2 step)`, `w = t z - (t - 1) x`, does not increase. -/
theorem fista_potential (u : E) (s : FistaState E F) (h : Reach (fistaCond p) (fistaStep p) (fistaInit p) s) :
    (s.t ^ 2 - s.t) * (obj p R s.x - obj p R u) + ‖u - (s.t • s.z - (s.t - 1) • s.x)‖ ^ 2 / (2 * p.step) ≤ ‖p.x0 - u‖ ^ 2 / (2 * p.step) := by
  refine h.inv' (fun s => (s.t ^ 2 - s.t) * (obj p R s.x - obj p R u) + ‖u - (s.t • s.z - (s.t - 1) • s.x)‖ ^ 2 / (2 * p.step) ≤
    ‖p.x0 - u‖ ^ 2 / (2 * p.step)) (by simp [fistaInit, norm_sub_rev]) fun s hr ih _ => ?_
  have hpos := hs.step_pos
  have ht1 := (fista_t s hr).2
  have ht0 : 0 < s.t := by linarith
  set v : E := (1 - 1 / s.t) • s.x + (1 / s.t) • u with hv
  have a1 := pg_ineq hs s.iters s.z v
  rw [← (c42_fista_residual p s hr).1] at a1
  change obj p R (fistaStep p s).x ≤ obj p R v + (‖v - s.z‖ ^ 2 - ‖v - (fistaStep p s).x‖ ^ 2) / (2 * p.step) at a1
  set x' := (fistaStep p s).x with hx'
  obtain ⟨hrec, hinc⟩ := t_rec s.t ht1
  set t' := (1 + Real.sqrt (1 + 4 * s.t ^ 2)) / 2 with ht'
  have et' : (fistaStep p s).t = t' := rfl
  have ez' : (fistaStep p s).z = x' + ((s.t - 1) / t') • (x' - s.x) := rfl
  have ht'0 : t' ≠ 0 := by linarith
  -- convexity of the objective
  have hconv : obj p R v ≤ (1 - 1 / s.t) * obj p R s.x + 1 / s.t * obj p R u := by
    have h0 : 0 ≤ 1 / s.t := by positivity
    have h1 : 0 ≤ 1 - 1 / s.t := by rw [sub_nonneg, div_le_one ht0]; exact ht1
    have hR := h.inv (fun _ => True) trivial (fun _ _ _ => trivial)
    have c1 : R (p.basisTrans v) ≤ (1 - 1 / s.t) * R (p.basisTrans s.x) + 1 / s.t * R (p.basisTrans u) := by
      rw [h.inv (fun _ => p.basisTrans = B) hs.bTrans (fun _ h _ => h), hv, map_add, map_smul, map_smul]
      exact hs.conv.2 trivial trivial h1 h0 (by ring)
    have c2 : ‖p.b - p.times v‖ ^ 2 ≤ (1 - 1 / s.t) * ‖p.b - p.times s.x‖ ^ 2 + 1 / s.t * ‖p.b - p.times u‖ ^ 2 := by
      have e : p.b - p.times v = (1 - 1 / s.t) • (p.b - p.times s.x) + (1 / s.t) • (p.b - p.times u) := by
        rw [hs.times, hv, map_add, map_smul, map_smul]; module
      refine le_trans (b := ((1 - 1 / s.t) * ‖p.b - p.times s.x‖ + 1 / s.t * ‖p.b - p.times u‖) ^ 2) ?_ ?_
      swap
      · nlinarith [mul_nonneg (mul_nonneg h0 h1) (sq_nonneg (‖p.b - p.times s.x‖ - ‖p.b - p.times u‖))]
      refine pow_le_pow_left₀ (norm_nonneg _) ?_ 2
      rw [e]
      refine (norm_add_le _ _).trans ?_
      rw [norm_smul, norm_smul, Real.norm_of_nonneg h0, Real.norm_of_nonneg h1]
    unfold obj; linarith
  have e1 : s.t • (v - s.z) = u - (s.t • s.z - (s.t - 1) • s.x) := by
    rw [hv, smul_sub, smul_add, smul_smul, smul_smul, mul_sub, mul_one, mul_one_div_cancel ht0.ne']; module
  have e2 : s.t • (v - x') = u - (t' • (fistaStep p s).z - (t' - 1) • x') := by
    rw [ez', hv, smul_sub, smul_add, smul_smul, smul_smul, mul_sub, mul_one, mul_one_div_cancel ht0.ne', smul_add t', smul_smul,
      mul_div_cancel₀ _ ht'0]; module
  have n1 : ‖u - (s.t • s.z - (s.t - 1) • s.x)‖ ^ 2 = s.t ^ 2 * ‖v - s.z‖ ^ 2 := by
    rw [← e1, norm_smul, mul_pow, Real.norm_eq_abs, sq_abs]
  have n2 : ‖u - (t' • (fistaStep p s).z - (t' - 1) • x')‖ ^ 2 = s.t ^ 2 * ‖v - x'‖ ^ 2 := by
    rw [← e2, norm_smul, mul_pow, Real.norm_eq_abs, sq_abs]
  rw [et', hrec, n2]
  rw [n1] at ih
  have a2 : s.t ^ 2 * obj p R x' ≤ s.t ^ 2 * ((1 - 1 / s.t) * obj p R s.x + 1 / s.t * obj p R u + (‖v - s.z‖ ^ 2 - ‖v - x'‖ ^ 2) / (2 * p.step)) :=
    mul_le_mul_of_nonneg_left (by linarith) (by positivity)
  have e3 : s.t ^ 2 * ((1 - 1 / s.t) * obj p R s.x + 1 / s.t * obj p R u + (‖v - s.z‖ ^ 2 - ‖v - x'‖ ^ 2) / (2 * p.step)) =
      (s.t ^ 2 - s.t) * obj p R s.x + s.t * obj p R u + s.t ^ 2 * ‖v - s.z‖ ^ 2 / (2 * p.step) - s.t ^ 2 * ‖v - x'‖ ^ 2 / (2 * p.step) := by
    field_simp; ring
  rw [e3] at a2
  linarith

include hs in
/-- **C42** rate: after `k` iterations of `fista` with a step at most `1/|A|²` and the matching threshold, the objective exceeds the value at any
point `u` (in particular a minimiser) by at most `2 |x0 - u|² / (step (k+1)²)`. -/
theorem c42_fista_rate (s : FistaState E F) (h : Reach (fistaCond p) (fistaStep p) (fistaInit p) s) (h1 : 1 ≤ s.iters) (u : E) :
    obj p R s.x - obj p R u ≤ 2 * ‖p.x0 - u‖ ^ 2 / (p.step * (s.iters + 1) ^ 2) := by
  have hpos := hs.step_pos
  have hpot := fista_potential hs u s h
  cases h with
  | init => simp [fistaInit] at h1
  | @step s h hc =>
    have ht := fista_t s h
    have hrec := (t_rec s.t ht.2).1
    have e : (fistaStep p s).t ^ 2 - (fistaStep p s).t = s.t ^ 2 := hrec
    rw [e] at hpot
    set D := obj p R (fistaStep p s).x - obj p R u with hD
    have h0 : 0 ≤ ‖u - ((fistaStep p s).t • (fistaStep p s).z - ((fistaStep p s).t - 1) • (fistaStep p s).x)‖ ^ 2 / (2 * p.step) := by positivity
    have h2 : s.t ^ 2 * D ≤ ‖p.x0 - u‖ ^ 2 / (2 * p.step) := by linarith
    have ek : ((fistaStep p s).iters : ℝ) + 1 = s.iters + 2 := by simp [fistaStep]; ring
    rw [ek, le_div_iff₀ (by positivity)]
    by_cases hD0 : D ≤ 0
    · have : D * (p.step * ((s.iters : ℝ) + 2) ^ 2) ≤ 0 := mul_nonpos_of_nonpos_of_nonneg hD0 (by positivity)
      have : 0 ≤ 2 * ‖p.x0 - u‖ ^ 2 := by positivity
      linarith
    · push Not at hD0
      have h3 : (((s.iters : ℝ) + 2) / 2) ^ 2 ≤ s.t ^ 2 := pow_le_pow_left₀ (by positivity) ht.1 2
      have h4 : (((s.iters : ℝ) + 2) / 2) ^ 2 * D ≤ ‖p.x0 - u‖ ^ 2 / (2 * p.step) := (mul_le_mul_of_nonneg_right h3 hD0.le).trans h2
      rw [le_div_iff₀ (by positivity)] at h4
      nlinarith

end fista

/-! ## The LASSO instance -/

/-- Soft thresholding of every entry at `step · lam` (geo/thresholding.py) is the threshold matched to the LASSO regulariser `lam |x|₁`. -/
theorem soft_matches {n : ℕ} (lam step : ℝ) (hl : 0 ≤ lam) (hs : 0 < step) (x : Vec n) :
    IsProx (fun z : Vec n => lam * l1 z) step x (vec fun i => softThreshold (x i) (step * lam)) := by
  refine IsProx.of_subgradient hs fun z => ?_
  have hτ : 0 ≤ step * lam := by positivity
  have hc : ∀ i, lam * |softThreshold (x i) (step * lam)| + (x i - softThreshold (x i) (step * lam)) * (z i - softThreshold (x i) (step * lam)) / step ≤
      lam * |z i| := by
    intro i
    obtain ⟨_, h2, h3⟩ := shrink1_cases (step * lam) (x i) hτ
    change |x i - softThreshold (x i) (step * lam)| ≤ step * lam at h2
    change (x i - softThreshold (x i) (step * lam)) * softThreshold (x i) (step * lam) = step * lam * |softThreshold (x i) (step * lam)| at h3
    have h4 : (x i - softThreshold (x i) (step * lam)) * z i ≤ step * lam * |z i| := by
      refine (le_abs_self _).trans ?_
      rw [abs_mul]; exact mul_le_mul_of_nonneg_right h2 (abs_nonneg _)
    have h5 : (x i - softThreshold (x i) (step * lam)) * (z i - softThreshold (x i) (step * lam)) / step ≤
        lam * |z i| - lam * |softThreshold (x i) (step * lam)| := by
      rw [div_le_iff₀ hs]; nlinarith
    linarith
  unfold l1
  rw [inner_sum, Finset.mul_sum, Finset.mul_sum, Finset.sum_div, ← Finset.sum_add_distrib]
  exact Finset.sum_le_sum fun i _ => by simpa using hc i

theorem l1_convex {n : ℕ} (lam : ℝ) (hl : 0 ≤ lam) : ConvexOn ℝ Set.univ (fun z : Vec n => lam * l1 z) := by
  refine ⟨convex_univ, fun x _ y _ a b ha hb _ => ?_⟩
  simp only [smul_eq_mul]
  have : l1 (a • x + b • y) ≤ a * l1 x + b * l1 y := by
    unfold l1
    rw [Finset.mul_sum, Finset.mul_sum, ← Finset.sum_add_distrib]
    refine Finset.sum_le_sum fun i _ => ?_
    have e : (a • x + b • y) i = a * x i + b * y i := rfl
    rw [e]
    refine (abs_add_le _ _).trans ?_
    rw [abs_mul, abs_mul, abs_of_nonneg ha, abs_of_nonneg hb]
  have := mul_le_mul_of_nonneg_left this hl
  linarith

/-- **C41, C42** the LASSO: with the default identity basis and soft thresholding at `step · lam`, `ista` decreases
`½|b - A x|² + lam |x|₁` at rate `1/k` and `fista` at rate `1/k²`, from any start, for every matrix or operator with `step |A|² ≤ 1`. -/
theorem c41_c42_lasso {m n : ℕ} (A : Vec n →ₗ[ℝ] Vec m) (At : Vec m → Vec n) (hadj : ∀ x y, ⟪A x, y⟫ = ⟪x, At y⟫) (b : Vec m) (x0 : Vec n)
    (lam step : ℝ) (hl : 0 ≤ lam) (hs : 0 < step) (hstep : ∀ d, step * ‖A d‖ ^ 2 ≤ ‖d‖ ^ 2) (rtol xtol : ℝ) (N : ℕ) :
    let p : IstaArgs (Vec n) (Vec m) (Vec n) := { times := A, trans := At, b := b, x0 := x0, step := step, thresh := (fun _ x => vec fun i => softThreshold (x i) (step * lam)), basisTimes := id, basisTrans := id, rtol := rtol, xtol := xtol, maxIters := N }
    let F : Vec n → ℝ := fun x => 1 / 2 * ‖b - A x‖ ^ 2 + lam * l1 x
    (∀ s, Reach (istaCond p) (istaStep p) (istaInit p) s → F (istaStep p s).x ≤ F s.x ∧
      (1 ≤ s.iters → ∀ u, F s.x - F u ≤ ‖x0 - u‖ ^ 2 / (2 * step * s.iters))) ∧
    (∀ s, Reach (fistaCond p) (fistaStep p) (fistaInit p) s → 1 ≤ s.iters → ∀ u, F s.x - F u ≤ 2 * ‖x0 - u‖ ^ 2 / (step * (s.iters + 1) ^ 2)) := by
  intro p F
  have hset : IstaSetting p A (LinearIsometryEquiv.refl ℝ (Vec n)) (fun z => lam * l1 z) :=
    ⟨rfl, hadj, rfl, rfl, hs, hstep, l1_convex lam hl, fun _ x => soft_matches lam step hl hs x⟩
  refine ⟨fun s h => ⟨?_, fun h1 u => c41_ista_rate hset s h h1 u⟩, fun s h h1 u => c42_fista_rate hset s h h1 u⟩
  have := c41_ista_monotone hset s h
  have h0 : 0 ≤ ‖(istaStep p s).x - s.x‖ ^ 2 / (2 * p.step) := by positivity
  have h2 : obj p (fun z => lam * l1 z) (istaStep p s).x ≤ obj p (fun z => lam * l1 z) s.x := by linarith
  exact h2

/-- The hypotheses are met: `A = 2 I` on `ℝ³`, `step = 1/4`. -/
example : ∀ d : Vec 3, (1 / 4 : ℝ) * ‖((2 : ℝ) • LinearMap.id : Vec 3 →ₗ[ℝ] Vec 3) d‖ ^ 2 ≤ ‖d‖ ^ 2 := by
  intro d
  simp only [LinearMap.smul_apply, LinearMap.id_apply, norm_smul]
  norm_num; nlinarith

/-- **C42 disproof** (residual) the residual returned by `fista` is not that of the returned `x`: after two iterations on the scalar problem
`A = 1, b = 1, x0 = 0, step = 1/2` without regularisation, `r ≠ b - A x`. -/
theorem c42_fista_residual_fails : ∃ (p : IstaArgs ℝ ℝ ℝ) (s : FistaState ℝ ℝ), p.rtol = 1e-3 ∧ p.xtol = 1e-10 ∧
    Out (fistaCond p) (fistaStep p) (fistaInit p) s ∧ s.r ≠ p.b - p.times s.x := by
  let p : IstaArgs ℝ ℝ ℝ := { times := id, trans := id, b := 1, x0 := 0, step := 1 / 2, thresh := (fun _ x => x), basisTimes := (id), basisTrans := (id), rtol := 1e-3, xtol := 1e-10, maxIters := 2 }
  have e1 : fistaStep p (fistaInit p) = { x := 1 / 2, z := 1 / 2, r := 1 / 2, t := (1 + Real.sqrt 5) / 2, rr := 1 / 4, dx := 1 / 2, iters := 1 } := by
    simp only [fistaStep, fistaInit, p]
    norm_num
  have c0 : fistaCond p (fistaInit p) := by
    simp only [fistaCond, fistaInit, p]; norm_num
  have c1 : fistaCond p { x := 1 / 2, z := 1 / 2, r := 1 / 2, t := (1 + Real.sqrt 5) / 2, rr := 1 / 4, dx := 1 / 2, iters := 1 } := by
    simp only [fistaCond, p]; norm_num
  have h1 := Reach.step (f := fistaStep p) .init c0
  rw [e1] at h1
  have h2 := h1.step c1
  refine ⟨p, _, rfl, rfl, ⟨h2, by simp [fistaCond, fistaStep, p]⟩, ?_⟩
  simp only [fistaStep, p, id]
  norm_num
  have h5 : (1 : ℝ) < Real.sqrt 5 := by
    rw [Real.lt_sqrt (by norm_num)]; norm_num
  have h6 : 0 < (1 + Real.sqrt (1 + 4 * ((1 + Real.sqrt 5) / 2) ^ 2)) / 2 := by positivity
  have h7 : 0 < ((1 + Real.sqrt 5) / 2 - 1) / ((1 + Real.sqrt (1 + 4 * ((1 + Real.sqrt 5) / 2) ^ 2)) / 2) * (1 / 4) :=
    mul_pos (div_pos (by linarith) h6) (by norm_num)
  intro h
  linarith

/-! Instances: `A = 2 I` on `ℝ³`, `b = (6, -3, 1)`, `lam = 1`, `step = 1/4`. -/

abbrev exTwo : Vec 3 →ₗ[ℝ] Vec 3 := (2 : ℝ) • LinearMap.id

abbrev exIsta : IstaArgs (Vec 3) (Vec 3) (Vec 3) :=
  { times := exTwo, trans := exTwo, b := vec ![6, -3, 1], x0 := 0, step := 1 / 4, thresh := (fun _ x => vec fun i => softThreshold (x i) (1 / 4 * 1)), basisTimes := id, basisTrans := id,
    rtol := 1e-3, xtol := 1e-3, maxIters := 50 }

theorem exTwo_adj (x y : Vec 3) : ⟪exTwo x, y⟫ = ⟪x, exTwo y⟫ := by
  simp [exTwo, inner_smul_left, inner_smul_right]

theorem exTwo_step (d : Vec 3) : (1 / 4 : ℝ) * ‖exTwo d‖ ^ 2 ≤ ‖d‖ ^ 2 := by
  simp only [exTwo, LinearMap.smul_apply, LinearMap.id_apply, norm_smul]
  norm_num; nlinarith

theorem exIsta_setting : IstaSetting exIsta exTwo (LinearIsometryEquiv.refl ℝ (Vec 3)) (fun z => 1 * l1 z) :=
  ⟨rfl, exTwo_adj, rfl, rfl, by norm_num, exTwo_step, l1_convex 1 (by norm_num), fun _ x => soft_matches 1 (1 / 4) (by norm_num) (by norm_num) x⟩

/-- Both loops are entered. -/
theorem exIsta_enters : istaCond exIsta (istaInit exIsta) ∧ fistaCond exIsta (fistaInit exIsta) := by
  have h : ‖(vec ![6, -3, 1] : Vec 3) - exTwo 0‖ ^ 2 > ‖(vec ![6, -3, 1] : Vec 3)‖ ^ 2 * 1e-3 ^ 2 := by
    rw [map_zero, sub_zero]
    have : 0 < ‖(vec ![6, -3, 1] : Vec 3)‖ ^ 2 := by
      rw [EuclideanSpace.norm_sq_eq]; simp [Fin.sum_univ_three, vec]; norm_num
    nlinarith
  exact ⟨⟨by norm_num [istaInit], by norm_num [istaInit], h⟩, ⟨by norm_num [fistaInit], by norm_num [fistaInit], h⟩⟩

example := c41_ista_residual exIsta _ (.step .init exIsta_enters.1)
example := c41_ista_monotone exIsta_setting _ (.step .init exIsta_enters.1)
example := c41_ista_rate exIsta_setting _ (.step .init exIsta_enters.1) le_rfl
example := c42_fista_residual exIsta _ (.step .init exIsta_enters.2)
example := c42_fista_rate exIsta_setting _ (.step .init exIsta_enters.2) le_rfl
example := c41_c42_lasso exTwo exTwo exTwo_adj (vec ![6, -3, 1]) 0 1 (1 / 4) (by norm_num) (by norm_num) exTwo_step 1e-3 1e-3 50

end Verif.Sls
