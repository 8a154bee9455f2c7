import Verif.Sls.IstaProps
import Mathlib.Analysis.Convex.Continuous
import Mathlib.Analysis.InnerProductSpace.PiL2
import Mathlib.Topology.MetricSpace.Sequences
import Mathlib.Topology.Order.MonotoneConvergence
import Mathlib.Analysis.SpecificLimits.Basic

set_option autoImplicit false
/-!
# What the result of ISTA and FISTA means (C41, C42)
-/
noncomputable section
namespace Verif.Sls
open Verif.Loop Verif.Opt Filter Topology
open scoped RealInnerProductSpace

variable {E F G : Type*} [NormedAddCommGroup E] [InnerProductSpace ℝ E] [NormedAddCommGroup F] [InnerProductSpace ℝ F]
  [NormedAddCommGroup G] [InnerProductSpace ℝ G]

/-- **C41** (why `ista` stopped) the returned state used all its iterations, or its residual is at most `rtol |b|`, or it is the result of an
iteration that moved `x` by at most `xtol` (for a tolerance below the initial value `1e10` of the recorded change). -/
theorem c41_ista_result (p : IstaArgs E F G) (hr : 0 ≤ p.rtol) (hx : p.xtol < 1e10) (s : IstaState E F)
    (h : Out (istaCond p) (istaStep p) (istaInit p) s) :
    s.iters = p.maxIters ∨ ‖p.b - p.times s.x‖ ≤ p.rtol * ‖p.b‖ ∨
      ∃ s0, Reach (istaCond p) (istaStep p) (istaInit p) s0 ∧ s = istaStep p s0 ∧ ‖s.x - s0.x‖ ≤ p.xtol := by
  obtain ⟨h1, h2, h3, -⟩ := c41_ista_residual p s h.1
  by_cases hi : s.iters < p.maxIters
  · right
    by_cases hd : s.dx > p.xtol
    · left
      have := h.2
      unfold istaCond at this
      push Not at this
      have h4 := this hi hd
      rw [h2, h1, ← mul_pow] at h4
      have h5 := abs_le_of_sq_le_sq' h4 (by positivity)
      rw [mul_comm]; exact h5.2
    · right
      obtain ⟨hreach, -⟩ := h
      cases hreach with
      | init => exact absurd hx (by simpa [istaInit] using hd)
      | @step s0 hr0 hc => exact ⟨s0, hr0, rfl, by simpa [istaStep] using hd⟩
  · left; omega

/-- **C41** (when `ista` goes on) at every state but the returned one there are iterations left, the residual exceeds `rtol |b|` and the last change
exceeds `xtol`. -/
theorem c41_ista_continues (p : IstaArgs E F G) (hr : 0 ≤ p.rtol) (s0 s : IstaState E F)
    (h0 : Reach (istaCond p) (istaStep p) (istaInit p) s0) (hs : s = istaStep p s0) (h : istaCond p s) :
    s.iters < p.maxIters ∧ p.rtol * ‖p.b‖ < ‖p.b - p.times s.x‖ ∧ p.xtol < ‖s.x - s0.x‖ := by
  subst hs
  refine ⟨h.1, ?_, h.2.1⟩
  have := h.2.2
  have e : (istaStep p s0).rr = ‖p.b - p.times (istaStep p s0).x‖ ^ 2 := rfl
  rw [e, ← mul_pow] at this
  have := lt_of_pow_lt_pow_left₀ 2 (norm_nonneg _) this
  rwa [mul_comm]

/-- **C42** (why `fista` stopped) the returned state used all its iterations, or the residual at the extrapolated point is at most `rtol |b|`, or the
last iteration moved `x` by at most `xtol`. -/
theorem c42_fista_result (p : IstaArgs E F G) (hr : 0 ≤ p.rtol) (hx : p.xtol < 1e10) (s : FistaState E F)
    (h : Out (fistaCond p) (fistaStep p) (fistaInit p) s) :
    s.iters = p.maxIters ∨ ‖p.b - p.times s.z‖ ≤ p.rtol * ‖p.b‖ ∨
      ∃ s0, Reach (fistaCond p) (fistaStep p) (fistaInit p) s0 ∧ s = fistaStep p s0 ∧ ‖s.x - s0.x‖ ≤ p.xtol := by
  obtain ⟨h1, h2, h3, -⟩ := c42_fista_residual p s h.1
  by_cases hi : s.iters < p.maxIters
  · right
    by_cases hd : s.dx > p.xtol
    · left
      have := h.2
      unfold fistaCond at this
      push Not at this
      have h4 := this hi hd
      rw [h2, h1, ← mul_pow] at h4
      have h5 := abs_le_of_sq_le_sq' h4 (by positivity)
      rw [mul_comm]; exact h5.2
    · right
      obtain ⟨hreach, -⟩ := h
      cases hreach with
      | init => exact absurd hx (by simpa [fistaInit] using hd)
      | @step s0 hr0 hc => exact ⟨s0, hr0, rfl, by simpa [fistaStep] using hd⟩
  · left; omega

/-- **C42** (when `fista` goes on). -/
theorem c42_fista_continues (p : IstaArgs E F G) (hr : 0 ≤ p.rtol) (s0 s : FistaState E F)
    (h0 : Reach (fistaCond p) (fistaStep p) (fistaInit p) s0) (hs : s = fistaStep p s0) (h : fistaCond p s) :
    s.iters < p.maxIters ∧ p.rtol * ‖p.b‖ < ‖p.b - p.times s.z‖ ∧ p.xtol < ‖s.x - s0.x‖ := by
  subst hs
  refine ⟨h.1, ?_, h.2.1⟩
  have := h.2.2
  have e : (fistaStep p s0).rr = ‖p.b - p.times (fistaStep p s0).z‖ ^ 2 := rfl
  rw [e, ← mul_pow] at this
  have := lt_of_pow_lt_pow_left₀ 2 (norm_nonneg _) this
  rwa [mul_comm]

section setting
variable {p : IstaArgs E F G} {A : E →ₗ[ℝ] F} {B : E ≃ₗᵢ[ℝ] G} {R : G → ℝ} (hs : IstaSetting p A B R)

include hs in
/-- Distances to minimisers do not grow. -/
theorem ista_fejer (s : IstaState E F) (hr : s.r = p.b - p.times s.x) (u : E) (hu : ∀ v, obj p R u ≤ obj p R v) :
    ‖(istaStep p s).x - u‖ ≤ ‖s.x - u‖ := by
  have h1 := pg_ineq hs s.iters s.x u
  rw [← hr] at h1
  have h2 := hu (istaStep p s).x
  have h3 : obj p R (istaStep p s).x ≤ obj p R u + (‖u - s.x‖ ^ 2 - ‖u - (istaStep p s).x‖ ^ 2) / (2 * p.step) := h1
  have h4 : 0 ≤ (‖u - s.x‖ ^ 2 - ‖u - (istaStep p s).x‖ ^ 2) / (2 * p.step) := by linarith
  have h5 : 0 ≤ ‖u - s.x‖ ^ 2 - ‖u - (istaStep p s).x‖ ^ 2 := by
    by_contra hc
    push Not at hc
    have := div_neg_of_neg_of_pos hc (mul_pos two_pos hs.step_pos)
    linarith
  rw [norm_sub_rev _ u, norm_sub_rev _ u]
  exact (abs_le_of_sq_le_sq' (by linarith) (norm_nonneg _)).2

include hs in
/-- **C41** (quality of a result accepted for a small change) if the last iteration moved `x` by at most `xtol`, the objective at the result exceeds
its minimum by at most `xtol (|x0 - u| + xtol/2) / step` for a minimiser `u`. -/
theorem c41_ista_small_change (s0 : IstaState E F) (h : Reach (istaCond p) (istaStep p) (istaInit p) s0) (u : E)
    (hu : ∀ v, obj p R u ≤ obj p R v) (hx : ‖(istaStep p s0).x - s0.x‖ ≤ p.xtol) :
    obj p R (istaStep p s0).x - obj p R u ≤ p.xtol * (‖p.x0 - u‖ + p.xtol / 2) / p.step := by
  have hpos := hs.step_pos
  have hf : ‖(istaStep p s0).x - u‖ ≤ ‖p.x0 - u‖ := by
    have h1 : ‖s0.x - u‖ ≤ ‖p.x0 - u‖ :=
      h.inv' (fun s => ‖s.x - u‖ ≤ ‖p.x0 - u‖) le_rfl fun s hr ih _ =>
        (ista_fejer hs s (c41_ista_residual p s hr).1 u hu).trans ih
    exact (ista_fejer hs s0 (c41_ista_residual p s0 h).1 u hu).trans h1
  have h1 := ista_ineq hs s0 h u
  set d := ‖(istaStep p s0).x - s0.x‖ with hd
  set q := ‖(istaStep p s0).x - u‖ with hq
  have hd0 : 0 ≤ d := norm_nonneg _
  have hq0 : 0 ≤ q := norm_nonneg _
  have h2 : ‖u - s0.x‖ ≤ q + d := by
    have e : u - s0.x = (u - (istaStep p s0).x) + ((istaStep p s0).x - s0.x) := by abel
    rw [e]
    refine (norm_add_le _ _).trans ?_
    rw [norm_sub_rev u, ← hq, ← hd]
  have h3 : ‖u - s0.x‖ ^ 2 ≤ (q + d) ^ 2 := pow_le_pow_left₀ (norm_nonneg _) h2 2
  have h4 : (‖u - s0.x‖ ^ 2 - ‖u - (istaStep p s0).x‖ ^ 2) / (2 * p.step) ≤ p.xtol * (‖p.x0 - u‖ + p.xtol / 2) / p.step := by
    rw [div_le_div_iff₀ (by positivity) hpos, norm_sub_rev u (istaStep p s0).x, ← hq]
    have h5 : q * d ≤ ‖p.x0 - u‖ * p.xtol := mul_le_mul hf hx hd0 (norm_nonneg _)
    have h6 : d * d ≤ p.xtol * p.xtol := mul_le_mul hx hx hd0 (hd0.trans hx)
    have h7 : ‖u - s0.x‖ ^ 2 - q ^ 2 ≤ 2 * (‖p.x0 - u‖ * p.xtol) + p.xtol * p.xtol := by nlinarith
    nlinarith
  linarith

include hs in
/-- **C41** (convergence) the iterates of `ista` converge to a minimiser whenever one exists and the arrays are finite-dimensional. -/
theorem c41_ista_converges [FiniteDimensional ℝ E] [FiniteDimensional ℝ G] (hex : ∃ u, ∀ v, obj p R u ≤ obj p R v) :
    ∃ u, (∀ v, obj p R u ≤ obj p R v) ∧ Tendsto (fun k => ((istaStep p)^[k] (istaInit p)).x) atTop (𝓝 u) := by
  obtain ⟨u0, hu0⟩ := hex
  set S : ℕ → IstaState E F := fun k => (istaStep p)^[k] (istaInit p) with hS
  have hsucc : ∀ k, S (k + 1) = istaStep p (S k) := fun k => Function.iterate_succ_apply' _ _ _
  have hr : ∀ k, (S k).r = p.b - p.times (S k).x := fun k => by
    cases k with
    | zero => rfl
    | succ k => rw [hsucc]; rfl
  have anti : ∀ u, (∀ v, obj p R u ≤ obj p R v) → Antitone fun k => ‖(S k).x - u‖ := fun u hu =>
    antitone_nat_of_succ_le fun k => by rw [hsucc]; exact ista_fejer hs _ (hr k) u hu
  have hpos := hs.step_pos
  have ineq : ∀ k u, obj p R (S (k + 1)).x ≤ obj p R u + (‖u - (S k).x‖ ^ 2 - ‖u - (S (k + 1)).x‖ ^ 2) / (2 * p.step) := fun k u => by
    have := pg_ineq hs (S k).iters (S k).x u
    rw [← hr k] at this
    rw [hsucc]; exact this
  have mono : ∀ k, obj p R (S (k + 1)).x ≤ obj p R (S k).x := fun k => by
    refine (ineq k (S k).x).trans ?_
    rw [sub_self, norm_zero]
    have : ((0 : ℝ) ^ 2 - ‖(S k).x - (S (k + 1)).x‖ ^ 2) / (2 * p.step) ≤ 0 := by
      apply div_nonpos_of_nonpos_of_nonneg
      · nlinarith [sq_nonneg ‖(S k).x - (S (k + 1)).x‖]
      · positivity
    linarith
  have key : ∀ k : ℕ, (k : ℝ) * (obj p R (S k).x - obj p R u0) + ‖u0 - (S k).x‖ ^ 2 / (2 * p.step) ≤ ‖u0 - p.x0‖ ^ 2 / (2 * p.step) := by
    intro k
    induction k with
    | zero => simp [hS, istaInit]
    | succ k ih =>
      have a1 := ineq k u0
      have a5 : (k : ℝ) * (obj p R (S (k + 1)).x - obj p R u0) ≤ k * (obj p R (S k).x - obj p R u0) :=
        mul_le_mul_of_nonneg_left (by linarith [mono k]) (Nat.cast_nonneg _)
      rw [sub_div] at a1
      push_cast
      linarith
  have hlimobj : Tendsto (fun k => obj p R (S k).x) atTop (𝓝 (obj p R u0)) := by
    have hb : Tendsto (fun k : ℕ => obj p R u0 + ‖u0 - p.x0‖ ^ 2 / (2 * p.step) / (k : ℝ)) atTop (𝓝 (obj p R u0)) := by
      have := (tendsto_const_nhds (x := obj p R u0)).add (tendsto_const_div_atTop_nhds_zero_nat (‖u0 - p.x0‖ ^ 2 / (2 * p.step)))
      rwa [add_zero] at this
    refine tendsto_of_tendsto_of_tendsto_of_le_of_le' tendsto_const_nhds hb (Eventually.of_forall fun k => hu0 _) ?_
    filter_upwards [eventually_gt_atTop 0] with k hk
    have hk' : (0 : ℝ) < k := by exact_mod_cast hk
    have h1 := key k
    have h2 : 0 ≤ ‖u0 - (S k).x‖ ^ 2 / (2 * p.step) := by positivity
    have h3 : obj p R (S k).x - obj p R u0 ≤ ‖u0 - p.x0‖ ^ 2 / (2 * p.step) / (k : ℝ) := by
      rw [le_div_iff₀ hk']; linarith
    linarith
  have hcont : Continuous (obj p R) := by
    have hR : Continuous R := by
      rw [← continuousOn_univ]; exact hs.conv.continuousOn isOpen_univ
    have hA : Continuous A := A.continuous_of_finiteDimensional
    unfold obj
    rw [hs.times, hs.bTrans]
    exact (continuous_const.mul ((continuous_const.sub hA).norm.pow 2)).add (hR.comp B.continuous)
  haveI : ProperSpace E := FiniteDimensional.proper ℝ E
  have hbd : ∀ k, (S k).x ∈ Metric.closedBall u0 ‖p.x0 - u0‖ := fun k => by
    rw [mem_closedBall_iff_norm]
    exact anti u0 hu0 (Nat.zero_le k)
  obtain ⟨u, -, φ, hφ, hlim⟩ := tendsto_subseq_of_bounded Metric.isBounded_closedBall hbd
  have hu : obj p R u = obj p R u0 :=
    tendsto_nhds_unique ((hcont.tendsto u).comp hlim) (hlimobj.comp hφ.tendsto_atTop)
  have hmin : ∀ v, obj p R u ≤ obj p R v := fun v => hu ▸ hu0 v
  refine ⟨u, hmin, ?_⟩
  rw [tendsto_iff_norm_sub_tendsto_zero] at hlim ⊢
  obtain ⟨L, hL⟩ : ∃ L, Tendsto (fun k => ‖(S k).x - u‖) atTop (𝓝 L) :=
    ⟨_, tendsto_atTop_ciInf (anti u hmin) ⟨0, by rintro _ ⟨k, rfl⟩; exact norm_nonneg _⟩⟩
  have : L = 0 := tendsto_nhds_unique (hL.comp hφ.tendsto_atTop) hlim
  rw [← this]; exact hL
end setting

/-- **C41** for the LASSO with `lam > 0` a minimiser exists, and the iterates of `ista` converge to one from every start. -/
theorem c41_lasso_converges {m n : ℕ} (A : Vec n →ₗ[ℝ] Vec m) (At : Vec m → Vec n) (hadj : ∀ x y, ⟪A x, y⟫ = ⟪x, At y⟫) (b : Vec m) (x0 : Vec n)
    (lam step : ℝ) (hl : 0 < lam) (hs : 0 < step) (hstep : ∀ d, step * ‖A d‖ ^ 2 ≤ ‖d‖ ^ 2) (rtol xtol : ℝ) (N : ℕ) :
    let p : IstaArgs (Vec n) (Vec m) (Vec n) := { times := A, trans := At, b := b, x0 := x0, step := step, thresh := (fun _ x => vec fun i => softThreshold (x i) (step * lam)), basisTimes := id, basisTrans := id, rtol := rtol, xtol := xtol, maxIters := N }
    let F : Vec n → ℝ := fun x => 1 / 2 * ‖b - A x‖ ^ 2 + lam * l1 x
    ∃ u, (∀ v, F u ≤ F v) ∧ Tendsto (fun k => ((istaStep p)^[k] (istaInit p)).x) atTop (𝓝 u) := by
  intro p F
  have hset : IstaSetting p A (LinearIsometryEquiv.refl ℝ (Vec n)) (fun z => lam * l1 z) :=
    ⟨rfl, hadj, rfl, rfl, hs, hstep, l1_convex lam hl.le, fun _ x => soft_matches lam step hl.le hs x⟩
  refine c41_ista_converges hset ?_
  have hA : Continuous A := A.continuous_of_finiteDimensional
  have hl1 : Continuous fun x : Vec n => lam * l1 x := by
    rw [← continuousOn_univ]; exact (l1_convex lam hl.le).continuousOn isOpen_univ
  have hcont : Continuous F := (continuous_const.mul ((continuous_const.sub hA).norm.pow 2)).add hl1
  have hge : ∀ x : Vec n, ‖x‖ ≤ l1 x := fun x => by
    rw [EuclideanSpace.norm_eq]
    apply Real.sqrt_le_iff.mpr
    refine ⟨Finset.sum_nonneg fun i _ => abs_nonneg _, ?_⟩
    have h0 : ∀ i ∈ Finset.univ, 0 ≤ |x i| := fun i _ => abs_nonneg _
    calc ∑ i, ‖x i‖ ^ 2 = ∑ i, |x i| * |x i| := Finset.sum_congr rfl fun i _ => by rw [Real.norm_eq_abs, sq]
      _ ≤ ∑ i, |x i| * l1 x := Finset.sum_le_sum fun i hi => mul_le_mul_of_nonneg_left (Finset.single_le_sum h0 hi) (abs_nonneg _)
      _ = l1 x ^ 2 := by rw [← Finset.sum_mul, sq]; rfl
  have hinf : Tendsto F (cocompact (Vec n)) atTop := by
    refine tendsto_atTop_mono (fun x => ?_) (Tendsto.const_mul_atTop hl (tendsto_norm_cocompact_atTop (E := Vec n)))
    have h1 := mul_le_mul_of_nonneg_left (hge x) hl.le
    have h2 : 0 ≤ 1 / 2 * ‖b - A x‖ ^ 2 := by positivity
    show lam * ‖x‖ ≤ 1 / 2 * ‖b - A x‖ ^ 2 + lam * l1 x
    linarith
  obtain ⟨u, hu⟩ := hcont.exists_forall_le hinf
  exact ⟨u, hu⟩

/-- `A = I` on `ℝ³` with step `1` meets the hypotheses. -/
example : (∀ x y : Vec 3, ⟪(LinearMap.id : Vec 3 →ₗ[ℝ] Vec 3) x, y⟫ = ⟪x, id y⟫) ∧
    ∀ d : Vec 3, (1 : ℝ) * ‖(LinearMap.id : Vec 3 →ₗ[ℝ] Vec 3) d‖ ^ 2 ≤ ‖d‖ ^ 2 := ⟨fun _ _ => rfl, fun d => by simp⟩

/-! Instances. -/

example := c41_ista_result exIsta (by norm_num) (by norm_num)
example (h : istaCond exIsta (istaStep exIsta (istaInit exIsta))) := c41_ista_continues exIsta (by norm_num) _ _ .init rfl h
example := c42_fista_result exIsta (by norm_num) (by norm_num)
example (h : fistaCond exIsta (fistaStep exIsta (fistaInit exIsta))) := c42_fista_continues exIsta (by norm_num) _ _ .init rfl h
example (u) (hu : ∀ v, obj exIsta (fun z => 1 * l1 z) u ≤ obj exIsta (fun z => 1 * l1 z) v) (hx) := c41_ista_small_change exIsta_setting _ (.step .init exIsta_enters.1) u hu hx
example := c41_lasso_converges exTwo exTwo exTwo_adj (vec ![6, -3, 1]) 0 1 (1 / 4) (by norm_num) (by norm_num) exTwo_step 1e-3 1e-3 50
example := c41_ista_converges exIsta_setting (by
  obtain ⟨u, hu, -⟩ := c41_lasso_converges exTwo exTwo exTwo_adj (vec ![6, -3, 1]) 0 1 (1 / 4) (by norm_num) (by norm_num) exTwo_step 1e-3 1e-3 50
  exact ⟨u, hu⟩)

end Verif.Sls
