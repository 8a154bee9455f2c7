import Verif.Sls.IstaDataProps
import Verif.Opt.CgContinuityProps
import Mathlib.Analysis.Normed.Group.Continuity

set_option autoImplicit false
/-!
# C181: the results of ISTA and FISTA are continuous in data, start, step and tolerances

`sls/ista.py:40-125`, `sls/fista.py:44-131`.
-/
noncomputable section
namespace Verif.Sls
open Verif.Loop Verif.Opt Filter Topology

variable {E F G : Type*} [NormedAddCommGroup E] [InnerProductSpace ℝ E] [NormedAddCommGroup F] [InnerProductSpace ℝ F]
  [NormedAddCommGroup G] [InnerProductSpace ℝ G]

/-- The operator, the basis and the thresholding function are continuous. -/
structure ContArgs (p : IstaArgs E F G) : Prop where
  times : Continuous p.times
  trans : Continuous p.trans
  basisTimes : Continuous p.basisTimes
  basisTrans : Continuous p.basisTrans
  thresh : ∀ i, Continuous (p.thresh i)

/-- Bounded linear operators with a proximal operator as thresholding satisfy this. -/
theorem IstaSetting.cont {p : IstaArgs E F G} {A : E →ₗ[ℝ] F} {B : E ≃ₗᵢ[ℝ] G} {R : G → ℝ} (hs : IstaSetting p A B R) : ContArgs p := by
  have hp := hs.step_pos
  have hsq : 0 < √p.step := Real.sqrt_pos.2 hp
  refine ⟨?_, ?_, ?_, ?_, fun i => ?_⟩
  · rw [hs.times]
    refine AddMonoidHomClass.continuous_of_bound A (√p.step)⁻¹ fun d => ?_
    rw [inv_mul_eq_div, le_div_iff₀ hsq, mul_comm]
    refine (abs_le_of_sq_le_sq' ?_ (norm_nonneg _)).2
    rw [mul_pow, Real.sq_sqrt hp.le]
    exact hs.step_le d
  · refine (LipschitzWith.of_dist_le_mul (K := ⟨√p.step / p.step, by positivity⟩) fun x y => ?_).continuous
    rw [dist_eq_norm, dist_eq_norm, ← trans_sub' hs]
    have := step_trans_le hs (x - y)
    show _ ≤ √p.step / p.step * _
    rw [div_mul_eq_mul_div, le_div_iff₀ hp, mul_comm]
    exact this
  · rw [hs.bTimes]; exact B.symm.continuous
  · rw [hs.bTrans]; exact B.continuous
  · refine (LipschitzWith.of_dist_le_mul (K := 1) fun x y => ?_).continuous
    have hprox : ∀ z : G, IsProxOn Set.univ R p.step z (p.thresh i z) := fun z => ⟨trivial, fun w _ hw => hs.prox i z w hw⟩
    rw [dist_eq_norm, dist_eq_norm, NNReal.coe_one, one_mul]
    exact (hprox y).nonexpansive hs.conv hp (hprox x)

/-- Data, start, step size, residual tolerance and change tolerance. -/
abbrev Perturb (E F : Type*) := F × E × ℝ × ℝ × ℝ

/-- The call with these arguments replaced. -/
def IstaArgs.at (p : IstaArgs E F G) (q : Perturb E F) : IstaArgs E F G := { p with b := q.1, x0 := q.2.1, step := q.2.2.1, rtol := q.2.2.2.1, xtol := q.2.2.2.2 }

/-- The arguments of the call itself. -/
def IstaArgs.here (p : IstaArgs E F G) : Perturb E F := (p.b, p.x0, p.step, p.rtol, p.xtol)

section ista
variable {p : IstaArgs E F G} (hp : ContArgs p) {q0 : Perturb E F}

structure IstaCont (g : Perturb E F → IstaState E F) (q0 : Perturb E F) : Prop where
  x : ContinuousAt (fun q => (g q).x) q0
  r : ContinuousAt (fun q => (g q).r) q0
  rr : ContinuousAt (fun q => (g q).rr) q0
  dx : ContinuousAt (fun q => (g q).dx) q0

theorem ista_iters (p : IstaArgs E F G) (k : ℕ) : ((istaStep p)^[k] (istaInit p)).iters = k := by
  induction k with
  | zero => rfl
  | succ k ih => rw [Function.iterate_succ_apply']; simp [istaStep, ih]

theorem fista_iters (p : IstaArgs E F G) (k : ℕ) : ((fistaStep p)^[k] (fistaInit p)).iters = k := by
  induction k with
  | zero => rfl
  | succ k ih => rw [Function.iterate_succ_apply']; simp [fistaStep, ih]

include hp

theorem ista_cont (k : ℕ) : IstaCont (fun q => (istaStep (p.at q))^[k] (istaInit (p.at q))) q0 := by
  have cb : ContinuousAt (fun q : Perturb E F => q.1) q0 := by fun_prop
  have cx : ContinuousAt (fun q : Perturb E F => q.2.1) q0 := by fun_prop
  have cs : ContinuousAt (fun q : Perturb E F => q.2.2.1) q0 := by fun_prop
  induction k with
  | zero =>
    have hr : ContinuousAt (fun q : Perturb E F => q.1 - p.times q.2.1) q0 := cb.sub (hp.times.continuousAt.comp cx)
    exact ⟨cx, hr, hr.norm.pow 2, continuousAt_const⟩
  | succ k ih =>
    have hx : ContinuousAt (fun q => p.basisTimes (p.thresh k (p.basisTrans (((istaStep (p.at q))^[k] (istaInit (p.at q))).x + q.2.2.1 • p.trans ((istaStep (p.at q))^[k] (istaInit (p.at q))).r)))) q0 :=
      hp.basisTimes.continuousAt.comp ((hp.thresh k).continuousAt.comp (hp.basisTrans.continuousAt.comp (ih.x.add (cs.smul (hp.trans.continuousAt.comp ih.r)))))
    have e : ∀ q, ((istaStep (p.at q))^[k + 1] (istaInit (p.at q))).x = p.basisTimes (p.thresh k (p.basisTrans (((istaStep (p.at q))^[k] (istaInit (p.at q))).x + q.2.2.1 • p.trans ((istaStep (p.at q))^[k] (istaInit (p.at q))).r))) := by
      intro q
      rw [Function.iterate_succ_apply']
      conv_rhs => rw [← ista_iters (p.at q) k]
      rw [ista_iters]
      simp only [istaStep, ista_iters]
      rfl
    have hx' : ContinuousAt (fun q => ((istaStep (p.at q))^[k + 1] (istaInit (p.at q))).x) q0 := by simp only [e]; exact hx
    have er : ∀ q, ((istaStep (p.at q))^[k + 1] (istaInit (p.at q))).r = q.1 - p.times ((istaStep (p.at q))^[k + 1] (istaInit (p.at q))).x := by intro q; rw [Function.iterate_succ_apply']; rfl
    have hr : ContinuousAt (fun q => ((istaStep (p.at q))^[k + 1] (istaInit (p.at q))).r) q0 := by simp only [er]; exact cb.sub (hp.times.continuousAt.comp hx')
    refine ⟨hx', hr, ?_, ?_⟩
    · have err : ∀ q, ((istaStep (p.at q))^[k + 1] (istaInit (p.at q))).rr = ‖((istaStep (p.at q))^[k + 1] (istaInit (p.at q))).r‖ ^ 2 := by intro q; rw [Function.iterate_succ_apply']; rfl
      simp only [err]; exact hr.norm.pow 2
    · have ed : ∀ q, ((istaStep (p.at q))^[k + 1] (istaInit (p.at q))).dx = ‖((istaStep (p.at q))^[k + 1] (istaInit (p.at q))).x - ((istaStep (p.at q))^[k] (istaInit (p.at q))).x‖ := by intro q; rw [Function.iterate_succ_apply']; rfl
      simp only [ed]; exact (hx'.sub ih.x).norm

structure FistaCont (g : Perturb E F → FistaState E F) (q0 : Perturb E F) : Prop where
  x : ContinuousAt (fun q => (g q).x) q0
  z : ContinuousAt (fun q => (g q).z) q0
  r : ContinuousAt (fun q => (g q).r) q0
  t : ContinuousAt (fun q => (g q).t) q0
  rr : ContinuousAt (fun q => (g q).rr) q0
  dx : ContinuousAt (fun q => (g q).dx) q0

theorem fista_cont (k : ℕ) : FistaCont (fun q => (fistaStep (p.at q))^[k] (fistaInit (p.at q))) q0 := by
  have cb : ContinuousAt (fun q : Perturb E F => q.1) q0 := by fun_prop
  have cx : ContinuousAt (fun q : Perturb E F => q.2.1) q0 := by fun_prop
  have cs : ContinuousAt (fun q : Perturb E F => q.2.2.1) q0 := by fun_prop
  induction k with
  | zero =>
    have hr : ContinuousAt (fun q : Perturb E F => q.1 - p.times q.2.1) q0 := cb.sub (hp.times.continuousAt.comp cx)
    exact ⟨cx, cx, hr, continuousAt_const, hr.norm.pow 2, continuousAt_const⟩
  | succ k ih =>
    set S : Perturb E F → FistaState E F := fun q => (fistaStep (p.at q))^[k] (fistaInit (p.at q)) with hS
    set T : Perturb E F → FistaState E F := fun q => (fistaStep (p.at q))^[k + 1] (fistaInit (p.at q)) with hT
    have hTS : ∀ q, T q = fistaStep (p.at q) (S q) := fun q => by simp only [hT, hS]; rw [Function.iterate_succ_apply']
    have hi : ∀ q, (S q).iters = k := fun q => fista_iters (p.at q) k
    have e : ∀ q, (T q).x = p.basisTimes (p.thresh k (p.basisTrans ((S q).z + q.2.2.1 • p.trans (S q).r))) := by
      intro q
      rw [hTS, ← hi q]
      rfl
    have hx' : ContinuousAt (fun q => (T q).x) q0 := by
      simp only [e]
      exact hp.basisTimes.continuousAt.comp ((hp.thresh k).continuousAt.comp (hp.basisTrans.continuousAt.comp (ih.z.add (cs.smul (hp.trans.continuousAt.comp ih.r)))))
    have et : ∀ q, (T q).t = (1 + Real.sqrt (1 + 4 * (S q).t ^ 2)) / 2 := fun q => by rw [hTS]; rfl
    have ht : ContinuousAt (fun q => (T q).t) q0 := by
      simp only [et]
      exact (continuousAt_const.add (Real.continuous_sqrt.continuousAt.comp (continuousAt_const.add (continuousAt_const.mul (ih.t.pow 2))))).div_const 2
    have ht0 : (T q0).t ≠ 0 := by rw [et]; positivity
    have ez : ∀ q, (T q).z = (T q).x + (((S q).t - 1) / (T q).t) • ((T q).x - (S q).x) := fun q => by rw [hTS]; rfl
    have hz : ContinuousAt (fun q => (T q).z) q0 := by
      simp only [ez]
      exact hx'.add (((ih.t.sub continuousAt_const).div ht ht0).smul (hx'.sub ih.x))
    have er : ∀ q, (T q).r = q.1 - p.times (T q).z := fun q => by rw [hTS]; rfl
    have hr : ContinuousAt (fun q => (T q).r) q0 := by simp only [er]; exact cb.sub (hp.times.continuousAt.comp hz)
    have err : ∀ q, (T q).rr = ‖(T q).r‖ ^ 2 := fun q => by rw [hTS]; rfl
    have ed : ∀ q, (T q).dx = ‖(T q).x - (S q).x‖ := fun q => by rw [hTS]; rfl
    refine ⟨hx', hz, hr, ht, ?_, ?_⟩
    · simp only [err]; exact hr.norm.pow 2
    · simp only [ed]; exact (hx'.sub ih.x).norm

/-- **C181** let `ista` return `s`, having stopped at the iteration limit, or with the last change strictly below its tolerance, or with the residual strictly below its tolerance.  For all data, starts, step sizes and
tolerances near by it returns after the same number of iterations, with solution and residual as close to those of `s` as wanted. -/
theorem c181_ista (s : IstaState E F) (h : Out (istaCond p) (istaStep p) (istaInit p) s) (htie : p.maxIters ≤ s.iters ∨ s.dx < p.xtol ∨ s.rr < ‖p.b‖ ^ 2 * p.rtol ^ 2) (ε : ℝ) (hε : 0 < ε) :
    ∀ᶠ q in 𝓝 p.here, ∃ t, Out (istaCond (p.at q)) (istaStep (p.at q)) (istaInit (p.at q)) t ∧ t.iters = s.iters ∧ ‖t.x - s.x‖ < ε ∧ ‖t.r - s.r‖ < ε := by
  obtain ⟨k, rfl, hk⟩ := h.1.iterate
  have hc : ∀ j, IstaCont (fun q => (istaStep (p.at q))^[j] (istaInit (p.at q))) p.here := fun j => ista_cont hp j
  have cd : ContinuousAt (fun q : Perturb E F => q.2.2.2.2) p.here := by fun_prop
  have cthr : ContinuousAt (fun q : Perturb E F => ‖q.1‖ ^ 2 * q.2.2.2.1 ^ 2) p.here := by fun_prop
  have hout := out_eventually (a0 := p.here) (fun q : Perturb E F => istaCond (p.at q)) (fun q => istaStep (p.at q)) (fun q => istaInit (p.at q)) k
    (fun j hj => by
      filter_upwards [cd.eventually_lt (hc j).dx (hk j hj).2.1, cthr.eventually_lt (hc j).rr (hk j hj).2.2] with q h1 h2
      refine ⟨?_, h1, h2⟩
      have := (hk j hj).1
      rwa [ista_iters] at this ⊢)
    (by
      rcases htie with h1 | h1 | h1
      · refine Eventually.of_forall fun q hq => ?_
        have := hq.1
        rw [ista_iters] at this h1
        exact absurd this (not_lt.2 h1)
      · filter_upwards [(hc k).dx.eventually_lt cd h1] with q hq hq'
        exact absurd hq'.2.1 (not_lt.2 hq.le)
      · filter_upwards [(hc k).rr.eventually_lt cthr h1] with q hq hq'
        exact absurd hq'.2.2 (not_lt.2 hq.le))
  have nx := Metric.continuousAt_iff'.1 (hc k).x ε hε
  have nr := Metric.continuousAt_iff'.1 (hc k).r ε hε
  filter_upwards [hout, nx, nr] with q h1 h2 h3
  refine ⟨_, h1, ?_, by rw [dist_eq_norm] at h2; exact h2, by rw [dist_eq_norm] at h3; exact h3⟩
  rw [ista_iters, ista_iters]

/-- **C181** the same for `fista`. -/
theorem c181_fista (s : FistaState E F) (h : Out (fistaCond p) (fistaStep p) (fistaInit p) s) (htie : p.maxIters ≤ s.iters ∨ s.dx < p.xtol ∨ s.rr < ‖p.b‖ ^ 2 * p.rtol ^ 2) (ε : ℝ) (hε : 0 < ε) :
    ∀ᶠ q in 𝓝 p.here, ∃ t, Out (fistaCond (p.at q)) (fistaStep (p.at q)) (fistaInit (p.at q)) t ∧ t.iters = s.iters ∧ ‖t.x - s.x‖ < ε ∧ ‖t.r - s.r‖ < ε := by
  obtain ⟨k, rfl, hk⟩ := h.1.iterate
  have hc : ∀ j, FistaCont (fun q => (fistaStep (p.at q))^[j] (fistaInit (p.at q))) p.here := fun j => fista_cont hp j
  have cd : ContinuousAt (fun q : Perturb E F => q.2.2.2.2) p.here := by fun_prop
  have cthr : ContinuousAt (fun q : Perturb E F => ‖q.1‖ ^ 2 * q.2.2.2.1 ^ 2) p.here := by fun_prop
  have hout := out_eventually (a0 := p.here) (fun q : Perturb E F => fistaCond (p.at q)) (fun q => fistaStep (p.at q)) (fun q => fistaInit (p.at q)) k
    (fun j hj => by
      filter_upwards [cd.eventually_lt (hc j).dx (hk j hj).2.1, cthr.eventually_lt (hc j).rr (hk j hj).2.2] with q h1 h2
      refine ⟨?_, h1, h2⟩
      have := (hk j hj).1
      rwa [fista_iters] at this ⊢)
    (by
      rcases htie with h1 | h1 | h1
      · refine Eventually.of_forall fun q hq => ?_
        have := hq.1
        rw [fista_iters] at this h1
        exact absurd this (not_lt.2 h1)
      · filter_upwards [(hc k).dx.eventually_lt cd h1] with q hq hq'
        exact absurd hq'.2.1 (not_lt.2 hq.le)
      · filter_upwards [(hc k).rr.eventually_lt cthr h1] with q hq hq'
        exact absurd hq'.2.2 (not_lt.2 hq.le))
  have nx := Metric.continuousAt_iff'.1 (hc k).x ε hε
  have nr := Metric.continuousAt_iff'.1 (hc k).r ε hε
  filter_upwards [hout, nx, nr] with q h1 h2 h3
  refine ⟨_, h1, ?_, by rw [dist_eq_norm] at h2; exact h2, by rw [dist_eq_norm] at h3; exact h3⟩
  rw [fista_iters, fista_iters]

end ista

/-! Instance: `A = 2 I` on `ℝ³`, step `1/8`, soft thresholding, one iteration; the run stops at its iteration limit. -/

abbrev exIstaOne : IstaArgs (Vec 3) (Vec 3) (Vec 3) := { exIsta8 with maxIters := 1 }

theorem exIstaOne_cont : ContArgs exIstaOne :=
  ⟨exIsta8_setting.cont.times, exIsta8_setting.cont.trans, exIsta8_setting.cont.basisTimes, exIsta8_setting.cont.basisTrans, exIsta8_setting.cont.thresh⟩

theorem exIstaOne_start : istaCond exIstaOne (istaInit exIstaOne) := by
  have hb : (vec ![6, -3, 1] : Vec 3) ≠ 0 := fun h => by
    have := congrFun (congrArg (fun v : Vec 3 => (v : Fin 3 → ℝ)) h) 0
    simp [vec] at this
  have h0 : 0 < ‖(vec ![6, -3, 1] : Vec 3)‖ ^ 2 := by have := norm_pos_iff.2 hb; positivity
  refine ⟨Nat.zero_lt_one, by simp only [istaInit]; norm_num, ?_⟩
  show ‖(vec ![6, -3, 1] : Vec 3) - exTwo 0‖ ^ 2 > ‖(vec ![6, -3, 1] : Vec 3)‖ ^ 2 * (1e-3) ^ 2
  rw [map_zero, sub_zero]
  nlinarith

example (s : IstaState (Vec 3) (Vec 3)) (hs : Out (istaCond exIstaOne) (istaStep exIstaOne) (istaInit exIstaOne) s) (ε : ℝ) (hε : 0 < ε) :=
  c181_ista exIstaOne_cont s hs (Or.inl (by
    obtain ⟨k, rfl, _⟩ := hs.1.iterate
    rw [ista_iters]
    rcases k with _ | k
    · exact absurd exIstaOne_start hs.2
    · exact Nat.le_add_left 1 k)) ε hε

example (s : FistaState (Vec 3) (Vec 3)) (hs : Out (fistaCond exIstaOne) (fistaStep exIstaOne) (fistaInit exIstaOne) s) (ε : ℝ) (hε : 0 < ε) :=
  c181_fista exIstaOne_cont s hs (Or.inl (by
    obtain ⟨k, rfl, _⟩ := hs.1.iterate
    rw [fista_iters]
    rcases k with _ | k
    · exact absurd exIstaOne_start hs.2
    · exact Nat.le_add_left 1 k)) ε hε

end Verif.Sls
