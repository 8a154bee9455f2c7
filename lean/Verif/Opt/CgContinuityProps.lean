import Verif.Opt.CgProps
import Mathlib.Analysis.InnerProductSpace.Continuous
import Mathlib.Topology.Order.Lattice

set_option autoImplicit false
/-!
# C180: conjugate gradients depend continuously on the system, the right-hand side, the start and the tolerance

`opt/cg.py:33-98`, `opt/pcg.py:37-104`. At an exact tie of the stopping test the number of iterations jumps
(`c180_tie_fails`); everywhere else the returned state is continuous.
-/
noncomputable section
namespace Verif.Opt
open Verif.Loop Filter Topology

variable {E : Type*} [NormedAddCommGroup E] [InnerProductSpace ℝ E]
section loops
variable {P : Type*} [TopologicalSpace P] {a0 : P}

/-- A loop depending on a parameter stops after `k` iterations near `a0` if its tests are decided there. -/
theorem out_eventually {σ : Type*} (c : P → σ → Prop) (f : P → σ → σ) (i : P → σ) (k : ℕ) (hk : ∀ j < k, ∀ᶠ a in 𝓝 a0, c a ((f a)^[j] (i a))) (hn : ∀ᶠ a in 𝓝 a0, ¬ c a ((f a)^[k] (i a))) :
    ∀ᶠ a in 𝓝 a0, Out (c a) (f a) (i a) ((f a)^[k] (i a)) := by
  have h := (eventually_all_finite (Set.finite_lt_nat k)).2 hk
  filter_upwards [h, hn] with a h1 h2
  exact ⟨reach_of_iterate h1, h2⟩

/-- The fields of a CG state depend continuously on a parameter. -/
structure CgCont (g : P → CGState E) (a0 : P) : Prop where
  x : ContinuousAt (fun a => (g a).x) a0
  r : ContinuousAt (fun a => (g a).r) a0
  p : ContinuousAt (fun a => (g a).p) a0
  rr : ContinuousAt (fun a => (g a).rr) a0

theorem cgStep_cont {A : P → E →L[ℝ] E} (hA : ContinuousAt A a0) {g : P → CGState E} (hg : CgCont g a0) (h1 : (g a0).rr ≠ 0) (h2 : inner ℝ (g a0).p (A a0 (g a0).p) ≠ 0) : CgCont (fun a => cgStep (A a) (g a)) a0 := by
  have hAp : ContinuousAt (fun a => A a (g a).p) a0 := hA.clm_apply hg.p
  have hal : ContinuousAt (fun a => (g a).rr / inner ℝ (g a).p (A a (g a).p)) a0 := hg.rr.div (hg.p.inner (𝕜 := ℝ) hAp) h2
  have hr : ContinuousAt (fun a => (cgStep (A a) (g a)).r) a0 := hg.r.sub (hal.smul hAp)
  have hrr : ContinuousAt (fun a => (cgStep (A a) (g a)).rr) a0 := hr.inner (𝕜 := ℝ) hr
  exact ⟨hg.x.add (hal.smul hg.p), hr, hr.add ((hrr.div hg.rr h1).smul hg.p), hrr⟩

theorem cgInit_cont {A : P → E →L[ℝ] E} {b x0 : P → E} (hA : ContinuousAt A a0) (hb : ContinuousAt b a0) (hx : ContinuousAt x0 a0) : CgCont (fun a => cgInit (A a) (b a) (x0 a)) a0 := by
  have hr : ContinuousAt (fun a => b a - A a (x0 a)) a0 := hb.sub (hA.clm_apply hx)
  exact ⟨hx, hr, hr, hr.inner (𝕜 := ℝ) hr⟩

theorem cg_iterate_cont {A : P → E →L[ℝ] E} {b x0 : P → E} (hA : ContinuousAt A a0) (hb : ContinuousAt b a0) (hx : ContinuousAt x0 a0) (k : ℕ)
    (h : ∀ j < k, ((cgStep (A a0))^[j] (cgInit (A a0) (b a0) (x0 a0))).rr ≠ 0 ∧
      inner ℝ ((cgStep (A a0))^[j] (cgInit (A a0) (b a0) (x0 a0))).p (A a0 ((cgStep (A a0))^[j] (cgInit (A a0) (b a0) (x0 a0))).p) ≠ 0) :
    CgCont (fun a => (cgStep (A a))^[k] (cgInit (A a) (b a) (x0 a))) a0 := by
  induction k with
  | zero => exact cgInit_cont hA hb hx
  | succ k ih =>
    simp only [Function.iterate_succ_apply']
    exact cgStep_cont hA (ih fun j hj => h j (by omega)) (h k (by omega)).1 (h k (by omega)).2

theorem cg_iters_iterate (A : E → E) (b x0 : E) (k : ℕ) : ((cgStep A)^[k] (cgInit A b x0)).iters = k := by
  induction k with
  | zero => rfl
  | succ k ih => rw [Function.iterate_succ_apply']; simp [cgStep, ih]

/-- The fields of a PCG state depend continuously on a parameter. -/
structure PcgCont (g : P → PCGState E) (a0 : P) : Prop where
  x : ContinuousAt (fun a => (g a).x) a0
  r : ContinuousAt (fun a => (g a).r) a0
  p : ContinuousAt (fun a => (g a).p) a0
  gamma : ContinuousAt (fun a => (g a).gamma) a0

theorem pcgStep_cont {A M : P → E →L[ℝ] E} (hA : ContinuousAt A a0) (hM : ContinuousAt M a0) {g : P → PCGState E} (hg : PcgCont g a0) (h1 : (g a0).gamma ≠ 0) (h2 : inner ℝ (g a0).p (A a0 (g a0).p) ≠ 0) :
    PcgCont (fun a => pcgStep (A a) (M a) (g a)) a0 := by
  have hAp : ContinuousAt (fun a => A a (g a).p) a0 := hA.clm_apply hg.p
  have hal : ContinuousAt (fun a => (g a).gamma / inner ℝ (g a).p (A a (g a).p)) a0 := hg.gamma.div (hg.p.inner (𝕜 := ℝ) hAp) h2
  have hr : ContinuousAt (fun a => (pcgStep (A a) (M a) (g a)).r) a0 := hg.r.sub (hal.smul hAp)
  have hz : ContinuousAt (fun a => M a (pcgStep (A a) (M a) (g a)).r) a0 := hM.clm_apply hr
  have hrr : ContinuousAt (fun a => (pcgStep (A a) (M a) (g a)).gamma) a0 := hr.inner (𝕜 := ℝ) hz
  exact ⟨hg.x.add (hal.smul hg.p), hr, hz.add ((hrr.div hg.gamma h1).smul hg.p), hrr⟩

theorem pcgInit_cont {A M : P → E →L[ℝ] E} {b x0 : P → E} (hA : ContinuousAt A a0) (hM : ContinuousAt M a0) (hb : ContinuousAt b a0) (hx : ContinuousAt x0 a0) : PcgCont (fun a => pcgInit (A a) (M a) (b a) (x0 a)) a0 := by
  have hr : ContinuousAt (fun a => b a - A a (x0 a)) a0 := hb.sub (hA.clm_apply hx)
  have hz := hM.clm_apply hr
  exact ⟨hx, hr, hz, hr.inner (𝕜 := ℝ) hz⟩

theorem pcg_iterate_cont {A M : P → E →L[ℝ] E} {b x0 : P → E} (hA : ContinuousAt A a0) (hM : ContinuousAt M a0) (hb : ContinuousAt b a0) (hx : ContinuousAt x0 a0) (k : ℕ)
    (h : ∀ j < k, ((pcgStep (A a0) (M a0))^[j] (pcgInit (A a0) (M a0) (b a0) (x0 a0))).gamma ≠ 0 ∧
      inner ℝ ((pcgStep (A a0) (M a0))^[j] (pcgInit (A a0) (M a0) (b a0) (x0 a0))).p (A a0 ((pcgStep (A a0) (M a0))^[j] (pcgInit (A a0) (M a0) (b a0) (x0 a0))).p) ≠ 0) :
    PcgCont (fun a => (pcgStep (A a) (M a))^[k] (pcgInit (A a) (M a) (b a) (x0 a))) a0 := by
  induction k with
  | zero => exact pcgInit_cont hA hM hb hx
  | succ k ih =>
    simp only [Function.iterate_succ_apply']
    exact pcgStep_cont hA hM (ih fun j hj => h j (by omega)) (h k (by omega)).1 (h k (by omega)).2

theorem pcg_iters_iterate (A M : E → E) (b x0 : E) (k : ℕ) : ((pcgStep A M)^[k] (pcgInit A M b x0)).iters = k + 1 := by
  induction k with
  | zero => rfl
  | succ k ih => rw [Function.iterate_succ_apply']; simp [pcgStep, ih]

end loops

/-- **C180** let `cg.solve_from` return `s` for a symmetric positive definite `A`, and let it have stopped at the iteration limit or with the residual strictly below the tolerance.  For all operators, right-hand sides,
starts and tolerances near by (symmetric or not), it returns after the same number of iterations, with solution and residual as close to those of `s` as wanted. -/
theorem c180_cg (A : E →L[ℝ] E) (hA : SPD (A : E →ₗ[ℝ] E)) (b x0 : E) (N : ℕ) (rtol : ℝ) (s : CGState E) (h : CgSolveFrom A b x0 N rtol s) (htie : N ≤ s.iters ∨ ‖b - A s.x‖ < |rtol| * ‖b‖) (ε : ℝ) (hε : 0 < ε) :
    ∀ᶠ q : (E →L[ℝ] E) × E × E × ℝ in 𝓝 (A, b, x0, rtol), ∃ t, CgSolveFrom q.1 q.2.1 q.2.2.1 N q.2.2.2 t ∧ t.iters = s.iters ∧ ‖t.x - s.x‖ < ε ∧ ‖t.r - s.r‖ < ε := by
  have hinv : ∀ s', Reach (cgCond b N rtol) (cgStep A) (cgInit A b x0) s' → _ := fun s' h' => c37_cg_invariants (A : E →ₗ[ℝ] E) hA b x0 N rtol s' h'
  obtain ⟨k, rfl, hk⟩ := h.1.iterate
  have hreach : ∀ j ≤ k, Reach (cgCond b N rtol) (cgStep A) (cgInit A b x0) ((cgStep A)^[j] (cgInit A b x0)) := fun j hj => reach_of_iterate fun i hi => hk i (by omega)
  have cA : ContinuousAt (fun q : (E →L[ℝ] E) × E × E × ℝ => q.1) (A, b, x0, rtol) := continuousAt_fst
  have cb : ContinuousAt (fun q : (E →L[ℝ] E) × E × E × ℝ => q.2.1) (A, b, x0, rtol) := (continuous_fst.comp continuous_snd).continuousAt
  have cx : ContinuousAt (fun q : (E →L[ℝ] E) × E × E × ℝ => q.2.2.1) (A, b, x0, rtol) := (continuous_fst.comp (continuous_snd.comp continuous_snd)).continuousAt
  have ct : ContinuousAt (fun q : (E →L[ℝ] E) × E × E × ℝ => q.2.2.2) (A, b, x0, rtol) := (continuous_snd.comp (continuous_snd.comp continuous_snd)).continuousAt
  have hc : ∀ j ≤ k, CgCont (fun q : (E →L[ℝ] E) × E × E × ℝ => (cgStep q.1)^[j] (cgInit q.1 q.2.1 q.2.2.1)) (A, b, x0, rtol) := fun j hj =>
    cg_iterate_cont cA cb cx j fun i hi => ⟨((hinv _ (hreach i (by omega))).2.2.2 (hk i (by omega))).2.1, ((hinv _ (hreach i (by omega))).2.2.2 (hk i (by omega))).1⟩
  have cthr : ContinuousAt (fun q : (E →L[ℝ] E) × E × E × ℝ => inner ℝ q.2.1 q.2.1 * q.2.2.2 ^ 2) (A, b, x0, rtol) := (cb.inner (𝕜 := ℝ) cb).mul (ct.pow 2)
  have hout := out_eventually (a0 := (A, b, x0, rtol)) (fun q : (E →L[ℝ] E) × E × E × ℝ => cgCond q.2.1 N q.2.2.2) (fun q => cgStep q.1) (fun q => cgInit q.1 q.2.1 q.2.2.1) k
    (fun j hj => by
      filter_upwards [cthr.eventually_lt (hc j hj.le).rr (hk j hj).1] with q hq
      refine ⟨hq, ?_⟩
      have := (hk j hj).2
      rwa [cg_iters_iterate] at this ⊢)
    (by
      rcases htie with h1 | h1
      · refine Eventually.of_forall fun q hq => ?_
        have := hq.2
        rw [cg_iters_iterate] at this h1
        omega
      · obtain ⟨e1, e2, _⟩ := hinv _ (hreach k le_rfl)
        have h2 : ((cgStep A)^[k] (cgInit A b x0)).rr < inner ℝ b b * rtol ^ 2 := by
          rw [e2, e1, real_inner_self_eq_norm_sq, ← sq_abs rtol, mul_comm, ← mul_pow]
          exact pow_lt_pow_left₀ h1 (norm_nonneg _) two_ne_zero
        filter_upwards [(hc k le_rfl).rr.eventually_lt cthr h2] with q hq hq'
        exact absurd hq'.1 (not_lt.2 hq.le))
  have nx := Metric.continuousAt_iff'.1 (hc k le_rfl).x ε hε
  have nr := Metric.continuousAt_iff'.1 (hc k le_rfl).r ε hε
  filter_upwards [hout, nx, nr] with q h1 h2 h3
  refine ⟨_, h1, ?_, by rwa [dist_eq_norm] at h2, by rwa [dist_eq_norm] at h3⟩
  rw [cg_iters_iterate, cg_iters_iterate]

/-- **C180** the same for `pcg.solve_from`, continuous also in the preconditioner and the absolute tolerance. -/
theorem c180_pcg (A M : E →L[ℝ] E) (hA : SPD (A : E →ₗ[ℝ] E)) (hM : SPD (M : E →ₗ[ℝ] E)) (b x0 : E) (N : ℕ) (tol atol : ℝ) (s : PCGState E) (h : PcgSolveFrom A M false b x0 N tol atol s)
    (htie : N ≤ s.iters ∨ ‖b - A s.x‖ ^ 2 < max (tol ^ 2 * ‖b‖ ^ 2) (atol ^ 2)) (ε : ℝ) (hε : 0 < ε) :
    ∀ᶠ q : (E →L[ℝ] E) × (E →L[ℝ] E) × E × E × ℝ × ℝ in 𝓝 (A, M, b, x0, tol, atol), ∃ t, PcgSolveFrom q.1 q.2.1 false q.2.2.1 q.2.2.2.1 N q.2.2.2.2.1 q.2.2.2.2.2 t ∧ t.iters = s.iters ∧ ‖t.x - s.x‖ < ε ∧ ‖t.r - s.r‖ < ε := by
  have hid : false = true → (M : E →ₗ[ℝ] E) = LinearMap.id := fun e => by cases e
  obtain ⟨k, rfl, hk⟩ := h.1.iterate
  have hreach : ∀ j ≤ k, Reach (pcgCond b N tol atol false) (pcgStep A M) (pcgInit A M b x0) ((pcgStep A M)^[j] (pcgInit A M b x0)) := fun j hj => reach_of_iterate fun i hi => hk i (by omega)
  have hres : ∀ j < k, ((pcgStep A M)^[j] (pcgInit A M b x0)).r ≠ 0 := by
    intro j hj e
    have h1 := (hk j hj).1
    simp only [e, inner_zero_left, Bool.false_eq_true, if_false] at h1
    exact absurd h1 (not_lt.2 (le_max_of_le_right (sq_nonneg _)))
  have hfacts := cg_facts (A := (A : E →ₗ[ℝ] E)) (M := (M : E →ₗ[ℝ] E)) (b := b) (x0 := x0) hA hM k hres
  have cA : ContinuousAt (fun q : (E →L[ℝ] E) × (E →L[ℝ] E) × E × E × ℝ × ℝ => q.1) (A, M, b, x0, tol, atol) := continuousAt_fst
  have cM : ContinuousAt (fun q : (E →L[ℝ] E) × (E →L[ℝ] E) × E × E × ℝ × ℝ => q.2.1) (A, M, b, x0, tol, atol) := by fun_prop
  have cb : ContinuousAt (fun q : (E →L[ℝ] E) × (E →L[ℝ] E) × E × E × ℝ × ℝ => q.2.2.1) (A, M, b, x0, tol, atol) := by fun_prop
  have cx : ContinuousAt (fun q : (E →L[ℝ] E) × (E →L[ℝ] E) × E × E × ℝ × ℝ => q.2.2.2.1) (A, M, b, x0, tol, atol) := by fun_prop
  have ct : ContinuousAt (fun q : (E →L[ℝ] E) × (E →L[ℝ] E) × E × E × ℝ × ℝ => q.2.2.2.2.1) (A, M, b, x0, tol, atol) := by fun_prop
  have ca : ContinuousAt (fun q : (E →L[ℝ] E) × (E →L[ℝ] E) × E × E × ℝ × ℝ => q.2.2.2.2.2) (A, M, b, x0, tol, atol) := by fun_prop
  have hc : ∀ j ≤ k, PcgCont (fun q : (E →L[ℝ] E) × (E →L[ℝ] E) × E × E × ℝ × ℝ => (pcgStep q.1 q.2.1)^[j] (pcgInit q.1 q.2.1 q.2.2.1 q.2.2.2.1)) (A, M, b, x0, tol, atol) := fun j hj =>
    pcg_iterate_cont cA cM cb cx j fun i hi => by
      refine ⟨?_, (hA.pos _ (hfacts.p_ne hM (j := i) (by omega) (hres i (by omega)))).ne'⟩
      have e := pcg_gamma (A := (A : E →ₗ[ℝ] E)) (M := (M : E →ₗ[ℝ] E)) (b := b) (x0 := x0) i
      intro h0
      exact absurd (e.symm.trans h0) (hM.pos _ (hres i (by omega))).ne'
  have cthr : ContinuousAt (fun q : (E →L[ℝ] E) × (E →L[ℝ] E) × E × E × ℝ × ℝ => max (q.2.2.2.2.1 ^ 2 * inner ℝ q.2.2.1 q.2.2.1) (q.2.2.2.2.2 ^ 2)) (A, M, b, x0, tol, atol) :=
    ((ct.pow 2).mul (cb.inner (𝕜 := ℝ) cb)).max (ca.pow 2)
  have hout := out_eventually (a0 := (A, M, b, x0, tol, atol)) (fun q : (E →L[ℝ] E) × (E →L[ℝ] E) × E × E × ℝ × ℝ => pcgCond q.2.2.1 N q.2.2.2.2.1 q.2.2.2.2.2 false) (fun q => pcgStep q.1 q.2.1)
    (fun q => pcgInit q.1 q.2.1 q.2.2.1 q.2.2.2.1) k
    (fun j hj => by
      have h1 := (hk j hj).1
      simp only [Bool.false_eq_true, if_false] at h1
      filter_upwards [cthr.eventually_lt ((hc j hj.le).r.inner (𝕜 := ℝ) (hc j hj.le).r) h1] with q hq
      refine ⟨by simpa only [Bool.false_eq_true, if_false] using hq, ?_⟩
      have := (hk j hj).2
      rwa [pcg_iters_iterate] at this ⊢)
    (by
      rcases htie with h1 | h1
      · refine Eventually.of_forall fun q hq => ?_
        have := hq.2
        rw [pcg_iters_iterate] at this h1
        omega
      · have e1 := pcg_res (A := (A : E →ₗ[ℝ] E)) (M := (M : E →ₗ[ℝ] E)) (b := b) (x0 := x0) k
        have h2 : inner ℝ ((pcgStep A M)^[k] (pcgInit A M b x0)).r ((pcgStep A M)^[k] (pcgInit A M b x0)).r < max (tol ^ 2 * inner ℝ b b) (atol ^ 2) := by
          rw [real_inner_self_eq_norm_sq, real_inner_self_eq_norm_sq]
          refine lt_of_eq_of_lt ?_ h1
          exact congrArg (fun v => ‖v‖ ^ 2) e1
        filter_upwards [((hc k le_rfl).r.inner (𝕜 := ℝ) (hc k le_rfl).r).eventually_lt cthr h2] with q hq hq'
        have h3 := hq'.1
        simp only [Bool.false_eq_true, if_false] at h3
        exact absurd h3 (not_lt.2 hq.le))
  have nx := Metric.continuousAt_iff'.1 (hc k le_rfl).x ε hε
  have nr := Metric.continuousAt_iff'.1 (hc k le_rfl).r ε hε
  filter_upwards [hout, nx, nr] with q h1 h2 h3
  refine ⟨_, h1, ?_, by rwa [dist_eq_norm] at h2, by rwa [dist_eq_norm] at h3⟩
  rw [pcg_iters_iterate, pcg_iters_iterate]

/-- **C180** (ties) at an exact tie there is no continuity: for `A = I`, `b = 1`, `x0 = 0` on the line, `rtol = 1` stops at once with `x = 0`, every smaller tolerance returns `x = 1`. -/
theorem c180_tie_fails : (∀ s, CgSolveFrom (ContinuousLinearMap.id ℝ ℝ) 1 0 5 1 s → s.x = 0) ∧ ∀ rtol : ℝ, 0 ≤ rtol → rtol < 1 → ∀ s, CgSolveFrom (ContinuousLinearMap.id ℝ ℝ) 1 0 5 rtol s → s.x = 1 := by
  constructor
  · intro s hs
    have h0 : Out (cgCond (1 : ℝ) 5 1) (cgStep (ContinuousLinearMap.id ℝ ℝ)) (cgInit (ContinuousLinearMap.id ℝ ℝ) 1 0) (cgInit (ContinuousLinearMap.id ℝ ℝ) 1 0) := ⟨.init, fun h => by
      have := h.1
      simp [cgInit] at this⟩
    rw [Out.unique hs h0]; rfl
  · intro rtol h1 h2 s hs
    have hc : cgCond (1 : ℝ) 5 rtol (cgInit (ContinuousLinearMap.id ℝ ℝ) 1 0) := ⟨by simp [cgInit]; rw [abs_of_nonneg h1]; exact h2, by simp [cgInit]⟩
    have h0 : Out (cgCond (1 : ℝ) 5 rtol) (cgStep (ContinuousLinearMap.id ℝ ℝ)) (cgInit (ContinuousLinearMap.id ℝ ℝ) 1 0) (cgStep (ContinuousLinearMap.id ℝ ℝ) (cgInit (ContinuousLinearMap.id ℝ ℝ) 1 0)) := ⟨.step .init hc, fun h => by
      have h3 := h.1
      simp [cgInit, cgStep] at h3
      nlinarith [sq_nonneg rtol]⟩
    rw [Out.unique hs h0]
    simp [cgInit, cgStep]

theorem ex_spd_id : SPD ((ContinuousLinearMap.id ℝ E : E →L[ℝ] E) : E →ₗ[ℝ] E) := spd_id

/-- Instance: `A = I`, `b = 1`, `x0 = 0`, `rtol = 1/2` on the line; the run stops after one iteration with residual 0. -/
example (s : CGState ℝ) (hs : CgSolveFrom (ContinuousLinearMap.id ℝ ℝ) 1 0 5 (1 / 2) s) (ε : ℝ) (hε : 0 < ε) :=
  c180_cg (ContinuousLinearMap.id ℝ ℝ) ex_spd_id 1 0 5 (1 / 2) s hs (Or.inr (by rw [c180_tie_fails.2 (1 / 2) (by norm_num) (by norm_num) s hs]; simp)) ε hε

/-- Every run that reaches the iteration limit qualifies. -/
example (b x0 : EuclideanSpace ℝ (Fin 3)) (s) (hs : PcgSolveFrom ((2 : ℝ) • ContinuousLinearMap.id ℝ (EuclideanSpace ℝ (Fin 3))) (ContinuousLinearMap.id ℝ (EuclideanSpace ℝ (Fin 3))) false b x0 1 0 0 s) (ε : ℝ) (hε : 0 < ε) :=
  c180_pcg ((2 : ℝ) • ContinuousLinearMap.id ℝ (EuclideanSpace ℝ (Fin 3))) (ContinuousLinearMap.id ℝ (EuclideanSpace ℝ (Fin 3)))
    ⟨fun x y => by simp [inner_smul_left, inner_smul_right], fun x hx => by have := norm_pos_iff.2 hx; simp [inner_smul_right]; positivity⟩ ex_spd_id b x0 1 0 0 s hs
    (Or.inl (by
      obtain ⟨k, rfl, _⟩ := hs.1.iterate
      rw [pcg_iters_iterate]; omega)) ε hε

end Verif.Opt
