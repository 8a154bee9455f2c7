import Verif.Cvx.Spgl1Props

/-!
C62: the SPGL1 solver for basis pursuit with inequality constraints keeps its iterates consistent.
-/

set_option autoImplicit false

namespace Verif.Cvx

open Verif.Opt Verif.Loop
open scoped InnerProductSpace

local notation "⟪" x ", " y "⟫" => @inner ℝ _ _ x y

variable {m n : ℕ}

/-- The part of the line search invariant that needs no feasible start. -/
structure CurvyBase (A : Vec n → Vec m) (b : Vec m) (tau : ℝ) (calls : ℕ) (s : CurvyState m n) : Prop where
  feas : l1 s.xNew ≤ tau
  res : s.rNew = b - A s.xNew
  val : s.fVal = objVal s.rNew
  calls_eq : s.timesCalls = calls + s.nIters + 1

theorem curvy_base (A : Vec n → Vec m) (b : Vec m) (x g : Vec n) (alpha0 fMax tau gamma : ℝ) (calls : ℕ) (htau : 0 ≤ tau) :
    CurvyBase A b tau calls (curvyLineSearch A b x g alpha0 fMax tau gamma calls) := by
  refine (curvy_out A b x g fMax tau gamma calls alpha0).1.inv _ ⟨(project_nearest htau _).1, rfl, rfl, rfl⟩ fun s hs _ => ?_
  refine ⟨(project_nearest htau _).1, rfl, rfl, ?_⟩
  show s.timesCalls + 1 = calls + (s.nIters + 1) + 1
  rw [hs.calls_eq]; ring

theorem newtonTau_nonneg {tau rNorm sigma gDnorm t : ℝ} (h : newtonTau tau rNorm sigma gDnorm = some t) : 0 ≤ t := by
  unfold newtonTau at h
  split at h
  · simp at h
  · simp only [Option.some.injEq] at h; rw [← h]; exact le_max_left _ _

theorem project_self (x : Vec n) : projectToL1Ball x (l1 x) = x := by
  unfold projectToL1Ball projL1Ball
  show (if l1 x > l1 x then _ else x) = x
  rw [if_neg (lt_irrefl _)]

theorem push_head {l : List ℝ} (h : 0 < l.length) (v : ℝ) : (cbufPushLeft l v).head? = some v := by
  obtain ⟨k, hk⟩ : ∃ k, l.length = k + 1 := ⟨l.length - 1, by omega⟩
  rw [cbufPushLeft, hk, List.take_succ_cons]; rfl

theorem push_length (l : List ℝ) (v : ℝ) : (cbufPushLeft l v).length = l.length := by
  rw [cbufPushLeft, List.length_take, List.length_cons]; omega

/-- The invariant of the BPIC loop. -/
structure BpInv (A : Vec n → Vec m) (At : Vec m → Vec n) (b : Vec m) (o : Spgl1Opts) (s : BpState m n) : Prop where
  tau0 : 0 ≤ s.tau
  feas : 1 < s.iterations → l1 s.x ≤ s.tau
  res : s.r = b - A s.x
  grad : s.g = -At s.r
  past : s.fPast.head? = some (objVal s.r)
  len : s.fPast.length = o.memory
  times_rep : s.nTimes = s.timesCalls + 1
  trans_rep : s.nTrans = s.transCalls + 1
  iters : 1 ≤ s.iterations

theorem bp_init_inv {A : Vec n → Vec m} {At : Vec m → Vec n} {b : Vec m} {sigma : ℝ} {x0 : Vec n} {o : Spgl1Opts} (hm : 0 < o.memory)
    {s : BpState m n} (h : bpInit A At b sigma x0 o = some s) : BpInv A At b o s ∧ s.x = x0 ∧ s.rNorm = ‖s.r‖ ∧ s.iterations = 1 := by
  unfold bpInit at h
  simp only [Option.map_eq_some_iff] at h
  obtain ⟨t, ht, rfl⟩ := h
  refine ⟨⟨newtonTau_nonneg ht, fun h => absurd h (lt_irrefl _), rfl, rfl, ?_, by simp, rfl, rfl, le_refl _⟩, project_self x0, rfl, rfl⟩
  obtain ⟨k, hk⟩ : ∃ k, o.memory = k + 1 := ⟨o.memory - 1, by omega⟩
  simp [hk, List.replicate_succ]

/-- One iteration re-establishes the invariant, whatever the step did to tau; the reported norm is that of the residual unless tau was reduced. -/
theorem bp_body_inv {A : Vec n → Vec m} {At : Vec m → Vec n} {b : Vec m} {sigma : ℝ} {o : Spgl1Opts} (hm : 0 < o.memory)
    {s s' : BpState m n} (hs : BpInv A At b o s) (h : bpBody A At b sigma o s = some s') :
    BpInv A At b o s' ∧ s'.iterations = s.iterations + 1 ∧
      (¬ s'.tau < s.tau → s'.rNorm = ‖s'.r‖ ∧ l1 s'.x ≤ s.tau ∧ s'.rGap = relGap b s'.g s'.r (objVal s'.r) s.tau) := by
  classical
  have hb := curvy_base A b s.x s.g s.alphaNext (listMax s.fPast) s.tau o.gamma s.timesCalls hs.tau0
  have hlen : 0 < s.fPast.length := by rw [hs.len]; exact hm
  unfold bpBody at h
  simp only [Option.map_eq_some_iff] at h
  set ls := curvyLineSearch A b s.x s.g s.alphaNext (listMax s.fPast) s.tau o.gamma s.timesCalls with hls
  obtain ⟨t, ht, rfl⟩ := h
  have ht0 : 0 ≤ t := by
    split at ht
    · exact newtonTau_nonneg ht
    · simp only [Option.some.injEq] at ht; rw [← ht]; exact hs.tau0
  by_cases hred : t < s.tau
  · simp only [if_pos hred]
    refine ⟨⟨ht0, fun _ => (project_nearest ht0 _).1, rfl, rfl, push_head hlen _, (push_length _ _).trans hs.len, ?_, ?_, Nat.le_add_left 1 _⟩, trivial, fun h => absurd hred h⟩
    · show s.nTimes + ls.nIters + 1 + 1 = ls.timesCalls + 1 + 1
      rw [hb.calls_eq, hs.times_rep]; ring
    · show s.nTrans + 1 + 1 = s.transCalls + 1 + 1 + 1
      rw [hs.trans_rep]
  · simp only [if_neg hred]
    refine ⟨⟨ht0, fun _ => hb.feas.trans (not_lt.mp hred), hb.res, rfl, ?_, (push_length _ _).trans hs.len, ?_, ?_, Nat.le_add_left 1 _⟩, trivial, fun _ => ⟨trivial, hb.feas, ?_⟩⟩
    · show (cbufPushLeft s.fPast ls.fVal).head? = some (objVal ls.rNew)
      rw [push_head hlen, hb.val]
    · show s.nTimes + ls.nIters + 1 + 0 = ls.timesCalls + 1
      rw [hb.calls_eq, hs.times_rep]; ring
    · show s.nTrans + 1 + 0 = s.transCalls + 1 + 1
      rw [hs.trans_rep]
    · rw [hb.val]

theorem bp_inv {A : Vec n → Vec m} {At : Vec m → Vec n} {b : Vec m} {sigma : ℝ} {x0 : Vec n} {o : Spgl1Opts} (hm : 0 < o.memory)
    {s : BpState m n} (h : BpReach A At b sigma x0 o s) : BpInv A At b o s := by
  induction h with
  | init h => exact (bp_init_inv hm h).1
  | step _ _ hb ih => exact (bp_body_inv hm ih hb).1

/-- **C62** every state of `solve_bpic_from` has `tau ≥ 0`, the residual and gradient of its `x`, the objective of `x` as newest remembered value, and,
from the second state on, an `x` in the l1 ball of radius `tau`. -/
theorem c62_consistent (A : Vec n →ₗ[ℝ] Vec m) (At : Vec m →ₗ[ℝ] Vec n) (b : Vec m) (sigma : ℝ) (x0 : Vec n) (o : Spgl1Opts)
    (hm : 0 < o.memory) (s : BpState m n) (h : BpReach A At b sigma x0 o s) :
    0 ≤ s.tau ∧ (1 < s.iterations → ∑ i, |s.x i| ≤ s.tau) ∧ s.r = b - A s.x ∧ s.g = At (A s.x - b) ∧
    s.fPast.head? = some (‖b - A s.x‖ ^ 2 / 2) := by
  have hi := bp_inv hm h
  refine ⟨hi.tau0, hi.feas, hi.res, ?_, by rw [hi.past, objVal_eq, hi.res]⟩
  rw [hi.grad, hi.res, ← map_neg, neg_sub]

/-- **C62** (partial: only if the last iteration did not reduce `tau`) the reported residual norm is the norm of `b - A x`; the first state always reports
it correctly. -/
theorem c62_r_norm_partial (A : Vec n →ₗ[ℝ] Vec m) (At : Vec m →ₗ[ℝ] Vec n) (b : Vec m) (sigma : ℝ) (x0 : Vec n) (o : Spgl1Opts)
    (hm : 0 < o.memory) :
    (∀ s, bpInit A At b sigma x0 o = some s → s.x = x0 ∧ s.rNorm = ‖b - A s.x‖) ∧
    (∀ s s', BpReach A At b sigma x0 o s → bpCond b sigma o s → bpBody A At b sigma o s = some s' → ¬ s'.tau < s.tau → s'.rNorm = ‖b - A s'.x‖) := by
  refine ⟨fun s h => ?_, fun s s' hr _ hb ht => ?_⟩
  · obtain ⟨hi, hx, hn, _⟩ := bp_init_inv hm h
    exact ⟨hx, by rw [hn, hi.res]⟩
  · obtain ⟨hi, _, h3⟩ := bp_body_inv hm (bp_inv hm hr) hb
    rw [(h3 ht).1, hi.res]

/-- **C62** after an iteration that did not reduce `tau`, the reported gap certifies `x` for the LASSO of the radius in force during that iteration. -/
theorem c62_certified (A : Vec n →ₗ[ℝ] Vec m) (At : Vec m →ₗ[ℝ] Vec n) (hadj : IsAdj A At) (b : Vec m) (sigma : ℝ) (x0 : Vec n) (o : Spgl1Opts)
    (hm : 0 < o.memory) (s s' : BpState m n) (hr : BpReach A At b sigma x0 o s) (hb : bpBody A At b sigma o s = some s') (ht : ¬ s'.tau < s.tau)
    (y : Vec n) (hy : ∑ i, |y i| ≤ s.tau) :
    ∑ i, |s'.x i| ≤ s.tau ∧ ‖b - A s'.x‖ ^ 2 / 2 ≤ ‖b - A y‖ ^ 2 / 2 + s'.rGap * max 1 (‖b - A s'.x‖ ^ 2 / 2) := by
  obtain ⟨hi, _, h3⟩ := bp_body_inv hm (bp_inv hm hr) hb
  obtain ⟨_, hf, hg⟩ := h3 ht
  refine ⟨hf, ?_⟩
  obtain ⟨h0, h1⟩ := lasso_duality A At hadj b s.tau s'.x y hf hy
  have hm1 : 0 < max 1 (‖b - A s'.x‖ ^ 2 / 2) := lt_of_lt_of_le one_pos (le_max_left _ _)
  have e : s'.rGap * max 1 (‖b - A s'.x‖ ^ 2 / 2) = ⟪b - A s'.x, (b - A s'.x) - b⟫ + s.tau * linf (At (b - A s'.x)) := by
    rw [hg, relGap, hi.grad, linf_neg, objVal_eq, hi.res, div_mul_cancel₀ _ hm1.ne', abs_of_nonneg h0]
  rw [e]; linarith

/-- **C62** a state at which the loop stops before its limits reports a residual norm at most `sigma`, up to the tolerances. -/
theorem c62_stop (A : Vec n →ₗ[ℝ] Vec m) (At : Vec m →ₗ[ℝ] Vec n) (b : Vec m) (sigma : ℝ) (x0 : Vec n) (o : Spgl1Opts)
    (s : BpState m n) (hr : BpReach A At b sigma x0 o s) (hc : ¬ bpCond b sigma o s) (hit : s.iterations < o.maxIters)
    (hmv : s.nTimes + s.nTrans < o.maxMatvec) :
    s.rNorm ≤ sigma ∨ |s.rNorm - sigma| ≤ o.optTol * max 1 s.rNorm ∨ s.rNorm ≤ o.bpTol * ‖b‖ := by
  have he : s.rResError = resError s.rNorm sigma := by
    cases hr with
    | init h =>
      unfold bpInit at h
      simp only [Option.map_eq_some_iff] at h
      obtain ⟨t, ht, rfl⟩ := h
      rfl
    | step _ _ h =>
      unfold bpBody at h
      simp only [Option.map_eq_some_iff] at h
      obtain ⟨t, ht, rfl⟩ := h
      rfl
  by_contra hcon
  push Not at hcon
  obtain ⟨h1, h2, h3⟩ := hcon
  refine hc ⟨Or.inr ⟨h1, ?_, h3⟩, hit, hmv⟩
  have hm1 : 0 < max 1 s.rNorm := lt_of_lt_of_le one_pos (le_max_left _ _)
  rw [he, resError, gt_iff_lt, lt_div_iff₀ hm1]; exact h2

/-- **C62** the solver reports one call of `times` and one call of `trans` more than it makes, at every state. -/
theorem c62_counters (A : Vec n →ₗ[ℝ] Vec m) (At : Vec m →ₗ[ℝ] Vec n) (b : Vec m) (sigma : ℝ) (x0 : Vec n) (o : Spgl1Opts)
    (hm : 0 < o.memory) (s : BpState m n) (h : BpReach A At b sigma x0 o s) : s.nTimes = s.timesCalls + 1 ∧ s.nTrans = s.transCalls + 1 :=
  ⟨(bp_inv hm h).times_rep, (bp_inv hm h).trans_rep⟩

open Classical in
/-- **C62** `n_newton` counts the updates of tau: an iteration adds one to it exactly when it sets `tau_changed`, otherwise it leaves tau as it was. Two iterations in a row never both update tau, so there are at most `(iterations + 1) / 2` updates. -/
theorem c62_newton (A : Vec n →ₗ[ℝ] Vec m) (At : Vec m →ₗ[ℝ] Vec n) (b : Vec m) (sigma : ℝ) (x0 : Vec n) (o : Spgl1Opts) :
    (∀ s s' : BpState m n, bpBody A At b sigma o s = some s' → s'.nNewton = s.nNewton + (if s'.tauChanged then 1 else 0) ∧ (s'.tauChanged → ¬ s.tauChanged) ∧ (¬ s'.tauChanged → s'.tau = s.tau)) ∧
    ∀ s : BpState m n, BpReach A At b sigma x0 o s → 2 * s.nNewton ≤ s.iterations + 1 := by
  have hb : ∀ s s' : BpState m n, bpBody A At b sigma o s = some s' → s'.nNewton = s.nNewton + (if s'.tauChanged then 1 else 0) ∧ (s'.tauChanged → ¬ s.tauChanged) ∧ (¬ s'.tauChanged → s'.tau = s.tau) ∧
      s'.iterations = s.iterations + 1 := by
    intro s s' h
    unfold bpBody at h
    simp only [Option.map_eq_some_iff] at h
    obtain ⟨t, ht, rfl⟩ := h
    refine ⟨rfl, fun h => h.2, fun h => ?_, rfl⟩
    rw [if_neg h] at ht
    exact (Option.some.inj ht).symm
  refine ⟨fun s s' h => ⟨(hb s s' h).1, (hb s s' h).2.1, (hb s s' h).2.2.1⟩, fun s hs => ?_⟩
  have : 2 * s.nNewton ≤ s.iterations + (if s.tauChanged then 1 else 0) := by
    induction hs with
    | init h =>
      unfold bpInit at h
      simp only [Option.map_eq_some_iff] at h
      obtain ⟨t, -, rfl⟩ := h
      simp
    | step _ _ h ih =>
      obtain ⟨h1, h2, -, h3⟩ := hb _ _ h
      rw [h1, h3]
      split_ifs with hc
      · rw [if_neg (h2 hc)] at ih
        omega
      · split_ifs at ih <;> omega
  split_ifs at this <;> omega

/-! ### A concrete run -/

theorem curvy_accept {A : Vec n → Vec m} {b : Vec m} {x g : Vec n} {alpha0 fMax tau gamma : ℝ} {calls : ℕ}
    (h : ¬ curvyCond (curvyInit A b x (alpha0 • g) fMax tau gamma calls)) :
    curvyLineSearch A b x g alpha0 fMax tau gamma calls = curvyInit A b x (alpha0 • g) fMax tau gamma calls :=
  (curvy_out A b x g fMax tau gamma calls alpha0).unique ⟨.init, h⟩

/-- Identity on one-dimensional arrays. -/
def one1 : Vec 1 →ₗ[ℝ] Vec 1 := LinearMap.id

theorem one1_apply (v : Vec 1) : one1 v = v := rfl

theorem one1_adj : IsAdj one1 one1 := fun _ _ => rfl

/-- Options with a fixed step length 1/100. -/
noncomputable def slowOpts : Spgl1Opts := { spgl1Default with alphaMin := 1 / 100, alphaMax := 1 / 100 }

theorem slow_clip (v : ℝ) : clip v slowOpts.alphaMin slowOpts.alphaMax = 1 / 100 := by
  simp only [clip, slowOpts]
  exact min_eq_right (le_max_right _ _)

theorem slow_first (d : Vec 1) : firstAlpha slowOpts d = 1 / 100 := by
  unfold firstAlpha
  split
  · rfl
  · exact slow_clip _

theorem slow_next (p q : Vec 1) : nextAlpha slowOpts p q = 1 / 100 := by
  unfold nextAlpha
  split
  · rfl
  · exact slow_clip _

theorem slow_accept {a c b p q fMax tau gamma : ℝ} {calls : ℕ} (hq : q = a - 1 / 100 * c) (hp : projectToL1Ball (v1 q) tau = v1 p)
    (hlt : (b - p) ^ 2 / 2 < fMax + gamma * ((1 / 100 * c) * (p - a))) :
    let s := curvyLineSearch one1 (v1 b) (v1 a) (v1 c) (1 / 100) fMax tau gamma calls
    s.xNew = v1 p ∧ s.rNew = v1 (b - p) ∧ s.fVal = (b - p) ^ 2 / 2 ∧ s.nIters = 0 := by
  have hx : projectToL1Ball (v1 a - ((1 : ℝ) * 1) • ((1 / 100 : ℝ) • v1 c)) tau = v1 p := by
    rw [v1_smul, v1_smul, v1_sub, ← hp, hq]; norm_num
  have h1 : (curvyInit one1 (v1 b) (v1 a) ((1 / 100 : ℝ) • v1 c) fMax tau gamma calls).xNew = v1 p := hx
  have h2 : (curvyInit one1 (v1 b) (v1 a) ((1 / 100 : ℝ) • v1 c) fMax tau gamma calls).rNew = v1 (b - p) := by
    show v1 b - projectToL1Ball (v1 a - ((1 : ℝ) * 1) • ((1 / 100 : ℝ) • v1 c)) tau = _
    rw [hx, v1_sub]
  have h3 : (curvyInit one1 (v1 b) (v1 a) ((1 / 100 : ℝ) • v1 c) fMax tau gamma calls).fVal = (b - p) ^ 2 / 2 := by
    show objVal (curvyInit one1 (v1 b) (v1 a) ((1 / 100 : ℝ) • v1 c) fMax tau gamma calls).rNew = _
    rw [h2, v1_obj]
  have h4 : (curvyInit one1 (v1 b) (v1 a) ((1 / 100 : ℝ) • v1 c) fMax tau gamma calls).fLim = fMax + gamma * ((1 / 100 * c) * (p - a)) := by
    show fMax + gamma * 1 * (1 * ⟪(1 / 100 : ℝ) • v1 c, projectToL1Ball (v1 a - ((1 : ℝ) * 1) • ((1 / 100 : ℝ) • v1 c)) tau - v1 a⟫) = _
    rw [hx, v1_sub, v1_smul, v1_inner]; ring
  have hacc : ¬ curvyCond (curvyInit one1 (v1 b) (v1 a) ((1 / 100 : ℝ) • v1 c) fMax tau gamma calls) := by
    rintro ⟨_, _, h⟩
    rw [h3, h4] at h
    linarith
  intro s
  have : s = curvyInit one1 (v1 b) (v1 a) ((1 / 100 : ℝ) • v1 c) fMax tau gamma calls := curvy_accept hacc
  rw [this]
  exact ⟨h1, h2, h3, rfl⟩

/-- **C62** fails for the reported residual norm: with `A` the identity on one entry, `b = 2`, `sigma = 13`, the start `x = -10` and step length 1/100,
the third state has residual 8.89 and reports 10.89. -/
theorem c62_r_norm_fails : IsAdj one1 one1 ∧ ∃ s : BpState 1 1, BpReach one1 one1 (v1 2) 13 (v1 (-10)) slowOpts s ∧ s.rNorm ≠ ‖v1 2 - one1 s.x‖ := by
  classical
  refine ⟨one1_adj, ?_⟩
  -- the first state
  have h10 : l1 (v1 (-10)) = 10 := by rw [v1_l1]; norm_num
  obtain ⟨s0, hs0, e0⟩ : ∃ s0, bpInit one1 one1 (v1 2) 13 (v1 (-10)) slowOpts = some s0 ∧
      (s0.x = v1 (-10) ∧ s0.g = v1 (-12) ∧ s0.fPast = [72, 72, 72] ∧ s0.tau = 9 ∧ s0.tauChanged = True ∧ s0.rNorm = 12 ∧ s0.rGap = 240 / 72 ∧
       s0.rResError = resError 12 13 ∧ s0.rFError = fError 72 13 ∧ s0.alphaNext = 1 / 100 ∧ s0.iterations = 1 ∧ s0.nTimes = 2 ∧ s0.nTrans = 2) := by
    have hx : projectToL1Ball (v1 (-10)) 10 = v1 (-10) := by
      have := project_self (v1 (-10)); rwa [h10] at this
    have hr : v1 2 - v1 (-10) = v1 12 := by rw [v1_sub]; norm_num
    have hn : ‖v1 12‖ = 12 := by rw [v1_norm]; norm_num
    have hl : linf (-v1 12) = 12 := by rw [linf_neg, v1_linf]; norm_num
    have ho : objVal (v1 12) = 72 := by rw [v1_obj]; norm_num
    unfold bpInit
    simp only [Verif.Sls.counted, h10, hx, one1_apply, hr, hn, hl, ho, slow_first]
    have ht : newtonTau 10 12 13 12 = some 9 := by
      unfold newtonTau; rw [if_neg (by norm_num)]; norm_num
    rw [ht]
    refine ⟨_, rfl, rfl, by rw [v1_neg], rfl, rfl, rfl, rfl, ?_, rfl, rfl, rfl, rfl, rfl, rfl⟩
    rw [relGap, hl, v1_sub, v1_inner]; norm_num
  obtain ⟨ex0, eg0, ef0, et0, ec0, en0, eq0, er0, efe0, ea0, ei0, ent0, enr0⟩ := e0
  have hc0 : bpCond (v1 2) 13 slowOpts s0 := by
    refine ⟨Or.inl ⟨?_, ?_⟩, ?_, ?_⟩
    · rw [eq0, efe0]; norm_num [slowOpts, spgl1Default, fError]
    · rw [er0]; norm_num [slowOpts, spgl1Default, resError]
    · rw [ei0]; norm_num [slowOpts, spgl1Default]
    · rw [ent0, enr0]; norm_num [slowOpts, spgl1Default]
  -- the second state
  obtain ⟨s1, hs1, e1⟩ : ∃ s1, bpBody one1 one1 (v1 2) 13 slowOpts s0 = some s1 ∧
      (s1.x = v1 (-9) ∧ s1.g = v1 (-11) ∧ s1.fPast = [121 / 2, 72, 72] ∧ s1.tau = 9 ∧ ¬ s1.tauChanged ∧ s1.rGap = 198 / (121 / 2) ∧
       s1.rResError = resError 11 13 ∧ s1.rFError = fError (121 / 2) 13 ∧ s1.alphaNext = 1 / 100 ∧ s1.iterations = 2 ∧ s1.nTimes = 3 ∧ s1.nTrans = 3) := by
    have hmax : listMax s0.fPast = 72 := by rw [ef0]; norm_num [listMax]
    obtain ⟨h1, h2, h3, h4⟩ := slow_accept (a := -10) (c := -12) (b := 2) (p := -9) (q := -988 / 100) (fMax := 72) (tau := 9) (gamma := slowOpts.gamma)
      (calls := s0.timesCalls) (by norm_num) (v1_proj_neg (by norm_num) (by norm_num)) (by norm_num [slowOpts, spgl1Default])
    have hch : ¬ changeTau slowOpts ((2 - -9) ^ 2 / 2) 72 ‖v1 (2 - -9)‖ 13 True := fun h => h.2 trivial
    have hh : s0.fPast.headD 0 = 72 := by rw [ef0]; rfl
    unfold bpBody
    simp only [hmax, ex0, eg0, ea0, et0, ec0, hh, h1, h2, h3, h4, Verif.Sls.counted, one1_apply]
    simp only [if_neg hch]
    refine ⟨_, rfl, ?_⟩
    have hnn : ¬ (9 : ℝ) < 9 := lt_irrefl _
    have hn : ‖v1 (2 - -9)‖ = 11 := by rw [v1_norm]; norm_num
    simp only [if_neg hnn]
    refine ⟨trivial, by rw [v1_neg]; norm_num, ?_, trivial, hch, ?_, by rw [hn], by norm_num, slow_next _ _, by rw [ei0], by rw [ent0], by rw [enr0]⟩
    · rw [ef0, cbufPushLeft]; norm_num
    · rw [relGap, linf_neg, v1_linf, v1_sub, v1_inner]; norm_num
  obtain ⟨ex1, eg1, ef1, et1, ec1, eq1, er1, efe1, ea1, ei1, ent1, enr1⟩ := e1
  have hr1 : BpReach one1 one1 (v1 2) 13 (v1 (-10)) slowOpts s1 := .step (.init hs0) hc0 hs1
  have hc1 : bpCond (v1 2) 13 slowOpts s1 := by
    refine ⟨Or.inl ⟨?_, ?_⟩, ?_, ?_⟩
    · rw [eq1, efe1]; norm_num [slowOpts, spgl1Default, fError]
    · rw [er1]; norm_num [slowOpts, spgl1Default, resError]
    · rw [ei1]; norm_num [slowOpts, spgl1Default]
    · rw [ent1, enr1]; norm_num [slowOpts, spgl1Default]
  -- the third state
  obtain ⟨s2, hs2, e2⟩ : ∃ s2, bpBody one1 one1 (v1 2) 13 slowOpts s1 = some s2 ∧ s2.x = v1 (-689 / 100) ∧ s2.rNorm = 1089 / 100 := by
    have hmax : listMax s1.fPast = 72 := by rw [ef1]; norm_num [listMax]
    obtain ⟨h1, h2, h3, h4⟩ := slow_accept (a := -9) (c := -11) (b := 2) (p := -889 / 100) (q := -889 / 100) (fMax := 72) (tau := 9) (gamma := slowOpts.gamma)
      (calls := s1.timesCalls) (by norm_num) (v1_proj_in (by norm_num [abs_le])) (by norm_num [slowOpts, spgl1Default])
    have hh : s1.fPast.headD 0 = 121 / 2 := by rw [ef1]; rfl
    have hn : ‖v1 (2 - -889 / 100)‖ = 1089 / 100 := by rw [v1_norm]; norm_num
    have hl : linf (-v1 (2 - -889 / 100)) = 1089 / 100 := by rw [linf_neg, v1_linf]; norm_num
    have hch : changeTau slowOpts ((2 - -889 / 100) ^ 2 / 2) (121 / 2) (1089 / 100) 13 s1.tauChanged := by
      refine ⟨Or.inr ⟨?_, by norm_num⟩, ec1⟩
      norm_num [abs_of_neg, abs_of_pos]
    have ht : newtonTau 9 (1089 / 100) 13 (1089 / 100) = some (689 / 100) := by
      unfold newtonTau; rw [if_neg (by norm_num)]; norm_num
    have hp : projectToL1Ball (v1 (-889 / 100)) (689 / 100) = v1 (-689 / 100) := by
      rw [v1_proj_neg (by norm_num) (by norm_num)]; norm_num
    unfold bpBody
    simp only [hmax, ex1, eg1, ea1, et1, hh, h1, h2, h3, h4, Verif.Sls.counted, one1_apply, hn, hl]
    simp only [if_pos hch, ht]
    refine ⟨_, rfl, ?_⟩
    have hlt : (689 / 100 : ℝ) < 9 := by norm_num
    simp only [if_pos hlt]
    exact ⟨hp, trivial⟩
  refine ⟨s2, .step hr1 hc1 hs2, ?_⟩
  rw [e2.1, e2.2]
  show (1089 / 100 : ℝ) ≠ ‖v1 2 - v1 (-689 / 100)‖
  rw [v1_sub, v1_norm]; norm_num

/-- The concrete run above also meets the hypotheses of `c62_consistent` with more than one state. -/
example : 0 < slowOpts.memory ∧ ∃ s : BpState 1 1, BpReach one1 one1 (v1 2) 13 (v1 (-10)) slowOpts s ∧ 1 < s.iterations := by
  have hm : 0 < slowOpts.memory := by norm_num [slowOpts, spgl1Default]
  refine ⟨hm, ?_⟩
  obtain ⟨_, s, h, hne⟩ := c62_r_norm_fails
  refine ⟨s, h, ?_⟩
  cases h with
  | init hi => exact absurd ((c62_r_norm_partial one1 one1 (v1 2) 13 (v1 (-10)) slowOpts hm).1 s hi).2 hne
  | step hr _ hb =>
    have h1 := (bp_body_inv hm (bp_inv hm hr) hb).2.1
    have h2 := (bp_inv hm hr).iters
    omega

/-- A run that stops before its limits: `b = 2`, `x = 1`, `sigma = 1`. -/
example : ∃ s : BpState 1 1, BpReach one1 one1 (v1 2) 1 (v1 1) slowOpts s ∧ ¬ bpCond (v1 2) 1 slowOpts s ∧ s.iterations < slowOpts.maxIters ∧
    s.nTimes + s.nTrans < slowOpts.maxMatvec := by
  have hx : projectToL1Ball (v1 1) (l1 (v1 1)) = v1 1 := project_self _
  have hr : v1 2 - v1 1 = v1 1 := by rw [v1_sub]; norm_num
  have hn : ‖v1 1‖ = 1 := by rw [v1_norm]; norm_num
  have hl : linf (-v1 1) = 1 := by rw [linf_neg, v1_linf]; norm_num
  have ht : newtonTau (l1 (v1 1)) 1 1 1 = some 1 := by
    unfold newtonTau; rw [if_neg (by norm_num), v1_l1]; norm_num
  obtain ⟨s, hs, h1, h2, h3, h4⟩ : ∃ s, bpInit one1 one1 (v1 2) 1 (v1 1) slowOpts = some s ∧ s.rResError = 0 ∧ s.iterations = 1 ∧ s.nTimes = 2 ∧
      s.nTrans = 2 := by
    unfold bpInit
    simp only [Verif.Sls.counted, hx, one1_apply, hr, hn, hl, ht]
    exact ⟨_, rfl, by norm_num [resError], rfl, rfl, rfl⟩
  refine ⟨s, .init hs, ?_, by rw [h2]; norm_num [slowOpts, spgl1Default], by rw [h3, h4]; norm_num [slowOpts, spgl1Default]⟩
  rintro ⟨h | h, _⟩
  · have := h.2; rw [h1] at this; norm_num [slowOpts, spgl1Default] at this
  · have := h.2.1; rw [h1] at this; norm_num [slowOpts, spgl1Default] at this

example := c62_consistent one1 one1 (v1 2) 13 (v1 (-10)) slowOpts (by norm_num [slowOpts, spgl1Default])

example (s s' : BpState 1 1) (h : BpReach one1 one1 (v1 2) 13 (v1 (-10)) slowOpts s) (hb : bpBody one1 one1 (v1 2) 13 slowOpts s = some s') (ht : ¬ s'.tau < s.tau) :=
  c62_certified one1 one1 one1_adj (v1 2) 13 (v1 (-10)) slowOpts (by norm_num [slowOpts, spgl1Default]) s s' h hb ht 0
    (by simpa using (c62_consistent one1 one1 (v1 2) 13 (v1 (-10)) slowOpts (by norm_num [slowOpts, spgl1Default]) s h).1)

/-- The example above shows that such a state exists. -/
example (s : BpState 1 1) (h : BpReach one1 one1 (v1 2) 1 (v1 1) slowOpts s) := c62_stop one1 one1 (v1 2) 1 (v1 1) slowOpts s h

example := c62_counters one1 one1 (v1 2) 13 (v1 (-10)) slowOpts (by norm_num [slowOpts, spgl1Default])

end Verif.Cvx
