import Verif.Cvx.BpicProps
import Verif.Cvx.L1lsProps

set_option autoImplicit false
/-!
# Step lengths, stopping test and inner accuracy of the convex solvers (C61, C62, C63)
-/
noncomputable section
namespace Verif.Cvx
open Verif.Loop Verif.Opt
open scoped RealInnerProductSpace

variable {m n : ℕ}

theorem spectral_step (A : Vec n →ₗ[ℝ] Vec m) (At : Vec m →ₗ[ℝ] Vec n) (hadj : IsAdj A At) (o : Spgl1Opts) (d : Vec n) :
    (A d = 0 → nextAlpha o d (At (A d)) = o.alphaMax) ∧
    (A d ≠ 0 → nextAlpha o d (At (A d)) = min (max (‖d‖ ^ 2 / ‖A d‖ ^ 2) o.alphaMin) o.alphaMax) := by
  have e : ⟪d, At (A d)⟫ = ‖A d‖ ^ 2 := by rw [← hadj, real_inner_self_eq_norm_sq]
  unfold nextAlpha clip
  rw [e, real_inner_self_eq_norm_sq]
  refine ⟨fun h => by rw [h]; simp, fun h => ?_⟩
  rw [if_neg (not_le.2 (by positivity))]

/-- **C61** the next step length is the spectral one: with `d` the last change of `x`, it is `|d|² / |A d|²` brought into the range from `alpha_min` to `alpha_max`, and
`alpha_max` when `A d = 0`. -/
theorem c61_spectral_step (A : Vec n →ₗ[ℝ] Vec m) (At : Vec m →ₗ[ℝ] Vec n) (hadj : IsAdj A At) (b : Vec m) (tau : ℝ) (htau : 0 ≤ tau) (x0 : Vec n) (o : Spgl1Opts)
    (hm : 0 < o.memory) (s : LassoState m n) (h : LassoReach A At b tau x0 o s) (hc : lassoCond b o s) :
    let s' := lassoBody A At b tau o s
    let d := s'.x - s.x
    (A d = 0 → s'.alphaNext = o.alphaMax) ∧ (A d ≠ 0 → s'.alphaNext = min (max (‖d‖ ^ 2 / ‖A d‖ ^ 2) o.alphaMin) o.alphaMax) := by
  intro s' d
  have e1 := (c61_consistent A At b tau htau x0 o hm s h).2.2.1
  have e2 := (c61_consistent A At b tau htau x0 o hm s' (h.step hc)).2.2.1
  have e : s'.alphaNext = nextAlpha o d (s'.g - s.g) := rfl
  have e3 : s'.g - s.g = At (A d) := by
    rw [e1, e2, ← map_sub]
    congr 1
    rw [map_sub]
    abel
  rw [e, e3]
  exact spectral_step A At hadj o d

/-- The step lengths of the line search are `1, 1/2, 1/4, …`. -/
theorem curvy_alpha (A : Vec n → Vec m) (b : Vec m) (x g : Vec n) (fMax tau gamma : ℝ) (calls : ℕ) (s : CurvyState m n)
    (h : Reach curvyCond (curvyNext A b x g fMax tau gamma) (curvyInit A b x g fMax tau gamma calls) s) :
    s.alpha = (1 / 2) ^ s.nIters ∧ s.xNew = projectToL1Ball (x - (s.alpha * s.scale) • g) tau ∧ (s.nIters = 0 → s.scale = 1) := by
  refine h.inv (fun s => s.alpha = (1 / 2) ^ s.nIters ∧ s.xNew = projectToL1Ball (x - (s.alpha * s.scale) • g) tau ∧ (s.nIters = 0 → s.scale = 1))
    ⟨by simp [curvyInit, curvyCandidate], rfl, fun _ => rfl⟩ fun t ht _ => ⟨?_, rfl, fun h0 => absurd h0 (Nat.succ_ne_zero _)⟩
  show t.alpha / 2 = (1 / 2) ^ (t.nIters + 1)
  rw [ht.1, pow_succ]
  ring

/-- **C61** an iteration moves to the projection onto the l1 ball of a step along the negative gradient. After `k ≤ 10` rounds of the line search the reported step length is
`2⁻ᵏ`; without backtracking the step is the spectral one. -/
theorem c61_projected_step (A : Vec n →ₗ[ℝ] Vec m) (At : Vec m →ₗ[ℝ] Vec n) (b : Vec m) (tau : ℝ) (htau : 0 ≤ tau) (x0 : Vec n) (o : Spgl1Opts)
    (hm : 0 < o.memory) (s : LassoState m n) (h : LassoReach A At b tau x0 o s) :
    let s' := lassoBody A At b tau o s
    ∃ (k : ℕ) (c : ℝ), k ≤ 10 ∧ s'.nLsIters = s.nLsIters + k ∧ s'.alpha = (1 / 2) ^ k ∧ (k = 0 → c = 1) ∧ 0 < c ∧
      (∑ i, |s'.x i| ≤ tau) ∧ ∀ z : Vec n, ∑ i, |z i| ≤ tau → ‖(s.x - (c * s.alphaNext) • s.g) - s'.x‖ ≤ ‖(s.x - (c * s.alphaNext) • s.g) - z‖ := by
  intro s'
  have hs := lasso_inv A At b tau htau x0 o hm s h
  obtain ⟨hi, _⟩ := curvy_spec A b s.x s.g s.alphaNext (listMax s.fPast) tau o.gamma s.timesCalls htau hs.feas
  obtain ⟨h1, h2, h3⟩ := curvy_alpha A b s.x (s.alphaNext • s.g) (listMax s.fPast) tau o.gamma s.timesCalls _ (curvy_out A b s.x s.g (listMax s.fPast) tau o.gamma s.timesCalls s.alphaNext).1
  set ls := curvyLineSearch A b s.x s.g s.alphaNext (listMax s.fPast) tau o.gamma s.timesCalls with hls
  have hx : s'.x = ls.xNew := rfl
  refine ⟨ls.nIters, ls.alpha * ls.scale, hi.iters_le, rfl, h1, fun h0 => by rw [h1, h3 h0, h0]; norm_num, mul_pos hi.alpha_pos hi.scale_pos, hi.feas, fun z hz => ?_⟩
  rw [hx, h2, smul_smul]
  by_cases hz' : z = projectToL1Ball (s.x - (ls.alpha * ls.scale * s.alphaNext) • s.g) tau
  · rw [← hz']
  · exact ((project_nearest htau (s.x - (ls.alpha * ls.scale * s.alphaNext) • s.g)).2 z hz hz').le

/-- **C62** when the loop stops before its limits, the reported residual norm is within tolerance of `sigma`, or the reported duality gap is below the larger of `opt_tol` and
the relative distance of the objective from `sigma² / 2`. -/
theorem c62_stop_gap (A : Vec n →ₗ[ℝ] Vec m) (At : Vec m →ₗ[ℝ] Vec n) (b : Vec m) (sigma : ℝ) (x0 : Vec n) (o : Spgl1Opts)
    (s : BpState m n) (hr : BpReach A At b sigma x0 o s) (hc : ¬ bpCond b sigma o s) (hit : s.iterations < o.maxIters)
    (hmv : s.nTimes + s.nTrans < o.maxMatvec) :
    |s.rNorm - sigma| ≤ o.optTol * max 1 s.rNorm ∨ s.rGap ≤ max o.optTol (|s.rNorm ^ 2 / 2 - sigma ^ 2 / 2| / max 1 (s.rNorm ^ 2 / 2)) := by
  have he : s.rResError = resError s.rNorm sigma ∧ s.rFError = fError (s.rNorm ^ 2 / 2) sigma := by
    cases hr with
    | init h =>
      unfold bpInit at h
      simp only [Option.map_eq_some_iff] at h
      obtain ⟨t, ht, rfl⟩ := h
      exact ⟨rfl, by simp only [objVal_eq]⟩
    | @step t _ _ _ h =>
      unfold bpBody at h
      simp only [Option.map_eq_some_iff] at h
      obtain ⟨t', ht, rfl⟩ := h
      refine ⟨rfl, ?_⟩
      have hv : ∀ u, Reach curvyCond (curvyNext A b t.x (t.alphaNext • t.g) (listMax t.fPast) t.tau o.gamma)
          (curvyInit A b t.x (t.alphaNext • t.g) (listMax t.fPast) t.tau o.gamma t.timesCalls) u → u.fVal = objVal u.rNew :=
        fun u hu => hu.inv (fun u => u.fVal = objVal u.rNew) rfl fun _ _ _ => rfl
      dsimp only
      rw [hv _ (curvy_out A b t.x t.g (listMax t.fPast) t.tau o.gamma t.timesCalls t.alphaNext).1, objVal_eq]
  by_contra hcon
  push Not at hcon
  obtain ⟨h1, h2⟩ := hcon
  refine hc ⟨Or.inl ⟨?_, ?_⟩, hit, hmv⟩
  · rw [he.2]
    exact h2
  · have hm1 : 0 < max 1 s.rNorm := lt_of_lt_of_le one_pos (le_max_left _ _)
    rw [he.1, resError, gt_iff_lt, lt_div_iff₀ hm1]; exact h1

/-- **C63** accuracy of the search direction: when the inner conjugate gradient call stops before its limit, its direction `d` solves the Newton system `H d = -g` up to the
relative residual `0.1`, and up to `xi · gap / min(1, |g|)`, which tends to zero with the duality gap. -/
theorem c63_newton_accuracy (A : Vec n →ₗ[ℝ] Vec m) (At : Vec m →ₗ[ℝ] Vec n) (hadj : IsAdj A At) (y : Vec m) (lam : ℝ) (hl : 0 < lam) (x0 u0 : Vec n)
    (hint : ∀ i, |x0 i| < u0 i) (tol xi t0 : ℝ) (hxi : 0 ≤ xi) (ht0 : 0 < t0) (N P : ℕ) (s : L1lsState m n) (h : L1lsReach A At y lam x0 u0 tol xi t0 N P s) :
    let g := gradPhi lam s.x s.u (At ((2 : ℝ) • s.z)) s.t
    ∀ pcg, PcgCounted (hessian A At s.x s.u s.t) (precond s.x s.u s.t) (-g) s.dxu P (pcgTol xi s.gap g) pcg → pcg.1.iters < P →
      ‖hessian A At s.x s.u s.t pcg.1.x + g‖ ≤ 0.1 * ‖g‖ ∧ ‖hessian A At s.x s.u s.t pcg.1.x + g‖ * min 1 ‖g‖ ≤ xi * s.gap * ‖g‖ := by
  intro g pcg hp hlim
  obtain ⟨hin, _, _, ht⟩ := c63_interior A At hadj y lam hl x0 u0 hint tol xi t0 N P s h
  have hgap : 0 ≤ s.gap := by
    have := (c63_dual_bound A At hadj y lam hl x0 u0 hint tol xi t0 N P s h).2.2 s.x
    linarith
  obtain ⟨⟨H, hH, _⟩, _, _⟩ := c63_newton A At hadj s.x s.u hin s.t (ht0.trans_le ht)
  have hres : pcg.1.r = -g - hessian A At s.x s.u s.t pcg.1.x := by
    refine hp.1.inv (fun q => q.1.r = -g - hessian A At s.x s.u s.t q.1.x) rfl fun q hq _ => ?_
    show q.1.r - _ • hessian A At s.x s.u s.t q.1.p = -g - hessian A At s.x s.u s.t (q.1.x + _ • q.1.p)
    rw [hq, ← hH, ← hH, ← hH, map_add, map_smul]
    abel
  have hn : ‖hessian A At s.x s.u s.t pcg.1.x + g‖ = ‖pcg.1.r‖ := by
    rw [hres, ← norm_neg]
    congr 1
    abel
  have hstop : ‖pcg.1.r‖ ^ 2 ≤ (pcgTol xi s.gap g) ^ 2 * ‖g‖ ^ 2 := by
    by_contra hcon
    refine hp.2 ⟨?_, hlim⟩
    simp only [Bool.false_eq_true, if_false]
    rw [real_inner_self_eq_norm_sq, real_inner_self_eq_norm_sq, norm_neg, gt_iff_lt, max_lt_iff]
    refine ⟨not_le.1 hcon, ?_⟩
    have h1 : 0 ≤ (pcgTol xi s.gap g) ^ 2 * ‖g‖ ^ 2 := by positivity
    have := not_le.1 hcon
    linarith
  have hmin : 0 ≤ min 1 ‖g‖ := le_min zero_le_one (norm_nonneg _)
  have htol : 0 ≤ pcgTol xi s.gap g := by
    unfold pcgTol
    split
    · norm_num
    · exact le_min (by norm_num) (div_nonneg (mul_nonneg hxi hgap) hmin)
  have hle : ‖pcg.1.r‖ ≤ pcgTol xi s.gap g * ‖g‖ := by
    rw [← mul_pow] at hstop
    exact le_of_sq_le_sq hstop (mul_nonneg htol (norm_nonneg _))
  rw [hn]
  constructor
  · refine hle.trans (mul_le_mul_of_nonneg_right ?_ (norm_nonneg _))
    unfold pcgTol
    split
    · norm_num
    · exact (min_le_left _ _).trans (by norm_num)
  · by_cases h0 : min 1 ‖g‖ = 0
    · rw [h0, mul_zero]
      exact mul_nonneg (mul_nonneg hxi hgap) (norm_nonneg _)
    · have hpos : 0 < min 1 ‖g‖ := lt_of_le_of_ne hmin (Ne.symm h0)
      have h1 : pcgTol xi s.gap g * min 1 ‖g‖ ≤ xi * s.gap := by
        unfold pcgTol
        rw [if_neg h0, ← le_div_iff₀ hpos]
        exact min_le_right _ _
      calc ‖pcg.1.r‖ * min 1 ‖g‖ ≤ pcgTol xi s.gap g * ‖g‖ * min 1 ‖g‖ := mul_le_mul_of_nonneg_right hle hmin
        _ = pcgTol xi s.gap g * min 1 ‖g‖ * ‖g‖ := by ring
        _ ≤ _ := mul_le_mul_of_nonneg_right h1 (norm_nonneg _)

/-! ## The hypotheses are met -/

/-- A run of the lasso solver with an iteration still to do, for `A = 4` and `b = 1`. -/
example : IsAdj four four ∧ ∃ s : LassoState 1 1, LassoReach four four (v1 1) 10 0 spgl1Default s ∧ lassoCond (v1 1) spgl1Default s := by
  obtain ⟨h0, s, h1, h2⟩ := c61_counters_fails
  refine ⟨h0, ?_⟩
  cases h1 with
  | init => exact absurd h2 (by simp [lassoInit, Verif.Sls.counted])
  | @step t hr hc => exact ⟨t, hr, hc⟩

/-- An exact preconditioner solves the system in one iteration. -/
theorem pcg_exact {E : Type*} [NormedAddCommGroup E] [InnerProductSpace ℝ E] (H M : E → E) (hHM : ∀ r, H (M r) = r) (hpos : ∀ r, r ≠ 0 → ⟪r, M r⟫ ≠ 0)
    (b x0 : E) (P : ℕ) (tol : ℝ) : ∃ s, PcgCounted H M b x0 P tol s ∧ s.1.iters ≤ 2 := by
  by_cases hc : pcgCond b P tol 0 false (pcgInit H M b x0)
  · refine ⟨_, ⟨.step .init hc, ?_⟩, le_rfl⟩
    rintro ⟨h, _⟩
    simp only [Bool.false_eq_true, if_false] at h
    have hr : (pcgStep H M (pcgInit H M b x0)).r = 0 := by
      show (b - H x0) - (⟪b - H x0, M (b - H x0)⟫ / ⟪M (b - H x0), H (M (b - H x0))⟫) • H (M (b - H x0)) = 0
      rw [hHM, real_inner_comm (M (b - H x0))]
      by_cases h0 : b - H x0 = 0
      · rw [h0]; simp
      · rw [div_self (fun e => hpos _ h0 (by rw [← e, real_inner_comm])), one_smul, sub_self]
    rw [hr, inner_zero_left, gt_iff_lt, max_lt_iff] at h
    exact absurd h.2 (by norm_num)
  · exact ⟨_, ⟨.init, hc⟩, by simp [pcgInit]⟩

/-- An inner call that stops before its limit, with a direction that is not zero: `A = 1`, `y = 2`, `lam = 1`, from `x = 0` and `u = 1`. -/
example : ∃ s : L1lsState 1 1, L1lsReach unit1 unit1 (v1 2) 1 (v1 0) (v1 1) 1e-3 1e-3 1 400 5000 s ∧
    gradPhi 1 s.x s.u (unit1 ((2 : ℝ) • s.z)) s.t ≠ 0 ∧
    ∃ pcg, PcgCounted (hessian unit1 unit1 s.x s.u s.t) (precond s.x s.u s.t) (-gradPhi 1 s.x s.u (unit1 ((2 : ℝ) • s.z)) s.t) s.dxu 5000
      (pcgTol 1e-3 s.gap (gradPhi 1 s.x s.u (unit1 ((2 : ℝ) • s.z)) s.t)) pcg ∧ pcg.1.iters < 5000 := by
  have hin : ∀ i, |v1 0 i| < v1 1 i := fun i => by norm_num [v1]
  refine ⟨_, .init, ?_, ?_⟩
  · intro e
    have h1 : ⟪gradPhi 1 (v1 0) (v1 1) (unit1 ((2 : ℝ) • (unit1 (v1 0) - v1 2))) 1, pv (v1 1) (v1 0)⟫ < 0 := by
      rw [gradPhi, pv_inner, Verif.Opt.inner_sum, Verif.Opt.inner_sum, unit1_apply, unit1_apply, v1_sub, v1_smul]
      norm_num [q1, q2, v1]
    have e' : gradPhi 1 (v1 0) (v1 1) (unit1 ((2 : ℝ) • (unit1 (v1 0) - v1 2))) 1 = 0 := e
    rw [e', inner_zero_left] at h1
    exact lt_irrefl _ h1
  · obtain ⟨_, ⟨M, hM, hspd⟩, hinv⟩ := c63_newton unit1 unit1 unit1_adj (v1 0) (v1 1) hin 1 one_pos
    have hpos : ∀ r, r ≠ 0 → ⟪r, precond (v1 0) (v1 1) 1 r⟫ ≠ 0 := fun r hr => by rw [← hM]; exact (hspd.2 r hr).ne'
    have hHM : ∀ r, hessian unit1 unit1 (v1 0) (v1 1) 1 (precond (v1 0) (v1 1) 1 r) = r := by
      intro r
      by_contra hne
      have h1 := hinv (precond (v1 0) (v1 1) 1 r)
      have h2 : hessian id id (v1 0) (v1 1) 1 (precond (v1 0) (v1 1) 1 r) = hessian unit1 unit1 (v1 0) (v1 1) 1 (precond (v1 0) (v1 1) 1 r) := rfl
      rw [h2] at h1
      refine hpos _ (sub_ne_zero.2 hne) ?_
      rw [← hM (_ - r), map_sub, hM, hM, h1, sub_self, inner_zero_right]
    obtain ⟨s, hs, hi⟩ := pcg_exact _ _ hHM hpos (-gradPhi 1 (v1 0) (v1 1) (unit1 ((2 : ℝ) • (unit1 (v1 0) - v1 2))) 1) 0 5000
      (pcgTol 1e-3 (l1lsInit unit1 unit1 (v1 2) 1 (v1 0) (v1 1) 1).gap (gradPhi 1 (v1 0) (v1 1) (unit1 ((2 : ℝ) • (unit1 (v1 0) - v1 2))) 1))
    exact ⟨s, hs, hi.trans_lt (by norm_num)⟩

/-- The examples of this file and of the previous ones show that the states of the following instances exist. -/
example (s : LassoState 1 1) (h : LassoReach four four (v1 1) 10 0 spgl1Default s) :=
  c61_spectral_step four four c61_counters_fails.1 (v1 1) 10 (by norm_num) 0 spgl1Default (by norm_num [spgl1Default]) s h

example := c61_projected_step four four (v1 1) 10 (by norm_num) 0 spgl1Default (by norm_num [spgl1Default]) _ .init

example (s : BpState 1 1) (h : BpReach one1 one1 (v1 2) 1 (v1 1) slowOpts s) := c62_stop_gap one1 one1 (v1 2) 1 (v1 1) slowOpts s h

example := c63_newton_accuracy unit1 unit1 unit1_adj (v1 2) 1 one_pos (v1 0) (v1 1) ex_descent.1 1e-3 1e-3 1 (by norm_num) one_pos 400 5000

end Verif.Cvx
