import Verif.Cvx.Spgl1CModel
import Verif.Cvx.BpProps

set_option autoImplicit false
/-!
# SPGL1 on complex arrays (C141)

`A` is a complex linear operator and `At` its adjoint. The LASSO problem is to minimise `½|b - A x|²` over the complex arrays with `Σ |x i| ≤ tau`.
-/
noncomputable section
namespace Verif.Cvx
open Verif.Loop Verif.Opt
open scoped RealInnerProductSpace

variable {m n : ℕ}

/-- `trans` is the adjoint of `times`: `⟨A x, y⟩ = ⟨x, At y⟩` with the complex inner product. -/
def IsAdjC (A : CVec n →ₗ[ℂ] CVec m) (At : CVec m →ₗ[ℂ] CVec n) : Prop :=
  ∀ x y, ∑ i, (starRingEnd ℂ) (A x i) * y i = ∑ j, (starRingEnd ℂ) (x j) * At y j

theorem inner_vdotC (x y : CVec n) : ⟪x, y⟫ = (vdotC x y).re := by
  rw [vdotC, Complex.re_sum, PiLp.inner_apply]
  refine Finset.sum_congr rfl fun i _ => ?_
  rw [Complex.inner, mul_comm]

theorem vdotC_self (x : CVec n) : vdotC x x = ((‖x‖ ^ 2 : ℝ) : ℂ) := by
  rw [vdotC, EuclideanSpace.norm_sq_eq, Complex.ofReal_sum]
  refine Finset.sum_congr rfl fun i _ => ?_
  rw [mul_comm, Complex.mul_conj, Complex.normSq_eq_norm_sq]

theorem IsAdjC.inner {A : CVec n →ₗ[ℂ] CVec m} {At : CVec m →ₗ[ℂ] CVec n} (h : IsAdjC A At) (x : CVec n) (y : CVec m) : ⟪A x, y⟫ = ⟪x, At y⟫ := by
  rw [inner_vdotC, inner_vdotC]; exact congrArg Complex.re (h x y)

theorem objValC_eq (r : CVec m) : objValC r = ‖r‖ ^ 2 / 2 := by
  rw [objValC, vdotC_self, Complex.norm_real, Real.norm_eq_abs, abs_of_nonneg (by positivity)]; ring

theorem norm_le_linfC (g : CVec n) (i : Fin n) : ‖g i‖ ≤ linfC g := norm_le_pi_norm g.ofLp i

theorem linfC_nonneg (g : CVec n) : 0 ≤ linfC g := norm_nonneg _

theorem linfC_neg (g : CVec n) : linfC (-g) = linfC g := by
  unfold linfC
  rw [WithLp.ofLp_neg, norm_neg]

theorem inner_le_linfC (g x : CVec n) : |⟪g, x⟫| ≤ linfC g * l1C x := by
  rw [PiLp.inner_apply, l1C, Finset.mul_sum]
  refine (Finset.abs_sum_le_sum_abs _ _).trans (Finset.sum_le_sum fun i _ => ?_)
  exact (abs_real_inner_le_norm _ _).trans (mul_le_mul_of_nonneg_right (norm_le_linfC g i) (norm_nonneg _))

theorem l1C_nonneg (x : CVec n) : 0 ≤ l1C x := Finset.sum_nonneg fun i _ => norm_nonneg _

theorem convex_l1C (q : ℝ) : Convex ℝ {z : CVec n | l1C z ≤ q} := by
  intro x hx y hy a b ha hb hab
  show l1C (a • x + b • y) ≤ q
  have h1 : l1C (a • x + b • y) ≤ a * l1C x + b * l1C y := by
    rw [l1C, l1C, l1C, Finset.mul_sum, Finset.mul_sum, ← Finset.sum_add_distrib]
    refine Finset.sum_le_sum fun i _ => (norm_add_le _ _).trans (le_of_eq ?_)
    show ‖a • x i‖ + ‖b • y i‖ = _
    rw [norm_smul, norm_smul, Real.norm_eq_abs, Real.norm_eq_abs, abs_of_nonneg ha, abs_of_nonneg hb]
  have h2 : a * l1C x ≤ a * q := mul_le_mul_of_nonneg_left hx ha
  have h3 : b * l1C y ≤ b * q := mul_le_mul_of_nonneg_left hy hb
  have : a * q + b * q = q := by rw [← add_mul, hab, one_mul]
  linarith

/-- Complex shrinkage by `κ` of one entry. -/
theorem shrinkC_cases (κ : ℝ) (a : ℂ) (hκ : 0 ≤ κ) :
    let p : ℂ := ((max (‖a‖ - κ) 0 : ℝ) : ℂ) * Complex.exp (Complex.I * Complex.arg a)
    ‖p‖ = max (‖a‖ - κ) 0 ∧ ‖a - p‖ ≤ κ ∧ ⟪a - p, p⟫ = κ * ‖p‖ := by
  intro p
  set t := max (‖a‖ - κ) 0 with ht
  have ht0 : 0 ≤ t := le_max_right _ _
  set u := Complex.exp (Complex.I * Complex.arg a) with hu
  have hun : ‖u‖ = 1 := by rw [hu, mul_comm]; exact Complex.norm_exp_ofReal_mul_I _
  have ha : a = ((‖a‖ : ℝ) : ℂ) * u := by rw [hu, mul_comm Complex.I]; exact (Complex.norm_mul_exp_arg_mul_I a).symm
  have hp : ‖p‖ = t := by
    show ‖((t : ℝ) : ℂ) * u‖ = t
    rw [norm_mul, hun, Complex.norm_real, Real.norm_eq_abs, abs_of_nonneg ht0, mul_one]
  have hd : a - p = ((‖a‖ - t : ℝ) : ℂ) * u := by
    show a - ((t : ℝ) : ℂ) * u = _
    conv_lhs => rw [ha]
    push_cast; ring
  have htle : t ≤ ‖a‖ := max_le (by linarith) (norm_nonneg _)
  refine ⟨hp, ?_, ?_⟩
  · rw [hd, norm_mul, hun, Complex.norm_real, Real.norm_eq_abs, abs_of_nonneg (by linarith), mul_one]
    have := le_max_left (‖a‖ - κ) 0
    linarith
  · rw [hp, hd]
    show ⟪((‖a‖ - t : ℝ) : ℂ) * u, ((t : ℝ) : ℂ) * u⟫ = κ * t
    have e : ⟪((‖a‖ - t : ℝ) : ℂ) * u, ((t : ℝ) : ℂ) * u⟫ = (‖a‖ - t) * t := by
      have e1 : ((‖a‖ - t : ℝ) : ℂ) * u = (‖a‖ - t) • u := by rw [Complex.real_smul]
      have e2 : ((t : ℝ) : ℂ) * u = t • u := by rw [Complex.real_smul]
      rw [e1, e2, real_inner_smul_left, real_inner_smul_right, real_inner_self_eq_norm_sq, hun]; ring
    rw [e]
    rcases le_total (‖a‖ - κ) 0 with h | h
    · have : t = 0 := max_eq_right h
      rw [this]; ring
    · have : t = ‖a‖ - κ := max_eq_left h
      rw [this]; ring

/-- **C141** on complex arrays `project_to_l1_ball(x, q)` returns the unique nearest array with `Σ |z i| ≤ q`; it does not move the arrays of the ball, and an array
outside is sent to the sphere. -/
theorem c141_project {q : ℝ} (hq : 0 ≤ q) (x : CVec n) :
    IsNearest {z : CVec n | ∑ i, ‖z i‖ ≤ q} x (projectToL1BallC x q) ∧ (∑ i, ‖x i‖ ≤ q → projectToL1BallC x q = x) ∧
    (q < ∑ i, ‖x i‖ → ∑ i, ‖projectToL1BallC x q i‖ = q) := by
  by_cases h : l1C x > q
  · have hproj : projectToL1BallC x q = projectInsideBallC x q := if_pos h
    rw [hproj]
    set a := List.ofFn fun i => ‖x i‖ with ha
    have hsum : ∀ f : ℝ → ℝ, (a.map f).sum = ∑ i, f ‖x i‖ := by
      intro f; rw [ha, List.map_ofFn, List.sum_ofFn]; rfl
    have hs : q < a.sum := by
      have := hsum id
      simp only [List.map_id, id] at this
      rw [this]; exact h
    obtain ⟨hκ, hκs⟩ := l1Kappa_spec q hq a (by simp [ha]) hs
    set κ := l1Kappa q a with hκd
    set p := projectInsideBallC x q with hp
    have hc : ∀ i, ‖p i‖ = max (‖x i‖ - κ) 0 ∧ ‖x i - p i‖ ≤ κ ∧ ⟪x i - p i, p i⟫ = κ * ‖p i‖ := fun i => shrinkC_cases κ (x i) hκ
    have hl1 : l1C p = q := by
      rw [← hκs, hsum]
      exact Finset.sum_congr rfl fun i _ => (hc i).1
    refine ⟨IsNearest.of_inner hl1.le fun z hz => ?_, fun h' => absurd h (not_lt.mpr h'), fun _ => hl1⟩
    rw [inner_sub_right]
    have h1 : ⟪x - p, p⟫ = κ * q := by
      rw [PiLp.inner_apply]
      conv_rhs => rw [← hl1, l1C, Finset.mul_sum]
      exact Finset.sum_congr rfl fun i _ => (hc i).2.2
    have h2 : ⟪x - p, z⟫ ≤ κ * l1C z := by
      rw [PiLp.inner_apply, l1C, Finset.mul_sum]
      refine Finset.sum_le_sum fun i _ => (real_inner_le_norm _ _).trans ?_
      exact mul_le_mul_of_nonneg_right (hc i).2.1 (norm_nonneg _)
    have h3 : κ * l1C z ≤ κ * q := mul_le_mul_of_nonneg_left hz hκ
    linarith
  · have hproj : projectToL1BallC x q = x := if_neg h
    rw [hproj]
    exact ⟨⟨not_lt.mp h, fun z _ hne => by
      rw [sub_self, norm_zero]; exact norm_pos_iff.mpr (sub_ne_zero.mpr hne.symm)⟩, fun _ => rfl, fun h' => absurd h' h⟩

/-- **C141** `project_to_l1_ball_at(x, b, q)` on complex arrays is the nearest point of the ball around `b`. -/
theorem c141_project_at {q : ℝ} (hq : 0 ≤ q) (x b : CVec n) :
    IsNearest {z : CVec n | ∑ i, ‖z i - b i‖ ≤ q} x (projectToL1BallAtC x b q) := by
  obtain ⟨⟨h1, h2⟩, -⟩ := c141_project hq (x - b)
  refine ⟨?_, fun z hz hne => ?_⟩
  · show ∑ i, ‖(projectToL1BallC (x - b) q + b) i - b i‖ ≤ q
    simpa using h1
  · have h3 := h2 (z - b) hz (by intro e; apply hne; rw [projectToL1BallAtC, ← e]; abel)
    have e1 : x - b - (z - b) = x - z := by abel
    have e2 : x - projectToL1BallAtC x b q = x - b - projectToL1BallC (x - b) q := by rw [projectToL1BallAtC]; abel
    rw [e1] at h3
    rw [e2]; exact h3

theorem project_nearestC {q : ℝ} (hq : 0 ≤ q) (x : CVec n) : IsNearest {z | l1C z ≤ q} x (projectToL1BallC x q) := (c141_project hq x).1

theorem project_selfC (x : CVec n) : projectToL1BallC x (l1C x) = x := if_neg (lt_irrefl _)

/-- The projected step from a feasible point is a descent direction. -/
theorem project_descentC {q : ℝ} (hq : 0 ≤ q) (x g : CVec n) (hx : l1C x ≤ q) (l : ℝ) :
    ‖projectToL1BallC (x - l • g) q - x‖ ^ 2 ≤ -l * ⟪g, projectToL1BallC (x - l • g) q - x⟫ := by
  have h := (project_nearestC hq (x - l • g)).inner_le (convex_l1C q) hx
  set p := projectToL1BallC (x - l • g) q with hp
  have e1 : x - l • g - p = -(l • g) - (p - x) := by abel
  have e2 : x - p = -(p - x) := by abel
  rw [e1, e2, inner_neg_right, inner_sub_left, inner_neg_left, real_inner_smul_left, real_inner_self_eq_norm_sq] at h
  linarith

section ls
variable (A : CVec n → CVec m) (b : CVec m) (x g : CVec n) (fMax tau gamma : ℝ) (calls : ℕ)

theorem curvy_outC (alpha0 : ℝ) : Out curvyCondC (curvyNextC A b x (alpha0 • g) fMax tau gamma) (curvyInitC A b x (alpha0 • g) fMax tau gamma calls)
    (curvyLineSearchC A b x g alpha0 fMax tau gamma calls) := by
  classical
  exact run_out (fun s => s.nIters) 10 (fun s h => h.1) (fun s _ => Nat.lt_succ_self _) 10 _ (by simp [curvyInitC, curvyCandidateC])

/-- What the line search maintains. -/
structure CurvyInvC (s : CurvyStateC m n) : Prop where
  feas : l1C s.xNew ≤ tau
  res : s.rNew = b - A s.xNew
  dir : s.dNew = s.xNew - x
  val : s.fVal = objValC s.rNew
  lim : s.fLim = fMax + gamma * s.alpha * s.gtd
  alpha_pos : 0 < s.alpha
  scale_pos : 0 < s.scale
  gtd_eq : s.gtd = s.scale * ⟪g, s.dNew⟫
  gtd_le : ‖s.dNew‖ ^ 2 ≤ -s.alpha * s.gtd
  calls_eq : s.timesCalls = calls + s.nIters + 1
  iters_le : s.nIters ≤ 10

theorem curvyCandidate_invC (htau : 0 ≤ tau) (hx : l1C x ≤ tau) (alpha scale dNormOld : ℝ) (nIters nSafe c : ℕ) (ha : 0 < alpha) (hs : 0 < scale)
    (hc : c = calls + nIters) (hn : nIters ≤ 10) :
    CurvyInvC A b x g fMax tau gamma calls (curvyCandidateC A b x g fMax tau gamma alpha scale dNormOld nIters nSafe c) := by
  refine ⟨(project_nearestC htau _).1, rfl, rfl, rfl, rfl, ha, hs, ?_, ?_, by simp [curvyCandidateC, Verif.Sls.counted, hc], hn⟩
  · rw [inner_vdotC]; rfl
  · have := project_descentC htau x g hx (alpha * scale)
    show ‖projectToL1BallC (x - (alpha * scale) • g) tau - x‖ ^ 2 ≤ -alpha * (scale * (vdotC g (projectToL1BallC (x - (alpha * scale) • g) tau - x)).re)
    rw [← inner_vdotC]
    linarith

theorem curvy_invC (htau : 0 ≤ tau) (hx : l1C x ≤ tau) (s : CurvyStateC m n)
    (h : Reach curvyCondC (curvyNextC A b x g fMax tau gamma) (curvyInitC A b x g fMax tau gamma calls) s) :
    CurvyInvC A b x g fMax tau gamma calls s := by
  refine h.inv _ (curvyCandidate_invC A b x g fMax tau gamma calls htau hx 1 1 0 0 0 calls one_pos one_pos (by simp) (by simp)) fun s hs hc => ?_
  have hgtd : s.gtd < 0 := hc.2.1
  have hd : s.dNew ≠ 0 := by
    intro h0; rw [hs.gtd_eq, h0, inner_zero_right, mul_zero] at hgtd; exact lt_irrefl _ hgtd
  have hg : g ≠ 0 := by
    intro h0; rw [hs.gtd_eq, h0, inner_zero_left, mul_zero] at hgtd; exact lt_irrefl _ hgtd
  have hn : (0 : ℝ) < n := by
    rcases Nat.eq_zero_or_pos n with h0 | h0
    · subst h0; exact absurd (Subsingleton.elim _ _) hd
    · exact_mod_cast h0
  have h1 : 0 < ‖s.dNew‖ / Real.sqrt n := div_pos (norm_pos_iff.mpr hd) (Real.sqrt_pos.mpr hn)
  have h2 : 0 < ‖g‖ / Real.sqrt n := div_pos (norm_pos_iff.mpr hg) (Real.sqrt_pos.mpr hn)
  have hap := hs.alpha_pos
  refine curvyCandidate_invC A b x g fMax tau gamma calls htau hx _ _ _ _ _ _ (by positivity) ?_ (by rw [hs.calls_eq]; ring) (by have := hc.1; omega)
  split
  · exact div_pos (div_pos h1 h2) (by positivity)
  · exact hs.scale_pos

end ls

/-- The line search returns a feasible point with its residual and value, having made `n_iters + 1` operator calls; the value is below the limit, or
the point has not moved, or the limit of 10 rounds was reached. -/
theorem curvy_specC (A : CVec n → CVec m) (b : CVec m) (x g : CVec n) (alpha0 fMax tau gamma : ℝ) (calls : ℕ) (htau : 0 ≤ tau) (hx : l1C x ≤ tau) :
    let s := curvyLineSearchC A b x g alpha0 fMax tau gamma calls
    CurvyInvC A b x (alpha0 • g) fMax tau gamma calls s ∧ (s.fVal < s.fLim ∨ s.xNew = x ∨ s.nIters = 10) := by
  have ho := curvy_outC A b x g fMax tau gamma calls alpha0
  have hi := curvy_invC A b x (alpha0 • g) fMax tau gamma calls htau hx _ ho.1
  refine ⟨hi, ?_⟩
  by_cases h10 : (curvyLineSearchC A b x g alpha0 fMax tau gamma calls).nIters = 10
  · exact Or.inr (Or.inr h10)
  by_cases hlt : (curvyLineSearchC A b x g alpha0 fMax tau gamma calls).fVal < (curvyLineSearchC A b x g alpha0 fMax tau gamma calls).fLim
  · exact Or.inl hlt
  · right; left
    have hgt : ¬ (curvyLineSearchC A b x g alpha0 fMax tau gamma calls).gtd < 0 := by
      intro hg
      exact ho.2 ⟨lt_of_le_of_ne hi.iters_le h10, hg, not_lt.mp hlt⟩
    have h1 := hi.gtd_le
    have h2 := hi.alpha_pos
    have h3 : ‖(curvyLineSearchC A b x g alpha0 fMax tau gamma calls).dNew‖ ^ 2 ≤ 0 := by nlinarith
    have h4 : ‖(curvyLineSearchC A b x g alpha0 fMax tau gamma calls).dNew‖ = 0 := by
      have := norm_nonneg (curvyLineSearchC A b x g alpha0 fMax tau gamma calls).dNew
      nlinarith
    rw [norm_eq_zero, hi.dir, sub_eq_zero] at h4
    exact h4

/-- The invariant of the LASSO loop. -/
structure LassoInvC (A : CVec n → CVec m) (At : CVec m → CVec n) (b : CVec m) (tau : ℝ) (o : Spgl1Opts) (s : LassoStateC m n) : Prop where
  feas : l1C s.x ≤ tau
  res : s.r = b - A s.x
  grad : s.g = -At s.r
  past : s.fPast.head? = some (objValC s.r)
  len : s.fPast.length = o.memory
  rn : s.rNorm = ‖s.r‖
  gap : s.rGap = relGapC b s.g s.r (objValC s.r) tau
  times_eq : s.nTimes = s.timesCalls
  trans_eq : s.transCalls = s.iterations
  times_it : s.timesCalls = s.iterations + s.nLsIters
  trans_rep : s.nTrans = s.transCalls + s.nLsIters

theorem lasso_invC (A : CVec n → CVec m) (At : CVec m → CVec n) (b : CVec m) (tau : ℝ) (htau : 0 ≤ tau) (x0 : CVec n) (o : Spgl1Opts) (hm : 0 < o.memory)
    (s : LassoStateC m n) (h : LassoReachC A At b tau x0 o s) : LassoInvC A At b tau o s := by
  refine Reach.inv _ h ⟨(project_nearestC htau _).1, rfl, rfl, ?_, by simp [lassoInitC], rfl, rfl, rfl, rfl, rfl, rfl⟩ fun s hs _ => ?_
  · obtain ⟨k, hk⟩ : ∃ k, o.memory = k + 1 := ⟨o.memory - 1, by omega⟩
    simp [lassoInitC, hk, List.replicate_succ]
  · obtain ⟨hi, _⟩ := curvy_specC A b s.x s.g s.alphaNext (listMax s.fPast) tau o.gamma s.timesCalls htau hs.feas
    have hlen : 0 < s.fPast.length := by rw [hs.len]; exact hm
    refine ⟨hi.feas, hi.res, rfl, ?_, (push_length _ _).trans hs.len, rfl, ?_, ?_, ?_, ?_, ?_⟩
    · show (cbufPushLeft s.fPast _).head? = some (objValC (curvyLineSearchC A b s.x s.g s.alphaNext (listMax s.fPast) tau o.gamma s.timesCalls).rNew)
      rw [← hi.val, push_head hlen]
    · show relGapC b _ _ (curvyLineSearchC A b s.x s.g s.alphaNext (listMax s.fPast) tau o.gamma s.timesCalls).fVal tau = _
      rw [hi.val]; rfl
    · show s.nTimes + _ + 1 = (curvyLineSearchC A b s.x s.g s.alphaNext (listMax s.fPast) tau o.gamma s.timesCalls).timesCalls
      rw [hi.calls_eq, hs.times_eq]
    · show s.transCalls + 1 = s.iterations + 1
      rw [hs.trans_eq]
    · show (curvyLineSearchC A b s.x s.g s.alphaNext (listMax s.fPast) tau o.gamma s.timesCalls).timesCalls = s.iterations + 1 + (s.nLsIters + _)
      rw [hi.calls_eq, hs.times_it]; ring
    · show s.nTimes + _ + 1 = s.transCalls + 1 + (s.nLsIters + _)
      rw [hs.times_eq, hs.times_it, hs.trans_eq]; ring

/-- **C141** every state of `solve_lasso_from` on complex arrays has an `x` in the l1 ball, its residual, its gradient, its objective as newest remembered value,
and its residual norm. -/
theorem c141_lasso_consistent (A : CVec n →ₗ[ℂ] CVec m) (At : CVec m →ₗ[ℂ] CVec n) (b : CVec m) (tau : ℝ) (htau : 0 ≤ tau) (x0 : CVec n) (o : Spgl1Opts)
    (hm : 0 < o.memory) (s : LassoStateC m n) (h : LassoReachC A At b tau x0 o s) :
    ∑ i, ‖s.x i‖ ≤ tau ∧ s.r = b - A s.x ∧ s.g = At (A s.x - b) ∧ s.rNorm = ‖b - A s.x‖ ∧ s.fPast.head? = some (‖b - A s.x‖ ^ 2 / 2) ∧
    s.nTimes = s.timesCalls ∧ s.transCalls = s.iterations ∧ s.nTrans = s.transCalls + s.nLsIters := by
  have hi := lasso_invC A At b tau htau x0 o hm s h
  refine ⟨hi.feas, hi.res, ?_, by rw [hi.rn, hi.res], by rw [hi.past, objValC_eq, hi.res], hi.times_eq, hi.trans_eq, hi.trans_rep⟩
  rw [hi.grad, hi.res, ← map_neg, neg_sub]

/-- Weak duality: the real part of the complex gap is nonnegative and bounds the suboptimality. -/
theorem lasso_dualityC (A : CVec n →ₗ[ℂ] CVec m) (At : CVec m →ₗ[ℂ] CVec n) (hadj : IsAdjC A At) (b : CVec m) (tau : ℝ) (x y : CVec n)
    (hx : l1C x ≤ tau) (hy : l1C y ≤ tau) :
    0 ≤ ⟪b - A x, (b - A x) - b⟫ + tau * linfC (At (b - A x)) ∧
    ‖b - A x‖ ^ 2 / 2 - (⟪b - A x, (b - A x) - b⟫ + tau * linfC (At (b - A x))) ≤ ‖b - A y‖ ^ 2 / 2 := by
  set r := b - A x with hr
  have e1 : r - b = -(A x) := by rw [hr]; abel
  have key : ∀ z, l1C z ≤ tau → |⟪r, A z⟫| ≤ tau * linfC (At r) := by
    intro z hz
    have : ⟪r, A z⟫ = ⟪At r, z⟫ := by rw [real_inner_comm, hadj.inner, real_inner_comm]
    rw [this]
    refine (inner_le_linfC _ _).trans ?_
    rw [mul_comm]
    exact mul_le_mul_of_nonneg_right hz (linfC_nonneg _)
  have k1 := abs_le.mp (key x hx)
  have k2 := abs_le.mp (key y hy)
  rw [e1, inner_neg_right]
  refine ⟨by linarith, ?_⟩
  have e2 : b - A y = r + (A x - A y) := by rw [hr]; abel
  rw [e2, norm_add_sq_real, inner_sub_right]
  have := sq_nonneg ‖A x - A y‖
  linarith

/-- The reported gap is at least the real part of the complex gap. -/
theorem relGapC_ge (b : CVec m) (g : CVec n) (r : CVec m) (f tau : ℝ) : ⟪r, r - b⟫ + tau * linfC g ≤ relGapC b g r f tau * max 1 f := by
  have hm1 : 0 < max 1 f := lt_of_lt_of_le one_pos (le_max_left _ _)
  rw [relGapC, div_mul_cancel₀ _ hm1.ne', inner_vdotC]
  have := Complex.re_le_norm (vdotC r (r - b) + ((tau * linfC g : ℝ) : ℂ))
  rwa [Complex.add_re, Complex.ofReal_re] at this

/-- **C141** the reported relative gap certifies the solution: the objective at `x` exceeds the objective at any point of the complex l1 ball by at most
`r_gap · max(1, f)`. -/
theorem c141_lasso_certified (A : CVec n →ₗ[ℂ] CVec m) (At : CVec m →ₗ[ℂ] CVec n) (hadj : IsAdjC A At) (b : CVec m) (tau : ℝ) (htau : 0 ≤ tau) (x0 : CVec n)
    (o : Spgl1Opts) (hm : 0 < o.memory) (s : LassoStateC m n) (h : LassoReachC A At b tau x0 o s) (y : CVec n) (hy : ∑ i, ‖y i‖ ≤ tau) :
    ‖b - A s.x‖ ^ 2 / 2 ≤ ‖b - A y‖ ^ 2 / 2 + s.rGap * max 1 (‖b - A s.x‖ ^ 2 / 2) := by
  have hi := lasso_invC A At b tau htau x0 o hm s h
  obtain ⟨-, h1⟩ := lasso_dualityC A At hadj b tau s.x y hi.feas hy
  have h2 := relGapC_ge b s.g s.r (objValC s.r) tau
  rw [← hi.gap, hi.grad, linfC_neg, objValC_eq, hi.res] at h2
  linarith

/-- **C141** `solve_lasso_from` on complex arrays always returns, and the result is certified to be within `opt_tol · max(1, f)` of the optimum, or has relative
residual below `opt_tol`, or the iteration limit was reached. -/
theorem c141_lasso_stop (A : CVec n →ₗ[ℂ] CVec m) (At : CVec m →ₗ[ℂ] CVec n) (hadj : IsAdjC A At) (b : CVec m) (tau : ℝ) (htau : 0 ≤ tau) (x0 : CVec n)
    (o : Spgl1Opts) (hm : 0 < o.memory) :
    (∃ s, LassoSolveFromC A At b tau x0 o s) ∧
    ∀ s, LassoSolveFromC A At b tau x0 o s →
      (∀ y : CVec n, ∑ i, ‖y i‖ ≤ tau → ‖b - A s.x‖ ^ 2 / 2 ≤ ‖b - A y‖ ^ 2 / 2 + o.optTol * max 1 (‖b - A s.x‖ ^ 2 / 2)) ∨
      ‖b - A s.x‖ < o.optTol * ‖b‖ ∨ o.maxIters ≤ s.iterations := by
  refine ⟨exists_out (fun s => s.iterations) o.maxIters (fun s h => h.1) fun s => Nat.lt_succ_self _, fun s ⟨hr, hc⟩ => ?_⟩
  have hi := lasso_invC A At b tau htau x0 o hm s hr
  by_cases h1 : s.iterations < o.maxIters
  · by_cases h2 : s.rGap > o.optTol
    · right; left
      by_contra h3
      refine hc ⟨h1, h2, ?_⟩
      rw [hi.rn, hi.res]; exact not_lt.mp h3
    · left
      intro y hy
      have h3 := c141_lasso_certified A At hadj b tau htau x0 o hm s hr y hy
      have h4 : 0 ≤ max 1 (‖b - A s.x‖ ^ 2 / 2) := le_trans zero_le_one (le_max_left _ _)
      have := mul_le_mul_of_nonneg_right (not_lt.mp h2) h4
      linarith
  · right; right; exact not_lt.mp h1

/-- **C141** unless the line search hits its limit of 10 rounds, an iteration on complex arrays does not raise the objective above the largest remembered value. -/
theorem c141_lasso_decrease (A : CVec n →ₗ[ℂ] CVec m) (At : CVec m →ₗ[ℂ] CVec n) (b : CVec m) (tau : ℝ) (htau : 0 ≤ tau) (x0 : CVec n) (o : Spgl1Opts)
    (hm : 0 < o.memory) (hg : 0 ≤ o.gamma) (s : LassoStateC m n) (h : LassoReachC A At b tau x0 o s)
    (hls : (lassoBodyC A At b tau o s).nLsIters < s.nLsIters + 10) :
    ‖b - A (lassoBodyC A At b tau o s).x‖ ^ 2 / 2 ≤ listMax s.fPast ∧ listMax (lassoBodyC A At b tau o s).fPast ≤ listMax s.fPast := by
  have hs := lasso_invC A At b tau htau x0 o hm s h
  obtain ⟨hi, hacc⟩ := curvy_specC A b s.x s.g s.alphaNext (listMax s.fPast) tau o.gamma s.timesCalls htau hs.feas
  set ls := curvyLineSearchC A b s.x s.g s.alphaNext (listMax s.fPast) tau o.gamma s.timesCalls with hlsd
  have hn : ls.nIters ≠ 10 := by
    have : (lassoBodyC A At b tau o s).nLsIters = s.nLsIters + ls.nIters := rfl
    omega
  have hmem : objValC s.r ∈ s.fPast := List.mem_of_mem_head? (by rw [hs.past]; rfl)
  have hle : ls.fVal ≤ listMax s.fPast := by
    rcases hacc with h1 | h1 | h1
    · rw [hi.lim] at h1
      have h2 := hi.gtd_le
      have h3 := hi.alpha_pos
      have h4 : o.gamma * ls.alpha * ls.gtd ≤ 0 := by
        have : 0 ≤ -ls.alpha * ls.gtd := le_trans (by positivity) h2
        nlinarith
      linarith
    · rw [hi.val, hi.res, h1, ← hs.res]; exact le_listMax hmem
    · exact absurd h1 hn
  constructor
  · have : ‖b - A (lassoBodyC A At b tau o s).x‖ ^ 2 / 2 = ls.fVal := by rw [hi.val, objValC_eq, hi.res]; rfl
    rw [this]; exact hle
  · show listMax (cbufPushLeft s.fPast ls.fVal) ≤ _
    have hlen : 0 < s.fPast.length := by rw [hs.len]; exact hm
    obtain ⟨k, hk⟩ : ∃ k, s.fPast.length = k + 1 := ⟨s.fPast.length - 1, by omega⟩
    refine listMax_le (by rw [cbufPushLeft, hk, List.take_succ_cons]; simp) fun v hv => ?_
    rw [cbufPushLeft] at hv
    rcases List.mem_cons.mp (List.mem_of_mem_take hv) with rfl | h1
    · exact hle
    · exact le_listMax h1

/-! ## BPIC -/

/-- The part of the line search invariant that needs no feasible start. -/
structure CurvyBaseC (A : CVec n → CVec m) (b : CVec m) (tau : ℝ) (calls : ℕ) (s : CurvyStateC m n) : Prop where
  feas : l1C s.xNew ≤ tau
  res : s.rNew = b - A s.xNew
  val : s.fVal = objValC s.rNew
  calls_eq : s.timesCalls = calls + s.nIters + 1

theorem curvy_baseC (A : CVec n → CVec m) (b : CVec m) (x g : CVec n) (alpha0 fMax tau gamma : ℝ) (calls : ℕ) (htau : 0 ≤ tau) :
    CurvyBaseC A b tau calls (curvyLineSearchC A b x g alpha0 fMax tau gamma calls) := by
  refine (curvy_outC A b x g fMax tau gamma calls alpha0).1.inv _ ⟨(project_nearestC htau _).1, rfl, rfl, rfl⟩ fun s hs _ => ?_
  refine ⟨(project_nearestC htau _).1, rfl, rfl, ?_⟩
  show s.timesCalls + 1 = calls + (s.nIters + 1) + 1
  rw [hs.calls_eq]; ring

/-- The invariant of the BPIC loop. -/
structure BpInvC (A : CVec n → CVec m) (At : CVec m → CVec n) (b : CVec m) (o : Spgl1Opts) (s : BpStateC m n) : Prop where
  tau0 : 0 ≤ s.tau
  feas : 1 < s.iterations → l1C s.x ≤ s.tau
  res : s.r = b - A s.x
  grad : s.g = -At s.r
  past : s.fPast.head? = some (objValC s.r)
  len : s.fPast.length = o.memory
  times_rep : s.nTimes = s.timesCalls + 1
  trans_rep : s.nTrans = s.transCalls + 1
  iters : 1 ≤ s.iterations

theorem bp_init_invC {A : CVec n → CVec m} {At : CVec m → CVec n} {b : CVec m} {sigma : ℝ} {x0 : CVec n} {o : Spgl1Opts} (hm : 0 < o.memory)
    {s : BpStateC m n} (h : bpInitC A At b sigma x0 o = some s) : BpInvC A At b o s ∧ s.x = x0 ∧ s.rNorm = ‖s.r‖ ∧ s.iterations = 1 := by
  unfold bpInitC at h
  simp only [Option.map_eq_some_iff] at h
  obtain ⟨t, ht, rfl⟩ := h
  refine ⟨⟨newtonTau_nonneg ht, fun h => absurd h (lt_irrefl _), rfl, rfl, ?_, by simp, rfl, rfl, le_refl _⟩, project_selfC x0, rfl, rfl⟩
  obtain ⟨k, hk⟩ : ∃ k, o.memory = k + 1 := ⟨o.memory - 1, by omega⟩
  simp [hk, List.replicate_succ]

/-- One iteration re-establishes the invariant, whatever the step did to tau; the reported norm is that of the residual unless tau was reduced. -/
theorem bp_body_invC {A : CVec n → CVec m} {At : CVec m → CVec n} {b : CVec m} {sigma : ℝ} {o : Spgl1Opts} (hm : 0 < o.memory)
    {s s' : BpStateC m n} (hs : BpInvC A At b o s) (h : bpBodyC A At b sigma o s = some s') :
    BpInvC A At b o s' ∧ s'.iterations = s.iterations + 1 ∧
      (¬ s'.tau < s.tau → s'.rNorm = ‖s'.r‖ ∧ l1C s'.x ≤ s.tau ∧ s'.rGap = relGapC b s'.g s'.r (objValC s'.r) s.tau) := by
  classical
  have hb := curvy_baseC A b s.x s.g s.alphaNext (listMax s.fPast) s.tau o.gamma s.timesCalls hs.tau0
  have hlen : 0 < s.fPast.length := by rw [hs.len]; exact hm
  unfold bpBodyC at h
  simp only [Option.map_eq_some_iff] at h
  set ls := curvyLineSearchC A b s.x s.g s.alphaNext (listMax s.fPast) s.tau o.gamma s.timesCalls with hls
  obtain ⟨t, ht, rfl⟩ := h
  have ht0 : 0 ≤ t := by
    split at ht
    · exact newtonTau_nonneg ht
    · simp only [Option.some.injEq] at ht; rw [← ht]; exact hs.tau0
  by_cases hred : t < s.tau
  · simp only [if_pos hred]
    refine ⟨⟨ht0, fun _ => (project_nearestC ht0 _).1, rfl, rfl, push_head hlen _, (push_length _ _).trans hs.len, ?_, ?_, Nat.le_add_left 1 _⟩, trivial, fun h => absurd hred h⟩
    · show s.nTimes + ls.nIters + 1 + 1 = ls.timesCalls + 1 + 1
      rw [hb.calls_eq, hs.times_rep]; ring
    · show s.nTrans + 1 + 1 = s.transCalls + 1 + 1 + 1
      rw [hs.trans_rep]
  · simp only [if_neg hred]
    refine ⟨⟨ht0, fun _ => hb.feas.trans (not_lt.mp hred), hb.res, rfl, ?_, (push_length _ _).trans hs.len, ?_, ?_, Nat.le_add_left 1 _⟩, trivial, fun _ => ⟨trivial, hb.feas, ?_⟩⟩
    · show (cbufPushLeft s.fPast ls.fVal).head? = some (objValC ls.rNew)
      rw [push_head hlen, hb.val]
    · show s.nTimes + ls.nIters + 1 + 0 = ls.timesCalls + 1
      rw [hb.calls_eq, hs.times_rep]; ring
    · show s.nTrans + 1 + 0 = s.transCalls + 1 + 1
      rw [hs.trans_rep]
    · rw [hb.val]

theorem bp_invC {A : CVec n → CVec m} {At : CVec m → CVec n} {b : CVec m} {sigma : ℝ} {x0 : CVec n} {o : Spgl1Opts} (hm : 0 < o.memory)
    {s : BpStateC m n} (h : BpReachC A At b sigma x0 o s) : BpInvC A At b o s := by
  induction h with
  | init h => exact (bp_init_invC hm h).1
  | step _ _ hb ih => exact (bp_body_invC hm ih hb).1

/-- **C141** every state of `solve_bpic_from` on complex arrays has `tau ≥ 0`, the residual and gradient of its `x`, the objective of `x` as newest remembered
value, and, from the second state on, an `x` in the complex l1 ball of radius `tau`. -/
theorem c141_bp_consistent (A : CVec n →ₗ[ℂ] CVec m) (At : CVec m →ₗ[ℂ] CVec n) (b : CVec m) (sigma : ℝ) (x0 : CVec n) (o : Spgl1Opts)
    (hm : 0 < o.memory) (s : BpStateC m n) (h : BpReachC A At b sigma x0 o s) :
    0 ≤ s.tau ∧ (1 < s.iterations → ∑ i, ‖s.x i‖ ≤ s.tau) ∧ s.r = b - A s.x ∧ s.g = At (A s.x - b) ∧
    s.fPast.head? = some (‖b - A s.x‖ ^ 2 / 2) ∧ s.nTimes = s.timesCalls + 1 ∧ s.nTrans = s.transCalls + 1 := by
  have hi := bp_invC hm h
  refine ⟨hi.tau0, hi.feas, hi.res, ?_, by rw [hi.past, objValC_eq, hi.res], hi.times_rep, hi.trans_rep⟩
  rw [hi.grad, hi.res, ← map_neg, neg_sub]

/-- **C141** after an iteration that did not reduce `tau`, the reported residual norm is that of `x`, and the reported gap certifies `x` for the complex LASSO of the
radius in force during that iteration. -/
theorem c141_bp_certified (A : CVec n →ₗ[ℂ] CVec m) (At : CVec m →ₗ[ℂ] CVec n) (hadj : IsAdjC A At) (b : CVec m) (sigma : ℝ) (x0 : CVec n) (o : Spgl1Opts)
    (hm : 0 < o.memory) (s s' : BpStateC m n) (hr : BpReachC A At b sigma x0 o s) (hb : bpBodyC A At b sigma o s = some s') (ht : ¬ s'.tau < s.tau)
    (y : CVec n) (hy : ∑ i, ‖y i‖ ≤ s.tau) :
    s'.rNorm = ‖b - A s'.x‖ ∧ ∑ i, ‖s'.x i‖ ≤ s.tau ∧ ‖b - A s'.x‖ ^ 2 / 2 ≤ ‖b - A y‖ ^ 2 / 2 + s'.rGap * max 1 (‖b - A s'.x‖ ^ 2 / 2) := by
  obtain ⟨hi, _, h3⟩ := bp_body_invC hm (bp_invC hm hr) hb
  obtain ⟨hn, hf, hg⟩ := h3 ht
  refine ⟨by rw [hn, hi.res], hf, ?_⟩
  obtain ⟨-, h1⟩ := lasso_dualityC A At hadj b s.tau s'.x y hf hy
  have h2 := relGapC_ge b s'.g s'.r (objValC s'.r) s.tau
  rw [← hg, hi.grad, linfC_neg, objValC_eq, hi.res] at h2
  linarith

/-- **C141** a state at which the loop stops before its limits reports a residual norm at most `sigma`, up to the tolerances. -/
theorem c141_bp_stop (A : CVec n →ₗ[ℂ] CVec m) (At : CVec m →ₗ[ℂ] CVec n) (b : CVec m) (sigma : ℝ) (x0 : CVec n) (o : Spgl1Opts)
    (s : BpStateC m n) (hr : BpReachC A At b sigma x0 o s) (hc : ¬ bpCondC b sigma o s) (hit : s.iterations < o.maxIters)
    (hmv : s.nTimes + s.nTrans < o.maxMatvec) :
    s.rNorm ≤ sigma ∨ |s.rNorm - sigma| ≤ o.optTol * max 1 s.rNorm ∨ s.rNorm ≤ o.bpTol * ‖b‖ := by
  have he : s.rResError = resError s.rNorm sigma := by
    cases hr with
    | init h =>
      unfold bpInitC at h
      simp only [Option.map_eq_some_iff] at h
      obtain ⟨t, ht, rfl⟩ := h
      rfl
    | step _ _ h =>
      unfold bpBodyC at h
      simp only [Option.map_eq_some_iff] at h
      obtain ⟨t, ht, rfl⟩ := h
      rfl
  by_contra hcon
  push Not at hcon
  obtain ⟨h1, h2, h3⟩ := hcon
  refine hc ⟨Or.inr ⟨h1, ?_, h3⟩, hit, hmv⟩
  have hm1 : 0 < max 1 s.rNorm := lt_of_lt_of_le one_pos (le_max_left _ _)
  rw [he, resError, gt_iff_lt, lt_div_iff₀ hm1]; exact h2

/-- The Newton update at a point of the l1 ball exceeds the l1 norm of a point with residual at most `sigma` by at most the duality gap
over the dual norm of the gradient. -/
theorem newton_leC (A : CVec n →ₗ[ℂ] CVec m) (At : CVec m →ₗ[ℂ] CVec n) (hadj : IsAdjC A At) (b : CVec m) (sigma tau t : ℝ) (x z : CVec n)
    (hx : l1C x ≤ tau) (hz : ‖b - A z‖ ≤ sigma)
    (h : newtonTau tau ‖b - A x‖ sigma (linfC (At (b - A x))) = some t) :
    t ≤ l1C z + (⟪b - A x, (b - A x) - b⟫ + tau * linfC (At (b - A x))) / linfC (At (b - A x)) := by
  set r := b - A x with hr
  set G := linfC (At r) with hG
  unfold newtonTau at h
  split at h
  · simp at h
  rename_i hG0
  simp only [Option.some.injEq] at h
  have hGpos : 0 < G := lt_of_le_of_ne (linfC_nonneg _) (Ne.symm hG0)
  have hgap := (lasso_dualityC A At hadj b tau x x hx hx).1
  rw [← hr, ← hG] at hgap
  have hz1 : ⟪r, b⟫ ≤ ‖r‖ * sigma + G * l1C z := by
    have e : b = (b - A z) + A z := by abel
    have e1 : ⟪r, A z⟫ = ⟪At r, z⟫ := by rw [real_inner_comm, hadj.inner, real_inner_comm]
    have e2 := (abs_le.mp (inner_le_linfC (At r) z)).2
    have e3 := real_inner_le_norm r (b - A z)
    have e4 : ‖r‖ * ‖b - A z‖ ≤ ‖r‖ * sigma := mul_le_mul_of_nonneg_left hz (norm_nonneg _)
    rw [e, inner_add_right, e1]
    linarith
  rw [← h]
  apply max_le
  · exact add_nonneg (l1C_nonneg z) (div_nonneg hgap hGpos.le)
  · have : tau + ‖r‖ * (‖r‖ - sigma) / G = (tau * G + ‖r‖ * (‖r‖ - sigma)) / G := by field_simp
    rw [this, div_le_iff₀ hGpos]
    have e5 : (l1C z + (⟪r, r - b⟫ + tau * G) / G) * G = l1C z * G + (⟪r, r - b⟫ + tau * G) := by field_simp
    rw [e5, inner_sub_right, real_inner_self_eq_norm_sq]
    nlinarith

/-- **C141** the l1 budget `tau` of `solve_bpic` (and of `solve_bp`, `sigma = 0`) on complex arrays never exceeds the l1 norm of a solution by more than the
current duality gap allows: let `z` be any point with residual norm at most `sigma`. The first `tau` is at most `‖z‖₁`, and a step that
increases `tau` ends with `tau ≤ ‖z‖₁ + r_gap · max(1, f) / ‖g‖∞`. -/
theorem c141_bp_tau_bound (A : CVec n →ₗ[ℂ] CVec m) (At : CVec m →ₗ[ℂ] CVec n) (hadj : IsAdjC A At) (b : CVec m) (sigma : ℝ) (o : Spgl1Opts)
    (hm : 0 < o.memory) (z : CVec n) (hz : ‖b - A z‖ ≤ sigma) :
    (∀ s, bpInitC A At b sigma 0 o = some s → s.x = 0 ∧ s.tau ≤ ∑ i, ‖z i‖) ∧
    (∀ s s', BpicReachC A At b sigma o s → bpCondC b sigma o s → bpBodyC A At b sigma o s = some s' → s.tau < s'.tau →
      s'.tau ≤ ∑ i, ‖z i‖ + s'.rGap * max 1 (‖s'.r‖ ^ 2 / 2) / linfC s'.g) := by
  classical
  constructor
  · intro s h
    refine ⟨(bp_init_invC hm h).2.1, ?_⟩
    unfold bpInitC at h
    simp only [Option.map_eq_some_iff] at h
    obtain ⟨t, ht, rfl⟩ := h
    have h0 : l1C (0 : CVec n) = 0 := by simp [l1C]
    have hp : projectToL1BallC (0 : CVec n) (l1C (0 : CVec n)) = 0 := project_selfC 0
    simp only [Verif.Sls.counted, hp, linfC_neg] at ht
    have := newton_leC A At hadj b sigma (l1C (0 : CVec n)) t 0 z le_rfl hz ht
    have h1 : t ≤ l1C z := by simpa [h0] using this
    exact h1
  · intro s s' hr _ hb hlt
    obtain ⟨hi, _, h3⟩ := bp_body_invC hm (bp_invC hm hr) hb
    obtain ⟨hn, hf, hg⟩ := h3 (not_lt.2 hlt.le)
    have hnew : newtonTau s.tau ‖s'.r‖ sigma (linfC s'.g) = some s'.tau := by
      unfold bpBodyC at hb
      simp only [Option.map_eq_some_iff] at hb
      obtain ⟨t, ht, rfl⟩ := hb
      have hnr : ¬ t < s.tau := not_lt.2 hlt.le
      simp only [if_neg hnr]
      split at ht
      · exact ht
      · simp only [Option.some.injEq] at ht
        simp only [] at hlt
        exact absurd ht (ne_of_lt hlt)
    have h2 := relGapC_ge b s'.g s'.r (objValC s'.r) s.tau
    rw [← hg, objValC_eq] at h2
    have hge := linfC_nonneg s'.g
    rw [hi.grad, linfC_neg, hi.res] at hnew
    have h4 := newton_leC A At hadj b sigma s.tau s'.tau s'.x z hf hz hnew
    have e : linfC (At (b - A s'.x)) = linfC s'.g := by rw [hi.grad, linfC_neg, hi.res]
    rw [e, ← hi.res] at h4
    refine h4.trans (add_le_add le_rfl ?_)
    exact div_le_div_of_nonneg_right h2 hge

/-! ## Concrete cases -/

/-- The operator of one complex entry that multiplies with `i`; its adjoint multiplies with `-i`. -/
def mulI : CVec 1 →ₗ[ℂ] CVec 1 := Complex.I • LinearMap.id

/-- Multiplication with `-i`. -/
def mulNegI : CVec 1 →ₗ[ℂ] CVec 1 := (-Complex.I) • LinearMap.id

theorem mulI_adj : IsAdjC mulI mulNegI := by
  intro x y
  simp [mulI, mulNegI]
  ring

/-- The array `(3i, 4)` is outside the ball of radius 5 and is sent to its sphere; `(i, 1)` is inside. -/
example : (5 : ℝ) < ∑ i, ‖(cvec ![3 * Complex.I, 4] : CVec 2) i‖ ∧ ∑ i, ‖(cvec ![Complex.I, 1] : CVec 2) i‖ ≤ (5 : ℝ) := by
  constructor <;> norm_num [cvec, Fin.sum_univ_two]

example := (c141_project (q := 5) (by norm_num) (cvec ![3 * Complex.I, 4] : CVec 2)).2.2 (by norm_num [cvec, Fin.sum_univ_two])

example := c141_project_at (q := 5) (by norm_num) (cvec ![3 * Complex.I, 4] : CVec 2) (cvec ![1, Complex.I])

/-- A run on data that are not real: `i x = 1`, `tau = 1/2`. -/
example : ∃ s, LassoReachC mulI mulNegI (cvec ![1]) (1 / 2) 0 spgl1Default s ∧ s.x = 0 ∧ s.g = cvec ![Complex.I] := by
  have hp : projectToL1BallC (0 : CVec 1) (1 / 2) = 0 := if_neg (by norm_num [l1C])
  refine ⟨_, .init, hp, ?_⟩
  show -mulNegI (cvec ![1] - mulI (projectToL1BallC 0 (1 / 2))) = _
  rw [hp, map_zero, sub_zero]
  ext i; fin_cases i; simp [mulNegI, cvec]

example := c141_lasso_consistent mulI mulNegI (cvec ![1]) (1 / 2) (by norm_num) 0 spgl1Default (by norm_num [spgl1Default])

example := fun s h => c141_lasso_certified mulI mulNegI mulI_adj (cvec ![1]) (1 / 2) (by norm_num) 0 spgl1Default (by norm_num [spgl1Default]) s h
  (cvec ![-Complex.I / 2]) (by norm_num [cvec])

example := c141_lasso_stop mulI mulNegI mulI_adj (cvec ![1]) (1 / 2) (by norm_num) 0 spgl1Default (by norm_num [spgl1Default])

example := c141_lasso_decrease mulI mulNegI (cvec ![1]) (1 / 2) (by norm_num) 0 spgl1Default (by norm_num [spgl1Default]) (by norm_num [spgl1Default])

example := c141_bp_consistent mulI mulNegI (cvec ![2]) 1 0 spgl1Default (by norm_num [spgl1Default])

theorem mulI_two : ‖(cvec ![2] : CVec 1) - mulI (cvec ![-Complex.I])‖ ≤ 1 := by
  rw [EuclideanSpace.norm_eq, Real.sqrt_le_one]
  norm_num [cvec, mulI]

/-- `solve_bpic` of `i x = 2` with `sigma = 1` starts with a first `tau` of `1`, the l1 norm of the solution `-i`. -/
example : ∃ s, bpInitC mulI mulNegI (cvec ![2]) 1 0 spgl1Default = some s ∧ s.tau = 1 := by
  have hp : projectToL1BallC (0 : CVec 1) (l1C (0 : CVec 1)) = 0 := project_selfC 0
  have h0 : l1C (0 : CVec 1) = 0 := by simp [l1C]
  have hl : linfC (mulNegI (cvec ![2])) = 2 := by
    have : mulNegI (cvec ![2]) = cvec ![-Complex.I * 2] := by ext i; fin_cases i; simp [mulNegI, cvec]
    rw [this, linfC, cvec]
    apply le_antisymm
    · exact (pi_norm_le_iff_of_nonneg (by norm_num)).2 fun i => by fin_cases i; norm_num
    · have := norm_le_pi_norm (![-Complex.I * 2] : Fin 1 → ℂ) 0
      have e : ‖(![-Complex.I * 2] : Fin 1 → ℂ) 0‖ = 2 := by norm_num
      rw [e] at this; exact this
  have hn : ‖(cvec ![2] : CVec 1)‖ = 2 := by
    rw [EuclideanSpace.norm_eq, show ∑ i, ‖(cvec ![2] : CVec 1) i‖ ^ 2 = 2 ^ 2 by norm_num [cvec]]; exact Real.sqrt_sq (by norm_num)
  unfold bpInitC
  simp only [Verif.Sls.counted, hp]
  simp only [h0, map_zero, sub_zero, linfC_neg, hl, hn]
  rw [newtonTau, if_neg (by norm_num)]
  exact ⟨_, rfl, by norm_num⟩

example := c141_bp_tau_bound mulI mulNegI mulI_adj (cvec ![2]) 1 spgl1Default (by norm_num [spgl1Default]) (cvec ![-Complex.I]) mulI_two

example := fun s h => c141_bp_stop mulI mulNegI (cvec ![2]) 1 0 spgl1Default s h

example := fun s s' h hb ht => c141_bp_certified mulI mulNegI mulI_adj (cvec ![2]) 1 0 spgl1Default (by norm_num [spgl1Default]) s s' h hb ht 0
  (by simpa using (c141_bp_consistent mulI mulNegI (cvec ![2]) 1 0 spgl1Default (by norm_num [spgl1Default]) s h).1)

end Verif.Cvx
