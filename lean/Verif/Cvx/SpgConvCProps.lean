import Verif.Cvx.SpgConvProps
import Verif.Cvx.Spgl1CProps

set_option autoImplicit false
/-!
# SPGL1's LASSO solver on complex arrays: step lengths, stopping test, reaching the tolerance (C164)
-/
noncomputable section
namespace Verif.Cvx
open Verif.Loop Verif.Opt Filter Topology
open scoped RealInnerProductSpace

variable {m n : ℕ}

theorem spectral_stepC (A : CVec n →ₗ[ℂ] CVec m) (At : CVec m →ₗ[ℂ] CVec n) (hadj : IsAdjC A At) (o : Spgl1Opts) (d : CVec n) :
    (A d = 0 → nextAlphaC o d (At (A d)) = o.alphaMax) ∧
    (A d ≠ 0 → nextAlphaC o d (At (A d)) = min (max (‖d‖ ^ 2 / ‖A d‖ ^ 2) o.alphaMin) o.alphaMax) := by
  have e : ⟪d, At (A d)⟫ = ‖A d‖ ^ 2 := by rw [← hadj.inner, real_inner_self_eq_norm_sq]
  unfold nextAlphaC clip
  rw [← inner_vdotC, ← inner_vdotC, e, real_inner_self_eq_norm_sq]
  refine ⟨fun h => by rw [h]; simp, fun h => ?_⟩
  rw [if_neg (not_le.2 (by positivity))]

/-- **C164** the next step length is the spectral one: with `d` the last change of `x`, it is `|d|² / |A d|²` brought into the range from `alpha_min` to `alpha_max`, and
`alpha_max` when `A d = 0`. -/
theorem c164_spectral_step (A : CVec n →ₗ[ℂ] CVec m) (At : CVec m →ₗ[ℂ] CVec n) (hadj : IsAdjC A At) (b : CVec m) (tau : ℝ) (htau : 0 ≤ tau) (x0 : CVec n) (o : Spgl1Opts)
    (hm : 0 < o.memory) (s : LassoStateC m n) (h : LassoReachC A At b tau x0 o s) (hc : lassoCondC b o s) :
    let s' := lassoBodyC A At b tau o s
    let d := s'.x - s.x
    (A d = 0 → s'.alphaNext = o.alphaMax) ∧ (A d ≠ 0 → s'.alphaNext = min (max (‖d‖ ^ 2 / ‖A d‖ ^ 2) o.alphaMin) o.alphaMax) := by
  intro s' d
  have e1 := (c141_lasso_consistent A At b tau htau x0 o hm s h).2.2.1
  have e2 := (c141_lasso_consistent A At b tau htau x0 o hm s' (h.step hc)).2.2.1
  have e : s'.alphaNext = nextAlphaC o d (s'.g - s.g) := rfl
  have e3 : s'.g - s.g = At (A d) := by
    rw [e1, e2, ← map_sub]
    congr 1
    rw [map_sub]
    abel
  rw [e, e3]
  exact spectral_stepC A At hadj o d

/-- The step lengths of the line search are `1, 1/2, 1/4, …`. -/
theorem curvy_alphaC (A : CVec n → CVec m) (b : CVec m) (x g : CVec n) (fMax tau gamma : ℝ) (calls : ℕ) (s : CurvyStateC m n)
    (h : Reach curvyCondC (curvyNextC A b x g fMax tau gamma) (curvyInitC A b x g fMax tau gamma calls) s) :
    s.alpha = (1 / 2) ^ s.nIters ∧ s.xNew = projectToL1BallC (x - (s.alpha * s.scale) • g) tau ∧ (s.nIters = 0 → s.scale = 1) := by
  refine h.inv (fun s => s.alpha = (1 / 2) ^ s.nIters ∧ s.xNew = projectToL1BallC (x - (s.alpha * s.scale) • g) tau ∧ (s.nIters = 0 → s.scale = 1))
    ⟨by simp [curvyInitC, curvyCandidateC], rfl, fun _ => rfl⟩ fun t ht _ => ⟨?_, rfl, fun h0 => absurd h0 (Nat.succ_ne_zero _)⟩
  show t.alpha / 2 = (1 / 2) ^ (t.nIters + 1)
  rw [ht.1, pow_succ]
  ring

/-- **C164** an iteration moves to the projection onto the l1 ball of a step along the negative gradient. After `k ≤ 10` rounds of the line search the reported step length is
`2⁻ᵏ`; without backtracking the step is the spectral one. -/
theorem c164_projected_step (A : CVec n →ₗ[ℂ] CVec m) (At : CVec m →ₗ[ℂ] CVec n) (b : CVec m) (tau : ℝ) (htau : 0 ≤ tau) (x0 : CVec n) (o : Spgl1Opts)
    (hm : 0 < o.memory) (s : LassoStateC m n) (h : LassoReachC A At b tau x0 o s) :
    let s' := lassoBodyC A At b tau o s
    ∃ (k : ℕ) (c : ℝ), k ≤ 10 ∧ s'.nLsIters = s.nLsIters + k ∧ s'.alpha = (1 / 2) ^ k ∧ (k = 0 → c = 1) ∧ 0 < c ∧
      (∑ i, ‖s'.x i‖ ≤ tau) ∧ ∀ z : CVec n, ∑ i, ‖z i‖ ≤ tau → ‖(s.x - (c * s.alphaNext) • s.g) - s'.x‖ ≤ ‖(s.x - (c * s.alphaNext) • s.g) - z‖ := by
  intro s'
  have hs := lasso_invC A At b tau htau x0 o hm s h
  obtain ⟨hi, _⟩ := curvy_specC A b s.x s.g s.alphaNext (listMax s.fPast) tau o.gamma s.timesCalls htau hs.feas
  obtain ⟨h1, h2, h3⟩ := curvy_alphaC A b s.x (s.alphaNext • s.g) (listMax s.fPast) tau o.gamma s.timesCalls _ (curvy_outC A b s.x s.g (listMax s.fPast) tau o.gamma s.timesCalls s.alphaNext).1
  set ls := curvyLineSearchC A b s.x s.g s.alphaNext (listMax s.fPast) tau o.gamma s.timesCalls with hls
  have hx : s'.x = ls.xNew := rfl
  refine ⟨ls.nIters, ls.alpha * ls.scale, hi.iters_le, rfl, h1, fun h0 => by rw [h1, h3 h0, h0]; norm_num, mul_pos hi.alpha_pos hi.scale_pos, hi.feas, fun z hz => ?_⟩
  rw [hx, h2, smul_smul]
  by_cases hz' : z = projectToL1BallC (s.x - (ls.alpha * ls.scale * s.alphaNext) • s.g) tau
  · rw [← hz']
  · exact ((project_nearestC htau (s.x - (ls.alpha * ls.scale * s.alphaNext) • s.g)).2 z hz hz').le

/-- **C164** when the loop stops before its limits, the reported residual norm is within tolerance of `sigma`, or the reported duality gap is below the larger of `opt_tol` and
the relative distance of the objective from `sigma² / 2`. -/
theorem c164_stop_gap (A : CVec n →ₗ[ℂ] CVec m) (At : CVec m →ₗ[ℂ] CVec n) (b : CVec m) (sigma : ℝ) (x0 : CVec n) (o : Spgl1Opts)
    (s : BpStateC m n) (hr : BpReachC A At b sigma x0 o s) (hc : ¬ bpCondC b sigma o s) (hit : s.iterations < o.maxIters)
    (hmv : s.nTimes + s.nTrans < o.maxMatvec) :
    |s.rNorm - sigma| ≤ o.optTol * max 1 s.rNorm ∨ s.rGap ≤ max o.optTol (|s.rNorm ^ 2 / 2 - sigma ^ 2 / 2| / max 1 (s.rNorm ^ 2 / 2)) := by
  have he : s.rResError = resError s.rNorm sigma ∧ s.rFError = fError (s.rNorm ^ 2 / 2) sigma := by
    cases hr with
    | init h =>
      unfold bpInitC at h
      simp only [Option.map_eq_some_iff] at h
      obtain ⟨t, ht, rfl⟩ := h
      exact ⟨rfl, by simp only [objValC_eq]⟩
    | @step t _ _ _ h =>
      unfold bpBodyC at h
      simp only [Option.map_eq_some_iff] at h
      obtain ⟨t', ht, rfl⟩ := h
      refine ⟨rfl, ?_⟩
      have hv : ∀ u, Reach curvyCondC (curvyNextC A b t.x (t.alphaNext • t.g) (listMax t.fPast) t.tau o.gamma)
          (curvyInitC A b t.x (t.alphaNext • t.g) (listMax t.fPast) t.tau o.gamma t.timesCalls) u → u.fVal = objValC u.rNew :=
        fun u hu => hu.inv (fun u => u.fVal = objValC u.rNew) rfl fun _ _ _ => rfl
      dsimp only
      rw [hv _ (curvy_outC A b t.x t.g (listMax t.fPast) t.tau o.gamma t.timesCalls t.alphaNext).1, objValC_eq]
  by_contra hcon
  push Not at hcon
  obtain ⟨h1, h2⟩ := hcon
  refine hc ⟨Or.inl ⟨?_, ?_⟩, hit, hmv⟩
  · rw [he.2]
    exact h2
  · have hm1 : 0 < max 1 s.rNorm := lt_of_lt_of_le one_pos (le_max_left _ _)
    rw [he.1, resError, gt_iff_lt, lt_div_iff₀ hm1]; exact h1

theorem nextAlpha_rangeC (o : Spgl1Opts) (h : o.alphaMin ≤ o.alphaMax) (s y : CVec n) : o.alphaMin ≤ nextAlphaC o s y ∧ nextAlphaC o s y ≤ o.alphaMax := by
  unfold nextAlphaC
  split
  · exact ⟨h, le_rfl⟩
  · exact clip_range h

theorem firstAlpha_rangeC (o : Spgl1Opts) (h : o.alphaMin ≤ o.alphaMax) (d : CVec n) : o.alphaMin ≤ firstAlphaC o d ∧ firstAlphaC o d ≤ o.alphaMax := by
  unfold firstAlphaC
  split
  · exact ⟨h, le_rfl⟩
  · exact clip_range h

theorem alpha_rangeC (A : CVec n → CVec m) (At : CVec m → CVec n) (b : CVec m) (tau : ℝ) (x0 : CVec n) (o : Spgl1Opts) (h : o.alphaMin ≤ o.alphaMax)
    (s : LassoStateC m n) (hr : LassoReachC A At b tau x0 o s) : o.alphaMin ≤ s.alphaNext ∧ s.alphaNext ≤ o.alphaMax := by
  refine Reach.inv (fun s => o.alphaMin ≤ s.alphaNext ∧ s.alphaNext ≤ o.alphaMax) hr (firstAlpha_rangeC o h _) fun s _ _ => nextAlpha_rangeC o h _ _

theorem norm_le_l1C (x : CVec n) : ‖x‖ ≤ l1C x := by
  rw [EuclideanSpace.norm_eq, Real.sqrt_le_left (l1C_nonneg x)]
  exact Finset.sum_sq_le_sq_sum_of_nonneg fun i _ => norm_nonneg _

/-- The largest decrease the linear model allows on the ball is attained at a vertex. -/
theorem exists_vertexC (g : CVec n) {tau : ℝ} (htau : 0 ≤ tau) : ∃ z : CVec n, l1C z ≤ tau ∧ ⟪g, z⟫ = -(tau * linfC g) := by
  classical
  rcases Nat.eq_zero_or_pos n with h0 | h0
  · subst h0
    refine ⟨0, by simpa [l1C] using htau, ?_⟩
    have : linfC g = 0 := by unfold linfC; rw [Subsingleton.elim g 0]; simp
    rw [this]; simp
  · haveI : Nonempty (Fin n) := ⟨⟨0, h0⟩⟩
    obtain ⟨i, hi⟩ := Finite.exists_max fun i => ‖g i‖
    have hl : linfC g = ‖g i‖ := by
      refine le_antisymm ?_ (norm_le_linfC g i)
      unfold linfC
      rw [pi_norm_le_iff_of_nonneg (norm_nonneg _)]
      exact hi
    refine ⟨cvec fun j => if j = i then (-(tau * ‖g i‖⁻¹)) • g i else 0, ?_, ?_⟩
    · have : l1C (cvec fun j => if j = i then (-(tau * ‖g i‖⁻¹)) • g i else 0) = ‖(-(tau * ‖g i‖⁻¹)) • g i‖ := by
        unfold l1C
        rw [Finset.sum_eq_single i]
        · simp only [cvec, if_true]
        · intro j _ hj; simp [cvec, hj]
        · simp
      rw [this, norm_smul, norm_neg, Real.norm_eq_abs, abs_of_nonneg (mul_nonneg htau (inv_nonneg.2 (norm_nonneg _))), mul_assoc]
      by_cases hg : ‖g i‖ = 0
      · rw [hg]; simpa using htau
      · rw [inv_mul_cancel₀ hg, mul_one]
    · rw [PiLp.inner_apply, Finset.sum_eq_single i]
      · simp only [cvec, if_true, hl]
        rw [real_inner_smul_right, real_inner_self_eq_norm_sq]
        by_cases hg : ‖g i‖ = 0
        · rw [hg]; simp
        · field_simp
      · intro j _ hj; simp [cvec, hj]
      · simp

theorem norm_vdotC_le (g x : CVec n) : ‖vdotC g x‖ ≤ linfC g * l1C x := by
  rw [vdotC, l1C, Finset.mul_sum]
  refine (norm_sum_le _ _).trans (Finset.sum_le_sum fun i _ => ?_)
  rw [norm_mul, RCLike.norm_conj]
  exact mul_le_mul_of_nonneg_right (norm_le_linfC g i) (norm_nonneg _)

/-- The complex gap is a multiple of the square root of its real part at most: the imaginary part goes to zero with the real part. -/
theorem im_gapC (g x : CVec n) {T : ℝ} (hT : linfC g * l1C x ≤ T) : (vdotC g x).im ^ 2 ≤ 2 * T * (⟪g, x⟫ + T) := by
  have h1 := (norm_vdotC_le g x).trans hT
  have h2 : (vdotC g x).re ^ 2 + (vdotC g x).im ^ 2 ≤ T ^ 2 := by
    have := pow_le_pow_left₀ (norm_nonneg _) h1 2
    rw [← Complex.normSq_eq_norm_sq, Complex.normSq_apply] at this
    linarith
  have h3 := abs_le.1 ((Complex.abs_re_le_norm (vdotC g x)).trans h1)
  rw [inner_vdotC]
  nlinarith [sq_nonneg ((vdotC g x).re + T)]

theorem vdotC_conj (x y : CVec n) : vdotC x y = (starRingEnd ℂ) (vdotC y x) := by
  rw [vdotC, vdotC, map_sum]
  exact Finset.sum_congr rfl fun i _ => by rw [map_mul, Complex.conj_conj, mul_comm]

/-- The gap of the code, in terms of the gradient. -/
theorem gap_vdotC {A : CVec n →ₗ[ℂ] CVec m} {At : CVec m →ₗ[ℂ] CVec n} (hadj : IsAdjC A At) (b r : CVec m) (x g : CVec n) (hr : r = b - A x) (hg : g = -At r) :
    vdotC r (r - b) = vdotC g x := by
  have e : r - b = -(A x) := by rw [hr]; abel
  have h1 : ∀ u v : CVec m, vdotC u (-v) = -vdotC u v := fun u v => by simp [vdotC]
  have h2 : ∀ u v : CVec n, vdotC (-u) v = -vdotC u v := fun u v => by simp [vdotC]
  have h3 : vdotC (A x) r = vdotC x (At r) := hadj x r
  rw [e, h1, hg, h2, vdotC_conj, h3, ← vdotC_conj]

/-- While the reported gap exceeds `tol`, its real part is bounded below. -/
theorem real_gapC (g x : CVec n) {tau G tol f : ℝ} (htau : 0 ≤ tau) (hx : l1C x ≤ tau) (hG0 : 0 < G) (hG : ‖g‖ ≤ G) (ht : 0 < tol)
    (h : tol < ‖vdotC g x + ((tau * linfC g : ℝ) : ℂ)‖ / max 1 f) : min (tol / 2) (tol ^ 2 / (8 * (tau * G + 1))) ≤ ⟪g, x⟫ + tau * linfC g := by
  have hlG : linfC g ≤ G := by
    refine le_trans ?_ hG
    unfold linfC
    rw [pi_norm_le_iff_of_nonneg (norm_nonneg _)]
    exact fun i => PiLp.norm_apply_le g i
  have hT0 : 0 ≤ tau * linfC g := mul_nonneg htau (linfC_nonneg g)
  have hTG : tau * linfC g ≤ tau * G := mul_le_mul_of_nonneg_left hlG htau
  have hT : linfC g * l1C x ≤ tau * linfC g := by
    rw [mul_comm]; exact mul_le_mul_of_nonneg_right hx (linfC_nonneg g)
  have him := im_gapC g x hT
  have he0 : 0 ≤ ⟪g, x⟫ + tau * linfC g := by
    have := (abs_le.1 (inner_le_linfC g x)).1
    linarith
  have h1 : tol < ‖vdotC g x + ((tau * linfC g : ℝ) : ℂ)‖ := h.trans_le (div_le_self (norm_nonneg _) (le_max_left _ _))
  have h2 := Complex.norm_le_abs_re_add_abs_im (vdotC g x + ((tau * linfC g : ℝ) : ℂ))
  rw [Complex.add_re, Complex.add_im, Complex.ofReal_re, Complex.ofReal_im, add_zero, ← inner_vdotC, abs_of_nonneg he0] at h2
  set ε := ⟪g, x⟫ + tau * linfC g with hε
  by_contra hcon
  rw [not_le, lt_min_iff] at hcon
  obtain ⟨c1, c2⟩ := hcon
  rw [lt_div_iff₀ (by positivity)] at c2
  have h3 : tol / 2 < |(vdotC g x).im| := by linarith
  have h4 : (tol / 2) ^ 2 < (vdotC g x).im ^ 2 := by
    rw [← sq_abs (vdotC g x).im]
    exact pow_lt_pow_left₀ h3 (by positivity) two_ne_zero
  have h5 : tau * linfC g * ε ≤ tau * G * ε := mul_le_mul_of_nonneg_right hTG he0
  nlinarith

/-- A short projected gradient move means a small duality gap. -/
theorem gap_le_moveC (x g : CVec n) {tau t G : ℝ} (htau : 0 ≤ tau) (hx : l1C x ≤ tau) (ht : 0 < t) (hG : ‖g‖ ≤ G) :
    ⟪g, x⟫ + tau * linfC g ≤ (G + 2 * tau / t) * ‖projectToL1BallC (x - t • g) tau - x‖ := by
  obtain ⟨z, hz, ez⟩ := exists_vertexC g htau
  have h1 := (project_nearestC htau (x - t • g)).inner_le (convex_l1C tau) hz
  have hp := (project_nearestC htau (x - t • g)).1
  set p := projectToL1BallC (x - t • g) tau with hpd
  have hpl : l1C p ≤ tau := hp
  have e1 : x - t • g - p = -(t • g) - (p - x) := by abel
  rw [e1, inner_sub_left, inner_neg_left, real_inner_smul_left] at h1
  have h2 : ⟪p - x, z - p⟫ ≤ ‖p - x‖ * (2 * tau) := by
    have c1 := real_inner_le_norm (p - x) (z - p)
    have c2 : ‖z - p‖ ≤ 2 * tau := by
      have := norm_sub_le z p
      have := norm_le_l1C z
      have := norm_le_l1C p
      linarith
    have := mul_le_mul_of_nonneg_left c2 (norm_nonneg (p - x))
    linarith
  have h3 : ⟪g, x - p⟫ ≤ G * ‖p - x‖ := by
    have := real_inner_le_norm g (x - p)
    rw [norm_sub_rev x p] at this
    exact this.trans (mul_le_mul_of_nonneg_right hG (norm_nonneg _))
  have h4 : t * ⟪g, p - z⟫ ≤ ‖p - x‖ * (2 * tau) := by
    have : ⟪g, p - z⟫ = -⟪g, z - p⟫ := by rw [← inner_neg_right, neg_sub]
    rw [this]; linarith
  have h5 : ⟪g, p - z⟫ ≤ ‖p - x‖ * (2 * tau) / t := by rw [le_div_iff₀ ht]; linarith
  have e2 : ⟪g, x⟫ + tau * linfC g = ⟪g, x - p⟫ + ⟪g, p - z⟫ := by
    rw [inner_sub_right, inner_sub_right, ez]; ring
  rw [e2]
  calc ⟪g, x - p⟫ + ⟪g, p - z⟫ ≤ G * ‖p - x‖ + ‖p - x‖ * (2 * tau) / t := add_le_add h3 h5
    _ = (G + 2 * tau / t) * ‖p - x‖ := by ring

theorem move_geC (x g : CVec n) {tau t T G ε : ℝ} (htau : 0 ≤ tau) (hx : l1C x ≤ tau) (hT : 0 < T) (hTt : T ≤ t) (hG0 : 0 < G) (hG : ‖g‖ ≤ G)
    (hε : 0 < ε) (hgap : ε ≤ ⟪g, x⟫ + tau * linfC g) : ε / (G + 2 * tau / T) ≤ ‖projectToL1BallC (x - t • g) tau - x‖ := by
  have ht := hT.trans_le hTt
  have h1 := hgap.trans (gap_le_moveC x g htau hx ht hG)
  have h2 : 2 * tau / t ≤ 2 * tau / T := div_le_div_of_nonneg_left (by positivity) hT hTt
  rw [div_le_iff₀ (by positivity)]
  have h3 := mul_le_mul_of_nonneg_right (show G + 2 * tau / t ≤ G + 2 * tau / T by linarith) (norm_nonneg (projectToL1BallC (x - t • g) tau - x))
  linarith

theorem curvy_lowC (A : CVec n → CVec m) (b : CVec m) (x g : CVec n) (alpha0 fMax tau gamma : ℝ) (calls : ℕ) (htau : 0 ≤ tau) (hx : l1C x ≤ tau)
    {ε G a : ℝ} (hε : 0 < ε) (hG0 : 0 < G) (hG : ‖g‖ ≤ G) (ha : 0 < a) (haa : a ≤ alpha0) (hgap : ε ≤ ⟪g, x⟫ + tau * linfC g) (s : CurvyStateC m n)
    (h : Reach curvyCondC (curvyNextC A b x (alpha0 • g) fMax tau gamma) (curvyInitC A b x (alpha0 • g) fMax tau gamma calls) s) :
    lowT ε G tau a s.nIters ≤ s.alpha * s.scale * alpha0 ∧ s.nSafe ≤ s.nIters ∧ s.nIters ≤ 10 ∧ s.alpha = (1 / 2) ^ s.nIters ∧
      s.dNew = projectToL1BallC (x - (s.alpha * s.scale * alpha0) • g) tau - x := by
  have hg : 0 < ‖g‖ := by
    rw [norm_pos_iff]
    rintro rfl
    have : linfC (0 : CVec n) = 0 := by simp [linfC]
    rw [this, inner_zero_left] at hgap
    linarith
  have hn : (0 : ℝ) < n := by
    rcases Nat.eq_zero_or_pos n with h0 | h0
    · subst h0; rw [Subsingleton.elim g 0, norm_zero] at hg; exact absurd hg (lt_irrefl _)
    · exact_mod_cast h0
  have ha0 := ha.trans_le haa
  refine h.inv (fun s => lowT ε G tau a s.nIters ≤ s.alpha * s.scale * alpha0 ∧ s.nSafe ≤ s.nIters ∧ s.nIters ≤ 10 ∧ s.alpha = (1 / 2) ^ s.nIters ∧
      s.dNew = projectToL1BallC (x - (s.alpha * s.scale * alpha0) • g) tau - x) ?_ fun s hs hc => ?_
  · refine ⟨?_, le_rfl, Nat.zero_le _, by simp [curvyInitC, curvyCandidateC], ?_⟩
    · show a ≤ 1 * 1 * alpha0
      linarith
    · show projectToL1BallC (x - ((1 : ℝ) * 1) • (alpha0 • g)) tau - x = projectToL1BallC (x - ((1 : ℝ) * 1 * alpha0) • g) tau - x
      rw [smul_smul]
  · obtain ⟨h1, h2, h3, h4, h5⟩ := hs
    have hTp := lowT_pos (ε := ε) (G := G) (tau := tau) (a := a) hε hG0 htau ha s.nIters
    have hit : s.nIters < 10 := hc.1
    refine ⟨?_, ?_, hit, ?_, ?_⟩
    · show min (lowT ε G tau a s.nIters / 2) _ ≤ (s.alpha / 2) * (if _ then _ else s.scale) * alpha0
      split
      · refine (min_le_right _ _).trans ?_
        have hd := move_geC x g htau hx hTp h1 hG0 hG hε hgap
        rw [← h5] at hd
        have e : ‖s.dNew‖ / Real.sqrt n / (‖alpha0 • g‖ / Real.sqrt n) / 2 ^ s.nSafe = ‖s.dNew‖ / (alpha0 * ‖g‖) * (1 / 2) ^ s.nSafe := by
          rw [norm_smul, Real.norm_eq_abs, abs_of_pos ha0, one_div, inv_pow]
          have := Real.sqrt_pos.2 hn
          field_simp
        rw [e, h4]
        have e2 : (1 / 2 : ℝ) ^ s.nIters / 2 * (‖s.dNew‖ / (alpha0 * ‖g‖) * (1 / 2) ^ s.nSafe) * alpha0
            = (1 / 2) ^ (s.nIters + 1 + s.nSafe) * ‖s.dNew‖ / ‖g‖ := by
          rw [pow_add, pow_succ]
          field_simp
        rw [e2]
        have h6 : (1 / 2 : ℝ) ^ 20 ≤ (1 / 2) ^ (s.nIters + 1 + s.nSafe) :=
          pow_le_pow_of_le_one (by norm_num) (by norm_num) (by omega)
        have h7 : 0 ≤ ε / (G + 2 * tau / lowT ε G tau a s.nIters) := by positivity
        calc (1 / 2 : ℝ) ^ 20 * (ε / (G + 2 * tau / lowT ε G tau a s.nIters)) / G
            ≤ (1 / 2) ^ (s.nIters + 1 + s.nSafe) * ‖s.dNew‖ / G := by
              apply div_le_div_of_nonneg_right _ hG0.le
              exact mul_le_mul h6 hd h7 (by positivity)
          _ ≤ (1 / 2) ^ (s.nIters + 1 + s.nSafe) * ‖s.dNew‖ / ‖g‖ := div_le_div_of_nonneg_left (by positivity) hg hG
      · refine (min_le_left _ _).trans ?_
        have : s.alpha / 2 * s.scale * alpha0 = s.alpha * s.scale * alpha0 / 2 := by ring
        rw [this]; linarith
    · show (if _ then s.nSafe + 1 else s.nSafe) ≤ s.nIters + 1
      split
      · exact Nat.succ_le_succ h2
      · exact h2.trans (Nat.le_succ _)
    · show s.alpha / 2 = (1 / 2) ^ (s.nIters + 1)
      rw [h4, pow_succ]; ring
    · have e : (curvyNextC A b x (alpha0 • g) fMax tau gamma s).dNew = projectToL1BallC (x - ((curvyNextC A b x (alpha0 • g) fMax tau gamma s).alpha *
        (curvyNextC A b x (alpha0 • g) fMax tau gamma s).scale) • (alpha0 • g)) tau - x := rfl
      rw [e, smul_smul]

theorem grad_boundC (A : CVec n →ₗ[ℂ] CVec m) (At : CVec m →ₗ[ℂ] CVec n) (b : CVec m) (tau : ℝ) :
    ∃ G : ℝ, 0 < G ∧ ∀ x : CVec n, l1C x ≤ tau → ‖At (A x - b)‖ ≤ G := by
  let B : CVec n →L[ℂ] CVec n := LinearMap.toContinuousLinearMap (At ∘ₗ A)
  refine ⟨‖B‖ * |tau| + ‖At b‖ + 1, by positivity, fun x hx => ?_⟩
  have h1 : At (A x - b) = B x - At b := by rw [map_sub]; rfl
  have h2 := B.le_opNorm x
  have h3 : ‖x‖ ≤ |tau| := ((norm_le_l1C x).trans hx).trans (le_abs_self _)
  rw [h1]
  have h4 := norm_sub_le (B x) (At b)
  have h5 := mul_le_mul_of_nonneg_left h3 (norm_nonneg B)
  linarith

theorem obj_changeC (A : CVec n →ₗ[ℂ] CVec m) (At : CVec m →ₗ[ℂ] CVec n) (hadj : IsAdjC A At) (b : CVec m) (x y : CVec n) :
    ‖b - A y‖ ^ 2 / 2 - ‖b - A x‖ ^ 2 / 2 = ⟪At (A x - b), y - x⟫ + ‖A (y - x)‖ ^ 2 / 2 := by
  have e : b - A y = (b - A x) - A (y - x) := by rw [map_sub]; abel
  have e2 : ⟪At (A x - b), y - x⟫ = -⟪b - A x, A (y - x)⟫ := by
    rw [real_inner_comm, ← hadj.inner, real_inner_comm, ← inner_neg_left, neg_sub]
  rw [e, norm_sub_sq_real, e2]
  ring

section run
variable (A : CVec n →ₗ[ℂ] CVec m) (At : CVec m →ₗ[ℂ] CVec n) (b : CVec m) (tau : ℝ) (x0 : CVec n) (o : Spgl1Opts)

/-- The states of the loop body applied again and again (not stopping). -/
def lassoIterC (k : ℕ) : LassoStateC m n := (lassoBodyC A At b tau o)^[k] (lassoInitC A At b tau x0 o)

theorem lassoIter_succC (k : ℕ) : lassoIterC A At b tau x0 o (k + 1) = lassoBodyC A At b tau o (lassoIterC A At b tau x0 o k) := by
  unfold lassoIterC
  rw [Function.iterate_succ_apply']

theorem lassoIter_iterationsC (k : ℕ) : (lassoIterC A At b tau x0 o k).iterations = k + 1 := by
  induction k with
  | zero => rfl
  | succ k ih =>
    rw [lassoIter_succC]
    show (lassoIterC A At b tau x0 o k).iterations + 1 = _
    rw [ih]

/-- The tests of the loop other than the iteration limit. -/
def GoingC (s : LassoStateC m n) : Prop := s.rGap > o.optTol ∧ s.rNorm ≥ o.optTol * ‖b‖

theorem lassoIter_reachC (k : ℕ) (h : ∀ j, j < k → GoingC b o (lassoIterC A At b tau x0 o j)) (M : ℕ) (hM : k < M) :
    LassoReachC A At b tau x0 { o with maxIters := M } (lassoIterC A At b tau x0 o k) := by
  refine reach_of_iterate (f := lassoBodyC A At b tau { o with maxIters := M }) fun j hj => ⟨?_, h j hj⟩
  have := lassoIter_iterationsC A At b tau x0 o j
  show (lassoIterC A At b tau x0 o j).iterations < M
  omega

/-- A run that goes on for ever has infinitely many line searches that use up their ten rounds. -/
theorem forever_failsC (hadj : IsAdjC A At) (htau : 0 ≤ tau) (hm : 0 < o.memory) (hg : 0 < o.gamma) (ha : 0 < o.alphaMin) (hab : o.alphaMin ≤ o.alphaMax)
    (ht : 0 < o.optTol) (hgo : ∀ k, GoingC b o (lassoIterC A At b tau x0 o k)) (K : ℕ) :
    ∃ k, K ≤ k ∧ (lassoIterC A At b tau x0 o k).nLsIters + 10 ≤ (lassoIterC A At b tau x0 o (k + 1)).nLsIters := by
  by_contra hcon
  push Not at hcon
  obtain ⟨S, hS⟩ : ∃ S : ℕ → LassoStateC m n, ∀ k, S k = lassoIterC A At b tau x0 o k := ⟨_, fun _ => rfl⟩
  have hSs : ∀ k, S (k + 1) = lassoBodyC A At b tau o (S k) := fun k => by rw [hS, hS, lassoIter_succC]
  have hgoS : ∀ k, GoingC b o (S k) := fun k => by rw [hS]; exact hgo k
  have hconS : ∀ k, K ≤ k → (S (k + 1)).nLsIters < (S k).nLsIters + 10 := fun k hk => by rw [hS, hS]; exact hcon k hk
  have hreach : ∀ k, LassoReachC A At b tau x0 { o with maxIters := k + 1 } (S k) := fun k => by
    rw [hS]; exact lassoIter_reachC A At b tau x0 o k (fun j _ => hgo j) (k + 1) (Nat.lt_succ_self _)
  have hinv : ∀ k, LassoInvC A At b tau { o with maxIters := k + 1 } (S k) := fun k => lasso_invC A At b tau htau x0 { o with maxIters := k + 1 } hm (S k) (hreach k)
  have hal : ∀ k, o.alphaMin ≤ (S k).alphaNext := fun k => (alpha_rangeC A At b tau x0 { o with maxIters := k + 1 } hab (S k) (hreach k)).1
  obtain ⟨G, hG0, hG⟩ := grad_boundC A At b tau
  have hgrad : ∀ k, (S k).g = At (A (S k).x - b) := fun k => by rw [(hinv k).grad, (hinv k).res, ← map_neg, neg_sub]
  have hgn : ∀ k, ‖(S k).g‖ ≤ G := fun k => by rw [hgrad]; exact hG _ (hinv k).feas
  obtain ⟨ε, hεd⟩ : ∃ ε, ε = min (o.optTol / 2) (o.optTol ^ 2 / (8 * (tau * G + 1))) := ⟨_, rfl⟩
  have hε : 0 < ε := by rw [hεd]; exact lt_min (by positivity) (by positivity)
  have hgap : ∀ k, ε ≤ ⟪(S k).g, (S k).x⟫ + tau * linfC (S k).g := by
    intro k
    have h1 := (hgoS k).1
    rw [(hinv k).gap, relGapC, gap_vdotC hadj b (S k).r (S k).x (S k).g (hinv k).res (hinv k).grad] at h1
    rw [hεd]
    exact real_gapC (S k).g (S k).x htau (hinv k).feas hG0 (hgn k) ht h1
  obtain ⟨F, hF⟩ : ∃ F : ℕ → ℝ, ∀ k, F k = ‖b - A (S k).x‖ ^ 2 / 2 := ⟨_, fun _ => rfl⟩
  obtain ⟨d, hd⟩ : ∃ d : ℕ → ℝ, ∀ k, d k = ‖(S (k + 1)).x - (S k).x‖ := ⟨_, fun _ => rfl⟩
  have hFo : ∀ k, F k = objValC (S k).r := fun k => by rw [hF, objValC_eq, (hinv k).res]
  have hpast : ∀ k, (S k).fPast = (List.range o.memory).map fun i => F (k - i) := by
    intro k
    induction k with
    | zero =>
      have e : (S 0).fPast = List.replicate o.memory (objValC (S 0).r) := by rw [hS]; rfl
      rw [e, ← hFo]
      simp
    | succ k ih =>
      obtain ⟨hi, _⟩ := curvy_specC A b (S k).x (S k).g (S k).alphaNext (listMax (S k).fPast) tau o.gamma (S k).timesCalls htau (hinv k).feas
      have e : (S (k + 1)).fPast = cbufPushLeft (S k).fPast (F (k + 1)) := by
        rw [hFo (k + 1), hSs]
        show cbufPushLeft (S k).fPast _ = cbufPushLeft (S k).fPast (objValC (curvyLineSearchC A b (S k).x (S k).g (S k).alphaNext (listMax (S k).fPast) tau o.gamma (S k).timesCalls).rNew)
        rw [← hi.val]
      rw [e, ih, push_range]
  let a : CVec n →L[ℂ] CVec m := LinearMap.toContinuousLinearMap A
  have hT : Tendsto d atTop (𝓝 0) := by
    refine nonmono_tendsto F d (fun k => listMax (S k).fPast) o.gamma (G + ‖a‖ ^ 2) 0 o.memory K hg (fun k => by rw [hd]; exact norm_nonneg _)
      (fun k => by rw [hF]; positivity) (fun k hk => ?_) (fun k hk => ?_) (fun k hk => ?_) fun k => ?_
    · have := (c141_lasso_decrease A At b tau htau x0 { o with maxIters := k + 1 } hm hg.le (S k) (hreach k) (by
        have := hconS k hk
        rw [hSs] at this
        exact this)).2
      show listMax (S (k + 1)).fPast ≤ _
      rw [hSs]
      exact this
    · obtain ⟨hi, hacc⟩ := curvy_specC A b (S k).x (S k).g (S k).alphaNext (listMax (S k).fPast) tau o.gamma (S k).timesCalls htau (hinv k).feas
      have hc := hconS k hk
      have e1 : (S (k + 1)).x = (curvyLineSearchC A b (S k).x (S k).g (S k).alphaNext (listMax (S k).fPast) tau o.gamma (S k).timesCalls).xNew := by rw [hSs]; rfl
      have e2 : F (k + 1) = (curvyLineSearchC A b (S k).x (S k).g (S k).alphaNext (listMax (S k).fPast) tau o.gamma (S k).timesCalls).fVal := by
        rw [hi.val, hFo, hSs]; rfl
      have e3 : (S (k + 1)).nLsIters = (S k).nLsIters + (curvyLineSearchC A b (S k).x (S k).g (S k).alphaNext (listMax (S k).fPast) tau o.gamma (S k).timesCalls).nIters := by
        rw [hSs]; rfl
      rw [e3] at hc
      rcases hacc with h1 | h1 | h1
      · rw [hi.lim, ← e2] at h1
        have h2 := hi.gtd_le
        rw [hi.dir, ← e1, ← hd] at h2
        have := mul_le_mul_of_nonneg_left h2 hg.le
        show F (k + 1) ≤ listMax (S k).fPast - o.gamma * d k ^ 2
        nlinarith
      · have h0 : d k = 0 := by rw [hd, e1, h1, sub_self, norm_zero]
        have h2 : F (k + 1) = F k := by rw [hF, hF, e1, h1]
        show F (k + 1) ≤ listMax (S k).fPast - o.gamma * d k ^ 2
        rw [h0, h2, hFo]
        have := le_listMax (List.mem_of_mem_head? (by rw [(hinv k).past]; rfl) : objValC (S k).r ∈ (S k).fPast)
        linarith
      · omega
    · have hne : (S k).fPast ≠ [] := by
        intro h0
        have := (hinv k).len
        rw [h0] at this
        simp at this
        omega
      have h1 : listMax (S k).fPast ∈ (List.range o.memory).map fun i => F (k - i) := hpast k ▸ listMax_mem hne
      obtain ⟨j, hj, e⟩ := List.mem_map.1 h1
      exact ⟨j, (List.mem_range.1 hj).le, e.symm⟩
    · rw [hF, hF, obj_changeC A At hadj, ← hgrad, hd]
      have h1 := abs_real_inner_le_norm (S k).g ((S (k + 1)).x - (S k).x)
      have h2 := mul_le_mul_of_nonneg_right (hgn k) (norm_nonneg ((S (k + 1)).x - (S k).x))
      have h3 : ‖A ((S (k + 1)).x - (S k).x)‖ ^ 2 ≤ ‖a‖ ^ 2 * ‖(S (k + 1)).x - (S k).x‖ ^ 2 := by
        rw [← mul_pow]
        exact pow_le_pow_left₀ (norm_nonneg _) (a.le_opNorm _) 2
      have h4 : 0 ≤ ‖A ((S (k + 1)).x - (S k).x)‖ ^ 2 := by positivity
      have h5 : 0 ≤ ‖a‖ ^ 2 * ‖(S (k + 1)).x - (S k).x‖ := by positivity
      have h6 : 0 ≤ G * ‖(S (k + 1)).x - (S k).x‖ ^ 2 := by positivity
      rw [abs_le] at h1 ⊢
      constructor <;> nlinarith [h1.1, h1.2]
  have hlow : ∀ k, ε / (G + 2 * tau / lowT ε G tau o.alphaMin 10) ≤ d k := by
    intro k
    obtain ⟨h1, _, h3, _, h5⟩ := curvy_lowC A b (S k).x (S k).g (S k).alphaNext (listMax (S k).fPast) tau o.gamma (S k).timesCalls htau (hinv k).feas hε hG0 (hgn k)
      ha (hal k) (hgap k) _ (curvy_outC A b (S k).x (S k).g (listMax (S k).fPast) tau o.gamma (S k).timesCalls (S k).alphaNext).1
    obtain ⟨hi, _⟩ := curvy_specC A b (S k).x (S k).g (S k).alphaNext (listMax (S k).fPast) tau o.gamma (S k).timesCalls htau (hinv k).feas
    have h6 := lowT_anti hε hG0 htau ha h3
    have h7 := move_geC (S k).x (S k).g htau (hinv k).feas (lowT_pos hε hG0 htau ha 10) (h6.trans h1) hG0 (hgn k) hε (hgap k)
    rw [← h5, hi.dir] at h7
    rw [hd, hSs]
    exact h7
  have hpos : 0 < ε / (G + 2 * tau / lowT ε G tau o.alphaMin 10) := by
    have := lowT_pos (tau := tau) hε hG0 htau ha 10
    positivity
  have := ge_of_tendsto hT (Eventually.of_forall hlow)
  linarith

end run

/-- The result is within `opt_tol · max(1, f)` of the optimum, or its relative residual is below `opt_tol`. -/
def LassoSolvedC (A : CVec n →ₗ[ℂ] CVec m) (b : CVec m) (tau optTol : ℝ) (x : CVec n) : Prop :=
  (∀ y : CVec n, ∑ i, ‖y i‖ ≤ tau → ‖b - A x‖ ^ 2 / 2 ≤ ‖b - A y‖ ^ 2 / 2 + optTol * max 1 (‖b - A x‖ ^ 2 / 2)) ∨ ‖b - A x‖ < optTol * ‖b‖

/-- **C164** for every problem, start and options with positive `opt_tol`, `gamma` and `alpha_min`: with a large enough iteration limit `solve_lasso_from` returns a point of the
l1 ball that meets its tolerance, unless its line search uses up its ten rounds again and again (more than any given number of iterations after the start). -/
theorem c164_lasso_terminates (A : CVec n →ₗ[ℂ] CVec m) (At : CVec m →ₗ[ℂ] CVec n) (hadj : IsAdjC A At) (b : CVec m) (tau : ℝ) (htau : 0 ≤ tau) (x0 : CVec n)
    (o : Spgl1Opts) (hm : 0 < o.memory) (hg : 0 < o.gamma) (ha : 0 < o.alphaMin) (hab : o.alphaMin ≤ o.alphaMax) (ht : 0 < o.optTol) :
    (∃ N, ∀ M, N ≤ M → ∃ s, LassoSolveFromC A At b tau x0 { o with maxIters := M } s ∧ s.iterations ≤ N ∧ ∑ i, ‖s.x i‖ ≤ tau ∧ LassoSolvedC A b tau o.optTol s.x) ∨
    ∀ K, ∃ M s, LassoReachC A At b tau x0 { o with maxIters := M } s ∧ K ≤ s.iterations ∧ s.nLsIters + 10 ≤ (lassoBodyC A At b tau o s).nLsIters := by
  classical
  by_cases hstop : ∃ k, ¬ GoingC b o (lassoIterC A At b tau x0 o k)
  · left
    obtain ⟨k, hk, hmin⟩ : ∃ k, ¬ GoingC b o (lassoIterC A At b tau x0 o k) ∧ ∀ j, j < k → GoingC b o (lassoIterC A At b tau x0 o j) :=
      ⟨Nat.find hstop, Nat.find_spec hstop, fun j hj => not_not.1 (Nat.find_min hstop hj)⟩
    refine ⟨k + 2, fun M hM => ⟨lassoIterC A At b tau x0 o k, ⟨?_, fun hc => hk hc.2⟩, by rw [lassoIter_iterationsC]; omega, ?_, ?_⟩⟩
    · exact lassoIter_reachC A At b tau x0 o k hmin M (by omega)
    · exact (lasso_invC A At b tau htau x0 { o with maxIters := M } hm _ (lassoIter_reachC A At b tau x0 o k hmin M (by omega))).feas
    · have hr := lassoIter_reachC A At b tau x0 o k hmin M (by omega)
      rcases (c141_lasso_stop A At hadj b tau htau x0 { o with maxIters := M } hm).2 _ ⟨hr, fun hc => hk hc.2⟩ with h | h | h
      · exact Or.inl h
      · exact Or.inr h
      · rw [lassoIter_iterationsC] at h
        have : M ≤ k + 1 := h
        omega
  · right
    push Not at hstop
    intro K
    obtain ⟨k, hk, h⟩ := forever_failsC A At b tau x0 o hadj htau hm hg ha hab ht hstop K
    refine ⟨k + 1, lassoIterC A At b tau x0 o k, lassoIter_reachC A At b tau x0 o k (fun j _ => hstop j) _ (Nat.lt_succ_self _), ?_, ?_⟩
    · rw [lassoIter_iterationsC]; omega
    · rw [← lassoIter_succC]; exact h

/-- The line search succeeds before its limit when the largest step is small compared with the curvature. -/
theorem curvy_succeedsC (A : CVec n →ₗ[ℂ] CVec m) (At : CVec m →ₗ[ℂ] CVec n) (hadj : IsAdjC A At) (b : CVec m) (x : CVec n) (alpha0 fMax tau gamma L : ℝ) (calls : ℕ)
    (htau : 0 ≤ tau) (hx : l1C x ≤ tau) (hg : 0 ≤ gamma) (ha0 : 0 < alpha0) (hL : ∀ v, ‖A v‖ ^ 2 ≤ L * ‖v‖ ^ 2) (hL0 : 0 ≤ L) (hf : ‖b - A x‖ ^ 2 / 2 ≤ fMax)
    (hsm : alpha0 * (gamma + L / 2) < 512) :
    (curvyLineSearchC A b x (At (A x - b)) alpha0 fMax tau gamma calls).nIters < 10 := by
  by_contra hcon
  -- the state with nine rounds done was not accepted
  have hinv : ∀ s, Reach curvyCondC (curvyNextC A b x (alpha0 • At (A x - b)) fMax tau gamma) (curvyInitC A b x (alpha0 • At (A x - b)) fMax tau gamma calls) s →
      s.alpha = (1 / 2) ^ s.nIters ∧ s.scale ≤ 1 ∧ s.nIters ≤ 9 := by
    intro s h
    refine h.inv' (fun s => s.alpha = (1 / 2) ^ s.nIters ∧ s.scale ≤ 1 ∧ s.nIters ≤ 9) ⟨by simp [curvyInitC, curvyCandidateC], le_rfl, Nat.zero_le _⟩ fun s hr hs hc => ?_
    obtain ⟨h1, h2, h3⟩ := hs
    have hi := curvy_invC A b x (alpha0 • At (A x - b)) fMax tau gamma calls htau hx s hr
    have hsp := hi.scale_pos
    have hap := hi.alpha_pos
    obtain ⟨_, hxn, _⟩ := curvy_alphaC A b x (alpha0 • At (A x - b)) fMax tau gamma calls s hr
    obtain ⟨g, hgd⟩ : ∃ g, g = alpha0 • At (A x - b) := ⟨_, rfl⟩
    rw [← hgd] at hi hxn hr
    rw [← hgd]
    have hgtd : s.gtd < 0 := hc.2.1
    have hd0 : 0 < ‖s.dNew‖ := by
      rw [norm_pos_iff]
      intro h0; rw [hi.gtd_eq, h0, inner_zero_right, mul_zero] at hgtd; exact lt_irrefl _ hgtd
    have hle := hi.gtd_le
    have hgeq := hi.gtd_eq
    have hin : -⟪g, s.dNew⟫ ≤ ‖g‖ * ‖s.dNew‖ := by
      have := (abs_le.1 (abs_real_inner_le_norm g s.dNew)).1
      linarith
    have hg0 : 0 < ‖g‖ := by
      rw [norm_pos_iff]
      intro h0; rw [hgeq, h0, inner_zero_left, mul_zero] at hgtd; exact lt_irrefl _ hgtd
    have hdn : ‖s.dNew‖ ≤ s.alpha * s.scale * ‖g‖ := by
      refine move_arith _ _ _ (-⟪g, s.dNew⟫) hd0 (mul_pos hap hsp).le ?_ hin
      have e : s.alpha * s.scale * -⟪g, s.dNew⟫ = -s.alpha * (s.scale * ⟪g, s.dNew⟫) := by ring
      rw [e, ← hgeq]; exact hle
    have hn : (0 : ℝ) < n := by
      rcases Nat.eq_zero_or_pos n with h0 | h0
      · subst h0; rw [Subsingleton.elim g 0, norm_zero] at hg0; exact absurd hg0 (lt_irrefl _)
      · exact_mod_cast h0
    refine ⟨?_, ?_, ?_⟩
    · show s.alpha / 2 = (1 / 2) ^ (s.nIters + 1)
      rw [h1, pow_succ]; ring
    · show (if _ then _ else s.scale) ≤ 1
      split
      · have e : ‖s.dNew‖ / Real.sqrt n / (‖g‖ / Real.sqrt n) = ‖s.dNew‖ / ‖g‖ := by
          have := Real.sqrt_pos.2 hn
          field_simp
        rw [e]
        have ha1 : s.alpha ≤ 1 := by rw [h1]; exact pow_le_one₀ (by norm_num) (by norm_num)
        have h6 : ‖s.dNew‖ / ‖g‖ ≤ 1 := by
          rw [div_le_one hg0]
          have : s.alpha * s.scale ≤ 1 := mul_le_one₀ ha1 hsp.le h2
          nlinarith
        exact (div_le_self (by positivity) (one_le_pow₀ (by norm_num))).trans h6
      · exact h2
    · show s.nIters + 1 ≤ 9
      have hne : s.nIters ≠ 9 := by
        intro h9
        -- the candidate with step at most alpha0 / 512 is accepted
        have hval := hc.2.2
        rw [hi.lim, hi.val, objValC_eq, hi.res, ge_iff_le] at hval
        have hch := obj_changeC A At hadj b x s.xNew
        rw [← hi.dir] at hch
        have hL' := hL s.dNew
        have hgt2 : s.gtd = s.scale * alpha0 * ⟪At (A x - b), s.dNew⟫ := by rw [hgeq, hgd, real_inner_smul_left]; ring
        have ht5 : s.alpha * s.scale * alpha0 ≤ alpha0 / 512 := by
          have h7 : s.alpha = 1 / 512 := by rw [h1, h9]; norm_num
          rw [h7]
          have := mul_le_mul_of_nonneg_right h2 ha0.le
          linarith
        rw [hgt2] at hle hval
        refine accept_arith fMax gamma (s.alpha * s.scale * alpha0) ⟪At (A x - b), s.dNew⟫ L alpha0 (‖b - A x‖ ^ 2 / 2) (‖b - A s.xNew‖ ^ 2 / 2) (‖A s.dNew‖ ^ 2) (‖s.dNew‖ ^ 2) hg hL0
          (by positivity) ht5 (by positivity) ?_ hL' hch hf hsm ?_
        · have e : -s.alpha * (s.scale * alpha0 * ⟪At (A x - b), s.dNew⟫) = -(s.alpha * s.scale * alpha0 * ⟪At (A x - b), s.dNew⟫) := by ring
          rw [← e]; exact hle
        · have e : gamma * s.alpha * (s.scale * alpha0 * ⟪At (A x - b), s.dNew⟫) = gamma * (s.alpha * s.scale * alpha0) * ⟪At (A x - b), s.dNew⟫ := by ring
          rw [← e]; exact hval
      omega
  have := (hinv _ (curvy_outC A b x (At (A x - b)) fMax tau gamma calls alpha0).1).2.2
  omega

/-- **C164** when `alpha_max` is at most about `1024 / L`, `L` a bound on the squared norm of the operator, no line search uses up its rounds: with a large enough iteration
limit `solve_lasso_from` returns a point of the l1 ball that meets its tolerance, for every problem and start. -/
theorem c164_lasso_solves (A : CVec n →ₗ[ℂ] CVec m) (At : CVec m →ₗ[ℂ] CVec n) (hadj : IsAdjC A At) (b : CVec m) (tau : ℝ) (htau : 0 ≤ tau) (x0 : CVec n)
    (o : Spgl1Opts) (hm : 0 < o.memory) (hg : 0 < o.gamma) (ha : 0 < o.alphaMin) (hab : o.alphaMin ≤ o.alphaMax) (ht : 0 < o.optTol)
    (L : ℝ) (hL : ∀ v, ‖A v‖ ^ 2 ≤ L * ‖v‖ ^ 2) (hL0 : 0 ≤ L) (hsm : o.alphaMax * (o.gamma + L / 2) < 512) :
    ∃ N, ∀ M, N ≤ M → ∃ s, LassoSolveFromC A At b tau x0 { o with maxIters := M } s ∧ s.iterations ≤ N ∧ ∑ i, ‖s.x i‖ ≤ tau ∧ LassoSolvedC A b tau o.optTol s.x := by
  refine (c164_lasso_terminates A At hadj b tau htau x0 o hm hg ha hab ht).resolve_right fun hf => ?_
  obtain ⟨M, s, hr, _, hs⟩ := hf 0
  have hi := lasso_invC A At b tau htau x0 { o with maxIters := M } hm s hr
  obtain ⟨a1, a2⟩ := alpha_rangeC A At b tau x0 { o with maxIters := M } hab s hr
  have hgr : s.g = At (A s.x - b) := by rw [hi.grad, hi.res, ← map_neg, neg_sub]
  have h1 : s.alphaNext * (o.gamma + L / 2) < 512 := by
    have : 0 ≤ o.gamma + L / 2 := by positivity
    have := mul_le_mul_of_nonneg_right (show s.alphaNext ≤ o.alphaMax from a2) this
    linarith
  have h2 := curvy_succeedsC A At hadj b s.x s.alphaNext (listMax s.fPast) tau o.gamma L s.timesCalls htau hi.feas hg.le (ha.trans_le a1) hL hL0
    (by rw [← hi.res, ← objValC_eq]; exact le_listMax (List.mem_of_mem_head? (by rw [hi.past]; rfl))) h1
  rw [← hgr] at h2
  have h3 : (lassoBodyC A At b tau o s).nLsIters = s.nLsIters + (curvyLineSearchC A b s.x s.g s.alphaNext (listMax s.fPast) tau o.gamma s.timesCalls).nIters := rfl
  omega


/-- **C164** `solve_bp` of a complex operator: it starts from zero with an l1 budget of at most the l1 norm of every exact solution; its states have the residual of their `x`, and
from the second one on an `x` within the budget; a step raises the budget above the l1 norm of an exact solution by at most `r_gap · max(1, f) / ‖g‖∞`; and a state where the loop
stops before its limits reports a residual norm within its tolerances of zero. -/
theorem c164_solve_bp (A : CVec n →ₗ[ℂ] CVec m) (At : CVec m →ₗ[ℂ] CVec n) (hadj : IsAdjC A At) (b : CVec m) (o : Spgl1Opts) (hm : 0 < o.memory)
    (s : BpStateC m n) (h : BpSolveReachC A At b o s) :
    (0 ≤ s.tau ∧ s.r = b - A s.x ∧ (1 < s.iterations → ∑ i, ‖s.x i‖ ≤ s.tau)) ∧
    (s.iterations = 1 → s.x = 0 ∧ ∀ z, A z = b → s.tau ≤ ∑ i, ‖z i‖) ∧
    (∀ s', bpCondC b 0 o s → bpBodyC A At b 0 o s = some s' → s.tau < s'.tau →
      ∀ z, A z = b → s'.tau ≤ ∑ i, ‖z i‖ + s'.rGap * max 1 (‖s'.r‖ ^ 2 / 2) / linfC s'.g) ∧
    (¬ bpCondC b 0 o s → s.iterations < o.maxIters → s.nTimes + s.nTrans < o.maxMatvec →
      s.rNorm ≤ o.optTol * max 1 s.rNorm ∨ s.rNorm ≤ o.bpTol * ‖b‖ ∨ s.rNorm = 0) := by
  have hc := c141_bp_consistent A At b 0 0 o hm s h
  have hz : ∀ z, A z = b → ‖b - A z‖ ≤ 0 := fun z e => by rw [e, sub_self, norm_zero]
  refine ⟨⟨hc.1, hc.2.2.1, hc.2.1⟩, fun h1 => ?_, fun s' hcd hb hlt z e => (c141_bp_tau_bound A At hadj b 0 o hm z (hz z e)).2 s s' h hcd hb hlt, fun hs hi hv => ?_⟩
  · cases h with
    | init hi => exact ⟨(bp_init_invC hm hi).2.1, fun z e => ((c141_bp_tau_bound A At hadj b 0 o hm z (hz z e)).1 s hi).2⟩
    | @step t _ hr _ hb =>
      have h2 := (bp_body_invC hm (bp_invC hm hr) hb).2.1
      have h3 := (bp_invC hm hr).iters
      omega
  · have h0 : 0 ≤ s.rNorm := by
      cases h with
      | init hi =>
        unfold bpInitC at hi
        simp only [Option.map_eq_some_iff] at hi
        obtain ⟨t, ht, rfl⟩ := hi
        exact norm_nonneg _
      | step _ _ hb =>
        unfold bpBodyC at hb
        simp only [Option.map_eq_some_iff] at hb
        obtain ⟨t, ht, rfl⟩ := hb
        exact norm_nonneg _
    rcases c141_bp_stop A At b 0 0 o s h hs hi hv with h1 | h1 | h1
    · exact Or.inr (Or.inr (le_antisymm h1 h0))
    · rw [sub_zero, abs_of_nonneg h0] at h1; exact Or.inl h1
    · exact Or.inr (Or.inl h1)

/-! ## The hypotheses are met -/

/-- `i x = 3` with the default options except for `alpha_max = 500`: the solver reaches its tolerance. -/
example : ∃ N, ∀ M, N ≤ M → ∃ s, LassoSolveFromC mulI mulNegI (cvec ![3]) 2 0 { spgl1Default with alphaMax := 500, maxIters := M } s ∧
    s.iterations ≤ N ∧ ∑ i, ‖s.x i‖ ≤ 2 ∧ LassoSolvedC mulI (cvec ![3]) 2 1e-4 s.x :=
  c164_lasso_solves mulI mulNegI mulI_adj (cvec ![3]) 2 (by norm_num) 0 { spgl1Default with alphaMax := 500 } (by norm_num [spgl1Default])
    (by norm_num [spgl1Default]) (by norm_num [spgl1Default]) (by norm_num [spgl1Default]) (by norm_num [spgl1Default]) 1
    (fun v => by simp [mulI, norm_smul]) zero_le_one (by norm_num [spgl1Default])

example := c164_lasso_terminates mulI mulNegI mulI_adj (cvec ![3]) 2 (by norm_num) 0 spgl1Default
  (by norm_num [spgl1Default]) (by norm_num [spgl1Default]) (by norm_num [spgl1Default]) (by norm_num [spgl1Default]) (by norm_num [spgl1Default])

/-- The first state of `i x = 1` with `tau = 1/2` is not accepted: an iteration is still to do. -/
theorem mulI_going : lassoCondC (cvec ![1]) spgl1Default (lassoInitC mulI mulNegI (cvec ![1]) (1 / 2) 0 spgl1Default) := by
  have hp : projectToL1BallC (0 : CVec 1) (1 / 2) = 0 := if_neg (by norm_num [l1C])
  have hn : ‖(cvec ![1] : CVec 1)‖ = 1 := by
    rw [EuclideanSpace.norm_eq, show ∑ i, ‖(cvec ![1] : CVec 1) i‖ ^ 2 = 1 ^ 2 by norm_num [cvec]]; exact Real.sqrt_sq (by norm_num)
  have hl : linfC (-mulNegI (cvec ![1])) = 1 := by
    have : -mulNegI (cvec ![1]) = cvec ![Complex.I] := by ext i; fin_cases i; simp [mulNegI, cvec]
    rw [this, linfC, cvec]
    apply le_antisymm
    · exact (pi_norm_le_iff_of_nonneg (by norm_num)).2 fun i => by fin_cases i; norm_num
    · have := norm_le_pi_norm (![Complex.I] : Fin 1 → ℂ) 0
      have e : ‖(![Complex.I] : Fin 1 → ℂ) 0‖ = 1 := by norm_num
      rw [e] at this; exact this
  refine ⟨by norm_num [lassoInitC, spgl1Default], ?_, ?_⟩
  · show relGapC _ _ _ _ _ > _
    simp only [Verif.Sls.counted, hp, map_zero, sub_zero]
    have e : vdotC (cvec ![1] : CVec 1) (cvec ![1] - cvec ![1]) = 0 := by simp [vdotC]
    rw [relGapC, e, hl, objValC_eq, hn]
    norm_num [spgl1Default]
  · show ‖_‖ ≥ _
    simp only [Verif.Sls.counted, hp, map_zero, sub_zero, hn]
    norm_num [spgl1Default]

example := c164_spectral_step mulI mulNegI mulI_adj (cvec ![1]) (1 / 2) (by norm_num) 0 spgl1Default (by norm_num [spgl1Default]) _ .init mulI_going

example := c164_projected_step mulI mulNegI (cvec ![1]) (1 / 2) (by norm_num) 0 spgl1Default (by norm_num [spgl1Default]) _ .init

example := fun s h => c164_stop_gap mulI mulNegI (cvec ![2]) 1 0 spgl1Default s h

/-- `solve_bp` of `i x = 2` has a first state, and `-2i` is an exact solution. -/
example : (∃ s, BpSolveReachC mulI mulNegI (cvec ![2]) spgl1Default s ∧ s.iterations = 1) ∧ mulI (cvec ![-2 * Complex.I]) = cvec ![2] := by
  constructor
  · have hl : linfC (-mulNegI (cvec ![2])) ≠ 0 := by
      unfold linfC
      rw [norm_ne_zero_iff]
      intro h
      have := congrFun h 0
      simp [mulNegI, cvec] at this
    have hp : projectToL1BallC (0 : CVec 1) (l1C (0 : CVec 1)) = 0 := project_selfC 0
    obtain ⟨s, hs⟩ : ∃ s, bpInitC mulI mulNegI (cvec ![2]) 0 0 spgl1Default = some s := by
      unfold bpInitC
      simp only [Verif.Sls.counted, hp, map_zero, sub_zero]
      rw [newtonTau, if_neg hl]
      exact ⟨_, rfl⟩
    exact ⟨s, .init hs, (bp_init_invC (by norm_num [spgl1Default]) hs).2.2.2⟩
  · ext i; fin_cases i
    simp only [mulI, cvec]
    simp
    ring_nf
    simp

example := c164_solve_bp mulI mulNegI mulI_adj (cvec ![2]) spgl1Default (by norm_num [spgl1Default])

end Verif.Cvx
