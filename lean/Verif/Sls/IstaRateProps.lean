import Verif.Sls.IstaResult
import Verif.LoopPrefix

set_option autoImplicit false
/-!
# C153: linear rate, warm starts and support identification of ISTA

`sls/ista.py:40-125`.
-/
noncomputable section
namespace Verif.Sls
open Verif.Loop Verif.Opt Filter Topology
open scoped RealInnerProductSpace

variable {E F G : Type*} [NormedAddCommGroup E] [InnerProductSpace ℝ E] [NormedAddCommGroup F] [InnerProductSpace ℝ F]
  [NormedAddCommGroup G] [InnerProductSpace ℝ G]

section setting
variable {p : IstaArgs E F G} {A : E →ₗ[ℝ] F} {B : E ≃ₗᵢ[ℝ] G} {R : G → ℝ} (hs : IstaSetting p A B R)

include hs in
theorem trans_sub' (y z : F) : p.trans (y - z) = p.trans y - p.trans z := by
  refine ext_inner_left ℝ fun v => ?_
  rw [inner_sub_right, ← hs.adj, ← hs.adj, ← hs.adj, inner_sub_right]

include hs in
theorem trans_smul' (c : ℝ) (y : F) : p.trans (c • y) = c • p.trans y := by
  refine ext_inner_left ℝ fun v => ?_
  rw [inner_smul_right, ← hs.adj, ← hs.adj, inner_smul_right]

include hs in
/-- The gradient map `d - step Aᵀ A d` of a bounded below operator is a contraction. -/
theorem grad_contract {σ : ℝ} (hσ : ∀ d, σ * ‖d‖ ^ 2 ≤ ‖A d‖ ^ 2) (d : E) :
    ‖d - p.step • p.trans (A d)‖ ≤ (1 - p.step * σ) * ‖d‖ := by
  have hp := hs.step_pos
  set S : E → E := fun d => d - p.step • p.trans (A d) with hS
  have hin : ∀ a b, ⟪S a, b⟫ = ⟪a, b⟫ - p.step * ⟪A a, A b⟫ := fun a b => by
    simp only [hS, inner_sub_left, inner_smul_left]
    rw [real_inner_comm, real_inner_comm b (p.trans (A a)), ← hs.adj b, real_inner_comm (A a) (A b)]
    simp [real_inner_comm]
  have hpos : ∀ a, 0 ≤ ⟪S a, a⟫ := fun a => by
    rw [hin, real_inner_self_eq_norm_sq, real_inner_self_eq_norm_sq]
    linarith [hs.step_le a]
  have hle : ∀ a, ⟪S a, a⟫ ≤ (1 - p.step * σ) * ‖a‖ ^ 2 := fun a => by
    rw [hin, real_inner_self_eq_norm_sq, real_inner_self_eq_norm_sq]
    nlinarith [mul_le_mul_of_nonneg_left (hσ a) hp.le]
  have hadd : ∀ a b (t : ℝ), S (a + t • b) = S a + t • S b := fun a b t => by
    simp only [hS, map_add, map_smul]
    rw [show A a + t • A b = A a - (-t) • A b by simp, trans_sub' hs, trans_smul' hs]
    module
  -- Cauchy–Schwarz for the form ⟪S a, b⟫ with b = S a
  have hcs : ‖S d‖ ^ 2 * ‖S d‖ ^ 2 ≤ ⟪S d, d⟫ * ⟪S (S d), S d⟫ := by
    have hq : ∀ t : ℝ, 0 ≤ ⟪S (S d), S d⟫ * (t * t) + (2 * ‖S d‖ ^ 2) * t + ⟪S d, d⟫ := fun t => by
      have := hpos (d + t • S d)
      rw [hadd, inner_add_left, inner_add_right, inner_add_right, inner_smul_left, inner_smul_left, inner_smul_right, inner_smul_right] at this
      have e : ⟪S (S d), d⟫ = ‖S d‖ ^ 2 := by
        rw [← real_inner_self_eq_norm_sq, hin (S d) d, hin d (S d), real_inner_comm, real_inner_comm (A (S d))]
      rw [e, real_inner_self_eq_norm_sq] at this
      simp only [RCLike.conj_to_real] at this
      linarith
    have := discrim_le_zero hq
    unfold discrim at this
    nlinarith
  have h1 := hle d
  have h2 := hle (S d)
  have hc : 0 ≤ ‖S d‖ ^ 2 := by positivity
  rcases eq_or_lt_of_le hc with h0 | h0
  · have : ‖S d‖ = 0 := by nlinarith [norm_nonneg (S d)]
    show ‖S d‖ ≤ _
    rw [this]
    rcases eq_or_lt_of_le (norm_nonneg d) with hd | hd
    · rw [← hd, mul_zero]
    · have := (hpos d).trans h1
      exact mul_nonneg (nonneg_of_mul_nonneg_left this (by positivity)) hd.le
  · have hk : 0 < (1 - p.step * σ) := by
      have := (hpos (S d)).trans h2
      by_contra hneg
      push Not at hneg
      have e0 : ⟪S (S d), S d⟫ ≤ 0 := h2.trans (mul_nonpos_of_nonpos_of_nonneg hneg hc)
      have e1 : ⟪S d, d⟫ * ⟪S (S d), S d⟫ ≤ 0 := mul_nonpos_of_nonneg_of_nonpos (hpos d) e0
      nlinarith
    have h3 : ‖S d‖ ^ 2 * ‖S d‖ ^ 2 ≤ ((1 - p.step * σ) * ‖d‖ ^ 2) * ((1 - p.step * σ) * ‖S d‖ ^ 2) :=
      hcs.trans (mul_le_mul h1 h2 (hpos _) (by positivity))
    have h4 : ‖S d‖ ^ 2 ≤ ((1 - p.step * σ) * ‖d‖) ^ 2 := by
      refine le_of_mul_le_mul_right ?_ h0
      calc _ ≤ _ := h3
        _ = _ := by ring
    exact abs_le_of_sq_le_sq' h4 (by positivity) |>.2

include hs in
/-- One step from two states with right residuals. -/
theorem ista_step_contract {σ : ℝ} (hσ : ∀ d, σ * ‖d‖ ^ 2 ≤ ‖A d‖ ^ 2) (s t : IstaState E F) (hsr : s.r = p.b - p.times s.x)
    (htr : t.r = p.b - p.times t.x) : ‖(istaStep p s).x - (istaStep p t).x‖ ≤ (1 - p.step * σ) * ‖s.x - t.x‖ := by
  have hprox : ∀ (i : ℕ) (z : G), IsProxOn Set.univ R p.step z (p.thresh i z) := fun i z => ⟨trivial, fun w _ hw => hs.prox i z w hw⟩
  have e : ∀ u : IstaState E F, (istaStep p u).x = B.symm (p.thresh u.iters (B (u.x + p.step • p.trans u.r))) := fun u => by
    simp only [istaStep, hs.bTimes, hs.bTrans]
  rw [e s, e t, ← map_sub, LinearIsometryEquiv.norm_map]
  refine ((hprox t.iters _).nonexpansive hs.conv hs.step_pos (hprox s.iters _)).trans ?_
  rw [← map_sub, LinearIsometryEquiv.norm_map]
  refine le_trans (le_of_eq ?_) (grad_contract hs hσ (s.x - t.x))
  congr 1
  rw [hsr, htr, hs.times, map_sub, trans_sub' hs, trans_sub' hs, trans_sub' hs]
  module

theorem iterate_residual (p : IstaArgs E F G) (k : ℕ) :
    ((istaStep p)^[k] (istaInit p)).r = p.b - p.times ((istaStep p)^[k] (istaInit p)).x := by
  cases k with
  | zero => rfl
  | succ k => rw [Function.iterate_succ_apply']; rfl

include hs in
theorem step_factor_nonneg {σ : ℝ} (hσ : ∀ d, σ * ‖d‖ ^ 2 ≤ ‖A d‖ ^ 2) [Nontrivial E] : 0 ≤ 1 - p.step * σ := by
  obtain ⟨d, hd⟩ := exists_ne (0 : E)
  have hd' : 0 < ‖d‖ := norm_pos_iff.2 hd
  have h := grad_contract hs hσ d
  exact nonneg_of_mul_nonneg_left ((norm_nonneg _).trans h) hd'

include hs in
/-- **C153** (warm starts) two runs of `ista` on the same data from two starting points: after every number of iterations their iterates are at most
`(1 - step σ)ᵏ` times as far apart as the starting points, where `σ` is any lower bound of `‖A d‖² / ‖d‖²` (for `σ = 0`: they never move apart). -/
theorem c153_two_starts {σ : ℝ} (hσ : ∀ d, σ * ‖d‖ ^ 2 ≤ ‖A d‖ ^ 2) (y0 : E) (k : ℕ) :
    ‖((istaStep p)^[k] (istaInit p)).x - ((istaStep { p with x0 := y0 })^[k] (istaInit { p with x0 := y0 })).x‖ ≤ (1 - p.step * σ) ^ k * ‖p.x0 - y0‖ := by
  rcases subsingleton_or_nontrivial E with h | h
  · rw [Subsingleton.elim p.x0 y0, Subsingleton.elim ((istaStep p)^[k] (istaInit p)).x ((istaStep { p with x0 := y0 })^[k] (istaInit { p with x0 := y0 })).x]
    simp
  have h0 := step_factor_nonneg hs hσ
  induction k with
  | zero => simp [istaInit]
  | succ k ih =>
    have e : istaStep { p with x0 := y0 } = istaStep p := rfl
    have hr := iterate_residual { p with x0 := y0 } k
    rw [e] at ih hr ⊢
    rw [Function.iterate_succ_apply', Function.iterate_succ_apply']
    refine (ista_step_contract hs hσ _ _ (iterate_residual p k) hr).trans ?_
    rw [pow_succ', mul_assoc]
    exact mul_le_mul_of_nonneg_left ih h0

include hs in
/-- A minimiser of the objective is a fixed point of the iteration. -/
theorem c153_minimizer_fixed (s : IstaState E F) (hr : s.r = p.b - p.times s.x) (hu : ∀ v, obj p R s.x ≤ obj p R v) : (istaStep p s).x = s.x := by
  have h := pg_ineq hs s.iters s.x s.x
  rw [← hr] at h
  have h' : obj p R (istaStep p s).x ≤ obj p R s.x + (‖s.x - s.x‖ ^ 2 - ‖s.x - (istaStep p s).x‖ ^ 2) / (2 * p.step) := h
  rw [sub_self, norm_zero] at h'
  have h1 := hu (istaStep p s).x
  have hp := hs.step_pos
  have h2 : 0 ≤ ((0 : ℝ) ^ 2 - ‖s.x - (istaStep p s).x‖ ^ 2) / (2 * p.step) := by linarith
  have h3 : 0 ≤ (0 : ℝ) ^ 2 - ‖s.x - (istaStep p s).x‖ ^ 2 := by
    by_contra hc
    push Not at hc
    exact absurd h2 (not_le.2 (div_neg_of_neg_of_pos hc (by positivity)))
  have h4 : ‖s.x - (istaStep p s).x‖ = 0 := by nlinarith [norm_nonneg (s.x - (istaStep p s).x)]
  exact (sub_eq_zero.1 (norm_eq_zero.1 h4)).symm

include hs in
/-- **C153** (linear rate) if `σ ‖d‖² ≤ ‖A d‖²` for every `d` with `σ > 0`, the minimiser `u` of the objective is the only one and the distance of the iterates to it falls by the
factor `1 - step σ < 1` in every iteration. -/
theorem c153_linear_rate {σ : ℝ} (hpos : 0 < σ) (hσ : ∀ d, σ * ‖d‖ ^ 2 ≤ ‖A d‖ ^ 2) (u : E) (hu : ∀ v, obj p R u ≤ obj p R v) :
    (∀ k, ‖((istaStep p)^[k] (istaInit p)).x - u‖ ≤ (1 - p.step * σ) ^ k * ‖p.x0 - u‖) ∧ 1 - p.step * σ < 1 ∧
    ∀ w, (∀ v, obj p R w ≤ obj p R v) → w = u := by
  have hlt : 1 - p.step * σ < 1 := by have := mul_pos hs.step_pos hpos; linarith
  have hfix : ∀ (w : E), (∀ v, obj p R w ≤ obj p R v) → ∀ k, ((istaStep { p with x0 := w })^[k] (istaInit { p with x0 := w })).x = w := by
    intro w hw k
    induction k with
    | zero => rfl
    | succ k ih =>
      have hr := iterate_residual { p with x0 := w } k
      rw [Function.iterate_succ_apply']
      have e : istaStep { p with x0 := w } = istaStep p := rfl
      rw [e] at ih hr ⊢
      rw [c153_minimizer_fixed hs _ hr (by rw [ih]; exact hw), ih]
  refine ⟨fun k => ?_, hlt, fun w hw => ?_⟩
  · have := c153_two_starts hs hσ u k
    rwa [hfix u hu k] at this
  · have h := ista_step_contract hs hσ (istaInit { p with x0 := w }) (istaInit { p with x0 := u }) rfl rfl
    rw [c153_minimizer_fixed hs _ rfl hw, c153_minimizer_fixed hs _ rfl hu] at h
    have h' : ‖w - u‖ ≤ (1 - p.step * σ) * ‖w - u‖ := h
    have h4 : ‖w - u‖ = 0 := by
      rcases eq_or_lt_of_le (norm_nonneg (w - u)) with h0 | h0
      · exact h0.symm
      · nlinarith
    exact sub_eq_zero.1 (norm_eq_zero.1 h4)

include hs in
/-- **C153** (what the change tolerance guarantees) when `ista` stops because its last iteration moved `x` by at most `xtol`, the returned `x` is within
`xtol (1 - step σ)/(step σ)` of the minimiser. -/
theorem c153_stop_accuracy [Nontrivial E] {σ : ℝ} (hpos : 0 < σ) (hσ : ∀ d, σ * ‖d‖ ^ 2 ≤ ‖A d‖ ^ 2) (u : E) (hu : ∀ v, obj p R u ≤ obj p R v)
    (s0 : IstaState E F) (h0 : Reach (istaCond p) (istaStep p) (istaInit p) s0) (hx : ‖(istaStep p s0).x - s0.x‖ ≤ p.xtol) :
    ‖(istaStep p s0).x - u‖ ≤ (1 - p.step * σ) / (p.step * σ) * p.xtol := by
  have hf := step_factor_nonneg hs hσ
  have hsp := mul_pos hs.step_pos hpos
  have h1 := ista_step_contract hs hσ s0 (istaInit { p with x0 := u }) (c41_ista_residual p s0 h0).1 rfl
  rw [c153_minimizer_fixed hs (istaInit { p with x0 := u }) rfl hu] at h1
  have h1' : ‖(istaStep p s0).x - u‖ ≤ (1 - p.step * σ) * ‖s0.x - u‖ := h1
  have h2 : ‖s0.x - u‖ ≤ ‖(istaStep p s0).x - s0.x‖ + ‖(istaStep p s0).x - u‖ := by
    rw [norm_sub_rev (istaStep p s0).x s0.x]
    exact norm_sub_le_norm_sub_add_norm_sub _ _ _
  rw [div_mul_eq_mul_div, le_div_iff₀ hsp]
  nlinarith [mul_le_mul_of_nonneg_left (h2.trans (add_le_add_left hx _)) hf]

include hs in
/-- **C153** (number of iterations) the change in iteration `k + 1` is at most `(1 - step σ)ᵏ` times the first change. So `ista` makes at most `k + 1` iterations as soon as
`(1 - step σ)ᵏ` times the first change is at most `xtol`. -/
theorem c153_iterations {σ : ℝ} (hσ : ∀ d, σ * ‖d‖ ^ 2 ≤ ‖A d‖ ^ 2) (k : ℕ)
    (hk : (1 - p.step * σ) ^ k * ‖(istaStep p (istaInit p)).x - p.x0‖ ≤ p.xtol) (s : IstaState E F) (h : Out (istaCond p) (istaStep p) (istaInit p) s) :
    s.iters ≤ k + 1 := by
  have hch : ∀ j, ‖((istaStep p)^[j + 1] (istaInit p)).x - ((istaStep p)^[j] (istaInit p)).x‖ ≤ (1 - p.step * σ) ^ j * ‖(istaStep p (istaInit p)).x - p.x0‖ := by
    intro j
    rcases subsingleton_or_nontrivial E with he | he
    · rw [Subsingleton.elim (istaStep p (istaInit p)).x p.x0, Subsingleton.elim ((istaStep p)^[j + 1] (istaInit p)).x ((istaStep p)^[j] (istaInit p)).x]
      simp
    have hf := step_factor_nonneg hs hσ
    induction j with
    | zero => simp [istaInit]
    | succ j ih =>
      have := ista_step_contract hs hσ _ _ (iterate_residual p (j + 1)) (iterate_residual p j)
      rw [← Function.iterate_succ_apply' (istaStep p), ← Function.iterate_succ_apply' (istaStep p)] at this
      refine this.trans ?_
      rw [pow_succ', mul_assoc]
      exact mul_le_mul_of_nonneg_left ih hf
  by_contra hgt
  push Not at hgt
  obtain ⟨N, hN, hc⟩ := h.1.iterate
  have hit : ∀ j, ((istaStep p)^[j] (istaInit p)).iters = j := fun j => by
    rw [cnt_iterate (fun s : IstaState E F => s.iters) (fun _ => rfl)]; simp [istaInit]
  have hNk : k + 1 < N := by rw [hN, hit] at hgt; exact hgt
  have h1 := (hc (k + 1) hNk).2.1
  have h2 : ((istaStep p)^[k + 1] (istaInit p)).dx = ‖((istaStep p)^[k + 1] (istaInit p)).x - ((istaStep p)^[k] (istaInit p)).x‖ := by
    rw [Function.iterate_succ_apply']; rfl
  rw [h2] at h1
  exact absurd ((hch k).trans hk) (not_le.2 h1)

include hs in
/-- **C153** (restarts) starting `ista` again at the iterate reached after `j` iterations continues the run: its `k`-th iterate is the iterate `j + k` of the uninterrupted run. -/
theorem c153_restart (j k : ℕ) : let y := ((istaStep p)^[j] (istaInit p)).x
    ((istaStep { p with x0 := y })^[k] (istaInit { p with x0 := y })).x = ((istaStep p)^[j + k] (istaInit p)).x := by
  intro y
  induction k with
  | zero => rfl
  | succ k ih =>
    have hr := iterate_residual { p with x0 := y } k
    have e : istaStep { p with x0 := y } = istaStep p := rfl
    rw [e] at ih hr ⊢
    rw [← Nat.add_assoc, Function.iterate_succ_apply', Function.iterate_succ_apply']
    have h := ista_step_contract hs (σ := 0) (fun d => by rw [zero_mul]; positivity) _ _ hr (iterate_residual p (j + k))
    rw [ih, sub_self, norm_zero, mul_zero] at h
    exact sub_eq_zero.1 (norm_le_zero_iff.1 h)

end setting

/-! ## Support identification -/

theorem soft_zero {x t : ℝ} (h : |x| ≤ t) : softThreshold x t = 0 := by
  obtain ⟨h1, h2⟩ := abs_le.1 h
  rw [softThreshold, max_eq_left (by linarith), min_eq_left (by linarith), add_zero]

theorem soft_fixed {u g t : ℝ} (ht : 0 < t) (h : softThreshold (u + g) t = u) : |g| ≤ t ∧ (0 < u → g = t) ∧ (u < 0 → g = -t) := by
  unfold softThreshold at h
  rcases le_total 0 (u + g - t) with h1 | h1 <;> rcases le_total 0 (u + g + t) with h2 | h2
  · rw [max_eq_right h1, min_eq_left h2] at h
    have : g = t := by linarith
    subst this
    exact ⟨(abs_of_pos ht).le, fun _ => rfl, fun hu => by linarith⟩
  · linarith
  · rw [max_eq_left h1, min_eq_left h2] at h
    have : u = 0 := by linarith
    subst this
    exact ⟨abs_le.2 ⟨by linarith, by linarith⟩, fun hu => absurd hu (lt_irrefl _), fun hu => absurd hu (lt_irrefl _)⟩
  · rw [max_eq_left h1, min_eq_right h2] at h
    have : g = -t := by linarith
    subst this
    exact ⟨by rw [abs_neg, abs_of_pos ht], fun hu => by linarith, fun _ => rfl⟩

/-- **C153** (support identification) for the LASSO the iterates of `ista` converge to a minimiser `u` with `|Aᵀ(b - A u)| ≤ lam` in every entry. From some iteration on, every entry `j`
with `|Aᵀ(b - A u)|_j < lam` is exactly zero in the iterate, and every entry with `u_j ≠ 0` has the sign of `u_j`. -/
theorem c153_support {m n : ℕ} (A : Vec n →ₗ[ℝ] Vec m) (At : Vec m → Vec n) (hadj : ∀ x y, ⟪A x, y⟫ = ⟪x, At y⟫) (b : Vec m) (x0 : Vec n)
    (lam step : ℝ) (hl : 0 < lam) (hs : 0 < step) (hstep : ∀ d, step * ‖A d‖ ^ 2 ≤ ‖d‖ ^ 2) (rtol xtol : ℝ) (N : ℕ) :
    let p : IstaArgs (Vec n) (Vec m) (Vec n) := { times := A, trans := At, b := b, x0 := x0, step := step, thresh := (fun _ x => vec fun i => softThreshold (x i) (step * lam)), basisTimes := id, basisTrans := id, rtol := rtol, xtol := xtol, maxIters := N }
    let X : ℕ → Vec n := fun k => ((istaStep p)^[k] (istaInit p)).x
    ∃ u : Vec n, (∀ v, 1 / 2 * ‖b - A u‖ ^ 2 + lam * l1 u ≤ 1 / 2 * ‖b - A v‖ ^ 2 + lam * l1 v) ∧ Tendsto X atTop (𝓝 u) ∧
      (∀ j, |At (b - A u) j| ≤ lam ∧ (u j ≠ 0 → |At (b - A u) j| = lam)) ∧
      ∃ K, ∀ k ≥ K, ∀ j, (|At (b - A u) j| < lam → X k j = 0) ∧ (0 < u j → 0 < X k j) ∧ (u j < 0 → X k j < 0) := by
  intro p X
  obtain ⟨u, hu, hlim⟩ := c41_lasso_converges A At hadj b x0 lam step hl hs hstep rtol xtol N
  have hset : IstaSetting p A (LinearIsometryEquiv.refl ℝ (Vec n)) (fun z => lam * l1 z) :=
    ⟨rfl, hadj, rfl, rfl, hs, hstep, l1_convex lam hl.le, fun _ x => soft_matches lam step hl.le hs x⟩
  have hsl := mul_pos hs hl
  have hfix := c153_minimizer_fixed hset (istaInit { p with x0 := u }) rfl hu
  have hfj : ∀ j, softThreshold (u j + step * At (b - A u) j) (step * lam) = u j := fun j => congrArg (fun v : Vec n => v j) hfix
  have hkkt : ∀ j, |At (b - A u) j| ≤ lam ∧ (u j ≠ 0 → |At (b - A u) j| = lam) := fun j => by
    obtain ⟨h1, h2, h3⟩ := soft_fixed hsl (hfj j)
    rw [abs_mul, abs_of_pos hs] at h1
    refine ⟨le_of_mul_le_mul_left h1 hs, fun hne => ?_⟩
    rcases lt_or_gt_of_ne hne with h | h
    · have e : At (b - A u) j = -lam := by have := h3 h; nlinarith [mul_left_cancel₀ hs.ne' (show step * At (b - A u) j = step * -lam by linarith)]
      rw [e, abs_neg, abs_of_pos hl]
    · have e : At (b - A u) j = lam := mul_left_cancel₀ hs.ne' (h2 h)
      rw [e, abs_of_pos hl]
  refine ⟨u, hu, hlim, hkkt, ?_⟩
  have hco : ∀ j, Continuous fun v : Vec n => v j := fun j => (EuclideanSpace.proj j : Vec n →L[ℝ] ℝ).continuous
  have hA : Continuous A := A.continuous_of_finiteDimensional
  have hAt : ∀ y z, At (y - z) = At y - At z := trans_sub' hset
  have hg : Tendsto (fun k => X k + step • At (b - A (X k))) atTop (𝓝 (u + step • At (b - A u))) := by
    let AtL : Vec m →ₗ[ℝ] Vec n :=
      { toFun := At
        map_add' := fun y z => by
          have h1 := hAt (y + z) z
          rw [add_sub_cancel_right] at h1
          rw [h1, sub_add_cancel]
        map_smul' := fun c y => trans_smul' hset c y }
    have hc : Continuous fun v : Vec n => v + step • AtL (b - A v) :=
      continuous_id.add ((AtL.continuous_of_finiteDimensional.comp (continuous_const.sub hA)).const_smul step)
    exact (hc.tendsto u).comp hlim
  have hstepj : ∀ k j, X (k + 1) j = softThreshold ((X k + step • At (b - A (X k))) j) (step * lam) := fun k j => by
    have hr : ((istaStep p)^[k] (istaInit p)).r = b - A (X k) := iterate_residual p k
    show ((istaStep p)^[k + 1] (istaInit p)).x j = _
    rw [Function.iterate_succ_apply']
    show softThreshold ((((istaStep p)^[k] (istaInit p)).x + step • At ((istaStep p)^[k] (istaInit p)).r) j) (step * lam) = _
    rw [hr]
  have hev : ∀ᶠ k in atTop, ∀ j, (|At (b - A u) j| < lam → X k j = 0) ∧ (0 < u j → 0 < X k j) ∧ (u j < 0 → X k j < 0) := by
    rw [Filter.eventually_all]
    intro j
    have hlj : Tendsto (fun k => X k j) atTop (𝓝 (u j)) := ((hco j).tendsto u).comp hlim
    refine Filter.Eventually.and ?_ (Filter.Eventually.and ?_ ?_)
    · by_cases hlt : |At (b - A u) j| < lam
      · have hgj : Tendsto (fun k => |(X k + step • At (b - A (X k))) j|) atTop (𝓝 |(u + step • At (b - A u)) j|) :=
          (((hco j).abs).tendsto _).comp hg
        have huj : u j = 0 := by by_contra hne; exact absurd ((hkkt j).2 hne) hlt.ne
        have hb : |(u + step • At (b - A u)) j| < step * lam := by
          show |u j + step * At (b - A u) j| < _
          rw [huj, zero_add, abs_mul, abs_of_pos hs]; exact mul_lt_mul_of_pos_left hlt hs
        have := hgj.eventually (gt_mem_nhds hb)
        obtain ⟨K, hK⟩ := Filter.eventually_atTop.1 this
        refine Filter.eventually_atTop.2 ⟨K + 1, fun k hk _ => ?_⟩
        obtain ⟨k, rfl⟩ := Nat.exists_eq_add_of_le' hk
        rw [← Nat.add_assoc, hstepj]
        exact soft_zero (hK (k + K) (by omega)).le
      · exact Filter.Eventually.of_forall fun k h => absurd h hlt
    · by_cases h : 0 < u j
      · exact (hlj.eventually (lt_mem_nhds h)).mono fun k hk _ => hk
      · exact Filter.Eventually.of_forall fun k h' => absurd h' h
    · by_cases h : u j < 0
      · exact (hlj.eventually (gt_mem_nhds h)).mono fun k hk _ => hk
      · exact Filter.Eventually.of_forall fun k h' => absurd h' h
  exact Filter.eventually_atTop.1 hev

/-! Instances: `A = 2 I` on `ℝ³` with step `1/4` (`σ = 4`, factor `0`), step `1/8` (factor `1/2`). -/

theorem exTwo_below (d : Vec 3) : (4 : ℝ) * ‖d‖ ^ 2 ≤ ‖exTwo d‖ ^ 2 := by
  simp only [exTwo, LinearMap.smul_apply, LinearMap.id_apply, norm_smul]
  norm_num; nlinarith

abbrev exIsta8 : IstaArgs (Vec 3) (Vec 3) (Vec 3) :=
  { exIsta with step := 1 / 8, thresh := (fun _ x => vec fun i => softThreshold (x i) (1 / 8 * 1)) }

theorem exIsta8_step (d : Vec 3) : (1 / 8 : ℝ) * ‖exTwo d‖ ^ 2 ≤ ‖d‖ ^ 2 := by
  have := exTwo_step d
  have h2 : 0 ≤ ‖exTwo d‖ ^ 2 := by positivity
  linarith

theorem exIsta8_setting : IstaSetting exIsta8 exTwo (LinearIsometryEquiv.refl ℝ (Vec 3)) (fun z => 1 * l1 z) :=
  ⟨rfl, exTwo_adj, rfl, rfl, by norm_num, exIsta8_step,
    l1_convex 1 (by norm_num), fun _ x => soft_matches 1 (1 / 8) (by norm_num) (by norm_num) x⟩

example (y0 : Vec 3) (k : ℕ) := c153_two_starts exIsta8_setting exTwo_below y0 k
example (u) (hu : ∀ v, obj exIsta8 (fun z => 1 * l1 z) u ≤ obj exIsta8 (fun z => 1 * l1 z) v) := c153_linear_rate exIsta8_setting (by norm_num) exTwo_below u hu
example (u) (hu : ∀ v, obj exIsta8 (fun z => 1 * l1 z) u ≤ obj exIsta8 (fun z => 1 * l1 z) v) (hx) :=
  c153_stop_accuracy exIsta8_setting (by norm_num) exTwo_below u hu _ .init hx
example (j k : ℕ) := c153_restart exIsta8_setting j k
example (k : ℕ) (hk) := c153_iterations exIsta8_setting exTwo_below k hk
example := c153_support exTwo exTwo exTwo_adj (vec ![6, -3, 1]) 0 1 (1 / 4) (by norm_num) (by norm_num) exTwo_step 1e-3 1e-3 50

end Verif.Sls
