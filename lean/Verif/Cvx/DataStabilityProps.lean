import Verif.Cvx.L1AgreeProps
import Verif.Cvx.SpgConvProps

set_option autoImplicit false
/-! # C168: the fit of the l1 solvers depends on the data in a stable way -/
noncomputable section
namespace Verif.Cvx
open Verif.Loop Verif.Opt Filter Topology
open Verif.Sls (IstaArgs IstaState FistaState istaCond istaStep istaInit fistaCond fistaStep fistaInit)
open scoped RealInnerProductSpace

variable {m n : ℕ}

/-- Growth of the penalised objective over a convex set (`c155_growth` is the case of the whole space). -/
theorem growth_on (A : Vec n →ₗ[ℝ] Vec m) (b : Vec m) {lam : ℝ} (hl : 0 ≤ lam) {S : Set (Vec n)} (hS : Convex ℝ S) {u : Vec n} (huS : u ∈ S)
    (hu : ∀ v ∈ S, qpObj A b lam u ≤ qpObj A b lam v) (v : Vec n) (hv : v ∈ S) : qpObj A b lam u + 1 / 2 * ‖A v - A u‖ ^ 2 ≤ qpObj A b lam v := by
  have key : ∀ t : ℝ, 0 < t → t ≤ 1 → qpObj A b lam u + (1 - t) / 2 * ‖A v - A u‖ ^ 2 ≤ qpObj A b lam v := fun t h0 h1 => by
    have h2 := (hu ((1 - t) • u + t • v) (hS huS hv (by linarith) h0.le (by ring))).trans (qp_segment A b hl u v h0.le h1)
    have h3 : t * (qpObj A b lam u + (1 - t) / 2 * ‖A v - A u‖ ^ 2) ≤ t * qpObj A b lam v := by nlinarith
    exact le_of_mul_le_mul_left h3 h0
  have hlim : Tendsto (fun t : ℝ => qpObj A b lam u + (1 - t) / 2 * ‖A v - A u‖ ^ 2) (𝓝[>] 0) (𝓝 (qpObj A b lam u + (1 - 0) / 2 * ‖A v - A u‖ ^ 2)) := by
    refine Tendsto.mono_left ?_ nhdsWithin_le_nhds
    exact Continuous.tendsto (by fun_prop) 0
  have := le_of_tendsto hlim (by
    filter_upwards [Ioc_mem_nhdsGT (zero_lt_one : (0 : ℝ) < 1)] with t ht using key t ht.1 ht.2)
  rwa [sub_zero] at this

/-- The fits of two data vectors over one convex set are no further apart than the data, and so are the residuals. -/
theorem stable_on (A : Vec n →ₗ[ℝ] Vec m) (b b' : Vec m) {lam : ℝ} (hl : 0 ≤ lam) {S : Set (Vec n)} (hS : Convex ℝ S) {u u' : Vec n} (huS : u ∈ S) (huS' : u' ∈ S)
    (hu : ∀ v ∈ S, qpObj A b lam u ≤ qpObj A b lam v) (hu' : ∀ v ∈ S, qpObj A b' lam u' ≤ qpObj A b' lam v) :
    ‖A u - A u'‖ ≤ ‖b - b'‖ ∧ ‖(b - A u) - (b' - A u')‖ ≤ ‖b - b'‖ := by
  have h1 := growth_on A b hl hS huS hu u' huS'
  have h2 := growth_on A b' hl hS huS' hu' u huS
  rw [norm_sub_rev (A u') (A u)] at h1
  simp only [qpObj] at h1 h2
  have key : ‖A u - A u'‖ ^ 2 ≤ ⟪b - b', A u - A u'⟫ := by
    have e : ‖b - A u'‖ ^ 2 - ‖b - A u‖ ^ 2 + ‖b' - A u‖ ^ 2 - ‖b' - A u'‖ ^ 2 = 2 * ⟪b - b', A u - A u'⟫ := by
      rw [norm_sub_sq_real, norm_sub_sq_real, norm_sub_sq_real, norm_sub_sq_real, inner_sub_left, inner_sub_right, inner_sub_right]
      ring
    linarith
  constructor
  · have h3 := key.trans (real_inner_le_norm _ _)
    rcases (norm_nonneg (A u - A u')).eq_or_lt with h | h
    · rw [← h]; exact norm_nonneg _
    · nlinarith
  · have e : (b - A u) - (b' - A u') = (b - b') - (A u - A u') := by abel
    refine abs_le_of_sq_le_sq' ?_ (norm_nonneg _) |>.2
    rw [e, norm_sub_sq_real]
    linarith [sq_nonneg ‖A u - A u'‖]

/-- The same for points that are only nearly optimal. -/
theorem nearly_on (A : Vec n →ₗ[ℝ] Vec m) (b b' : Vec m) {lam : ℝ} (hl : 0 ≤ lam) {S : Set (Vec n)} (hS : Convex ℝ S) {u u' : Vec n} (huS : u ∈ S) (huS' : u' ∈ S)
    (hu : ∀ v ∈ S, qpObj A b lam u ≤ qpObj A b lam v) (hu' : ∀ v ∈ S, qpObj A b' lam u' ≤ qpObj A b' lam v) {x x' : Vec n} (hxS : x ∈ S) (hxS' : x' ∈ S) {q q' : ℝ} (hq : 0 ≤ q) (hq' : 0 ≤ q')
    (hx : qpObj A b lam x ≤ qpObj A b lam u + 1 / 2 * q ^ 2) (hx' : qpObj A b' lam x' ≤ qpObj A b' lam u' + 1 / 2 * q' ^ 2) : ‖A x - A x'‖ ≤ ‖b - b'‖ + q + q' := by
  have h1 := growth_on A b hl hS huS hu x hxS
  have h2 := growth_on A b' hl hS huS' hu' x' hxS'
  have h3 := (stable_on A b b' hl hS huS huS' hu hu').1
  have a1 : ‖A x - A u‖ ≤ q := abs_le_of_sq_le_sq' (by linarith) hq |>.2
  have a2 : ‖A x' - A u'‖ ≤ q' := abs_le_of_sq_le_sq' (by linarith) hq' |>.2
  have e : A x - A x' = (A u - A u') + (A x - A u) - (A x' - A u') := by abel
  calc ‖A x - A x'‖ ≤ ‖A u - A u'‖ + ‖A x - A u‖ + ‖A x' - A u'‖ := by
        rw [e]; exact (norm_sub_le _ _).trans (by linarith [norm_add_le (A u - A u') (A x - A u)])
    _ ≤ _ := by linarith

theorem qp_exists (A : Vec n →ₗ[ℝ] Vec m) (b : Vec m) {lam : ℝ} (hl : 0 < lam) : ∃ u, QpMin A b lam u := by
  have hcont : Continuous (qpObj A b lam) := by
    have h1 := A.continuous_of_finiteDimensional
    have h2 := l1_cont (n := n)
    unfold qpObj
    fun_prop
  have hinf : Tendsto (qpObj A b lam) (cocompact (Vec n)) atTop := by
    refine tendsto_atTop_mono (fun x => ?_) (Tendsto.const_mul_atTop hl (tendsto_norm_cocompact_atTop (E := Vec n)))
    have h1 := mul_le_mul_of_nonneg_left (norm_le_l1 x) hl.le
    have h2 : 0 ≤ 1 / 2 * ‖b - A x‖ ^ 2 := by positivity
    rw [qpObj]; linarith
  exact hcont.exists_forall_le hinf

theorem ball_convex (tau : ℝ) : Convex ℝ {x : Vec n | l1 x ≤ tau} := by
  intro x hx y hy a c ha hc hac
  have h1 := l1_add_le (a • x) (c • y)
  rw [l1_smul, l1_smul, abs_of_nonneg ha, abs_of_nonneg hc] at h1
  have h2 := mul_le_mul_of_nonneg_left (show l1 x ≤ tau from hx) ha
  have h3 := mul_le_mul_of_nonneg_left (show l1 y ≤ tau from hy) hc
  show l1 (a • x + c • y) ≤ tau
  have : a * tau + c * tau = tau := by rw [← add_mul, hac, one_mul]
  linarith

theorem lasso_exists (A : Vec n →ₗ[ℝ] Vec m) (b : Vec m) {tau : ℝ} (ht : 0 ≤ tau) : ∃ u ∈ {x : Vec n | l1 x ≤ tau}, ∀ v ∈ {x : Vec n | l1 x ≤ tau}, qpObj A b 0 u ≤ qpObj A b 0 v := by
  have hcont : Continuous (qpObj A b 0) := by
    have h1 := A.continuous_of_finiteDimensional
    have h2 := l1_cont (n := n)
    unfold qpObj
    fun_prop
  have hcomp : IsCompact {x : Vec n | l1 x ≤ tau} := by
    refine Metric.isCompact_of_isClosed_isBounded (isClosed_le l1_cont continuous_const) ?_
    exact (Metric.isBounded_closedBall (x := (0 : Vec n)) (r := tau)).subset fun x hx => by
      rw [mem_closedBall_zero_iff]; exact (norm_le_l1 x).trans hx
  obtain ⟨u, hu, hm⟩ := hcomp.exists_isMinOn ⟨0, by show l1 (0 : Vec n) ≤ tau; simpa [l1] using ht⟩ hcont.continuousOn
  exact ⟨u, hu, fun v hv => hm hv⟩

/-! ## The problems -/

/-- **C168** (solutions) the fit `A u` and the residual `b - A u` of the penalised problem, and of the problem with a bound on the l1 norm, move by no more than the data. -/
theorem c168_solutions (A : Vec n →ₗ[ℝ] Vec m) (b b' : Vec m) :
    (∀ lam, 0 ≤ lam → ∀ u u', QpMin A b lam u → QpMin A b' lam u' → ‖A u - A u'‖ ≤ ‖b - b'‖ ∧ ‖(b - A u) - (b' - A u')‖ ≤ ‖b - b'‖) ∧
    ∀ tau u u', l1 u ≤ tau → l1 u' ≤ tau → (∀ v, l1 v ≤ tau → ‖b - A u‖ ≤ ‖b - A v‖) → (∀ v, l1 v ≤ tau → ‖b' - A u'‖ ≤ ‖b' - A v‖) →
      ‖A u - A u'‖ ≤ ‖b - b'‖ ∧ ‖(b - A u) - (b' - A u')‖ ≤ ‖b - b'‖ := by
  refine ⟨fun lam hl u u' hu hu' => stable_on A b b' hl convex_univ (Set.mem_univ u) (Set.mem_univ u') (fun v _ => hu v) fun v _ => hu' v, fun tau u u' h h' hu hu' => ?_⟩
  refine stable_on A b b' le_rfl (ball_convex tau) h h' (fun v hv => ?_) fun v hv => ?_
  · have := pow_le_pow_left₀ (norm_nonneg _) (hu v hv) 2
    simp only [qpObj]; linarith
  · have := pow_le_pow_left₀ (norm_nonneg _) (hu' v hv) 2
    simp only [qpObj]; linarith

/-! ## The solvers -/

/-- **C168** (`ista`, `fista` with soft thresholding) run on data `b` and `b'` from the same start: up to an error that vanishes with the number of iterations (like `1/√k` and `1/k`) the fits are no further apart than
the data. -/
theorem c168_ista_fista (A : Vec n →ₗ[ℝ] Vec m) (At : Vec m → Vec n) (hadj : ∀ x y, ⟪A x, y⟫ = ⟪x, At y⟫) (b b' : Vec m) (x0 : Vec n)
    (lam step : ℝ) (hl : 0 < lam) (hs : 0 < step) (hstep : ∀ d, step * ‖A d‖ ^ 2 ≤ ‖d‖ ^ 2) :
    ∃ c, ∀ (rtol xtol : ℝ) (N : ℕ),
      let p : Vec m → IstaArgs (Vec n) (Vec m) (Vec n) := fun b => { times := A, trans := At, b := b, x0 := x0, step := step, thresh := (fun _ x => vec fun i => softThreshold (x i) (step * lam)), basisTimes := id, basisTrans := id, rtol := rtol, xtol := xtol, maxIters := N }
      (∀ s s', Reach (istaCond (p b)) (istaStep (p b)) (istaInit (p b)) s → Reach (istaCond (p b')) (istaStep (p b')) (istaInit (p b')) s' → 1 ≤ s.iters → 1 ≤ s'.iters →
        ‖A s.x - A s'.x‖ ≤ ‖b - b'‖ + c / √s.iters + c / √s'.iters) ∧
      (∀ s s', Reach (fistaCond (p b)) (fistaStep (p b)) (fistaInit (p b)) s → Reach (fistaCond (p b')) (fistaStep (p b')) (fistaInit (p b')) s' → 1 ≤ s.iters → 1 ≤ s'.iters →
        ‖A s.x - A s'.x‖ ≤ ‖b - b'‖ + 2 * c / (s.iters + 1) + 2 * c / (s'.iters + 1)) := by
  obtain ⟨u, hu⟩ := qp_exists A b hl
  obtain ⟨u', hu'⟩ := qp_exists A b' hl
  have hss : 0 < √step := Real.sqrt_pos.2 hs
  refine ⟨max ‖x0 - u‖ ‖x0 - u'‖ / √step, fun rtol xtol N => ?_⟩
  intro p
  set c := max ‖x0 - u‖ ‖x0 - u'‖ / √step with hc
  have hc0 : 0 ≤ c := by positivity
  have hcs : c ^ 2 = max ‖x0 - u‖ ‖x0 - u'‖ ^ 2 / step := by rw [hc, div_pow, Real.sq_sqrt hs.le]
  have hcu : ∀ w, ‖x0 - w‖ ≤ max ‖x0 - u‖ ‖x0 - u'‖ → ‖x0 - w‖ ^ 2 ≤ step * c ^ 2 := fun w hw => by
    rw [hcs, mul_div_cancel₀ _ hs.ne']
    exact pow_le_pow_left₀ (norm_nonneg _) hw 2
  have k1 : ∀ bb w, ‖x0 - w‖ ≤ max ‖x0 - u‖ ‖x0 - u'‖ → ∀ s, Reach (istaCond (p bb)) (istaStep (p bb)) (istaInit (p bb)) s → 1 ≤ s.iters → qpObj A bb lam s.x ≤ qpObj A bb lam w + 1 / 2 * (c / √s.iters) ^ 2 := by
    intro bb w hw s hr hi
    have h := ((Verif.Sls.c41_c42_lasso A At hadj bb x0 lam step hl.le hs hstep rtol xtol N).1 s hr).2 hi w
    have hi' : (0 : ℝ) < s.iters := by exact_mod_cast hi
    have h2 : ‖x0 - w‖ ^ 2 / (2 * step * s.iters) ≤ 1 / 2 * (c / √s.iters) ^ 2 := by
      rw [div_pow, Real.sq_sqrt hi'.le, div_le_iff₀ (by positivity)]
      have : 1 / 2 * (c ^ 2 / s.iters) * (2 * step * s.iters) = step * c ^ 2 := by field_simp
      rw [this]; exact hcu w hw
    rw [qpObj, qpObj]; linarith
  have k2 : ∀ bb w, ‖x0 - w‖ ≤ max ‖x0 - u‖ ‖x0 - u'‖ → ∀ s, Reach (fistaCond (p bb)) (fistaStep (p bb)) (fistaInit (p bb)) s → 1 ≤ s.iters → qpObj A bb lam s.x ≤ qpObj A bb lam w + 1 / 2 * (2 * c / (s.iters + 1)) ^ 2 := by
    intro bb w hw s hr hi
    have h := (Verif.Sls.c41_c42_lasso A At hadj bb x0 lam step hl.le hs hstep rtol xtol N).2 s hr hi w
    have hi' : (0 : ℝ) < s.iters + 1 := by positivity
    have h2 : 2 * ‖x0 - w‖ ^ 2 / (step * (s.iters + 1) ^ 2) ≤ 1 / 2 * (2 * c / (s.iters + 1)) ^ 2 := by
      rw [div_le_iff₀ (by positivity)]
      have : 1 / 2 * (2 * c / ((s.iters : ℝ) + 1)) ^ 2 * (step * (s.iters + 1) ^ 2) = 2 * (step * c ^ 2) := by field_simp
      rw [this]; linarith [hcu w hw]
    rw [qpObj, qpObj]; linarith
  refine ⟨fun s s' hr hr' hi hi' => ?_, fun s s' hr hr' hi hi' => ?_⟩
  · exact nearly_on A b b' hl.le convex_univ (Set.mem_univ u) (Set.mem_univ u') (fun v _ => hu v) (fun v _ => hu' v) (Set.mem_univ _) (Set.mem_univ _) (by positivity) (by positivity)
      (k1 b u (le_max_left _ _) s hr hi) (k1 b' u' (le_max_right _ _) s' hr' hi')
  · exact nearly_on A b b' hl.le convex_univ (Set.mem_univ u) (Set.mem_univ u') (fun v _ => hu v) (fun v _ => hu' v) (Set.mem_univ _) (Set.mem_univ _) (by positivity) (by positivity)
      (k2 b u (le_max_left _ _) s hr hi) (k2 b' u' (le_max_right _ _) s' hr' hi')

/-- **C168** (`l1ls`) results returned before the iteration limit. -/
theorem c168_l1ls (A : Vec n →ₗ[ℝ] Vec m) (At : Vec m →ₗ[ℝ] Vec n) (hadj : IsAdj A At) (b b' : Vec m) (lam : ℝ) (hl : 0 < lam) (tol xi : ℝ) (htol : 0 ≤ tol) (N P : ℕ)
    (s s' : L1lsState m n) (h : L1lsSolve A At b lam tol xi N P s) (h' : L1lsSolve A At b' lam tol xi N P s') (hN : s.iterations < N) (hN' : s'.iterations < N) :
    ‖A s.x - A s'.x‖ ≤ ‖b - b'‖ + √tol * ‖b‖ + √tol * ‖b'‖ := by
  have hl2 : 0 < lam / 2 := by positivity
  obtain ⟨u, hu⟩ := qp_exists A b hl2
  obtain ⟨u', hu'⟩ := qp_exists A b' hl2
  have key : ∀ bb w, QpMin A bb (lam / 2) w → ∀ s, L1lsSolve A At bb lam tol xi N P s → s.iterations < N → qpObj A bb (lam / 2) s.x ≤ qpObj A bb (lam / 2) w + 1 / 2 * (√tol * ‖bb‖) ^ 2 := by
    intro bb w hw s hs hi
    have h1 := (c63_default_start A At hadj bb lam hl tol xi htol N P s hs hi w).1
    change ‖A s.x - bb‖ ^ 2 + lam * l1 s.x ≤ (1 + tol) * (‖A w - bb‖ ^ 2 + lam * l1 w) at h1
    have h2 := hw 0
    have z1 : l1 (0 : Vec n) = 0 := by simp [l1]
    simp only [qpObj] at h2 ⊢
    rw [map_zero, sub_zero, z1] at h2
    rw [mul_pow, Real.sq_sqrt htol, norm_sub_rev bb, norm_sub_rev bb]
    rw [norm_sub_rev bb] at h2
    nlinarith
  exact nearly_on A b b' hl2.le convex_univ (Set.mem_univ u) (Set.mem_univ u') (fun v _ => hu v) (fun v _ => hu' v) (Set.mem_univ _) (Set.mem_univ _) (by positivity) (by positivity)
    (key b u hu s h hN) (key b' u' hu' s' h' hN')

/-- **C168** (SPGL1 `solve_lasso`) results returned before the iteration limit. -/
theorem c168_spgl1 (A : Vec n →ₗ[ℝ] Vec m) (At : Vec m →ₗ[ℝ] Vec n) (hadj : IsAdj A At) (b b' : Vec m) (tau : ℝ) (htau : 0 ≤ tau) (o : Spgl1Opts) (hm : 0 < o.memory) (ho : 0 ≤ o.optTol)
    (s s' : LassoState m n) (h : LassoSolve A At b tau o s) (h' : LassoSolve A At b' tau o s') (hN : s.iterations < o.maxIters) (hN' : s'.iterations < o.maxIters) :
    ‖A s.x - A s'.x‖ ≤ ‖b - b'‖ + (√(o.optTol * max 2 (‖b - A s.x‖ ^ 2)) + o.optTol * ‖b‖) + (√(o.optTol * max 2 (‖b' - A s'.x‖ ^ 2)) + o.optTol * ‖b'‖) := by
  obtain ⟨u, huS, hu⟩ := lasso_exists A b htau
  obtain ⟨u', huS', hu'⟩ := lasso_exists A b' htau
  have key : ∀ bb w, l1 w ≤ tau → ∀ s, LassoSolve A At bb tau o s → s.iterations < o.maxIters → l1 s.x ≤ tau ∧
      qpObj A bb 0 s.x ≤ qpObj A bb 0 w + 1 / 2 * (√(o.optTol * max 2 (‖bb - A s.x‖ ^ 2)) + o.optTol * ‖bb‖) ^ 2 := by
    intro bb w hw s hs hi
    obtain ⟨h1, -, h3⟩ := (c61_solve_lasso A At hadj bb tau htau o hm).2 s hs
    refine ⟨h1, ?_⟩
    have q1 : 0 ≤ o.optTol * max 2 (‖bb - A s.x‖ ^ 2) := by positivity
    have q2 := Real.sq_sqrt q1
    have q3 := Real.sqrt_nonneg (o.optTol * max 2 (‖bb - A s.x‖ ^ 2))
    have q4 : 0 ≤ o.optTol * ‖bb‖ := by positivity
    simp only [qpObj, zero_mul, add_zero]
    rcases h3 with h3 | h3 | h3
    · have h4 := h3 w hw
      have e : max 1 (‖bb - A s.x‖ ^ 2 / 2) = 1 / 2 * max 2 (‖bb - A s.x‖ ^ 2) := by
        rw [mul_max_of_nonneg _ _ (by norm_num)]; congr 1 <;> ring
      rw [e] at h4
      nlinarith [mul_nonneg q3 q4]
    · have h4 := pow_le_pow_left₀ (norm_nonneg _) h3.le 2
      nlinarith [mul_nonneg q3 q4, sq_nonneg ‖bb - A w‖]
    · omega
  obtain ⟨a1, a2⟩ := key b u huS s h hN
  obtain ⟨b1, b2⟩ := key b' u' huS' s' h' hN'
  exact nearly_on A b b' le_rfl (ball_convex tau) huS huS' hu hu' a1 b1 (by positivity) (by positivity) a2 b2

/-- **C168** (YALL1, penalised form) the limits of the iterates on data `b` and `b'`. -/
theorem c168_yall (A : Vec n →ₗ[ℝ] Vec m) (At : Vec m →ₗ[ℝ] Vec n) (hadj : IsAdj A At) (hA : ∀ y, A (At y) = y) (b b' : Vec m) (hb : b ≠ 0) (hb' : b' ≠ 0) (lam : ℝ) (hl : 0 < lam)
    (delta tol : ℝ) (maxIters : ℕ) (x0 z0 x0' z0' : Vec n) :
    ∃ x x', Tendsto (fun k => linf b • ((yallIter A At (yallArgs b none false lam delta 1 tol maxIters))^[k] (yallInit A At (yallArgs b none false lam delta 1 tol maxIters) x0 z0)).x) atTop (𝓝 x) ∧
      Tendsto (fun k => linf b' • ((yallIter A At (yallArgs b' none false lam delta 1 tol maxIters))^[k] (yallInit A At (yallArgs b' none false lam delta 1 tol maxIters) x0' z0')).x) atTop (𝓝 x') ∧
      ‖A x - A x'‖ ≤ ‖b - b'‖ := by
  obtain ⟨x, hx, l⟩ := c155_yall A At hadj hA b hb lam hl delta tol maxIters x0 z0
  obtain ⟨x', hx', l'⟩ := c155_yall A At hadj hA b' hb' lam hl delta tol maxIters x0' z0'
  exact ⟨x, x', l, l', ((c168_solutions A b b').1 lam hl.le x x' hx hx').1⟩

/-- **C168** (`l1rls`) with `alpha = 1`, for any `L0`. -/
theorem c168_l1rls (A : Vec n →ₗ[ℝ] Vec m) (At : Vec m → Vec n) (hadj : ∀ x y, ⟪A x, y⟫ = ⟪x, At y⟫) (b b' : Vec m) (lam : ℝ) (hl : 0 < lam) (x0 : Vec n)
    (o : FomOptions) (ha : o.alpha = 1) (hb0 : 0 < o.beta) (hb : o.beta < 1) (hL : 0 < o.L0) (hx : o.Lexact = none) :
    ∃ c, ∀ (N : ℕ) (tol : ℝ) (s s' : FomState (Vec n) (Vec m)), FomReach (l1rls A At b lam x0 { o with maxIters := N, tol := tol }) s →
      FomReach (l1rls A At b' lam x0 { o with maxIters := N, tol := tol }) s' → ‖A s.x - A s'.x‖ ≤ ‖b - b'‖ + c / (s.iters + 1) + c / (s'.iters + 1) := by
  obtain ⟨c, hc⟩ := c132_l1rls A At hadj b lam hl x0 o ha hb0 hb hL hx
  obtain ⟨c', hc'⟩ := c132_l1rls A At hadj b' lam hl x0 o ha hb0 hb hL hx
  obtain ⟨u, hu⟩ := qp_exists A b hl
  obtain ⟨u', hu'⟩ := qp_exists A b' hl
  refine ⟨√(2 * max 0 (max c c')), fun N tol s s' hr hr' => ?_⟩
  have h0 : 0 ≤ 2 * max 0 (max c c') := by positivity
  have key : ∀ (d : ℝ), d ≤ max c c' → ∀ (k : ℕ), d / ((k : ℝ) + 1) ^ 2 ≤ 1 / 2 * (√(2 * max 0 (max c c')) / (k + 1)) ^ 2 := by
    intro d hd k
    rw [div_pow, Real.sq_sqrt h0]
    have : 1 / 2 * (2 * max 0 (max c c') / ((k : ℝ) + 1) ^ 2) = max 0 (max c c') / ((k : ℝ) + 1) ^ 2 := by ring
    rw [this]
    exact div_le_div_of_nonneg_right (hd.trans (le_max_right _ _)) (by positivity)
  refine nearly_on A b b' hl.le convex_univ (Set.mem_univ u) (Set.mem_univ u') (fun v _ => hu v) (fun v _ => hu' v) (Set.mem_univ _) (Set.mem_univ _) (by positivity) (by positivity) ?_ ?_
  · have h1 := hc N tol s hr u
    have h2 := key c (le_max_left _ _) s.iters
    rw [qpObj, qpObj, norm_sub_rev b, norm_sub_rev b]; linarith
  · have h1 := hc' N tol s' hr' u'
    have h2 := key c' (le_max_right _ _) s'.iters
    rw [qpObj, qpObj, norm_sub_rev b', norm_sub_rev b']; linarith

/-! Instances on `A = 1`, `b = 1`, `b' = 3`. -/

example : ∃ u u', QpMin unit1 (v1 1) (1 / 2) u ∧ QpMin unit1 (v1 3) (1 / 2) u' ∧ ‖unit1 u - unit1 u'‖ ≤ ‖v1 1 - v1 3‖ := by
  obtain ⟨u, hu⟩ := qp_exists unit1 (v1 1) (by norm_num : (0 : ℝ) < 1 / 2)
  obtain ⟨u', hu'⟩ := qp_exists unit1 (v1 3) (by norm_num : (0 : ℝ) < 1 / 2)
  exact ⟨u, u', hu, hu', ((c168_solutions unit1 (v1 1) (v1 3)).1 (1 / 2) (by norm_num) u u' hu hu').1⟩
example := c168_ista_fista unit1 unit1 unit1_adj (v1 1) (v1 3) 0 (1 / 2) 1 (by norm_num) one_pos (fun d => by rw [unit1_apply, one_mul])
example := c168_l1rls unit1 unit1 unit1_adj (v1 1) (v1 3) (1 / 2) (by norm_num) 0 { L0 := 1, alpha := 1, beta := 1 / 2, maxIters := 100, tol := 1e-3, Lexact := none } rfl (by norm_num) (by norm_num) one_pos rfl
example := c168_yall unit1 unit1 unit1_adj unit1_orth (v1 1) (v1 3) (v1_ne_zero one_ne_zero) (v1_ne_zero three_ne_zero) (1 / 2) (by norm_num) 0 5e-3 9999 0 0 0 0
/-- `l1ls` returns on both data vectors (C139), so the theorem speaks about its results. -/
example : ∃ N P s s', L1lsSolve unit1 unit1 (v1 1) 1 1e-3 0 N P s ∧ L1lsSolve unit1 unit1 (v1 3) 1 1e-3 0 N P s' ∧ ‖unit1 s.x - unit1 s'.x‖ ≤ ‖v1 1 - v1 3‖ + √1e-3 * ‖v1 1‖ + √1e-3 * ‖v1 3‖ := by
  obtain ⟨K, hK⟩ := c139_solves unit1 unit1 unit1_adj (v1 1) (v1_ne_zero one_ne_zero) 1 one_pos one_pos 1e-3 (by norm_num)
  obtain ⟨K', hK'⟩ := c139_solves unit1 unit1 unit1_adj (v1 3) (v1_ne_zero three_ne_zero) 1 one_pos one_pos 1e-3 (by norm_num)
  obtain ⟨s, hs, hi, -⟩ := hK (K + K' + 1) 3 (by omega) (by norm_num)
  obtain ⟨s', hs', hi', -⟩ := hK' (K + K' + 1) 3 (by omega) (by norm_num)
  exact ⟨_, _, s, s', hs, hs', c168_l1ls unit1 unit1 unit1_adj (v1 1) (v1 3) 1 one_pos 1e-3 0 (by norm_num) _ _ s s' hs hs' hi hi'⟩
/-- `solve_lasso` returns before its limit on both data vectors (C136, `alpha_max = 500`). -/
example : ∃ o : Spgl1Opts, o.optTol = 1e-4 ∧ ∃ s s', LassoSolve unit1 unit1 (v1 1) 1 o s ∧ LassoSolve unit1 unit1 (v1 3) 1 o s' ∧
    ‖unit1 s.x - unit1 s'.x‖ ≤ ‖v1 1 - v1 3‖ + (√(1e-4 * max 2 (‖v1 1 - unit1 s.x‖ ^ 2)) + 1e-4 * ‖v1 1‖) + (√(1e-4 * max 2 (‖v1 3 - unit1 s'.x‖ ^ 2)) + 1e-4 * ‖v1 3‖) := by
  have key := fun b => c136_lasso_solves unit1 unit1 unit1_adj b 1 zero_le_one 0 { spgl1Default with alphaMax := 500 } (by norm_num [spgl1Default])
    (by norm_num [spgl1Default]) (by norm_num [spgl1Default]) (by norm_num [spgl1Default]) (by norm_num [spgl1Default]) 1 (fun v => by rw [unit1_apply, one_mul]) zero_le_one
    (by norm_num [spgl1Default])
  obtain ⟨N, hN⟩ := key (v1 1)
  obtain ⟨N', hN'⟩ := key (v1 3)
  obtain ⟨s, hs, hi, -⟩ := hN (N + N' + 1) (by omega)
  obtain ⟨s', hs', hi', -⟩ := hN' (N + N' + 1) (by omega)
  refine ⟨{ spgl1Default with alphaMax := 500, maxIters := N + N' + 1 }, rfl, s, s', hs, hs', ?_⟩
  exact c168_spgl1 unit1 unit1 unit1_adj (v1 1) (v1 3) 1 zero_le_one { spgl1Default with alphaMax := 500, maxIters := N + N' + 1 } (by norm_num [spgl1Default]) (by norm_num [spgl1Default]) s s' hs hs'
    (by show s.iterations < N + N' + 1; omega) (by show s'.iterations < N + N' + 1; omega)

end Verif.Cvx
