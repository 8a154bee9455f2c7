import Verif.Cvx.SpgStepProps
import Verif.Cvx.NonmonoConv
import Verif.Opt.FomRateProps

set_option autoImplicit false
/-!
# SPGL1's LASSO solver reaches its tolerance (C136)
-/
noncomputable section
namespace Verif.Cvx
open Verif.Loop Verif.Opt Filter Topology
open scoped RealInnerProductSpace

variable {m n : ℕ}

theorem clip_range {v lo hi : ℝ} (h : lo ≤ hi) : lo ≤ clip v lo hi ∧ clip v lo hi ≤ hi :=
  ⟨le_min (le_max_right _ _) h, min_le_right _ _⟩

theorem nextAlpha_range (o : Spgl1Opts) (h : o.alphaMin ≤ o.alphaMax) (s y : Vec n) : o.alphaMin ≤ nextAlpha o s y ∧ nextAlpha o s y ≤ o.alphaMax := by
  unfold nextAlpha
  split
  · exact ⟨h, le_rfl⟩
  · exact clip_range h

theorem firstAlpha_range (o : Spgl1Opts) (h : o.alphaMin ≤ o.alphaMax) (d : Vec n) : o.alphaMin ≤ firstAlpha o d ∧ firstAlpha o d ≤ o.alphaMax := by
  unfold firstAlpha
  split
  · exact ⟨h, le_rfl⟩
  · exact clip_range h

theorem alpha_range (A : Vec n → Vec m) (At : Vec m → Vec n) (b : Vec m) (tau : ℝ) (x0 : Vec n) (o : Spgl1Opts) (h : o.alphaMin ≤ o.alphaMax)
    (s : LassoState m n) (hr : LassoReach A At b tau x0 o s) : o.alphaMin ≤ s.alphaNext ∧ s.alphaNext ≤ o.alphaMax := by
  refine Reach.inv (fun s => o.alphaMin ≤ s.alphaNext ∧ s.alphaNext ≤ o.alphaMax) hr (firstAlpha_range o h _) fun s _ _ => nextAlpha_range o h _ _

/-- The largest decrease the linear model allows on the ball is attained at a vertex. -/
theorem exists_vertex (g : Vec n) {tau : ℝ} (htau : 0 ≤ tau) : ∃ z : Vec n, l1 z ≤ tau ∧ ⟪g, z⟫ = -(tau * linf g) := by
  classical
  rcases Nat.eq_zero_or_pos n with h0 | h0
  · subst h0
    refine ⟨0, by simpa [l1] using htau, ?_⟩
    have : linf g = 0 := by unfold linf; rw [Subsingleton.elim g 0]; simp
    rw [this]; simp
  · haveI : Nonempty (Fin n) := ⟨⟨0, h0⟩⟩
    obtain ⟨i, hi⟩ := Finite.exists_max fun i => |g i|
    have hl : linf g = |g i| := by
      refine le_antisymm ?_ (abs_le_linf g i)
      unfold linf
      rw [pi_norm_le_iff_of_nonneg (abs_nonneg _)]
      intro j
      rw [Real.norm_eq_abs]
      exact hi j
    refine ⟨vec fun j => if j = i then -(tau * SignType.sign (g i)) else 0, ?_, ?_⟩
    · have : l1 (vec fun j => if j = i then -(tau * (SignType.sign (g i) : ℝ)) else 0) = |tau * (SignType.sign (g i) : ℝ)| := by
        unfold l1
        rw [Finset.sum_eq_single i]
        · simp [vec]
        · intro j _ hj; simp [vec, hj]
        · simp
      rw [this, abs_mul, abs_of_nonneg htau]
      have : |((SignType.sign (g i) : SignType) : ℝ)| ≤ 1 := by
        rcases lt_trichotomy (g i) 0 with h | h | h <;> simp [h]
      nlinarith
    · rw [Verif.Opt.inner_sum, Finset.sum_eq_single i]
      · simp only [vec, if_true, hl]
        have : g i * (SignType.sign (g i) : ℝ) = |g i| := by
          rcases lt_trichotomy (g i) 0 with h | h | h
          · simp [h, abs_of_neg h]
          · simp [h]
          · simp [h, abs_of_pos h]
        show g i * -(tau * _) = _
        rw [← this]; ring
      · intro j _ hj; simp [vec, hj]
      · simp

/-- A short projected gradient move means a small duality gap. -/
theorem gap_le_move (x g : Vec n) {tau t G : ℝ} (htau : 0 ≤ tau) (hx : l1 x ≤ tau) (ht : 0 < t) (hG : ‖g‖ ≤ G) :
    ⟪g, x⟫ + tau * linf g ≤ (G + 2 * tau / t) * ‖projectToL1Ball (x - t • g) tau - x‖ := by
  obtain ⟨z, hz, ez⟩ := exists_vertex g htau
  have h1 := (project_nearest htau (x - t • g)).inner_le (convex_l1 tau) hz
  have hp := (project_nearest htau (x - t • g)).1
  set p := projectToL1Ball (x - t • g) tau with hpd
  have hpl : l1 p ≤ tau := hp
  have e1 : x - t • g - p = -(t • g) - (p - x) := by abel
  rw [e1, inner_sub_left, inner_neg_left, real_inner_smul_left] at h1
  have h2 : ⟪p - x, z - p⟫ ≤ ‖p - x‖ * (2 * tau) := by
    have c1 := real_inner_le_norm (p - x) (z - p)
    have c2 : ‖z - p‖ ≤ 2 * tau := by
      have := norm_sub_le z p
      have := Verif.Opt.norm_le_l1 z
      have := Verif.Opt.norm_le_l1 p
      linarith
    have := mul_le_mul_of_nonneg_left c2 (norm_nonneg (p - x))
    linarith
  have h3 : ⟪g, x - p⟫ ≤ G * ‖p - x‖ := by
    have := real_inner_le_norm g (x - p)
    rw [norm_sub_rev x p] at this
    exact this.trans (mul_le_mul_of_nonneg_right hG (norm_nonneg _))
  have h4 : t * ⟪g, p - z⟫ ≤ ‖p - x‖ * (2 * tau) := by
    have : ⟪g, p - z⟫ = -⟪g, z - p⟫ := by rw [← inner_neg_right, neg_sub]
    rw [this]; linarith
  have h5 : ⟪g, p - z⟫ ≤ ‖p - x‖ * (2 * tau) / t := by rw [le_div_iff₀ ht]; linarith
  have e2 : ⟪g, x⟫ + tau * linf g = ⟪g, x - p⟫ + ⟪g, p - z⟫ := by
    rw [inner_sub_right, inner_sub_right, ez]; ring
  rw [e2]
  calc ⟪g, x - p⟫ + ⟪g, p - z⟫ ≤ G * ‖p - x‖ + ‖p - x‖ * (2 * tau) / t := add_le_add h3 h5
    _ = (G + 2 * tau / t) * ‖p - x‖ := by ring

/-- A lower bound on the step after `j` rounds of the line search, while the duality gap is at least `ε`. -/
def lowT (ε G tau a : ℝ) : ℕ → ℝ
  | 0 => a
  | j + 1 => min (lowT ε G tau a j / 2) ((1 / 2) ^ 20 * (ε / (G + 2 * tau / lowT ε G tau a j)) / G)

theorem lowT_pos {ε G tau a : ℝ} (hε : 0 < ε) (hG : 0 < G) (htau : 0 ≤ tau) (ha : 0 < a) (j : ℕ) : 0 < lowT ε G tau a j := by
  induction j with
  | zero => exact ha
  | succ j ih => exact lt_min (by positivity) (by positivity)

theorem lowT_anti {ε G tau a : ℝ} (hε : 0 < ε) (hG : 0 < G) (htau : 0 ≤ tau) (ha : 0 < a) : Antitone (lowT ε G tau a) :=
  antitone_nat_of_succ_le fun j => (min_le_left _ _).trans (by have := lowT_pos hε hG htau ha j; linarith)

theorem move_ge (x g : Vec n) {tau t T G ε : ℝ} (htau : 0 ≤ tau) (hx : l1 x ≤ tau) (hT : 0 < T) (hTt : T ≤ t) (hG0 : 0 < G) (hG : ‖g‖ ≤ G)
    (hε : 0 < ε) (hgap : ε ≤ ⟪g, x⟫ + tau * linf g) : ε / (G + 2 * tau / T) ≤ ‖projectToL1Ball (x - t • g) tau - x‖ := by
  have ht := hT.trans_le hTt
  have h1 := hgap.trans (gap_le_move x g htau hx ht hG)
  have h2 : 2 * tau / t ≤ 2 * tau / T := div_le_div_of_nonneg_left (by positivity) hT hTt
  rw [div_le_iff₀ (by positivity)]
  have h3 := mul_le_mul_of_nonneg_right (show G + 2 * tau / t ≤ G + 2 * tau / T by linarith) (norm_nonneg (projectToL1Ball (x - t • g) tau - x))
  linarith

theorem curvy_low (A : Vec n → Vec m) (b : Vec m) (x g : Vec n) (alpha0 fMax tau gamma : ℝ) (calls : ℕ) (htau : 0 ≤ tau) (hx : l1 x ≤ tau)
    {ε G a : ℝ} (hε : 0 < ε) (hG0 : 0 < G) (hG : ‖g‖ ≤ G) (ha : 0 < a) (haa : a ≤ alpha0) (hgap : ε ≤ ⟪g, x⟫ + tau * linf g) (s : CurvyState m n)
    (h : Reach curvyCond (curvyNext A b x (alpha0 • g) fMax tau gamma) (curvyInit A b x (alpha0 • g) fMax tau gamma calls) s) :
    lowT ε G tau a s.nIters ≤ s.alpha * s.scale * alpha0 ∧ s.nSafe ≤ s.nIters ∧ s.nIters ≤ 10 ∧ s.alpha = (1 / 2) ^ s.nIters ∧
      s.dNew = projectToL1Ball (x - (s.alpha * s.scale * alpha0) • g) tau - x := by
  have hg : 0 < ‖g‖ := by
    rw [norm_pos_iff]
    rintro rfl
    have : linf (0 : Vec n) = 0 := by simp [linf]
    rw [this, inner_zero_left] at hgap
    linarith
  have hn : (0 : ℝ) < n := by
    rcases Nat.eq_zero_or_pos n with h0 | h0
    · subst h0; rw [Subsingleton.elim g 0, norm_zero] at hg; exact absurd hg (lt_irrefl _)
    · exact_mod_cast h0
  have ha0 := ha.trans_le haa
  refine h.inv (fun s => lowT ε G tau a s.nIters ≤ s.alpha * s.scale * alpha0 ∧ s.nSafe ≤ s.nIters ∧ s.nIters ≤ 10 ∧ s.alpha = (1 / 2) ^ s.nIters ∧
      s.dNew = projectToL1Ball (x - (s.alpha * s.scale * alpha0) • g) tau - x) ?_ fun s hs hc => ?_
  · refine ⟨?_, le_rfl, Nat.zero_le _, by simp [curvyInit, curvyCandidate], ?_⟩
    · show a ≤ 1 * 1 * alpha0
      linarith
    · show projectToL1Ball (x - ((1 : ℝ) * 1) • (alpha0 • g)) tau - x = projectToL1Ball (x - ((1 : ℝ) * 1 * alpha0) • g) tau - x
      rw [smul_smul]
  · obtain ⟨h1, h2, h3, h4, h5⟩ := hs
    have hTp := lowT_pos (ε := ε) (G := G) (tau := tau) (a := a) hε hG0 htau ha s.nIters
    have hit : s.nIters < 10 := hc.1
    refine ⟨?_, ?_, hit, ?_, ?_⟩
    · show min (lowT ε G tau a s.nIters / 2) _ ≤ (s.alpha / 2) * (if _ then _ else s.scale) * alpha0
      split
      · refine (min_le_right _ _).trans ?_
        have hd := move_ge x g htau hx hTp h1 hG0 hG hε hgap
        rw [← h5] at hd
        have e : ‖s.dNew‖ / Real.sqrt n / (‖alpha0 • g‖ / Real.sqrt n) / 2 ^ s.nSafe = ‖s.dNew‖ / (alpha0 * ‖g‖) * (1 / 2) ^ s.nSafe := by
          rw [norm_smul, Real.norm_eq_abs, abs_of_pos ha0, one_div, inv_pow]
          have := Real.sqrt_pos.2 hn
          field_simp
        rw [e, h4]
        have e2 : (1 / 2 : ℝ) ^ s.nIters / 2 * (‖s.dNew‖ / (alpha0 * ‖g‖) * (1 / 2) ^ s.nSafe) * alpha0
            = (1 / 2) ^ (s.nIters + 1 + s.nSafe) * ‖s.dNew‖ / ‖g‖ := by
          rw [pow_add, pow_succ]
          field_simp
        rw [e2]
        have h6 : (1 / 2 : ℝ) ^ 20 ≤ (1 / 2) ^ (s.nIters + 1 + s.nSafe) :=
          pow_le_pow_of_le_one (by norm_num) (by norm_num) (by omega)
        have h7 : 0 ≤ ε / (G + 2 * tau / lowT ε G tau a s.nIters) := by positivity
        calc (1 / 2 : ℝ) ^ 20 * (ε / (G + 2 * tau / lowT ε G tau a s.nIters)) / G
            ≤ (1 / 2) ^ (s.nIters + 1 + s.nSafe) * ‖s.dNew‖ / G := by
              apply div_le_div_of_nonneg_right _ hG0.le
              exact mul_le_mul h6 hd h7 (by positivity)
          _ ≤ (1 / 2) ^ (s.nIters + 1 + s.nSafe) * ‖s.dNew‖ / ‖g‖ := div_le_div_of_nonneg_left (by positivity) hg hG
      · refine (min_le_left _ _).trans ?_
        have : s.alpha / 2 * s.scale * alpha0 = s.alpha * s.scale * alpha0 / 2 := by ring
        rw [this]; linarith
    · show (if _ then s.nSafe + 1 else s.nSafe) ≤ s.nIters + 1
      split
      · exact Nat.succ_le_succ h2
      · exact h2.trans (Nat.le_succ _)
    · show s.alpha / 2 = (1 / 2) ^ (s.nIters + 1)
      rw [h4, pow_succ]; ring
    · have e : (curvyNext A b x (alpha0 • g) fMax tau gamma s).dNew = projectToL1Ball (x - ((curvyNext A b x (alpha0 • g) fMax tau gamma s).alpha *
        (curvyNext A b x (alpha0 • g) fMax tau gamma s).scale) • (alpha0 • g)) tau - x := rfl
      rw [e, smul_smul]

/-- The memory after a push, as a list of the last values. -/
theorem push_range (F : ℕ → ℝ) (k M : ℕ) :
    cbufPushLeft ((List.range M).map fun i => F (k - i)) (F (k + 1)) = (List.range M).map fun i => F (k + 1 - i) := by
  unfold cbufPushLeft
  rw [List.length_map, List.length_range]
  apply List.ext_getElem?
  intro i
  rw [List.getElem?_take]
  by_cases hi : i < M
  · rw [if_pos hi]
    cases i with
    | zero => simp [hi]
    | succ i => simp [hi, show i < M by omega, show k + 1 - (i + 1) = k - i by omega]
  · rw [if_neg hi]
    simp [hi]

theorem grad_bound (A : Vec n →ₗ[ℝ] Vec m) (At : Vec m →ₗ[ℝ] Vec n) (b : Vec m) (tau : ℝ) :
    ∃ G : ℝ, 0 < G ∧ ∀ x : Vec n, l1 x ≤ tau → ‖At (A x - b)‖ ≤ G := by
  let B : Vec n →L[ℝ] Vec n := LinearMap.toContinuousLinearMap (At ∘ₗ A)
  refine ⟨‖B‖ * |tau| + ‖At b‖ + 1, by positivity, fun x hx => ?_⟩
  have h1 : At (A x - b) = B x - At b := by rw [map_sub]; rfl
  have h2 := B.le_opNorm x
  have h3 : ‖x‖ ≤ |tau| := ((Verif.Opt.norm_le_l1 x).trans hx).trans (le_abs_self _)
  rw [h1]
  have h4 := norm_sub_le (B x) (At b)
  have h5 := mul_le_mul_of_nonneg_left h3 (norm_nonneg B)
  linarith

theorem obj_change (A : Vec n →ₗ[ℝ] Vec m) (At : Vec m →ₗ[ℝ] Vec n) (hadj : IsAdj A At) (b : Vec m) (x y : Vec n) :
    ‖b - A y‖ ^ 2 / 2 - ‖b - A x‖ ^ 2 / 2 = ⟪At (A x - b), y - x⟫ + ‖A (y - x)‖ ^ 2 / 2 := by
  have e : b - A y = (b - A x) - A (y - x) := by rw [map_sub]; abel
  have e2 : ⟪At (A x - b), y - x⟫ = -⟪b - A x, A (y - x)⟫ := by
    rw [real_inner_comm, ← hadj, real_inner_comm, ← inner_neg_left, neg_sub]
  rw [e, norm_sub_sq_real, e2]
  ring

section run
variable (A : Vec n →ₗ[ℝ] Vec m) (At : Vec m →ₗ[ℝ] Vec n) (b : Vec m) (tau : ℝ) (x0 : Vec n) (o : Spgl1Opts)

/-- The states of the loop body applied again and again (not stopping). -/
def lassoIter (k : ℕ) : LassoState m n := (lassoBody A At b tau o)^[k] (lassoInit A At b tau x0 o)

theorem lassoIter_succ (k : ℕ) : lassoIter A At b tau x0 o (k + 1) = lassoBody A At b tau o (lassoIter A At b tau x0 o k) := by
  unfold lassoIter
  rw [Function.iterate_succ_apply']

theorem lassoIter_iterations (k : ℕ) : (lassoIter A At b tau x0 o k).iterations = k + 1 := by
  induction k with
  | zero => rfl
  | succ k ih =>
    rw [lassoIter_succ]
    show (lassoIter A At b tau x0 o k).iterations + 1 = _
    rw [ih]

/-- The tests of the loop other than the iteration limit. -/
def Going (s : LassoState m n) : Prop := s.rGap > o.optTol ∧ s.rNorm ≥ o.optTol * ‖b‖

theorem lassoIter_reach (k : ℕ) (h : ∀ j, j < k → Going b o (lassoIter A At b tau x0 o j)) (M : ℕ) (hM : k < M) :
    LassoReach A At b tau x0 { o with maxIters := M } (lassoIter A At b tau x0 o k) := by
  refine reach_of_iterate (f := lassoBody A At b tau { o with maxIters := M }) fun j hj => ⟨?_, h j hj⟩
  have := lassoIter_iterations A At b tau x0 o j
  show (lassoIter A At b tau x0 o j).iterations < M
  omega

/-- A run that goes on for ever has infinitely many line searches that use up their ten rounds. -/
theorem forever_fails (hadj : IsAdj A At) (htau : 0 ≤ tau) (hm : 0 < o.memory) (hg : 0 < o.gamma) (ha : 0 < o.alphaMin) (hab : o.alphaMin ≤ o.alphaMax)
    (ht : 0 < o.optTol) (hgo : ∀ k, Going b o (lassoIter A At b tau x0 o k)) (K : ℕ) :
    ∃ k, K ≤ k ∧ (lassoIter A At b tau x0 o k).nLsIters + 10 ≤ (lassoIter A At b tau x0 o (k + 1)).nLsIters := by
  by_contra hcon
  push Not at hcon
  obtain ⟨S, hS⟩ : ∃ S : ℕ → LassoState m n, ∀ k, S k = lassoIter A At b tau x0 o k := ⟨_, fun _ => rfl⟩
  have hSs : ∀ k, S (k + 1) = lassoBody A At b tau o (S k) := fun k => by rw [hS, hS, lassoIter_succ]
  have hgoS : ∀ k, Going b o (S k) := fun k => by rw [hS]; exact hgo k
  have hconS : ∀ k, K ≤ k → (S (k + 1)).nLsIters < (S k).nLsIters + 10 := fun k hk => by rw [hS, hS]; exact hcon k hk
  have hreach : ∀ k, LassoReach A At b tau x0 { o with maxIters := k + 1 } (S k) := fun k => by
    rw [hS]; exact lassoIter_reach A At b tau x0 o k (fun j _ => hgo j) (k + 1) (Nat.lt_succ_self _)
  have hinv : ∀ k, LassoInv A At b tau { o with maxIters := k + 1 } (S k) := fun k => lasso_inv A At b tau htau x0 { o with maxIters := k + 1 } hm (S k) (hreach k)
  have hal : ∀ k, o.alphaMin ≤ (S k).alphaNext := fun k => (alpha_range A At b tau x0 { o with maxIters := k + 1 } hab (S k) (hreach k)).1
  obtain ⟨G, hG0, hG⟩ := grad_bound A At b tau
  have hgrad : ∀ k, (S k).g = At (A (S k).x - b) := fun k => by rw [(hinv k).grad, (hinv k).res, ← map_neg, neg_sub]
  have hgn : ∀ k, ‖(S k).g‖ ≤ G := fun k => by rw [hgrad]; exact hG _ (hinv k).feas
  have hgap : ∀ k, o.optTol ≤ ⟪(S k).g, (S k).x⟫ + tau * linf (S k).g := by
    intro k
    have h1 := (hgoS k).1
    rw [(hinv k).gap, relGap] at h1
    have h2 : ⟪(S k).r, (S k).r - b⟫ = ⟪(S k).g, (S k).x⟫ := by
      have e : (S k).r - b = -(A (S k).x) := by rw [(hinv k).res]; abel
      rw [(hinv k).grad, inner_neg_left, e, inner_neg_right, real_inner_comm, hadj, real_inner_comm]
    have h3 : 0 ≤ ⟪(S k).g, (S k).x⟫ + tau * linf (S k).g := by
      have := (abs_le.1 (inner_le_linf (S k).g (S k).x)).1
      have := mul_le_mul_of_nonneg_left (hinv k).feas (linf_nonneg (S k).g)
      linarith
    rw [h2, abs_of_nonneg h3] at h1
    have h4 : (⟪(S k).g, (S k).x⟫ + tau * linf (S k).g) / max 1 (objVal (S k).r) ≤ ⟪(S k).g, (S k).x⟫ + tau * linf (S k).g :=
      div_le_self h3 (le_max_left _ _)
    linarith
  obtain ⟨F, hF⟩ : ∃ F : ℕ → ℝ, ∀ k, F k = ‖b - A (S k).x‖ ^ 2 / 2 := ⟨_, fun _ => rfl⟩
  obtain ⟨d, hd⟩ : ∃ d : ℕ → ℝ, ∀ k, d k = ‖(S (k + 1)).x - (S k).x‖ := ⟨_, fun _ => rfl⟩
  have hFo : ∀ k, F k = objVal (S k).r := fun k => by rw [hF, objVal_eq, (hinv k).res]
  have hpast : ∀ k, (S k).fPast = (List.range o.memory).map fun i => F (k - i) := by
    intro k
    induction k with
    | zero =>
      have e : (S 0).fPast = List.replicate o.memory (objVal (S 0).r) := by rw [hS]; rfl
      rw [e, ← hFo]
      simp
    | succ k ih =>
      obtain ⟨hi, _⟩ := curvy_spec A b (S k).x (S k).g (S k).alphaNext (listMax (S k).fPast) tau o.gamma (S k).timesCalls htau (hinv k).feas
      have e : (S (k + 1)).fPast = cbufPushLeft (S k).fPast (F (k + 1)) := by
        rw [hFo (k + 1), hSs]
        show cbufPushLeft (S k).fPast _ = cbufPushLeft (S k).fPast (objVal (curvyLineSearch A b (S k).x (S k).g (S k).alphaNext (listMax (S k).fPast) tau o.gamma (S k).timesCalls).rNew)
        rw [← hi.val]
      rw [e, ih, push_range]
  let a : Vec n →L[ℝ] Vec m := LinearMap.toContinuousLinearMap A
  have hT : Tendsto d atTop (𝓝 0) := by
    refine nonmono_tendsto F d (fun k => listMax (S k).fPast) o.gamma (G + ‖a‖ ^ 2) 0 o.memory K hg (fun k => by rw [hd]; exact norm_nonneg _)
      (fun k => by rw [hF]; positivity) (fun k hk => ?_) (fun k hk => ?_) (fun k hk => ?_) fun k => ?_
    · have := (c61_decrease A At b tau htau x0 { o with maxIters := k + 1 } hm hg.le (S k) (hreach k) (by
        have := hconS k hk
        rw [hSs] at this
        exact this)).2
      show listMax (S (k + 1)).fPast ≤ _
      rw [hSs]
      exact this
    · obtain ⟨hi, hacc⟩ := curvy_spec A b (S k).x (S k).g (S k).alphaNext (listMax (S k).fPast) tau o.gamma (S k).timesCalls htau (hinv k).feas
      have hc := hconS k hk
      have e1 : (S (k + 1)).x = (curvyLineSearch A b (S k).x (S k).g (S k).alphaNext (listMax (S k).fPast) tau o.gamma (S k).timesCalls).xNew := by rw [hSs]; rfl
      have e2 : F (k + 1) = (curvyLineSearch A b (S k).x (S k).g (S k).alphaNext (listMax (S k).fPast) tau o.gamma (S k).timesCalls).fVal := by
        rw [hi.val, hFo, hSs]; rfl
      have e3 : (S (k + 1)).nLsIters = (S k).nLsIters + (curvyLineSearch A b (S k).x (S k).g (S k).alphaNext (listMax (S k).fPast) tau o.gamma (S k).timesCalls).nIters := by
        rw [hSs]; rfl
      rw [e3] at hc
      rcases hacc with h1 | h1 | h1
      · rw [hi.lim, ← e2] at h1
        have h2 := hi.gtd_le
        rw [hi.dir, ← e1, ← hd] at h2
        have := mul_le_mul_of_nonneg_left h2 hg.le
        show F (k + 1) ≤ listMax (S k).fPast - o.gamma * d k ^ 2
        nlinarith
      · have h0 : d k = 0 := by rw [hd, e1, h1, sub_self, norm_zero]
        have h2 : F (k + 1) = F k := by rw [hF, hF, e1, h1]
        show F (k + 1) ≤ listMax (S k).fPast - o.gamma * d k ^ 2
        rw [h0, h2, hFo]
        have := le_listMax (List.mem_of_mem_head? (by rw [(hinv k).past]; rfl) : objVal (S k).r ∈ (S k).fPast)
        linarith
      · omega
    · have hne : (S k).fPast ≠ [] := by
        intro h0
        have := (hinv k).len
        rw [h0] at this
        simp at this
        omega
      have h1 : listMax (S k).fPast ∈ (List.range o.memory).map fun i => F (k - i) := hpast k ▸ listMax_mem hne
      obtain ⟨j, hj, e⟩ := List.mem_map.1 h1
      exact ⟨j, (List.mem_range.1 hj).le, e.symm⟩
    · rw [hF, hF, obj_change A At hadj, ← hgrad, hd]
      have h1 := abs_real_inner_le_norm (S k).g ((S (k + 1)).x - (S k).x)
      have h2 := mul_le_mul_of_nonneg_right (hgn k) (norm_nonneg ((S (k + 1)).x - (S k).x))
      have h3 : ‖A ((S (k + 1)).x - (S k).x)‖ ^ 2 ≤ ‖a‖ ^ 2 * ‖(S (k + 1)).x - (S k).x‖ ^ 2 := by
        rw [← mul_pow]
        exact pow_le_pow_left₀ (norm_nonneg _) (a.le_opNorm _) 2
      have h4 : 0 ≤ ‖A ((S (k + 1)).x - (S k).x)‖ ^ 2 := by positivity
      have h5 : 0 ≤ ‖a‖ ^ 2 * ‖(S (k + 1)).x - (S k).x‖ := by positivity
      have h6 : 0 ≤ G * ‖(S (k + 1)).x - (S k).x‖ ^ 2 := by positivity
      rw [abs_le] at h1 ⊢
      constructor <;> nlinarith [h1.1, h1.2]
  have hlow : ∀ k, o.optTol / (G + 2 * tau / lowT o.optTol G tau o.alphaMin 10) ≤ d k := by
    intro k
    obtain ⟨h1, _, h3, _, h5⟩ := curvy_low A b (S k).x (S k).g (S k).alphaNext (listMax (S k).fPast) tau o.gamma (S k).timesCalls htau (hinv k).feas ht hG0 (hgn k)
      ha (hal k) (hgap k) _ (curvy_out A b (S k).x (S k).g (listMax (S k).fPast) tau o.gamma (S k).timesCalls (S k).alphaNext).1
    obtain ⟨hi, _⟩ := curvy_spec A b (S k).x (S k).g (S k).alphaNext (listMax (S k).fPast) tau o.gamma (S k).timesCalls htau (hinv k).feas
    have h6 := lowT_anti ht hG0 htau ha h3
    have h7 := move_ge (S k).x (S k).g htau (hinv k).feas (lowT_pos ht hG0 htau ha 10) (h6.trans h1) hG0 (hgn k) ht (hgap k)
    rw [← h5, hi.dir] at h7
    rw [hd, hSs]
    exact h7
  have hpos : 0 < o.optTol / (G + 2 * tau / lowT o.optTol G tau o.alphaMin 10) := by
    have := lowT_pos (tau := tau) ht hG0 htau ha 10
    positivity
  have := ge_of_tendsto hT (Eventually.of_forall hlow)
  linarith

end run

/-- The result is within `opt_tol · max(1, f)` of the optimum, or its relative residual is below `opt_tol`. -/
def LassoSolved (A : Vec n →ₗ[ℝ] Vec m) (b : Vec m) (tau optTol : ℝ) (x : Vec n) : Prop :=
  (∀ y : Vec n, ∑ i, |y i| ≤ tau → ‖b - A x‖ ^ 2 / 2 ≤ ‖b - A y‖ ^ 2 / 2 + optTol * max 1 (‖b - A x‖ ^ 2 / 2)) ∨ ‖b - A x‖ < optTol * ‖b‖

/-- **C136** for every problem, start and options with positive `opt_tol`, `gamma` and `alpha_min`: with a large enough iteration limit `solve_lasso_from` returns a point of the
l1 ball that meets its tolerance, unless its line search uses up its ten rounds again and again (more than any given number of iterations after the start). -/
theorem c136_lasso_terminates (A : Vec n →ₗ[ℝ] Vec m) (At : Vec m →ₗ[ℝ] Vec n) (hadj : IsAdj A At) (b : Vec m) (tau : ℝ) (htau : 0 ≤ tau) (x0 : Vec n)
    (o : Spgl1Opts) (hm : 0 < o.memory) (hg : 0 < o.gamma) (ha : 0 < o.alphaMin) (hab : o.alphaMin ≤ o.alphaMax) (ht : 0 < o.optTol) :
    (∃ N, ∀ M, N ≤ M → ∃ s, LassoSolveFrom A At b tau x0 { o with maxIters := M } s ∧ s.iterations ≤ N ∧ ∑ i, |s.x i| ≤ tau ∧ LassoSolved A b tau o.optTol s.x) ∨
    ∀ K, ∃ M s, LassoReach A At b tau x0 { o with maxIters := M } s ∧ K ≤ s.iterations ∧ s.nLsIters + 10 ≤ (lassoBody A At b tau o s).nLsIters := by
  classical
  by_cases hstop : ∃ k, ¬ Going b o (lassoIter A At b tau x0 o k)
  · left
    obtain ⟨k, hk, hmin⟩ : ∃ k, ¬ Going b o (lassoIter A At b tau x0 o k) ∧ ∀ j, j < k → Going b o (lassoIter A At b tau x0 o j) :=
      ⟨Nat.find hstop, Nat.find_spec hstop, fun j hj => not_not.1 (Nat.find_min hstop hj)⟩
    refine ⟨k + 2, fun M hM => ⟨lassoIter A At b tau x0 o k, ⟨?_, fun hc => hk hc.2⟩, by rw [lassoIter_iterations]; omega, ?_, ?_⟩⟩
    · exact lassoIter_reach A At b tau x0 o k hmin M (by omega)
    · exact (lasso_inv A At b tau htau x0 { o with maxIters := M } hm _ (lassoIter_reach A At b tau x0 o k hmin M (by omega))).feas
    · have hr := lassoIter_reach A At b tau x0 o k hmin M (by omega)
      rcases (c61_stop A At hadj b tau htau x0 { o with maxIters := M } hm).2 _ ⟨hr, fun hc => hk hc.2⟩ with h | h | h
      · exact Or.inl h
      · exact Or.inr h
      · rw [lassoIter_iterations] at h
        have : M ≤ k + 1 := h
        omega
  · right
    push Not at hstop
    intro K
    obtain ⟨k, hk, h⟩ := forever_fails A At b tau x0 o hadj htau hm hg ha hab ht hstop K
    refine ⟨k + 1, lassoIter A At b tau x0 o k, lassoIter_reach A At b tau x0 o k (fun j _ => hstop j) _ (Nat.lt_succ_self _), ?_, ?_⟩
    · rw [lassoIter_iterations]; omega
    · rw [← lassoIter_succ]; exact h

theorem accept_arith (fMax gamma t I L alpha0 f0 f1 q dd : ℝ) (hg : 0 ≤ gamma) (hL0 : 0 ≤ L) (ht : 0 < t) (ht5 : t ≤ alpha0 / 512) (hdd : 0 < dd) (hdI : dd ≤ -(t * I))
    (hq : q ≤ L * dd) (hch : f1 - f0 = I + q / 2) (hf : f0 ≤ fMax) (hsm : alpha0 * (gamma + L / 2) < 512) (hval : fMax + gamma * t * I ≤ f1) : False := by
  have hI0 : I < 0 := by
    by_contra h
    have := mul_nonneg ht.le (not_lt.1 h)
    linarith
  have hsum : t * (gamma + L / 2) < 1 := by
    have h1 : 0 ≤ gamma + L / 2 := by positivity
    have := mul_le_mul_of_nonneg_right ht5 h1
    linarith
  have h8 : q / 2 ≤ L / 2 * (-(t * I)) := by
    have := mul_le_mul_of_nonneg_left hdI hL0
    linarith
  have h10 : (1 - t * (gamma + L / 2)) * I < 0 := mul_neg_of_pos_of_neg (by linarith) hI0
  have e : (1 - t * (gamma + L / 2)) * I = I + L / 2 * (-(t * I)) - gamma * t * I := by ring
  linarith

theorem move_arith (dn G c gtdI : ℝ) (hd0 : 0 < dn) (hc : 0 ≤ c) (hle : dn ^ 2 ≤ c * gtdI) (hin : gtdI ≤ G * dn) : dn ≤ c * G := by
  have h1 := hle.trans (mul_le_mul_of_nonneg_left hin hc)
  have h2 : dn * dn ≤ (c * G) * dn := by linarith
  exact le_of_mul_le_mul_right h2 hd0

/-- The line search succeeds before its limit when the largest step is small compared with the curvature. -/
theorem curvy_succeeds (A : Vec n →ₗ[ℝ] Vec m) (At : Vec m →ₗ[ℝ] Vec n) (hadj : IsAdj A At) (b : Vec m) (x : Vec n) (alpha0 fMax tau gamma L : ℝ) (calls : ℕ)
    (htau : 0 ≤ tau) (hx : l1 x ≤ tau) (hg : 0 ≤ gamma) (ha0 : 0 < alpha0) (hL : ∀ v, ‖A v‖ ^ 2 ≤ L * ‖v‖ ^ 2) (hL0 : 0 ≤ L) (hf : ‖b - A x‖ ^ 2 / 2 ≤ fMax)
    (hsm : alpha0 * (gamma + L / 2) < 512) :
    (curvyLineSearch A b x (At (A x - b)) alpha0 fMax tau gamma calls).nIters < 10 := by
  by_contra hcon
  -- the state with nine rounds done was not accepted
  have hinv : ∀ s, Reach curvyCond (curvyNext A b x (alpha0 • At (A x - b)) fMax tau gamma) (curvyInit A b x (alpha0 • At (A x - b)) fMax tau gamma calls) s →
      s.alpha = (1 / 2) ^ s.nIters ∧ s.scale ≤ 1 ∧ s.nIters ≤ 9 := by
    intro s h
    refine h.inv' (fun s => s.alpha = (1 / 2) ^ s.nIters ∧ s.scale ≤ 1 ∧ s.nIters ≤ 9) ⟨by simp [curvyInit, curvyCandidate], le_rfl, Nat.zero_le _⟩ fun s hr hs hc => ?_
    obtain ⟨h1, h2, h3⟩ := hs
    have hi := curvy_inv A b x (alpha0 • At (A x - b)) fMax tau gamma calls htau hx s hr
    have hsp := hi.scale_pos
    have hap := hi.alpha_pos
    obtain ⟨_, hxn, _⟩ := curvy_alpha A b x (alpha0 • At (A x - b)) fMax tau gamma calls s hr
    obtain ⟨g, hgd⟩ : ∃ g, g = alpha0 • At (A x - b) := ⟨_, rfl⟩
    rw [← hgd] at hi hxn hr
    rw [← hgd]
    have hgtd : s.gtd < 0 := hc.2.1
    have hd0 : 0 < ‖s.dNew‖ := by
      rw [norm_pos_iff]
      intro h0; rw [hi.gtd_eq, h0, inner_zero_right, mul_zero] at hgtd; exact lt_irrefl _ hgtd
    have hle := hi.gtd_le
    have hgeq := hi.gtd_eq
    have hin : -⟪g, s.dNew⟫ ≤ ‖g‖ * ‖s.dNew‖ := by
      have := (abs_le.1 (abs_real_inner_le_norm g s.dNew)).1
      linarith
    have hg0 : 0 < ‖g‖ := by
      rw [norm_pos_iff]
      intro h0; rw [hgeq, h0, inner_zero_left, mul_zero] at hgtd; exact lt_irrefl _ hgtd
    have hdn : ‖s.dNew‖ ≤ s.alpha * s.scale * ‖g‖ := by
      refine move_arith _ _ _ (-⟪g, s.dNew⟫) hd0 (mul_pos hap hsp).le ?_ hin
      have e : s.alpha * s.scale * -⟪g, s.dNew⟫ = -s.alpha * (s.scale * ⟪g, s.dNew⟫) := by ring
      rw [e, ← hgeq]; exact hle
    have hn : (0 : ℝ) < n := by
      rcases Nat.eq_zero_or_pos n with h0 | h0
      · subst h0; rw [Subsingleton.elim g 0, norm_zero] at hg0; exact absurd hg0 (lt_irrefl _)
      · exact_mod_cast h0
    refine ⟨?_, ?_, ?_⟩
    · show s.alpha / 2 = (1 / 2) ^ (s.nIters + 1)
      rw [h1, pow_succ]; ring
    · show (if _ then _ else s.scale) ≤ 1
      split
      · have e : ‖s.dNew‖ / Real.sqrt n / (‖g‖ / Real.sqrt n) = ‖s.dNew‖ / ‖g‖ := by
          have := Real.sqrt_pos.2 hn
          field_simp
        rw [e]
        have ha1 : s.alpha ≤ 1 := by rw [h1]; exact pow_le_one₀ (by norm_num) (by norm_num)
        have h6 : ‖s.dNew‖ / ‖g‖ ≤ 1 := by
          rw [div_le_one hg0]
          have : s.alpha * s.scale ≤ 1 := mul_le_one₀ ha1 hsp.le h2
          nlinarith
        exact (div_le_self (by positivity) (one_le_pow₀ (by norm_num))).trans h6
      · exact h2
    · show s.nIters + 1 ≤ 9
      have hne : s.nIters ≠ 9 := by
        intro h9
        -- the candidate with step at most alpha0 / 512 is accepted
        have hval := hc.2.2
        rw [hi.lim, hi.val, objVal_eq, hi.res, ge_iff_le] at hval
        have hch := obj_change A At hadj b x s.xNew
        rw [← hi.dir] at hch
        have hL' := hL s.dNew
        have hgt2 : s.gtd = s.scale * alpha0 * ⟪At (A x - b), s.dNew⟫ := by rw [hgeq, hgd, real_inner_smul_left]; ring
        have ht5 : s.alpha * s.scale * alpha0 ≤ alpha0 / 512 := by
          have h7 : s.alpha = 1 / 512 := by rw [h1, h9]; norm_num
          rw [h7]
          have := mul_le_mul_of_nonneg_right h2 ha0.le
          linarith
        rw [hgt2] at hle hval
        refine accept_arith fMax gamma (s.alpha * s.scale * alpha0) ⟪At (A x - b), s.dNew⟫ L alpha0 (‖b - A x‖ ^ 2 / 2) (‖b - A s.xNew‖ ^ 2 / 2) (‖A s.dNew‖ ^ 2) (‖s.dNew‖ ^ 2) hg hL0
          (by positivity) ht5 (by positivity) ?_ hL' hch hf hsm ?_
        · have e : -s.alpha * (s.scale * alpha0 * ⟪At (A x - b), s.dNew⟫) = -(s.alpha * s.scale * alpha0 * ⟪At (A x - b), s.dNew⟫) := by ring
          rw [← e]; exact hle
        · have e : gamma * s.alpha * (s.scale * alpha0 * ⟪At (A x - b), s.dNew⟫) = gamma * (s.alpha * s.scale * alpha0) * ⟪At (A x - b), s.dNew⟫ := by ring
          rw [← e]; exact hval
      omega
  have := (hinv _ (curvy_out A b x (At (A x - b)) fMax tau gamma calls alpha0).1).2.2
  omega

/-- **C136** when `alpha_max` is at most about `1024 / L`, `L` a bound on the squared norm of the operator, no line search uses up its rounds: with a large enough iteration
limit `solve_lasso_from` returns a point of the l1 ball that meets its tolerance, for every problem and start. -/
theorem c136_lasso_solves (A : Vec n →ₗ[ℝ] Vec m) (At : Vec m →ₗ[ℝ] Vec n) (hadj : IsAdj A At) (b : Vec m) (tau : ℝ) (htau : 0 ≤ tau) (x0 : Vec n)
    (o : Spgl1Opts) (hm : 0 < o.memory) (hg : 0 < o.gamma) (ha : 0 < o.alphaMin) (hab : o.alphaMin ≤ o.alphaMax) (ht : 0 < o.optTol)
    (L : ℝ) (hL : ∀ v, ‖A v‖ ^ 2 ≤ L * ‖v‖ ^ 2) (hL0 : 0 ≤ L) (hsm : o.alphaMax * (o.gamma + L / 2) < 512) :
    ∃ N, ∀ M, N ≤ M → ∃ s, LassoSolveFrom A At b tau x0 { o with maxIters := M } s ∧ s.iterations ≤ N ∧ ∑ i, |s.x i| ≤ tau ∧ LassoSolved A b tau o.optTol s.x := by
  refine (c136_lasso_terminates A At hadj b tau htau x0 o hm hg ha hab ht).resolve_right fun hf => ?_
  obtain ⟨M, s, hr, _, hs⟩ := hf 0
  have hi := lasso_inv A At b tau htau x0 { o with maxIters := M } hm s hr
  obtain ⟨a1, a2⟩ := alpha_range A At b tau x0 { o with maxIters := M } hab s hr
  have hgr : s.g = At (A s.x - b) := by rw [hi.grad, hi.res, ← map_neg, neg_sub]
  have h1 : s.alphaNext * (o.gamma + L / 2) < 512 := by
    have : 0 ≤ o.gamma + L / 2 := by positivity
    have := mul_le_mul_of_nonneg_right (show s.alphaNext ≤ o.alphaMax from a2) this
    linarith
  have h2 := curvy_succeeds A At hadj b s.x s.alphaNext (listMax s.fPast) tau o.gamma L s.timesCalls htau hi.feas hg.le (ha.trans_le a1) hL hL0
    (by rw [← hi.res, ← objVal_eq]; exact le_listMax (List.mem_of_mem_head? (by rw [hi.past]; rfl))) h1
  rw [← hgr] at h2
  have h3 : (lassoBody A At b tau o s).nLsIters = s.nLsIters + (curvyLineSearch A b s.x s.g s.alphaNext (listMax s.fPast) tau o.gamma s.timesCalls).nIters := rfl
  omega

/-- The identity on one number, with the default options except for `alpha_max = 500`: the solver reaches its tolerance. -/
example : ∃ N, ∀ M, N ≤ M → ∃ s, LassoSolveFrom (LinearMap.id : Vec 1 →ₗ[ℝ] Vec 1) (LinearMap.id : Vec 1 →ₗ[ℝ] Vec 1) (v1 3) 2 0 { spgl1Default with alphaMax := 500, maxIters := M } s ∧
    s.iterations ≤ N ∧ ∑ i, |s.x i| ≤ 2 ∧ LassoSolved (LinearMap.id : Vec 1 →ₗ[ℝ] Vec 1) (v1 3) 2 1e-4 s.x :=
  c136_lasso_solves LinearMap.id LinearMap.id (fun _ _ => rfl) (v1 3) 2 (by norm_num) 0 { spgl1Default with alphaMax := 500 } (by norm_num [spgl1Default])
    (by norm_num [spgl1Default]) (by norm_num [spgl1Default]) (by norm_num [spgl1Default]) (by norm_num [spgl1Default]) 1 (fun v => by simp) zero_le_one
    (by norm_num [spgl1Default])

example := c136_lasso_terminates (LinearMap.id : Vec 1 →ₗ[ℝ] Vec 1) (LinearMap.id : Vec 1 →ₗ[ℝ] Vec 1) (fun _ _ => rfl) (v1 3) 2 (by norm_num) 0 spgl1Default
  (by norm_num [spgl1Default]) (by norm_num [spgl1Default]) (by norm_num [spgl1Default]) (by norm_num [spgl1Default]) (by norm_num [spgl1Default])

end Verif.Cvx
