import Verif.Cvx.Spgl1Model
import Verif.Opt.ProjProps
import Verif.Opt.SpgProps

set_option autoImplicit false
/-!
# SPGL1 (C61, C62)

`A` is a real linear operator and `At` its adjoint. The LASSO problem is to minimise `½|b - A x|²` over `|x|₁ ≤ tau`.
-/
noncomputable section
namespace Verif.Cvx
open Verif.Loop Verif.Opt
open scoped RealInnerProductSpace

variable {m n : ℕ}

/-- `trans` is the adjoint of `times`. -/
def IsAdj (A : Vec n →ₗ[ℝ] Vec m) (At : Vec m →ₗ[ℝ] Vec n) : Prop := ∀ x y, ⟪A x, y⟫ = ⟪x, At y⟫

theorem abs_le_linf (g : Vec n) (i : Fin n) : |g i| ≤ linf g := by
  have := norm_le_pi_norm g.ofLp i
  rwa [Real.norm_eq_abs] at this

theorem linf_nonneg (g : Vec n) : 0 ≤ linf g := norm_nonneg _

theorem inner_le_linf (g x : Vec n) : |⟪g, x⟫| ≤ linf g * l1 x := by
  rw [Verif.Opt.inner_sum, l1, Finset.mul_sum]
  refine (Finset.abs_sum_le_sum_abs _ _).trans (Finset.sum_le_sum fun i _ => ?_)
  rw [abs_mul]
  exact mul_le_mul_of_nonneg_right (abs_le_linf g i) (abs_nonneg _)

theorem linf_neg (g : Vec n) : linf (-g) = linf g := by
  unfold linf
  rw [WithLp.ofLp_neg, norm_neg]

theorem project_nearest {q : ℝ} (hq : 0 ≤ q) (x : Vec n) : IsNearest {z | l1 z ≤ q} x (projectToL1Ball x q) := by
  have := l1_nearest q hq x
  simpa [projectToL1Ball, projL1Ball] using this

theorem l1_add_le (x y : Vec n) : l1 (x + y) ≤ l1 x + l1 y := by
  rw [l1, l1, l1, ← Finset.sum_add_distrib]
  exact Finset.sum_le_sum fun i _ => abs_add_le _ _

theorem l1_smul (c : ℝ) (x : Vec n) : l1 (c • x) = |c| * l1 x := by
  rw [l1, l1, Finset.mul_sum]
  exact Finset.sum_congr rfl fun i _ => by rw [PiLp.smul_apply, smul_eq_mul, abs_mul]

theorem convex_l1 (q : ℝ) : Convex ℝ {z : Vec n | l1 z ≤ q} := by
  intro x hx y hy a b ha hb hab
  show l1 (a • x + b • y) ≤ q
  have h1 := l1_add_le (a • x) (b • y)
  rw [l1_smul, l1_smul, abs_of_nonneg ha, abs_of_nonneg hb] at h1
  have h2 : a * l1 x ≤ a * q := mul_le_mul_of_nonneg_left hx ha
  have h3 : b * l1 y ≤ b * q := mul_le_mul_of_nonneg_left hy hb
  have : a * q + b * q = q := by rw [← add_mul, hab, one_mul]
  linarith

/-- The projected step from a feasible point is a descent direction. -/
theorem project_descent {q : ℝ} (hq : 0 ≤ q) (x g : Vec n) (hx : l1 x ≤ q) (l : ℝ) :
    ‖projectToL1Ball (x - l • g) q - x‖ ^ 2 ≤ -l * ⟪g, projectToL1Ball (x - l • g) q - x⟫ := by
  have h := (project_nearest hq (x - l • g)).inner_le (convex_l1 q) hx
  set p := projectToL1Ball (x - l • g) q with hp
  have e1 : x - l • g - p = -(l • g) - (p - x) := by abel
  have e2 : x - p = -(p - x) := by abel
  rw [e1, e2, inner_neg_right, inner_sub_left, inner_neg_left, real_inner_smul_left, real_inner_self_eq_norm_sq] at h
  linarith

theorem objVal_eq (r : Vec m) : objVal r = ‖r‖ ^ 2 / 2 := by
  rw [objVal, real_inner_self_eq_norm_sq, abs_of_nonneg (by positivity)]; ring

section ls
variable (A : Vec n → Vec m) (b : Vec m) (x g : Vec n) (fMax tau gamma : ℝ) (calls : ℕ)

theorem curvy_out (alpha0 : ℝ) : Out curvyCond (curvyNext A b x (alpha0 • g) fMax tau gamma) (curvyInit A b x (alpha0 • g) fMax tau gamma calls)
    (curvyLineSearch A b x g alpha0 fMax tau gamma calls) := by
  classical
  exact run_out (fun s => s.nIters) 10 (fun s h => h.1) (fun s _ => Nat.lt_succ_self _) 10 _ (by simp [curvyInit, curvyCandidate])

/-- What the line search maintains. -/
structure CurvyInv (s : CurvyState m n) : Prop where
  feas : l1 s.xNew ≤ tau
  res : s.rNew = b - A s.xNew
  dir : s.dNew = s.xNew - x
  val : s.fVal = objVal s.rNew
  lim : s.fLim = fMax + gamma * s.alpha * s.gtd
  alpha_pos : 0 < s.alpha
  scale_pos : 0 < s.scale
  gtd_eq : s.gtd = s.scale * ⟪g, s.dNew⟫
  gtd_le : ‖s.dNew‖ ^ 2 ≤ -s.alpha * s.gtd
  calls_eq : s.timesCalls = calls + s.nIters + 1
  iters_le : s.nIters ≤ 10

theorem curvyCandidate_inv (htau : 0 ≤ tau) (hx : l1 x ≤ tau) (alpha scale dNormOld : ℝ) (nIters nSafe c : ℕ) (ha : 0 < alpha) (hs : 0 < scale)
    (hc : c = calls + nIters) (hn : nIters ≤ 10) :
    CurvyInv A b x g fMax tau gamma calls (curvyCandidate A b x g fMax tau gamma alpha scale dNormOld nIters nSafe c) := by
  refine ⟨(project_nearest htau _).1, rfl, rfl, rfl, rfl, ha, hs, rfl, ?_, by simp [curvyCandidate, Verif.Sls.counted, hc], hn⟩
  have := project_descent htau x g hx (alpha * scale)
  show ‖projectToL1Ball (x - (alpha * scale) • g) tau - x‖ ^ 2 ≤ -alpha * (scale * ⟪g, projectToL1Ball (x - (alpha * scale) • g) tau - x⟫)
  linarith

theorem curvy_inv (htau : 0 ≤ tau) (hx : l1 x ≤ tau) (s : CurvyState m n)
    (h : Reach curvyCond (curvyNext A b x g fMax tau gamma) (curvyInit A b x g fMax tau gamma calls) s) :
    CurvyInv A b x g fMax tau gamma calls s := by
  refine h.inv _ (curvyCandidate_inv A b x g fMax tau gamma calls htau hx 1 1 0 0 0 calls one_pos one_pos (by simp) (by simp)) fun s hs hc => ?_
  have hgtd : s.gtd < 0 := hc.2.1
  have hd : s.dNew ≠ 0 := by
    intro h0; rw [hs.gtd_eq, h0, inner_zero_right, mul_zero] at hgtd; exact lt_irrefl _ hgtd
  have hg : g ≠ 0 := by
    intro h0; rw [hs.gtd_eq, h0, inner_zero_left, mul_zero] at hgtd; exact lt_irrefl _ hgtd
  have hn : (0 : ℝ) < n := by
    rcases Nat.eq_zero_or_pos n with h0 | h0
    · subst h0; exact absurd (Subsingleton.elim _ _) hd
    · exact_mod_cast h0
  have h1 : 0 < ‖s.dNew‖ / Real.sqrt n := div_pos (norm_pos_iff.mpr hd) (Real.sqrt_pos.mpr hn)
  have h2 : 0 < ‖g‖ / Real.sqrt n := div_pos (norm_pos_iff.mpr hg) (Real.sqrt_pos.mpr hn)
  have hap := hs.alpha_pos
  refine curvyCandidate_inv A b x g fMax tau gamma calls htau hx _ _ _ _ _ _ (by positivity) ?_ (by rw [hs.calls_eq]; ring) (by have := hc.1; omega)
  split
  · exact div_pos (div_pos h1 h2) (by positivity)
  · exact hs.scale_pos

end ls

/-- The line search returns a feasible point with its residual and value, having made `n_iters + 1` operator calls; the value is below the limit, or
the point has not moved, or the limit of 10 rounds was reached. -/
theorem curvy_spec (A : Vec n → Vec m) (b : Vec m) (x g : Vec n) (alpha0 fMax tau gamma : ℝ) (calls : ℕ) (htau : 0 ≤ tau) (hx : l1 x ≤ tau) :
    let s := curvyLineSearch A b x g alpha0 fMax tau gamma calls
    CurvyInv A b x (alpha0 • g) fMax tau gamma calls s ∧ (s.fVal < s.fLim ∨ s.xNew = x ∨ s.nIters = 10) := by
  have ho := curvy_out A b x g fMax tau gamma calls alpha0
  have hi := curvy_inv A b x (alpha0 • g) fMax tau gamma calls htau hx _ ho.1
  refine ⟨hi, ?_⟩
  by_cases h10 : (curvyLineSearch A b x g alpha0 fMax tau gamma calls).nIters = 10
  · exact Or.inr (Or.inr h10)
  by_cases hlt : (curvyLineSearch A b x g alpha0 fMax tau gamma calls).fVal < (curvyLineSearch A b x g alpha0 fMax tau gamma calls).fLim
  · exact Or.inl hlt
  · right; left
    have hgt : ¬ (curvyLineSearch A b x g alpha0 fMax tau gamma calls).gtd < 0 := by
      intro hg
      exact ho.2 ⟨lt_of_le_of_ne hi.iters_le h10, hg, not_lt.mp hlt⟩
    have h1 := hi.gtd_le
    have h2 := hi.alpha_pos
    have h3 : ‖(curvyLineSearch A b x g alpha0 fMax tau gamma calls).dNew‖ ^ 2 ≤ 0 := by nlinarith
    have h4 : ‖(curvyLineSearch A b x g alpha0 fMax tau gamma calls).dNew‖ = 0 := by
      have := norm_nonneg (curvyLineSearch A b x g alpha0 fMax tau gamma calls).dNew
      nlinarith
    rw [norm_eq_zero, hi.dir, sub_eq_zero] at h4
    exact h4

/-- The invariant of the LASSO loop. -/
structure LassoInv (A : Vec n → Vec m) (At : Vec m → Vec n) (b : Vec m) (tau : ℝ) (o : Spgl1Opts) (s : LassoState m n) : Prop where
  feas : l1 s.x ≤ tau
  res : s.r = b - A s.x
  grad : s.g = -At s.r
  past : s.fPast.head? = some (objVal s.r)
  len : s.fPast.length = o.memory
  rn : s.rNorm = ‖s.r‖
  gap : s.rGap = relGap b s.g s.r (objVal s.r) tau
  times_eq : s.nTimes = s.timesCalls
  trans_eq : s.transCalls = s.iterations
  times_it : s.timesCalls = s.iterations + s.nLsIters
  trans_rep : s.nTrans = s.transCalls + s.nLsIters

theorem lasso_inv (A : Vec n → Vec m) (At : Vec m → Vec n) (b : Vec m) (tau : ℝ) (htau : 0 ≤ tau) (x0 : Vec n) (o : Spgl1Opts) (hm : 0 < o.memory)
    (s : LassoState m n) (h : LassoReach A At b tau x0 o s) : LassoInv A At b tau o s := by
  refine Reach.inv _ h ⟨(project_nearest htau _).1, rfl, rfl, ?_, by simp [lassoInit], rfl, rfl, rfl, rfl, rfl, rfl⟩ fun s hs _ => ?_
  · obtain ⟨k, hk⟩ : ∃ k, o.memory = k + 1 := ⟨o.memory - 1, by omega⟩
    simp [lassoInit, hk, List.replicate_succ]
  · obtain ⟨hi, _⟩ := curvy_spec A b s.x s.g s.alphaNext (listMax s.fPast) tau o.gamma s.timesCalls htau hs.feas
    have hlen : 0 < s.fPast.length := by rw [hs.len]; exact hm
    refine ⟨hi.feas, hi.res, rfl, ?_, ?_, rfl, ?_, ?_, ?_, ?_, ?_⟩
    · show (cbufPushLeft s.fPast _).head? = some (objVal (curvyLineSearch A b s.x s.g s.alphaNext (listMax s.fPast) tau o.gamma s.timesCalls).rNew)
      rw [← hi.val, cbufPushLeft]
      obtain ⟨k, hk⟩ : ∃ k, s.fPast.length = k + 1 := ⟨s.fPast.length - 1, by omega⟩
      rw [hk, List.take_succ_cons]; rfl
    · show (cbufPushLeft s.fPast _).length = _
      rw [cbufPushLeft, List.length_take, List.length_cons, ← hs.len]; omega
    · show relGap b _ _ (curvyLineSearch A b s.x s.g s.alphaNext (listMax s.fPast) tau o.gamma s.timesCalls).fVal tau = _
      rw [hi.val]; rfl
    · show s.nTimes + _ + 1 = (curvyLineSearch A b s.x s.g s.alphaNext (listMax s.fPast) tau o.gamma s.timesCalls).timesCalls
      rw [hi.calls_eq, hs.times_eq]
    · show s.transCalls + 1 = s.iterations + 1
      rw [hs.trans_eq]
    · show (curvyLineSearch A b s.x s.g s.alphaNext (listMax s.fPast) tau o.gamma s.timesCalls).timesCalls = s.iterations + 1 + (s.nLsIters + _)
      rw [hi.calls_eq, hs.times_it]; ring
    · show s.nTimes + _ + 1 = s.transCalls + 1 + (s.nLsIters + _)
      rw [hs.times_eq, hs.times_it, hs.trans_eq]; ring

/-- **C61** every state of `solve_lasso_from` has an `x` in the l1 ball, its residual, its gradient, its objective as newest remembered value, and its
residual norm. -/
theorem c61_consistent (A : Vec n →ₗ[ℝ] Vec m) (At : Vec m →ₗ[ℝ] Vec n) (b : Vec m) (tau : ℝ) (htau : 0 ≤ tau) (x0 : Vec n) (o : Spgl1Opts)
    (hm : 0 < o.memory) (s : LassoState m n) (h : LassoReach A At b tau x0 o s) :
    ∑ i, |s.x i| ≤ tau ∧ s.r = b - A s.x ∧ s.g = At (A s.x - b) ∧ s.rNorm = ‖b - A s.x‖ ∧ s.fPast.head? = some (‖b - A s.x‖ ^ 2 / 2) := by
  have hi := lasso_inv A At b tau htau x0 o hm s h
  refine ⟨hi.feas, hi.res, ?_, by rw [hi.rn, hi.res], by rw [hi.past, objVal_eq, hi.res]⟩
  rw [hi.grad, hi.res, ← map_neg, neg_sub]

/-- Weak duality for the LASSO: the gap bounds the suboptimality, and it is nonnegative. -/
theorem lasso_duality (A : Vec n →ₗ[ℝ] Vec m) (At : Vec m →ₗ[ℝ] Vec n) (hadj : IsAdj A At) (b : Vec m) (tau : ℝ) (x y : Vec n)
    (hx : l1 x ≤ tau) (hy : l1 y ≤ tau) :
    0 ≤ ⟪b - A x, (b - A x) - b⟫ + tau * linf (At (b - A x)) ∧
    ‖b - A x‖ ^ 2 / 2 - (⟪b - A x, (b - A x) - b⟫ + tau * linf (At (b - A x))) ≤ ‖b - A y‖ ^ 2 / 2 := by
  set r := b - A x with hr
  have e1 : r - b = -(A x) := by rw [hr]; abel
  have key : ∀ z, l1 z ≤ tau → |⟪r, A z⟫| ≤ tau * linf (At r) := by
    intro z hz
    have : ⟪r, A z⟫ = ⟪At r, z⟫ := by rw [real_inner_comm, hadj, real_inner_comm]
    rw [this]
    refine (inner_le_linf _ _).trans ?_
    rw [mul_comm]
    exact mul_le_mul_of_nonneg_right hz (linf_nonneg _)
  have k1 := abs_le.mp (key x hx)
  have k2 := abs_le.mp (key y hy)
  rw [e1, inner_neg_right]
  refine ⟨by linarith, ?_⟩
  have e2 : b - A y = r + (A x - A y) := by rw [hr]; abel
  rw [e2, norm_add_sq_real, inner_sub_right]
  have := sq_nonneg ‖A x - A y‖
  linarith

/-- **C61** the reported relative gap certifies the solution: the objective at `x` exceeds the objective at any point of the l1 ball by at most
`r_gap · max(1, f)`. -/
theorem c61_certified (A : Vec n →ₗ[ℝ] Vec m) (At : Vec m →ₗ[ℝ] Vec n) (hadj : IsAdj A At) (b : Vec m) (tau : ℝ) (htau : 0 ≤ tau) (x0 : Vec n)
    (o : Spgl1Opts) (hm : 0 < o.memory) (s : LassoState m n) (h : LassoReach A At b tau x0 o s) (y : Vec n) (hy : ∑ i, |y i| ≤ tau) :
    ‖b - A s.x‖ ^ 2 / 2 ≤ ‖b - A y‖ ^ 2 / 2 + s.rGap * max 1 (‖b - A s.x‖ ^ 2 / 2) := by
  have hi := lasso_inv A At b tau htau x0 o hm s h
  obtain ⟨h0, h1⟩ := lasso_duality A At hadj b tau s.x y hi.feas hy
  have hm1 : 0 < max 1 (‖b - A s.x‖ ^ 2 / 2) := lt_of_lt_of_le one_pos (le_max_left _ _)
  have e : s.rGap * max 1 (‖b - A s.x‖ ^ 2 / 2) = ⟪b - A s.x, (b - A s.x) - b⟫ + tau * linf (At (b - A s.x)) := by
    rw [hi.gap, relGap, hi.grad, linf_neg, objVal_eq, hi.res, div_mul_cancel₀ _ hm1.ne', abs_of_nonneg h0]
  rw [e]; linarith

/-- **C61** `solve_lasso_from` always returns, and the result is certified to be within `opt_tol · max(1, f)` of the optimum, or has relative residual
below `opt_tol`, or the iteration limit was reached. -/
theorem c61_stop (A : Vec n →ₗ[ℝ] Vec m) (At : Vec m →ₗ[ℝ] Vec n) (hadj : IsAdj A At) (b : Vec m) (tau : ℝ) (htau : 0 ≤ tau) (x0 : Vec n)
    (o : Spgl1Opts) (hm : 0 < o.memory) :
    (∃ s, LassoSolveFrom A At b tau x0 o s) ∧
    ∀ s, LassoSolveFrom A At b tau x0 o s →
      (∀ y : Vec n, ∑ i, |y i| ≤ tau → ‖b - A s.x‖ ^ 2 / 2 ≤ ‖b - A y‖ ^ 2 / 2 + o.optTol * max 1 (‖b - A s.x‖ ^ 2 / 2)) ∨
      ‖b - A s.x‖ < o.optTol * ‖b‖ ∨ o.maxIters ≤ s.iterations := by
  refine ⟨exists_out (fun s => s.iterations) o.maxIters (fun s h => h.1) fun s => Nat.lt_succ_self _, fun s ⟨hr, hc⟩ => ?_⟩
  have hi := lasso_inv A At b tau htau x0 o hm s hr
  by_cases h1 : s.iterations < o.maxIters
  · by_cases h2 : s.rGap > o.optTol
    · right; left
      by_contra h3
      refine hc ⟨h1, h2, ?_⟩
      rw [hi.rn, hi.res]; exact not_lt.mp h3
    · left
      intro y hy
      have h3 := c61_certified A At hadj b tau htau x0 o hm s hr y hy
      have h4 : 0 ≤ max 1 (‖b - A s.x‖ ^ 2 / 2) := le_trans zero_le_one (le_max_left _ _)
      have := mul_le_mul_of_nonneg_right (not_lt.mp h2) h4
      linarith
  · right; right; exact not_lt.mp h1

/-- **C61** `solve_lasso` always returns; the result has l1 norm at most `tau`, the residual it reports is its residual, and it is within `opt_tol · max(1, f)` of the
optimum, or has relative residual below `opt_tol`, or the iteration limit was reached. -/
theorem c61_solve_lasso (A : Vec n →ₗ[ℝ] Vec m) (At : Vec m →ₗ[ℝ] Vec n) (hadj : IsAdj A At) (b : Vec m) (tau : ℝ) (htau : 0 ≤ tau) (o : Spgl1Opts) (hm : 0 < o.memory) :
    (∃ s, LassoSolve A At b tau o s) ∧
    ∀ s, LassoSolve A At b tau o s → ∑ i, |s.x i| ≤ tau ∧ s.r = b - A s.x ∧
      ((∀ y : Vec n, ∑ i, |y i| ≤ tau → ‖b - A s.x‖ ^ 2 / 2 ≤ ‖b - A y‖ ^ 2 / 2 + o.optTol * max 1 (‖b - A s.x‖ ^ 2 / 2)) ∨
      ‖b - A s.x‖ < o.optTol * ‖b‖ ∨ o.maxIters ≤ s.iterations) := by
  obtain ⟨h1, h2⟩ := c61_stop A At hadj b tau htau 0 o hm
  refine ⟨h1, fun s hs => ?_⟩
  obtain ⟨c1, c2, -⟩ := c61_consistent A At b tau htau 0 o hm s hs.1
  exact ⟨c1, c2, h2 s hs⟩

/-- **C61** unless the line search hits its limit of 10 rounds, an iteration does not raise the objective above the largest remembered value. -/
theorem c61_decrease (A : Vec n →ₗ[ℝ] Vec m) (At : Vec m →ₗ[ℝ] Vec n) (b : Vec m) (tau : ℝ) (htau : 0 ≤ tau) (x0 : Vec n) (o : Spgl1Opts)
    (hm : 0 < o.memory) (hg : 0 ≤ o.gamma) (s : LassoState m n) (h : LassoReach A At b tau x0 o s)
    (hls : (lassoBody A At b tau o s).nLsIters < s.nLsIters + 10) :
    ‖b - A (lassoBody A At b tau o s).x‖ ^ 2 / 2 ≤ listMax s.fPast ∧ listMax (lassoBody A At b tau o s).fPast ≤ listMax s.fPast := by
  have hs := lasso_inv A At b tau htau x0 o hm s h
  obtain ⟨hi, hacc⟩ := curvy_spec A b s.x s.g s.alphaNext (listMax s.fPast) tau o.gamma s.timesCalls htau hs.feas
  set ls := curvyLineSearch A b s.x s.g s.alphaNext (listMax s.fPast) tau o.gamma s.timesCalls with hlsd
  have hn : ls.nIters ≠ 10 := by
    have : (lassoBody A At b tau o s).nLsIters = s.nLsIters + ls.nIters := rfl
    omega
  have hne : s.fPast ≠ [] := by intro h0; have := hs.len; rw [h0] at this; simp at this; omega
  have hmem : objVal s.r ∈ s.fPast := List.mem_of_mem_head? (by rw [hs.past]; rfl)
  have hle : ls.fVal ≤ listMax s.fPast := by
    rcases hacc with h1 | h1 | h1
    · rw [hi.lim] at h1
      have h2 := hi.gtd_le
      have h3 := hi.alpha_pos
      have h4 : o.gamma * ls.alpha * ls.gtd ≤ 0 := by
        have : 0 ≤ -ls.alpha * ls.gtd := le_trans (by positivity) h2
        nlinarith
      linarith
    · rw [hi.val, hi.res, h1, ← hs.res]; exact le_listMax hmem
    · exact absurd h1 hn
  constructor
  · have : ‖b - A (lassoBody A At b tau o s).x‖ ^ 2 / 2 = ls.fVal := by rw [hi.val, objVal_eq, hi.res]; rfl
    rw [this]; exact hle
  · show listMax (cbufPushLeft s.fPast ls.fVal) ≤ _
    have hlen : 0 < s.fPast.length := by rw [hs.len]; exact hm
    obtain ⟨k, hk⟩ : ∃ k, s.fPast.length = k + 1 := ⟨s.fPast.length - 1, by omega⟩
    refine listMax_le (by rw [cbufPushLeft, hk, List.take_succ_cons]; simp) fun v hv => ?_
    rw [cbufPushLeft] at hv
    rcases List.mem_cons.mp (List.mem_of_mem_take hv) with rfl | h1
    · exact hle
    · exact le_listMax h1

/-- **C61** (counters, partial: only `n_times` is exact) the reported `n_times` is the number of calls of `times` made; the reported `n_trans` exceeds
the number of calls of `trans` made by the number of line search rounds. -/
theorem c61_counters_partial (A : Vec n →ₗ[ℝ] Vec m) (At : Vec m →ₗ[ℝ] Vec n) (b : Vec m) (tau : ℝ) (htau : 0 ≤ tau) (x0 : Vec n) (o : Spgl1Opts)
    (hm : 0 < o.memory) (s : LassoState m n) (h : LassoReach A At b tau x0 o s) :
    s.nTimes = s.timesCalls ∧ s.nTimes = s.iterations + s.nLsIters ∧ s.transCalls = s.iterations ∧ s.nTrans = s.transCalls + s.nLsIters := by
  have hi := lasso_inv A At b tau htau x0 o hm s h
  exact ⟨hi.times_eq, by rw [hi.times_eq, hi.times_it], hi.trans_eq, hi.trans_rep⟩

/-- One-dimensional vectors for the concrete runs. -/
def v1 (a : ℝ) : Vec 1 := vec fun _ => a

section oneD
theorem v1_ext (x : Vec 1) : x = v1 (x 0) := by ext i; fin_cases i; rfl
theorem v1_sub (a b : ℝ) : v1 a - v1 b = v1 (a - b) := by ext i; rfl
theorem v1_neg (a : ℝ) : -v1 a = v1 (-a) := by ext i; rfl
theorem v1_smul (c a : ℝ) : c • v1 a = v1 (c * a) := by ext i; rfl
theorem v1_zero : (0 : Vec 1) = v1 0 := by ext i; rfl
theorem v1_l1 (a : ℝ) : l1 (v1 a) = |a| := by simp [l1, v1]
theorem v1_inner (a b : ℝ) : ⟪v1 a, v1 b⟫ = a * b := by rw [Verif.Opt.inner_sum]; simp [v1]
theorem v1_norm (a : ℝ) : ‖v1 a‖ = |a| := by
  have : ‖v1 a‖ ^ 2 = |a| ^ 2 := by rw [norm_sq_sum]; simp [v1]
  exact (sq_eq_sq₀ (norm_nonneg _) (abs_nonneg _)).mp this
theorem v1_linf (a : ℝ) : linf (v1 a) = |a| := by
  refine le_antisymm ?_ (abs_le_linf (v1 a) 0)
  unfold linf
  rw [pi_norm_le_iff_of_nonneg (abs_nonneg a)]
  intro i
  exact le_of_eq (Real.norm_eq_abs a)
theorem v1_obj (a : ℝ) : objVal (v1 a) = a ^ 2 / 2 := by rw [objVal_eq, v1_norm, sq_abs]
theorem v1_proj_in {a q : ℝ} (h : |a| ≤ q) : projectToL1Ball (v1 a) q = v1 a := by
  unfold projectToL1Ball projL1Ball
  show (if l1 (v1 a) > q then _ else v1 a) = v1 a
  rw [if_neg (by rw [v1_l1]; exact not_lt.mpr h)]
theorem v1_proj_neg {a q : ℝ} (hq : 0 ≤ q) (h : a ≤ -q) : projectToL1Ball (v1 a) q = v1 (-q) := by
  refine (project_nearest hq (v1 a)).unique (IsNearest.of_inner ?_ ?_)
  · show l1 (v1 (-q)) ≤ q
    rw [v1_l1, abs_neg, abs_of_nonneg hq]
  · intro z hz
    have hz' : |z 0| ≤ q := by rw [v1_ext z] at hz; have : l1 (v1 (z 0)) ≤ q := hz; rwa [v1_l1] at this
    rw [v1_ext z, v1_sub, v1_sub, v1_inner]
    have := (abs_le.mp hz').1
    nlinarith
end oneD

/-- Multiplication by 4 on one-dimensional arrays. -/
def four : Vec 1 →ₗ[ℝ] Vec 1 := (4 : ℝ) • LinearMap.id

theorem four_v1 (a : ℝ) : four (v1 a) = v1 (4 * a) := v1_smul 4 a

theorem four_adj : IsAdj four four := fun x y => by
  rw [v1_ext x, v1_ext y, four_v1, four_v1, v1_inner, v1_inner]; ring

/-- The default options (cvx/spgl1.py:54-73). -/
def spgl1Default : Spgl1Opts :=
  { bpTol := 1e-6, optTol := 1e-4, decTol := 1e-4, gamma := 1e-4, alphaMin := 1e-16, alphaMax := 1e5, memory := 3, maxMatvec := 100000, maxIters := 100 }

theorem curvy_backtracks (A : Vec n → Vec m) (b : Vec m) (x g : Vec n) (alpha0 fMax tau gamma : ℝ) (calls : ℕ)
    (h : curvyCond (curvyInit A b x (alpha0 • g) fMax tau gamma calls)) : 1 ≤ (curvyLineSearch A b x g alpha0 fMax tau gamma calls).nIters := by
  have ho := curvy_out A b x g fMax tau gamma calls alpha0
  generalize curvyLineSearch A b x g alpha0 fMax tau gamma calls = t at ho ⊢
  obtain ⟨h1, h2⟩ := ho
  generalize hi : curvyInit A b x (alpha0 • g) fMax tau gamma calls = s0 at h h1
  cases h1 with
  | init => exact absurd h h2
  | step hr hc => exact Nat.le_add_left 1 _

/-- **C61** fails for `n_trans`: solving `4 x = 1` with `tau = 10` and default options, the first iteration backtracks, and the solver reports more calls
of `trans` than it made. -/
theorem c61_counters_fails : IsAdj four four ∧ ∃ s : LassoState 1 1, LassoReach four four (v1 1) 10 0 spgl1Default s ∧ s.transCalls < s.nTrans := by
  refine ⟨four_adj, ?_⟩
  have hx : projectToL1Ball (0 : Vec 1) 10 = v1 0 := by rw [v1_zero]; exact v1_proj_in (by norm_num)
  have hr : v1 1 - four (v1 0) = v1 1 := by rw [four_v1, v1_sub]; norm_num
  have hg : -four (v1 1) = v1 (-4) := by rw [four_v1, v1_neg]; norm_num
  have hd : projectToL1Ball (v1 0 - v1 (-4)) 10 - v1 0 = v1 4 := by
    rw [v1_sub, v1_proj_in (by norm_num), v1_sub]; norm_num
  have hal : firstAlpha spgl1Default (v1 4) = 1 / 4 := by
    rw [firstAlpha, v1_linf, if_neg (by norm_num), clip]
    simp only [spgl1Default]
    rw [max_eq_left (by norm_num), min_eq_left (by norm_num)]; norm_num
  set s0 := lassoInit four four (v1 1) 10 0 spgl1Default with hs0
  have e_x : s0.x = v1 0 := hx
  have e_r : s0.r = v1 1 := by show v1 1 - four (projectToL1Ball 0 10) = _; rw [hx, hr]
  have e_g : s0.g = v1 (-4) := by show -four (v1 1 - four (projectToL1Ball 0 10)) = _; rw [hx, hr, hg]
  have e_a : s0.alphaNext = 1 / 4 := by
    have : s0.alphaNext = firstAlpha spgl1Default (projectToL1Ball (s0.x - s0.g) 10 - s0.x) := rfl
    rw [this, e_x, e_g, hd, hal]
  have e_f : listMax s0.fPast = 1 / 2 := by
    have : s0.fPast = List.replicate 3 (objVal s0.r) := rfl
    rw [this, e_r, v1_obj]; norm_num [listMax, List.replicate]
  have hc : lassoCond (v1 1) spgl1Default s0 := by
    refine ⟨by simp [hs0, lassoInit, spgl1Default], ?_, ?_⟩
    · have : s0.rGap = relGap (v1 1) s0.g s0.r (objVal s0.r) 10 := rfl
      rw [this, e_g, e_r, relGap, v1_sub, v1_inner, v1_linf, v1_obj]
      norm_num [spgl1Default]
    · have : s0.rNorm = ‖s0.r‖ := rfl
      rw [this, e_r, v1_norm]; norm_num [spgl1Default]
  have hreach : LassoReach four four (v1 1) 10 0 spgl1Default (lassoBody four four (v1 1) 10 spgl1Default s0) := Reach.step .init hc
  refine ⟨_, hreach, ?_⟩
  have hcnt := c61_counters_partial four four (v1 1) 10 (by norm_num) 0 spgl1Default (by simp [spgl1Default]) _ hreach
  have hls : 1 ≤ (curvyLineSearch four (v1 1) s0.x s0.g s0.alphaNext (listMax s0.fPast) 10 spgl1Default.gamma s0.timesCalls).nIters := by
    apply curvy_backtracks
    rw [e_x, e_g, e_a, e_f, v1_smul]
    have hxn : projectToL1Ball (v1 0 - ((1 : ℝ) * 1) • v1 (1 / 4 * -4)) 10 = v1 1 := by
      rw [v1_smul, v1_sub, v1_proj_in (by norm_num)]; norm_num
    refine ⟨by simp [curvyInit, curvyCandidate], ?_, ?_⟩
    · show (1 : ℝ) * ⟪v1 (1 / 4 * -4), projectToL1Ball (v1 0 - ((1 : ℝ) * 1) • v1 (1 / 4 * -4)) 10 - v1 0⟫ < 0
      rw [hxn, v1_sub, v1_inner]; norm_num
    · show objVal (v1 1 - four (projectToL1Ball (v1 0 - ((1 : ℝ) * 1) • v1 (1 / 4 * -4)) 10)) ≥
        1 / 2 + spgl1Default.gamma * 1 * ((1 : ℝ) * ⟪v1 (1 / 4 * -4), projectToL1Ball (v1 0 - ((1 : ℝ) * 1) • v1 (1 / 4 * -4)) 10 - v1 0⟫)
      rw [hxn, four_v1, v1_sub, v1_sub, v1_inner, v1_obj]; norm_num [spgl1Default]
  have : (lassoBody four four (v1 1) 10 spgl1Default s0).nLsIters
      = 0 + (curvyLineSearch four (v1 1) s0.x s0.g s0.alphaNext (listMax s0.fPast) 10 spgl1Default.gamma s0.timesCalls).nIters := rfl
  omega

/-- The hypotheses of the C61 theorems hold for the problem `4 x = 1`, `tau = 10`, whose second state is reached after a backtracking line search. -/
example : IsAdj four four ∧ (0 : ℝ) ≤ 10 ∧ 0 < spgl1Default.memory ∧ (0 : ℝ) ≤ spgl1Default.gamma ∧
    ∃ s : LassoState 1 1, LassoReach four four (v1 1) 10 0 spgl1Default s ∧ 1 ≤ s.nLsIters := by
  obtain ⟨h0, s, h1, h2⟩ := c61_counters_fails
  refine ⟨h0, by norm_num, by norm_num [spgl1Default], by norm_num [spgl1Default], s, h1, ?_⟩
  have := c61_counters_partial four four (v1 1) 10 (by norm_num) 0 spgl1Default (by simp [spgl1Default]) s h1
  omega

/-- A line search that accepts its first candidate meets the hypothesis of `c61_decrease`: `x = 1` from `x = 0` for `1 · x = 1`. -/
example : ∃ s : LassoState 1 1, LassoReach (LinearMap.id : Vec 1 →ₗ[ℝ] Vec 1) (LinearMap.id : Vec 1 →ₗ[ℝ] Vec 1) (v1 1) 10 0 spgl1Default s ∧
    (lassoBody (LinearMap.id : Vec 1 →ₗ[ℝ] Vec 1) (LinearMap.id : Vec 1 →ₗ[ℝ] Vec 1) (v1 1) 10 spgl1Default s).nLsIters < s.nLsIters + 10 := by
  refine ⟨_, .init, ?_⟩
  set A : Vec 1 →ₗ[ℝ] Vec 1 := LinearMap.id
  have e : ∀ x, A x = x := fun _ => rfl
  set s0 := lassoInit A A (v1 1) 10 0 spgl1Default with hs0
  have hx : projectToL1Ball (0 : Vec 1) 10 = v1 0 := by rw [v1_zero]; exact v1_proj_in (by norm_num)
  have e_x : s0.x = v1 0 := hx
  have e_r : s0.r = v1 1 := by show v1 1 - A (projectToL1Ball 0 10) = _; rw [hx, e, v1_sub]; norm_num
  have e_g : s0.g = v1 (-1) := by show -A s0.r = _; rw [e_r, e, v1_neg]
  have e_a : s0.alphaNext = 1 := by
    have : s0.alphaNext = firstAlpha spgl1Default (projectToL1Ball (s0.x - s0.g) 10 - s0.x) := rfl
    rw [this, e_x, e_g, v1_sub, v1_proj_in (by norm_num), v1_sub, firstAlpha, v1_linf, if_neg (by norm_num), clip]
    simp only [spgl1Default]
    rw [max_eq_left (by norm_num), min_eq_left (by norm_num)]; norm_num
  have e_f : listMax s0.fPast = 1 / 2 := by
    have : s0.fPast = List.replicate 3 (objVal s0.r) := rfl
    rw [this, e_r, v1_obj]; norm_num [listMax, List.replicate]
  show s0.nLsIters + (curvyLineSearch A (v1 1) s0.x s0.g s0.alphaNext (listMax s0.fPast) 10 spgl1Default.gamma s0.timesCalls).nIters < _
  have hxn : projectToL1Ball (v1 0 - ((1 : ℝ) * 1) • ((1 : ℝ) • v1 (-1))) 10 = v1 1 := by
    rw [v1_smul, v1_smul, v1_sub, v1_proj_in (by norm_num)]; norm_num
  have hacc : ¬ curvyCond (curvyInit A (v1 1) s0.x (s0.alphaNext • s0.g) (listMax s0.fPast) 10 spgl1Default.gamma s0.timesCalls) := by
    rw [e_x, e_g, e_a, e_f]
    rintro ⟨_, _, h⟩
    have h' : objVal (v1 1 - projectToL1Ball (v1 0 - ((1 : ℝ) * 1) • ((1 : ℝ) • v1 (-1))) 10) ≥ 1 / 2 + spgl1Default.gamma * 1 *
      (1 * ⟪(1 : ℝ) • v1 (-1), projectToL1Ball (v1 0 - ((1 : ℝ) * 1) • ((1 : ℝ) • v1 (-1))) 10 - v1 0⟫) := h
    rw [hxn, v1_sub, v1_sub, v1_obj, v1_smul, v1_inner] at h'
    norm_num [spgl1Default] at h'
  have := (curvy_out A (v1 1) s0.x s0.g (listMax s0.fPast) 10 spgl1Default.gamma s0.timesCalls s0.alphaNext).unique ⟨.init, hacc⟩
  rw [this]
  show s0.nLsIters + 0 < _
  omega

example := c61_consistent four four (v1 1) 10 (by norm_num) 0 spgl1Default (by norm_num [spgl1Default])

example (s : LassoState 1 1) (h : LassoReach four four (v1 1) 10 0 spgl1Default s) :=
  c61_certified four four c61_counters_fails.1 (v1 1) 10 (by norm_num) 0 spgl1Default (by norm_num [spgl1Default]) s h (v1 (-2)) (by norm_num [v1])

example := c61_stop four four c61_counters_fails.1 (v1 1) 10 (by norm_num) 0 spgl1Default (by norm_num [spgl1Default])

example := c61_solve_lasso four four c61_counters_fails.1 (v1 1) 10 (by norm_num) spgl1Default (by norm_num [spgl1Default])

example := c61_decrease (LinearMap.id : Vec 1 →ₗ[ℝ] Vec 1) (LinearMap.id : Vec 1 →ₗ[ℝ] Vec 1) (v1 1) 10 (by norm_num) 0 spgl1Default (by norm_num [spgl1Default])
  (by norm_num [spgl1Default])

end Verif.Cvx
