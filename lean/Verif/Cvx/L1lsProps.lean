import Verif.Cvx.L1lsLemmas

set_option autoImplicit false
/-!
# The interior point solver for l1-regularised least squares (C63, C84)

`A` is a real linear operator and `At` its adjoint; the problem is to minimise `lsObj A y lam v = |A v - y|² + λ Σ |v_i|`.
-/
noncomputable section
namespace Verif.Cvx
open Verif.Loop Verif.Opt
open Verif.Sls (counted)
open scoped RealInnerProductSpace

variable {m n : ℕ}

/-- The invariant of the main loop; `d0` is the first dual value. -/
structure L1lsInv (A : Vec n → Vec m) (At : Vec m → Vec n) (y : Vec m) (lam t0 d0 : ℝ) (s : L1lsState m n) : Prop where
  int : Interior s.x s.u
  z_eq : s.z = A s.x - y
  primal_eq : s.primal = lsObj A y lam s.x
  dual_le : ∀ v, s.dual ≤ lsObj A y lam v
  gap_eq : s.gap = s.primal - s.dual
  den_le : s.relDen ≤ s.dual
  den_ge : d0 ≤ s.relDen
  nu_le : linf (At s.nu) ≤ lam
  t_ge : t0 ≤ s.t
  times_eq : s.nTimes = s.timesCalls
  trans_eq : s.transCalls + 1 = s.nTrans + s.iterations
  it_pos : 1 ≤ s.iterations
  first : s.iterations = 1 → s.dxu = 0

theorem nextT_ge (n : ℕ) (s gap t : ℝ) : t ≤ nextT n s gap t := by
  unfold nextT
  split
  · exact le_rfl
  · exact le_max_right _ _

theorem l1ls_inv {A : Vec n →ₗ[ℝ] Vec m} {At : Vec m →ₗ[ℝ] Vec n} (hadj : IsAdj A At) {y : Vec m} {lam : ℝ} (hl : 0 < lam) {x0 u0 : Vec n}
    (hint : Interior x0 u0) {tol xi t0 : ℝ} {N P : ℕ} {s : L1lsState m n} (h : L1lsReach A At y lam x0 u0 tol xi t0 N P s) :
    L1lsInv A At y lam t0 (l1lsInit A At y lam x0 u0 t0).dual s := by
  induction h with
  | init =>
    refine ⟨hint, rfl, primalObj_eq _ _ _ _, fun v => ls_weak A At hadj y lam _ (getNu_feasible At hl _ _) v, rfl, le_rfl, le_rfl,
      getNu_feasible At hl _ _, le_rfl, rfl, rfl, le_rfl, fun _ => rfl⟩
  | @step s s' _ _ hb ih =>
    obtain ⟨pcg, hp, bt, hbt, rfl⟩ := hb
    have hi := bt_inv hbt.1
    obtain ⟨_, hcnt⟩ := pcg_counted hp
    refine ⟨hi.int, hi.z_eq, by show primalObj lam bt.p.x bt.z = _; rw [hi.z_eq, primalObj_eq], fun v => max_le ?_ (ih.dual_le v), rfl,
      le_max_right _ _, ih.den_ge.trans ih.den_le, getNu_feasible At hl _ _, ih.t_ge.trans (nextT_ge _ _ _ _), ?_, ?_, Nat.le_add_left 1 _, ?_⟩
    · exact ls_weak A At hadj y lam _ (getNu_feasible At hl _ _) v
    · show s.nTimes + (pcg.1.iters + bt.count) = bt.timesCalls
      rw [hi.calls_eq, ih.times_eq, hcnt]; ring
    · show s.transCalls + 1 + pcg.2 + 1 + 1 = s.nTrans + (1 + pcg.1.iters) + (s.iterations + 1)
      have := ih.trans_eq
      omega
    · intro h
      have h' : s.iterations + 1 = 1 := h
      have := ih.it_pos
      omega

/-- **C63** from a strictly feasible start, every state is strictly feasible (`|x_i| < u_i`), carries the residual `A x - y` and the objective of its
`x`, and `t` never falls below its initial value. -/
theorem c63_interior (A : Vec n →ₗ[ℝ] Vec m) (At : Vec m →ₗ[ℝ] Vec n) (hadj : IsAdj A At) (y : Vec m) (lam : ℝ) (hl : 0 < lam) (x0 u0 : Vec n)
    (hint : ∀ i, |x0 i| < u0 i) (tol xi t0 : ℝ) (N P : ℕ) (s : L1lsState m n) (h : L1lsReach A At y lam x0 u0 tol xi t0 N P s) :
    (∀ i, |s.x i| < s.u i) ∧ s.z = A s.x - y ∧ s.primal = ‖A s.x - y‖ ^ 2 + lam * ∑ i, |s.x i| ∧ t0 ≤ s.t := by
  have hi := l1ls_inv hadj hl hint h
  exact ⟨hi.int, hi.z_eq, hi.primal_eq, hi.t_ge⟩

/-- **C63** the dual point of every state is feasible and the reported dual objective is a lower bound on the objective at every point; `gap` is the
difference of the two, hence bounds the suboptimality. -/
theorem c63_dual_bound (A : Vec n →ₗ[ℝ] Vec m) (At : Vec m →ₗ[ℝ] Vec n) (hadj : IsAdj A At) (y : Vec m) (lam : ℝ) (hl : 0 < lam) (x0 u0 : Vec n)
    (hint : ∀ i, |x0 i| < u0 i) (tol xi t0 : ℝ) (N P : ℕ) (s : L1lsState m n) (h : L1lsReach A At y lam x0 u0 tol xi t0 N P s) :
    (∀ i, |At s.nu i| ≤ lam) ∧ (∀ v, s.dual ≤ ‖A v - y‖ ^ 2 + lam * ∑ i, |v i|) ∧
    ∀ v, ‖A s.x - y‖ ^ 2 + lam * ∑ i, |s.x i| ≤ ‖A v - y‖ ^ 2 + lam * ∑ i, |v i| + s.gap := by
  have hi := l1ls_inv hadj hl hint h
  refine ⟨fun i => (abs_le_linf _ i).trans hi.nu_le, hi.dual_le, fun v => ?_⟩
  have h1 := hi.dual_le v
  have h2 := hi.primal_eq
  rw [hi.gap_eq]
  unfold lsObj at h1 h2
  linarith

theorem l1ls_certified {A : Vec n →ₗ[ℝ] Vec m} {At : Vec m →ₗ[ℝ] Vec n} (hadj : IsAdj A At) {y : Vec m} {lam : ℝ} (hl : 0 < lam) {x0 u0 : Vec n}
    (hint : Interior x0 u0) {tol xi t0 : ℝ} (htol : 0 ≤ tol) {N P : ℕ} {s : L1lsState m n} (h : L1lsSolveFrom A At y lam x0 u0 tol xi t0 N P s)
    (hd : 0 ≤ s.relDen) (hN : s.iterations < N) (v : Vec n) : lsObj A y lam s.x ≤ (1 + tol) * lsObj A y lam v := by
  have hi := l1ls_inv hadj hl hint h.1
  have h1 := hi.dual_le v
  have h0 : 0 ≤ lsObj A y lam v := by unfold lsObj; positivity
  have hnc : ¬ (if s.relDen = 0 then 0 < s.gap else s.gap / s.relDen > tol) := fun hc => h.2 ⟨hc, hN⟩
  by_cases h2 : s.relDen = 0
  · rw [if_pos h2, not_lt, hi.gap_eq, hi.primal_eq] at hnc
    nlinarith
  · have hpos : 0 < s.relDen := lt_of_le_of_ne hd (Ne.symm h2)
    rw [if_neg h2, gt_iff_lt, not_lt, div_le_iff₀ hpos, hi.gap_eq, hi.primal_eq] at hnc
    have h3 := hi.den_le
    have h4 : tol * s.relDen ≤ tol * lsObj A y lam v := mul_le_mul_of_nonneg_left (h3.trans h1) htol
    linarith

/-- **C63** `l1ls.solve` with its default start, whatever the data: a run that returns before the iteration limit returns an `x` whose objective is
within the factor `1 + tol` of the optimum, and the residual `y - A x`. -/
theorem c63_default_start (A : Vec n →ₗ[ℝ] Vec m) (At : Vec m →ₗ[ℝ] Vec n) (hadj : IsAdj A At) (y : Vec m) (lam : ℝ) (hl : 0 < lam)
    (tol xi : ℝ) (htol : 0 ≤ tol) (N P : ℕ) (s : L1lsState m n) (h : L1lsSolve A At y lam tol xi N P s) (hN : s.iterations < N) (v : Vec n) :
    ‖A s.x - y‖ ^ 2 + lam * ∑ i, |s.x i| ≤ (1 + tol) * (‖A v - y‖ ^ 2 + lam * ∑ i, |v i|) ∧ -s.z = y - A s.x := by
  have hint : Interior (0 : Vec n) (vec fun _ => 1) := fun i => by simp
  have hi := l1ls_inv hadj hl hint h.1
  refine ⟨l1ls_certified hadj hl hint htol h ?_ hN v, by rw [hi.z_eq, neg_sub]⟩
  refine le_trans ?_ hi.den_ge
  show 0 ≤ dualObj y (getNu At lam (A 0 - y) _).1
  obtain ⟨c, hc0, hc1, hc⟩ := getNu_scale At hl (A 0 - y) (counted At y 0).2
  rw [hc, map_zero, zero_sub, dualObj, inner_smul_left, inner_smul_right, inner_smul_left, inner_neg_neg, inner_neg_left, real_inner_self_eq_norm_sq]
  simp only [conj_trivial]
  have : 0 ≤ ‖y‖ ^ 2 := sq_nonneg _
  nlinarith [mul_nonneg (mul_nonneg hc0.le (by linarith : (0 : ℝ) ≤ 2 - c)) this]

/-- **C63** (partial: any strictly feasible start, but only if the denominator of the relative gap is nonnegative) the stopping test certifies the
returned `x`. -/
theorem c63_stop_partial (A : Vec n →ₗ[ℝ] Vec m) (At : Vec m →ₗ[ℝ] Vec n) (hadj : IsAdj A At) (y : Vec m) (lam : ℝ) (hl : 0 < lam) (x0 u0 : Vec n)
    (hint : ∀ i, |x0 i| < u0 i) (tol xi t0 : ℝ) (htol : 0 ≤ tol) (N P : ℕ) (s : L1lsState m n) (h : L1lsSolveFrom A At y lam x0 u0 tol xi t0 N P s)
    (hd : 0 ≤ s.relDen) (hN : s.iterations < N) (v : Vec n) :
    ‖A s.x - y‖ ^ 2 + lam * ∑ i, |s.x i| ≤ (1 + tol) * (‖A v - y‖ ^ 2 + lam * ∑ i, |v i|) :=
  l1ls_certified hadj hl hint htol h hd hN v

/-- **C63** `gradient_phi` is the gradient of the barrier function: the derivative of `get_phi` along every direction is the inner product with it. -/
theorem c63_gradient (A : Vec n →ₗ[ℝ] Vec m) (At : Vec m →ₗ[ℝ] Vec n) (hadj : IsAdj A At) (y : Vec m) (lam t : ℝ) (x u : Vec n)
    (h : ∀ i, |x i| < u i) (dx du : Vec n) :
    HasDerivAt (fun s : ℝ => ‖A (x + s • dx) - y‖ ^ 2 + lam * ∑ i, (u i + s * du i) -
        (1 / t) * ∑ i, (Real.log ((u i + s * du i) - (x i + s * dx i)) + Real.log ((u i + s * du i) + (x i + s * dx i))))
      ⟪gradPhi lam x u (At ((2 : ℝ) • (A x - y))) t, pv dx du⟫ 0 := by
  refine (phi_deriv A At hadj y lam t h dx du).congr_of_eventuallyEq (Filter.Eventually.of_forall fun s => ?_)
  beta_reduce
  rw [getPhi, real_inner_self_eq_norm_sq, ← Finset.sum_add_distrib, one_div_mul_eq_div]
  congr 2
  refine Finset.sum_congr rfl fun i _ => ?_
  simp only [PiLp.add_apply, PiLp.smul_apply, smul_eq_mul]
  congr 2 <;> ring

/-- **C63** the Newton system is well posed at every strictly feasible pair: the Hessian operator and the preconditioner are linear, symmetric and
positive definite (so the theorems on `pcg`, C38, apply), and the preconditioner inverts the Hessian in which `2 AᵀA` is replaced by `2 I`. -/
theorem c63_newton (A : Vec n →ₗ[ℝ] Vec m) (At : Vec m →ₗ[ℝ] Vec n) (hadj : IsAdj A At) (x u : Vec n) (h : ∀ i, |x i| < u i) (t : ℝ) (ht : 0 < t) :
    (∃ H : PVec n →ₗ[ℝ] PVec n, (∀ v, H v = hessian A At x u t v) ∧ SPD H) ∧
    (∃ M : PVec n →ₗ[ℝ] PVec n, (∀ v, M v = precond x u t v) ∧ SPD M) ∧
    (∀ v, precond x u t (hessian id id x u t v) = v) :=
  ⟨⟨hessLin A At x u t, fun _ => rfl, hess_spd A At hadj h ht⟩, ⟨precLin x u t, fun _ => rfl, prec_spd h ht⟩, prec_inverse h ht⟩

/-- **C63** the backtracking line search along a descent direction ends, and it ends at a strictly feasible point with a lower barrier value. -/
theorem c63_line_search (A : Vec n →ₗ[ℝ] Vec m) (At : Vec m →ₗ[ℝ] Vec n) (hadj : IsAdj A At) (y : Vec m) (lam t : ℝ) (x u : Vec n)
    (h : ∀ i, |x i| < u i) (dx du : Vec n) (hg : ⟪gradPhi lam x u (At ((2 : ℝ) • (A x - y))) t, pv dx du⟫ < 0) (calls : ℕ) :
    let gdx := ⟪gradPhi lam x u (At ((2 : ℝ) • (A x - y))) t, pv dx du⟫
    let phi := getPhi lam x u (A x - y) t
    (∃ b, BtOut A y lam t x u dx du phi gdx calls b) ∧
    ∀ b, BtOut A y lam t x u dx du phi gdx calls b →
      (∀ i, |b.p.x i| < b.p.u i) ∧ 0 < b.p.s ∧ b.p.s ≤ 1 ∧ b.p.x = x + b.p.s • dx ∧ b.p.u = u + b.p.s • du ∧
      getPhi lam b.p.x b.p.u (A b.p.x - y) t < phi := by
  intro gdx phi
  refine ⟨bt_exists h (phi_small A At hadj y lam t h dx du hg), fun b hb => ?_⟩
  have hi := bt_inv hb.1
  have h1 : ¬ b.phi - phi > 0.01 * b.p.s * gdx := hb.2
  refine ⟨hi.int, hi.spos, hi.sle.trans (pow_le_one₀ (by norm_num) (by norm_num)), hi.eqx, hi.equ, ?_⟩
  rw [hi.phi_eq, hi.z_eq] at h1
  have h2 : 0.01 * b.p.s * gdx < 0 := mul_neg_of_pos_of_neg (by have := hi.spos; positivity) hg
  linarith

/-- Conjugate gradients started at zero return zero or a direction of positive inner product with the right-hand side. -/
theorem pcg_descent {E : Type*} [NormedAddCommGroup E] [InnerProductSpace ℝ E] [FiniteDimensional ℝ E] {H M : E →ₗ[ℝ] E} (hH : SPD H) (hM : SPD M)
    {b : E} {N : ℕ} {tol : ℝ} {s : PCGState E}
    (h : PcgSolveFrom H M false b 0 N tol 0 s) : s.x = 0 ∨ 0 < inner ℝ (b) (s.x) := by
  have hinj : Function.Injective H := by
    rw [← LinearMap.ker_eq_bot, LinearMap.ker_eq_bot']
    intro v hv
    by_contra hne
    have := hH.pos v hne
    rw [hv, inner_zero_right] at this
    exact lt_irrefl _ this
  obtain ⟨xs, hxs⟩ := LinearMap.injective_iff_surjective.mp hinj b
  have hle : inner ℝ (s.x - xs) (H (s.x - xs)) ≤ inner ℝ ((0 : E) - xs) (H ((0 : E) - xs)) := by
    refine h.1.inv' (fun s => inner ℝ (s.x - xs) (H (s.x - xs)) ≤ inner ℝ ((0 : E) - xs) (H ((0 : E) - xs))) le_rfl fun s hr hs hc => ?_
    exact ((c38_pcg_invariants H M hH hM false (by simp) b 0 N tol 0 s hr).2.2.2 xs hxs hc).le.trans hs
  have e : inner ℝ (s.x - xs) (H (s.x - xs)) = inner ℝ (s.x) (H s.x) - 2 * inner ℝ (b) (s.x) + inner ℝ (xs) (b) := by
    have hsym : inner ℝ (xs) (H s.x) = inner ℝ (b) (s.x) := by rw [← hH.symm, hxs]
    rw [map_sub, inner_sub_left, inner_sub_right, inner_sub_right, hxs, hsym, real_inner_comm b s.x]; ring
  have e0 : inner ℝ ((0 : E) - xs) (H ((0 : E) - xs)) = inner ℝ (xs) (b) := by rw [zero_sub, map_neg, inner_neg_neg, hxs]
  rw [e, e0] at hle
  by_cases hx : s.x = 0
  · exact Or.inl hx
  · right
    have := hH.pos s.x hx
    linarith

/-- **C63** progress: at every state the conjugate gradient call returns, and the iteration completes whenever the direction it returned is zero or a
descent direction; in the first iteration that is always so. -/
theorem c63_progress (A : Vec n →ₗ[ℝ] Vec m) (At : Vec m →ₗ[ℝ] Vec n) (hadj : IsAdj A At) (y : Vec m) (lam : ℝ) (hl : 0 < lam) (x0 u0 : Vec n)
    (hint : ∀ i, |x0 i| < u0 i) (tol xi t0 : ℝ) (ht0 : 0 < t0) (N P : ℕ) (s : L1lsState m n) (h : L1lsReach A At y lam x0 u0 tol xi t0 N P s) :
    let g := gradPhi lam s.x s.u (At ((2 : ℝ) • s.z)) s.t
    let Pcg := PcgCounted (hessian A At s.x s.u s.t) (precond s.x s.u s.t) (-g) s.dxu P (pcgTol xi s.gap g)
    (∃ pcg, Pcg pcg) ∧
    (∀ pcg, Pcg pcg → (⟪g, pcg.1.x⟫ < 0 ∨ pcg.1.x = 0) → ∃ s', L1lsBody A At y lam xi P s s') ∧
    (s.iterations = 1 → ∃ s', L1lsBody A At y lam xi P s s') := by
  intro g Pcg
  have hi := l1ls_inv hadj hl hint h
  have hpos : 0 < s.t := lt_of_lt_of_le ht0 hi.t_ge
  have hmid : ∀ pcg, Pcg pcg → (⟪g, pcg.1.x⟫ < 0 ∨ pcg.1.x = 0) → ∃ s', L1lsBody A At y lam xi P s s' := by
    intro pcg hp hd
    have hbt : ∃ bt, BtOut A y lam s.t s.x s.u pcg.1.x.fst pcg.1.x.snd (getPhi lam s.x s.u s.z s.t) ⟪g, pcg.1.x⟫ (s.timesCalls + pcg.2) bt := by
      have hg : g = gradPhi lam s.x s.u (At ((2 : ℝ) • (A s.x - y))) s.t := by rw [← hi.z_eq]
      rcases hd with hd | hd
      · rw [hi.z_eq, hg]
        refine bt_exists hi.int (phi_small A At hadj y lam s.t hi.int _ _ ?_)
        rw [← hg]; exact hd
      · refine bt_exists hi.int (Filter.Eventually.of_forall fun r => ?_)
        rw [hd, hi.z_eq]
        simp
    obtain ⟨bt, hbt⟩ := hbt
    exact ⟨_, pcg, hp, bt, hbt, rfl⟩
  have hex : ∃ pcg, Pcg pcg := pcg_counted_exists _ _ _ _ _ _
  refine ⟨hex, hmid, fun h1 => ?_⟩
  obtain ⟨pcg, hp⟩ := hex
  refine hmid pcg hp ?_
  have hp' := (pcg_counted hp).1
  rw [hi.first h1] at hp'
  rcases pcg_descent (H := hessLin A At s.x s.u s.t) (M := precLin s.x s.u s.t) (hess_spd A At hadj hi.int hpos) (prec_spd hi.int hpos) hp' with hz | hz
  · exact Or.inr hz
  · left; rw [inner_neg_left] at hz; linarith

/-- **C84** (partial: only `n_times` is exact) the reported `n_times` is the number of calls of `times` made; the reported `n_trans` falls short of the
number of calls of `trans` by one per iteration. -/
theorem c84_counters_partial (A : Vec n →ₗ[ℝ] Vec m) (At : Vec m →ₗ[ℝ] Vec n) (hadj : IsAdj A At) (y : Vec m) (lam : ℝ) (hl : 0 < lam) (x0 u0 : Vec n)
    (hint : ∀ i, |x0 i| < u0 i) (tol xi t0 : ℝ) (N P : ℕ) (s : L1lsState m n) (h : L1lsReach A At y lam x0 u0 tol xi t0 N P s) :
    s.nTimes = s.timesCalls ∧ s.nTrans + (s.iterations - 1) = s.transCalls := by
  have hi := l1ls_inv hadj hl hint h
  refine ⟨hi.times_eq, ?_⟩
  have h1 := hi.trans_eq
  have h2 := hi.it_pos
  omega

/-! ### Concrete runs -/

/-- Identity on one-dimensional arrays. -/
def unit1 : Vec 1 →ₗ[ℝ] Vec 1 := LinearMap.id

theorem unit1_adj : IsAdj unit1 unit1 := fun _ _ => rfl

theorem unit1_apply (v : Vec 1) : unit1 v = v := rfl

theorem lsObj1 (y lam v : ℝ) : lsObj unit1 (v1 y) lam (v1 v) = (v - y) ^ 2 + lam * |v| := by
  unfold lsObj
  rw [unit1_apply, v1_sub, v1_norm, sq_abs]
  have : ∑ i, |v1 v i| = l1 (v1 v) := rfl
  rw [this, v1_l1]

theorem nu1 {lam z : ℝ} (hl : 0 < lam) (hz : lam < 2 * z) (calls : ℕ) : (getNu unit1 lam (v1 z) calls).1 = v1 lam := by
  have h0 : linf (unit1 ((2 : ℝ) • v1 z)) = 2 * z := by rw [unit1_apply, v1_smul, v1_linf, abs_of_pos (by linarith)]
  rw [getNu_pos (by rw [h0]; exact ⟨by linarith, by rw [div_lt_one (by linarith)]; exact hz⟩), h0, v1_smul, v1_smul]
  congr 1
  have : z ≠ 0 := by intro h; rw [h] at hz; linarith
  field_simp

/-- **C63** fails for other starts: for `min (x - 1)² + |x|` started at `x = 10`, `u = 20`, the dual value is negative and the solver returns the start
at once, although the objective there is 91 and at 1 it is 1. -/
theorem c63_start_fails : IsAdj unit1 unit1 ∧ (∀ i, |v1 10 i| < v1 20 i) ∧
    ∃ s : L1lsState 1 1, L1lsSolveFrom unit1 unit1 (v1 1) 1 (v1 10) (v1 20) 1e-3 1e-3 1 400 5000 s ∧ s.iterations < 400 ∧
      ¬ ∀ v, lsObj unit1 (v1 1) 1 s.x ≤ (1 + 1e-3) * lsObj unit1 (v1 1) 1 v := by
  refine ⟨unit1_adj, fun i => by norm_num [v1], _, ⟨.init, ?_⟩, by norm_num [l1lsInit], fun hall => ?_⟩
  · rintro ⟨hc, _⟩
    set s0 := l1lsInit unit1 unit1 (v1 1) 1 (v1 10) (v1 20) 1 with hs0
    have hz : s0.z = v1 9 := by show unit1 (v1 10) - v1 1 = _; rw [unit1_apply, v1_sub]; norm_num
    have hd : s0.relDen = -(5 / 4) := by
      show dualObj (v1 1) (getNu unit1 1 s0.z 1).1 = _
      rw [hz, nu1 one_pos (by norm_num), dualObj, v1_inner]; norm_num
    have hg : s0.gap = 91 + 5 / 4 := by
      have h1 : s0.gap = primalObj 1 (v1 10) s0.z - s0.relDen := rfl
      rw [h1, hd, primalObj, hz, v1_inner, v1_l1]; norm_num [abs_of_pos]
    rw [hd, hg] at hc
    norm_num at hc
  · have := hall (v1 1)
    have h10 : lsObj unit1 (v1 1) 1 (v1 10) = 91 := by rw [lsObj1]; norm_num [abs_of_pos]
    have h1 : lsObj unit1 (v1 1) 1 (v1 1) = 1 := by rw [lsObj1]; norm_num
    have h' : lsObj unit1 (v1 1) 1 (v1 10) ≤ (1 + 1e-3) * lsObj unit1 (v1 1) 1 (v1 1) := this
    rw [h10, h1] at h'
    norm_num at h'

/-- The first state of `l1ls.solve` for `min (x - 2)² + |x|` has a gap above the tolerance, so the loop runs. -/
theorem l1ls_runs : ∃ s : L1lsState 1 1, L1lsReach unit1 unit1 (v1 2) 1 0 (vec fun _ => 1) 1e-3 1e-3 (defaultT0 1 1) 400 5000 s ∧ s.iterations = 2 := by
  have hc : l1lsCond 1e-3 400 (l1lsInit unit1 unit1 (v1 2) 1 0 (vec fun _ => 1) (defaultT0 1 1)) := by
    set s0 := l1lsInit unit1 unit1 (v1 2) 1 0 (vec fun _ => 1) (defaultT0 1 1) with hs0
    have hz : s0.z = v1 (-2) := by show unit1 0 - v1 2 = _; rw [map_zero, v1_zero, v1_sub]; norm_num
    have hnu : s0.nu = v1 (-1) := by
      show (getNu unit1 1 s0.z 1).1 = _
      have h0 : linf (unit1 ((2 : ℝ) • s0.z)) = 4 := by rw [hz, unit1_apply, v1_smul, v1_linf]; norm_num
      rw [getNu_pos (by rw [h0]; norm_num), h0, hz, v1_smul, v1_smul]; norm_num
    have hd : s0.relDen = 7 / 4 := by
      show dualObj (v1 2) s0.nu = _
      rw [hnu, dualObj, v1_inner, v1_inner]; norm_num
    have hg : s0.gap = 9 / 4 := by
      have h1 : s0.gap = primalObj 1 0 s0.z - s0.relDen := rfl
      rw [h1, hd, primalObj, hz, v1_inner, v1_zero, v1_l1]; norm_num
    refine ⟨?_, by norm_num [hs0, l1lsInit]⟩
    rw [hd, hg]; norm_num
  have ht0 : 0 < defaultT0 1 1 := by norm_num [defaultT0]
  have hint : ∀ i, |(0 : Vec 1) i| < (vec fun _ => (1 : ℝ)) i := fun i => by simp
  obtain ⟨s', hs'⟩ := (c63_progress unit1 unit1 unit1_adj (v1 2) 1 one_pos 0 (vec fun _ => 1) hint 1e-3 1e-3 (defaultT0 1 1) ht0 400 5000 _
    .init).2.2 rfl
  refine ⟨s', .step .init hc hs', ?_⟩
  obtain ⟨_, _, _, _, rfl⟩ := hs'
  rfl

/-- **C84** fails for `n_trans`: after one iteration on `min (x - 2)² + |x|` with default arguments the reported count is too small. -/
theorem c84_counters_fails : IsAdj unit1 unit1 ∧
    ∃ s : L1lsState 1 1, L1lsReach unit1 unit1 (v1 2) 1 0 (vec fun _ => 1) 1e-3 1e-3 (defaultT0 1 1) 400 5000 s ∧ s.nTrans < s.transCalls := by
  obtain ⟨s, h, hi⟩ := l1ls_runs
  refine ⟨unit1_adj, s, h, ?_⟩
  have := (c84_counters_partial unit1 unit1 unit1_adj (v1 2) 1 one_pos 0 (vec fun _ => 1) (fun i => by simp) 1e-3 1e-3 _ 400 5000 s h).2
  omega

/-- The hypotheses of the C63 theorems hold: `l1ls.solve` for `min (x - 2)² + 5 |x|` returns at once, with the optimal solution 0. -/
example : ∃ s : L1lsState 1 1, L1lsSolve unit1 unit1 (v1 2) 5 1e-3 1e-3 400 5000 s ∧ s.iterations < 400 := by
  refine ⟨_, ⟨.init, ?_⟩, by norm_num [l1lsInit]⟩
  rintro ⟨hc, _⟩
  set s0 := l1lsInit unit1 unit1 (v1 2) 5 0 (vec fun _ => 1) (defaultT0 1 5) with hs0
  have hz : s0.z = v1 (-2) := by show unit1 0 - v1 2 = _; rw [map_zero, v1_zero, v1_sub]; norm_num
  have hnu : s0.nu = v1 (-4) := by
    show (getNu unit1 5 s0.z 1).1 = _
    have h0 : linf (unit1 ((2 : ℝ) • s0.z)) = 4 := by rw [hz, unit1_apply, v1_smul, v1_linf]; norm_num
    rw [getNu_neg (by rw [h0]; norm_num), hz, v1_smul]; norm_num
  have hd : s0.relDen = 4 := by
    show dualObj (v1 2) s0.nu = _
    rw [hnu, dualObj, v1_inner, v1_inner]; norm_num
  have hg : s0.gap = 0 := by
    have h1 : s0.gap = primalObj 5 0 s0.z - s0.relDen := rfl
    rw [h1, hd, primalObj, hz, v1_inner, v1_zero, v1_l1]; norm_num
  rw [hd, hg] at hc
  norm_num at hc

/-- A descent direction for `c63_line_search`: `x = 0`, `u = 1`, `t = 1`, `min (x - 2)² + |x|`, direction `(1, 0)`. -/
theorem ex_descent : (∀ i, |v1 0 i| < v1 1 i) ∧ ⟪gradPhi 1 (v1 0) (v1 1) (unit1 ((2 : ℝ) • (unit1 (v1 0) - v1 2))) 1, pv (v1 1) (v1 0)⟫ < 0 := by
  refine ⟨fun i => by norm_num [v1], ?_⟩
  rw [gradPhi, pv_inner, Verif.Opt.inner_sum, Verif.Opt.inner_sum, unit1_apply, unit1_apply, v1_sub, v1_smul]
  norm_num [q1, q2, v1]

section
variable (s : L1lsState 1 1) (h : L1lsReach unit1 unit1 (v1 2) 1 (v1 0) (v1 1) 1e-3 1e-3 1 400 5000 s)

example := c63_interior unit1 unit1 unit1_adj (v1 2) 1 one_pos (v1 0) (v1 1) ex_descent.1 1e-3 1e-3 1 400 5000 s h

example := c63_dual_bound unit1 unit1 unit1_adj (v1 2) 1 one_pos (v1 0) (v1 1) ex_descent.1 1e-3 1e-3 1 400 5000 s h

example := c84_counters_partial unit1 unit1 unit1_adj (v1 2) 1 one_pos (v1 0) (v1 1) ex_descent.1 1e-3 1e-3 1 400 5000 s h

example := c63_progress unit1 unit1 unit1_adj (v1 2) 1 one_pos (v1 0) (v1 1) ex_descent.1 1e-3 1e-3 1 one_pos 400 5000 s h
end

/-- The runs of the next two theorems exist by the example above. -/
example (s : L1lsState 1 1) (h : L1lsSolve unit1 unit1 (v1 2) 5 1e-3 1e-3 400 5000 s) (hN : s.iterations < 400) :=
  c63_default_start unit1 unit1 unit1_adj (v1 2) 5 (by norm_num) 1e-3 1e-3 (by norm_num) 400 5000 s h hN

example (s : L1lsState 1 1) (h : L1lsSolveFrom unit1 unit1 (v1 2) 5 (v1 0) (v1 1) 1e-3 1e-3 1 400 5000 s) (hd : 0 ≤ s.relDen) (hN : s.iterations < 400) :=
  c63_stop_partial unit1 unit1 unit1_adj (v1 2) 5 (by norm_num) (v1 0) (v1 1) ex_descent.1 1e-3 1e-3 1 (by norm_num) 400 5000 s h hd hN

example := c63_gradient unit1 unit1 unit1_adj (v1 2) 1 1 (v1 0) (v1 1) ex_descent.1 (v1 1) (v1 0)

example := c63_line_search unit1 unit1 unit1_adj (v1 2) 1 1 (v1 0) (v1 1) ex_descent.1 (v1 1) (v1 0) ex_descent.2 0

end Verif.Cvx
