import Verif.Opt.ScdProps
import Verif.Opt.OwlProps

set_option autoImplicit false
/-!
# The solvers `scd`, `bp_scd`, `dantzig_scd` (C93) and `owl1rls` (C40)
-/
noncomputable section
namespace Verif.Opt
open Verif.Loop
open scoped RealInnerProductSpace

section Scd
variable {E F : Type*} [NormedAddCommGroup E] [InnerProductSpace ℝ E] [NormedAddCommGroup F] [InnerProductSpace ℝ F]

/-- `scd(prox_f, conj_neg_h, A, b, mu, x0, z0, options)` (fom/scd.py:71-116). The options `saddle`, `maximize` it sets are not read by `fom`. -/
def scd (proxF : ProxCapable F) (conjNegH : ProxCapable E) (times : E → F) (trans : F → E) (b : F) (mu : ℝ) (x0 : F) (z0 : E) (o : FomOptions) : FomArgs E F :=
  { f := smoothDual proxF mu x0, h := conjNegH, times := times, trans := trans, b := b, x0 := z0, opts := o }
end Scd

/-- `bp_scd(A, b, mu, x0, z0, options)` (fom/bp_scd.py:28-57). -/
def bpScd {m n : ℕ} (times : Vec n → Vec m) (trans : Vec m → Vec n) (b : Vec m) (mu : ℝ) (x0 : Vec m) (z0 : Vec n) (o : FomOptions) : FomArgs (Vec n) (Vec m) :=
  scd (proxL1 (vec fun _ => 1)) (proxZero n) times trans (-b) mu x0 z0 o

/-- `dantzig_scd(A, b, delta, mu, x0, z0, options)` (fom/dantzig_scd.py:28-60); `lop.gram(A)` applies `A` and then its transpose, in both directions (lop/lop.py:gram). -/
def dantzigScd {m n : ℕ} (times : Vec n → Vec m) (trans : Vec m → Vec n) (b : Vec m) (delta mu : ℝ) (x0 : Vec n) (z0 : Vec n) (o : FomOptions) : FomArgs (Vec n) (Vec n) :=
  scd (proxL1 (vec fun _ => 1)) (proxL1 (vec fun _ => delta)) (fun x => trans (times x)) (fun x => trans (times x)) (-trans b) mu x0 z0 o

section
variable {E F : Type*} [NormedAddCommGroup E] [InnerProductSpace ℝ E] [NormedAddCommGroup F] [InnerProductSpace ℝ F]

/-- **C93** (what holds of `scd`): at every iterate `x` the negated gradient reported with it is the point of the domain of `f` minimising `f(u) + |u - x0|²/(2 mu) - ⟨A x + b, u⟩`.
What is missing from the full statement: the points do not approach the solution of the documented problem (`c93_bp_scd_fails`, `c93_dantzig_scd_fails`). -/
theorem c93_scd_partial [CompleteSpace F] (G : ProxCapable F) (C : Set F) (f : F → ℝ) (hG : IsProxCapable G C f) (hf : ConvexOn ℝ C f) (H : ProxCapable E) (times : E → F)
    (trans : F → E) (b : F) (mu : ℝ) (hmu : 0 < mu) (x0 : F) (z0 : E) (o : FomOptions) (s : FomState E F) (hr : FomReach (scd G H times trans b mu x0 z0 o) s) :
    -s.gAx ∈ C ∧ ∀ u ∈ C, f (-s.gAx) + ‖-s.gAx - x0‖ ^ 2 / (2 * mu) - ⟪times s.x + b, -s.gAx⟫ ≤ f u + ‖u - x0‖ ^ 2 / (2 * mu) - ⟪times s.x + b, u⟫ := by
  obtain ⟨h1, h2, -, -⟩ := c81_smooth_dual G C f hG hf mu hmu x0
  have hg : s.gAx = (smoothDual G mu x0).grad (times s.x + b) := by
    have hp : ∀ w, ((smoothDual G mu x0).gradVal w).1 = (smoothDual G mu x0).grad w := by
      intro w
      show -(G.proxVecVal (x0 + mu • w) mu).1 = -G.proxOp (x0 + mu • w) mu
      rw [hG.pair _ _ hmu]
    have step : ∀ t : FomState E F, (fomBody (scd G H times trans b mu x0 z0 o) t).gAx = (smoothDual G mu x0).grad (times (fomBody (scd G H times trans b mu x0 z0 o) t).x + b) :=
      fun t => hp _
    exact Reach.inv (fun s : FomState E F => s.gAx = (smoothDual G mu x0).grad (times s.x + b)) hr (step _) fun s _ _ => step s
  rw [hg]
  obtain ⟨h3, h4⟩ := h2 (times s.x + b)
  refine ⟨h3, fun u hu => ?_⟩
  have h5 := (h1 (times s.x + b)).2 ⟨u, hu, rfl⟩
  linarith
end

theorem proxL1_nonpos {w t q : ℝ} (hw : w ≤ 0) : w * (1 - minDiv1 (t * q) |w|) ≤ 0 := by
  refine mul_nonpos_of_nonpos_of_nonneg hw ?_
  unfold minDiv1
  split_ifs
  · simp
  · linarith [min_le_right (t * q / |w|) 1]

/-- On the line, with `f = |·|`, identity operator, negative translation, start at 0 and a nonsmooth part whose proximal operator keeps non-positive numbers non-positive, all iterates and all recovered points are non-positive. -/
theorem scd_line (H : ProxCapable (Vec 1)) (hH : ∀ w t, w 0 ≤ 0 → (H.proxVecVal w t).1 0 ≤ 0) (hH0 : H.func 0 ≠ ⊤) (b : Vec 1) (hb : b 0 ≤ 0) (mu : ℝ) (hmu : 0 < mu) (o : FomOptions)
    (ha : 0 < o.alpha) (hbeta : 0 < o.beta) (hL : 0 < o.L0) (hx : ∀ l, o.Lexact = some l → 0 < l) (s : FomState (Vec 1) (Vec 1))
    (hr : FomReach (scd (proxL1 (vec fun _ => 1)) H id id b mu 0 0 o) s) : s.x 0 ≤ 0 ∧ (-s.gAx) 0 ≤ 0 := by
  set p := scd (proxL1 (vec fun _ => 1 : Vec 1)) H id id b mu 0 (0 : Vec 1) o with hp
  have hgr : ∀ w : Vec 1, w 0 ≤ 0 → (-((smoothTranslate p.f p.b).gradVal w).1) 0 ≤ 0 := by
    intro w hw
    have e : (-((smoothTranslate p.f p.b).gradVal w).1) 0 =
        (mu * (w 0 + b 0)) * (1 - minDiv1 (mu * 1) |mu * (w 0 + b 0)|) := by
      simp [smoothTranslate, hp, scd, smoothDual, proxL1, build]
    rw [e]
    exact proxL1_nonpos (mul_nonpos_of_nonneg_of_nonpos hmu.le (by linarith))
  have step : ∀ t : FomState (Vec 1) (Vec 1), (0 < t.L ∧ t.x 0 ≤ 0 ∧ t.z 0 ≤ 0) →
      (0 < (fomBody p t).L ∧ (fomBody p t).x 0 ≤ 0 ∧ (fomBody p t).z 0 ≤ 0) ∧ (-(fomBody p t).gAx) 0 ≤ 0 := by
    rintro t ⟨h1, h2, h3⟩
    have hLa : 0 < t.L * p.opts.alpha := mul_pos h1 ha
    have ht0 := advanceTheta_pos t.theta (t.L * p.opts.alpha) t.L
    have ht1 := advanceTheta_le_one t.theta (t.L * p.opts.alpha) t.L hLa h1
    have comb : ∀ u v : Vec 1, u 0 ≤ 0 → v 0 ≤ 0 →
        ((1 - advanceTheta t.theta (t.L * p.opts.alpha) t.L) • u + advanceTheta t.theta (t.L * p.opts.alpha) t.L • v) 0 ≤ 0 := by
      intro u v hu hv
      simp only [PiLp.add_apply, PiLp.smul_apply, smul_eq_mul]
      nlinarith
    have hst : 0 < 1 / (advanceTheta t.theta (t.L * p.opts.alpha) t.L * (t.L * p.opts.alpha)) := by positivity
    have hy : (fomBody p t).y 0 ≤ 0 := comb _ _ h2 h3
    have hz : (fomBody p t).z 0 ≤ 0 := by
      refine hH _ _ ?_
      have := hgr (fomBody p t).y hy
      have e : (fomBody p t).gy = ((smoothTranslate p.f p.b).gradVal (fomBody p t).y).1 := rfl
      rw [← e] at this
      change (t.z - (1 / (advanceTheta t.theta (t.L * p.opts.alpha) t.L * (t.L * p.opts.alpha))) • (fomBody p t).gy) 0 ≤ 0
      simp only [PiLp.sub_apply, PiLp.smul_apply, PiLp.neg_apply, smul_eq_mul] at this ⊢
      nlinarith [mul_nonneg hst.le (show 0 ≤ (fomBody p t).gy 0 by linarith)]
    have hx' : (fomBody p t).x 0 ≤ 0 := comb _ _ h2 hz
    exact ⟨⟨backtrackL_pos _ _ _ _ _ _ hLa hbeta hx, hx', hz⟩, hgr _ hx'⟩
  have hstart : (fomStart p).1 = 0 := by
    unfold fomStart
    rw [if_neg (by exact hH0)]
    rfl
  have h0 : 0 < (fomInit p).L ∧ (fomInit p).x 0 ≤ 0 ∧ (fomInit p).z 0 ≤ 0 := by
    refine ⟨hL, ?_, ?_⟩ <;> · show (fomStart p).1 0 ≤ 0; rw [hstart]; simp
  have := Reach.inv (fun s : FomState (Vec 1) (Vec 1) => (0 < s.L ∧ s.x 0 ≤ 0 ∧ s.z 0 ≤ 0) ∧ (-s.gAx) 0 ≤ 0) hr (step _ h0) fun s hs _ => step s hs.1
  exact ⟨this.1.2.1, this.2⟩

/-- **C93** is violated by `bp_scd`: for `minimise |x| + mu/2 x² subject to x = b`, with `b > 0`, started at 0, for all `mu > 0` and all options, no iterate and no recovered primal point `-g_Ax` (non-positive at all times) is the solution
`b`; the driver minimises the concave function it should maximise. -/
theorem c93_bp_scd_fails (b mu : ℝ) (hb : 0 < b) (hmu : 0 < mu) (o : FomOptions) (ha : 0 < o.alpha) (hbeta : 0 < o.beta) (hL : 0 < o.L0)
    (hx : ∀ l, o.Lexact = some l → 0 < l) (s : FomState (Vec 1) (Vec 1)) (hr : FomReach (bpScd id id (vec fun _ => b) mu 0 0 o) s) :
    (-s.gAx) 0 ≤ 0 ∧ id (-s.gAx) ≠ vec fun _ => b := by
  have h := scd_line (proxZero 1) (fun w t hw => hw) (by simp [proxZero]) (-(vec fun _ => b)) (by simpa using hb.le) mu hmu o ha hbeta hL hx s hr
  refine ⟨h.2, fun e => ?_⟩
  have := congrArg (fun v : Vec 1 => v 0) e
  simp only [id, vec_apply] at this
  linarith [h.2]

/-- **C93** is violated by `dantzig_scd`: for `minimise |x| + mu/2 x² subject to |b - x| ≤ delta`, with `b > delta > 0`, started at 0, no recovered primal point is feasible at any time. -/
theorem c93_dantzig_scd_fails (b delta mu : ℝ) (hd : 0 < delta) (hb : delta < b) (hmu : 0 < mu) (o : FomOptions) (ha : 0 < o.alpha) (hbeta : 0 < o.beta) (hL : 0 < o.L0)
    (hx : ∀ l, o.Lexact = some l → 0 < l) (s : FomState (Vec 1) (Vec 1)) (hr : FomReach (dantzigScd id id (vec fun _ => b) delta mu 0 0 o) s) :
    ¬ |b - (-s.gAx) 0| ≤ delta := by
  have h := scd_line (proxL1 (vec fun _ => delta)) (fun w t hw => proxL1_nonpos hw) (by simp [proxL1, build]) (-(vec fun _ => b))
    (by simpa using (hd.trans hb).le) mu hmu o ha hbeta hL hx s hr
  intro hc
  have := (abs_le.mp hc).2
  linarith [h.2]

/-- The default options meet the hypotheses, and `fom` returns. -/
example : ∃ s : FomState (Vec 1) (Vec 1), FomOut (bpScd id id (vec fun _ => 3) 1 0 0 {}) s ∧ (-s.gAx) 0 ≤ 0 := by
  obtain ⟨s, h1, h2, -⟩ := c40_fom_terminates (bpScd id id (vec fun _ => 3) 1 (0 : Vec 1) (0 : Vec 1) {})
  exact ⟨s, h1, (c93_bp_scd_fails 3 1 (by norm_num) one_pos {} (by norm_num) (by norm_num) (by norm_num) (fun l h => by cases h) s h2).1⟩

/-! ## `owl1rls` -/

/-- `owl1rls(A, b, lambda, x0, options)` (fom/owl1rls.py:24-56); `P` is the proximal function computed by `prox_owl1(lambda)` (a loop, see `OwlProx`). -/
def owl1rls {m n : ℕ} (times : Vec n → Vec m) (trans : Vec m → Vec n) (b : Vec m) (lam : Fin n → ℝ) (P : Vec n → ℝ → Vec n) (x0 : Vec n) (o : FomOptions) : FomArgs (Vec n) (Vec m) :=
  { f := smoothQuadMatrix none none none, h := build (fun x => (owlFunc lam x : EReal)) P, times := times, trans := trans, b := -b, x0 := x0, opts := o }

theorem owlFunc_convex {n : ℕ} (lam : Fin n → ℝ) (hl : Antitone lam) (hl0 : ∀ i, 0 ≤ lam i) : ConvexOn ℝ Set.univ (owlFunc lam) := by
  refine ⟨convex_univ, fun x _ y _ a b ha hb _ => ?_⟩
  set τ := argsortDesc fun i => |(a • x + b • y) i| with hτ
  have e : owlFunc lam (a • x + b • y) = ∑ i, lam i * |(a • x + b • y) (τ i)| := rfl
  have hx := owlFunc_ge lam hl x τ
  have hy := owlFunc_ge lam hl y τ
  rw [e, smul_eq_mul, smul_eq_mul]
  calc ∑ i, lam i * |(a • x + b • y) (τ i)| ≤ ∑ i, (a * (lam i * |x (τ i)|) + b * (lam i * |y (τ i)|)) := by
        refine Finset.sum_le_sum fun i _ => ?_
        have e : (a • x + b • y) (τ i) = a * x (τ i) + b * y (τ i) := rfl
        rw [e]
        have : |a * x (τ i) + b * y (τ i)| ≤ a * |x (τ i)| + b * |y (τ i)| := by
          refine (abs_add_le _ _).trans ?_
          rw [abs_mul, abs_mul, abs_of_nonneg ha, abs_of_nonneg hb]
        nlinarith [mul_le_mul_of_nonneg_left this (hl0 i)]
    _ = a * ∑ i, lam i * |x (τ i)| + b * ∑ i, lam i * |y (τ i)| := by
        rw [Finset.sum_add_distrib, Finset.mul_sum, Finset.mul_sum]
    _ ≤ _ := add_le_add (mul_le_mul_of_nonneg_left hx ha) (mul_le_mul_of_nonneg_left hy hb)

/-- **C40** for `owl1rls`: for decreasing non-negative weights, with `alpha = 1` and `L0 ≥ 2 |A|²`, if the inner loop of the proximal function stops wherever it is called, then after `k` iterations the point is within `2 L0 |x0 - u|²/(k+1)²` of every
value of `½|A x - b|² + ∑ lambda_i |x|_(i)`. What is missing: the inner loop need not stop (`c33_owl1_diverges`). -/
theorem c40_owl1rls_partial {m n : ℕ} (A : Vec n →ₗ[ℝ] Vec m) (At : Vec m → Vec n) (hadj : ∀ x y, ⟪A x, y⟫ = ⟪x, At y⟫) (b : Vec m) (lam : Fin n → ℝ) (hl : Antitone lam) (hl0 : ∀ i, 0 ≤ lam i)
    (P : Vec n → ℝ → Vec n) (hP : ∀ x t, 0 < t → OwlProx lam x t (P x t)) (x0 : Vec n) (o : FomOptions) (ha : o.alpha = 1) (hb : 0 < o.beta) (hL : 0 < o.L0)
    (hA : ∀ d, 2 * ‖A d‖ ^ 2 ≤ o.L0 * ‖d‖ ^ 2) (hx : o.Lexact = none) (s : FomState (Vec n) (Vec m)) (hr : FomReach (owl1rls A At b lam P x0 o) s) (u : Vec n) :
    (1 / 2 * ‖A s.x - b‖ ^ 2 + owlFunc lam s.x) - (1 / 2 * ‖A u - b‖ ^ 2 + owlFunc lam u) ≤ 2 * o.L0 * ‖x0 - u‖ ^ 2 / (s.iters + 1) ^ 2 := by
  have hK : ∀ d, ‖A d‖ ^ 2 ≤ o.L0 / 2 * ‖d‖ ^ 2 := fun d => by linarith [hA d]
  have hx' : ∀ l, o.Lexact = some l → 0 < l := by intro l hl; rw [hx] at hl; cases hl
  have hcurv : ∀ (u v : Vec n), 2 * ⟪A u - A v, (smoothQuadMatrix (n := m) none none none).grad (A u + -b) -
      (smoothQuadMatrix (n := m) none none none).grad (A v + -b)⟫ ≤ o.L0 * ‖u - v‖ ^ 2 := fun u v => by
    have := quad_curv A (-b) _ hK u v; linarith
  have hprox : IsProxCapable (build (fun x => (owlFunc lam x : EReal)) P) Set.univ (owlFunc lam) := by
    refine ⟨fun _ _ => rfl, fun x h => absurd trivial h, fun x t ht => ?_, fun x t _ => rfl⟩
    have := c33_prox_owl1_partial lam hl hl0 x t ht _ (hP x t ht)
    exact ⟨trivial, fun z _ hz => this z hz⟩
  have hs : FomSetting (owl1rls A At b lam P x0 o) A Set.univ (owlFunc lam) :=
    ⟨rfl, hadj, fun _ => rfl, quad_conv, hprox, owlFunc_convex lam hl hl0, by show 0 < o.alpha; rw [ha]; exact one_pos, hb, hL, hx'⟩
  have hacc := accepted_of_L0 hs ha hcurv s hr
  have := c40_fom_rate hs ha.le (fun l hl => by have : o.Lexact = some l := hl; rw [hx] at this; cases this) s hacc u trivial
  have e : ∀ x, fomObj (owl1rls A At b lam P x0 o) (owlFunc lam) x = 1 / 2 * ‖A x - b‖ ^ 2 + owlFunc lam x := by
    intro x
    simp only [fomObj, owl1rls, smoothQuadMatrix, build2, real_inner_self_eq_norm_sq, sub_eq_add_neg]
    norm_num
  rw [e, e] at this
  have est : (fomStart (owl1rls A At b lam P x0 o)).1 = x0 := by
    unfold fomStart
    rw [if_neg (by exact EReal.coe_ne_top _)]; rfl
  rw [est] at this
  exact this

/-- For equal weights the inner loop stops at once, so a proximal function as in the theorem exists. -/
theorem ex_owl_const (c : ℝ) : ∃ P : Vec 3 → ℝ → Vec 3, ∀ x t, 0 < t → OwlProx (fun _ : Fin 3 => c) x t (P x t) := by
  refine ⟨fun x t => owlFinish x (owlInit x fun _ => t * c), fun x t _ => ⟨_, ⟨.init, ?_⟩, rfl⟩⟩
  unfold owlCond
  push Not
  intro i j hij
  have := argsortDesc_anti (fun i => |x i|) (show i ≤ j from Fin.le_def.mpr (by omega))
  simp only [owlInit]
  linarith

example (b x0 : Vec 3) := c93_scd_partial (proxL1 (vec fun _ : Fin 3 => 1)) Set.univ _ (c30_prox_l1 _ fun _ => one_pos) (l1_weight_convex 1 one_pos)
  (proxL1 (vec fun _ : Fin 3 => 1)) id id b 1 one_pos x0 0 {} _ .init

example : ∃ s : FomState (Vec 1) (Vec 1), FomOut (dantzigScd id id (vec fun _ => 3) 1 1 0 0 {}) s ∧ ¬ |3 - (-s.gAx) 0| ≤ 1 := by
  obtain ⟨s, h1, h2, -⟩ := c40_fom_terminates (dantzigScd id id (vec fun _ => 3) 1 1 (0 : Vec 1) (0 : Vec 1) {})
  exact ⟨s, h1, c93_dantzig_scd_fails 3 1 1 one_pos (by norm_num) one_pos {} (by norm_num) (by norm_num) (by norm_num) (fun l h => by cases h) s h2⟩

example (b x0 u : Vec 3) : ∃ P : Vec 3 → ℝ → Vec 3, ∀ s, FomReach (owl1rls exM2 (fun y => (2 : ℝ) • y) b (fun _ => 1) P x0 { alpha := 1, L0 := 8 }) s →
    (1 / 2 * ‖exM2 s.x - b‖ ^ 2 + owlFunc (fun _ => 1) s.x) - (1 / 2 * ‖exM2 u - b‖ ^ 2 + owlFunc (fun _ => 1) u) ≤
      2 * 8 * ‖x0 - u‖ ^ 2 / (s.iters + 1) ^ 2 := by
  obtain ⟨P, hP⟩ := ex_owl_const 1
  exact ⟨P, fun s hs => c40_owl1rls_partial _ _ ex_adj2 b (fun _ => 1) (fun _ _ _ => le_rfl) (fun _ => zero_le_one) P hP x0 { alpha := 1, L0 := 8 } rfl
    (by norm_num) (by norm_num) ex_bound2 rfl s hs u⟩

end Verif.Opt
