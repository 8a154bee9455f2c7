import Verif.Cvx.YallModel
import Verif.Opt.CgContinuityProps
import Mathlib.Analysis.Normed.Lp.PiLp
import Mathlib.Topology.Algebra.Order.Group

set_option autoImplicit false
/-!
# C183: away from ties of its stopping tests YALL1 depends continuously on the measurements

`cvx/adm/yall1.py:29-199, 201-323, 326-455, 484-547`.
-/
noncomputable section
namespace Verif.Cvx
open Verif.Loop Verif.Opt Filter Topology
open Verif.Sls (counted)
open scoped RealInnerProductSpace

variable {m n : ℕ}

section helpers
variable {P : Type*} [TopologicalSpace P] {a0 : P}

theorem lt_stable {f g : P → ℝ} (hf : ContinuousAt f a0) (hg : ContinuousAt g a0) (h : f a0 ≠ g a0) : ∀ᶠ a in 𝓝 a0, (f a < g a ↔ f a0 < g a0) := by
  rcases lt_or_gt_of_ne h with h1 | h1
  · filter_upwards [hf.eventually_lt hg h1] with a ha using iff_of_true ha h1
  · filter_upwards [hg.eventually_lt hf h1] with a ha using iff_of_false (not_lt.2 ha.le) (not_lt.2 h1.le)

/-- With a nonnegative denominator the division in the tests can be cleared, also for zero. -/
theorem ratioGt_iff {a b c : ℝ} (hb : 0 ≤ b) : ratioGt a b c ↔ c * b < a := by
  rcases eq_or_lt_of_le hb with h | h
  · subst h; simp [ratioGt]
  · simp only [ratioGt, ne_eq, h.ne', not_false_eq_true, true_and, false_and, or_false, gt_iff_lt, lt_div_iff₀ h]

theorem vec_cont {f : P → Fin n → ℝ} (h : ∀ i, ContinuousAt (fun a => f a i) a0) : ContinuousAt (fun a => (vec (f a) : Vec n)) a0 :=
  (PiLp.continuous_toLp 2 _).continuousAt.comp (continuousAt_pi.2 h)

theorem coord_cont {f : P → Vec n} (h : ContinuousAt f a0) (i : Fin n) : ContinuousAt (fun a => f a i) a0 := (PiLp.continuous_apply 2 _ i).continuousAt.comp h

theorem yallProj_cont {z w : P → Vec n} (nonneg : Bool) (hz : ContinuousAt z a0) (hw : ContinuousAt w a0) (h0 : ∀ i, 0 < w a0 i) : ContinuousAt (fun a => yallProj nonneg (z a) (w a)) a0 := by
  cases nonneg
  · refine vec_cont fun i => (coord_cont hz i).mul ((coord_cont hw i).div ((coord_cont hw i).max (coord_cont hz i).abs) ?_)
    exact (lt_of_lt_of_le (h0 i) (le_max_left _ _)).ne'
  · exact vec_cont fun i => (coord_cont hw i).min (coord_cont hz i)

/-- The problem form depends continuously on the parameter, with a positive `rho` or `delta`. -/
inductive FormCont (f : P → YallForm) (a0 : P) : Prop
  | bp (h : ∀ a, f a = .bp) : FormCont f a0
  | l1l2 (rho : P → ℝ) (hc : ContinuousAt rho a0) (h0 : 0 < rho a0) (h : ∀ a, f a = .l1l2 (rho a)) : FormCont f a0
  | con (delta : P → ℝ) (hc : ContinuousAt delta a0) (h0 : 0 < delta a0) (h : ∀ a, f a = .con (delta a)) : FormCont f a0

theorem yallShrink_cont {f : P → YallForm} {mu : P → ℝ} {y : P → Vec m} (hf : FormCont f a0) (hmu : ContinuousAt mu a0) (h0 : 0 < mu a0) (hy : ContinuousAt y a0) : ContinuousAt (fun a => yallShrink (f a) (mu a) (y a)) a0 := by
  rcases hf with h | ⟨rho, hc, hr, h⟩ | ⟨delta, hc, hd, h⟩
  · simp only [h, yallShrink]; exact hy
  · simp only [h, yallShrink]
    refine (((hc.div hmu h0.ne').add continuousAt_const).inv₀ ?_).smul hy
    exact (add_pos (div_pos hr h0) one_pos).ne'
  · simp only [h, yallShrink]
    by_cases hy0 : y a0 = 0
    · have hlim : Tendsto (fun a => ‖y a‖) (𝓝 a0) (𝓝 0) := by
        have := hy.norm
        rw [ContinuousAt, hy0, norm_zero] at this
        exact this
      rw [ContinuousAt, hy0, smul_zero]
      refine squeeze_zero_norm' ?_ hlim
      filter_upwards [(continuousAt_const (y := (0 : ℝ))).eventually_lt hmu h0, (continuousAt_const (y := (0 : ℝ))).eventually_lt hc hd] with a h1 h2
      rw [norm_smul, Real.norm_eq_abs, abs_of_nonneg (le_max_left _ _)]
      refine mul_le_of_le_one_left (norm_nonneg _) (max_le zero_le_one ?_)
      have : 0 ≤ delta a / mu a / ‖y a‖ := by positivity
      linarith
    · exact (continuousAt_const.max (continuousAt_const.sub ((hc.div hmu h0.ne').div hy.norm (norm_ne_zero_iff.2 hy0)))).smul hy

/-- The arguments depend continuously on the parameter; the data are not zero and the weights positive. -/
structure YArgsCont (p : P → YallArgs m n) (a0 : P) : Prop where
  form : FormCont (fun a => (p a).form) a0
  b : ContinuousAt (fun a => (p a).b) a0
  w : ContinuousAt (fun a => (p a).w) a0
  gamma : ContinuousAt (fun a => (p a).gamma) a0
  tol : ContinuousAt (fun a => (p a).tol) a0
  nonneg : ∀ a, (p a).nonneg = (p a0).nonneg
  maxIters : ∀ a, (p a).maxIters = (p a0).maxIters
  b_ne : (p a0).b ≠ 0
  w_pos : ∀ i, 0 < (p a0).w i

theorem l1_cont' {x : P → Vec n} (hx : ContinuousAt x a0) : ContinuousAt (fun a => l1 (x a)) a0 := by
  unfold l1
  exact tendsto_finset_sum _ fun i _ => (coord_cont hx i).abs

theorem yallMu_pos' {b : Vec m} (hb : b ≠ 0) : 0 < yallMu b := by
  have hm : 0 < m := by
    rcases Nat.eq_zero_or_pos m with h | h
    · subst h; exact absurd (Subsingleton.elim b 0) hb
    · exact h
  have : ∃ i, b i ≠ 0 := by
    by_contra h
    push Not at h
    exact hb (by ext i; simpa using h i)
  obtain ⟨i, hi⟩ := this
  refine div_pos (lt_of_lt_of_le (abs_pos.2 hi) ?_) (by exact_mod_cast hm)
  exact Finset.single_le_sum (f := fun j => |b j|) (fun j _ => abs_nonneg _) (Finset.mem_univ i)

/-- The numerical fields of a state depend continuously on the parameter. -/
structure YCont (g : P → YallState m n) (a0 : P) : Prop where
  x : ContinuousAt (fun a => (g a).x) a0
  xPrev : ContinuousAt (fun a => (g a).xPrev) a0
  z : ContinuousAt (fun a => (g a).z) a0
  rp : ContinuousAt (fun a => (g a).rp) a0
  rd : ContinuousAt (fun a => (g a).rd) a0
  primal : ContinuousAt (fun a => (g a).primal) a0
  dual : ContinuousAt (fun a => (g a).dual) a0

theorem yallPrimal_cont {p : P → YallArgs m n} (hp : YArgsCont p a0) {x : P → Vec n} {r : P → Vec m} (hx : ContinuousAt x a0) (hr : ContinuousAt r a0) : ContinuousAt (fun a => yallPrimal (p a) (x a) (r a)) a0 := by
  have h1 : ContinuousAt (fun a => ∑ i, |(p a).w i * x a i|) a0 := tendsto_finset_sum _ fun i _ => ((coord_cont hp.w i).mul (coord_cont hx i)).abs
  rcases hp.form with h | ⟨rho, hc, h0, h⟩ | ⟨delta, hc, h0, h⟩
  · simp only [yallPrimal, h]; exact h1
  · simp only [yallPrimal, h]
    exact h1.add ((continuousAt_const.div hc h0.ne').mul (hr.inner (𝕜 := ℝ) hr))
  · simp only [yallPrimal, h]; exact h1

theorem yallDual_cont {p : P → YallArgs m n} (hp : YArgsCont p a0) {y : P → Vec m} (hy : ContinuousAt y a0) : ContinuousAt (fun a => yallDual (p a) (y a)) a0 := by
  have h1 : ContinuousAt (fun a => ⟪(p a).b, y a⟫) a0 := hp.b.inner (𝕜 := ℝ) hy
  rcases hp.form with h | ⟨rho, hc, h0, h⟩ | ⟨delta, hc, h0, h⟩
  · simp only [yallDual, h]; exact h1
  · simp only [yallDual, h]
    exact h1.sub ((continuousAt_const.mul hc).mul (hy.inner (𝕜 := ℝ) hy))
  · simp only [yallDual, h]; exact h1.sub (hc.mul hy.norm)

variable {A : Vec n → Vec m} {At : Vec m → Vec n} (hA : Continuous A) (hAt : Continuous At)
include hA hAt

theorem yallIter_cont {p : P → YallArgs m n} (hp : YArgsCont p a0) {g : P → YallState m n} (hg : YCont g a0) : YCont (fun a => yallIter A At (p a) (g a)) a0 := by
  have hmu0 := yallMu_pos' hp.b_ne
  have hmu : ContinuousAt (fun a => yallMu (p a).b) a0 := (l1_cont' hp.b).div_const _
  have hmi := hmu.inv₀ hmu0.ne'
  have hxm : ContinuousAt (fun a => (yallMu (p a).b)⁻¹ • (g a).x) a0 := hmi.smul hg.x
  have hy : ContinuousAt (fun a => yallShrink (p a).form (yallMu (p a).b) (A ((g a).z - (yallMu (p a).b)⁻¹ • (g a).x) + (yallMu (p a).b)⁻¹ • (p a).b)) a0 :=
    yallShrink_cont hp.form hmu hmu0 ((hA.continuousAt.comp (hg.z.sub hxm)).add (hmi.smul hp.b))
  have hd : ContinuousAt (fun a => At (yallShrink (p a).form (yallMu (p a).b) (A ((g a).z - (yallMu (p a).b)⁻¹ • (g a).x) + (yallMu (p a).b)⁻¹ • (p a).b))) a0 := hAt.continuousAt.comp hy
  have hz : ContinuousAt (fun a => (yallIter A At (p a) (g a)).z) a0 := by
    have := yallProj_cont (p a0).nonneg (hd.add hxm) hp.w hp.w_pos
    refine this.congr (Eventually.of_forall fun a => ?_)
    show yallProj (p a0).nonneg _ _ = yallProj (p a).nonneg _ _
    rw [hp.nonneg a]
    rfl
  have hrd : ContinuousAt (fun a => (yallIter A At (p a) (g a)).rd) a0 := hz.sub hd
  have hx : ContinuousAt (fun a => (yallIter A At (p a) (g a)).x) a0 := hg.x.sub ((hp.gamma.mul hmu).smul hrd)
  have hrp : ContinuousAt (fun a => (yallIter A At (p a) (g a)).rp) a0 := hp.b.sub (hA.continuousAt.comp hx)
  exact ⟨hx, hg.x, hz, hrp, hrd, yallPrimal_cont hp hx hrp, yallDual_cont hp hy⟩

theorem yallInit_cont {p : P → YallArgs m n} (hp : YArgsCont p a0) {x0 z0 : P → Vec n} (hx : ContinuousAt x0 a0) (hz : ContinuousAt z0 a0) : YCont (fun a => yallInit A At (p a) (x0 a) (z0 a)) a0 := by
  have hrp : ContinuousAt (fun a => (p a).b - A (x0 a)) a0 := hp.b.sub (hA.continuousAt.comp hx)
  exact ⟨hx, continuousAt_const, hz, hrp, (hAt.continuousAt.comp hp.b).neg, yallPrimal_cont hp hx hrp, continuousAt_const⟩

theorem yall_iterate_cont {p : P → YallArgs m n} (hp : YArgsCont p a0) {x0 z0 : P → Vec n} (hx : ContinuousAt x0 a0) (hz : ContinuousAt z0 a0) (k : ℕ) :
    YCont (fun a => (yallBody A At (p a))^[k] (yallInit A At (p a) (x0 a) (z0 a))) a0 := by
  induction k with
  | zero => exact yallInit_cont hA hAt hp hx hz
  | succ k ih =>
    simp only [Function.iterate_succ_apply']
    exact yallIter_cont hA hAt hp (yallIter_cont hA hAt hp ih)

omit hA hAt in
theorem yall_iterate_iters (p : YallArgs m n) (x0 z0 : Vec n) (k : ℕ) : ((yallBody A At p)^[k] (yallInit A At p x0 z0)).iterations = 2 * k := by
  induction k with
  | zero => rfl
  | succ k ih => rw [Function.iterate_succ_apply']; simp only [yallBody, yallIter, ih]; omega

end helpers

/-- No quantity tested by the loop equals the value it is compared with. -/
structure NoTie (p : YallArgs m n) (s : YallState m n) : Prop where
  gap : |s.dual - s.primal| ≠ p.tol * s.primal
  dual : ‖s.rd‖ ≠ p.tol * ‖s.z‖
  res_bp : p.form = .bp → ‖s.rp‖ ≠ p.tol * ‖p.b‖
  res_con : ∀ delta, p.form = .con delta → ‖s.rp‖ ≠ delta * (1 + p.tol)
  change : (∀ delta, p.form ≠ .con delta) → ‖s.x - s.xPrev‖ ≠ p.tol * (1 - 0.1) * ‖s.x‖
  change_con : ∀ delta, p.form = .con delta → ‖s.x - s.xPrev‖ ≠ p.tol * ‖s.x‖

section loop
variable {P : Type*} [TopologicalSpace P] {a0 : P} {A : Vec n → Vec m} {At : Vec m → Vec n}

theorem yall_primal_eq (p : YallArgs m n) (x0 z0 : Vec n) (k : ℕ) :
    ((yallBody A At p)^[k] (yallInit A At p x0 z0)).primal = yallPrimal p ((yallBody A At p)^[k] (yallInit A At p x0 z0)).x ((yallBody A At p)^[k] (yallInit A At p x0 z0)).rp := by
  cases k with
  | zero => rfl
  | succ k => rw [Function.iterate_succ_apply']; rfl

theorem yallPrimal_nonneg {p : P → YallArgs m n} (hp : YArgsCont p a0) : ∀ᶠ a in 𝓝 a0, ∀ x r, 0 ≤ yallPrimal (p a) x r := by
  have h1 : ∀ a (x : Vec n), 0 ≤ ∑ i, |(p a).w i * x i| := fun a x => Finset.sum_nonneg fun i _ => abs_nonneg _
  rcases hp.form with h | ⟨rho, hc, h0, h⟩ | ⟨delta, hc, h0, h⟩
  · exact Eventually.of_forall fun a x r => by simp only [yallPrimal, h]; exact h1 a x
  · filter_upwards [(continuousAt_const (y := (0 : ℝ))).eventually_lt hc h0] with a ha x r
    simp only [yallPrimal, h]
    have h2 : 0 ≤ ⟪r, r⟫ := real_inner_self_nonneg
    have h3 := h1 a x
    positivity
  · exact Eventually.of_forall fun a x r => by simp only [yallPrimal, h]; exact h1 a x

/-- The stopping tests come out the same near a state without ties. -/
theorem yallCond_stable {p : P → YallArgs m n} (hp : YArgsCont p a0) {g : P → YallState m n} (hg : YCont g a0) (hpr : ∀ᶠ a in 𝓝 a0, 0 ≤ (g a).primal) (hit : ∀ a, (g a).iterations = (g a0).iterations) (hn : NoTie (p a0) (g a0)) :
    ∀ᶠ a in 𝓝 a0, (yallCond (p a) (g a) ↔ yallCond (p a0) (g a0)) := by
  have hpr0 : 0 ≤ (g a0).primal := hpr.self_of_nhds
  have e1 := lt_stable (hp.tol.mul hg.primal) (hg.dual.sub hg.primal).abs hn.gap.symm
  have e2 := lt_stable (hp.tol.mul hg.z.norm) hg.rd.norm hn.dual.symm
  rcases hp.form with h | ⟨rho, hc, h0, h⟩ | ⟨delta, hc, h0, h⟩
  · have e3 := lt_stable hg.rp.norm (hp.tol.mul hp.b.norm) (hn.res_bp (h a0))
    have e4 := lt_stable ((hp.tol.mul (continuousAt_const (y := (1 - 0.1 : ℝ)))).mul hg.x.norm) (hg.x.sub hg.xPrev).norm (hn.change fun d hd => by rw [h a0] at hd; cases hd).symm
    filter_upwards [hpr, e1, e2, e3, e4] with a h1 h2 h3 h4 h5
    simp only [Pi.mul_apply, Pi.sub_apply, Pi.add_apply] at h2 h3 h4 h5
    simp only [yallCond, h, gapInfeasible, dInfeasible, ratioGt_iff h1, ratioGt_iff hpr0, ratioGt_iff (norm_nonneg _), h2, h3, h5, hit a, hp.maxIters a, ge_iff_le, ← not_lt, h4]
  · have e4 := lt_stable ((hp.tol.mul (continuousAt_const (y := (1 - 0.1 : ℝ)))).mul hg.x.norm) (hg.x.sub hg.xPrev).norm (hn.change fun d hd => by rw [h a0] at hd; cases hd).symm
    filter_upwards [hpr, e1, e2, e4] with a h1 h2 h3 h5
    simp only [Pi.mul_apply, Pi.sub_apply, Pi.add_apply] at h2 h3 h5
    simp only [yallCond, h, gapInfeasible, dInfeasible, ratioGt_iff h1, ratioGt_iff hpr0, ratioGt_iff (norm_nonneg _), h2, h3, h5, hit a, hp.maxIters a]
  · have e3 := lt_stable (hc.mul (continuousAt_const (y := (1 : ℝ)) |>.add hp.tol)) hg.rp.norm (hn.res_con _ (h a0)).symm
    have e4 := lt_stable (hp.tol.mul hg.x.norm) (hg.x.sub hg.xPrev).norm (hn.change_con _ (h a0)).symm
    filter_upwards [hpr, e1, e2, e3, e4] with a h1 h2 h3 h4 h5
    simp only [Pi.mul_apply, Pi.sub_apply, Pi.add_apply] at h2 h3 h4 h5
    simp only [yallCond, h, gapInfeasible, dInfeasible, ratioGt_iff h1, ratioGt_iff hpr0, ratioGt_iff (norm_nonneg _), h2, h3, h5, hit a, hp.maxIters a, gt_iff_lt, h4]

/-- A whole run: near the parameter the loop stops after the same number of iterations with nearly the same state. -/
theorem yall_out_cont (hA : Continuous A) (hAt : Continuous At) {p : P → YallArgs m n} (hp : YArgsCont p a0) {x0 z0 : P → Vec n} (hx : ContinuousAt x0 a0) (hz : ContinuousAt z0 a0) (s : YallState m n)
    (h : YallOut A At (p a0) (x0 a0) (z0 a0) s) (hn : ∀ s', YallReach A At (p a0) (x0 a0) (z0 a0) s' → NoTie (p a0) s') :
    ∃ g : P → YallState m n, YCont g a0 ∧ g a0 = s ∧ (∀ a, (g a).iterations = s.iterations) ∧ ∀ᶠ a in 𝓝 a0, YallOut A At (p a) (x0 a) (z0 a) (g a) := by
  obtain ⟨k, rfl, hk⟩ := h.1.iterate
  have hst : ∀ j ≤ k, ∀ᶠ a in 𝓝 a0, (yallCond (p a) ((yallBody A At (p a))^[j] (yallInit A At (p a) (x0 a) (z0 a))) ↔ yallCond (p a0) ((yallBody A At (p a0))^[j] (yallInit A At (p a0) (x0 a0) (z0 a0)))) := fun j hj =>
    yallCond_stable hp (yall_iterate_cont hA hAt hp hx hz j) (by filter_upwards [yallPrimal_nonneg hp] with a ha; rw [yall_primal_eq]; exact ha _ _) (fun a => by rw [yall_iterate_iters, yall_iterate_iters])
      (hn _ (reach_of_iterate fun i hi => hk i (by omega)))
  refine ⟨fun a => (yallBody A At (p a))^[k] (yallInit A At (p a) (x0 a) (z0 a)), yall_iterate_cont hA hAt hp hx hz k, rfl, fun a => by rw [yall_iterate_iters, yall_iterate_iters], ?_⟩
  refine out_eventually (fun a => yallCond (p a)) (fun a => yallBody A At (p a)) (fun a => yallInit A At (p a) (x0 a) (z0 a)) k (fun j hj => ?_) ?_
  · filter_upwards [hst j hj.le] with a ha using ha.2 (hk j hj)
  · filter_upwards [hst k le_rfl] with a ha using fun hc => h.2 (ha.1 hc)

end loop

/-- **C183** (solver loop) let one of the YALL1 loops return `s` on data `b ≠ 0` with positive weights, and let no quantity tested at any of its states be exactly equal to its bound.  Then for all data, weights,
starting points, step factors and tolerances near by the loop stops after the same number of iterations with solution and residual as close to those of `s` as wanted. -/
theorem c183_loop (A : Vec n → Vec m) (At : Vec m → Vec n) (hA : Continuous A) (hAt : Continuous At) (p : YallArgs m n) (hb : p.b ≠ 0) (hw : ∀ i, 0 < p.w i) (hform : ∀ r, p.form = .l1l2 r ∨ p.form = .con r → 0 < r) (x0 z0 : Vec n)
    (s : YallState m n) (h : YallOut A At p x0 z0 s) (hn : ∀ s', YallReach A At p x0 z0 s' → NoTie p s') (ε : ℝ) (hε : 0 < ε) :
    ∀ᶠ q : Vec m × Vec n × Vec n × Vec n × ℝ × ℝ in 𝓝 (p.b, p.w, x0, z0, p.gamma, p.tol), ∃ t,
      YallOut A At { p with b := q.1, w := q.2.1, gamma := q.2.2.2.2.1, tol := q.2.2.2.2.2 } q.2.2.1 q.2.2.2.1 t ∧ t.iterations = s.iterations ∧ ‖t.x - s.x‖ < ε ∧ ‖t.rp - s.rp‖ < ε := by
  have hp : YArgsCont (fun q : Vec m × Vec n × Vec n × Vec n × ℝ × ℝ => { p with b := q.1, w := q.2.1, gamma := q.2.2.2.2.1, tol := q.2.2.2.2.2 }) (p.b, p.w, x0, z0, p.gamma, p.tol) := by
    refine ⟨?_, by fun_prop, by fun_prop, by fun_prop, by fun_prop, fun _ => rfl, fun _ => rfl, hb, hw⟩
    cases hf : p.form with
    | bp => exact .bp fun _ => rfl
    | l1l2 r => exact .l1l2 (fun _ => r) continuousAt_const (hform r (Or.inl hf)) fun _ => rfl
    | con r => exact .con (fun _ => r) continuousAt_const (hform r (Or.inr hf)) fun _ => rfl
  obtain ⟨g, hg, rfl, hi, ho⟩ := yall_out_cont hA hAt hp (x0 := fun q => q.2.2.1) (z0 := fun q => q.2.2.2.1) (by fun_prop) (by fun_prop) s h hn
  filter_upwards [ho, Metric.continuousAt_iff'.1 hg.x ε hε, Metric.continuousAt_iff'.1 hg.rp ε hε] with q h1 h2 h3
  exact ⟨g q, h1, hi q, by rwa [dist_eq_norm] at h2, by rwa [dist_eq_norm] at h3⟩

section solve
variable {A : Vec n → Vec m} {At : Vec m → Vec n}

theorem linf_cont {P : Type*} [TopologicalSpace P] {a0 : P} {x : P → Vec n} (hx : ContinuousAt x a0) : ContinuousAt (fun a => linf (x a)) a0 :=
  (continuous_norm.continuousAt).comp ((PiLp.continuous_ofLp 2 _).continuousAt.comp hx)

theorem linf_pos' {b : Vec m} (hb : b ≠ 0) : 0 < linf b := norm_pos_iff.2 fun h => hb (by ext i; exact congrFun h i)

/-- The zero-solution test comes out the same for data near by when it is not a tie. -/
theorem yallZero_stable (hAt : Continuous At) (b : Vec m) (rho delta : ℝ) (h1 : 0 < delta → ‖b‖ ≠ delta) (h2 : delta ≤ 0 → 0 < rho → linf (At b) ≠ rho) : ∀ᶠ b' in 𝓝 b, (YallZero b' (At b') rho delta ↔ YallZero b (At b) rho delta) := by
  unfold YallZero
  split_ifs with hd hr
  · have := lt_stable (f := fun _ : Vec m => delta) (g := fun b' : Vec m => ‖b'‖) (a0 := b) continuousAt_const continuous_norm.continuousAt (h1 hd).symm
    filter_upwards [this] with b' hb'
    simp only [← not_lt, hb']
  · have := lt_stable (f := fun _ : Vec m => rho) (g := fun b' : Vec m => linf (At b')) (a0 := b) continuousAt_const (linf_cont hAt.continuousAt) (h2 (not_lt.1 hd) hr).symm
    filter_upwards [this] with b' hb'
    simp only [← not_lt, hb']
  · exact Eventually.of_forall fun _ => Iff.rfl

/-- **C183** let `yall1.solve` return `res` on data `b ≠ 0` with positive weights, and let neither the test for the zero solution nor any quantity tested at a state of its loop be a tie.  Then for all data near by it
returns after the same number of iterations, with solution and residual as close to those of `res` as wanted. -/
theorem c183_solve (hA : Continuous A) (hAt : Continuous At) (b : Vec m) (hb : b ≠ 0) (x0 z0 weights : Option (Vec n)) (hw : ∀ v, weights = some v → ∀ i, 0 < v i) (nonneg : Bool) (rho delta gamma tol : ℝ) (N : ℕ) (res : YallResult m n)
    (h : YallSolve A At b x0 z0 weights nonneg rho delta gamma tol N res) (h1 : 0 < delta → ‖b‖ ≠ delta) (h2 : delta ≤ 0 → 0 < rho → linf (At b) ≠ rho)
    (hn : ∀ s', YallReach A At (yallArgs b weights nonneg rho delta gamma tol N) (x0.getD ((linf b)⁻¹ • At b)) (z0.getD 0) s' → NoTie (yallArgs b weights nonneg rho delta gamma tol N) s') (ε : ℝ) (hε : 0 < ε) :
    ∀ᶠ b' in 𝓝 b, ∃ res', YallSolve A At b' x0 z0 weights nonneg rho delta gamma tol N res' ∧ res'.iterations = res.iterations ∧ ‖res'.x - res.x‖ < ε ∧ ‖res'.r - res.r‖ < ε := by
  have hzero := yallZero_stable hAt b rho delta h1 h2
  rcases h with ⟨h0, rfl⟩ | ⟨h0, s, hs, rfl⟩
  · have hnb := Metric.continuousAt_iff'.1 (continuousAt_id (x := b)) ε hε
    filter_upwards [hzero, hnb] with b' h3 h4
    refine ⟨_, Or.inl ⟨h3.2 h0, rfl⟩, rfl, by simpa using hε, ?_⟩
    rw [dist_eq_norm] at h4
    exact h4
  · have hl := linf_cont (continuousAt_id (x := b))
    have hl0 := linf_pos' hb
    have hli : ContinuousAt (fun b' : Vec m => (linf b')⁻¹) b := hl.inv₀ hl0.ne'
    have hp : YArgsCont (fun b' : Vec m => yallArgs b' weights nonneg rho delta gamma tol N) b := by
      refine ⟨?_, hli.smul continuousAt_id, continuousAt_const, continuousAt_const, continuousAt_const, fun _ => rfl, fun _ => rfl, smul_ne_zero (inv_ne_zero hl0.ne') hb, fun i => ?_⟩
      · by_cases hr : 0 < rho
        · exact .l1l2 (fun b' => rho / linf b') (continuousAt_const.div hl hl0.ne') (div_pos hr hl0) fun b' => by simp [yallArgs, yallSelect, hr]
        · by_cases hd : 0 < delta
          · exact .con (fun b' => delta / linf b') (continuousAt_const.div hl hl0.ne') (div_pos hd hl0) fun b' => by simp [yallArgs, yallSelect, hr, hd]
          · exact .bp fun b' => by simp [yallArgs, yallSelect, hr, hd]
      · cases weights with
        | none => simp [yallArgs, yallWeights, vec]
        | some v => simpa [yallArgs, yallWeights, vec] using hw v rfl i
    have hx : ContinuousAt (fun b' : Vec m => x0.getD ((linf b')⁻¹ • At b')) b := by
      cases x0 with
      | none => exact hli.smul hAt.continuousAt
      | some v => exact continuousAt_const
    obtain ⟨g, hg, rfl, hi, ho⟩ := yall_out_cont hA hAt hp (x0 := fun b' => x0.getD ((linf b')⁻¹ • At b')) (z0 := fun _ => z0.getD 0) hx continuousAt_const s hs hn
    have hc : ContinuousAt (fun b' => yallClip nonneg (g b').x) b := by
      cases nonneg
      · exact hg.x
      · exact vec_cont fun i => continuousAt_const.max (coord_cont hg.x i)
    have cx : ContinuousAt (fun b' => linf b' • yallClip nonneg (g b').x) b := hl.smul hc
    have cr : ContinuousAt (fun b' => linf b' • (g b').rp) b := hl.smul hg.rp
    filter_upwards [hzero, ho, Metric.continuousAt_iff'.1 cx ε hε, Metric.continuousAt_iff'.1 cr ε hε] with b' h3 h4 h5 h6
    exact ⟨_, Or.inr ⟨fun hc => h0 (h3.1 hc), g b', h4, rfl⟩, hi b', by rwa [dist_eq_norm] at h5, by rwa [dist_eq_norm] at h6⟩

end solve

/-! Instance: basis pursuit on the line, `A = I`, `b = 1`, started at `x = 2` with tolerance `1/2`: the first tests (relative gap 1, infinite dual
infeasibility, residual 1, relative change 1) are no ties. -/

abbrev exYallTie : YallArgs 1 1 := { form := .bp, b := vec fun _ => 1, w := vec fun _ => 1, nonneg := false, gamma := 1, tol := 1 / 2, maxIters := 0 }

theorem norm_one_vec (c : ℝ) : ‖(vec fun _ => c : Vec 1)‖ = |c| := by
  rw [EuclideanSpace.norm_eq]
  simp [vec, Real.sqrt_sq_eq_abs]

theorem exYallTie_noTie : NoTie exYallTie (yallInit id id exYallTie (vec fun _ => 2) 0) := by
  have e : (vec fun _ => 1 : Vec 1) - (vec fun _ => 2) = vec fun _ => -1 := by ext i; simp [vec]; norm_num
  refine ⟨?_, ?_, fun _ => ?_, (fun d h => by cases h), fun _ => ?_, (fun d h => by cases h)⟩
  · simp [yallInit, yallPrimal, counted, vec]
  · simp [yallInit, counted, norm_one_vec]
  · simp [yallInit, counted, e, norm_one_vec]
  · simp [yallInit, counted, norm_one_vec]; norm_num

example (s) (hs : YallOut id id exYallTie (vec fun _ => 2) 0 s) (ε : ℝ) (hε : 0 < ε) :=
  c183_loop id id continuous_id continuous_id exYallTie (fun h => by have := norm_one_vec 1; rw [show (vec fun _ => 1 : Vec 1) = 0 from h] at this; simp at this) (fun i => by simp [vec]) (fun r h => by rcases h with h | h <;> cases h) (vec fun _ => 2) 0 s hs
    (fun s' h' => by
      have : s' = yallInit id id exYallTie (vec fun _ => 2) 0 := by
        cases h' with
        | init => rfl
        | step _ hc => exact absurd hc.2.1 (Nat.not_lt_zero _)
      rw [this]; exact exYallTie_noTie) ε hε

example (b : Vec 1) (hb : b ≠ 0) (hd : ‖b‖ < 5) (res) (h : YallSolve id id b none none none false 0 5 1 (1 / 2) 10 res) (hn) (ε : ℝ) (hε : 0 < ε) :=
  c183_solve continuous_id continuous_id b hb none none none (fun v h => by cases h) false 0 5 1 (1 / 2) 10 res h (fun _ => hd.ne) (fun h => by norm_num at h) hn ε hε

end Verif.Cvx
