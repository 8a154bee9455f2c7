import Verif.Cvx.L1lsModel
import Verif.Cvx.Spgl1Props
import Verif.Opt.CgProps
import Mathlib.Analysis.SpecialFunctions.Log.Deriv
import Mathlib.Analysis.Calculus.Deriv.Slope
import Mathlib.Analysis.SpecificLimits.Basic

set_option autoImplicit false
/-!
# Lemmas on the interior point solver
-/
noncomputable section
namespace Verif.Cvx
open Verif.Loop Verif.Opt
open Verif.Sls (counted)
open scoped RealInnerProductSpace

variable {m n : ℕ}

/-- The objective of l1ls, `|A v - y|² + λ Σ |v_i|`. -/
def lsObj (A : Vec n → Vec m) (y : Vec m) (lam : ℝ) (v : Vec n) : ℝ := ‖A v - y‖ ^ 2 + lam * ∑ i, |v i|

/-- The pair `(x, u)` is strictly inside the constraint set. -/
def Interior (x u : Vec n) : Prop := ∀ i, |x i| < u i

/-! ### Duality -/

theorem linf_smul (c : ℝ) (g : Vec n) : linf (c • g) = |c| * linf g := by
  unfold linf; rw [WithLp.ofLp_smul, norm_smul, Real.norm_eq_abs]

/-- Weak duality for `|A v - y|² + λ |v|₁`. -/
theorem ls_weak (A : Vec n →ₗ[ℝ] Vec m) (At : Vec m →ₗ[ℝ] Vec n) (hadj : IsAdj A At) (y : Vec m) (lam : ℝ) (nu : Vec m)
    (hnu : linf (At nu) ≤ lam) (v : Vec n) : dualObj y nu ≤ lsObj A y lam v := by
  unfold dualObj lsObj
  have h1 : |⟪At nu, v⟫| ≤ lam * l1 v := (inner_le_linf _ _).trans (mul_le_mul_of_nonneg_right hnu (Finset.sum_nonneg fun i _ => abs_nonneg _))
  have h2 : ⟪nu, A v⟫ = ⟪At nu, v⟫ := by rw [real_inner_comm, hadj, real_inner_comm]
  have h3 := (abs_le.mp h1).1
  have h4 : 0 ≤ ‖(A v - y) - (1 / 2 : ℝ) • nu‖ ^ 2 := by positivity
  rw [norm_sub_sq_real, inner_smul_right, norm_smul, inner_sub_left, real_inner_comm nu (A v), real_inner_comm nu y, mul_pow, Real.norm_eq_abs, sq_abs] at h4
  have h5 : ⟪nu, nu⟫ = ‖nu‖ ^ 2 := real_inner_self_eq_norm_sq _
  rw [h5]
  have h6 : lam * ∑ i, |v i| = lam * l1 v := rfl
  rw [h6]
  nlinarith

theorem getNu_pos {At : Vec m → Vec n} {lam : ℝ} {z : Vec m} {calls : ℕ} (h : linf (At ((2 : ℝ) • z)) ≠ 0 ∧ lam / linf (At ((2 : ℝ) • z)) < 1) :
    (getNu At lam z calls).1 = (lam / linf (At ((2 : ℝ) • z))) • (2 : ℝ) • z := if_pos h

theorem getNu_neg {At : Vec m → Vec n} {lam : ℝ} {z : Vec m} {calls : ℕ} (h : ¬ (linf (At ((2 : ℝ) • z)) ≠ 0 ∧ lam / linf (At ((2 : ℝ) • z)) < 1)) :
    (getNu At lam z calls).1 = (2 : ℝ) • z := if_neg h

theorem getNu_feasible (At : Vec m →ₗ[ℝ] Vec n) {lam : ℝ} (hl : 0 < lam) (z : Vec m) (calls : ℕ) : linf (At (getNu At lam z calls).1) ≤ lam := by
  by_cases h : linf (At ((2 : ℝ) • z)) ≠ 0 ∧ lam / linf (At ((2 : ℝ) • z)) < 1
  · rw [getNu_pos h]
    have hp : 0 < linf (At ((2 : ℝ) • z)) := lt_of_le_of_ne (linf_nonneg _) (Ne.symm h.1)
    rw [map_smul At (lam / _), linf_smul, abs_of_pos (div_pos hl hp), div_mul_cancel₀ _ hp.ne']
  · rw [getNu_neg h]
    by_cases h0 : linf (At ((2 : ℝ) • z)) = 0
    · rw [h0]; exact hl.le
    · have hp : 0 < linf (At ((2 : ℝ) • z)) := lt_of_le_of_ne (linf_nonneg _) (Ne.symm h0)
      have : ¬ lam / linf (At ((2 : ℝ) • z)) < 1 := fun h1 => h ⟨h0, h1⟩
      rw [div_lt_one hp, not_lt] at this
      exact this

theorem getNu_scale (At : Vec m → Vec n) {lam : ℝ} (hl : 0 < lam) (z : Vec m) (calls : ℕ) :
    ∃ c : ℝ, 0 < c ∧ c ≤ 1 ∧ (getNu At lam z calls).1 = (2 * c) • z := by
  by_cases h : linf (At ((2 : ℝ) • z)) ≠ 0 ∧ lam / linf (At ((2 : ℝ) • z)) < 1
  · rw [getNu_pos h]
    have hp : 0 < linf (At ((2 : ℝ) • z)) := lt_of_le_of_ne (linf_nonneg _) (Ne.symm h.1)
    exact ⟨_, div_pos hl hp, h.2.le, by rw [smul_smul, mul_comm]⟩
  · rw [getNu_neg h]; exact ⟨1, one_pos, le_rfl, by rw [mul_one]⟩

theorem primalObj_eq (A : Vec n → Vec m) (y : Vec m) (lam : ℝ) (x : Vec n) : primalObj lam x (A x - y) = lsObj A y lam x := by
  rw [primalObj, real_inner_self_eq_norm_sq]; rfl

/-! ### The line search -/

theorem out_of_iterate {σ : Type*} {c : σ → Prop} {f : σ → σ} {s0 : σ} (h : ∃ k, ¬ c (f^[k] s0)) : ∃ s, Out c f s0 s := by
  classical
  refine ⟨f^[Nat.find h] s0, reach_of_iterate fun j hj => ?_, Nat.find_spec h⟩
  exact not_not.mp (Nat.find_min h hj)

theorem fIter (x u dx du : Vec n) (s : ℝ) (k : ℕ) : (fBody x u dx du)^[k] (fInit x u dx du s) = fInit x u dx du (s * (1 / 2) ^ k) := by
  induction k with
  | zero => simp
  | succ k ih =>
    rw [Function.iterate_succ_apply', ih, fBody]
    congr 1
    show 0.5 * (s * (1 / 2) ^ k) = _
    rw [pow_succ]; norm_num; ring

theorem fsearch_spec {x u dx du : Vec n} {s : ℝ} {p : FState n} (hs : 0 < s) (h : FSearch x u dx du s p) :
    p = fInit x u dx du p.s ∧ 0 < p.s ∧ p.s ≤ s ∧ Interior p.x p.u := by
  obtain ⟨k, hk, _⟩ := h.1.iterate
  rw [fIter] at hk
  refine ⟨by rw [hk]; rfl, ?_, ?_, ?_⟩
  · rw [hk]; show 0 < s * (1 / 2) ^ k; positivity
  · rw [hk]; show s * (1 / 2) ^ k ≤ s
    exact mul_le_of_le_one_right hs.le (pow_le_one₀ (by norm_num) (by norm_num))
  · intro i
    have : ¬ (0 ≤ p.x i - p.u i ∨ 0 ≤ -p.x i - p.u i) := fun hi => h.2 ⟨i, hi⟩
    push Not at this
    rw [abs_lt]; constructor <;> linarith

theorem interior_near {x u : Vec n} (h : Interior x u) (dx du : Vec n) : ∀ᶠ s in nhds (0 : ℝ), Interior (x + s • dx) (u + s • du) := by
  unfold Interior
  rw [Filter.eventually_all]
  intro i
  have h1 : ContinuousAt (fun s : ℝ => (u i + s * du i) - |x i + s * dx i|) 0 := by fun_prop
  have h2 : (0 : ℝ) < (u i + 0 * du i) - |x i + 0 * dx i| := by have := h i; simp only [zero_mul, add_zero]; linarith
  filter_upwards [h1.eventually (lt_mem_nhds h2)] with s hs
  simp only [PiLp.add_apply, PiLp.smul_apply, smul_eq_mul]
  linarith

theorem half_tendsto (s : ℝ) : Filter.Tendsto (fun k : ℕ => s * (1 / 2 : ℝ) ^ k) Filter.atTop (nhds 0) := by
  have := (tendsto_pow_atTop_nhds_zero_of_lt_one (r := (1 / 2 : ℝ)) (by norm_num) (by norm_num)).const_mul s
  simpa using this

theorem fsearch_exists {x u : Vec n} (h : Interior x u) (dx du : Vec n) (s : ℝ) : ∃ p, FSearch x u dx du s p := by
  refine out_of_iterate ?_
  obtain ⟨k, hk⟩ := ((half_tendsto s).eventually (interior_near h dx du)).exists
  refine ⟨k, ?_⟩
  rw [fIter]
  rintro ⟨i, hi⟩
  have := abs_lt.mp (hk i)
  rcases hi with hi | hi
  · have : 0 ≤ (x + (s * (1 / 2) ^ k) • dx) i - (u + (s * (1 / 2) ^ k) • du) i := hi
    linarith
  · have : 0 ≤ -(x + (s * (1 / 2) ^ k) • dx) i - (u + (s * (1 / 2) ^ k) • du) i := hi
    linarith

/-- What holds at every state of the backtracking loop. -/
structure BtInv (A : Vec n → Vec m) (y : Vec m) (lam t : ℝ) (x u dx du : Vec n) (calls : ℕ) (b : BtState m n) : Prop where
  eqx : b.p.x = x + b.p.s • dx
  equ : b.p.u = u + b.p.s • du
  spos : 0 < b.p.s
  sle : b.p.s ≤ (1 / 2) ^ (b.count - 1)
  int : Interior b.p.x b.p.u
  z_eq : b.z = A b.p.x - y
  phi_eq : b.phi = getPhi lam b.p.x b.p.u b.z t
  cnt : 1 ≤ b.count
  calls_eq : b.timesCalls = calls + b.count

theorem bt_inv {A : Vec n → Vec m} {y : Vec m} {lam t : ℝ} {x u dx du : Vec n} {phi gdx : ℝ} {calls : ℕ} {b : BtState m n}
    (h : BtReach A y lam t x u dx du phi gdx calls b) : BtInv A y lam t x u dx du calls b := by
  induction h with
  | @init p hp =>
    obtain ⟨h1, h2, h3, h4⟩ := fsearch_spec one_pos hp
    exact ⟨by show p.x = _; rw [h1]; rfl, by show p.u = _; rw [h1]; rfl, h2, by simpa [btNext] using h3, h4, rfl, rfl, le_refl 1, rfl⟩
  | @step b p _ _ hp ih =>
    have hb := ih.spos
    obtain ⟨h1, h2, h3, h4⟩ := fsearch_spec (s := 0.5 * b.p.s) (by positivity) hp
    refine ⟨by show p.x = _; rw [h1]; rfl, by show p.u = _; rw [h1]; rfl, h2, ?_, h4, rfl, rfl, Nat.le_add_left 1 _, ?_⟩
    · show p.s ≤ (1 / 2) ^ (b.count + 1 - 1)
      have h5 := ih.sle
      have h6 : b.count + 1 - 1 = (b.count - 1) + 1 := by have := ih.cnt; omega
      rw [h6, pow_succ]
      have : (0.5 : ℝ) = 1 / 2 := by norm_num
      rw [this] at h3
      linarith
    · show b.timesCalls + 1 = calls + (b.count + 1)
      rw [ih.calls_eq]; ring

theorem bt_exists {A : Vec n → Vec m} {y : Vec m} {lam t : ℝ} {x u dx du : Vec n} {phi gdx : ℝ} {calls : ℕ} (hint : Interior x u)
    (hsmall : ∀ᶠ s in nhdsWithin (0 : ℝ) (Set.Ioi 0), getPhi lam (x + s • dx) (u + s • du) (A (x + s • dx) - y) t - phi ≤ 0.01 * s * gdx) :
    ∃ b, BtOut A y lam t x u dx du phi gdx calls b := by
  by_contra hno
  have hall : ∀ b, BtReach A y lam t x u dx du phi gdx calls b → btCond phi gdx b := by
    intro b hb; by_contra hc; exact hno ⟨b, hb, hc⟩
  have hex : ∀ k : ℕ, ∃ b, BtReach A y lam t x u dx du phi gdx calls b ∧ b.count = k + 1 := by
    intro k
    induction k with
    | zero =>
      obtain ⟨p, hp⟩ := fsearch_exists hint dx du 1
      exact ⟨_, .init hp, rfl⟩
    | succ k ih =>
      obtain ⟨b, hb, hc⟩ := ih
      obtain ⟨p, hp⟩ := fsearch_exists hint dx du (0.5 * b.p.s)
      exact ⟨_, .step hb (hall b hb) hp, by show b.count + 1 = _; rw [hc]⟩
  choose b hb hcnt using hex
  have hlim : Filter.Tendsto (fun k => (b k).p.s) Filter.atTop (nhdsWithin (0 : ℝ) (Set.Ioi 0)) := by
    refine tendsto_nhdsWithin_of_tendsto_nhds_of_eventually_within _ ?_ (Filter.Eventually.of_forall fun k => (bt_inv (hb k)).spos)
    refine squeeze_zero (fun k => (bt_inv (hb k)).spos.le) (fun k => ?_) (by simpa using half_tendsto 1)
    have := (bt_inv (hb k)).sle
    rw [hcnt k] at this
    simpa using this
  obtain ⟨k, hk⟩ := (hlim.eventually hsmall).exists
  have hi := bt_inv (hb k)
  have hc := hall _ (hb k)
  unfold btCond at hc
  rw [hi.phi_eq, hi.z_eq, hi.eqx, hi.equ] at hc
  linarith

/-! ### The barrier function -/

theorem pv_inner (a b c d : Vec n) : ⟪pv a b, pv c d⟫ = ⟪a, c⟫ + ⟪b, d⟫ := by rw [WithLp.prod_inner_apply]; rfl

theorem pv_eta (v : PVec n) : pv v.fst v.snd = v := rfl

theorem pv_add (a b c d : Vec n) : pv a b + pv c d = pv (a + c) (b + d) := rfl

theorem pv_smul (r : ℝ) (a b : Vec n) : r • pv a b = pv (r • a) (r • b) := rfl

/-- `gradient_phi` is the gradient of the barrier function: it gives the derivative along every direction. -/
theorem phi_deriv (A : Vec n →ₗ[ℝ] Vec m) (At : Vec m →ₗ[ℝ] Vec n) (hadj : IsAdj A At) (y : Vec m) (lam t : ℝ) {x u : Vec n} (h : Interior x u)
    (dx du : Vec n) : HasDerivAt (fun s : ℝ => getPhi lam (x + s • dx) (u + s • du) (A (x + s • dx) - y) t)
      ⟪gradPhi lam x u (At ((2 : ℝ) • (A x - y))) t, pv dx du⟫ 0 := by
  have hz : ∀ s : ℝ, ⟪A (x + s • dx) - y, A (x + s • dx) - y⟫ = ‖A x - y‖ ^ 2 + s * (2 * ⟪A x - y, A dx⟫) + s ^ 2 * ‖A dx‖ ^ 2 := by
    intro s
    have e : A (x + s • dx) - y = (A x - y) + s • A dx := by rw [map_add, map_smul]; abel
    rw [e, real_inner_self_eq_norm_sq, norm_add_sq_real, inner_smul_right, norm_smul, mul_pow, Real.norm_eq_abs, sq_abs]; ring
  have h1 : HasDerivAt (fun s : ℝ => ‖A x - y‖ ^ 2 + s * (2 * ⟪A x - y, A dx⟫) + s ^ 2 * ‖A dx‖ ^ 2) (2 * ⟪A x - y, A dx⟫) 0 := by
    have a := ((hasDerivAt_id (0 : ℝ)).mul_const (2 * ⟪A x - y, A dx⟫)).const_add (‖A x - y‖ ^ 2)
    have b := ((hasDerivAt_pow 2 (0 : ℝ)).mul_const (‖A dx‖ ^ 2))
    have hab := a.fun_add b
    simp only [id_eq] at hab
    exact hab.congr_deriv (by simp)
  have h2 : HasDerivAt (fun s : ℝ => lam * ∑ i, (u i + s * du i)) (lam * ∑ i, du i) 0 := by
    refine HasDerivAt.const_mul _ (HasDerivAt.fun_sum fun i _ => ?_)
    simpa using ((hasDerivAt_id (0 : ℝ)).mul_const (du i)).const_add (u i)
  have h3 : HasDerivAt (fun s : ℝ => ∑ i, Real.log (-((x i + s * dx i) - (u i + s * du i)))) (∑ i, (du i - dx i) / (u i - x i)) 0 := by
    refine HasDerivAt.fun_sum fun i _ => ?_
    have hp := abs_lt.mp (h i)
    have a : HasDerivAt (fun s : ℝ => -((x i + s * dx i) - (u i + s * du i))) (du i - dx i) 0 := by
      have b1 := ((hasDerivAt_id (0 : ℝ)).mul_const (dx i)).const_add (x i)
      have b2 := ((hasDerivAt_id (0 : ℝ)).mul_const (du i)).const_add (u i)
      have hb := (b1.fun_sub b2).fun_neg
      simp only [id_eq] at hb
      exact hb.congr_deriv (by ring)
    have := a.log (by simp only [zero_mul, add_zero]; linarith)
    simpa using this
  have h4 : HasDerivAt (fun s : ℝ => ∑ i, Real.log (-(-(x i + s * dx i) - (u i + s * du i)))) (∑ i, (du i + dx i) / (u i + x i)) 0 := by
    refine HasDerivAt.fun_sum fun i _ => ?_
    have hp := abs_lt.mp (h i)
    have a : HasDerivAt (fun s : ℝ => -(-(x i + s * dx i) - (u i + s * du i))) (du i + dx i) 0 := by
      have b1 := ((hasDerivAt_id (0 : ℝ)).mul_const (dx i)).const_add (x i)
      have b2 := ((hasDerivAt_id (0 : ℝ)).mul_const (du i)).const_add (u i)
      have hb := (b1.fun_neg.fun_sub b2).fun_neg
      simp only [id_eq] at hb
      exact hb.congr_deriv (by ring)
    have := a.log (by simp only [zero_mul, add_zero]; linarith)
    exact this.congr_deriv (by simp only [zero_mul, add_zero]; congr 1; ring)
  have h5 := (h1.add h2).sub ((h3.add h4).div_const t)
  have hfun : (fun s : ℝ => getPhi lam (x + s • dx) (u + s • du) (A (x + s • dx) - y) t) = fun s : ℝ =>
      ((‖A x - y‖ ^ 2 + s * (2 * ⟪A x - y, A dx⟫) + s ^ 2 * ‖A dx‖ ^ 2) + lam * ∑ i, (u i + s * du i)) -
      ((∑ i, Real.log (-((x i + s * dx i) - (u i + s * du i)))) + ∑ i, Real.log (-(-(x i + s * dx i) - (u i + s * du i)))) / t := by
    funext s
    rw [getPhi, hz s]
    simp only [PiLp.add_apply, PiLp.smul_apply, smul_eq_mul]
  rw [hfun]
  refine h5.congr_deriv ?_
  have e1 : (2 : ℝ) * ⟪A x - y, A dx⟫ = ⟪At ((2 : ℝ) • (A x - y)), dx⟫ := by
    rw [real_inner_comm dx, ← hadj, inner_smul_right, real_inner_comm (A dx)]
  rw [e1, gradPhi, pv_inner, Verif.Opt.inner_sum, Verif.Opt.inner_sum, Verif.Opt.inner_sum, Finset.mul_sum, ← Finset.sum_add_distrib, ← Finset.sum_add_distrib,
    Finset.sum_div, ← Finset.sum_sub_distrib, ← Finset.sum_add_distrib]
  refine Finset.sum_congr rfl fun i _ => ?_
  simp only [q1, q2, vec_apply]
  ring

/-- A descent direction makes the acceptance test true for all small steps. -/
theorem phi_small (A : Vec n →ₗ[ℝ] Vec m) (At : Vec m →ₗ[ℝ] Vec n) (hadj : IsAdj A At) (y : Vec m) (lam t : ℝ) {x u : Vec n} (h : Interior x u)
    (dx du : Vec n) (hg : ⟪gradPhi lam x u (At ((2 : ℝ) • (A x - y))) t, pv dx du⟫ < 0) :
    ∀ᶠ s in nhdsWithin (0 : ℝ) (Set.Ioi 0), getPhi lam (x + s • dx) (u + s • du) (A (x + s • dx) - y) t - getPhi lam x u (A x - y) t ≤
      0.01 * s * ⟪gradPhi lam x u (At ((2 : ℝ) • (A x - y))) t, pv dx du⟫ := by
  have hd := phi_deriv A At hadj y lam t h dx du
  rw [hasDerivAt_iff_tendsto_slope] at hd
  set gdx := ⟪gradPhi lam x u (At ((2 : ℝ) • (A x - y))) t, pv dx du⟫ with hgdx
  have hlt : gdx < 0.01 * gdx := by linarith
  have hev := hd.eventually (gt_mem_nhds hlt)
  have hev' := hev.filter_mono (nhdsWithin_mono (0 : ℝ) (fun s (hs : 0 < s) => (ne_of_gt hs : s ≠ 0)))
  filter_upwards [hev', self_mem_nhdsWithin] with s hs hpos
  have hpos : 0 < s := hpos
  rw [slope_def_field] at hs
  simp only [zero_smul, add_zero, sub_zero] at hs
  rw [div_lt_iff₀ hpos] at hs
  linarith

/-! ### The Newton system -/

/-- Entrywise product as a linear map. -/
def hadLin (a : Vec n) : Vec n →ₗ[ℝ] Vec n where
  toFun v := had a v
  map_add' v w := by ext i; simp [had, mul_add]
  map_smul' c v := by ext i; simp [had]; ring

/-- The Hessian as a linear map. -/
def hessLin (A : Vec n →ₗ[ℝ] Vec m) (At : Vec m →ₗ[ℝ] Vec n) (x u : Vec n) (t : ℝ) : PVec n →ₗ[ℝ] PVec n where
  toFun := hessian A At x u t
  map_add' v w := by
    unfold hessian
    rw [pv_add]
    congr 1
    · show At ((2 : ℝ) • A (v.fst + w.fst)) + hadLin _ (v.fst + w.fst) + hadLin _ (v.snd + w.snd) = _
      simp only [map_add, smul_add]
      show _ = At ((2 : ℝ) • A v.fst) + hadLin _ v.fst + hadLin _ v.snd + (At ((2 : ℝ) • A w.fst) + hadLin _ w.fst + hadLin _ w.snd)
      abel
    · show hadLin _ (v.fst + w.fst) + hadLin _ (v.snd + w.snd) = _
      simp only [map_add]
      show _ = hadLin _ v.fst + hadLin _ v.snd + (hadLin _ w.fst + hadLin _ w.snd)
      abel
  map_smul' c v := by
    unfold hessian
    show _ = c • pv _ _
    rw [pv_smul]
    congr 1
    · show At ((2 : ℝ) • A (c • v.fst)) + hadLin _ (c • v.fst) + hadLin _ (c • v.snd) = _
      simp only [map_smul, smul_comm (2 : ℝ) c, smul_add]
      rfl
    · show hadLin _ (c • v.fst) + hadLin _ (c • v.snd) = _
      simp only [map_smul, smul_add]
      rfl

/-- The preconditioner as a linear map. -/
def precLin (x u : Vec n) (t : ℝ) : PVec n →ₗ[ℝ] PVec n where
  toFun := precond x u t
  map_add' v w := by
    unfold precond
    dsimp only
    rw [pv_add]
    congr 1
    · show hadLin _ (v.fst + w.fst) - hadLin _ (v.snd + w.snd) = _
      simp only [map_add]
      show _ = hadLin _ v.fst - hadLin _ v.snd + (hadLin _ w.fst - hadLin _ w.snd)
      abel
    · show -hadLin _ (v.fst + w.fst) + hadLin _ (v.snd + w.snd) = _
      simp only [map_add]
      show _ = -hadLin _ v.fst + hadLin _ v.snd + (-hadLin _ w.fst + hadLin _ w.snd)
      abel
  map_smul' c v := by
    unfold precond
    dsimp only
    show _ = c • pv _ _
    rw [pv_smul]
    congr 1
    · show hadLin _ (c • v.fst) - hadLin _ (c • v.snd) = _
      simp only [map_smul, smul_sub]
      rfl
    · show -hadLin _ (c • v.fst) + hadLin _ (c • v.snd) = _
      simp only [map_smul, smul_add, smul_neg]
      rfl

theorem q_pos {x u : Vec n} (h : Interior x u) (i : Fin n) : 0 < q1 x u i ∧ 0 < q2 x u i := by
  have := abs_lt.mp (h i)
  constructor
  · show 0 < 1 / (u i + x i)
    exact one_div_pos.mpr (by linarith)
  · show 0 < 1 / (u i - x i)
    exact one_div_pos.mpr (by linarith)

theorem d1_pos {x u : Vec n} (h : Interior x u) {t : ℝ} (ht : 0 < t) (i : Fin n) : 0 < d1 x u t i := by
  obtain ⟨h1, h2⟩ := q_pos h i
  show 0 < (q1 x u i ^ 2 + q2 x u i ^ 2) / t
  positivity

theorem d_det {x u : Vec n} (h : Interior x u) {t : ℝ} (ht : 0 < t) (i : Fin n) : d2 x u t i ^ 2 < d1 x u t i ^ 2 := by
  obtain ⟨h1, h2⟩ := q_pos h i
  have e : d1 x u t i ^ 2 - d2 x u t i ^ 2 = 4 * q1 x u i ^ 2 * q2 x u i ^ 2 / t ^ 2 := by
    show ((q1 x u i ^ 2 + q2 x u i ^ 2) / t) ^ 2 - ((q1 x u i ^ 2 - q2 x u i ^ 2) / t) ^ 2 = _
    field_simp; ring
  have : 0 < 4 * q1 x u i ^ 2 * q2 x u i ^ 2 / t ^ 2 := by positivity
  linarith

theorem prs_pos {x u : Vec n} (h : Interior x u) {t : ℝ} (ht : 0 < t) (i : Fin n) : 0 < prs x u t i := by
  have h1 := d1_pos h ht i
  have h2 := d_det h ht i
  show 0 < (2 * 1 + d1 x u t i) * d1 x u t i - d2 x u t i ^ 2
  nlinarith

theorem quad_pos {a b c p q : ℝ} (ha : 0 < a) (hdet : b ^ 2 < a * c) (h : ¬ (p = 0 ∧ q = 0)) : 0 < a * p ^ 2 + 2 * b * p * q + c * q ^ 2 := by
  have e : a * (a * p ^ 2 + 2 * b * p * q + c * q ^ 2) = (a * p + b * q) ^ 2 + (a * c - b ^ 2) * q ^ 2 := by ring
  have : 0 < (a * p + b * q) ^ 2 + (a * c - b ^ 2) * q ^ 2 := by
    by_cases hq : q = 0
    · subst hq
      have hp : p ≠ 0 := fun hp => h ⟨hp, rfl⟩
      have : 0 < (a * p) ^ 2 := by positivity
      nlinarith
    · have h1 : 0 < (a * c - b ^ 2) * q ^ 2 := mul_pos (by linarith) (by positivity)
      have := sq_nonneg (a * p + b * q)
      linarith
  rw [← e] at this
  exact pos_of_mul_pos_right this ha.le

theorem pv_ne_zero {v : PVec n} (h : v ≠ 0) : ∃ i, ¬ (v.fst i = 0 ∧ v.snd i = 0) := by
  by_contra hno
  push Not at hno
  apply h
  have h1 : v.fst = 0 := by ext i; exact (hno i).1
  have h2 : v.snd = 0 := by ext i; exact (hno i).2
  rw [← pv_eta v, h1, h2]; rfl

theorem sum_quad_pos {a b c : Vec n} (ha : ∀ i, 0 < a i) (hdet : ∀ i, b i ^ 2 < a i * c i) {v : PVec n} (h : v ≠ 0) :
    0 < ∑ i, (a i * v.fst i ^ 2 + 2 * b i * v.fst i * v.snd i + c i * v.snd i ^ 2) := by
  obtain ⟨j, hj⟩ := pv_ne_zero h
  refine Finset.sum_pos' (fun i _ => ?_) ⟨j, Finset.mem_univ j, quad_pos (ha j) (hdet j) hj⟩
  by_cases hi : v.fst i = 0 ∧ v.snd i = 0
  · rw [hi.1, hi.2]; simp
  · exact (quad_pos (ha i) (hdet i) hi).le

theorem hess_spd (A : Vec n →ₗ[ℝ] Vec m) (At : Vec m →ₗ[ℝ] Vec n) (hadj : IsAdj A At) {x u : Vec n} (h : Interior x u) {t : ℝ} (ht : 0 < t) :
    SPD (hessLin A At x u t) := by
  have key : ∀ v w : PVec n, ⟪v, hessLin A At x u t w⟫ = 2 * ⟪A v.fst, A w.fst⟫ +
      ∑ i, (d1 x u t i * (v.fst i * w.fst i + v.snd i * w.snd i) + d2 x u t i * (v.fst i * w.snd i + v.snd i * w.fst i)) := by
    intro v w
    show ⟪pv v.fst v.snd, hessian A At x u t w⟫ = _
    rw [hessian, pv_inner, inner_add_right, inner_add_right, ← hadj, inner_smul_right, inner_add_right]
    generalize ⟪A v.fst, A w.fst⟫ = c
    rw [Verif.Opt.inner_sum, Verif.Opt.inner_sum,
      Verif.Opt.inner_sum, Verif.Opt.inner_sum, add_assoc, add_assoc, ← Finset.sum_add_distrib, ← Finset.sum_add_distrib, ← Finset.sum_add_distrib]
    congr 1
    exact Finset.sum_congr rfl fun i _ => by simp only [had, vec_apply]; ring
  refine ⟨fun v w => ?_, fun v hv => ?_⟩
  · rw [real_inner_comm, key, key, real_inner_comm (A w.fst)]
    congr 1
    exact Finset.sum_congr rfl fun i _ => by ring
  · rw [key, real_inner_self_eq_norm_sq]
    have h1 : 0 < ∑ i, (d1 x u t i * v.fst i ^ 2 + 2 * d2 x u t i * v.fst i * v.snd i + d1 x u t i * v.snd i ^ 2) :=
      sum_quad_pos (d1_pos h ht) (fun i => by have := d_det h ht i; nlinarith) hv
    have h2 : ∑ i, (d1 x u t i * (v.fst i * v.fst i + v.snd i * v.snd i) + d2 x u t i * (v.fst i * v.snd i + v.snd i * v.fst i)) =
        ∑ i, (d1 x u t i * v.fst i ^ 2 + 2 * d2 x u t i * v.fst i * v.snd i + d1 x u t i * v.snd i ^ 2) :=
      Finset.sum_congr rfl fun i _ => by ring
    rw [h2]
    have := sq_nonneg ‖A v.fst‖
    linarith

theorem prec_spd {x u : Vec n} (h : Interior x u) {t : ℝ} (ht : 0 < t) : SPD (precLin x u t) := by
  have key : ∀ v w : PVec n, ⟪v, precLin x u t w⟫ = ∑ i, (d1 x u t i / prs x u t i * (v.fst i * w.fst i) -
      d2 x u t i / prs x u t i * (v.fst i * w.snd i + v.snd i * w.fst i) + prb x u t i / prs x u t i * (v.snd i * w.snd i)) := by
    intro v w
    show ⟪pv v.fst v.snd, precond x u t w⟫ = _
    rw [precond, pv_inner, inner_sub_right, inner_add_right, inner_neg_right, Verif.Opt.inner_sum, Verif.Opt.inner_sum,
      Verif.Opt.inner_sum, Verif.Opt.inner_sum, ← Finset.sum_sub_distrib, ← Finset.sum_neg_distrib, ← Finset.sum_add_distrib, ← Finset.sum_add_distrib]
    exact Finset.sum_congr rfl fun i _ => by simp only [had, vec_apply]; ring
  refine ⟨fun v w => ?_, fun v hv => ?_⟩
  · rw [real_inner_comm, key, key]
    exact Finset.sum_congr rfl fun i _ => by ring
  · rw [key]
    have h1 := sum_quad_pos (a := vec fun i => d1 x u t i / prs x u t i) (b := vec fun i => -d2 x u t i / prs x u t i)
      (c := vec fun i => prb x u t i / prs x u t i) (fun i => div_pos (d1_pos h ht i) (prs_pos h ht i)) (fun i => ?_) hv
    · refine h1.trans_eq (Finset.sum_congr rfl fun i _ => ?_)
      simp only [vec_apply]; ring
    · have hp := prs_pos h ht i
      simp only [vec_apply]
      rw [div_pow, div_mul_div_comm, ← sq, div_lt_div_iff_of_pos_right (by positivity), neg_sq]
      have : prs x u t i = prb x u t i * d1 x u t i - d2 x u t i ^ 2 := rfl
      linarith

/-- The preconditioner inverts the Hessian with `2 AᵀA` replaced by `2 I`. -/
theorem prec_inverse {x u : Vec n} (h : Interior x u) {t : ℝ} (ht : 0 < t) (v : PVec n) :
    precond x u t (hessian id id x u t v) = v := by
  unfold precond hessian
  rw [← pv_eta v]
  show pv (_ : Vec n) (_ : Vec n) = pv v.fst v.snd
  have hd : ∀ i, prs x u t i = (2 * 1 + d1 x u t i) * d1 x u t i - d2 x u t i ^ 2 := fun i => rfl
  have hb : ∀ i, prb x u t i = 2 * 1 + d1 x u t i := fun i => rfl
  have e : ∀ a b c X Y : ℝ, a / c * X - b / c * Y = (a * X - b * Y) / c := fun a b c X Y => by ring
  have e' : ∀ a b c X Y : ℝ, -(b / c * X) + a / c * Y = (-b * X + a * Y) / c := fun a b c X Y => by ring
  congr 1
  · ext i
    have hp := (prs_pos h ht i).ne'
    show d1 x u t i / prs x u t i * (2 * v.fst i + d1 x u t i * v.fst i + d2 x u t i * v.snd i) -
      d2 x u t i / prs x u t i * (d2 x u t i * v.fst i + d1 x u t i * v.snd i) = v.fst i
    rw [e, div_eq_iff hp, hd]; ring
  · ext i
    have hp := (prs_pos h ht i).ne'
    show -(d2 x u t i / prs x u t i * (2 * v.fst i + d1 x u t i * v.fst i + d2 x u t i * v.snd i)) +
      prb x u t i / prs x u t i * (d2 x u t i * v.fst i + d1 x u t i * v.snd i) = v.snd i
    rw [e', div_eq_iff hp, hd, hb]; ring

/-! ### Preconditioned conjugate gradients with a call count -/

theorem pcg_counted {E : Type*} [NormedAddCommGroup E] [InnerProductSpace ℝ E] {H M : E → E} {b x0 : E} {N : ℕ} {tol : ℝ} {s : PCGState E × ℕ}
    (h : PcgCounted H M b x0 N tol s) : PcgSolveFrom H M false b x0 N tol 0 s.1 ∧ s.2 = s.1.iters := by
  have h1 : Reach (pcgCond b N tol 0 false) (pcgStep H M) (pcgInit H M b x0) s.1 ∧ s.2 = s.1.iters := by
    refine h.1.inv (fun s => Reach (pcgCond b N tol 0 false) (pcgStep H M) (pcgInit H M b x0) s.1 ∧ s.2 = s.1.iters) ⟨.init, rfl⟩ fun s hs hc => ?_
    exact ⟨.step hs.1 hc, by show s.2 + 1 = s.1.iters + 1; rw [hs.2]⟩
  exact ⟨⟨h1.1, h.2⟩, h1.2⟩

theorem pcg_counted_exists {E : Type*} [NormedAddCommGroup E] [InnerProductSpace ℝ E] (H M : E → E) (b x0 : E) (N : ℕ) (tol : ℝ) :
    ∃ s, PcgCounted H M b x0 N tol s :=
  exists_out (fun s => s.1.iters) N (fun _ h => h.2) fun _ => Nat.lt_succ_self _

end Verif.Cvx
