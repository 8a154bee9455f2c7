import Verif.Cvx.L1lsStep

set_option autoImplicit false
/-!
# The interior point solver reaches its tolerance (C139)
-/
noncomputable section
namespace Verif.Cvx
open Verif.Loop Verif.Opt
open Verif.Sls (counted)
open scoped RealInnerProductSpace

variable {m n : ℕ}

/-! ### One iteration -/

theorem pow_near {r : ℝ} (h0 : 0 < r) (h1 : r ≤ 1) : ∃ k : ℕ, r / 2 ≤ (1 / 2 : ℝ) ^ k ∧ (1 / 2 : ℝ) ^ k ≤ r := by
  obtain ⟨k, hk1, hk2⟩ := exists_nat_pow_near_of_lt_one h0 h1 (by norm_num : (0 : ℝ) < 1 / 2) (by norm_num)
  refine ⟨k + 1, ?_, hk1.le⟩
  rw [pow_succ]; linarith

/-- An accurate direction is accepted with a step that gives a fixed decrease, or the step is at least one half. -/
theorem bt_progress (A : Vec n →ₗ[ℝ] Vec m) (At : Vec m →ₗ[ℝ] Vec n) (hadj : IsAdj A At) (y : Vec m) {lam t T nu0 : ℝ} (ht : 0 < t) (htT : t ≤ T) {x u : Vec n} (h : Interior x u)
    (dx du : Vec n) (hE0 : 0 ≤ ⟪pv dx du, hessian A At x u t (pv dx du)⟫)
    (hE : ⟪pv dx du, hessian A At x u t (pv dx du)⟫ ≤ 3 / 2 * -⟪gradPhi lam x u (At ((2 : ℝ) • (A x - y))) t, pv dx du⟫)
    (hnu0 : 0 < nu0) (hT : T * nu0 ≤ 1 / 32) {calls : ℕ} {b : BtState m n}
    (hb : BtOut A y lam t x u dx du (getPhi lam x u (A x - y) t) ⟪gradPhi lam x u (At ((2 : ℝ) • (A x - y))) t, pv dx du⟫ calls b) :
    getPhi lam b.p.x b.p.u b.z t ≤ getPhi lam x u (A x - y) t ∧
    (getPhi lam b.p.x b.p.u b.z t ≤ getPhi lam x u (A x - y) t - 0.005 * (nu0 / (4 * (1 + 2 * T * nu0))) ∨
      (1 / 2 ≤ b.p.s ∧ -⟪gradPhi lam x u (At ((2 : ℝ) • (A x - y))) t, pv dx du⟫ < nu0)) := by
  have hTp : 0 < T := lt_of_lt_of_le ht htT
  have hz := z_le A At hadj h ht dx du
  have hstep := fun s hs => phi_step A At hadj y lam ht h dx du (s := s) hs
  have hi := bt_inv hb.1
  have hacc0 : ¬ b.phi - getPhi lam x u (A x - y) t > 0.01 * b.p.s * ⟪gradPhi lam x u (At ((2 : ℝ) • (A x - y))) t, pv dx du⟫ := hb.2
  rw [hi.phi_eq] at hacc0
  have hlow := fun k => bt_lower (k := k) (b := b) (A := A) (y := y) (lam := lam) (t := t) (x := x) (u := u) (dx := dx) (du := du) (phi := getPhi lam x u (A x - y) t)
    (gdx := ⟪gradPhi lam x u (At ((2 : ℝ) • (A x - y))) t, pv dx du⟫) (calls := calls)
  obtain ⟨nu, hnu⟩ : ∃ nu, nu = -⟪gradPhi lam x u (At ((2 : ℝ) • (A x - y))) t, pv dx du⟫ := ⟨_, rfl⟩
  have hg : ⟪gradPhi lam x u (At ((2 : ℝ) • (A x - y))) t, pv dx du⟫ = -nu := by rw [hnu, neg_neg]
  rw [hg, neg_neg] at hE
  rw [hg] at hacc0 hlow hstep hb ⊢
  rw [neg_neg]
  set E := ⟪pv dx du, hessian A At x u t (pv dx du)⟫ with hEd
  have hnn : 0 ≤ nu := by linarith
  have htE : t * E ≤ 3 / 2 * (T * nu) := by
    calc t * E ≤ T * E := mul_le_mul_of_nonneg_right htT hE0
      _ ≤ T * (3 / 2 * nu) := mul_le_mul_of_nonneg_left hE hTp.le
      _ = _ := by ring
  have hspos := hi.spos
  -- every step of relative size at most 1/4 and at most 1/2 is accepted
  have hok : ∀ s : ℝ, 0 < s → s ≤ 1 / 2 → s ^ 2 * (3 / 2 * (T * nu)) ≤ 1 / 16 → Interior (x + s • dx) (u + s • du) ∧
      getPhi lam (x + s • dx) (u + s • du) (A (x + s • dx) - y) t - getPhi lam x u (A x - y) t ≤ 0.01 * s * -nu := by
    intro s hs0 hs1 hsT
    have hsz : ∀ i, |s * zp x u dx du i| ≤ 1 / 4 ∧ |s * zm x u dx du i| ≤ 1 / 4 := by
      intro i
      obtain ⟨h1, h2⟩ := hz i
      have hs2 : 0 ≤ s ^ 2 := by positivity
      constructor
      · refine abs_le_of_sq_le_sq ?_ (by norm_num)
        rw [mul_pow]
        nlinarith [mul_le_mul_of_nonneg_left (h1.trans htE) hs2]
      · refine abs_le_of_sq_le_sq ?_ (by norm_num)
        rw [mul_pow]
        nlinarith [mul_le_mul_of_nonneg_left (h2.trans htE) hs2]
    refine ⟨step_interior h dx du hsz, (hstep s hsz).trans ?_⟩
    have h3 : s ^ 2 * E ≤ s ^ 2 * (3 / 2 * nu) := mul_le_mul_of_nonneg_left hE (by positivity)
    have h4 : s ^ 2 * (3 / 2 * nu) ≤ s * (3 / 4 * nu) := by
      have : s * nu * s ≤ s * nu * (1 / 2) := mul_le_mul_of_nonneg_left hs1 (by positivity)
      nlinarith
    have h5 : 0 ≤ s * nu := by positivity
    nlinarith
  refine ⟨?_, ?_⟩
  · have : 0 ≤ 0.01 * b.p.s * nu := by positivity
    linarith
  by_cases hcase : nu < nu0
  · right
    refine ⟨?_, hcase⟩
    have h1 : T * nu ≤ 1 / 32 := (mul_le_mul_of_nonneg_left hcase.le hTp.le).trans hT
    obtain ⟨hf, ha⟩ := hok (1 / 2) (by norm_num) le_rfl (by linarith)
    have := hlow 1 (by rw [pow_one]; exact hf) (by rw [pow_one]; exact ha) hb.1
    rwa [pow_one] at this
  · left
    rw [not_lt] at hcase
    have hTn : 0 ≤ T * nu := by positivity
    have hden : 0 < 4 * (1 + 2 * T * nu) := by nlinarith
    have hr0 : 0 < 1 / (4 * (1 + 2 * T * nu)) := by positivity
    have hr4 : 1 / (4 * (1 + 2 * T * nu)) ≤ 1 / 4 := one_div_le_one_div_of_le (by norm_num) (by nlinarith)
    obtain ⟨k, hk1, hk2⟩ := pow_near hr0 (by linarith)
    have hkp : (0 : ℝ) < (1 / 2) ^ k := by positivity
    have hsq : ((1 / 2 : ℝ) ^ k) ^ 2 * (3 / 2 * (T * nu)) ≤ 1 / 16 := by
      have h1 : ((1 / 2 : ℝ) ^ k) ^ 2 ≤ (1 / (4 * (1 + 2 * T * nu))) ^ 2 := pow_le_pow_left₀ hkp.le hk2 2
      have h2 : (1 / (4 * (1 + 2 * T * nu))) ^ 2 * (3 / 2 * (T * nu)) ≤ 1 / 16 := by
        rw [div_pow, one_pow, div_mul_eq_mul_div, one_mul, div_le_iff₀ (by positivity)]
        nlinarith
      exact (mul_le_mul_of_nonneg_right h1 (by positivity)).trans h2
    obtain ⟨hf, ha⟩ := hok _ hkp (by linarith) hsq
    have hs := hlow k hf ha hb.1
    have h1 : 1 / (4 * (1 + 2 * T * nu)) / 2 ≤ b.p.s := hk1.trans hs
    have h2 : 1 / (4 * (1 + 2 * T * nu)) / 2 * nu ≤ b.p.s * nu := mul_le_mul_of_nonneg_right h1 hnn
    have h3 : nu0 / (4 * (1 + 2 * T * nu0)) ≤ nu / (4 * (1 + 2 * T * nu)) := by
      rw [div_le_div_iff₀ (by positivity) hden]
      nlinarith
    have e : 1 / (4 * (1 + 2 * T * nu)) / 2 * nu = nu / (4 * (1 + 2 * T * nu)) / 2 := by ring
    rw [e] at h2
    linarith

theorem nextT_double {n : ℕ} {s gap t : ℝ} (hs : 1 / 2 ≤ s) (ht : 0 < t) (hg0 : 0 ≤ gap) (hg : gap ≤ 2 * n / t) : nextT n s gap t = 2 * t := by
  unfold nextT
  rw [if_neg (by norm_num; linarith)]
  by_cases h0 : gap = 0
  · rw [if_pos h0, max_eq_left (by linarith)]
  · have hpos : 0 < gap := lt_of_le_of_ne hg0 (Ne.symm h0)
    have : 2 * t ≤ 2 * n * 2 / gap := by
      rw [le_div_iff₀ hpos]
      rw [le_div_iff₀ ht] at hg
      linarith
    rw [if_neg h0, min_eq_right this, max_eq_left (by linarith)]

theorem nextT_le {n : ℕ} {s gap t eps T : ℝ} (heps : 0 < eps) (hg : eps < gap) (ht : t ≤ T) (hT : 4 * n / eps ≤ T) : nextT n s gap t ≤ T := by
  unfold nextT
  split
  · exact ht
  · rw [if_neg (by linarith)]
    refine max_le ((min_le_left _ _).trans (le_trans ?_ hT)) ht
    have e : (2 * n * 2 : ℝ) / gap = 4 * n / gap := by ring
    rw [e]
    exact div_le_div_of_nonneg_left (by positivity) heps hg.le

theorem at_bound (At : Vec m →ₗ[ℝ] Vec n) : ∃ L : ℝ, 0 ≤ L ∧ ∀ v i, |At v i| ≤ L * ‖v‖ := by
  obtain ⟨L, hL, h⟩ := At.toContinuousLinearMap.bound
  exact ⟨L, hL.le, fun v i => (PiLp.norm_apply_le (At v) i).trans (h v)⟩

/-- The relative residual of the Newton system for the direction computed in the step from `s` to `s'` is at most `eta`. -/
def AccurateStep (A : Vec n → Vec m) (At : Vec m → Vec n) (lam eta : ℝ) (s s' : L1lsState m n) : Prop :=
  ‖hessian A At s.x s.u s.t s'.dxu + gradPhi lam s.x s.u (At ((2 : ℝ) • s.z)) s.t‖ ≤ eta * ‖gradPhi lam s.x s.u (At ((2 : ℝ) • s.z)) s.t‖

/-- What holds at every state. -/
structure L1lsBound (A : Vec n → Vec m) (y : Vec m) (lam t0 W Bm Lc V0 del : ℝ) (s : L1lsState m n) : Prop where
  int : Interior s.x s.u
  z_eq : s.z = A s.x - y
  t_ge : t0 ≤ s.t
  reg : (getPhi lam s.x s.u s.z s.t + 2 * bc0 n lam t0 / t0) * Real.exp (t0 / s.t) ≤ W
  pot : getPhi lam s.x s.u s.z s.t + Bm / s.t - Lc * Real.log s.t + del * s.iterations ≤ V0 + del

/-- A direction that solves the Newton system accurately is a descent direction close to the Newton direction. -/
theorem accurate_dir {E : Type*} [NormedAddCommGroup E] [InnerProductSpace ℝ E] {g Hd d : E} {eta CH CD : ℝ} (heta0 : 0 < eta) (hCH0 : 0 ≤ CH) (hCD0 : 0 ≤ CD)
    (hemul : eta * (2 + 6 * CH * CD + 4 * CH) = 1) (hE0 : 0 ≤ ⟪d, Hd⟫) (hHn : ‖Hd‖ ≤ CH * Real.sqrt ⟪d, Hd⟫) (hDn : ‖d‖ ≤ CD * Real.sqrt ⟪d, Hd⟫)
    (hacc : ‖Hd + g‖ ≤ eta * ‖g‖) : ⟪d, Hd⟫ ≤ 3 / 2 * -⟪g, d⟫ ∧ ‖Hd + g‖ ^ 2 ≤ -⟪g, d⟫ := by
  have hHD : 0 ≤ eta * (CH * CD) := by positivity
  have hHe : 0 ≤ eta * CH := by positivity
  have hexp : eta * 2 + 6 * (eta * (CH * CD)) + 4 * (eta * CH) = 1 := by linarith
  obtain ⟨w, hw⟩ : ∃ w, w = Real.sqrt ⟪d, Hd⟫ := ⟨_, rfl⟩
  rw [← hw] at hHn hDn
  have hw0 : 0 ≤ w := by rw [hw]; exact Real.sqrt_nonneg _
  have hw2 : ⟪d, Hd⟫ = w ^ 2 := by rw [hw, Real.sq_sqrt hE0]
  have hgn : ‖g‖ ≤ ‖Hd + g‖ + ‖Hd‖ := by
    have := norm_sub_le (Hd + g) Hd
    rwa [add_sub_cancel_left] at this
  have he2 : eta * ‖g‖ ≤ 1 / 2 * ‖g‖ := mul_le_mul_of_nonneg_right (by linarith) (norm_nonneg _)
  have hg2 : ‖g‖ ≤ 2 * (CH * w) := by linarith
  have hen : ‖Hd + g‖ ≤ 2 * (eta * CH) * w := by
    calc _ ≤ eta * ‖g‖ := hacc
      _ ≤ eta * (2 * (CH * w)) := mul_le_mul_of_nonneg_left hg2 heta0.le
      _ = _ := by ring
  have hip : ⟪Hd + g, d⟫ ≤ w ^ 2 / 3 := by
    calc _ ≤ ‖Hd + g‖ * ‖d‖ := real_inner_le_norm _ _
      _ ≤ (2 * (eta * CH) * w) * (CD * w) := mul_le_mul hen hDn (norm_nonneg _) (by positivity)
      _ = (2 * (eta * (CH * CD))) * w ^ 2 := by ring
      _ ≤ 1 / 3 * w ^ 2 := mul_le_mul_of_nonneg_right (by linarith) (by positivity)
      _ = _ := by ring
  have hsplit : ⟪Hd + g, d⟫ = w ^ 2 + ⟪g, d⟫ := by rw [inner_add_left, real_inner_comm, hw2]
  have hen2 : ‖Hd + g‖ ^ 2 ≤ w ^ 2 / 4 := by
    have h2 : ‖Hd + g‖ ≤ 1 / 2 * w := hen.trans (mul_le_mul_of_nonneg_right (by linarith) hw0)
    have h3 := pow_le_pow_left₀ (norm_nonneg _) h2 2
    have e : (1 / 2 * w) ^ 2 = w ^ 2 / 4 := by ring
    rwa [e] at h3
  rw [hw2]
  have := sq_nonneg w
  constructor <;> linarith

set_option maxHeartbeats 1000000 in
/-- In the region of the iterates there is an accuracy `eta` for which each step lowers the potential by a fixed amount. -/
theorem l1ls_step (A : Vec n →ₗ[ℝ] Vec m) (At : Vec m →ₗ[ℝ] Vec n) (hadj : IsAdj A At) (y : Vec m) {lam t0 W T : ℝ} (hl : 0 < lam) (ht0 : 0 < t0) (hn : 0 < n) (hW : 0 ≤ W)
    (hT : t0 ≤ T) : ∃ eta del : ℝ, 0 < eta ∧ 0 < del ∧ ∀ (xi : ℝ) (P : ℕ) (V0 : ℝ) (s s' : L1lsState m n),
      L1lsBound A y lam t0 W (t0 * W) (del / Real.log 2) V0 del s → (∀ v, s.dual ≤ lsObj A y lam v) → s.t ≤ T → L1lsBody A At y lam xi P s s' → AccurateStep A At lam eta s s' →
      L1lsBound A y lam t0 W (t0 * W) (del / Real.log 2) V0 del s' ∧ s.t ≤ s'.t := by
  obtain ⟨L, hL0, hL⟩ := at_bound At
  have hTp : 0 < T := lt_of_lt_of_le ht0 hT
  have hn1 : (1 : ℝ) ≤ n := by exact_mod_cast hn
  obtain ⟨a, ha_def⟩ : ∃ a, a = Real.exp (-(T * W + 2 * n * (4 * W / lam))) := ⟨_, rfl⟩
  have ha : 0 < a := by rw [ha_def]; exact Real.exp_pos _
  obtain ⟨M, hM_def⟩ : ∃ M, M = 2 * W / lam := ⟨_, rfl⟩
  have hM0 : 0 ≤ M := by rw [hM_def]; positivity
  have hsT : 0 < Real.sqrt T := Real.sqrt_pos.mpr hTp
  obtain ⟨CG, hCG⟩ : ∃ CG, CG = 1 + 2 * L + 6 * Real.sqrt T / (t0 * a) := ⟨_, rfl⟩
  have hCG0 : 0 < CG := by rw [hCG]; positivity
  obtain ⟨G, hGd⟩ : ∃ G, G = min lam (n / T / (2 * (2 * W) / lam + 8 * n * M + 1)) := ⟨_, rfl⟩
  have hG0 : 0 < G := by rw [hGd]; exact lt_min hl (by positivity)
  have hGl : G ≤ lam := by rw [hGd]; exact min_le_left _ _
  have hGE : G * (2 * (2 * W) / lam + 8 * n * M) ≤ n / T := by
    have h1 : G ≤ n / T / (2 * (2 * W) / lam + 8 * n * M + 1) := by rw [hGd]; exact min_le_right _ _
    rw [le_div_iff₀ (by positivity), mul_add, mul_one] at h1
    linarith
  obtain ⟨rho, hrd⟩ : ∃ rho, rho = min (G / CG) (1 / (4 * Real.sqrt T)) := ⟨_, rfl⟩
  have hr0 : 0 < rho := by rw [hrd]; exact lt_min (by positivity) (by positivity)
  have hrG : rho * CG ≤ G := by
    have : rho ≤ G / CG := by rw [hrd]; exact min_le_left _ _
    rwa [le_div_iff₀ hCG0] at this
  have hrT : T * rho ^ 2 ≤ 1 / 16 := by
    have h1 : rho ≤ 1 / (4 * Real.sqrt T) := by rw [hrd]; exact min_le_right _ _
    have h2 : rho ^ 2 ≤ (1 / (4 * Real.sqrt T)) ^ 2 := pow_le_pow_left₀ hr0.le h1 2
    rw [div_pow, mul_pow, Real.sq_sqrt hTp.le] at h2
    calc T * rho ^ 2 ≤ T * (1 ^ 2 / (4 ^ 2 * T)) := mul_le_mul_of_nonneg_left h2 hTp.le
      _ = 1 / 16 := by field_simp; norm_num
  obtain ⟨nu0, hnu⟩ : ∃ nu0, nu0 = rho ^ 2 / 2 := ⟨_, rfl⟩
  have hnu0 : 0 < nu0 := by rw [hnu]; positivity
  obtain ⟨del, hdel⟩ : ∃ del, del = 0.005 * (nu0 / (4 * (1 + 2 * T * nu0))) := ⟨_, rfl⟩
  have hdel0 : 0 < del := by rw [hdel]; positivity
  obtain ⟨CH, hCH⟩ : ∃ CH, CH = 2 * n * (2 * L + 2 * Real.sqrt T / (t0 * a)) := ⟨_, rfl⟩
  have hCH0 : 0 ≤ CH := by rw [hCH]; positivity
  obtain ⟨CD, hCD⟩ : ∃ CD, CD = 2 * M * Real.sqrt T := ⟨_, rfl⟩
  have hCD0 : 0 ≤ CD := by rw [hCD]; positivity
  obtain ⟨eta, heta⟩ : ∃ eta, eta = 1 / (2 + 6 * CH * CD + 4 * CH) := ⟨_, rfl⟩
  have heden : 0 < 2 + 6 * CH * CD + 4 * CH := by positivity
  have heta0 : 0 < eta := by rw [heta]; positivity
  have hemul : eta * (2 + 6 * CH * CD + 4 * CH) = 1 := by rw [heta]; field_simp
  have hHD : 0 ≤ CH * CD := mul_nonneg hCH0 hCD0
  refine ⟨eta, del, heta0, hdel0, fun xi P V0 s s' hs hdual htT hbody hacc => ?_⟩
  obtain ⟨pcg, hp, bt, hbt, rfl⟩ := hbody
  have htp : 0 < s.t := lt_of_lt_of_le ht0 hs.t_ge
  have hexp1 : 1 ≤ Real.exp (t0 / s.t) := Real.one_le_exp (by positivity)
  have hP0 := (phi_bounds hl ht0 hs.int hs.t_ge s.z).1
  have hregW : getPhi lam s.x s.u s.z s.t + 2 * bc0 n lam t0 / t0 ≤ W := le_trans (le_mul_of_one_le_right hP0 hexp1) hs.reg
  have hslack := slack_lower hl ht0 hs.int hs.t_ge htT s.z hregW
  have hap : ∀ i, a ≤ s.u i + s.x i := fun i => by rw [ha_def]; exact (hslack i).2.1
  have ham : ∀ i, a ≤ s.u i - s.x i := fun i => by rw [ha_def]; exact (hslack i).2.2
  have hMu : ∀ i, s.u i ≤ M := fun i => by rw [hM_def]; exact (hslack i).1
  have hacc' : ‖hessian A At s.x s.u s.t pcg.1.x + gradPhi lam s.x s.u (At ((2 : ℝ) • s.z)) s.t‖ ≤ eta * ‖gradPhi lam s.x s.u (At ((2 : ℝ) • s.z)) s.t‖ := hacc
  have hbt' : BtOut A y lam s.t s.x s.u pcg.1.x.fst pcg.1.x.snd (getPhi lam s.x s.u (A s.x - y) s.t)
      ⟪gradPhi lam s.x s.u (At ((2 : ℝ) • (A s.x - y))) s.t, pv pcg.1.x.fst pcg.1.x.snd⟫ (s.timesCalls + pcg.2) bt := by
    have := hbt
    rw [hs.z_eq] at this
    exact this
  rw [hs.z_eq] at hacc'
  obtain ⟨dx, hdx⟩ : ∃ dx, dx = pcg.1.x.fst := ⟨_, rfl⟩
  obtain ⟨du, hdu⟩ : ∃ du, du = pcg.1.x.snd := ⟨_, rfl⟩
  have hd : pcg.1.x = pv dx du := by rw [hdx, hdu]; rfl
  rw [← hdx, ← hdu] at hbt'
  rw [hd] at hacc'
  obtain ⟨hE0, hHn, hDn⟩ := energy_bounds A At hadj hs.int ha hap ham hMu hL hL0 hn ht0 hs.t_ge htT dx du
  rw [← hCH] at hHn
  rw [← hCD] at hDn
  -- the accuracy gives a descent direction close to the Newton direction
  have hqual : ⟪pv dx du, hessian A At s.x s.u s.t (pv dx du)⟫ ≤ 3 / 2 * -⟪gradPhi lam s.x s.u (At ((2 : ℝ) • (A s.x - y))) s.t, pv dx du⟫ ∧
      ‖hessian A At s.x s.u s.t (pv dx du) + gradPhi lam s.x s.u (At ((2 : ℝ) • (A s.x - y))) s.t‖ ^ 2 ≤
        -⟪gradPhi lam s.x s.u (At ((2 : ℝ) • (A s.x - y))) s.t, pv dx du⟫ := by
    exact accurate_dir heta0 hCH0 hCD0 hemul hE0 hHn hDn hacc'
  have hTnu : T * nu0 ≤ 1 / 32 := by rw [hnu]; linarith
  obtain ⟨hdec, hcases⟩ := bt_progress A At hadj y htp htT hs.int dx du hE0 hqual.1 hnu0 hTnu hbt'
  have hi := bt_inv hbt'.1
  rw [← hs.z_eq] at hdec hcases
  obtain ⟨gap', hgap'⟩ : ∃ g', g' = primalObj lam bt.p.x bt.z - max (dualObj y (getNu At lam bt.z (s.transCalls + 1 + pcg.2)).1) s.dual := ⟨_, rfl⟩
  have htt : s.t ≤ nextT n bt.p.s gap' s.t := nextT_ge _ _ _ _
  have htp' : 0 < nextT n bt.p.s gap' s.t := lt_of_lt_of_le htp htt
  have hreg1 : getPhi lam bt.p.x bt.p.u bt.z s.t + 2 * bc0 n lam t0 / t0 ≤ W := by linarith
  obtain ⟨_, hFb, hBb⟩ := phi_bounds hl ht0 hi.int hs.t_ge bt.z
  have hBW : barB bt.p.x bt.p.u ≤ t0 * W := hBb.trans (mul_le_mul_of_nonneg_left hreg1 ht0.le)
  have hraise : getPhi lam bt.p.x bt.p.u bt.z (nextT n bt.p.s gap' s.t) + t0 * W / nextT n bt.p.s gap' s.t ≤ getPhi lam bt.p.x bt.p.u bt.z s.t + t0 * W / s.t := by
    have e : getPhi lam bt.p.x bt.p.u bt.z (nextT n bt.p.s gap' s.t) =
        getPhi lam bt.p.x bt.p.u bt.z s.t + (1 / s.t - 1 / nextT n bt.p.s gap' s.t) * barB bt.p.x bt.p.u := by rw [getPhi_eq, getPhi_eq]; ring
    have hinv : 0 ≤ 1 / s.t - 1 / nextT n bt.p.s gap' s.t := sub_nonneg.mpr (one_div_le_one_div_of_le htp htt)
    have h1 := mul_le_mul_of_nonneg_left hBW hinv
    have e2 : (1 / s.t - 1 / nextT n bt.p.s gap' s.t) * (t0 * W) = t0 * W / s.t - t0 * W / nextT n bt.p.s gap' s.t := by ring
    rw [e]; linarith
  have hlog2 : 0 < Real.log 2 := Real.log_pos (by norm_num)
  have hLc : 0 ≤ del / Real.log 2 := by positivity
  have hlogle : Real.log s.t ≤ Real.log (nextT n bt.p.s gap' s.t) := Real.log_le_log htp htt
  have hpot := hs.pot
  refine ⟨⟨hi.int, hi.z_eq, hs.t_ge.trans ?_, ?_, ?_⟩, ?_⟩
  · show s.t ≤ nextT n bt.p.s _ s.t
    exact nextT_ge _ _ _ _
  · show (getPhi lam bt.p.x bt.p.u bt.z (nextT n bt.p.s (primalObj lam bt.p.x bt.z - max _ s.dual) s.t) + _) * Real.exp (t0 / nextT n bt.p.s (primalObj lam bt.p.x bt.z - max _ s.dual) s.t) ≤ W
    refine (phi_raise hl ht0 hi.int hs.t_ge (nextT_ge _ _ _ _) bt.z).trans (le_trans ?_ hs.reg)
    exact mul_le_mul_of_nonneg_right (by linarith) (Real.exp_pos _).le
  · show getPhi lam bt.p.x bt.p.u bt.z (nextT n bt.p.s (primalObj lam bt.p.x bt.z - max (dualObj y (getNu At lam bt.z (s.transCalls + 1 + pcg.2)).1) s.dual) s.t) +
      t0 * W / nextT n bt.p.s (primalObj lam bt.p.x bt.z - max (dualObj y (getNu At lam bt.z (s.transCalls + 1 + pcg.2)).1) s.dual) s.t -
      del / Real.log 2 * Real.log (nextT n bt.p.s (primalObj lam bt.p.x bt.z - max (dualObj y (getNu At lam bt.z (s.transCalls + 1 + pcg.2)).1) s.dual) s.t) +
      del * ((s.iterations + 1 : ℕ) : ℝ) ≤ V0 + del
    rw [← hgap']
    push_cast
    rcases hcases with hc | ⟨hs2, hnu2⟩
    · rw [← hdel] at hc
      have := mul_le_mul_of_nonneg_left hlogle hLc
      linarith
    · -- the step is long and the gradient small: the gap is at most 2n/t, so t doubles
      have hErho : ⟪pv dx du, hessian A At s.x s.u s.t (pv dx du)⟫ ≤ rho ^ 2 := by
        have h1 := hqual.1
        rw [hnu, hs.z_eq] at hnu2
        have h2 := sq_nonneg rho
        linarith
      have hres : ‖hessian A At s.x s.u s.t (pv dx du) + gradPhi lam s.x s.u (At ((2 : ℝ) • (A s.x - y))) s.t‖ ≤ rho := by
        refine le_of_sq_le_sq ?_ hr0.le
        rw [hnu, hs.z_eq] at hnu2
        have h1 := hqual.2
        have h2 := sq_nonneg rho
        linarith
      have hs1 : bt.p.s ≤ 1 := hi.sle.trans (pow_le_one₀ (by norm_num) (by norm_num))
      have hgrad := grad_near A At hadj y hs.int ha hap ham hL hL0 ht0 hs.t_ge htT hr0.le hrT hi.spos.le hs1 dx du hErho
        (fun i => ⟨(entry_le_norm _ i).1.trans hres, (entry_le_norm _ i).2.trans hres⟩)
      rw [← hi.eqx, ← hi.equ] at hgrad
      have hrG' := hrG
      rw [hCG] at hrG'
      have hZ : ‖A bt.p.x - y‖ ^ 2 ≤ 2 * W := by
        rw [← hi.z_eq]
        have : 0 ≤ lam * ∑ i, bt.p.u i := mul_nonneg hl.le (Finset.sum_nonneg fun i _ => (abs_nonneg _).trans (hi.int i).le)
        linarith
      have hX : ∀ i, |bt.p.x i| ≤ M := fun i => by
        rw [hM_def]
        exact (hi.int i).le.trans (slack_lower hl ht0 hi.int hs.t_ge htT bt.z hreg1 i).1
      have hgap := gap_near A At hadj y hl htp hi.int hG0.le hGl hX hZ (fun i => (hgrad i).1.trans hrG') (fun i => (hgrad i).2.trans hrG') (s.transCalls + 1 + pcg.2)
      rw [← hi.z_eq] at hgap
      have hgle : gap' ≤ 2 * n / s.t := by
        have h1 : gap' ≤ primalObj lam bt.p.x bt.z - dualObj y (getNu At lam bt.z (s.transCalls + 1 + pcg.2)).1 := by
          rw [hgap']; linarith [le_max_left (dualObj y (getNu At lam bt.z (s.transCalls + 1 + pcg.2)).1) s.dual]
        have h2 : (n : ℝ) / T ≤ n / s.t := div_le_div_of_nonneg_left (by positivity) htp htT
        have e : (2 * n : ℝ) / s.t = n / s.t + n / s.t := by ring
        rw [e]; linarith
      have hg0 : 0 ≤ gap' := by
        rw [hgap', sub_nonneg, hi.z_eq, primalObj_eq]
        exact max_le (ls_weak A At hadj y lam _ (getNu_feasible At hl _ _) _) (hdual _)
      have hdbl := nextT_double (n := n) hs2 htp hg0 hgle
      have hlogd : Real.log (nextT n bt.p.s gap' s.t) = Real.log 2 + Real.log s.t := by rw [hdbl, Real.log_mul (by norm_num) htp.ne']
      have e : del / Real.log 2 * (Real.log 2 + Real.log s.t) = del + del / Real.log 2 * Real.log s.t := by field_simp
      rw [hlogd, e]
      linarith
  · show s.t ≤ nextT n bt.p.s _ s.t
    exact nextT_ge _ _ _ _

theorem body_t {A : Vec n → Vec m} {At : Vec m → Vec n} {y : Vec m} {lam xi : ℝ} {P : ℕ} {s s' : L1lsState m n} (h : L1lsBody A At y lam xi P s s') :
    (∃ st, s'.t = nextT n st s'.gap s.t) ∧ s'.iterations = s.iterations + 1 := by
  obtain ⟨_, _, _, _, rfl⟩ := h
  exact ⟨⟨_, rfl⟩, rfl⟩

/-- A state in the form of a run. -/
theorem reach_run {A : Vec n → Vec m} {At : Vec m → Vec n} {y : Vec m} {lam : ℝ} {x0 u0 : Vec n} {tol xi t0 : ℝ} {N P : ℕ} {s : L1lsState m n}
    (h : L1lsReach A At y lam x0 u0 tol xi t0 N P s) : ∃ (k : ℕ) (r : ℕ → L1lsState m n), r 0 = l1lsInit A At y lam x0 u0 t0 ∧ r k = s ∧ s.iterations = k + 1 ∧
      ∀ j, j < k → l1lsCond tol N (r j) ∧ L1lsBody A At y lam xi P (r j) (r (j + 1)) := by
  induction h with
  | init => exact ⟨0, fun _ => _, rfl, rfl, rfl, fun j hj => absurd hj (Nat.not_lt_zero j)⟩
  | @step s s' _ hc hb ih =>
    obtain ⟨k, r, h0, hk, hit, hr⟩ := ih
    refine ⟨k + 1, fun j => if j ≤ k then r j else s', by simpa using h0, by simp, by rw [(body_t hb).2, hit], fun j hj => ?_⟩
    rcases Nat.lt_or_ge j k with h1 | h1
    · simp only [if_pos h1.le, if_pos (Nat.succ_le_of_lt h1)]
      exact hr j h1
    · have e : j = k := by omega
      subst e
      simp only [le_refl, if_true, if_neg (Nat.not_succ_le_self j), hk]
      exact ⟨hc, hb⟩

theorem run_reach {A : Vec n → Vec m} {At : Vec m → Vec n} {y : Vec m} {lam : ℝ} {x0 u0 : Vec n} {tol xi t0 : ℝ} {N P k : ℕ} {r : ℕ → L1lsState m n}
    (h0 : r 0 = l1lsInit A At y lam x0 u0 t0) (h : ∀ j, j < k → l1lsCond tol N (r j) ∧ L1lsBody A At y lam xi P (r j) (r (j + 1))) :
    ∀ j, j ≤ k → L1lsReach A At y lam x0 u0 tol xi t0 N P (r j) ∧ (r j).iterations = j + 1 := by
  intro j
  induction j with
  | zero => intro _; rw [h0]; exact ⟨.init, rfl⟩
  | succ j ih =>
    intro hj
    obtain ⟨h1, h2⟩ := ih (by omega)
    obtain ⟨hc, hb⟩ := h j (by omega)
    exact ⟨.step h1 hc hb, by rw [(body_t hb).2, h2]⟩

/-- With exact inner solves every step is accurate. -/
theorem exact_accurate (A : Vec n →ₗ[ℝ] Vec m) (At : Vec m →ₗ[ℝ] Vec n) (hadj : IsAdj A At) {lam eta : ℝ} (heta : 0 ≤ eta) {P : ℕ} (hP : 2 * n < P) {s : L1lsState m n}
    (hint : Interior s.x s.u) (ht : 0 < s.t) {pcg : PCGState (PVec n) × ℕ}
    (hp : PcgCounted (hessian A At s.x s.u s.t) (precond s.x s.u s.t) (-gradPhi lam s.x s.u (At ((2 : ℝ) • s.z)) s.t) s.dxu P
      (pcgTol 0 s.gap (gradPhi lam s.x s.u (At ((2 : ℝ) • s.z)) s.t)) pcg) :
    hessian A At s.x s.u s.t pcg.1.x = -gradPhi lam s.x s.u (At ((2 : ℝ) • s.z)) s.t ∧
    ‖hessian A At s.x s.u s.t pcg.1.x + gradPhi lam s.x s.u (At ((2 : ℝ) • s.z)) s.t‖ ≤ eta * ‖gradPhi lam s.x s.u (At ((2 : ℝ) • s.z)) s.t‖ := by
  obtain ⟨g, hg⟩ : ∃ g, g = gradPhi lam s.x s.u (At ((2 : ℝ) • s.z)) s.t := ⟨_, rfl⟩
  rw [← hg] at hp ⊢
  have h1 := ((c38_pcg_stop (hessLin A At s.x s.u s.t) (precLin s.x s.u s.t) (hess_spd A At hadj hint ht) (prec_spd hint ht) false (by simp) (-g) s.dxu P
    (pcgTol 0 s.gap g) 0).2 _ (pcg_counted hp).1).2 inferInstance (by
      have : Module.finrank ℝ (PVec n) = 2 * n := by
        have e := (WithLp.linearEquiv 2 ℝ (Vec n × Vec n)).finrank_eq
        rw [e, Module.finrank_prod]
        simp
        ring
      rw [this]; exact hP)
  have h2 : (pcgTol 0 s.gap g) ^ 2 * ‖-g‖ ^ 2 = 0 := by
    unfold pcgTol
    split
    · rename_i h0
      have : ‖g‖ = 0 := by
        rcases le_total 1 ‖g‖ with h3 | h3
        · rw [min_eq_left h3] at h0; norm_num at h0
        · rwa [min_eq_right h3] at h0
      rw [norm_neg, this]; simp
    · rw [zero_mul, zero_div, min_eq_right (by norm_num)]; simp
  rw [h2] at h1
  simp only [ne_eq, OfNat.ofNat_ne_zero, not_false_eq_true, zero_pow, max_self] at h1
  have h3 : -g - hessian A At s.x s.u s.t pcg.1.x = 0 := by
    have h4 : ‖-g - hessLin A At s.x s.u s.t pcg.1.x‖ ^ 2 = 0 := le_antisymm h1 (by positivity)
    exact norm_eq_zero.mp (pow_eq_zero_iff (two_ne_zero) |>.mp h4)
  have h5 : hessian A At s.x s.u s.t pcg.1.x = -g := (sub_eq_zero.mp h3).symm
  refine ⟨h5, ?_⟩
  rw [h5, neg_add_cancel, norm_zero]
  positivity

/-! ### The properties -/

/-- **C139** (accurate inner solves) for every problem, every strictly feasible start with a positive dual value and every tolerance there are an accuracy `eta > 0` and a number `K` such
that every run of `l1ls` in which the inner conjugate gradient solver returns directions of relative residual at most `eta` makes at most `K` iterations before the stopping
test holds, whatever the iteration limits. -/
theorem c139_accurate_runs (A : Vec n →ₗ[ℝ] Vec m) (At : Vec m →ₗ[ℝ] Vec n) (hadj : IsAdj A At) (y : Vec m) (lam : ℝ) (hl : 0 < lam) (hn : 0 < n) (x0 u0 : Vec n)
    (hint : ∀ i, |x0 i| < u0 i) (tol t0 : ℝ) (htol : 0 < tol) (ht0 : 0 < t0) (hd0 : 0 < (l1lsInit A At y lam x0 u0 t0).dual) :
    ∃ (eta : ℝ) (K : ℕ), 0 < eta ∧ ∀ (xi : ℝ) (N P k : ℕ) (s : ℕ → L1lsState m n), s 0 = l1lsInit A At y lam x0 u0 t0 →
      (∀ j, j < k → l1lsCond tol N (s j) ∧ L1lsBody A At y lam xi P (s j) (s (j + 1)) ∧ AccurateStep A At lam eta (s j) (s (j + 1))) → k ≤ K := by
  obtain ⟨d0, hd0e⟩ : ∃ d0, d0 = (l1lsInit A At y lam x0 u0 t0).dual := ⟨_, rfl⟩
  rw [← hd0e] at hd0
  obtain ⟨C, hC⟩ : ∃ C, C = 2 * bc0 n lam t0 / t0 := ⟨_, rfl⟩
  obtain ⟨phi0, hphi0⟩ : ∃ p, p = getPhi lam x0 u0 (A x0 - y) t0 := ⟨_, rfl⟩
  obtain ⟨W, hWd⟩ : ∃ W, W = (phi0 + C) * Real.exp (t0 / t0) := ⟨_, rfl⟩
  have hW : 0 ≤ W := by
    rw [hWd, hphi0, hC]
    exact mul_nonneg (phi_bounds hl ht0 hint le_rfl _).1 (Real.exp_pos _).le
  have heps : 0 < tol * d0 := by positivity
  obtain ⟨T, hTd⟩ : ∃ T, T = max t0 (4 * n / (tol * d0)) := ⟨_, rfl⟩
  have hT : t0 ≤ T := by rw [hTd]; exact le_max_left _ _
  have hT4 : 4 * n / (tol * d0) ≤ T := by rw [hTd]; exact le_max_right _ _
  have hTp : 0 < T := lt_of_lt_of_le ht0 hT
  obtain ⟨eta, del, heta, hdel, hstep⟩ := l1ls_step A At hadj y hl ht0 hn hW hT
  obtain ⟨V0, hV0⟩ : ∃ V0, V0 = phi0 + t0 * W / t0 - del / Real.log 2 * Real.log t0 := ⟨_, rfl⟩
  have hlog2 : 0 < Real.log 2 := Real.log_pos (by norm_num)
  refine ⟨eta, ⌈(V0 + del + C + del / Real.log 2 * Real.log T) / del⌉₊, heta, fun xi N P k s hs0 hrun => ?_⟩
  have hreach := run_reach (xi := xi) (P := P) hs0 fun j hj => ⟨(hrun j hj).1, (hrun j hj).2.1⟩
  have hgapj : ∀ j, j < k → tol * d0 < (s j).gap := fun j hj => by
    have hi := l1ls_inv hadj hl hint (hreach j hj.le).1
    rw [← hd0e] at hi
    have hden := hi.den_ge
    have hc := (hrun j hj).1.1
    rw [if_neg (by linarith), gt_iff_lt, lt_div_iff₀ (by linarith)] at hc
    exact lt_of_le_of_lt (mul_le_mul_of_nonneg_left hden htol.le) hc
  have hinv : ∀ j, j ≤ k → L1lsBound A y lam t0 W (t0 * W) (del / Real.log 2) V0 del (s j) ∧ (j < k → (s j).t ≤ T) := by
    intro j
    induction j with
    | zero =>
      intro _
      rw [hs0]
      refine ⟨⟨hint, rfl, le_rfl, ?_, ?_⟩, fun _ => hT⟩
      · rw [hWd, hphi0, hC]; exact le_rfl
      · show getPhi lam x0 u0 (A x0 - y) t0 + t0 * W / t0 - del / Real.log 2 * Real.log t0 + del * ((1 : ℕ) : ℝ) ≤ V0 + del
        rw [hV0, hphi0, Nat.cast_one, mul_one]
    | succ j ih =>
      intro hj
      obtain ⟨hb, ht⟩ := ih (by omega)
      have htj := ht (by omega)
      obtain ⟨_, hbody, hacc⟩ := hrun j (by omega)
      have hi := l1ls_inv hadj hl hint (hreach j (by omega)).1
      obtain ⟨hb', _⟩ := hstep xi P V0 (s j) (s (j + 1)) hb hi.dual_le htj hbody hacc
      refine ⟨hb', fun hjk => ?_⟩
      obtain ⟨⟨st, e⟩, _⟩ := body_t hbody
      rw [e]
      exact nextT_le heps (hgapj _ hjk) htj hT4
  rcases Nat.eq_zero_or_pos k with h0 | hpos
  · rw [h0]; exact Nat.zero_le _
  obtain ⟨hb, ht⟩ := hinv (k - 1) (by omega)
  have htk := ht (by omega)
  have hit : (s (k - 1)).iterations = k := by rw [(hreach (k - 1) (by omega)).2]; omega
  have hpot := hb.pot
  rw [hit] at hpot
  have htp : 0 < (s (k - 1)).t := lt_of_lt_of_le ht0 hb.t_ge
  have hphi := (phi_bounds hl ht0 hb.int hb.t_ge (s (k - 1)).z).1
  rw [← hC] at hphi
  have h1 : 0 ≤ t0 * W / (s (k - 1)).t := by positivity
  have h2 : del / Real.log 2 * Real.log (s (k - 1)).t ≤ del / Real.log 2 * Real.log T :=
    mul_le_mul_of_nonneg_left (Real.log_le_log htp htk) (by positivity)
  have h3 : (k : ℝ) ≤ (V0 + del + C + del / Real.log 2 * Real.log T) / del := by
    rw [le_div_iff₀ hdel]
    linarith
  exact_mod_cast h3.trans (Nat.le_ceil _)

/-- **C139** (termination) with exact inner solves (`xi = 0` and more than `2n` conjugate gradient iterations allowed) `l1ls.solve_from` makes at most `K` iterations, and returns:
with a larger iteration limit it stops by its own test on the relative duality gap. `K` depends on the problem, the start and the tolerance, not on the iteration limits. -/
theorem c139_terminates (A : Vec n →ₗ[ℝ] Vec m) (At : Vec m →ₗ[ℝ] Vec n) (hadj : IsAdj A At) (y : Vec m) (lam : ℝ) (hl : 0 < lam) (hn : 0 < n) (x0 u0 : Vec n)
    (hint : ∀ i, |x0 i| < u0 i) (tol t0 : ℝ) (htol : 0 < tol) (ht0 : 0 < t0) (hd0 : 0 < (l1lsInit A At y lam x0 u0 t0).dual) :
    ∃ K : ℕ, ∀ N P : ℕ, 2 * n < P →
      (∀ s, L1lsReach A At y lam x0 u0 tol 0 t0 N P s → s.iterations ≤ K) ∧ ∃ s, L1lsSolveFrom A At y lam x0 u0 tol 0 t0 N P s := by
  obtain ⟨eta, K, heta, hK⟩ := c139_accurate_runs A At hadj y lam hl hn x0 u0 hint tol t0 htol ht0 hd0
  refine ⟨K + 1, fun N P hP => ?_⟩
  have hbound : ∀ s, L1lsReach A At y lam x0 u0 tol 0 t0 N P s → s.iterations ≤ K + 1 := by
    intro s hs
    obtain ⟨k, r, h0, hk, hit, hr⟩ := reach_run hs
    have hreach := run_reach h0 hr
    have := hK 0 N P k r h0 fun j hj => ⟨(hr j hj).1, (hr j hj).2, by
      have hi := l1ls_inv hadj hl hint (hreach j hj.le).1
      obtain ⟨pcg, hp, bt, hbt, e⟩ := (hr j hj).2
      have hdxu : (r (j + 1)).dxu = pcg.1.x := by rw [e]
      unfold AccurateStep
      rw [hdxu]
      exact (exact_accurate A At hadj heta.le hP hi.int (lt_of_lt_of_le ht0 hi.t_ge) hp).2⟩
    omega
  refine ⟨hbound, ?_⟩
  have hex : ∀ j : ℕ, ∃ s, L1lsReach A At y lam x0 u0 tol 0 t0 N P s ∧ (¬ l1lsCond tol N s ∨ s.iterations = j + 1) := by
    intro j
    induction j with
    | zero => exact ⟨_, .init, Or.inr rfl⟩
    | succ j ih =>
      obtain ⟨s, hs, hc⟩ := ih
      by_cases hcond : l1lsCond tol N s
      · have hit := hc.resolve_left (not_not.mpr hcond)
        have hi := l1ls_inv hadj hl hint hs
        have htp := lt_of_lt_of_le ht0 hi.t_ge
        obtain ⟨⟨pcg, hp⟩, hprog, _⟩ := c63_progress A At hadj y lam hl x0 u0 hint tol 0 t0 ht0 N P s hs
        have hex := (exact_accurate A At hadj (le_refl 0) hP hi.int htp hp).1
        obtain ⟨s', hs'⟩ := hprog pcg hp (by
          by_cases hz : pcg.1.x = 0
          · exact Or.inr hz
          · left
            have hpd := (hess_spd A At hadj hi.int htp).pos pcg.1.x hz
            have e : hessLin A At s.x s.u s.t pcg.1.x = -gradPhi lam s.x s.u (At ((2 : ℝ) • s.z)) s.t := hex
            rw [e, inner_neg_right, real_inner_comm] at hpd
            linarith)
        exact ⟨s', .step hs hcond hs', Or.inr (by rw [(body_t hs').2, hit])⟩
      · exact ⟨s, hs, Or.inl hcond⟩
  obtain ⟨s, hs, hc⟩ := hex (K + 1)
  rcases hc with hc | hc
  · exact ⟨s, hs, hc⟩
  · have := hbound s hs
    omega

/-- **C139** (default start) `l1ls.solve` with exact inner solves solves every problem with `y ≠ 0` to every tolerance: for a large iteration limit it returns before the limit, with an
objective within the factor `1 + tol` of the optimum. -/
theorem c139_solves (A : Vec n →ₗ[ℝ] Vec m) (At : Vec m →ₗ[ℝ] Vec n) (hadj : IsAdj A At) (y : Vec m) (hy : y ≠ 0) (lam : ℝ) (hl : 0 < lam) (hn : 0 < n) (tol : ℝ) (htol : 0 < tol) :
    ∃ K : ℕ, ∀ N P : ℕ, K < N → 2 * n < P → ∃ s, L1lsSolve A At y lam tol 0 N P s ∧ s.iterations < N ∧
      ∀ v, ‖A s.x - y‖ ^ 2 + lam * ∑ i, |s.x i| ≤ (1 + tol) * (‖A v - y‖ ^ 2 + lam * ∑ i, |v i|) := by
  have hint : ∀ i, |(0 : Vec n) i| < (vec fun _ => (1 : ℝ)) i := fun i => by simp
  have ht0 : 0 < defaultT0 n lam := by
    unfold defaultT0
    have : (0 : ℝ) < n := by exact_mod_cast hn
    exact lt_min (lt_max_of_lt_left one_pos) (by positivity)
  have hd0 : 0 < (l1lsInit A At y lam 0 (vec fun _ => 1) (defaultT0 n lam)).dual := by
    show 0 < dualObj y (getNu At lam (A 0 - y) _).1
    obtain ⟨c, hc0, hc1, hc⟩ := getNu_scale At hl (A 0 - y) (counted At y 0).2
    rw [hc, map_zero, zero_sub, dualObj, inner_smul_left, inner_smul_right, inner_smul_left, inner_neg_neg, inner_neg_left, real_inner_self_eq_norm_sq]
    simp only [conj_trivial]
    have h1 : 0 < ‖y‖ ^ 2 := by have := norm_pos_iff.mpr hy; positivity
    nlinarith [mul_pos (mul_pos hc0 (by linarith : (0 : ℝ) < 2 - c)) h1]
  obtain ⟨K, hK⟩ := c139_terminates A At hadj y lam hl hn 0 (vec fun _ => 1) hint tol (defaultT0 n lam) htol ht0 hd0
  refine ⟨K, fun N P hN hP => ?_⟩
  obtain ⟨h1, s, hs⟩ := hK N P hP
  have hit : s.iterations < N := lt_of_le_of_lt (h1 s hs.1) hN
  exact ⟨s, hs, hit, fun v => (c63_default_start A At hadj y lam hl tol 0 htol.le N P s hs hit v).1⟩

/-- The hypotheses hold for `min (x - 2)² + |x|`; the run is not empty (`l1ls_runs`), and the start `x = 0`, `u = 1` has a positive dual value. -/
theorem ex_start : IsAdj unit1 unit1 ∧ v1 2 ≠ 0 ∧ 0 < (l1lsInit unit1 unit1 (v1 2) 1 0 (vec fun _ => 1) 1).dual := by
  refine ⟨unit1_adj, fun h => ?_, ?_⟩
  · have h2 : v1 2 0 = (0 : Vec 1) 0 := by rw [h]
    norm_num [v1] at h2
  · show 0 < dualObj (v1 2) (getNu unit1 1 (unit1 0 - v1 2) _).1
    obtain ⟨c, hc0, hc1, hc⟩ := getNu_scale unit1 one_pos (unit1 0 - v1 2) (counted unit1 (v1 2) 0).2
    rw [hc, map_zero, zero_sub, dualObj, inner_smul_left, inner_smul_right, inner_smul_left, inner_neg_neg, inner_neg_left, v1_inner]
    simp only [conj_trivial]
    nlinarith

example := c139_accurate_runs unit1 unit1 unit1_adj (v1 2) 1 one_pos one_pos 0 (vec fun _ => 1) (fun _ => by simp [vec]) 1e-3 1 (by norm_num) one_pos ex_start.2.2

example := c139_terminates unit1 unit1 unit1_adj (v1 2) 1 one_pos one_pos 0 (vec fun _ => 1) (fun _ => by simp [vec]) 1e-3 1 (by norm_num) one_pos ex_start.2.2

example := c139_solves unit1 unit1 unit1_adj (v1 2) ex_start.2.1 1 one_pos one_pos 1e-3 (by norm_num)

end Verif.Cvx
