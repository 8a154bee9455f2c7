import Verif.Cvx.L1lsProps
import Mathlib.Analysis.SpecialFunctions.Log.Deriv
import Mathlib.Analysis.SpecialFunctions.Exp
import Mathlib.Analysis.Real.Sqrt

set_option autoImplicit false
/-!
# Convergence of the interior point solver: lemmas (C139)
-/
noncomputable section
namespace Verif.Cvx
open Verif.Loop Verif.Opt
open Verif.Sls (counted)
open scoped RealInnerProductSpace

variable {m n : ℕ}

/-! ### The logarithm -/

theorem log_lower {z : ℝ} (h : |z| ≤ 1 / 4) : z - z ^ 2 ≤ Real.log (1 + z) := by
  have h1 := Real.abs_log_sub_add_sum_range_le (x := -z) (by rw [abs_neg]; linarith) 2
  simp only [Finset.sum_range_succ, Finset.sum_range_zero, abs_neg] at h1
  norm_num at h1
  have h2 := (abs_le.mp h1).1
  have h3 : |z| ^ 3 / (1 - |z|) ≤ z ^ 2 / 2 := by
    rw [div_le_iff₀ (by linarith), ← sq_abs z]
    nlinarith [abs_nonneg z, mul_nonneg (sq_nonneg |z|) (by linarith : 0 ≤ 1 / 4 - |z|)]
  linarith

theorem log_upper {v th : ℝ} (hv : 0 < v) (hth : 0 < th) : Real.log v ≤ th * v - 1 - Real.log th := by
  have h := Real.log_le_sub_one_of_pos (mul_pos hth hv)
  rw [Real.log_mul hth.ne' hv.ne'] at h
  linarith

/-! ### The line search -/

theorem fsearch_lower {x u dx du : Vec n} {k j : ℕ} (hjk : j ≤ k) (hfeas : Interior (x + ((1 / 2 : ℝ) ^ k) • dx) (u + ((1 / 2 : ℝ) ^ k) • du)) {p : FState n}
    (h : FSearch x u dx du ((1 / 2) ^ j) p) : ∃ l, l ≤ k ∧ p.s = (1 / 2) ^ l := by
  obtain ⟨i, hi, hc⟩ := h.1.iterate
  rw [fIter] at hi
  refine ⟨j + i, ?_, by rw [hi]; show (1 / 2 : ℝ) ^ j * (1 / 2) ^ i = _; rw [pow_add]⟩
  by_contra hlt
  have h2 := hc (k - j) (by omega)
  rw [fIter, ← pow_add, show j + (k - j) = k by omega] at h2
  obtain ⟨q, hq⟩ := h2
  have h3 := abs_lt.mp (hfeas q)
  rcases hq with hq | hq
  · have : 0 ≤ (x + ((1 / 2 : ℝ) ^ k) • dx) q - (u + ((1 / 2 : ℝ) ^ k) • du) q := hq
    linarith
  · have : 0 ≤ -(x + ((1 / 2 : ℝ) ^ k) • dx) q - (u + ((1 / 2 : ℝ) ^ k) • du) q := hq
    linarith

/-- The backtracking never goes below a step which is feasible and accepted. -/
theorem bt_lower {A : Vec n → Vec m} {y : Vec m} {lam t : ℝ} {x u dx du : Vec n} {phi gdx : ℝ} {calls k : ℕ} {b : BtState m n}
    (hfeas : Interior (x + ((1 / 2 : ℝ) ^ k) • dx) (u + ((1 / 2 : ℝ) ^ k) • du))
    (hacc : getPhi lam (x + ((1 / 2 : ℝ) ^ k) • dx) (u + ((1 / 2 : ℝ) ^ k) • du) (A (x + ((1 / 2 : ℝ) ^ k) • dx) - y) t - phi ≤ 0.01 * (1 / 2 : ℝ) ^ k * gdx)
    (h : BtReach A y lam t x u dx du phi gdx calls b) : (1 / 2 : ℝ) ^ k ≤ b.p.s := by
  have key : ∃ l, l ≤ k ∧ b.p.s = (1 / 2) ^ l := by
    induction h with
    | @init p hp => exact fsearch_lower (j := 0) (p := p) (Nat.zero_le k) hfeas (by simpa using hp)
    | @step b p hb hc hp ih =>
      obtain ⟨l, hl, e⟩ := ih
      have hne : l ≠ k := by
        rintro rfl
        have hi := bt_inv hb
        have hc' : b.phi - phi > 0.01 * b.p.s * gdx := hc
        rw [hi.phi_eq, hi.z_eq, hi.eqx, hi.equ, e] at hc'
        linarith
      have e2 : 0.5 * b.p.s = (1 / 2 : ℝ) ^ (l + 1) := by rw [e, pow_succ]; norm_num; ring
      rw [e2] at hp
      exact fsearch_lower (by omega) hfeas hp
  obtain ⟨l, hl, e⟩ := key
  rw [e]
  exact pow_le_pow_of_le_one (by norm_num) (by norm_num) hl

/-! ### The barrier function along a direction -/

/-- Relative change of `u_i + x_i` and of `u_i - x_i` along the direction. -/
def zp (x u dx du : Vec n) (i : Fin n) : ℝ := (du i + dx i) / (u i + x i)
def zm (x u dx du : Vec n) (i : Fin n) : ℝ := (du i - dx i) / (u i - x i)

theorem pos_add {x u : Vec n} (h : Interior x u) (i : Fin n) : 0 < u i + x i := by have := (abs_lt.mp (h i)).1; linarith

theorem pos_sub {x u : Vec n} (h : Interior x u) (i : Fin n) : 0 < u i - x i := by have := (abs_lt.mp (h i)).2; linarith

theorem add_step {x u : Vec n} (h : Interior x u) (dx du : Vec n) (s : ℝ) (i : Fin n) :
    (u + s • du) i + (x + s • dx) i = (u i + x i) * (1 + s * zp x u dx du i) := by
  have := (pos_add h i).ne'
  simp only [PiLp.add_apply, PiLp.smul_apply, smul_eq_mul, zp]
  field_simp
  ring

theorem sub_step {x u : Vec n} (h : Interior x u) (dx du : Vec n) (s : ℝ) (i : Fin n) :
    (u + s • du) i - (x + s • dx) i = (u i - x i) * (1 + s * zm x u dx du i) := by
  have := (pos_sub h i).ne'
  simp only [PiLp.add_apply, PiLp.smul_apply, smul_eq_mul, zm]
  field_simp
  ring

theorem step_interior {x u : Vec n} (h : Interior x u) (dx du : Vec n) {s : ℝ} (hs : ∀ i, |s * zp x u dx du i| ≤ 1 / 4 ∧ |s * zm x u dx du i| ≤ 1 / 4) :
    Interior (x + s • dx) (u + s • du) := by
  intro i
  obtain ⟨h1, h2⟩ := hs i
  have h3 := add_step h dx du s i
  have h4 := sub_step h dx du s i
  have h5 := mul_pos (pos_add h i) (by have := (abs_le.mp h1).1; linarith : 0 < 1 + s * zp x u dx du i)
  have h6 := mul_pos (pos_sub h i) (by have := (abs_le.mp h2).1; linarith : 0 < 1 + s * zm x u dx du i)
  rw [abs_lt]
  constructor <;> linarith

/-- The sum of the logarithms in the barrier. -/
def barB (x u : Vec n) : ℝ := (∑ i, Real.log (u i - x i)) + ∑ i, Real.log (u i + x i)

theorem getPhi_eq (lam : ℝ) (x u : Vec n) (z : Vec m) (t : ℝ) : getPhi lam x u z t = ‖z‖ ^ 2 + lam * ∑ i, u i - barB x u / t := by
  rw [getPhi, real_inner_self_eq_norm_sq, barB]
  congr 3
  · exact Finset.sum_congr rfl fun i _ => by rw [neg_sub]
  · exact Finset.sum_congr rfl fun i _ => by congr 1; ring

theorem hess_quad (A : Vec n →ₗ[ℝ] Vec m) (At : Vec m →ₗ[ℝ] Vec n) (hadj : IsAdj A At) {x u : Vec n} (h : Interior x u) (t : ℝ) (dx du : Vec n) :
    ⟪pv dx du, hessian A At x u t (pv dx du)⟫ = 2 * ‖A dx‖ ^ 2 + (∑ i, (zp x u dx du i ^ 2 + zm x u dx du i ^ 2)) / t := by
  have e1 : ⟪dx, At ((2 : ℝ) • A dx)⟫ = 2 * ‖A dx‖ ^ 2 := by rw [← hadj, inner_smul_right, real_inner_self_eq_norm_sq]
  have e2 : hessian A At x u t (pv dx du) = pv (At ((2 : ℝ) • A dx) + had (d1 x u t) dx + had (d2 x u t) du) (had (d2 x u t) dx + had (d1 x u t) du) := rfl
  rw [e2, pv_inner, inner_add_right, inner_add_right, e1, inner_add_right, Verif.Opt.inner_sum, Verif.Opt.inner_sum, Verif.Opt.inner_sum, Verif.Opt.inner_sum, add_assoc, add_assoc,
    ← Finset.sum_add_distrib, ← Finset.sum_add_distrib, ← Finset.sum_add_distrib, Finset.sum_div]
  congr 1
  refine Finset.sum_congr rfl fun i _ => ?_
  have h1 := (pos_add h i).ne'
  have h2 := (pos_sub h i).ne'
  simp only [had, d1, d2, q1, q2, vec_apply, zp, zm]
  by_cases ht : t = 0
  · simp [ht]
  · field_simp
    ring

/-- Upper bound of the barrier function along a direction. -/
theorem phi_step (A : Vec n →ₗ[ℝ] Vec m) (At : Vec m →ₗ[ℝ] Vec n) (hadj : IsAdj A At) (y : Vec m) (lam : ℝ) {t : ℝ} (ht : 0 < t) {x u : Vec n} (h : Interior x u)
    (dx du : Vec n) {s : ℝ} (hs : ∀ i, |s * zp x u dx du i| ≤ 1 / 4 ∧ |s * zm x u dx du i| ≤ 1 / 4) :
    getPhi lam (x + s • dx) (u + s • du) (A (x + s • dx) - y) t - getPhi lam x u (A x - y) t ≤
      s * ⟪gradPhi lam x u (At ((2 : ℝ) • (A x - y))) t, pv dx du⟫ + s ^ 2 * ⟪pv dx du, hessian A At x u t (pv dx du)⟫ := by
  have hB : barB x u + s * ∑ i, (zp x u dx du i + zm x u dx du i) - s ^ 2 * ∑ i, (zp x u dx du i ^ 2 + zm x u dx du i ^ 2) ≤ barB (x + s • dx) (u + s • du) := by
    unfold barB
    rw [← Finset.sum_add_distrib, ← Finset.sum_add_distrib, Finset.mul_sum, Finset.mul_sum, ← Finset.sum_add_distrib, ← Finset.sum_sub_distrib]
    refine Finset.sum_le_sum fun i _ => ?_
    obtain ⟨h1, h2⟩ := hs i
    have p1 : 0 < 1 + s * zp x u dx du i := by have := (abs_le.mp h1).1; linarith
    have p2 : 0 < 1 + s * zm x u dx du i := by have := (abs_le.mp h2).1; linarith
    rw [add_step h dx du s i, sub_step h dx du s i, Real.log_mul (pos_sub h i).ne' p2.ne', Real.log_mul (pos_add h i).ne' p1.ne']
    have l1 := log_lower h1
    have l2 := log_lower h2
    nlinarith
  have hz : ‖A (x + s • dx) - y‖ ^ 2 = ‖A x - y‖ ^ 2 + s * (2 * ⟪A x - y, A dx⟫) + s ^ 2 * ‖A dx‖ ^ 2 := by
    have e : A (x + s • dx) - y = (A x - y) + s • A dx := by rw [map_add, map_smul]; abel
    rw [e, norm_add_sq_real, inner_smul_right, norm_smul, mul_pow, Real.norm_eq_abs, sq_abs]; ring
  have hu : ∑ i, (u + s • du) i = ∑ i, u i + s * ∑ i, du i := by
    rw [Finset.mul_sum, ← Finset.sum_add_distrib]; rfl
  have hg : ⟪gradPhi lam x u (At ((2 : ℝ) • (A x - y))) t, pv dx du⟫ =
      2 * ⟪A x - y, A dx⟫ + lam * ∑ i, du i - (∑ i, (zp x u dx du i + zm x u dx du i)) / t := by
    have e1 : (2 : ℝ) * ⟪A x - y, A dx⟫ = ⟪At ((2 : ℝ) • (A x - y)), dx⟫ := by
      rw [real_inner_comm dx, ← hadj, inner_smul_right, real_inner_comm (A dx)]
    rw [e1, gradPhi, pv_inner, Verif.Opt.inner_sum, Verif.Opt.inner_sum, Verif.Opt.inner_sum, Finset.mul_sum, Finset.sum_div, ← Finset.sum_add_distrib,
      ← Finset.sum_add_distrib, ← Finset.sum_sub_distrib]
    refine Finset.sum_congr rfl fun i _ => ?_
    simp only [q1, q2, vec_apply, zp, zm]
    ring
  rw [getPhi_eq, getPhi_eq, hz, hu, hg, hess_quad A At hadj h]
  have hB' := div_le_div_of_nonneg_right hB ht.le
  have e : (barB x u + s * ∑ i, (zp x u dx du i + zm x u dx du i) - s ^ 2 * ∑ i, (zp x u dx du i ^ 2 + zm x u dx du i ^ 2)) / t =
      barB x u / t + s * ((∑ i, (zp x u dx du i + zm x u dx du i)) / t) - s ^ 2 * ((∑ i, (zp x u dx du i ^ 2 + zm x u dx du i ^ 2)) / t) := by ring
  rw [e] at hB'
  have : 0 ≤ s ^ 2 * ‖A dx‖ ^ 2 := by positivity
  nlinarith

/-- Each relative change is bounded by the energy norm of the direction. -/
theorem z_le (A : Vec n →ₗ[ℝ] Vec m) (At : Vec m →ₗ[ℝ] Vec n) (hadj : IsAdj A At) {x u : Vec n} (h : Interior x u) {t : ℝ} (ht : 0 < t) (dx du : Vec n) (i : Fin n) :
    zp x u dx du i ^ 2 ≤ t * ⟪pv dx du, hessian A At x u t (pv dx du)⟫ ∧ zm x u dx du i ^ 2 ≤ t * ⟪pv dx du, hessian A At x u t (pv dx du)⟫ := by
  have h1 : zp x u dx du i ^ 2 + zm x u dx du i ^ 2 ≤ ∑ j, (zp x u dx du j ^ 2 + zm x u dx du j ^ 2) :=
    Finset.single_le_sum (f := fun j => zp x u dx du j ^ 2 + zm x u dx du j ^ 2) (fun j _ => by positivity) (Finset.mem_univ i)
  have h2 : t * ⟪pv dx du, hessian A At x u t (pv dx du)⟫ = t * (2 * ‖A dx‖ ^ 2) + ∑ j, (zp x u dx du j ^ 2 + zm x u dx du j ^ 2) := by
    rw [hess_quad A At hadj h]; field_simp
  have h3 : 0 ≤ t * (2 * ‖A dx‖ ^ 2) := by positivity
  have h4 := sq_nonneg (zp x u dx du i)
  have h5 := sq_nonneg (zm x u dx du i)
  constructor <;> linarith

/-! ### The region of the iterates -/

/-- Constant in the bounds of the barrier. -/
def bc0 (n : ℕ) (lam t0 : ℝ) : ℝ := 2 * n * |1 + Real.log (lam * t0 / 8)|

theorem barB_le {lam t0 : ℝ} (hl : 0 < lam) (ht0 : 0 < t0) {x u : Vec n} (h : Interior x u) : barB x u ≤ lam * t0 / 2 * ∑ i, u i + bc0 n lam t0 := by
  have hth : 0 < lam * t0 / 8 := by positivity
  have e : bc0 n lam t0 = ∑ _i : Fin n, 2 * |1 + Real.log (lam * t0 / 8)| := by
    rw [Finset.sum_const, Finset.card_univ, Fintype.card_fin, nsmul_eq_mul, bc0]; ring
  rw [e, barB, ← Finset.sum_add_distrib, Finset.mul_sum, ← Finset.sum_add_distrib]
  refine Finset.sum_le_sum fun i _ => ?_
  have h1 := log_upper (pos_sub h i) hth
  have h2 := log_upper (pos_add h i) hth
  have h3 := neg_abs_le (1 + Real.log (lam * t0 / 8))
  have h4 : 0 ≤ lam * t0 / 8 * u i := mul_nonneg hth.le ((abs_nonneg _).trans (h i).le)
  nlinarith

theorem bc0_nonneg (n : ℕ) (lam t0 : ℝ) : 0 ≤ bc0 n lam t0 := by unfold bc0; positivity

/-- Where the barrier function is bounded, so are the parts of it. -/
theorem phi_bounds {lam t0 : ℝ} (hl : 0 < lam) (ht0 : 0 < t0) {x u : Vec n} (h : Interior x u) {t : ℝ} (ht : t0 ≤ t) (z : Vec m) :
    0 ≤ getPhi lam x u z t + 2 * bc0 n lam t0 / t0 ∧ ‖z‖ ^ 2 + lam * ∑ i, u i ≤ 2 * (getPhi lam x u z t + 2 * bc0 n lam t0 / t0) ∧
    barB x u ≤ t0 * (getPhi lam x u z t + 2 * bc0 n lam t0 / t0) := by
  have hB := barB_le hl ht0 h
  have hc := bc0_nonneg n lam t0
  have htp : 0 < t := lt_of_lt_of_le ht0 ht
  have hU : 0 ≤ ∑ i, u i := Finset.sum_nonneg fun i _ => (abs_nonneg _).trans (h i).le
  have h1 : barB x u / t ≤ lam / 2 * ∑ i, u i + bc0 n lam t0 / t0 := by
    have e : (lam * t0 / 2 * ∑ i, u i + bc0 n lam t0) / t0 = lam / 2 * ∑ i, u i + bc0 n lam t0 / t0 := by field_simp
    rw [← e]
    refine (div_le_div_of_nonneg_right hB htp.le).trans ?_
    exact div_le_div_of_nonneg_left (by positivity) ht0 ht
  rw [getPhi_eq]
  set U := ∑ i, u i
  have hcd : 2 * bc0 n lam t0 / t0 = 2 * (bc0 n lam t0 / t0) := by ring
  have hd : 0 ≤ bc0 n lam t0 / t0 := by positivity
  have hz : 0 ≤ ‖z‖ ^ 2 := by positivity
  have hlU : 0 ≤ lam * U := by positivity
  rw [hcd]
  have h2 : ‖z‖ ^ 2 / 2 + lam * U / 2 + bc0 n lam t0 / t0 ≤ ‖z‖ ^ 2 + lam * U - barB x u / t + 2 * (bc0 n lam t0 / t0) := by linarith
  refine ⟨by linarith, by linarith, ?_⟩
  have h3 : barB x u ≤ t0 * (‖z‖ ^ 2 / 2 + lam * U / 2 + bc0 n lam t0 / t0) := by
    have e : t0 * (‖z‖ ^ 2 / 2 + lam * U / 2 + bc0 n lam t0 / t0) = t0 * ‖z‖ ^ 2 / 2 + (lam * t0 / 2 * U + bc0 n lam t0) := by field_simp; ring
    rw [e]
    have : 0 ≤ t0 * ‖z‖ ^ 2 / 2 := by positivity
    linarith
  exact h3.trans (mul_le_mul_of_nonneg_left h2 ht0.le)

/-- Raising the parameter `t` never raises `(phi + C) exp(t0 / t)`. -/
theorem phi_raise {lam t0 : ℝ} (hl : 0 < lam) (ht0 : 0 < t0) {x u : Vec n} (h : Interior x u) {t t' : ℝ} (ht : t0 ≤ t) (htt : t ≤ t') (z : Vec m) :
    (getPhi lam x u z t' + 2 * bc0 n lam t0 / t0) * Real.exp (t0 / t') ≤ (getPhi lam x u z t + 2 * bc0 n lam t0 / t0) * Real.exp (t0 / t) := by
  obtain ⟨h1, _, h3⟩ := phi_bounds (m := m) hl ht0 h ht z
  set P := getPhi lam x u z t + 2 * bc0 n lam t0 / t0 with hP
  have htp : 0 < t := lt_of_lt_of_le ht0 ht
  have htp' : 0 < t' := lt_of_lt_of_le htp htt
  have hinv : 0 ≤ 1 / t - 1 / t' := sub_nonneg.mpr (one_div_le_one_div_of_le htp htt)
  have e : getPhi lam x u z t' + 2 * bc0 n lam t0 / t0 = P + (1 / t - 1 / t') * barB x u := by rw [hP, getPhi_eq, getPhi_eq]; ring
  have h4 : P + (1 / t - 1 / t') * barB x u ≤ P * Real.exp (t0 / t - t0 / t') := by
    have h5 := Real.add_one_le_exp (t0 / t - t0 / t')
    have h6 := mul_le_mul_of_nonneg_left h5 h1
    have h7 := mul_le_mul_of_nonneg_left h3 hinv
    have e2 : P * (t0 / t - t0 / t' + 1) = P + (1 / t - 1 / t') * (t0 * P) := by ring
    linarith
  rw [e]
  calc _ ≤ P * Real.exp (t0 / t - t0 / t') * Real.exp (t0 / t') := mul_le_mul_of_nonneg_right h4 (Real.exp_pos _).le
    _ = P * Real.exp (t0 / t) := by rw [mul_assoc, ← Real.exp_add]; ring_nf

/-- Distance of the iterates from the boundary. -/
theorem slack_lower {lam t0 W T : ℝ} (hl : 0 < lam) (ht0 : 0 < t0) {x u : Vec n} (h : Interior x u) {t : ℝ} (ht : t0 ≤ t) (htT : t ≤ T) (z : Vec m)
    (hW : getPhi lam x u z t + 2 * bc0 n lam t0 / t0 ≤ W) (i : Fin n) :
    u i ≤ 2 * W / lam ∧ Real.exp (-(T * W + 2 * n * (4 * W / lam))) ≤ u i + x i ∧ Real.exp (-(T * W + 2 * n * (4 * W / lam))) ≤ u i - x i := by
  obtain ⟨h1, h2, _⟩ := phi_bounds (m := m) hl ht0 h ht z
  have htp : 0 < t := lt_of_lt_of_le ht0 ht
  have hU0 : ∀ j, 0 ≤ u j := fun j => (abs_nonneg _).trans (h j).le
  have hz : 0 ≤ ‖z‖ ^ 2 := by positivity
  have hW0 : 0 ≤ W := h1.trans hW
  have hM : ∀ j, u j ≤ 2 * W / lam := fun j => by
    rw [le_div_iff₀ hl]
    have : u j ≤ ∑ i, u i := Finset.single_le_sum (f := fun i => u i) (fun i _ => hU0 i) (Finset.mem_univ j)
    nlinarith
  have hlog : ∀ j, Real.log (u j - x j) ≤ 4 * W / lam ∧ Real.log (u j + x j) ≤ 4 * W / lam := fun j => by
    have h3 := Real.log_le_sub_one_of_pos (pos_sub h j)
    have h4 := Real.log_le_sub_one_of_pos (pos_add h j)
    have h5 := abs_lt.mp (h j)
    have e : 4 * W / lam = 2 * (2 * W / lam) := by ring
    have := hM j
    constructor <;> linarith
  have hk : 0 ≤ 4 * W / lam := by positivity
  have hB : -(T * W) ≤ barB x u := by
    have h3 : -(barB x u / t) ≤ W := by
      have e := getPhi_eq lam x u z t
      have : 0 ≤ lam * ∑ i, u i := mul_nonneg hl.le (Finset.sum_nonneg fun i _ => hU0 i)
      have hc := bc0_nonneg n lam t0
      have : 0 ≤ 2 * bc0 n lam t0 / t0 := by positivity
      linarith
    rw [← neg_div, div_le_iff₀ htp] at h3
    have : W * t ≤ T * W := by nlinarith
    linarith
  have hs1 : ∑ j, Real.log (u j - x j) ≤ Real.log (u i - x i) + n * (4 * W / lam) := by
    rw [← Finset.add_sum_erase _ _ (Finset.mem_univ i)]
    have : ∑ j ∈ Finset.univ.erase i, Real.log (u j - x j) ≤ (Finset.univ.erase i).card • (4 * W / lam) := Finset.sum_le_card_nsmul _ _ _ fun j _ => (hlog j).1
    rw [nsmul_eq_mul] at this
    have hcard : ((Finset.univ.erase i).card : ℝ) ≤ n := by
      have := Finset.card_erase_le (s := Finset.univ) (a := i)
      rw [Finset.card_univ, Fintype.card_fin] at this
      exact_mod_cast this
    nlinarith
  have hs2 : ∑ j, Real.log (u j + x j) ≤ Real.log (u i + x i) + n * (4 * W / lam) := by
    rw [← Finset.add_sum_erase _ _ (Finset.mem_univ i)]
    have : ∑ j ∈ Finset.univ.erase i, Real.log (u j + x j) ≤ (Finset.univ.erase i).card • (4 * W / lam) := Finset.sum_le_card_nsmul _ _ _ fun j _ => (hlog j).2
    rw [nsmul_eq_mul] at this
    have hcard : ((Finset.univ.erase i).card : ℝ) ≤ n := by
      have := Finset.card_erase_le (s := Finset.univ) (a := i)
      rw [Finset.card_univ, Fintype.card_fin] at this
      exact_mod_cast this
    nlinarith
  have ha1 : ∑ j, Real.log (u j - x j) ≤ n * (4 * W / lam) := by
    have := Finset.sum_le_card_nsmul Finset.univ (fun j => Real.log (u j - x j)) _ fun j _ => (hlog j).1
    rwa [nsmul_eq_mul, Finset.card_univ, Fintype.card_fin] at this
  have ha2 : ∑ j, Real.log (u j + x j) ≤ n * (4 * W / lam) := by
    have := Finset.sum_le_card_nsmul Finset.univ (fun j => Real.log (u j + x j)) _ fun j _ => (hlog j).2
    rwa [nsmul_eq_mul, Finset.card_univ, Fintype.card_fin] at this
  unfold barB at hB
  refine ⟨hM i, ?_, ?_⟩
  · rw [← Real.le_log_iff_exp_le (pos_add h i)]; linarith
  · rw [← Real.le_log_iff_exp_le (pos_sub h i)]; linarith

/-! ### The duality gap near the central path -/

theorem getNu_scale' (At : Vec m → Vec n) {lam : ℝ} (hl : 0 < lam) (z : Vec m) (calls : ℕ) :
    ∃ c : ℝ, 0 < c ∧ c ≤ 1 ∧ (getNu At lam z calls).1 = (2 * c) • z ∧ ∀ L, linf (At ((2 : ℝ) • z)) ≤ L → lam ≤ L → lam / L ≤ c := by
  by_cases h : linf (At ((2 : ℝ) • z)) ≠ 0 ∧ lam / linf (At ((2 : ℝ) • z)) < 1
  · rw [getNu_pos h]
    have hp : 0 < linf (At ((2 : ℝ) • z)) := lt_of_le_of_ne (linf_nonneg _) (Ne.symm h.1)
    exact ⟨_, div_pos hl hp, h.2.le, by rw [smul_smul, mul_comm], fun L hL _ => div_le_div_of_nonneg_left hl.le hp hL⟩
  · rw [getNu_neg h]
    refine ⟨1, one_pos, le_rfl, by rw [mul_one], fun L _ hL => ?_⟩
    rw [div_le_one (by linarith)]; exact hL

/-- One entry of the gap. -/
theorem gap_entry {lam t x u gx gu G c : ℝ} (hl : 0 < lam) (ht : 0 < t) (hxu : |x| < u) (hp1 : |gx| ≤ G) (hu1 : |gu| ≤ G) (hG : G ≤ lam)
    (hlam : lam = (1 / (u + x) + 1 / (u - x)) / t + gu) (hc : c ≤ 1) (hc2 : 1 - c ≤ 2 * G / lam) :
    |(1 / (u + x) - 1 / (u - x)) / t + gx| ≤ lam + 2 * G ∧
    lam * |x| + c * (((1 / (u + x) - 1 / (u - x)) / t + gx) * x) ≤ 1 / t + 8 * G * |x| := by
  obtain ⟨h1, h2⟩ := abs_lt.mp hxu
  have ha : 0 < u + x := by linarith
  have hb : 0 < u - x := by linarith
  have hq1 : 0 < 1 / (u + x) := by positivity
  have hq2 : 0 < 1 / (u - x) := by positivity
  have hG0 : 0 ≤ G := (abs_nonneg _).trans hp1
  set p := (1 / (u + x) - 1 / (u - x)) / t + gx with hp
  have hpl : |p| ≤ lam + 2 * G := by
    have h3 : |(1 / (u + x) - 1 / (u - x)) / t| ≤ (1 / (u + x) + 1 / (u - x)) / t := by
      rw [abs_div, abs_of_pos ht]
      refine div_le_div_of_nonneg_right ?_ ht.le
      rw [abs_le]; constructor <;> linarith
    have h4 := abs_add_le ((1 / (u + x) - 1 / (u - x)) / t) gx
    have h5 := neg_abs_le gu
    rw [← hp] at h4
    linarith
  refine ⟨hpl, ?_⟩
  have hmain : (1 / (u + x) + 1 / (u - x)) * |x| + (1 / (u + x) - 1 / (u - x)) * x ≤ 1 := by
    rcases le_total 0 x with hx | hx
    · rw [abs_of_nonneg hx]
      have e : (1 / (u + x) + 1 / (u - x)) * x + (1 / (u + x) - 1 / (u - x)) * x = 2 * x / (u + x) := by field_simp; ring
      rw [e, div_le_one ha]; linarith
    · rw [abs_of_nonpos hx]
      have e : (1 / (u + x) + 1 / (u - x)) * -x + (1 / (u + x) - 1 / (u - x)) * x = -(2 * x) / (u - x) := by field_simp; ring
      rw [e, div_le_one hb]; linarith
  have h6 : lam * |x| + p * x = ((1 / (u + x) + 1 / (u - x)) * |x| + (1 / (u + x) - 1 / (u - x)) * x) / t + gu * |x| + gx * x := by
    rw [hp]
    have : lam * |x| = ((1 / (u + x) + 1 / (u - x)) / t + gu) * |x| := by rw [← hlam]
    rw [this]; ring
  have h7 : gu * |x| ≤ G * |x| := mul_le_mul_of_nonneg_right ((le_abs_self _).trans hu1) (abs_nonneg _)
  have h8 : gx * x ≤ G * |x| := (le_abs_self _).trans (by rw [abs_mul]; exact mul_le_mul_of_nonneg_right hp1 (abs_nonneg _))
  have h9 : ((1 / (u + x) + 1 / (u - x)) * |x| + (1 / (u + x) - 1 / (u - x)) * x) / t ≤ 1 / t := div_le_div_of_nonneg_right hmain ht.le
  have h10 : -((1 - c) * (p * x)) ≤ 6 * G * |x| := by
    have h11 : -((1 - c) * (p * x)) ≤ (1 - c) * (|p| * |x|) := by
      have := neg_abs_le (p * x)
      rw [abs_mul] at this
      nlinarith
    have h12 : (1 - c) * (|p| * |x|) ≤ 2 * G / lam * (3 * lam * |x|) := by
      refine mul_le_mul hc2 (mul_le_mul_of_nonneg_right (by linarith) (abs_nonneg _)) (by positivity) (by positivity)
    have e : 2 * G / lam * (3 * lam * |x|) = 6 * G * |x| := by field_simp; ring
    linarith
  have e : lam * |x| + c * (p * x) = (lam * |x| + p * x) - (1 - c) * (p * x) := by ring
  rw [e]
  linarith

/-- Where every entry of the gradient of the barrier function is at most `G`, the duality gap is at most `n/t` plus a multiple of `G`. -/
theorem gap_near (A : Vec n →ₗ[ℝ] Vec m) (At : Vec m →ₗ[ℝ] Vec n) (hadj : IsAdj A At) (y : Vec m) {lam t G M Z : ℝ} (hl : 0 < lam) (ht : 0 < t) {x u : Vec n}
    (h : Interior x u) (hG0 : 0 ≤ G) (hG : G ≤ lam) (hM : ∀ i, |x i| ≤ M) (hZ : ‖A x - y‖ ^ 2 ≤ Z)
    (hgx : ∀ i, |(gradPhi lam x u (At ((2 : ℝ) • (A x - y))) t).fst i| ≤ G) (hgu : ∀ i, |(gradPhi lam x u (At ((2 : ℝ) • (A x - y))) t).snd i| ≤ G) (calls : ℕ) :
    primalObj lam x (A x - y) - dualObj y (getNu At lam (A x - y) calls).1 ≤ n / t + G * (2 * Z / lam + 8 * n * M) := by
  obtain ⟨c, hc0, hc1, hnu, hcl⟩ := getNu_scale' At hl (A x - y) calls
  have egx : ∀ i, (gradPhi lam x u (At ((2 : ℝ) • (A x - y))) t).fst i = At ((2 : ℝ) • (A x - y)) i - (1 / (u i + x i) - 1 / (u i - x i)) / t := fun i => rfl
  have egu : ∀ i, (gradPhi lam x u (At ((2 : ℝ) • (A x - y))) t).snd i = lam * 1 - (1 / (u i + x i) + 1 / (u i - x i)) / t := fun i => rfl
  have hLpos : 0 < lam + 2 * G := by linarith
  have key : 1 - c ≤ 2 * G / lam := by
    have hinf : linf (At ((2 : ℝ) • (A x - y))) ≤ lam + 2 * G := by
      unfold linf
      rw [pi_norm_le_iff_of_nonneg hLpos.le]
      intro i
      have hgu' := hgu i
      have := (gap_entry (c := 1) (gx := (gradPhi lam x u (At ((2 : ℝ) • (A x - y))) t).fst i) (gu := (gradPhi lam x u (At ((2 : ℝ) • (A x - y))) t).snd i)
        hl ht (h i) (hgx i) (hgu i) hG (by rw [egu]; ring) le_rfl (by rw [sub_self]; positivity)).1
      rw [egx] at this
      rw [Real.norm_eq_abs]
      convert this using 2
      show At ((2 : ℝ) • (A x - y)) i = _
      ring
    have h1 := hcl _ hinf (by linarith)
    have h2 : 1 - lam / (lam + 2 * G) ≤ 2 * G / lam := by
      have e : 1 - lam / (lam + 2 * G) = 2 * G / (lam + 2 * G) := by field_simp; ring
      rw [e]
      exact div_le_div_of_nonneg_left (by positivity) hl (by linarith)
    linarith
  have hform : primalObj lam x (A x - y) - dualObj y (getNu At lam (A x - y) calls).1 =
      (1 - c) ^ 2 * ‖A x - y‖ ^ 2 + ∑ i, (lam * |x i| + c * (At ((2 : ℝ) • (A x - y)) i * x i)) := by
    have e1 : ∑ i, At ((2 : ℝ) • (A x - y)) i * x i = 2 * ⟪A x - y, A x⟫ := by
      rw [← Verif.Opt.inner_sum, real_inner_comm, ← hadj, inner_smul_right, real_inner_comm]
    have e2 : ⟪A x - y, y⟫ = ⟪A x - y, A x⟫ - ‖A x - y‖ ^ 2 := by
      rw [← real_inner_self_eq_norm_sq, ← inner_sub_right]; congr 1; abel
    rw [Finset.sum_add_distrib, ← Finset.mul_sum, ← Finset.mul_sum, e1, hnu, primalObj, dualObj, inner_smul_left, inner_smul_right, inner_smul_left, e2,
      real_inner_self_eq_norm_sq]
    simp only [conj_trivial]
    have : l1 x = ∑ i, |x i| := rfl
    rw [this]
    ring
  rw [hform]
  have h1 : (1 - c) ^ 2 * ‖A x - y‖ ^ 2 ≤ G * (2 * Z / lam) := by
    have h2 : (1 - c) ^ 2 ≤ 2 * G / lam := by nlinarith
    calc _ ≤ 2 * G / lam * Z := mul_le_mul h2 hZ (by positivity) (by positivity)
      _ = _ := by ring
  have h2 : ∑ i, (lam * |x i| + c * (At ((2 : ℝ) • (A x - y)) i * x i)) ≤ ∑ _i : Fin n, (1 / t + 8 * G * M) := by
    refine Finset.sum_le_sum fun i _ => ?_
    have h3 := (gap_entry (c := c) (gx := (gradPhi lam x u (At ((2 : ℝ) • (A x - y))) t).fst i) (gu := (gradPhi lam x u (At ((2 : ℝ) • (A x - y))) t).snd i)
        hl ht (h i) (hgx i) (hgu i) hG (by rw [egu]; ring) hc1 key).2
    rw [egx] at h3
    have e : (1 / (u i + x i) - 1 / (u i - x i)) / t + (At ((2 : ℝ) • (A x - y)) i - (1 / (u i + x i) - 1 / (u i - x i)) / t) = At ((2 : ℝ) • (A x - y)) i := by ring
    rw [e] at h3
    have h4 : 8 * G * |x i| ≤ 8 * G * M := mul_le_mul_of_nonneg_left (hM i) (by positivity)
    linarith
  rw [Finset.sum_const, Finset.card_univ, Fintype.card_fin, nsmul_eq_mul] at h2
  have e : (n : ℝ) * (1 / t + 8 * G * M) = n / t + G * (8 * n * M) := by ring
  rw [e] at h2
  nlinarith

end Verif.Cvx
