import Verif.Cvx.L1lsConv

set_option autoImplicit false
/-!
# Convergence of the interior point solver: progress of one iteration (C139)
-/
noncomputable section
namespace Verif.Cvx
open Verif.Loop Verif.Opt
open Verif.Sls (counted)
open scoped RealInnerProductSpace

variable {m n : ℕ}

theorem inv_change {q a z ze : ℝ} (ha : 0 < a) (hq : 0 < q) (hqa : q ≤ 1 / a) (hz : |z| ≤ ze) (hze : ze ≤ 1 / 4) : |q / (1 + z) - q| ≤ 2 * ze / a := by
  have h1 := (abs_le.mp (hz.trans hze)).1
  have hp : 0 < 1 + z := by linarith
  have e : q / (1 + z) - q = -(q * z / (1 + z)) := by field_simp; ring
  have h0 : 0 ≤ ze := (abs_nonneg _).trans hz
  rw [e, abs_neg, abs_div, abs_of_pos hp, div_le_iff₀ hp, abs_mul, abs_of_pos hq]
  calc q * |z| ≤ 1 / a * ze := mul_le_mul hqa hz (abs_nonneg _) (by positivity)
    _ = 2 * ze / a * (1 / 2) := by ring
    _ ≤ 2 * ze / a * (1 + z) := mul_le_mul_of_nonneg_left (by linarith) (by positivity)

theorem grad_entry {P D e1 q1 q2 z1 z2 a ze s t t0 rho K : ℝ} (ha : 0 < a) (hq1 : 0 < q1) (hq2 : 0 < q2) (hq1a : q1 ≤ 1 / a) (hq2a : q2 ≤ 1 / a)
    (hz1 : |z1| ≤ ze) (hz2 : |z2| ≤ ze) (hze : ze ≤ 1 / 4) (hs0 : 0 ≤ s) (hs1 : s ≤ 1) (ht0 : 0 < t0) (ht : t0 ≤ t) (sg : ℝ) (hsg : |sg| = 1)
    (he : |e1| ≤ rho) (hee : e1 = D + (q1 * z1 + sg * (q2 * z2)) / t + (P - (q1 + sg * q2) / t)) (hD : |D| ≤ K) :
    |P + s * D - (q1 / (1 + s * z1) + sg * (q2 / (1 + s * z2))) / t| ≤ rho + K + 6 * ze / (t0 * a) := by
  have hze0 : 0 ≤ ze := (abs_nonneg _).trans hz1
  have htp : 0 < t := lt_of_lt_of_le ht0 ht
  have hsz1 : |s * z1| ≤ ze := by
    rw [abs_mul, abs_of_nonneg hs0]
    exact (mul_le_of_le_one_left (abs_nonneg _) hs1).trans hz1
  have hsz2 : |s * z2| ≤ ze := by
    rw [abs_mul, abs_of_nonneg hs0]
    exact (mul_le_of_le_one_left (abs_nonneg _) hs1).trans hz2
  have c1 := inv_change ha hq1 hq1a hsz1 hze
  have c2 := inv_change ha hq2 hq2a hsz2 hze
  have e : P + s * D - (q1 / (1 + s * z1) + sg * (q2 / (1 + s * z2))) / t =
      e1 - (1 - s) * D - ((q1 * z1 + sg * (q2 * z2)) + (q1 / (1 + s * z1) - q1) + sg * (q2 / (1 + s * z2) - q2)) / t := by
    rw [hee]; ring
  have b1 : |q1 * z1| ≤ ze / a := by
    rw [abs_mul, abs_of_pos hq1]
    calc q1 * |z1| ≤ 1 / a * ze := mul_le_mul hq1a hz1 (abs_nonneg _) (by positivity)
      _ = _ := by ring
  have b2 : |sg * (q2 * z2)| ≤ ze / a := by
    rw [abs_mul, hsg, one_mul, abs_mul, abs_of_pos hq2]
    calc q2 * |z2| ≤ 1 / a * ze := mul_le_mul hq2a hz2 (abs_nonneg _) (by positivity)
      _ = _ := by ring
  have b3 : |sg * (q2 / (1 + s * z2) - q2)| ≤ 2 * ze / a := by rw [abs_mul, hsg, one_mul]; exact c2
  have b4 : |(q1 * z1 + sg * (q2 * z2)) + (q1 / (1 + s * z1) - q1) + sg * (q2 / (1 + s * z2) - q2)| ≤ 6 * ze / a := by
    refine (abs_add_le _ _).trans ?_
    have h1 := abs_add_le (q1 * z1 + sg * (q2 * z2)) (q1 / (1 + s * z1) - q1)
    have h2 := abs_add_le (q1 * z1) (sg * (q2 * z2))
    have e : 6 * ze / a = ze / a + ze / a + 2 * ze / a + 2 * ze / a := by ring
    rw [e]; linarith
  have b5 : |((q1 * z1 + sg * (q2 * z2)) + (q1 / (1 + s * z1) - q1) + sg * (q2 / (1 + s * z2) - q2)) / t| ≤ 6 * ze / (t0 * a) := by
    rw [abs_div, abs_of_pos htp]
    calc _ ≤ 6 * ze / a / t := div_le_div_of_nonneg_right b4 htp.le
      _ ≤ 6 * ze / a / t0 := div_le_div_of_nonneg_left (by positivity) ht0 ht
      _ = _ := by rw [div_div, mul_comm a t0]
  have b6 : |(1 - s) * D| ≤ K := by
    rw [abs_mul, abs_of_nonneg (by linarith : 0 ≤ 1 - s)]
    exact (mul_le_of_le_one_left (abs_nonneg _) (by linarith)).trans hD
  rw [e]
  have h1 := abs_sub (e1 - (1 - s) * D) (((q1 * z1 + sg * (q2 * z2)) + (q1 / (1 + s * z1) - q1) + sg * (q2 / (1 + s * z2) - q2)) / t)
  have h2 := abs_sub e1 ((1 - s) * D)
  linarith

/-- The entries of the Hessian applied to a direction. -/
theorem hess_entries (A : Vec n →ₗ[ℝ] Vec m) (At : Vec m →ₗ[ℝ] Vec n) {x u : Vec n} (t : ℝ) (dx du : Vec n) (i : Fin n) :
    (hessian A At x u t (pv dx du)).fst i = At ((2 : ℝ) • A dx) i + (1 / (u i + x i) * zp x u dx du i + -1 * (1 / (u i - x i) * zm x u dx du i)) / t ∧
    (hessian A At x u t (pv dx du)).snd i = 0 + (1 / (u i + x i) * zp x u dx du i + 1 * (1 / (u i - x i) * zm x u dx du i)) / t := by
  have e1 : (hessian A At x u t (pv dx du)).fst i = At ((2 : ℝ) • A dx) i + d1 x u t i * dx i + d2 x u t i * du i := rfl
  have e2 : (hessian A At x u t (pv dx du)).snd i = d2 x u t i * dx i + d1 x u t i * du i := rfl
  rw [e1, e2]
  simp only [d1, d2, q1, q2, vec_apply, zp, zm]
  constructor <;> ring

/-- After a step along an accurate direction of small energy the gradient is small. -/
theorem grad_near (A : Vec n →ₗ[ℝ] Vec m) (At : Vec m →ₗ[ℝ] Vec n) (hadj : IsAdj A At) (y : Vec m) {lam t t0 T a L rho s : ℝ} {x u : Vec n} (h : Interior x u)
    (ha : 0 < a) (hap : ∀ i, a ≤ u i + x i) (ham : ∀ i, a ≤ u i - x i) (hL : ∀ v i, |At v i| ≤ L * ‖v‖) (hL0 : 0 ≤ L) (ht0 : 0 < t0) (ht : t0 ≤ t) (htT : t ≤ T) (hr : 0 ≤ rho)
    (hT : T * rho ^ 2 ≤ 1 / 16) (hs0 : 0 ≤ s) (hs1 : s ≤ 1) (dx du : Vec n) (hE : ⟪pv dx du, hessian A At x u t (pv dx du)⟫ ≤ rho ^ 2)
    (he : ∀ i, |(hessian A At x u t (pv dx du) + gradPhi lam x u (At ((2 : ℝ) • (A x - y))) t).fst i| ≤ rho ∧
      |(hessian A At x u t (pv dx du) + gradPhi lam x u (At ((2 : ℝ) • (A x - y))) t).snd i| ≤ rho) (i : Fin n) :
    |(gradPhi lam (x + s • dx) (u + s • du) (At ((2 : ℝ) • (A (x + s • dx) - y))) t).fst i| ≤ rho * (1 + 2 * L + 6 * Real.sqrt T / (t0 * a)) ∧
    |(gradPhi lam (x + s • dx) (u + s • du) (At ((2 : ℝ) • (A (x + s • dx) - y))) t).snd i| ≤ rho * (1 + 2 * L + 6 * Real.sqrt T / (t0 * a)) := by
  have htp : 0 < t := lt_of_lt_of_le ht0 ht
  have hTp : 0 < T := lt_of_lt_of_le htp htT
  obtain ⟨hz1, hz2⟩ := z_le A At hadj h htp dx du i
  have hE0 : t * ⟪pv dx du, hessian A At x u t (pv dx du)⟫ ≤ (Real.sqrt T * rho) ^ 2 := by
    rw [mul_pow, Real.sq_sqrt hTp.le]
    have : 0 ≤ rho ^ 2 := by positivity
    nlinarith
  have hze0 : 0 ≤ Real.sqrt T * rho := by positivity
  have hz1' : |zp x u dx du i| ≤ Real.sqrt T * rho := abs_le_of_sq_le_sq (hz1.trans hE0) hze0
  have hz2' : |zm x u dx du i| ≤ Real.sqrt T * rho := abs_le_of_sq_le_sq (hz2.trans hE0) hze0
  have hze : Real.sqrt T * rho ≤ 1 / 4 := by
    refine le_of_sq_le_sq ?_ (by norm_num)
    rw [mul_pow, Real.sq_sqrt hTp.le]; linarith
  have hq1 : 0 < 1 / (u i + x i) := one_div_pos.mpr (pos_add h i)
  have hq2 : 0 < 1 / (u i - x i) := one_div_pos.mpr (pos_sub h i)
  have hq1a : 1 / (u i + x i) ≤ 1 / a := one_div_le_one_div_of_le ha (hap i)
  have hq2a : 1 / (u i - x i) ≤ 1 / a := one_div_le_one_div_of_le ha (ham i)
  have hAd : ‖A dx‖ ≤ rho := by
    refine le_of_sq_le_sq ?_ hr
    rw [hess_quad A At hadj h] at hE
    have : 0 ≤ (∑ i, (zp x u dx du i ^ 2 + zm x u dx du i ^ 2)) / t := div_nonneg (Finset.sum_nonneg fun j _ => by positivity) htp.le
    have : 0 ≤ ‖A dx‖ ^ 2 := by positivity
    linarith
  have hD : |At ((2 : ℝ) • A dx) i| ≤ 2 * L * rho := by
    refine (hL _ i).trans ?_
    rw [norm_smul, Real.norm_eq_abs, abs_two]
    nlinarith [mul_le_mul_of_nonneg_left hAd hL0]
  obtain ⟨ex, eu⟩ := hess_entries A At (x := x) (u := u) t dx du i
  obtain ⟨he1, he2⟩ := he i
  have hx1 : 1 / ((u + s • du) i + (x + s • dx) i) = 1 / (u i + x i) / (1 + s * zp x u dx du i) := by rw [add_step h, div_div]
  have hx2 : 1 / ((u + s • du) i - (x + s • dx) i) = 1 / (u i - x i) / (1 + s * zm x u dx du i) := by rw [sub_step h, div_div]
  constructor
  · have e0 : (gradPhi lam (x + s • dx) (u + s • du) (At ((2 : ℝ) • (A (x + s • dx) - y))) t).fst i =
        At ((2 : ℝ) • (A x - y)) i + s * At ((2 : ℝ) • A dx) i -
          (1 / (u i + x i) / (1 + s * zp x u dx du i) + -1 * (1 / (u i - x i) / (1 + s * zm x u dx du i))) / t := by
      have e1 : (gradPhi lam (x + s • dx) (u + s • du) (At ((2 : ℝ) • (A (x + s • dx) - y))) t).fst i =
        At ((2 : ℝ) • (A (x + s • dx) - y)) i - (1 / ((u + s • du) i + (x + s • dx) i) - 1 / ((u + s • du) i - (x + s • dx) i)) / t := rfl
      have e2 : At ((2 : ℝ) • (A (x + s • dx) - y)) = At ((2 : ℝ) • (A x - y)) + s • At ((2 : ℝ) • A dx) := by
        rw [← map_smul At s, ← map_add At, map_add A, map_smul A]; congr 1; module
      rw [e1, hx1, hx2, e2]
      simp only [PiLp.add_apply, PiLp.smul_apply, smul_eq_mul]
      ring
    have e3 : (hessian A At x u t (pv dx du) + gradPhi lam x u (At ((2 : ℝ) • (A x - y))) t).fst i =
        At ((2 : ℝ) • A dx) i + (1 / (u i + x i) * zp x u dx du i + -1 * (1 / (u i - x i) * zm x u dx du i)) / t +
          (At ((2 : ℝ) • (A x - y)) i - (1 / (u i + x i) + -1 * (1 / (u i - x i))) / t) := by
      have e4 : (hessian A At x u t (pv dx du) + gradPhi lam x u (At ((2 : ℝ) • (A x - y))) t).fst i =
        (hessian A At x u t (pv dx du)).fst i + (At ((2 : ℝ) • (A x - y)) i - (1 / (u i + x i) - 1 / (u i - x i)) / t) := rfl
      rw [e4, ex]; ring
    rw [e0]
    refine (grad_entry ha hq1 hq2 hq1a hq2a hz1' hz2' hze hs0 hs1 ht0 ht (-1) (by norm_num) he1 e3 hD).trans (le_of_eq ?_)
    ring
  · have e0 : (gradPhi lam (x + s • dx) (u + s • du) (At ((2 : ℝ) • (A (x + s • dx) - y))) t).snd i =
        lam + s * 0 - (1 / (u i + x i) / (1 + s * zp x u dx du i) + 1 * (1 / (u i - x i) / (1 + s * zm x u dx du i))) / t := by
      have e1 : (gradPhi lam (x + s • dx) (u + s • du) (At ((2 : ℝ) • (A (x + s • dx) - y))) t).snd i =
        lam * 1 - (1 / ((u + s • du) i + (x + s • dx) i) + 1 / ((u + s • du) i - (x + s • dx) i)) / t := rfl
      rw [e1, hx1, hx2]
      ring
    have e3 : (hessian A At x u t (pv dx du) + gradPhi lam x u (At ((2 : ℝ) • (A x - y))) t).snd i =
        0 + (1 / (u i + x i) * zp x u dx du i + 1 * (1 / (u i - x i) * zm x u dx du i)) / t + (lam - (1 / (u i + x i) + 1 * (1 / (u i - x i))) / t) := by
      have e4 : (hessian A At x u t (pv dx du) + gradPhi lam x u (At ((2 : ℝ) • (A x - y))) t).snd i =
        (hessian A At x u t (pv dx du)).snd i + (lam * 1 - (1 / (u i + x i) + 1 / (u i - x i)) / t) := rfl
      rw [e4, eu]; ring
    rw [e0]
    refine (grad_entry ha hq1 hq2 hq1a hq2a hz1' hz2' hze hs0 hs1 ht0 ht 1 (by norm_num) he2 e3 (K := 2 * L * rho) (by rw [abs_zero]; positivity)).trans (le_of_eq ?_)
    ring

theorem pv_norm_sq (v : PVec n) : ‖v‖ ^ 2 = ∑ i, (v.fst i ^ 2 + v.snd i ^ 2) := by
  rw [← pv_eta v, ← real_inner_self_eq_norm_sq, pv_inner, Verif.Opt.inner_sum, Verif.Opt.inner_sum, ← Finset.sum_add_distrib]
  exact Finset.sum_congr rfl fun i _ => by simp only [pv_eta]; ring

theorem entry_le_norm (v : PVec n) (i : Fin n) : |v.fst i| ≤ ‖v‖ ∧ |v.snd i| ≤ ‖v‖ := by
  have h1 : v.fst i ^ 2 + v.snd i ^ 2 ≤ ‖v‖ ^ 2 := by
    rw [pv_norm_sq]
    exact Finset.single_le_sum (f := fun j => v.fst j ^ 2 + v.snd j ^ 2) (fun j _ => by positivity) (Finset.mem_univ i)
  constructor
  · exact abs_le_of_sq_le_sq (by nlinarith [sq_nonneg (v.snd i)]) (norm_nonneg _)
  · exact abs_le_of_sq_le_sq (by nlinarith [sq_nonneg (v.fst i)]) (norm_nonneg _)

/-- In the region of the iterates the energy norm is equivalent to the norm. -/
theorem energy_bounds (A : Vec n →ₗ[ℝ] Vec m) (At : Vec m →ₗ[ℝ] Vec n) (hadj : IsAdj A At) {t t0 T a L M : ℝ} {x u : Vec n} (h : Interior x u)
    (ha : 0 < a) (hap : ∀ i, a ≤ u i + x i) (ham : ∀ i, a ≤ u i - x i) (hM : ∀ i, u i ≤ M) (hL : ∀ v i, |At v i| ≤ L * ‖v‖) (hL0 : 0 ≤ L) (hn : 0 < n) (ht0 : 0 < t0) (ht : t0 ≤ t)
    (htT : t ≤ T) (dx du : Vec n) :
    0 ≤ ⟪pv dx du, hessian A At x u t (pv dx du)⟫ ∧
    ‖hessian A At x u t (pv dx du)‖ ≤ 2 * n * (2 * L + 2 * Real.sqrt T / (t0 * a)) * Real.sqrt ⟪pv dx du, hessian A At x u t (pv dx du)⟫ ∧
    ‖pv dx du‖ ≤ 2 * M * Real.sqrt T * Real.sqrt ⟪pv dx du, hessian A At x u t (pv dx du)⟫ := by
  have htp : 0 < t := lt_of_lt_of_le ht0 ht
  have hTp : 0 < T := lt_of_lt_of_le htp htT
  have hquad := hess_quad A At hadj h t dx du
  have hz := z_le A At hadj h htp dx du
  set E := ⟪pv dx du, hessian A At x u t (pv dx du)⟫ with hEd
  have hS0 : 0 ≤ (∑ i, (zp x u dx du i ^ 2 + zm x u dx du i ^ 2)) / t := div_nonneg (Finset.sum_nonneg fun j _ => by positivity) htp.le
  have hE0 : 0 ≤ E := by rw [hquad]; positivity
  have hEs : Real.sqrt E ^ 2 = E := Real.sq_sqrt hE0
  have hw : 0 ≤ Real.sqrt E := Real.sqrt_nonneg _
  have hTs : Real.sqrt T ^ 2 = T := Real.sq_sqrt hTp.le
  have hT0 : 0 ≤ Real.sqrt T := Real.sqrt_nonneg _
  have hAd : ‖A dx‖ ≤ Real.sqrt E := by
    refine le_of_sq_le_sq ?_ hw
    have : 0 ≤ ‖A dx‖ ^ 2 := by positivity
    linarith
  refine ⟨hE0, ?_, ?_⟩
  · set K := 2 * L + 2 * Real.sqrt T / (t0 * a) with hK
    have hK0 : 0 ≤ K := by positivity
    have hent : ∀ i, |(hessian A At x u t (pv dx du)).fst i| ≤ K * Real.sqrt E ∧ |(hessian A At x u t (pv dx du)).snd i| ≤ K * Real.sqrt E := by
      intro i
      obtain ⟨ex, eu⟩ := hess_entries A At (x := x) (u := u) t dx du i
      obtain ⟨h1, h2⟩ := hz i
      have hb : t * E ≤ (Real.sqrt T * Real.sqrt E) ^ 2 := by rw [mul_pow, hTs, hEs]; nlinarith
      have h1' : |zp x u dx du i| ≤ Real.sqrt T * Real.sqrt E := abs_le_of_sq_le_sq (h1.trans hb) (by positivity)
      have h2' : |zm x u dx du i| ≤ Real.sqrt T * Real.sqrt E := abs_le_of_sq_le_sq (h2.trans hb) (by positivity)
      have hq1 : 0 < 1 / (u i + x i) := one_div_pos.mpr (pos_add h i)
      have hq2 : 0 < 1 / (u i - x i) := one_div_pos.mpr (pos_sub h i)
      have b1 : |1 / (u i + x i) * zp x u dx du i| ≤ 1 / a * (Real.sqrt T * Real.sqrt E) := by
        rw [abs_mul, abs_of_pos hq1]
        exact mul_le_mul (one_div_le_one_div_of_le ha (hap i)) h1' (abs_nonneg _) (by positivity)
      have b2 : |1 / (u i - x i) * zm x u dx du i| ≤ 1 / a * (Real.sqrt T * Real.sqrt E) := by
        rw [abs_mul, abs_of_pos hq2]
        exact mul_le_mul (one_div_le_one_div_of_le ha (ham i)) h2' (abs_nonneg _) (by positivity)
      have hD : |At ((2 : ℝ) • A dx) i| ≤ 2 * L * Real.sqrt E := by
        refine (hL _ i).trans ?_
        rw [norm_smul, Real.norm_eq_abs, abs_two]
        nlinarith [mul_le_mul_of_nonneg_left hAd hL0]
      have hdiv : ∀ v : ℝ, |v| ≤ 2 * (1 / a * (Real.sqrt T * Real.sqrt E)) → |v / t| ≤ 2 * Real.sqrt T / (t0 * a) * Real.sqrt E := by
        intro v hv
        rw [abs_div, abs_of_pos htp]
        calc |v| / t ≤ 2 * (1 / a * (Real.sqrt T * Real.sqrt E)) / t := div_le_div_of_nonneg_right hv htp.le
          _ ≤ 2 * (1 / a * (Real.sqrt T * Real.sqrt E)) / t0 := div_le_div_of_nonneg_left (by positivity) ht0 ht
          _ = _ := by field_simp
      have hsum : K * Real.sqrt E = 2 * L * Real.sqrt E + 2 * Real.sqrt T / (t0 * a) * Real.sqrt E := by rw [hK]; ring
      rw [ex, eu, hsum]
      constructor
      · refine (abs_add_le _ _).trans (add_le_add hD (hdiv _ ?_))
        refine (abs_add_le _ _).trans ?_
        rw [abs_mul (-1), abs_neg, abs_one, one_mul]; linarith
      · refine (abs_add_le _ _).trans (add_le_add (by rw [abs_zero]; positivity) (hdiv _ ?_))
        refine (abs_add_le _ _).trans ?_
        rw [one_mul]; linarith
    refine le_of_sq_le_sq ?_ (by positivity)
    rw [pv_norm_sq]
    calc ∑ i, ((hessian A At x u t (pv dx du)).fst i ^ 2 + (hessian A At x u t (pv dx du)).snd i ^ 2) ≤ ∑ _i : Fin n, 2 * (K * Real.sqrt E) ^ 2 := by
          refine Finset.sum_le_sum fun i _ => ?_
          have h1 := pow_le_pow_left₀ (abs_nonneg _) (hent i).1 2
          have h2 := pow_le_pow_left₀ (abs_nonneg _) (hent i).2 2
          rw [sq_abs] at h1 h2
          linarith
      _ = 2 * n * (K * Real.sqrt E) ^ 2 := by rw [Finset.sum_const, Finset.card_univ, Fintype.card_fin, nsmul_eq_mul]; ring
      _ ≤ (2 * n * K * Real.sqrt E) ^ 2 := by
          have hn1 : (1 : ℝ) ≤ n := by exact_mod_cast hn
          have e : (2 * n * K * Real.sqrt E) ^ 2 = (2 * n) * ((2 * n) * (K * Real.sqrt E) ^ 2) := by ring
          rw [e]
          have : 0 ≤ (2 * n : ℝ) * (K * Real.sqrt E) ^ 2 := by positivity
          nlinarith
  · have hM0 : 0 ≤ M := by
      have := hM ⟨0, hn⟩
      exact ((abs_nonneg _).trans (h ⟨0, hn⟩).le).trans this
    refine le_of_sq_le_sq ?_ (by positivity)
    rw [pv_norm_sq, mul_pow, mul_pow, hTs, hEs]
    have hsum : ∑ i, ((pv dx du).fst i ^ 2 + (pv dx du).snd i ^ 2) ≤ ∑ i, 2 * M ^ 2 * (zp x u dx du i ^ 2 + zm x u dx du i ^ 2) := by
      refine Finset.sum_le_sum fun i _ => ?_
      show dx i ^ 2 + du i ^ 2 ≤ _
      have p1 := pos_add h i
      have p2 := pos_sub h i
      have e1 : du i + dx i = zp x u dx du i * (u i + x i) := by unfold zp; field_simp
      have e2 : du i - dx i = zm x u dx du i * (u i - x i) := by unfold zm; field_simp
      have hx := abs_lt.mp (h i)
      have hu := hM i
      have s1 : (u i + x i) ^ 2 ≤ (2 * M) ^ 2 := pow_le_pow_left₀ p1.le (by linarith) 2
      have s2 : (u i - x i) ^ 2 ≤ (2 * M) ^ 2 := pow_le_pow_left₀ p2.le (by linarith) 2
      have e3 : 2 * (dx i ^ 2 + du i ^ 2) = (zp x u dx du i) ^ 2 * (u i + x i) ^ 2 + (zm x u dx du i) ^ 2 * (u i - x i) ^ 2 := by
        rw [← mul_pow, ← mul_pow, ← e1, ← e2]; ring
      nlinarith [mul_le_mul_of_nonneg_left s1 (sq_nonneg (zp x u dx du i)), mul_le_mul_of_nonneg_left s2 (sq_nonneg (zm x u dx du i))]
    rw [← Finset.mul_sum] at hsum
    have hle : ∑ i, (zp x u dx du i ^ 2 + zm x u dx du i ^ 2) ≤ T * E := by
      have : (∑ i, (zp x u dx du i ^ 2 + zm x u dx du i ^ 2)) / t ≤ E := by rw [hquad]; linarith [sq_nonneg ‖A dx‖]
      rw [div_le_iff₀ htp] at this
      nlinarith
    have hM2 : 0 ≤ 2 * M ^ 2 := by positivity
    have : 0 ≤ M ^ 2 * T * E := by positivity
    nlinarith [mul_le_mul_of_nonneg_left hle hM2]

end Verif.Cvx
