import Verif.Cvx.YallProps
import Verif.Cvx.LpDuality

set_option autoImplicit false
/-!
# C86: YALL1 with a sign constraint converges whenever the problem has a solution
-/
noncomputable section
namespace Verif.Cvx
open Verif.Loop Verif.Opt
open scoped RealInnerProductSpace Topology

variable {m n : ℕ}

theorem dual_le_weight {w : Vec n} (A : Vec n →ₗ[ℝ] Vec m) (At : Vec m →ₗ[ℝ] Vec n) (hadj : IsAdj A At) {y : Vec m}
    (h : ∀ x' : Vec n, (∀ i, 0 ≤ x' i) → ⟪y, A x'⟫ ≤ wl1 w x') (i : Fin n) : At y i ≤ w i := by
  have h1 := h (vec fun j => if j = i then 1 else 0) (fun j => by rw [vec_apply]; split <;> norm_num)
  rw [real_inner_comm, hadj, real_inner_comm, Verif.Opt.inner_sum, wl1] at h1
  have h2 : ∀ j : Fin n, |(if j = i then (1 : ℝ) else 0)| = if j = i then 1 else 0 := fun j => by split <;> norm_num
  simpa [h2] using h1

theorem closed_nonneg : IsClosed {x : Vec n | ∀ i, 0 ≤ x i} := by
  have : {x : Vec n | ∀ i, 0 ≤ x i} = ⋂ i, {x : Vec n | 0 ≤ x i} := by ext x; simp
  rw [this]
  exact isClosed_iInter fun i => isClosed_le continuous_const (by fun_prop)

/-- A nonnegative feasible point (strictly feasible for the residual bound) gives a solution certified by a dual vector. -/
theorem exists_certificate_sign (A : Vec n →ₗ[ℝ] Vec m) (At : Vec m →ₗ[ℝ] Vec n) (hadj : IsAdj A At) (b : Vec m)
    (w : Vec n) (hw : ∀ i, 0 < w i) (rho delta : ℝ) (hr : rho ≤ 0)
    (hbp : delta ≤ 0 → ∃ x : Vec n, (∀ i, 0 ≤ x i) ∧ A x = b)
    (hcon : 0 < delta → ∃ x : Vec n, (∀ i, 0 ≤ x i) ∧ ‖A x - b‖ < delta) :
    ∃ (xs : Vec n) (ys : Vec m), yallFeas (yallProblem rho delta) true A b xs ∧ (∀ i, At ys i ≤ w i) ∧
      yallObj (yallProblem rho delta) w A b xs = match yallProblem rho delta with
        | .bp => ⟪b, ys⟫
        | .l1l2 rho => ⟪b, ys⟫ - rho / 2 * ‖ys‖ ^ 2
        | .con delta => ⟪b, ys⟫ - delta * ‖ys‖ := by
  have hcA : Continuous A := A.continuous_of_finiteDimensional
  have hinner : ∀ (y : Vec m) (x : Vec n), ⟪y, A x⟫ = ⟪A x, y⟫ := fun y x => real_inner_comm _ _
  rcases lt_or_ge 0 delta with hd | hd
  · obtain ⟨x1, h1, h2⟩ := hcon hd
    have hform : yallProblem rho delta = .con delta := by rw [yallProblem, if_neg (not_lt.mpr hr), if_pos hd]
    obtain ⟨x, ⟨hx0, hx⟩, hmin⟩ := exists_min hw (wl1 w) (wl1_continuous _) (fun x => le_refl _)
      ({x : Vec n | ∀ i, 0 ≤ x i} ∩ {x | ‖A x - b‖ ≤ delta})
      (closed_nonneg.inter (isClosed_le (hcA.sub continuous_const).norm continuous_const)) x1 ⟨h1, h2.le⟩
    obtain ⟨y, hy1, hy2⟩ := exists_dual_con_nonneg hw A b delta x1 h1 h2 _ (fun x' a c => hmin x' ⟨a, c⟩)
    refine ⟨x, y, ?_, dual_le_weight A At hadj hy1, ?_⟩
    · rw [hform]; exact ⟨fun _ => hx0, hx⟩
    · rw [hform]
      show wl1 w x = ⟪b, y⟫ - delta * ‖y‖
      have hx : ‖A x - b‖ ≤ delta := hx
      have h3 := hy1 x hx0
      have h4 : ⟪b - A x, y⟫ ≤ delta * ‖y‖ :=
        (real_inner_le_norm _ _).trans (mul_le_mul_of_nonneg_right (by rwa [norm_sub_rev]) (norm_nonneg _))
      rw [inner_sub_left, ← hinner] at h4
      refine le_antisymm ?_ (by linarith)
      rcases (norm_nonneg y).eq_or_lt with h0 | h0
      · have hy0 : y = 0 := norm_eq_zero.mp h0.symm
        have := hy2 b (by rw [sub_self, norm_zero]; exact hd.le)
        rw [hy0, inner_zero_left] at this
        rw [hy0, inner_zero_right, norm_zero, mul_zero, sub_zero]
        exact this
      · have h6 := hy2 (b - (delta / ‖y‖) • y) (by
          rw [sub_sub_cancel_left, norm_neg, norm_smul, Real.norm_eq_abs, abs_of_pos (div_pos hd h0), div_mul_cancel₀ _ h0.ne'])
        rw [inner_sub_right, inner_smul_right, real_inner_self_eq_norm_sq] at h6
        have h8 : delta / ‖y‖ * ‖y‖ ^ 2 = delta * ‖y‖ := by field_simp
        rw [h8, real_inner_comm] at h6
        exact h6
  · obtain ⟨x1, h1, h2⟩ := hbp hd
    have hform : yallProblem rho delta = .bp := by rw [yallProblem, if_neg (not_lt.mpr hr), if_neg (not_lt.mpr hd)]
    obtain ⟨x, ⟨hx0, hx⟩, hmin⟩ := exists_min hw (wl1 w) (wl1_continuous _) (fun x => le_refl _)
      ({x : Vec n | ∀ i, 0 ≤ x i} ∩ {x | A x = b}) (closed_nonneg.inter (isClosed_eq hcA continuous_const)) x1 ⟨h1, h2⟩
    obtain ⟨y, hy1, hy2⟩ := exists_dual_bp_nonneg hw A b _ (fun x' a c => hmin x' ⟨a, c⟩)
    have hx : A x = b := hx
    refine ⟨x, y, ?_, dual_le_weight A At hadj hy1, ?_⟩
    · rw [hform]; exact ⟨fun _ => hx0, hx⟩
    · rw [hform]
      show wl1 w x = ⟪b, y⟫
      have h3 := hy1 x hx0
      rw [hx] at h3
      rw [real_inner_comm]
      exact le_antisymm hy2 h3

open Filter Topology in
/-- **C86.** With a sign constraint: the iterates converge to a solution from every starting point whenever the problem can be solved with nonnegative
entries: `A x = b` has a nonnegative solution (neither `rho` nor `delta` given), or some nonnegative point has a residual strictly below `delta`
(`delta` given), or always (`rho` given). -/
theorem c86_converges_sign (A : Vec n →ₗ[ℝ] Vec m) (At : Vec m →ₗ[ℝ] Vec n) (hadj : IsAdj A At) (hA : ∀ y, A (At y) = y) (b : Vec m) (hb : b ≠ 0)
    (weights : Option (Vec n)) (hw : ∀ i, 0 < yallWeights weights i) (rho delta tol : ℝ) (maxIters : ℕ) (x0 z0 : Vec n)
    (hbp : rho ≤ 0 → delta ≤ 0 → ∃ x : Vec n, (∀ i, 0 ≤ x i) ∧ A x = b)
    (hcon : rho ≤ 0 → 0 < delta → ∃ x : Vec n, (∀ i, 0 ≤ x i) ∧ ‖A x - b‖ < delta) :
    ∃ x, YallSol (yallProblem rho delta) true (yallWeights weights) A b x ∧
      Tendsto (fun k => linf b • ((yallIter A At (yallArgs b weights true rho delta 1 tol maxIters))^[k]
        (yallInit A At (yallArgs b weights true rho delta 1 tol maxIters) x0 z0)).x) atTop (𝓝 x) := by
  rcases lt_or_ge 0 rho with hr | hr
  · exact c86_converges A At hadj hA b hb weights hw true rho delta tol maxIters (fun _ => hr) x0 z0
  obtain ⟨xs, ys, h1, h2, h3⟩ := exists_certificate_sign A At hadj b _ hw rho delta hr (hbp hr) (hcon hr)
  exact c86_converges_nonneg A At hadj hA b hb weights hw rho delta tol maxIters x0 z0 xs ys h1 h2 h3

/-- The hypotheses are met: one row, `b = 1`, the nonnegative solution `x = 1`; with `delta = 1/2` its residual is strictly below `delta`. -/
example : (∃ x : Vec 1, (∀ i, 0 ≤ x i) ∧ unit1 x = v1 1) ∧ ∃ x : Vec 1, (∀ i, 0 ≤ x i) ∧ ‖unit1 x - v1 1‖ < 1 / 2 :=
  ⟨⟨v1 1, fun i => by norm_num [v1], unit1_apply _⟩, v1 1, fun i => by norm_num [v1], by rw [unit1_apply]; norm_num⟩

example := c86_converges_sign unit1 unit1 unit1_adj unit1_orth (v1 1) (v1_ne_zero one_ne_zero) none (fun i => one_pos) 0 (1 / 2) 5e-3 9999 0 0
  (fun _ _ => ⟨v1 1, fun i => by norm_num [v1], unit1_apply _⟩) (fun _ _ => ⟨v1 1, fun i => by norm_num [v1], by rw [unit1_apply]; norm_num⟩)

end Verif.Cvx
