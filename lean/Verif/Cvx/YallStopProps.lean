import Verif.Cvx.YallProps

set_option autoImplicit false
/-!
# What the stopping test of YALL1 says about the result (C116)
-/
noncomputable section
namespace Verif.Cvx
open Verif.Loop Verif.Opt
open Verif.Sls (counted)
open scoped RealInnerProductSpace

variable {m n : ℕ}

/-! ## Specification -/

/-- How far `x` is from satisfying the constraint: the residual is below `tol ‖b‖` for basis pursuit, at most `delta (1 + tol)` for the constrained problem, anything for the penalised one. -/
def nearlyFeasible (f : YallForm) (A : Vec n →ₗ[ℝ] Vec m) (b : Vec m) (tol : ℝ) (x : Vec n) : Prop :=
  match f with
  | .bp => ‖A x - b‖ < tol * ‖b‖
  | .l1l2 _ => True
  | .con delta => ‖A x - b‖ ≤ delta * (1 + tol)

/-! ## Lemmas -/

theorem not_ratioGt {a b c : ℝ} (ha : 0 ≤ a) (hb : 0 ≤ b) (h : ¬ ratioGt a b c) : a ≤ c * b := by
  unfold ratioGt at h
  push Not at h
  rcases hb.eq_or_lt with h0 | h0
  · rw [← h0, mul_zero]; exact h.2 h0.symm
  · exact (div_le_iff₀ h0).mp (h.1 h0.ne')

/-- Weak duality with a dual residual. -/
theorem dual_le_obj {f : YallForm} (hf : f.Pos) {nn : Bool} {w : Vec n} (A : Vec n →ₗ[ℝ] Vec m) (At : Vec m →ₗ[ℝ] Vec n) (hadj : IsAdj A At) {p : YallArgs m n} (hp : p.form = f) {y : Vec m} {z rd : Vec n}
    (hz : z ∈ dualBox nn w) (hrd : rd = z - At y) {x : Vec n} (hx : yallFeas f nn A p.b x) : yallDual p y ≤ yallObj f w A p.b x + ‖rd‖ * ‖x‖ := by
  have hAt : At y = z - rd := by rw [hrd]; abel
  have h1 : ⟪A x, y⟫ ≤ (∑ i, w i * |x i|) + ‖rd‖ * ‖x‖ := by
    rw [hadj x y, hAt, inner_sub_right]
    have e1 := inner_box_le hz (x := x) hx.1
    have e2 : -⟪x, rd⟫ ≤ ‖x‖ * ‖rd‖ := (neg_le_abs _).trans (abs_real_inner_le_norm x rd)
    linarith [mul_comm ‖x‖ ‖rd‖]
  have h2 : ⟪p.b, y⟫ = ⟪A x, y⟫ - ⟪A x - p.b, y⟫ := by rw [inner_sub_left]; ring
  have h3 : -⟪A x - p.b, y⟫ ≤ ‖A x - p.b‖ * ‖y‖ := (neg_le_abs _).trans (abs_real_inner_le_norm _ _)
  unfold yallDual
  cases f with
  | bp =>
    simp only [hp]
    have : A x = p.b := hx.2
    rw [← this]
    exact h1
  | l1l2 rho =>
    simp only [hp]
    have hr : 0 < rho := hf
    have : ‖A x - p.b‖ * ‖y‖ ≤ ‖A x - p.b‖ ^ 2 / (2 * rho) + 0.5 * rho * ‖y‖ ^ 2 := by
      have e : ‖A x - p.b‖ ^ 2 / (2 * rho) + 0.5 * rho * ‖y‖ ^ 2 - ‖A x - p.b‖ * ‖y‖ = (‖A x - p.b‖ - rho * ‖y‖) ^ 2 / (2 * rho) := by
        field_simp; ring
      have : 0 ≤ (‖A x - p.b‖ - rho * ‖y‖) ^ 2 / (2 * rho) := by positivity
      linarith
    show ⟪p.b, y⟫ - 0.5 * rho * ⟪y, y⟫ ≤ (∑ i, w i * |x i|) + ‖A x - p.b‖ ^ 2 / (2 * rho) + ‖rd‖ * ‖x‖
    rw [real_inner_self_eq_norm_sq]
    linarith
  | con delta =>
    simp only [hp]
    have h4 : ‖A x - p.b‖ ≤ delta := hx.2
    have := mul_le_mul_of_nonneg_right h4 (norm_nonneg y)
    show ⟪p.b, y⟫ - delta * ‖y‖ ≤ (∑ i, w i * |x i|) + ‖rd‖ * ‖x‖
    linarith

theorem yallPrimal_eq {p : YallArgs m n} (hw : ∀ i, 0 ≤ p.w i) (A : Vec n →ₗ[ℝ] Vec m) (x : Vec n) : yallPrimal p x (p.b - A x) = yallObj p.form p.w A p.b x := by
  have e : ∀ i, |p.w i * x i| = p.w i * |x i| := fun i => by rw [abs_mul, abs_of_nonneg (hw i)]
  unfold yallPrimal yallObj
  cases p.form with
  | bp => simp only [e]
  | con d => simp only [e]
  | l1l2 rho =>
    simp only [e]
    rw [real_inner_self_eq_norm_sq, norm_sub_rev]
    congr 1
    ring

theorem yallObj_nonneg {f : YallForm} (hf : f.Pos) {w : Vec n} (hw : ∀ i, 0 ≤ w i) (A : Vec n →ₗ[ℝ] Vec m) (b : Vec m) (x : Vec n) : 0 ≤ yallObj f w A b x := by
  have h1 : 0 ≤ ∑ i, w i * |x i| := Finset.sum_nonneg fun i _ => mul_nonneg (hw i) (abs_nonneg _)
  cases f with
  | bp => exact h1
  | con d => exact h1
  | l1l2 rho =>
    have : 0 < rho := hf
    exact add_nonneg h1 (by positivity)

theorem norm_le_of_box {w z : Vec n} (h : z ∈ dualBox false w) : ‖z‖ ≤ ‖w‖ := by
  rw [EuclideanSpace.norm_eq, EuclideanSpace.norm_eq]
  refine Real.sqrt_le_sqrt (Finset.sum_le_sum fun i _ => pow_le_pow_left₀ (norm_nonneg _) ?_ 2)
  rw [Real.norm_eq_abs, Real.norm_eq_abs]
  exact (abs_le.mpr ⟨(h i).2 rfl, (h i).1⟩).trans (le_abs_self _)

/-- The states of the loop carry a dual certificate. -/
theorem yall_certificate (A : Vec n →ₗ[ℝ] Vec m) (At : Vec m →ₗ[ℝ] Vec n) (p : YallArgs m n) (hw : ∀ i, 0 < p.w i) (x0 z0 : Vec n) (s : YallState m n)
    (h : YallReach A At p x0 z0 s) : s.primal = yallPrimal p s.x s.rp ∧ s.rp = p.b - A s.x ∧ (s.dual = 0 ∨ ∃ y, s.rd = s.z - At y ∧ s.dual = yallDual p y ∧ s.z ∈ dualBox p.nonneg p.w) := by
  refine h.inv (fun s => s.primal = yallPrimal p s.x s.rp ∧ s.rp = p.b - A s.x ∧ (s.dual = 0 ∨ ∃ y, s.rd = s.z - At y ∧ s.dual = yallDual p y ∧ s.z ∈ dualBox p.nonneg p.w)) ⟨rfl, rfl, Or.inl rfl⟩ fun s _ _ => ⟨rfl, rfl, Or.inr ⟨_, rfl, rfl, ?_⟩⟩
  exact iterate_inv hw _

/-- The test failed for another reason than the number of iterations or a small step. -/
theorem yall_stop_core (A : Vec n →ₗ[ℝ] Vec m) (At : Vec m →ₗ[ℝ] Vec n) (hadj : IsAdj A At) (p : YallArgs m n) (hf : p.form.Pos) (hw : ∀ i, 0 < p.w i) (ht : 0 ≤ p.tol) (ht1 : p.tol < 1)
    (x0 z0 : Vec n) (s : YallState m n) (h : YallOut A At p x0 z0 s) :
    p.maxIters ≤ s.iterations ∨ ‖s.x - s.xPrev‖ ≤ p.tol * ‖s.x‖ ∨
    (¬ gapInfeasible p s ∧ nearlyFeasible p.form A p.b p.tol s.x ∧ ∀ x', yallFeas p.form p.nonneg A p.b x' → (1 - p.tol) * yallObj p.form p.w A p.b s.x ≤ yallObj p.form p.w A p.b x' ∨ (s.z ∈ dualBox p.nonneg p.w ∧ (1 - p.tol) * yallObj p.form p.w A p.b s.x ≤ yallObj p.form p.w A p.b x' + p.tol * ‖s.z‖ * ‖x'‖)) := by
  have hw' : ∀ i, 0 ≤ p.w i := fun i => (hw i).le
  obtain ⟨h1, h2, h3⟩ := yall_certificate A At p hw x0 z0 s h.1
  rw [h2, yallPrimal_eq hw'] at h1
  have hcert : ¬ gapInfeasible p s → ¬ dInfeasible p s → ∀ x', yallFeas p.form p.nonneg A p.b x' → (1 - p.tol) * yallObj p.form p.w A p.b s.x ≤ yallObj p.form p.w A p.b x' ∨ (s.z ∈ dualBox p.nonneg p.w ∧ (1 - p.tol) * yallObj p.form p.w A p.b s.x ≤ yallObj p.form p.w A p.b x' + p.tol * ‖s.z‖ * ‖x'‖) := by
    intro hg hd x' hx'
    have g1 := not_ratioGt (abs_nonneg _) (by rw [h1]; exact yallObj_nonneg hf hw' _ _ _) hg
    rw [h1, abs_sub_comm] at g1
    have g2 := (le_abs_self _).trans g1
    rcases h3 with h3 | ⟨y, hrd, hdual, hz⟩
    · rw [h3] at g2
      have := yallObj_nonneg hf hw' A p.b x'
      exact Or.inl (by linarith)
    · have g3 := not_ratioGt (norm_nonneg _) (norm_nonneg _) hd
      have g5 := dual_le_obj hf A At hadj rfl hz hrd hx'
      have g6 := mul_le_mul_of_nonneg_right g3 (norm_nonneg x')
      rw [hdual] at g2
      exact Or.inr ⟨hz, by linarith⟩
  have hstag : ∀ c ≤ p.tol, ¬ ratioGt ‖s.x - s.xPrev‖ ‖s.x‖ c → ‖s.x - s.xPrev‖ ≤ p.tol * ‖s.x‖ := fun c hc hr =>
    (not_ratioGt (norm_nonneg _) (norm_nonneg _) hr).trans (mul_le_mul_of_nonneg_right hc (norm_nonneg _))
  have hq : p.tol * (1 - 0.1) ≤ p.tol := by nlinarith
  have hstop := h.2
  unfold yallCond at hstop
  cases hform : p.form with
  | bp =>
    simp only [hform] at hstop hcert
    by_cases hi : s.iterations < p.maxIters
    · by_cases hs : ratioGt ‖s.x - s.xPrev‖ ‖s.x‖ (p.tol * (1 - 0.1))
      · have : ¬ ((gapInfeasible p s ∨ dInfeasible p s) ∨ ‖s.rp‖ ≥ p.tol * ‖p.b‖) := fun hh => hstop ⟨hh, hi, hs⟩
        push Not at this
        refine Or.inr (Or.inr ⟨this.1.1, ?_, hcert this.1.1 this.1.2⟩)
        show ‖A s.x - p.b‖ < _
        rw [← norm_sub_rev, ← h2]; exact this.2
      · exact Or.inr (Or.inl (hstag _ hq hs))
    · exact Or.inl (not_lt.mp hi)
  | l1l2 rho =>
    simp only [hform] at hstop hcert
    by_cases hi : s.iterations < p.maxIters
    · by_cases hs : ratioGt ‖s.x - s.xPrev‖ ‖s.x‖ (p.tol * (1 - 0.1))
      · have : ¬ (gapInfeasible p s ∨ dInfeasible p s) := fun hh => hstop ⟨⟨hi, hs⟩, hh⟩
        push Not at this
        exact Or.inr (Or.inr ⟨this.1, trivial, hcert this.1 this.2⟩)
      · exact Or.inr (Or.inl (hstag _ hq hs))
    · exact Or.inl (not_lt.mp hi)
  | con delta =>
    simp only [hform] at hstop hcert
    by_cases hi : s.iterations < p.maxIters
    · by_cases hs : ratioGt ‖s.x - s.xPrev‖ ‖s.x‖ p.tol
      · have : ¬ ((gapInfeasible p s ∨ dInfeasible p s) ∨ ‖s.rp‖ > delta * (1 + p.tol)) := fun hh => hstop ⟨hh, hi, hs⟩
        push Not at this
        refine Or.inr (Or.inr ⟨this.1.1, ?_, hcert this.1.1 this.1.2⟩)
        show ‖A s.x - p.b‖ ≤ _
        rw [← norm_sub_rev, ← h2]; exact this.2
      · exact Or.inr (Or.inl (hstag _ (le_refl _) hs))
    · exact Or.inl (not_lt.mp hi)

theorem nearlyFeasible_scale (rho delta : ℝ) {c tol : ℝ} (hc : 0 < c) {A : Vec n →ₗ[ℝ] Vec m} {b : Vec m} {x : Vec n} (h : nearlyFeasible (yallSelect rho delta c) A (c⁻¹ • b) tol x) :
    nearlyFeasible (yallProblem rho delta) A b tol (c • x) := by
  have hres : ‖A (c • x) - b‖ = c * ‖A x - c⁻¹ • b‖ := by
    rw [scale_res hc, smul_smul, inv_mul_cancel₀ hc.ne', one_smul, norm_smul, Real.norm_eq_abs, abs_of_pos hc]
  rw [yallSelect_eq] at h
  cases hP : yallProblem rho delta with
  | l1l2 rho => trivial
  | con delta =>
    rw [hP] at h
    have h' : ‖A x - c⁻¹ • b‖ ≤ delta / c * (1 + tol) := h
    show ‖A (c • x) - b‖ ≤ delta * (1 + tol)
    rw [hres]
    calc _ ≤ c * (delta / c * (1 + tol)) := mul_le_mul_of_nonneg_left h' hc.le
      _ = _ := by field_simp
  | bp =>
    rw [hP] at h
    have h' : ‖A x - c⁻¹ • b‖ < tol * ‖c⁻¹ • b‖ := h
    show ‖A (c • x) - b‖ < tol * ‖b‖
    rw [hres]
    calc _ < c * (tol * ‖c⁻¹ • b‖) := mul_lt_mul_of_pos_left h' hc
      _ = _ := by rw [norm_smul, norm_inv, Real.norm_eq_abs, abs_of_pos hc]; field_simp

/-- The estimate in the units of the user. -/
theorem yall_scale_cert {rho delta c tol K : ℝ} (hc : 0 < c) {w : Vec n} {A : Vec n →ₗ[ℝ] Vec m} {b : Vec m} {x x' : Vec n}
    (h : (1 - tol) * yallObj (yallSelect rho delta c) w A (c⁻¹ • b) x ≤ yallObj (yallSelect rho delta c) w A (c⁻¹ • b) (c⁻¹ • x') + K * ‖c⁻¹ • x'‖) :
    (1 - tol) * yallObj (yallProblem rho delta) w A b (c • x) ≤ yallObj (yallProblem rho delta) w A b x' + K * ‖x'‖ := by
  have e1 := yallObj_scale rho delta hc (w := w) (A := A) (b := b) x'
  have e2 := yallObj_scale rho delta hc (w := w) (A := A) (b := b) (c • x)
  rw [smul_smul, inv_mul_cancel₀ hc.ne', one_smul] at e2
  rw [e1, e2, norm_smul, norm_inv, Real.norm_eq_abs, abs_of_pos hc] at h
  refine le_of_mul_le_mul_left ?_ (inv_pos.mpr hc)
  calc c⁻¹ * ((1 - tol) * yallObj (yallProblem rho delta) w A b (c • x)) = (1 - tol) * (c⁻¹ * yallObj (yallProblem rho delta) w A b (c • x)) := by ring
    _ ≤ _ := h
    _ = _ := by ring

/-- With the sign constraint the iterates are nonnegative from the first iteration on if `gamma = 1`, and from the start if `0 ≤ gamma ≤ 1` and the start is nonnegative. -/
theorem yall_nonneg (A : Vec n →ₗ[ℝ] Vec m) (At : Vec m →ₗ[ℝ] Vec n) (p : YallArgs m n) (hb : p.b ≠ 0) (hn : p.nonneg = true) (s : YallState m n) (i : Fin n)
    (hg : p.gamma = 1 ∨ (0 ≤ p.gamma ∧ p.gamma ≤ 1 ∧ 0 ≤ s.x i)) : 0 ≤ (yallIter A At p s).x i := by
  have hmu : 0 < yallMu p.b := yallMu_pos hb
  set a := At (yallShrink p.form (yallMu p.b) (A (s.z - (yallMu p.b)⁻¹ • s.x) + (yallMu p.b)⁻¹ • p.b)) with ha
  have e : (yallIter A At p s).x i = s.x i - (p.gamma * yallMu p.b) * (min (p.w i) (a i + (yallMu p.b)⁻¹ * s.x i) - a i) := by
    simp only [yallIter, counted, yallProj, hn, if_true, projectToUpper]
    rfl
  rw [e]
  have h1 := min_le_right (p.w i) (a i + (yallMu p.b)⁻¹ * s.x i)
  have h2 : yallMu p.b * (min (p.w i) (a i + (yallMu p.b)⁻¹ * s.x i) - a i) ≤ yallMu p.b * ((yallMu p.b)⁻¹ * s.x i) := mul_le_mul_of_nonneg_left (by linarith) hmu.le
  rw [← mul_assoc, mul_inv_cancel₀ hmu.ne', one_mul] at h2
  rcases hg with hg | ⟨h3, h4, h5⟩
  · rw [hg]; linarith
  · have h6 := mul_le_mul_of_nonneg_left h2 h3
    have h7 : 0 ≤ (1 - p.gamma) * s.x i := mul_nonneg (by linarith) h5
    rw [mul_assoc]
    linarith

/-- A state that passes the gap test before any iteration is the zero array. -/
theorem yall_init_zero {p : YallArgs m n} (hf : p.form.Pos) (hw : ∀ i, 0 < p.w i) (ht1 : p.tol < 1) (A : Vec n →ₗ[ℝ] Vec m) (At : Vec m →ₗ[ℝ] Vec n) (x0 z0 : Vec n)
    (h : ¬ gapInfeasible p (yallInit A At p x0 z0)) : x0 = 0 := by
  have hw' : ∀ i, 0 ≤ p.w i := fun i => (hw i).le
  have hpr : (yallInit A At p x0 z0).primal = yallObj p.form p.w A p.b x0 := yallPrimal_eq hw' A x0
  have hdu : (yallInit A At p x0 z0).dual = 0 := rfl
  have h0 := yallObj_nonneg hf hw' A p.b x0
  have g1 := not_ratioGt (abs_nonneg _) (by rw [hpr]; exact h0) h
  rw [hpr, hdu, abs_sub_comm, sub_zero, abs_of_nonneg h0] at g1
  have hz : yallObj p.form p.w A p.b x0 = 0 := by nlinarith
  have hs : ∑ i, p.w i * |x0 i| = 0 := by
    have hpos : 0 ≤ ∑ i, p.w i * |x0 i| := Finset.sum_nonneg fun i _ => mul_nonneg (hw' i) (abs_nonneg _)
    cases hform : p.form with
    | bp => rw [hform] at hz; exact hz
    | con d => rw [hform] at hz; exact hz
    | l1l2 rho =>
      rw [hform] at hz hf
      have hr : 0 < rho := hf
      have : 0 ≤ ‖A x0 - p.b‖ ^ 2 / (2 * rho) := by positivity
      have hz' : (∑ i, p.w i * |x0 i|) + ‖A x0 - p.b‖ ^ 2 / (2 * rho) = 0 := hz
      linarith
  rw [Finset.sum_eq_zero_iff_of_nonneg fun i _ => mul_nonneg (hw' i) (abs_nonneg _)] at hs
  ext i
  have := hs i (Finset.mem_univ i)
  exact abs_eq_zero.mp ((mul_eq_zero.mp this).resolve_left (hw i).ne')

/-! ## Properties -/

/-- **C116.** `solve` without the sign constraint ends for one of four reasons: the zero shortcut, the iteration limit, a relative change of `x` of at most `tolerance` between the last two iterations, or a certificate.
In the last case the result nearly satisfies the constraint, and its objective is at most that of any feasible `x'` up to the relative error `tolerance` and the term `tolerance ‖w‖ ‖x'‖`. All three problems, any operator with its adjoint, any start. -/
theorem c116_stop (A : Vec n →ₗ[ℝ] Vec m) (At : Vec m →ₗ[ℝ] Vec n) (hadj : IsAdj A At) (b : Vec m) (hb : b ≠ 0) (x0 z0 weights : Option (Vec n)) (hw : ∀ i, 0 < yallWeights weights i)
    (rho delta gamma tol : ℝ) (ht : 0 ≤ tol) (ht1 : tol < 1) (maxIters : ℕ) (res : YallResult m n) (h : YallSolve A At b x0 z0 weights false rho delta gamma tol maxIters res) :
    YallZero b (At b) rho delta ∨ maxIters ≤ res.iterations ∨
    (∃ s, YallOut A At (yallArgs b weights false rho delta gamma tol maxIters) (x0.getD ((linf b)⁻¹ • At b)) (z0.getD 0) s ∧ res.x = linf b • s.x ∧ ‖s.x - s.xPrev‖ ≤ tol * ‖s.x‖) ∨
    (nearlyFeasible (yallProblem rho delta) A b tol res.x ∧ ∀ x', yallFeas (yallProblem rho delta) false A b x' →
      (1 - tol) * yallObj (yallProblem rho delta) (yallWeights weights) A b res.x ≤ yallObj (yallProblem rho delta) (yallWeights weights) A b x' + tol * ‖yallWeights weights‖ * ‖x'‖) := by
  rcases h with ⟨h0, _⟩ | ⟨_, s, hs, rfl⟩
  · exact Or.inl h0
  have hB := linf_pos hb
  have hcore := yall_stop_core A At hadj (yallArgs b weights false rho delta gamma tol maxIters) (yallSelect_pos rho delta hB) hw ht ht1 _ _ s hs
  rcases hcore with h1 | h1 | ⟨_, h1, h2⟩
  · exact Or.inr (Or.inl h1)
  · exact Or.inr (Or.inr (Or.inl ⟨s, hs, rfl, h1⟩))
  · refine Or.inr (Or.inr (Or.inr ⟨nearlyFeasible_scale rho delta hB h1, fun x' hx' => yall_scale_cert hB ?_⟩))
    have hK : 0 ≤ tol * ‖yallWeights weights‖ * ‖(linf b)⁻¹ • x'‖ := by positivity
    rcases h2 _ ((yallFeas_scale rho delta hB x').mp hx') with h3 | ⟨hz, h3⟩
    · exact h3.trans (le_add_of_nonneg_right hK)
    · refine h3.trans (add_le_add_right (mul_le_mul_of_nonneg_right (mul_le_mul_of_nonneg_left (norm_le_of_box hz) ht) (norm_nonneg _)) _)

/-- **C116.** The same with the sign constraint, for the default `gamma = 1` and any start, and for `gamma` in `[0, 1]` and a nonnegative start: when `solve` ends with a certificate, the result is nonnegative, nearly satisfies the constraint, and its objective is at most that of any nonnegative
feasible `x'` up to the relative error `tolerance` and the term `tolerance ‖z‖ ‖x'‖`, where `z` is the final dual variable. -/
theorem c116_stop_nonneg_partial (A : Vec n →ₗ[ℝ] Vec m) (At : Vec m →ₗ[ℝ] Vec n) (hadj : IsAdj A At) (b : Vec m) (hb : b ≠ 0) (x0 z0 weights : Option (Vec n)) (hw : ∀ i, 0 < yallWeights weights i)
    (rho delta gamma tol : ℝ) (hg : gamma = 1 ∨ (0 ≤ gamma ∧ gamma ≤ 1 ∧ ∀ i, 0 ≤ (x0.getD ((linf b)⁻¹ • At b)) i)) (ht : 0 ≤ tol) (ht1 : tol < 1) (maxIters : ℕ) (res : YallResult m n)
    (h : YallSolve A At b x0 z0 weights true rho delta gamma tol maxIters res) :
    YallZero b (At b) rho delta ∨ maxIters ≤ res.iterations ∨
    ∃ s, YallOut A At (yallArgs b weights true rho delta gamma tol maxIters) (x0.getD ((linf b)⁻¹ • At b)) (z0.getD 0) s ∧ (∀ i, res.x i = linf b * max 0 (s.x i)) ∧ (‖s.x - s.xPrev‖ ≤ tol * ‖s.x‖ ∨
    ((∀ i, 0 ≤ res.x i) ∧ nearlyFeasible (yallProblem rho delta) A b tol res.x ∧ ∀ x', yallFeas (yallProblem rho delta) true A b x' →
      (1 - tol) * yallObj (yallProblem rho delta) (yallWeights weights) A b res.x ≤ yallObj (yallProblem rho delta) (yallWeights weights) A b x' + tol * ‖s.z‖ * ‖x'‖)) := by
  rcases h with ⟨h0, _⟩ | ⟨_, s, hs, rfl⟩
  · exact Or.inl h0
  have hB := linf_pos hb
  set p := yallArgs b weights true rho delta gamma tol maxIters with hp
  have hpb : p.b ≠ 0 := smul_ne_zero (inv_ne_zero hB.ne') hb
  have hcore := yall_stop_core A At hadj p (yallSelect_pos rho delta hB) hw ht ht1 _ _ s hs
  rcases hcore with h1 | h1 | ⟨hgap, h1, h2⟩
  · exact Or.inr (Or.inl h1)
  · exact Or.inr (Or.inr ⟨s, hs, fun i => rfl, Or.inl h1⟩)
  · have hpos : ∀ i, 0 ≤ s.x i := by
      rcases hg with hg | ⟨g0, g1, hx0⟩
      · have : s = yallInit A At p (x0.getD ((linf b)⁻¹ • At b)) (z0.getD 0) ∨ ∀ i, 0 ≤ s.x i :=
          hs.1.inv (fun s => s = yallInit A At p (x0.getD ((linf b)⁻¹ • At b)) (z0.getD 0) ∨ ∀ i, 0 ≤ s.x i) (Or.inl rfl)
            fun s _ _ => Or.inr fun i => yall_nonneg A At p hpb rfl _ i (Or.inl hg)
        rcases this with e | e
        · rw [e] at hgap ⊢
          have := yall_init_zero (yallSelect_pos rho delta hB) hw ht1 A At _ _ hgap
          intro i
          show 0 ≤ (x0.getD ((linf b)⁻¹ • At b)) i
          rw [this]; exact le_refl _
        · exact e
      · exact hs.1.inv (fun s => ∀ i, 0 ≤ s.x i) hx0 fun s hx _ i =>
          yall_nonneg A At p hpb rfl _ i (Or.inr ⟨g0, g1, yall_nonneg A At p hpb rfl _ i (Or.inr ⟨g0, g1, hx i⟩)⟩)
    have hclip : yallClip true s.x = s.x := by
      ext i; exact max_eq_right (hpos i)
    refine Or.inr (Or.inr ⟨s, hs, fun i => rfl, Or.inr ⟨fun i => ?_, ?_, fun x' hx' => ?_⟩⟩)
    · exact mul_nonneg hB.le (le_max_left _ _)
    · show nearlyFeasible _ A b tol (linf b • yallClip true s.x)
      rw [hclip]; exact nearlyFeasible_scale rho delta hB h1
    · show (1 - tol) * yallObj _ _ A b (linf b • yallClip true s.x) ≤ _
      rw [hclip]
      refine yall_scale_cert hB ?_
      have hK : 0 ≤ tol * ‖s.z‖ * ‖(linf b)⁻¹ • x'‖ := by positivity
      rcases h2 _ ((yallFeas_scale rho delta hB x').mp hx') with h3 | ⟨hz, h3⟩
      · exact h3.trans (le_add_of_nonneg_right hK)
      · exact h3

/-- The hypotheses of `c116_stop_nonneg_partial` are met. -/
example : ∃ res : YallResult 1 1, YallSolve unit1 unit1 (v1 1) none none none true 0 0 1 0.005 9999 res :=
  (c64_terminates (unit1 : Vec 1 →ₗ[ℝ] Vec 1) unit1 (v1 1) none none none true 0 0 1 0.005 9999).1

/-- **C116** the small change of `x` says nothing about accuracy: started at the zero array, `solve` always returns the zero array at once, whatever the problem, because `0 / 0` is not larger than the tolerance. -/
theorem c116_zero_start_fails (A : Vec n →ₗ[ℝ] Vec m) (At : Vec m →ₗ[ℝ] Vec n) (b : Vec m) (z0 weights : Option (Vec n)) (nonneg : Bool) (rho delta gamma tol : ℝ) (maxIters : ℕ) (res : YallResult m n)
    (h : YallSolve A At b (some 0) z0 weights nonneg rho delta gamma tol maxIters res) : res.x = 0 ∧ res.iterations = 0 := by
  rcases h with ⟨_, rfl⟩ | ⟨_, s, hs, rfl⟩
  · exact ⟨rfl, rfl⟩
  set p := yallArgs b weights nonneg rho delta gamma tol maxIters
  have hx0 : ((some (0 : Vec n)).getD ((linf b)⁻¹ • At b)) = 0 := rfl
  have hstop : ¬ yallCond p (yallInit A At p 0 (z0.getD 0)) := by
    have hr : ∀ c, ¬ ratioGt ‖(yallInit A At p 0 (z0.getD 0)).x - (yallInit A At p 0 (z0.getD 0)).xPrev‖ ‖(yallInit A At p 0 (z0.getD 0)).x‖ c := by
      intro c
      have : (yallInit A At p 0 (z0.getD 0)).x = 0 := rfl
      have h2 : (yallInit A At p 0 (z0.getD 0)).xPrev = 0 := rfl
      rw [this, h2, sub_zero, norm_zero]
      rintro (h | h)
      · exact h.1 rfl
      · exact lt_irrefl _ h.2
    unfold yallCond
    split
    · exact fun h => hr _ h.2.2
    · exact fun h => hr _ h.1.2
    · exact fun h => hr _ h.2.2
  have := Out.unique hs ⟨Reach.init, hstop⟩
  rw [this]
  refine ⟨?_, rfl⟩
  show linf b • yallClip nonneg 0 = 0
  have : yallClip nonneg (0 : Vec n) = 0 := by
    cases nonneg
    · rfl
    · ext i; exact max_self 0
  rw [this, smul_zero]

/-- **C116** a starting point is not scaled like the data: with `max_iters = 0` the result is the given starting point times the largest entry of `b`. -/
theorem c116_start_scale_fails (A : Vec n →ₗ[ℝ] Vec m) (At : Vec m →ₗ[ℝ] Vec n) (b : Vec m) (x0 : Vec n) (z0 weights : Option (Vec n)) (rho delta gamma tol : ℝ) (hz : ¬ YallZero b (At b) rho delta) (res : YallResult m n)
    (h : YallSolve A At b (some x0) z0 weights false rho delta gamma tol 0 res) : res.x = linf b • x0 := by
  rcases h with ⟨h0, _⟩ | ⟨_, s, hs, rfl⟩
  · exact absurd h0 hz
  have hstop : ¬ yallCond (yallArgs b weights false rho delta gamma tol 0) (yallInit A At (yallArgs b weights false rho delta gamma tol 0) x0 (z0.getD 0)) := by
    unfold yallCond
    split
    · exact fun h => Nat.not_lt_zero _ h.2.1
    · exact fun h => Nat.not_lt_zero _ h.1.1
    · exact fun h => Nat.not_lt_zero _ h.2.1
  rw [Out.unique hs ⟨Reach.init, hstop⟩]
  rfl

/-- A concrete run which ends at once at the zero array although the only feasible point is `b`. -/
example : ∃ res : YallResult 1 1, YallSolve unit1 unit1 (v1 2) (some 0) none none false 0 0 1 0.005 9999 res ∧ res.x = 0 ∧ unit1 res.x ≠ v1 2 := by
  obtain ⟨res, h⟩ := (c64_terminates (unit1 : Vec 1 →ₗ[ℝ] Vec 1) unit1 (v1 2) (some 0) none none false 0 0 1 0.005 9999).1
  have hx := (c116_zero_start_fails _ _ _ _ _ _ _ _ _ _ _ _ h).1
  exact ⟨res, h, hx, by rw [hx, map_zero]; exact fun h => v1_ne_zero two_ne_zero h.symm⟩

/-- The hypotheses of `c116_stop` are met. -/
example : IsAdj unit1 unit1 ∧ v1 1 ≠ 0 ∧ (∀ i, 0 < yallWeights (none : Option (Vec 1)) i) ∧ ∃ res : YallResult 1 1, YallSolve unit1 unit1 (v1 1) none none none false 0 0 1 0.005 9999 res :=
  ⟨unit1_adj, v1_ne_zero one_ne_zero, fun i => by show (0 : ℝ) < 1; norm_num, (c64_terminates (unit1 : Vec 1 →ₗ[ℝ] Vec 1) unit1 (v1 1) none none none false 0 0 1 0.005 9999).1⟩

example (res : YallResult 1 1) (h : YallSolve unit1 unit1 (v1 1) none none none false 0 0 1 0.005 9999 res) :=
  c116_stop unit1 unit1 unit1_adj (v1 1) (v1_ne_zero one_ne_zero) none none none (fun i => one_pos) 0 0 1 0.005 (by norm_num) (by norm_num) 9999 res h

example (res : YallResult 1 1) (h : YallSolve unit1 unit1 (v1 1) none none none true 0 0 1 0.005 9999 res) :=
  c116_stop_nonneg_partial unit1 unit1 unit1_adj (v1 1) (v1_ne_zero one_ne_zero) none none none (fun i => one_pos) 0 0 1 0.005 (.inl rfl) (by norm_num) (by norm_num) 9999 res h

example : ∃ res : YallResult 1 1, YallSolve unit1 unit1 (v1 2) (some (v1 3)) none none false 0 0 1 0.005 0 res ∧ res.x = v1 6 := by
  obtain ⟨res, h⟩ := (c64_terminates (unit1 : Vec 1 →ₗ[ℝ] Vec 1) unit1 (v1 2) (some (v1 3)) none none false 0 0 1 0.005 0).1
  have hx := c116_start_scale_fails unit1 unit1 (v1 2) (v1 3) none none 0 0 1 0.005 (fun hz => by
    unfold YallZero at hz
    norm_num at hz) res h
  exact ⟨res, h, by rw [hx, v1_linf, v1_smul]; norm_num⟩

end Verif.Cvx
