import Verif.Cvx.YallExist
import Verif.Cvx.L1lsProps

set_option autoImplicit false
/-!
# YALL1 (C64, C85, C86)

`A` is a real linear operator and `At` its adjoint. The problems are specified by `yallFeas`, `yallObj` and `YallSol`: minimise `Σ w_i |x_i|` subject to
`A x = b`, or subject to `|A x - b| ≤ delta`, or with the penalty `|A x - b|² / (2 rho)`; with `nonneg` over nonnegative `x` only.
-/
noncomputable section
namespace Verif.Cvx
open Verif.Loop Verif.Opt
open scoped RealInnerProductSpace

variable {m n : ℕ}

/-- Specification: the problem selected by the arguments `rho` and `delta` of `solve`. -/
def yallProblem (rho delta : ℝ) : YallForm := if 0 < rho then .l1l2 rho else if 0 < delta then .con delta else .bp

theorem linf_pos {b : Vec m} (hb : b ≠ 0) : 0 < linf b := by
  rw [linf, norm_pos_iff]
  intro h
  exact hb (by ext i; exact congrFun h i)

theorem yallInit_rp (A : Vec n →ₗ[ℝ] Vec m) (At : Vec m →ₗ[ℝ] Vec n) (p : YallArgs m n) (x0 z0 : Vec n) :
    (yallInit A At p x0 z0).rp = p.b - A (yallInit A At p x0 z0).x := rfl

theorem yall_rp (A : Vec n →ₗ[ℝ] Vec m) (At : Vec m →ₗ[ℝ] Vec n) (p : YallArgs m n) (x0 z0 : Vec n) (s : YallState m n)
    (h : YallReach A At p x0 z0 s) : s.rp = p.b - A s.x := h.inv (fun s => s.rp = p.b - A s.x) rfl fun _ _ _ => rfl

/-- **C64.** Without sign constraints the residual returned is `b - A x` for the returned `x`, in all three forms and whatever ends the loop. With sign
constraints it is the residual of the iterate before clipping (see `c64_residual_fails`). -/
theorem c64_residual_partial (A : Vec n →ₗ[ℝ] Vec m) (At : Vec m →ₗ[ℝ] Vec n) (b : Vec m) (hb : b ≠ 0) (x0 z0 weights : Option (Vec n))
    (nonneg : Bool) (rho delta gamma tol : ℝ) (maxIters : ℕ) (res : YallResult m n)
    (h : YallSolve A At b x0 z0 weights nonneg rho delta gamma tol maxIters res) :
    (nonneg = false → res.r = b - A res.x) ∧ (nonneg = true → ∃ x : Vec n, res.r = b - A x ∧ ∀ i, res.x i = max 0 (x i)) := by
  rcases h with ⟨_, rfl⟩ | ⟨_, s, hs, rfl⟩
  · refine ⟨fun _ => ?_, fun _ => ⟨0, ?_, fun i => ?_⟩⟩
    · show b = b - A 0; rw [map_zero, sub_zero]
    · show b = b - A 0; rw [map_zero, sub_zero]
    · show (0 : ℝ) = max 0 0; simp
  have hB := linf_pos hb
  have hr : linf b • s.rp = b - A (linf b • s.x) := by
    rw [yall_rp A At _ _ _ s hs.1, map_smul, smul_sub]
    show linf b • (linf b)⁻¹ • b - _ = _
    rw [smul_smul, mul_inv_cancel₀ hB.ne', one_smul]
  refine ⟨fun hn => ?_, fun hn => ⟨linf b • s.x, hr, fun i => ?_⟩⟩
  · subst hn; exact hr
  · subst hn
    show linf b * max 0 (s.x i) = max 0 (linf b * s.x i)
    rw [mul_max_of_nonneg _ _ hB.le, mul_zero]

/-- **C64.** The same with a sparsifying basis: the returned `x` is in signal space. -/
theorem c64_residual_basis (A : Vec n →ₗ[ℝ] Vec m) (At : Vec m →ₗ[ℝ] Vec n) (W Wt : Vec n →ₗ[ℝ] Vec n) (b : Vec m) (hb : b ≠ 0)
    (x0 z0 weights : Option (Vec n)) (rho delta gamma tol : ℝ) (maxIters : ℕ) (res : YallResult m n)
    (h : YallSolveW A At W Wt b x0 z0 weights false rho delta gamma tol maxIters res) : res.r = b - A res.x := by
  obtain ⟨core, hc, rfl⟩ := h
  exact (c64_residual_partial (A ∘ₗ W) (Wt ∘ₗ At) b hb x0 z0 weights false rho delta gamma tol maxIters core hc).1 rfl

theorem iterate_inv {A : Vec n →ₗ[ℝ] Vec m} {At : Vec m →ₗ[ℝ] Vec n} {p : YallArgs m n} (hw : ∀ i, 0 < p.w i) (s : YallState m n) :
    (yallIter A At p s).z ∈ dualBox p.nonneg p.w := by
  rw [yallIter_z]
  exact (proj_normal (nonneg := p.nonneg) hw _).1

/-- **C64.** After the first iteration the dual variable stays in the box given by the weights; with sign constraints it stays below the weights. -/
theorem c64_box (A : Vec n →ₗ[ℝ] Vec m) (At : Vec m →ₗ[ℝ] Vec n) (p : YallArgs m n) (hw : ∀ i, 0 < p.w i) (x0 z0 : Vec n) (s : YallState m n)
    (h : YallReach A At p x0 z0 s) (hi : 0 < s.iterations) : ∀ i, s.z i ≤ p.w i ∧ (p.nonneg = false → |s.z i| ≤ p.w i) := by
  have : s.iterations = 0 ∨ s.z ∈ dualBox p.nonneg p.w := h.inv (fun s => s.iterations = 0 ∨ s.z ∈ dualBox p.nonneg p.w) (Or.inl rfl)
    fun s _ _ => Or.inr (iterate_inv hw _)
  rcases this with h | h
  · omega
  · exact fun i => ⟨(h i).1, fun hn => abs_le.mpr ⟨(h i).2 hn, (h i).1⟩⟩

/-- **C64.** The reported counts of operator applications are the calls really made. -/
theorem c64_counters (A : Vec n →ₗ[ℝ] Vec m) (At : Vec m →ₗ[ℝ] Vec n) (b : Vec m) (x0 z0 weights : Option (Vec n)) (nonneg : Bool)
    (rho delta gamma tol : ℝ) (maxIters : ℕ) (res : YallResult m n) (h : YallSolve A At b x0 z0 weights nonneg rho delta gamma tol maxIters res) :
    res.nTimes = res.timesCalls ∧ res.nTrans = res.transCalls := by
  rcases h with ⟨_, rfl⟩ | ⟨_, s, hs, rfl⟩
  · exact ⟨rfl, rfl⟩
  have := hs.1.inv (fun s => s.nTimes = s.timesCalls ∧ s.nTrans = s.transCalls) ⟨rfl, rfl⟩ fun s hs _ => by
    constructor
    · show s.nTimes + 1 + 1 + 1 + 1 = s.timesCalls + 1 + 1 + 1 + 1; rw [hs.1]
    · show s.nTrans + 1 + 1 = s.transCalls + 1 + 1; rw [hs.2]
  refine ⟨this.1, ?_⟩
  show s.nTrans + 1 = 0 + 1 + s.transCalls
  rw [this.2]; omega

/-- **C64.** `solve` returns, after at most `max_iters + 1` iterations (iterations are done in pairs). -/
theorem c64_terminates (A : Vec n →ₗ[ℝ] Vec m) (At : Vec m →ₗ[ℝ] Vec n) (b : Vec m) (x0 z0 weights : Option (Vec n)) (nonneg : Bool)
    (rho delta gamma tol : ℝ) (maxIters : ℕ) :
    (∃ res, YallSolve A At b x0 z0 weights nonneg rho delta gamma tol maxIters res) ∧
    ∀ res, YallSolve A At b x0 z0 weights nonneg rho delta gamma tol maxIters res → res.iterations ≤ maxIters + 1 := by
  have hcap : ∀ (p : YallArgs m n) (s : YallState m n), yallCond p s → s.iterations < p.maxIters := by
    intro p s h
    unfold yallCond at h
    split at h
    · exact h.2.1
    · exact h.1.1
    · exact h.2.1
  constructor
  · by_cases hz : YallZero b (At b) rho delta
    · exact ⟨_, Or.inl ⟨hz, rfl⟩⟩
    · obtain ⟨s, hs⟩ := exists_out (c := yallCond (yallArgs b weights nonneg rho delta gamma tol maxIters))
        (f := yallBody A At (yallArgs b weights nonneg rho delta gamma tol maxIters))
        (s0 := yallInit A At (yallArgs b weights nonneg rho delta gamma tol maxIters) (x0.getD ((linf b)⁻¹ • At b)) (z0.getD 0))
        (fun s => s.iterations) maxIters (fun s h => hcap _ s h)
        (fun s => by show s.iterations < s.iterations + 1 + 1; omega)
      exact ⟨_, Or.inr ⟨hz, s, hs, rfl⟩⟩
  · rintro res (⟨_, rfl⟩ | ⟨_, s, hs, rfl⟩)
    · exact Nat.zero_le _
    · show s.iterations ≤ maxIters + 1
      refine hs.1.inv (fun s => s.iterations ≤ maxIters + 1) (Nat.zero_le _) fun s _ hc => ?_
      have : s.iterations < maxIters := hcap _ s hc
      show s.iterations + 1 + 1 ≤ maxIters + 1
      omega

/-- **C64.** `bp_setup` followed by `solve_bp` and `finalize` is `solve` with neither `rho` nor `delta`. -/
theorem c64_bp_setup (A : Vec n →ₗ[ℝ] Vec m) (At : Vec m →ₗ[ℝ] Vec n) (b : Vec m) (nonneg : Bool) (gamma tol : ℝ) (maxIters : ℕ) (res : YallResult m n) :
    YallBp A At b nonneg gamma tol maxIters res ↔ YallSolve A At b none none none nonneg 0 0 gamma tol maxIters res := by
  have hz : ∀ v : Vec n, ¬ YallZero b v 0 0 := fun v => by simp [YallZero]
  have hs : yallSelect 0 0 (linf b) = .bp := by simp [yallSelect]
  have ha : yallArgs (n := n) b none nonneg 0 0 gamma tol maxIters =
      { form := .bp, b := (linf b)⁻¹ • b, w := vec fun _ => 1, nonneg := nonneg, gamma := gamma, tol := tol, maxIters := maxIters } := by
    rw [yallArgs, hs]; rfl
  constructor
  · rintro ⟨s, hs, rfl⟩
    exact Or.inr ⟨hz _, s, by rw [ha]; exact hs, rfl⟩
  · rintro (⟨h, _⟩ | ⟨_, s, hs, rfl⟩)
    · exact absurd h (hz _)
    · rw [ha] at hs
      exact ⟨s, hs, rfl⟩

/-! ## The zero shortcut -/

theorem inner_le_iff_linf {g : Vec n} {c : ℝ} (hc : 0 ≤ c) (h : ∀ i, |g i| ≤ c) : linf g ≤ c := by
  rw [linf, pi_norm_le_iff_of_nonneg hc]
  intro i
  rw [Real.norm_eq_abs]
  exact h i

/-- Zero solves the penalised problem with unit weights exactly when no entry of `Aᵀ b` exceeds `rho`. -/
theorem zero_l1l2 (A : Vec n →ₗ[ℝ] Vec m) (At : Vec m →ₗ[ℝ] Vec n) (hadj : IsAdj A At) (b : Vec m) (rho : ℝ) (hr : 0 < rho) :
    YallSol (.l1l2 rho) false (vec fun _ => 1) A b 0 ↔ linf (At b) ≤ rho := by
  have obj0 : yallObj (.l1l2 rho) (vec fun _ => 1) A b 0 = ‖b‖ ^ 2 / (2 * rho) := by
    simp [yallObj]
  have obj : ∀ x, yallObj (.l1l2 rho) (vec fun _ => 1) A b x = l1 x + (‖A x‖ ^ 2 - 2 * ⟪x, At b⟫ + ‖b‖ ^ 2) / (2 * rho) := by
    intro x
    show (∑ i, 1 * |x i|) + ‖A x - b‖ ^ 2 / (2 * rho) = _
    rw [norm_sub_sq_real, hadj, l1]
    simp
  constructor
  · intro h
    refine inner_le_iff_linf hr.le fun i => ?_
    -- test with a small multiple of a unit vector
    have key : ∀ t : ℝ, 0 < t → ∀ σ : ℝ, |σ| = 1 → σ * (At b) i ≤ rho + t * (‖A (vec fun j => if j = i then σ else 0)‖ ^ 2 / 2) := by
      intro t ht σ hσ
      set e : Vec n := vec fun j => if j = i then σ else 0 with he
      have h1 := h.2 (t • e) ⟨fun h => absurd h (by simp), trivial⟩
      rw [obj0, obj, l1_smul, abs_of_pos ht, map_smul, norm_smul, Real.norm_eq_abs, abs_of_pos ht, real_inner_smul_left] at h1
      have e1 : l1 e = 1 := by
        rw [l1, Finset.sum_eq_single i]
        · simp [he, hσ]
        · intro j _ hj; simp [he, hj]
        · intro h; exact absurd (Finset.mem_univ i) h
      have e2 : ⟪e, At b⟫ = σ * (At b) i := by rw [Verif.Opt.inner_sum]; simp [he]
      rw [e1, e2] at h1
      have e3 : t * 1 + ((t * ‖A e‖) ^ 2 - 2 * (t * (σ * (At b) i)) + ‖b‖ ^ 2) / (2 * rho) =
        ‖b‖ ^ 2 / (2 * rho) + t / rho * (rho + t * (‖A e‖ ^ 2 / 2) - σ * (At b) i) := by field_simp; ring
      rw [e3] at h1
      have h2 : 0 ≤ t / rho * (rho + t * (‖A e‖ ^ 2 / 2) - σ * (At b) i) := by linarith
      have := nonneg_of_mul_nonneg_right h2 (by positivity)
      linarith
    have lim : ∀ σ : ℝ, |σ| = 1 → σ * (At b) i ≤ rho := by
      intro σ hσ
      refine le_of_forall_pos_le_add fun ε hε => ?_
      set K := ‖A (vec fun j => if j = i then σ else 0)‖ ^ 2 / 2 with hK
      have hKn : 0 ≤ K := by positivity
      have h1 := key (ε / (K + 1)) (by positivity) σ hσ
      rw [← hK] at h1
      have : ε / (K + 1) * K ≤ ε := by rw [div_mul_eq_mul_div, div_le_iff₀ (by positivity)]; nlinarith
      linarith
    rw [abs_le]
    have h1 := lim 1 (by simp)
    have h2 := lim (-1) (by simp)
    constructor <;> linarith
  · intro h
    refine ⟨⟨fun h => absurd h (by simp), trivial⟩, fun x _ => ?_⟩
    rw [obj0, obj]
    have h1 : ⟪x, At b⟫ ≤ rho * l1 x := by
      rw [real_inner_comm]
      exact (le_abs_self _).trans ((inner_le_linf _ _).trans (mul_le_mul_of_nonneg_right h (Finset.sum_nonneg fun i _ => abs_nonneg _)))
    have e : l1 x + (‖A x‖ ^ 2 - 2 * ⟪x, At b⟫ + ‖b‖ ^ 2) / (2 * rho) = ‖b‖ ^ 2 / (2 * rho) + (‖A x‖ ^ 2 / (2 * rho) + (rho * l1 x - ⟪x, At b⟫) / rho) := by
      field_simp; ring
    rw [e]
    have h2 : 0 ≤ ‖A x‖ ^ 2 / (2 * rho) + (rho * l1 x - ⟪x, At b⟫) / rho := add_nonneg (by positivity) (div_nonneg (by linarith) hr.le)
    linarith

/-- **C64.** Penalised problem, unit weights, no sign constraint, `delta` unset, default start: `solve` returns zero without iterating exactly when zero
is a solution. With other weights this fails (`c64_zero_weights_fails`). -/
theorem c64_zero_partial (A : Vec n →ₗ[ℝ] Vec m) (At : Vec m →ₗ[ℝ] Vec n) (hadj : IsAdj A At) (b : Vec m) (hb : b ≠ 0) (rho delta : ℝ) (hr : 0 < rho)
    (hd : delta ≤ 0) (z0 : Option (Vec n)) (gamma tol : ℝ) (maxIters : ℕ) (res : YallResult m n)
    (h : YallSolve A At b none z0 none false rho delta gamma tol maxIters res) :
    (res.iterations = 0 ∧ res.x = 0) ↔ YallSol (.l1l2 rho) false (vec fun _ => 1) A b 0 := by
  rw [zero_l1l2 A At hadj b rho hr]
  have hz : YallZero b (At b) rho delta ↔ linf (At b) ≤ rho := by
    rw [YallZero, if_neg (not_lt.mpr hd), if_pos hr]
  rcases h with ⟨h1, rfl⟩ | ⟨h1, s, hs, rfl⟩
  · exact ⟨fun _ => hz.mp h1, fun _ => ⟨rfl, rfl⟩⟩
  · refine ⟨fun h => ?_, fun h => absurd (hz.mpr h) h1⟩
    exfalso
    obtain ⟨hi, hx⟩ := h
    have h0 : s.iterations = 0 → s.x = (linf b)⁻¹ • At b :=
      hs.1.inv (fun s => s.iterations = 0 → s.x = (linf b)⁻¹ • At b) (fun _ => rfl) fun s _ _ h =>
        absurd (show s.iterations + 1 + 1 = 0 from h) (by omega)
    have hx : linf b • s.x = 0 := hx
    rw [h0 hi, smul_smul, mul_inv_cancel₀ (linf_pos hb).ne', one_smul] at hx
    refine h1 (hz.mpr ?_)
    rw [hx]
    simpa [linf] using hr.le

/-- **C64.** Constrained problem (any positive weights), `rho` unset, default start, the problem being feasible: `solve` returns zero without iterating
exactly when zero is a solution. -/
theorem c64_zero_con (A : Vec n →ₗ[ℝ] Vec m) (At : Vec m →ₗ[ℝ] Vec n) (hadj : IsAdj A At) (b : Vec m) (hb : b ≠ 0) (weights : Option (Vec n))
    (hw : ∀ v, weights = some v → ∀ i, 0 < v i) (rho delta : ℝ) (hr : rho ≤ 0) (hd : 0 < delta)
    (hfeas : ∃ x, yallFeas (.con delta) false A b x) (z0 : Option (Vec n)) (gamma tol : ℝ) (maxIters : ℕ) (res : YallResult m n)
    (h : YallSolve A At b none z0 weights false rho delta gamma tol maxIters res) :
    (res.iterations = 0 ∧ res.x = 0) ↔ YallSol (.con delta) false (yallWeights weights) A b 0 := by
  have hw' : ∀ i, 0 < yallWeights weights i := by
    intro i
    cases weights with
    | none => exact one_pos
    | some v => show 0 < 1 * v i; rw [one_mul]; exact hw v rfl i
  have hsol : YallSol (.con delta) false (yallWeights weights) A b 0 ↔ ‖b‖ ≤ delta := by
    constructor
    · intro h
      have h1 : ‖A 0 - b‖ ≤ delta := h.1.2
      rwa [map_zero, zero_sub, norm_neg] at h1
    · intro h
      refine ⟨⟨fun _ _ => le_refl _, by show ‖A 0 - b‖ ≤ delta; rwa [map_zero, zero_sub, norm_neg]⟩, fun x _ => ?_⟩
      show ∑ i, yallWeights weights i * |(0 : Vec n) i| ≤ ∑ i, yallWeights weights i * |x i|
      refine Finset.sum_le_sum fun i _ => mul_le_mul_of_nonneg_left ?_ (hw' i).le
      show |(0 : ℝ)| ≤ _
      rw [abs_zero]; exact abs_nonneg _
  rw [hsol]
  have hz : YallZero b (At b) rho delta ↔ ‖b‖ ≤ delta := by rw [YallZero, if_pos hd]
  rcases h with ⟨h1, rfl⟩ | ⟨h1, s, hs, rfl⟩
  · exact ⟨fun _ => hz.mp h1, fun _ => ⟨rfl, rfl⟩⟩
  · refine ⟨fun h => ?_, fun h => absurd (hz.mpr h) h1⟩
    exfalso
    obtain ⟨hi, hx⟩ := h
    have h0 : s.iterations = 0 → s.x = (linf b)⁻¹ • At b :=
      hs.1.inv (fun s => s.iterations = 0 → s.x = (linf b)⁻¹ • At b) (fun _ => rfl) fun s _ _ h =>
        absurd (show s.iterations + 1 + 1 = 0 from h) (by omega)
    have hx : linf b • s.x = 0 := hx
    rw [h0 hi, smul_smul, mul_inv_cancel₀ (linf_pos hb).ne', one_smul] at hx
    refine h1 (hz.mpr ?_)
    obtain ⟨x, _, hx2⟩ := hfeas
    have h2 : ‖A x - b‖ ≤ delta := hx2
    have h3 : ‖A x - b‖ ^ 2 = ‖A x‖ ^ 2 + ‖b‖ ^ 2 := by rw [norm_sub_sq_real, hadj, hx, inner_zero_right]; ring
    have h4 : ‖b‖ ^ 2 ≤ ‖A x - b‖ ^ 2 := by rw [h3]; nlinarith [sq_nonneg ‖A x‖]
    exact (pow_le_pow_iff_left₀ (norm_nonneg _) (norm_nonneg _) two_ne_zero |>.mp h4).trans h2

/-! ## Fixed points and convergence (C85, C86) -/

/-- Rescaling the parameter of a form. -/
def YallForm.scale (c : ℝ) : YallForm → YallForm
  | .bp => .bp
  | .l1l2 rho => .l1l2 (rho / c)
  | .con delta => .con (delta / c)

theorem yallSelect_eq (rho delta c : ℝ) : yallSelect rho delta c = (yallProblem rho delta).scale c := by
  unfold yallSelect yallProblem
  by_cases h1 : 0 < rho
  · simp only [if_pos h1]; rfl
  by_cases h2 : 0 < delta
  · simp only [if_neg h1, if_pos h2]; rfl
  · simp only [if_neg h1, if_neg h2]; rfl

theorem scale_res {A : Vec n →ₗ[ℝ] Vec m} {b : Vec m} {c : ℝ} (hc : 0 < c) (x : Vec n) : A x - b = c • (A (c⁻¹ • x) - c⁻¹ • b) := by
  rw [smul_sub, ← map_smul, smul_smul, smul_smul, mul_inv_cancel₀ hc.ne', one_smul, one_smul]

theorem yallFeas_scale (rho delta : ℝ) {c : ℝ} (hc : 0 < c) {nonneg : Bool} {A : Vec n →ₗ[ℝ] Vec m} {b : Vec m} (x : Vec n) :
    yallFeas (yallProblem rho delta) nonneg A b x ↔ yallFeas (yallSelect rho delta c) nonneg A (c⁻¹ • b) (c⁻¹ • x) := by
  refine and_congr ⟨fun h hn i => ?_, fun h hn i => ?_⟩ ?_
  · rw [PiLp.smul_apply, smul_eq_mul]; exact mul_nonneg (inv_pos.mpr hc).le (h hn i)
  · have := h hn i
    rw [PiLp.smul_apply, smul_eq_mul] at this
    exact nonneg_of_mul_nonneg_right this (inv_pos.mpr hc)
  · rw [yallSelect_eq]
    cases yallProblem rho delta with
    | l1l2 rho => exact Iff.rfl
    | con delta =>
      show ‖A x - b‖ ≤ delta ↔ ‖A (c⁻¹ • x) - c⁻¹ • b‖ ≤ delta / c
      rw [scale_res hc, norm_smul, Real.norm_eq_abs, abs_of_pos hc, le_div_iff₀ hc, mul_comm]
    | bp =>
      show A x = b ↔ A (c⁻¹ • x) = c⁻¹ • b
      rw [← sub_eq_zero, scale_res hc, smul_eq_zero, or_iff_right hc.ne', sub_eq_zero]

theorem yallObj_scale (rho delta : ℝ) {c : ℝ} (hc : 0 < c) {w : Vec n} {A : Vec n →ₗ[ℝ] Vec m} {b : Vec m} (x : Vec n) :
    yallObj (yallSelect rho delta c) w A (c⁻¹ • b) (c⁻¹ • x) = c⁻¹ * yallObj (yallProblem rho delta) w A b x := by
  have hl1 : ∀ x : Vec n, ∑ i, w i * |(c⁻¹ • x) i| = c⁻¹ * ∑ i, w i * |x i| := fun x => by
    rw [Finset.mul_sum]
    refine Finset.sum_congr rfl fun i _ => ?_
    rw [PiLp.smul_apply, smul_eq_mul, abs_mul, abs_of_pos (inv_pos.mpr hc)]; ring
  rw [yallSelect_eq]
  cases yallProblem rho delta with
  | l1l2 rho =>
    show (∑ i, w i * |(c⁻¹ • x) i|) + ‖A (c⁻¹ • x) - c⁻¹ • b‖ ^ 2 / (2 * (rho / c)) = c⁻¹ * ((∑ i, w i * |x i|) + ‖A x - b‖ ^ 2 / (2 * rho))
    rw [hl1, scale_res hc x, norm_smul, Real.norm_eq_abs, abs_of_pos hc]
    field_simp
  | con delta => exact hl1 x
  | bp => exact hl1 x

theorem yallSelect_scale (rho delta : ℝ) {c : ℝ} (hc : 0 < c) {nonneg : Bool} {w : Vec n} {A : Vec n →ₗ[ℝ] Vec m} {b : Vec m} {x : Vec n}
    (h : YallSol (yallSelect rho delta c) nonneg w A (c⁻¹ • b) x) : YallSol (yallProblem rho delta) nonneg w A b (c • x) := by
  have hcx : c⁻¹ • c • x = x := by rw [smul_smul, inv_mul_cancel₀ hc.ne', one_smul]
  refine ⟨(yallFeas_scale rho delta hc _).mpr (by rw [hcx]; exact h.1), fun x' hx' => ?_⟩
  have h1 := h.2 _ ((yallFeas_scale rho delta hc x').mp hx')
  rw [yallObj_scale rho delta hc] at h1
  have h2 := yallObj_scale rho delta hc (w := w) (A := A) (b := b) (c • x)
  rw [hcx] at h2
  rw [h2] at h1
  exact le_of_mul_le_mul_left h1 (inv_pos.mpr hc)

theorem yallSelect_pos (rho delta : ℝ) {c : ℝ} (hc : 0 < c) : (yallSelect rho delta c).Pos := by
  unfold yallSelect
  split
  · exact div_pos (by assumption) hc
  split
  · exact div_pos (by assumption) hc
  · trivial

/-- **C85.** When the rows of `A` are orthonormal, a state which an iteration leaves unchanged (in `x` and `z`) is a solution of the problem, for all
three forms and with or without the sign constraint, whatever the step parameter. -/
theorem c85_fixed_point (A : Vec n →ₗ[ℝ] Vec m) (At : Vec m →ₗ[ℝ] Vec n) (hadj : IsAdj A At) (hA : ∀ y, A (At y) = y) (b : Vec m) (hb : b ≠ 0)
    (weights : Option (Vec n)) (hw : ∀ i, 0 < yallWeights weights i) (nonneg : Bool) (rho delta gamma tol : ℝ) (hg : gamma ≠ 0) (maxIters : ℕ)
    (s : YallState m n) (hx : (yallIter A At (yallArgs b weights nonneg rho delta gamma tol maxIters) s).x = s.x)
    (hz : (yallIter A At (yallArgs b weights nonneg rho delta gamma tol maxIters) s).z = s.z) :
    YallSol (yallProblem rho delta) nonneg (yallWeights weights) A b (linf b • s.x) := by
  have hB := linf_pos hb
  refine yallSelect_scale rho delta hB ?_
  have hb' : (linf b)⁻¹ • b ≠ 0 := smul_ne_zero (inv_ne_zero hB.ne') hb
  exact (fixed_kkt A At (yallArgs b weights nonneg rho delta gamma tol maxIters) s.x s.z (yallSelect_pos rho delta hB) hw hb' hg hA hx hz).sol
    (yallSelect_pos rho delta hB) (fun i => (hw i).le) hadj

/-- The optimality conditions make a fixed point. -/
theorem kkt_fixed (A : Vec n →ₗ[ℝ] Vec m) (At : Vec m →ₗ[ℝ] Vec n) (p : YallArgs m n) (hf : p.form.Pos) (hw : ∀ i, 0 < p.w i) (hb : p.b ≠ 0)
    (hA : ∀ y, A (At y) = y) {x z : Vec n} {y : Vec m} (hk : Kkt p.form p.nonneg p.w A At p.b x z y) :
    iterX A At p x z = x ∧ iterZ A At p x z = z := by
  have hm := yallMu_pos hb
  set mu := yallMu p.b with hmu
  have hy : iterY A p x z = y := by
    have h1 := (iter_sub A At p x z hf hb hA).monotone hk.sub
    rw [← hmu] at h1
    have e : p.b - A (x + mu • (At (iterY A p x z) - z)) - (p.b - A x) = -(mu • (iterY A p x z - y)) := by
      rw [map_add, map_smul, map_sub, hA, hk.dual, hA]; module
    rw [e, inner_neg_left, real_inner_smul_left, real_inner_self_eq_norm_sq] at h1
    have h2 : ‖iterY A p x z - y‖ ^ 2 = 0 := le_antisymm (by nlinarith) (sq_nonneg _)
    exact sub_eq_zero.mp (norm_eq_zero.mp (pow_eq_zero_iff two_ne_zero |>.mp h2))
  have hz : iterZ A At p x z = z := by
    have h1 := (iter_normal A At p x z hw hb).monotone hk.normal
    rw [← hmu, hy, ← hk.dual] at h1
    have e : x + mu • (z - iterZ A At p x z) - x = -(mu • (iterZ A At p x z - z)) := by module
    rw [e, inner_neg_left, real_inner_smul_left, real_inner_self_eq_norm_sq] at h1
    have h2 : ‖iterZ A At p x z - z‖ ^ 2 = 0 := le_antisymm (by nlinarith) (sq_nonneg _)
    exact sub_eq_zero.mp (norm_eq_zero.mp (pow_eq_zero_iff two_ne_zero |>.mp h2))
  refine ⟨?_, hz⟩
  rw [iterX, hz, hy, hk.dual, sub_self, smul_zero, sub_zero]

theorem shrink_continuous {f : YallForm} (hf : f.Pos) {mu : ℝ} (hmu : 0 < mu) : Continuous (fun y : Vec m => yallShrink f mu y) := by
  refine (LipschitzWith.of_dist_le_mul (K := 1) fun a c => ?_).continuous
  rw [NNReal.coe_one, one_mul, dist_eq_norm, dist_eq_norm]
  have h := (shrink_sub hf hmu a).monotone (shrink_sub hf hmu c)
  have e : mu • (a - yallShrink f mu a) - mu • (c - yallShrink f mu c) = mu • ((a - c) - (yallShrink f mu a - yallShrink f mu c)) := by module
  rw [e, real_inner_smul_left, inner_sub_left, real_inner_self_eq_norm_sq] at h
  have h1 := nonneg_of_mul_nonneg_right h hmu
  have h2 := real_inner_le_norm (a - c) (yallShrink f mu a - yallShrink f mu c)
  rcases (norm_nonneg (yallShrink f mu a - yallShrink f mu c)).eq_or_lt with h0 | h0
  · rw [← h0]; exact norm_nonneg _
  · nlinarith

theorem proj_continuous {nonneg : Bool} {w : Vec n} (hw : ∀ i, 0 < w i) : Continuous (fun v : Vec n => yallProj nonneg v w) := by
  refine (LipschitzWith.of_dist_le_mul (K := 1) fun a c => ?_).continuous
  rw [NNReal.coe_one, one_mul, dist_eq_norm, dist_eq_norm]
  have h := (proj_normal (nonneg := nonneg) hw a).monotone (proj_normal (nonneg := nonneg) hw c)
  have e : a - yallProj nonneg a w - (c - yallProj nonneg c w) = (a - c) - (yallProj nonneg a w - yallProj nonneg c w) := by abel
  rw [e, inner_sub_left, real_inner_self_eq_norm_sq] at h
  have h2 := real_inner_le_norm (a - c) (yallProj nonneg a w - yallProj nonneg c w)
  rcases (norm_nonneg (yallProj nonneg a w - yallProj nonneg c w)).eq_or_lt with h0 | h0
  · rw [← h0]; exact norm_nonneg _
  · nlinarith

/-- One iteration on the pair `(x, z)`. -/
def iterXZ (A : Vec n →ₗ[ℝ] Vec m) (At : Vec m →ₗ[ℝ] Vec n) (p : YallArgs m n) (u : Vec n × Vec n) : Vec n × Vec n :=
  (iterX A At p u.1 u.2, iterZ A At p u.1 u.2)

/-- The weighted squared distance that decreases. -/
def distXZ (mu : ℝ) (u : Vec n × Vec n) : ℝ := ‖u.1‖ ^ 2 / mu + mu * ‖u.2‖ ^ 2

theorem iterate_xz (A : Vec n →ₗ[ℝ] Vec m) (At : Vec m →ₗ[ℝ] Vec n) (p : YallArgs m n) (s : YallState m n) (k : ℕ) :
    (((yallIter A At p)^[k] s).x, ((yallIter A At p)^[k] s).z) = (iterXZ A At p)^[k] (s.x, s.z) := by
  induction k with
  | zero => rfl
  | succ k ih => rw [Function.iterate_succ_apply', Function.iterate_succ_apply', ← ih]; rfl

theorem iterXZ_continuous (A : Vec n →ₗ[ℝ] Vec m) (At : Vec m →ₗ[ℝ] Vec n) (p : YallArgs m n) (hf : p.form.Pos) (hw : ∀ i, 0 < p.w i) (hb : p.b ≠ 0) :
    Continuous (iterXZ A At p) := by
  have cA : Continuous A := A.continuous_of_finiteDimensional
  have cAt : Continuous At := At.continuous_of_finiteDimensional
  have c1 : Continuous fun u : Vec n × Vec n => (yallMu p.b)⁻¹ • u.1 := by fun_prop
  have c2 : Continuous fun u : Vec n × Vec n => A (u.2 - (yallMu p.b)⁻¹ • u.1) := cA.comp (continuous_snd.sub c1)
  have c3 : Continuous fun u : Vec n × Vec n => A (u.2 - (yallMu p.b)⁻¹ • u.1) + (yallMu p.b)⁻¹ • p.b := c2.add continuous_const
  have cY : Continuous fun u : Vec n × Vec n => iterY A p u.1 u.2 := (shrink_continuous hf (yallMu_pos hb)).comp c3
  have c4 : Continuous fun u : Vec n × Vec n => At (iterY A p u.1 u.2) := cAt.comp cY
  have c5 : Continuous fun u : Vec n × Vec n => At (iterY A p u.1 u.2) + (yallMu p.b)⁻¹ • u.1 := c4.add c1
  have cZ : Continuous fun u : Vec n × Vec n => iterZ A At p u.1 u.2 := (proj_continuous (nonneg := p.nonneg) hw).comp c5
  have cX : Continuous fun u : Vec n × Vec n => iterX A At p u.1 u.2 := continuous_fst.sub ((cZ.sub c4).const_smul (p.gamma * yallMu p.b))
  exact cX.prodMk cZ

theorem distXZ_continuous (mu : ℝ) : Continuous (distXZ (n := n) mu) := by
  unfold distXZ
  exact ((continuous_fst.norm.pow 2).div_const _).add ((continuous_snd.norm.pow 2).const_mul _)

theorem le_distXZ {mu : ℝ} (hm : 0 < mu) (v : Vec n × Vec n) : min (1 / mu) mu * ‖v‖ ^ 2 ≤ distXZ mu v := by
  unfold distXZ
  rcases le_total ‖v.1‖ ‖v.2‖ with h | h
  · have e : ‖v‖ = ‖v.2‖ := by rw [Prod.norm_def]; exact max_eq_right h
    rw [e]
    have h2 : min (1 / mu) mu * ‖v.2‖ ^ 2 ≤ mu * ‖v.2‖ ^ 2 := mul_le_mul_of_nonneg_right (min_le_right _ _) (sq_nonneg _)
    have h3 : 0 ≤ ‖v.1‖ ^ 2 / mu := by positivity
    linarith
  · have e : ‖v‖ = ‖v.1‖ := by rw [Prod.norm_def]; exact max_eq_left h
    rw [e]
    have h2 : min (1 / mu) mu * ‖v.1‖ ^ 2 ≤ 1 / mu * ‖v.1‖ ^ 2 := mul_le_mul_of_nonneg_right (min_le_left _ _) (sq_nonneg _)
    have h3 : 0 ≤ mu * ‖v.2‖ ^ 2 := by positivity
    have h4 : 1 / mu * ‖v.1‖ ^ 2 = ‖v.1‖ ^ 2 / mu := by ring
    linarith

theorem iterXZ_normal (A : Vec n →ₗ[ℝ] Vec m) (At : Vec m →ₗ[ℝ] Vec n) (p : YallArgs m n) (hw : ∀ i, 0 < p.w i) (hb : p.b ≠ 0) (hg : p.gamma = 1)
    (u : Vec n × Vec n) : IsNormal p.nonneg p.w (iterXZ A At p u).1 (iterXZ A At p u).2 := by
  have h := iter_normal A At p u.1 u.2 hw hb
  have e2 : iterX A At p u.1 u.2 = u.1 + yallMu p.b • (At (iterY A p u.1 u.2) - iterZ A At p u.1 u.2) := by
    rw [iterX, hg, one_mul, smul_sub, smul_sub]; abel
  show IsNormal p.nonneg p.w (iterX A At p u.1 u.2) (iterZ A At p u.1 u.2)
  rw [e2]
  exact h

open Filter Topology in
/-- Convergence for the scaled problem. -/
theorem converge_core (A : Vec n →ₗ[ℝ] Vec m) (At : Vec m →ₗ[ℝ] Vec n) (hadj : IsAdj A At) (hA : ∀ y, A (At y) = y) (p : YallArgs m n) (hf : p.form.Pos)
    (hw : ∀ i, 0 < p.w i) (hb : p.b ≠ 0) (hg : p.gamma = 1) (hk : ∃ x z y, Kkt p.form p.nonneg p.w A At p.b x z y) (s : YallState m n) :
    ∃ x, YallSol p.form p.nonneg p.w A p.b x ∧ Tendsto (fun k => ((yallIter A At p)^[k] s).x) atTop (𝓝 x) := by
  have hm := yallMu_pos hb
  have hg0 : p.gamma ≠ 0 := by rw [hg]; exact one_ne_zero
  obtain ⟨xs, zs, ys, hk⟩ := hk
  have hfix := kkt_fixed A At p hf hw hb hA hk
  have hus : ∀ k, (iterXZ A At p)^[k + 1 + 1] (s.x, s.z) = iterXZ A At p ((iterXZ A At p)^[k + 1] (s.x, s.z)) := fun k => by
    rw [Function.iterate_succ_apply']
  have kkt : ∀ pt, iterXZ A At p pt = pt → Kkt p.form p.nonneg p.w A At p.b pt.1 pt.2 (iterY A p pt.1 pt.2) := fun pt hpt =>
    fixed_kkt A At p pt.1 pt.2 hf hw hb hg0 hA (congrArg Prod.fst hpt) (congrArg Prod.snd hpt)
  obtain ⟨pt, hpt, hlim⟩ := fejer (iterXZ A At p) (iterXZ_continuous A At p hf hw hb) (distXZ (yallMu p.b)) (distXZ_continuous _)
    (by simp [distXZ]) (min (1 / yallMu p.b) (yallMu p.b)) (lt_min (by positivity) hm) (le_distXZ hm)
    (fun k => (iterXZ A At p)^[k + 1] (s.x, s.z)) hus
    (fun pt hpt k => by
      have hn : IsNormal p.nonneg p.w ((iterXZ A At p)^[k + 1] (s.x, s.z)).1 ((iterXZ A At p)^[k + 1] (s.x, s.z)).2 := by
        rw [Function.iterate_succ_apply']; exact iterXZ_normal A At p hw hb hg _
      rw [hus k]
      exact kkt_progress A At p _ _ hf hw hb hg hadj hA hn (kkt pt hpt))
    (xs, zs) (Prod.ext hfix.1 hfix.2)
  refine ⟨pt.1, (kkt pt hpt).sol hf (fun i => (hw i).le) hadj, ?_⟩
  have h1 : Tendsto (fun k => ((iterXZ A At p)^[k + 1] (s.x, s.z)).1) atTop (𝓝 pt.1) := (continuous_fst.tendsto pt).comp hlim
  rw [← tendsto_add_atTop_iff_nat 1]
  refine h1.congr fun k => ?_
  exact (congrArg Prod.fst (iterate_xz A At p s (k + 1))).symm

open Filter Topology in
/-- **C86.** When the rows of `A` are orthonormal and `gamma = 1` (the default), the iterates of `solve`, continued without the stopping test, converge to a
solution of the problem from every starting point: for all three forms without a sign constraint, and for the penalised form with one. -/
theorem c86_converges (A : Vec n →ₗ[ℝ] Vec m) (At : Vec m →ₗ[ℝ] Vec n) (hadj : IsAdj A At) (hA : ∀ y, A (At y) = y) (b : Vec m) (hb : b ≠ 0)
    (weights : Option (Vec n)) (hw : ∀ i, 0 < yallWeights weights i) (nonneg : Bool) (rho delta tol : ℝ) (maxIters : ℕ)
    (hnn : nonneg = true → 0 < rho) (x0 z0 : Vec n) :
    ∃ x, YallSol (yallProblem rho delta) nonneg (yallWeights weights) A b x ∧
      Tendsto (fun k => linf b • ((yallIter A At (yallArgs b weights nonneg rho delta 1 tol maxIters))^[k]
        (yallInit A At (yallArgs b weights nonneg rho delta 1 tol maxIters) x0 z0)).x) atTop (𝓝 x) := by
  have hB := linf_pos hb
  have hb' : (linf b)⁻¹ • b ≠ 0 := smul_ne_zero (inv_ne_zero hB.ne') hb
  obtain ⟨x, hx, hlim⟩ := converge_core A At hadj hA (yallArgs b weights nonneg rho delta 1 tol maxIters) (yallSelect_pos rho delta hB) hw hb' rfl
    (exists_kkt _ (yallSelect_pos rho delta hB) nonneg (fun h => ⟨rho / linf b, if_pos (hnn h)⟩) _ hw A At hadj hA _)
    (yallInit A At (yallArgs b weights nonneg rho delta 1 tol maxIters) x0 z0)
  exact ⟨linf b • x, yallSelect_scale rho delta hB hx, hlim.const_smul _⟩

/-- A feasible point and a dual feasible `y` with equal objectives satisfy the optimality conditions. -/
theorem kkt_of_certificate {f : YallForm} (hf : f.Pos) {nonneg : Bool} {w : Vec n} {A : Vec n →ₗ[ℝ] Vec m} {At : Vec m →ₗ[ℝ] Vec n} (hadj : IsAdj A At)
    {b : Vec m} {x : Vec n} {y : Vec m} (hx : yallFeas f nonneg A b x) (hy : At y ∈ dualBox nonneg w)
    (he : yallObj f w A b x = ⟪b, y⟫ - dualPen f y) : Kkt f nonneg w A At b x (At y) y := by
  have hle : ⟪x, At y⟫ ≤ ∑ i, w i * |x i| := inner_box_le hy hx.1
  have norm_of : ∑ i, w i * |x i| ≤ ⟪x, At y⟫ → IsNormal nonneg w x (At y) := fun h => ⟨hy, fun z' hz' => by
    have := inner_box_le hz' hx.1
    rw [inner_sub_right]; linarith⟩
  have hb : ⟪b, y⟫ = ⟪x, At y⟫ + ⟪b - A x, y⟫ := by rw [← hadj, inner_sub_left]; ring
  cases f with
  | bp =>
    have h1 : A x = b := hx.2
    have h2 : ∑ i, w i * |x i| = ⟪b, y⟫ - 0 := he
    rw [hb, h1, sub_self, inner_zero_left] at h2
    refine ⟨rfl, norm_of (by linarith), fun y' => ?_⟩
    rw [h1, sub_self, inner_zero_left, add_zero]; exact le_refl _
  | con delta =>
    have hd : 0 < delta := hf
    have h1 : ‖b - A x‖ ≤ delta := by rw [norm_sub_rev]; exact hx.2
    have h2 : ∑ i, w i * |x i| = ⟪b, y⟫ - delta * ‖y‖ := he
    have bd : ∀ y', ⟪b - A x, y'⟫ ≤ delta * ‖y'‖ := fun y' => (real_inner_le_norm _ _).trans (mul_le_mul_of_nonneg_right h1 (norm_nonneg _))
    have h3 := bd y
    rw [hb] at h2
    refine ⟨rfl, norm_of (by linarith), fun y' => ?_⟩
    show delta * ‖y‖ + ⟪b - A x, y' - y⟫ ≤ delta * ‖y'‖
    have := bd y'
    rw [inner_sub_right]; linarith
  | l1l2 rho =>
    have hr : 0 < rho := hf
    have h2 : (∑ i, w i * |x i|) + ‖A x - b‖ ^ 2 / (2 * rho) = ⟪b, y⟫ - rho / 2 * ‖y‖ ^ 2 := he
    have h3 : ‖(b - A x) - rho • y‖ ^ 2 / (2 * rho) = ‖A x - b‖ ^ 2 / (2 * rho) - ⟪b - A x, y⟫ + rho / 2 * ‖y‖ ^ 2 := by
      rw [norm_sub_sq_real, inner_smul_right, norm_smul, Real.norm_eq_abs, abs_of_pos hr, norm_sub_rev b]
      field_simp
    have h4 : 0 ≤ ‖(b - A x) - rho • y‖ ^ 2 / (2 * rho) := by positivity
    rw [hb] at h2
    have h5 : ‖(b - A x) - rho • y‖ ^ 2 / (2 * rho) = 0 := by linarith
    have h6 : b - A x = rho • y := by
      rw [div_eq_zero_iff] at h5
      rcases h5 with h5 | h5
      · exact sub_eq_zero.mp (norm_eq_zero.mp (pow_eq_zero_iff two_ne_zero |>.mp h5))
      · linarith
    refine ⟨rfl, norm_of (by linarith), fun y' => ?_⟩
    show rho / 2 * ‖y‖ ^ 2 + ⟪b - A x, y' - y⟫ ≤ rho / 2 * ‖y'‖ ^ 2
    rw [h6, real_inner_smul_left, inner_sub_right, real_inner_self_eq_norm_sq]
    have h2 : ⟪y, y'⟫ ≤ ‖y‖ * ‖y'‖ := real_inner_le_norm _ _
    have h3 : 0 ≤ (‖y‖ - ‖y'‖) ^ 2 := sq_nonneg _
    nlinarith

theorem Kkt.scaled {f : YallForm} {nonneg : Bool} {w : Vec n} {A : Vec n →ₗ[ℝ] Vec m} {At : Vec m →ₗ[ℝ] Vec n} {b : Vec m} {x z : Vec n} {y : Vec m}
    (h : Kkt f nonneg w A At b x z y) {c : ℝ} (hc : 0 < c) : Kkt (f.scale c) nonneg w A At (c⁻¹ • b) (c⁻¹ • x) z y := by
  refine ⟨h.dual, h.normal.smul (inv_pos.mpr hc).le, fun y' => ?_⟩
  have e : ∀ y : Vec m, dualPen (f.scale c) y = c⁻¹ * dualPen f y := by
    intro y
    cases f with
    | bp => show (0 : ℝ) = c⁻¹ * 0; rw [mul_zero]
    | l1l2 rho => show rho / c / 2 * ‖y‖ ^ 2 = c⁻¹ * (rho / 2 * ‖y‖ ^ 2); ring
    | con delta => show delta / c * ‖y‖ = c⁻¹ * (delta * ‖y‖); ring
  rw [e, e, map_smul, ← smul_sub, real_inner_smul_left, ← mul_add]
  exact mul_le_mul_of_nonneg_left (h.sub y') (inv_pos.mpr hc).le

open Filter Topology in
/-- **C86.** With a sign constraint in the two constrained forms: convergence to a solution whenever some feasible point is certified optimal by a dual
vector, that is a `y` with `Aᵀ y ≤ w` whose dual objective equals the primal objective of the point. -/
theorem c86_converges_nonneg (A : Vec n →ₗ[ℝ] Vec m) (At : Vec m →ₗ[ℝ] Vec n) (hadj : IsAdj A At) (hA : ∀ y, A (At y) = y) (b : Vec m) (hb : b ≠ 0)
    (weights : Option (Vec n)) (hw : ∀ i, 0 < yallWeights weights i) (rho delta tol : ℝ) (maxIters : ℕ) (x0 z0 xs : Vec n) (ys : Vec m)
    (hxs : yallFeas (yallProblem rho delta) true A b xs) (hys : ∀ i, At ys i ≤ yallWeights weights i)
    (he : yallObj (yallProblem rho delta) (yallWeights weights) A b xs = match yallProblem rho delta with
      | .bp => ⟪b, ys⟫
      | .l1l2 rho => ⟪b, ys⟫ - rho / 2 * ‖ys‖ ^ 2
      | .con delta => ⟪b, ys⟫ - delta * ‖ys‖) :
    ∃ x, YallSol (yallProblem rho delta) true (yallWeights weights) A b x ∧
      Tendsto (fun k => linf b • ((yallIter A At (yallArgs b weights true rho delta 1 tol maxIters))^[k]
        (yallInit A At (yallArgs b weights true rho delta 1 tol maxIters) x0 z0)).x) atTop (𝓝 x) := by
  have hB := linf_pos hb
  have hb' : (linf b)⁻¹ • b ≠ 0 := smul_ne_zero (inv_ne_zero hB.ne') hb
  have hpos : (yallProblem rho delta).Pos := by
    unfold yallProblem
    split
    · assumption
    split
    · assumption
    · trivial
  have he' : yallObj (yallProblem rho delta) (yallWeights weights) A b xs = ⟪b, ys⟫ - dualPen (yallProblem rho delta) ys := by
    rw [he]
    cases yallProblem rho delta with
    | bp => exact (sub_zero _).symm
    | l1l2 rho => rfl
    | con delta => rfl
  have hk := (kkt_of_certificate hpos hadj hxs (fun i => ⟨hys i, fun h => absurd h (by simp)⟩) he').scaled hB
  rw [← yallSelect_eq] at hk
  obtain ⟨x, hx, hlim⟩ := converge_core A At hadj hA (yallArgs b weights true rho delta 1 tol maxIters) (yallSelect_pos rho delta hB) hw hb' rfl
    ⟨_, _, _, hk⟩ (yallInit A At (yallArgs b weights true rho delta 1 tol maxIters) x0 z0)
  exact ⟨linf b • x, yallSelect_scale rho delta hB hx, hlim.const_smul _⟩

/-- **C86.** From the second iteration on, each iteration brings the pair `(x, z)` nearer to every pair of a solution of the (scaled) problem and a dual
certificate, by at least the squared length of the step, in the norm `|x|² / mu + mu |z|²`. -/
theorem c86_monotone (A : Vec n →ₗ[ℝ] Vec m) (At : Vec m →ₗ[ℝ] Vec n) (hadj : IsAdj A At) (hA : ∀ y, A (At y) = y) (p : YallArgs m n) (hf : p.form.Pos)
    (hw : ∀ i, 0 < p.w i) (hb : p.b ≠ 0) (hg : p.gamma = 1) (s : YallState m n) (xs : Vec n) (ys : Vec m)
    (hxs : yallFeas p.form p.nonneg A p.b xs) (hys : ∀ i, At ys i ≤ p.w i ∧ (p.nonneg = false → -p.w i ≤ At ys i))
    (he : yallObj p.form p.w A p.b xs = yallDual p ys) :
    ‖(yallIter A At p (yallIter A At p s)).x - xs‖ ^ 2 / yallMu p.b + yallMu p.b * ‖(yallIter A At p (yallIter A At p s)).z - At ys‖ ^ 2 ≤
      ‖(yallIter A At p s).x - xs‖ ^ 2 / yallMu p.b + yallMu p.b * ‖(yallIter A At p s).z - At ys‖ ^ 2 -
      (‖(yallIter A At p (yallIter A At p s)).x - (yallIter A At p s).x‖ ^ 2 / yallMu p.b +
        yallMu p.b * ‖(yallIter A At p (yallIter A At p s)).z - (yallIter A At p s).z‖ ^ 2) := by
  have he' : yallObj p.form p.w A p.b xs = ⟪p.b, ys⟫ - dualPen p.form ys := by
    rw [he, yallDual]
    cases p.form with
    | bp => exact (sub_zero _).symm
    | l1l2 rho => show ⟪p.b, ys⟫ - 0.5 * rho * ⟪ys, ys⟫ = ⟪p.b, ys⟫ - rho / 2 * ‖ys‖ ^ 2; rw [real_inner_self_eq_norm_sq, show (0.5 : ℝ) * rho = rho / 2 by norm_num; ring]
    | con delta => rfl
  exact kkt_progress A At p _ _ hf hw hb hg hadj hA (iterXZ_normal A At p hw hb hg (s.x, s.z)) (kkt_of_certificate hf hadj hxs hys he')

/-! ## Concrete runs and failures -/

theorem unit1_orth (y : Vec 1) : unit1 (unit1 y) = y := by rw [unit1_apply, unit1_apply]

theorem v1_add (a b : ℝ) : v1 a + v1 b = v1 (a + b) := by ext i; rfl

theorem v1_ne_zero {a : ℝ} (h : a ≠ 0) : v1 a ≠ 0 := by
  intro h0
  have := congrArg norm h0
  rw [v1_norm, norm_zero] at this
  exact h (abs_eq_zero.mp this)

theorem v1_mu (a : ℝ) : yallMu (v1 a) = |a| := by rw [yallMu, v1_l1]; simp

theorem v1_upper (a b : ℝ) : projectToUpper (v1 a) (v1 b) = v1 (min b a) := by ext i; rfl

theorem v1_box (a b : ℝ) : projectToBox (v1 a) (v1 b) = v1 (a * (b / max b |a|)) := by ext i; rfl

/-- The arguments of a one-dimensional basis pursuit with sign constraint and `gamma = 0.1`. -/
def demoArgs : YallArgs 1 1 := yallArgs (v1 1) none true 0 0 0.1 5e-3 2

theorem demo_b : demoArgs.b = v1 1 := by
  show (linf (v1 1))⁻¹ • v1 1 = v1 1
  rw [v1_linf, v1_smul]; norm_num

theorem demo_form : demoArgs.form = .bp := by simp [demoArgs, yallArgs, yallSelect]

theorem demo_iter (s : YallState 1 1) {a c : ℝ} (hx : s.x = v1 a) (hz : s.z = v1 c) :
    (yallIter unit1 unit1 demoArgs s).z = v1 (min 1 (c - a + 1 + a)) ∧
    (yallIter unit1 unit1 demoArgs s).x = v1 (a - 0.1 * (min 1 (c - a + 1 + a) - (c - a + 1))) ∧
    (yallIter unit1 unit1 demoArgs s).rp = v1 1 - (yallIter unit1 unit1 demoArgs s).x ∧
    (yallIter unit1 unit1 demoArgs s).iterations = s.iterations + 1 := by
  have hy : iterY unit1 demoArgs s.x s.z = v1 (c - a + 1) := by
    rw [iterY, demo_form, demo_b, v1_mu, hx, hz, v1_smul, v1_smul, v1_sub, unit1_apply, v1_add]
    show v1 _ = v1 _
    norm_num
  have h1 : (yallIter unit1 unit1 demoArgs s).z = v1 (min 1 (c - a + 1 + a)) := by
    rw [yallIter_z, iterZ, hy, unit1_apply, demo_b, v1_mu, hx, v1_smul, v1_add]
    show projectToUpper (v1 _) (v1 1) = _
    rw [v1_upper]; norm_num
  refine ⟨h1, ?_, ?_, rfl⟩
  · rw [yallIter_x, iterX, ← yallIter_z, h1, hy, unit1_apply, demo_b, v1_mu, hx, v1_sub, v1_smul, v1_sub]
    show v1 (a - 0.1 * |1| * _) = _
    norm_num
  · show demoArgs.b - unit1 (yallIter unit1 unit1 demoArgs s).x = _
    rw [unit1_apply, demo_b]

/-- The two iterations of the run. -/
theorem demo_run : ∃ s : YallState 1 1, YallOut unit1 unit1 demoArgs (v1 (-1)) 0 s ∧ s.x = v1 (-0.71) ∧ s.rp = v1 1.71 ∧ s.iterations = 2 := by
  obtain ⟨z1, x1, _, i1⟩ := demo_iter (yallInit unit1 unit1 demoArgs (v1 (-1)) 0) (a := -1) (c := 0) rfl v1_zero
  norm_num at z1 x1
  obtain ⟨z2, x2, r2, i2⟩ := demo_iter _ x1 z1
  rw [x2, v1_sub] at r2
  norm_num at x2 r2
  have hi : (yallBody unit1 unit1 demoArgs (yallInit unit1 unit1 demoArgs (v1 (-1)) 0)).iterations = 2 := by
    show (yallIter _ _ _ (yallIter _ _ _ _)).iterations = 2; rw [i2, i1]; rfl
  refine ⟨_, ⟨.step .init ?_, ?_⟩, x2.trans (by norm_num), r2.trans (by norm_num), hi⟩
  · unfold yallCond
    rw [demo_form]
    refine ⟨Or.inl (Or.inr (Or.inr ⟨by show ‖(0 : Vec 1)‖ = 0; exact norm_zero, ?_⟩)), ?_, Or.inl ⟨?_, ?_⟩⟩
    · show 0 < ‖-unit1 demoArgs.b‖
      rw [demo_b, unit1_apply, norm_neg, v1_norm]; norm_num
    · show 0 < 2; norm_num
    · show ‖v1 (-1)‖ ≠ 0; rw [v1_norm]; norm_num
    · show ‖v1 (-1) - 0‖ / ‖v1 (-1)‖ > 5e-3 * (1 - 0.1)
      rw [sub_zero, v1_norm]; norm_num
  · intro h
    unfold yallCond at h
    rw [demo_form] at h
    have : (yallBody unit1 unit1 demoArgs (yallInit unit1 unit1 demoArgs (v1 (-1)) 0)).iterations < 2 := h.2.1
    omega

/-- **C64 fails with `nonneg`.** The solution is clipped after its residual was computed: here `x = 0` is returned with residual `1.71` although `b - A x = 1`. -/
theorem c64_residual_fails : IsAdj unit1 unit1 ∧ ∃ res : YallResult 1 1,
    YallSolve unit1 unit1 (v1 1) (some (v1 (-1))) none none true 0 0 0.1 5e-3 2 res ∧ res.r ≠ v1 1 - unit1 res.x := by
  obtain ⟨s, hs, hx, hr, _⟩ := demo_run
  refine ⟨unit1_adj, _, Or.inr ⟨?_, s, hs, rfl⟩, ?_⟩
  · simp [YallZero]
  · show linf (v1 1) • s.rp ≠ v1 1 - unit1 (linf (v1 1) • yallClip true s.x)
    intro h
    have h0 := congrArg (fun v : Vec 1 => v 0) h
    rw [v1_linf, hr, unit1_apply] at h0
    have hc : yallClip true s.x = v1 0 := by
      rw [hx]; ext i; show max 0 (-0.71 : ℝ) = 0; norm_num
    rw [hc, v1_smul, v1_smul, v1_sub] at h0
    norm_num [v1] at h0

/-- **C64 fails with weights.** The zero test ignores the weights: minimising `0.1 |x| + (x - 1)²/2`, zero is returned without iterating, and it is not a
solution. -/
theorem c64_zero_weights_fails : IsAdj unit1 unit1 ∧ ∃ res : YallResult 1 1,
    YallSolve unit1 unit1 (v1 1) none none (some (v1 0.1)) false 1 0 1 5e-3 9999 res ∧ res.iterations = 0 ∧ res.x = 0 ∧
    ¬ YallSol (.l1l2 1) false (v1 0.1) unit1 (v1 1) res.x := by
  refine ⟨unit1_adj, _, Or.inl ⟨?_, rfl⟩, rfl, rfl, ?_⟩
  · show YallZero (v1 1) (unit1 (v1 1)) 1 0
    rw [unit1_apply, YallZero, if_neg (lt_irrefl _), if_pos one_pos, v1_linf]; norm_num
  · intro h
    have h1 := h.2 (v1 0.9) ⟨fun h => absurd h (by simp), trivial⟩
    have e : ∀ a : ℝ, yallObj (.l1l2 1) (v1 0.1) unit1 (v1 1) (v1 a) = 0.1 * |a| + |a - 1| ^ 2 / 2 := by
      intro a
      show (∑ i, v1 0.1 i * |v1 a i|) + ‖unit1 (v1 a) - v1 1‖ ^ 2 / (2 * 1) = _
      rw [unit1_apply, v1_sub, v1_norm]
      simp [v1]
    have e0 : yallObj (.l1l2 1) (v1 0.1) unit1 (v1 1) 0 = 0.5 := by rw [v1_zero, e]; norm_num
    have h2 : yallObj (.l1l2 1) (v1 0.1) unit1 (v1 1) 0 ≤ yallObj (.l1l2 1) (v1 0.1) unit1 (v1 1) (v1 0.9) := h1
    rw [e0, e] at h2
    have h3 : |(0.9 : ℝ) - 1| ^ 2 = 0.01 := by rw [sq_abs]; norm_num
    rw [h3, abs_of_pos (by norm_num)] at h2
    norm_num at h2

/-- A run without sign constraints returns (`c64_residual_partial`, `c64_counters`, `c64_zero_partial` apply to it). -/
example : v1 1 ≠ 0 ∧ IsAdj unit1 unit1 ∧ ∃ res, YallSolve unit1 unit1 (v1 1) none none none false 0.5 0 1 5e-3 9999 res :=
  ⟨v1_ne_zero one_ne_zero, unit1_adj, (c64_terminates unit1 unit1 (v1 1) none none none false 0.5 0 1 5e-3 9999).1⟩

/-- The same with a basis. -/
example : ∃ res, YallSolveW unit1 unit1 unit1 unit1 (v1 1) none none none false 0.5 0 1 5e-3 9999 res := by
  obtain ⟨core, hc⟩ := (c64_terminates (unit1 ∘ₗ unit1) (unit1 ∘ₗ unit1) (v1 1) none none none false 0.5 0 1 5e-3 9999).1
  exact ⟨_, core, hc, rfl⟩

/-- A reachable state after two iterations (`c64_box`). -/
example : (∀ i, 0 < demoArgs.w i) ∧ ∃ s : YallState 1 1, YallReach unit1 unit1 demoArgs (v1 (-1)) 0 s ∧ 0 < s.iterations := by
  obtain ⟨s, hs, _, _, hi⟩ := demo_run
  exact ⟨fun i => one_pos, s, hs.1, by omega⟩

/-- A feasible constrained problem whose data exceed `delta` (`c64_zero_con`). -/
theorem ex_con_feas : yallFeas (.con 0.5) false unit1 (v1 1) (v1 1) ∧ ¬ ‖v1 1‖ ≤ 0.5 := by
  refine ⟨⟨fun h => absurd h (by simp), ?_⟩, ?_⟩
  · show ‖unit1 (v1 1) - v1 1‖ ≤ 0.5
    rw [unit1_apply, sub_self, norm_zero]; norm_num
  · rw [v1_norm]; norm_num

/-- A fixed point of the iteration (`c85_fixed_point`): basis pursuit with `x = 1`, `z = 1`. -/
theorem ex_fixed : (yallIter unit1 unit1 demoArgs (yallInit unit1 unit1 demoArgs (v1 1) (v1 1))).x = v1 1 ∧
    (yallIter unit1 unit1 demoArgs (yallInit unit1 unit1 demoArgs (v1 1) (v1 1))).z = v1 1 := by
  obtain ⟨h1, h2, _⟩ := demo_iter (yallInit unit1 unit1 demoArgs (v1 1) (v1 1)) (a := 1) (c := 1) rfl rfl
  norm_num at h1 h2
  exact ⟨h2, h1⟩

/-- The hypotheses of `c86_converges` and `c86_converges_nonneg` are met. -/
theorem ex_pair : IsAdj unit1 unit1 ∧ (∀ y, unit1 (unit1 y) = y) ∧ v1 1 ≠ 0 ∧ (∀ i, 0 < yallWeights (none : Option (Vec 1)) i) ∧
    yallFeas (yallProblem 0 0) true unit1 (v1 1) (v1 1) ∧ (∀ i, unit1 (v1 1) i ≤ yallWeights (none : Option (Vec 1)) i) ∧
    yallObj (yallProblem 0 0) (yallWeights none) unit1 (v1 1) (v1 1) = ⟪v1 1, v1 1⟫ := by
  have hp : yallProblem 0 0 = .bp := by simp [yallProblem]
  refine ⟨unit1_adj, unit1_orth, v1_ne_zero one_ne_zero, fun i => one_pos, ?_, fun i => ?_, ?_⟩
  · rw [hp]
    exact ⟨fun _ i => by norm_num [v1], unit1_apply _⟩
  · rw [unit1_apply]; exact le_refl (1 : ℝ)
  · rw [hp, v1_inner]
    show ∑ i, (1 : ℝ) * |v1 1 i| = _
    simp [v1]

example (res : YallResult 1 1) (h : YallSolve unit1 unit1 (v1 1) none none none true 0.5 0 1 5e-3 9999 res) :=
  c64_residual_partial unit1 unit1 (v1 1) (v1_ne_zero one_ne_zero) none none none true 0.5 0 1 5e-3 9999 res h

example (res : YallResult 1 1) (h : YallSolveW unit1 unit1 unit1 unit1 (v1 1) none none none false 0.5 0 1 5e-3 9999 res) :=
  c64_residual_basis unit1 unit1 unit1 unit1 (v1 1) (v1_ne_zero one_ne_zero) none none none 0.5 0 1 5e-3 9999 res h

example := c64_box unit1 unit1 demoArgs (fun i => one_pos) (v1 (-1)) 0

example (res : YallResult 1 1) (h : YallSolve unit1 unit1 (v1 1) none none none true 0.5 0 1 5e-3 9999 res) :=
  c64_counters unit1 unit1 (v1 1) none none none true 0.5 0 1 5e-3 9999 res h

example (res : YallResult 1 1) (h : YallSolve unit1 unit1 (v1 1) none none none false 0.5 0 1 5e-3 9999 res) :=
  c64_zero_partial unit1 unit1 unit1_adj (v1 1) (v1_ne_zero one_ne_zero) 0.5 0 (by norm_num) le_rfl none 1 5e-3 9999 res h

example (res : YallResult 1 1) (h : YallSolve unit1 unit1 (v1 1) none none none false 0 0.5 1 5e-3 9999 res) :=
  c64_zero_con unit1 unit1 unit1_adj (v1 1) (v1_ne_zero one_ne_zero) none (fun v hv => by simp at hv) 0 0.5 le_rfl (by norm_num)
    ⟨_, ex_con_feas.1⟩ none 1 5e-3 9999 res h

example := c86_converges unit1 unit1 unit1_adj unit1_orth (v1 1) (v1_ne_zero one_ne_zero) none (fun i => one_pos) true 0.5 0 5e-3 9999 (fun _ => by norm_num) 0 0

example := c86_converges_nonneg unit1 unit1 unit1_adj unit1_orth (v1 1) (v1_ne_zero one_ne_zero) none (fun i => one_pos) 0 0 5e-3 9999 0 0 (v1 1) (v1 1)
  ex_pair.2.2.2.2.1 ex_pair.2.2.2.2.2.1 (by
    have hp : yallProblem 0 0 = .bp := by simp [yallProblem]
    have h := ex_pair.2.2.2.2.2.2
    rw [hp] at h ⊢
    exact h)

example := c85_fixed_point unit1 unit1 unit1_adj unit1_orth (v1 1) (v1_ne_zero one_ne_zero) none (fun i => one_pos) true 0 0 0.1 5e-3 (by norm_num) 2
  (yallInit unit1 unit1 demoArgs (v1 1) (v1 1)) ex_fixed.1 ex_fixed.2

/-- The pair `(1, 1)` is optimal and its duality gap is zero. -/
example (s : YallState 1 1) := c86_monotone unit1 unit1 unit1_adj unit1_orth { demoArgs with gamma := 1 } (by
    show (yallSelect 0 0 _).Pos
    simp [yallSelect, YallForm.Pos]) (fun i => one_pos) (by
    show demoArgs.b ≠ 0
    rw [demo_b]; exact v1_ne_zero one_ne_zero) rfl s (v1 1) (v1 1) (by
    show yallFeas (yallSelect 0 0 _) true unit1 demoArgs.b (v1 1)
    rw [demo_b]
    simp only [yallSelect, lt_self_iff_false, if_false]
    exact ⟨fun _ i => by norm_num [v1], unit1_apply _⟩) (fun i => ⟨by rw [unit1_apply]; exact le_refl (1 : ℝ), fun h => absurd h (by simp [demoArgs, yallArgs])⟩) (by
    show yallObj (yallSelect 0 0 _) _ unit1 demoArgs.b (v1 1) = _
    simp only [yallDual, demo_b]
    simp only [demoArgs, yallArgs, yallSelect, lt_self_iff_false, if_false, v1_inner]
    show ∑ i, (1 : ℝ) * |v1 1 i| = _
    simp [v1])

end Verif.Cvx
