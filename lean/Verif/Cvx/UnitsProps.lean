import Verif.LoopMap
import Verif.Cvx.YallStopProps
import Verif.Cvx.FocussProps

set_option autoImplicit false
/-!
# C156: units, signs and orderings of the data of the convex solvers
-/
noncomputable section
namespace Verif.Cvx
open Verif.Loop Verif.Opt Matrix
open Verif.Sls (counted)
open scoped RealInnerProductSpace

variable {m n : ℕ}

/-- Specification: the same result in other units (signal and residual multiplied by `c`, all counts unchanged). -/
def YallResult.rescale (c : ℝ) (r : YallResult m n) : YallResult m n := { r with x := c • r.x, r := c • r.r }

theorem yallZero_rescale {c : ℝ} (hc : 0 < c) (b : Vec m) (v : Vec n) (rho delta : ℝ) :
    YallZero (c • b) (c • v) (c * rho) (c * delta) ↔ YallZero b v rho delta := by
  unfold YallZero
  rw [norm_smul, Real.norm_of_nonneg hc.le, linf_smul, abs_of_pos hc]
  simp only [mul_pos_iff_of_pos_left hc, mul_le_mul_iff_right₀ hc]

theorem yallSelect_rescale {c : ℝ} (hc : 0 < c) (rho delta l : ℝ) : yallSelect (c * rho) (c * delta) (c * l) = yallSelect rho delta l := by
  unfold yallSelect
  simp only [mul_pos_iff_of_pos_left hc, mul_div_mul_left _ _ hc.ne']

theorem yallArgs_rescale {c : ℝ} (hc : 0 < c) (b : Vec m) (weights : Option (Vec n)) (nonneg : Bool) (rho delta gamma tol : ℝ) (maxIters : ℕ) :
    yallArgs (c • b) weights nonneg (c * rho) (c * delta) gamma tol maxIters = yallArgs b weights nonneg rho delta gamma tol maxIters := by
  unfold yallArgs
  rw [linf_smul, abs_of_pos hc, yallSelect_rescale hc, smul_smul, mul_inv, mul_right_comm, inv_mul_cancel₀ hc.ne', one_mul]

/-- **C156** (units, YALL1) with the default start, multiplying the data, `rho` and `delta` by `c > 0` multiplies solution and residual by `c` and changes nothing
else: same iterations, same counts. The operator `A` is arbitrary and `At` need only commute with the change of units at `b`. -/
theorem c156_yall_units (A : Vec n → Vec m) (At : Vec m → Vec n) (b : Vec m) (z0 weights : Option (Vec n)) (nonneg : Bool) (rho delta gamma tol : ℝ)
    (maxIters : ℕ) {c : ℝ} (hc : 0 < c) (hAt : At (c • b) = c • At b) (res' : YallResult m n) :
    YallSolve A At (c • b) none z0 weights nonneg (c * rho) (c * delta) gamma tol maxIters res' ↔
      ∃ res, YallSolve A At b none z0 weights nonneg rho delta gamma tol maxIters res ∧ res' = res.rescale c := by
  have e : (linf (c • b))⁻¹ • At (c • b) = (linf b)⁻¹ • At b := by
    rw [hAt, linf_smul, abs_of_pos hc, smul_smul, mul_inv, mul_right_comm, inv_mul_cancel₀ hc.ne', one_mul]
  unfold YallSolve
  simp only [counted, Option.getD_none, e, yallArgs_rescale hc]
  rw [hAt, yallZero_rescale hc, linf_smul, abs_of_pos hc]
  constructor
  · rintro (⟨h0, rfl⟩ | ⟨h0, s, hs, rfl⟩)
    · exact ⟨_, .inl ⟨h0, rfl⟩, by simp [YallResult.rescale]⟩
    · exact ⟨_, .inr ⟨h0, s, hs, rfl⟩, by simp [YallResult.rescale, mul_smul]⟩
  · rintro ⟨res, ⟨h0, rfl⟩ | ⟨h0, s, hs, rfl⟩, rfl⟩
    · exact .inl ⟨h0, by simp [YallResult.rescale]⟩
    · exact .inr ⟨h0, s, hs, by simp [YallResult.rescale, mul_smul]⟩

/-! ## Signs and orderings for YALL1 -/

/-- A state in transformed coordinates. -/
def YallState.mapBy (P : Vec n → Vec n) (Q : Vec m → Vec m) (s : YallState m n) : YallState m n :=
  { s with x := P s.x, xPrev := P s.xPrev, z := P s.z, rp := Q s.rp, rd := P s.rd }

/-- Specification: the same result in transformed coordinates, all counts unchanged. -/
def YallResult.mapBy (P : Vec n → Vec n) (Q : Vec m → Vec m) (r : YallResult m n) : YallResult m n := { r with x := P r.x, r := Q r.r }

/-- What a change of coordinates must respect for a run of the solver. -/
structure Respects (P : Vec n →ₗ[ℝ] Vec n) (Q : Vec m →ₗ[ℝ] Vec m) (nonneg : Bool) (w w' : Vec n) : Prop where
  normP : ∀ x, ‖P x‖ = ‖x‖
  normQ : ∀ y, ‖Q y‖ = ‖y‖
  l1Q : ∀ y, l1 (Q y) = l1 y
  linfQ : ∀ y, linf (Q y) = linf y
  linfP : ∀ x, linf (P x) = linf x
  obj : ∀ x, ∑ i, |w' i * P x i| = ∑ i, |w i * x i|
  proj : ∀ z, yallProj nonneg (P z) w' = P (yallProj nonneg z w)
  clip : ∀ x, yallClip nonneg (P x) = P (yallClip nonneg x)

theorem inner_of_norm {E : Type*} [NormedAddCommGroup E] [InnerProductSpace ℝ E] (Q : E →ₗ[ℝ] E) (h : ∀ y, ‖Q y‖ = ‖y‖) (x y : E) :
    inner ℝ (Q x) (Q y) = inner ℝ x y := by
  have h1 := norm_add_sq_real (Q x) (Q y)
  have h2 := norm_add_sq_real x y
  rw [← map_add, h, h, h] at h1
  linarith

section
variable {A A' : Vec n → Vec m} {At At' : Vec m → Vec n} {P : Vec n →ₗ[ℝ] Vec n} {Q : Vec m →ₗ[ℝ] Vec m} {p p' : YallArgs m n}

theorem yallPrimal_map (h : Respects P Q p.nonneg p.w p'.w) (hf : p'.form = p.form) (x : Vec n) (r : Vec m) : yallPrimal p' (P x) (Q r) = yallPrimal p x r := by
  unfold yallPrimal
  rw [hf]
  cases p.form <;> simp only [h.obj, inner_of_norm Q h.normQ]

theorem yallDual_map (h : Respects P Q p.nonneg p.w p'.w) (hf : p'.form = p.form) (hb : p'.b = Q p.b) (y : Vec m) : yallDual p' (Q y) = yallDual p y := by
  unfold yallDual
  rw [hf, hb]
  cases p.form <;> simp only [inner_of_norm Q h.normQ, h.normQ]

theorem yallShrink_map (hQ : ∀ y, ‖Q y‖ = ‖y‖) (f : YallForm) (mu : ℝ) (y : Vec m) : yallShrink f mu (Q y) = Q (yallShrink f mu y) := by
  cases f <;> simp only [yallShrink, map_smul, hQ]

theorem yallMu_map (h : ∀ y, l1 (Q y) = l1 y) (b : Vec m) : yallMu (Q b) = yallMu b := by rw [yallMu, h, yallMu]

theorem yallIter_map (h : Respects P Q p.nonneg p.w p'.w) (hf : p'.form = p.form) (hb : p'.b = Q p.b) (hn : p'.nonneg = p.nonneg) (hg : p'.gamma = p.gamma)
    (hA : ∀ x, A' (P x) = Q (A x)) (hAt : ∀ y, At' (Q y) = P (At y)) (s : YallState m n) :
    yallIter A' At' p' (s.mapBy P Q) = (yallIter A At p s).mapBy P Q := by
  have hmu : yallMu p'.b = yallMu p.b := by rw [hb, yallMu_map h.l1Q]
  have e1 : A' (P s.z - (yallMu p.b)⁻¹ • P s.x) + (yallMu p.b)⁻¹ • p'.b = Q (A (s.z - (yallMu p.b)⁻¹ • s.x) + (yallMu p.b)⁻¹ • p.b) := by
    rw [← map_smul, ← map_sub, hA, hb, map_add, map_smul]
  unfold yallIter YallState.mapBy
  simp only [counted, hmu, e1, hf, yallShrink_map h.normQ, hAt, hn, hg]
  have e2 : ∀ u, yallProj p.nonneg (P u + (yallMu p.b)⁻¹ • P s.x) p'.w = P (yallProj p.nonneg (u + (yallMu p.b)⁻¹ • s.x) p.w) := fun u => by
    rw [← h.proj, map_add, map_smul]
  have e3 : ∀ u : Vec n, P s.x - (p.gamma * yallMu p.b) • P u = P (s.x - (p.gamma * yallMu p.b) • u) := fun u => by rw [map_sub, map_smul]
  have e4 : ∀ u : Vec n, p'.b - A' (P u) = Q (p.b - A u) := fun u => by rw [hA, hb, map_sub]
  simp only [e2, ← map_sub, e3, e4, yallPrimal_map h hf, yallDual_map h hf hb]

theorem yallInit_map (h : Respects P Q p.nonneg p.w p'.w) (hf : p'.form = p.form) (hb : p'.b = Q p.b)
    (hA : ∀ x, A' (P x) = Q (A x)) (hAt : ∀ y, At' (Q y) = P (At y)) (x0 z0 : Vec n) :
    yallInit A' At' p' (P x0) (P z0) = (yallInit A At p x0 z0).mapBy P Q := by
  unfold yallInit YallState.mapBy
  simp only [counted, hb, hA, hAt, ← map_sub, ← map_neg, yallPrimal_map h hf, map_zero]

theorem yallCond_map (h : Respects P Q p.nonneg p.w p'.w) (hf : p'.form = p.form) (hb : p'.b = Q p.b) (ht : p'.tol = p.tol) (hm : p'.maxIters = p.maxIters)
    (s : YallState m n) : yallCond p' (s.mapBy P Q) ↔ yallCond p s := by
  unfold yallCond gapInfeasible dInfeasible YallState.mapBy
  rw [hf]
  cases p.form <;> simp only [ht, hm, hb, ← map_sub, h.normP, h.normQ]

theorem yallOut_map (h : Respects P Q p.nonneg p.w p'.w) (hf : p'.form = p.form) (hb : p'.b = Q p.b) (hn : p'.nonneg = p.nonneg) (hg : p'.gamma = p.gamma)
    (ht : p'.tol = p.tol) (hm : p'.maxIters = p.maxIters) (hA : ∀ x, A' (P x) = Q (A x)) (hAt : ∀ y, At' (Q y) = P (At y)) (x0 z0 : Vec n)
    {s : YallState m n} (hs : YallOut A At p x0 z0 s) (t : YallState m n) : YallOut A' At' p' (P x0) (P z0) t ↔ t = s.mapBy P Q := by
  unfold YallOut
  rw [yallInit_map h hf hb hA hAt]
  exact Out.map (YallState.mapBy P Q) (fun s _ => yallCond_map h hf hb ht hm s)
    (fun s _ _ => by rw [yallBody, yallIter_map h hf hb hn hg hA hAt, yallIter_map h hf hb hn hg hA hAt]; rfl) hs t

end

/-- A change of coordinates that a run respects maps results to results. -/
theorem yallSolve_map (A A' : Vec n →ₗ[ℝ] Vec m) (At At' : Vec m →ₗ[ℝ] Vec n) (P : Vec n →ₗ[ℝ] Vec n) (Q : Vec m →ₗ[ℝ] Vec m) (b : Vec m)
    (x0 z0 weights weights' : Option (Vec n)) (nonneg : Bool) (rho delta gamma tol : ℝ) (maxIters : ℕ)
    (h : Respects P Q nonneg (yallWeights weights) (yallWeights weights'))
    (hA : ∀ x, A' (P x) = Q (A x)) (hAt : ∀ y, At' (Q y) = P (At y)) (res' : YallResult m n) :
    YallSolve A' At' (Q b) (x0.map P) (z0.map P) weights' nonneg rho delta gamma tol maxIters res' ↔
      ∃ res, YallSolve A At b x0 z0 weights nonneg rho delta gamma tol maxIters res ∧ res' = res.mapBy P Q := by
  have hz : YallZero (Q b) (P (At b)) rho delta ↔ YallZero b (At b) rho delta := by
    unfold YallZero; rw [h.normQ, h.linfP]
  have hx0 : (x0.map P).getD ((linf (Q b))⁻¹ • P (At b)) = P (x0.getD ((linf b)⁻¹ • At b)) := by
    cases x0 <;> simp [h.linfQ]
  have hz0 : (z0.map P).getD 0 = P (z0.getD 0) := by cases z0 <;> simp
  unfold YallSolve
  simp only [counted, hx0, hz0, hAt, hz]
  obtain ⟨s0, hs0⟩ : ∃ s, YallOut A At (yallArgs b weights nonneg rho delta gamma tol maxIters) (x0.getD ((linf b)⁻¹ • At b)) (z0.getD 0) s :=
    (exists_out (fun s : YallState m n => s.iterations) maxIters (fun s hs => by
      revert hs; unfold yallCond; split
      · exact fun h => h.2.1
      · exact fun h => h.1.1
      · exact fun h => h.2.1) (fun s => Nat.lt_of_lt_of_le (Nat.lt_succ_self _) (Nat.le_succ _)))
  have key := fun t => yallOut_map (A := A) (A' := A') (At := At) (At' := At') (P := P) (Q := Q) (p := yallArgs b weights nonneg rho delta gamma tol maxIters)
    (p' := yallArgs (Q b) weights' nonneg rho delta gamma tol maxIters) h (by simp [yallArgs, h.linfQ]) (by simp [yallArgs, h.linfQ]) rfl rfl rfl rfl hA hAt
    (x0.getD ((linf b)⁻¹ • At b)) (z0.getD 0) hs0 t
  constructor
  · rintro (⟨h0, rfl⟩ | ⟨h0, t, ht, rfl⟩)
    · exact ⟨_, .inl ⟨h0, rfl⟩, by simp [YallResult.mapBy]⟩
    · rw [key] at ht
      subst ht
      exact ⟨_, .inr ⟨h0, s0, hs0, rfl⟩, by simp [YallResult.mapBy, YallState.mapBy, h.linfQ, h.clip]⟩
  · rintro ⟨res, ⟨h0, rfl⟩ | ⟨h0, s, hs, rfl⟩, rfl⟩
    · exact .inl ⟨h0, by simp [YallResult.mapBy]⟩
    · obtain rfl := hs.unique hs0
      exact .inr ⟨h0, _, (key _).2 rfl, by simp [YallResult.mapBy, YallState.mapBy, h.linfQ, h.clip]⟩

/-- **C156** (sign, YALL1) without the sign constraint, negating the data (and a given start) negates solution and residual and changes nothing else. -/
theorem c156_yall_sign (A : Vec n →ₗ[ℝ] Vec m) (At : Vec m →ₗ[ℝ] Vec n) (b : Vec m) (x0 z0 weights : Option (Vec n)) (rho delta gamma tol : ℝ)
    (maxIters : ℕ) (res' : YallResult m n) :
    YallSolve A At (-b) (x0.map fun x => -x) (z0.map fun z => -z) weights false rho delta gamma tol maxIters res' ↔
      ∃ res, YallSolve A At b x0 z0 weights false rho delta gamma tol maxIters res ∧ res' = { res with x := -res.x, r := -res.r } := by
  have := yallSolve_map A A At At (-LinearMap.id) (-LinearMap.id) b x0 z0 weights weights false rho delta gamma tol maxIters
    ⟨fun x => norm_neg x, fun x => norm_neg x, fun x => by simp [l1], fun x => by simp [linf_neg], fun x => by simp [linf_neg], fun x => by simp,
      fun z => by
        ext i
        simp [yallProj, projectToBox],
      fun x => rfl⟩ (fun x => by simp) (fun x => by simp) res'
  exact this

/-- The array `x` with its entries reordered by `σ`: entry `i` of the new array is entry `σ i` of the old. -/
def reorder {k : ℕ} (σ : Equiv.Perm (Fin k)) : Vec k →ₗ[ℝ] Vec k where
  toFun x := vec fun i => x (σ i)
  map_add' _ _ := rfl
  map_smul' _ _ := rfl

theorem reorder_norm {k : ℕ} (σ : Equiv.Perm (Fin k)) (x : Vec k) : ‖reorder σ x‖ = ‖x‖ := by
  have : ‖reorder σ x‖ ^ 2 = ‖x‖ ^ 2 := by
    rw [norm_sq_sum, norm_sq_sum]
    exact Equiv.sum_comp σ fun i => x i ^ 2
  exact (sq_eq_sq₀ (norm_nonneg _) (norm_nonneg _)).mp this

theorem reorder_l1 {k : ℕ} (σ : Equiv.Perm (Fin k)) (x : Vec k) : l1 (reorder σ x) = l1 x := Equiv.sum_comp σ fun i => |x i|

theorem reorder_linf {k : ℕ} (σ : Equiv.Perm (Fin k)) (x : Vec k) : linf (reorder σ x) = linf x := by
  refine le_antisymm ?_ ?_
  · exact inner_le_iff_linf (linf_nonneg x) fun i => abs_le_linf x (σ i)
  · refine inner_le_iff_linf (linf_nonneg _) fun i => ?_
    have := abs_le_linf (reorder σ x) (σ.symm i)
    rwa [show (reorder σ x) (σ.symm i) = x (σ (σ.symm i)) from rfl, Equiv.apply_symm_apply] at this

/-- **C156** (orderings, YALL1) the order of the unknowns and of the measurements does not matter: if `A'` is `A` with rows reordered by `τ` and columns by `σ`,
the run on the reordered data returns the reordered solution and residual with the same counts. -/
theorem c156_yall_order (A A' : Vec n →ₗ[ℝ] Vec m) (At At' : Vec m →ₗ[ℝ] Vec n) (σ : Equiv.Perm (Fin n)) (τ : Equiv.Perm (Fin m)) (b : Vec m)
    (x0 z0 weights : Option (Vec n)) (nonneg : Bool) (rho delta gamma tol : ℝ) (maxIters : ℕ)
    (hA : ∀ x, A' (reorder σ x) = reorder τ (A x)) (hAt : ∀ y, At' (reorder τ y) = reorder σ (At y)) (res' : YallResult m n) :
    YallSolve A' At' (reorder τ b) (x0.map (reorder σ)) (z0.map (reorder σ)) (weights.map (reorder σ)) nonneg rho delta gamma tol maxIters res' ↔
      ∃ res, YallSolve A At b x0 z0 weights nonneg rho delta gamma tol maxIters res ∧ res' = { res with x := reorder σ res.x, r := reorder τ res.r } := by
  have hw : yallWeights (weights.map (reorder σ)) = reorder σ (yallWeights weights) := by cases weights <;> rfl
  refine yallSolve_map A A' At At' (reorder σ) (reorder τ) b x0 z0 weights (weights.map (reorder σ)) nonneg rho delta gamma tol maxIters ?_ hA hAt res'
  rw [hw]
  refine ⟨reorder_norm σ, reorder_norm τ, reorder_l1 τ, reorder_linf τ, reorder_linf σ, fun x => Equiv.sum_comp σ fun i => |yallWeights weights i * x i|, ?_, ?_⟩
  · intro z; cases nonneg <;> rfl
  · intro x; cases nonneg <;> rfl

/-! ## FOCUSS -/

/-- Specification: the same state in other units. -/
def FocussState.rescale (c : ℝ) (s : FocussState m n) : FocussState m n :=
  { x := s.x.map fun x => c • x, r := s.r.map fun r => c • r, rNormSqr := s.rNormSqr.map fun v => c ^ 2 * v, iterations := s.iterations }

theorem linSolve_smul_right (G : Matrix (Fin m) (Fin m) ℝ) (c : ℝ) (y : Fin m → ℝ) : linSolve G (c • y) = (linSolve G y).map fun v => c • v := by
  unfold linSolve
  split <;> simp [Matrix.mulVec_smul]

theorem linSolve_smul_left (G : Matrix (Fin m) (Fin m) ℝ) {k : ℝ} (hk : k ≠ 0) (y : Fin m → ℝ) : linSolve (k • G) y = (linSolve G y).map fun v => k⁻¹ • v := by
  unfold linSolve
  rw [Matrix.det_smul]
  by_cases h : G.det = 0
  · rw [if_neg (by simp [h]), if_neg (by simp [h])]; rfl
  · rw [if_pos (mul_ne_zero (pow_ne_zero _ hk) h), if_pos h]
    have : (k • G)⁻¹ = k⁻¹ • G⁻¹ := by
      apply Matrix.inv_eq_left_inv
      rw [Matrix.smul_mul, Matrix.mul_smul, smul_smul, inv_mul_cancel₀ hk, one_smul, Matrix.nonsing_inv_mul _ (isUnit_iff_ne_zero.2 h)]
    rw [this, Matrix.smul_mulVec]
    rfl

theorem step_smul_y (Phi : Matrix (Fin m) (Fin n) ℝ) (y : Fin m → ℝ) (x : Fin n → ℝ) (p c : ℝ) :
    stepNoiseless Phi (c • y) x p = (stepNoiseless Phi y x p).map fun v => c • v := by
  unfold stepNoiseless
  simp only [linSolve_smul_right]
  cases linSolve (Phi * focussA Phi p x) y <;> simp [Matrix.mulVec_smul]

theorem step_smul_x (Phi : Matrix (Fin m) (Fin n) ℝ) (y : Fin m → ℝ) (x : Fin n → ℝ) (p : ℝ) {c : ℝ} (hc : c ≠ 0) :
    stepNoiseless Phi y (c • x) p = stepNoiseless Phi y x p := by
  have hk : |c| ^ p * |c| ^ p ≠ 0 := by
    have := (Real.rpow_pos_of_pos (abs_pos.2 hc) p).ne'
    exact mul_ne_zero this this
  have e : focussA Phi p (c • x) = (|c| ^ p * |c| ^ p) • focussA Phi p x := by
    ext i j
    simp only [focussA, xp2, Matrix.of_apply, Matrix.smul_apply, Pi.smul_apply, smul_eq_mul, abs_mul]
    rw [Real.mul_rpow (abs_nonneg _) (abs_nonneg _)]
    ring
  unfold stepNoiseless
  rw [e]
  simp only [Matrix.mul_smul]
  rw [linSolve_smul_left _ hk]
  cases linSolve (Phi * focussA Phi p x) y with
  | none => rfl
  | some v => simp only [Option.map_some, Matrix.smul_mulVec, Matrix.mulVec_smul, smul_smul, mul_inv_cancel₀ hk, one_smul]

theorem focussState_rescale (Phi : Matrix (Fin m) (Fin n) ℝ) (y : Fin m → ℝ) (x : Option (Fin n → ℝ)) (k : ℕ) (c : ℝ) :
    focussState Phi (c • y) (x.map fun x => c • x) k = (focussState Phi y x k).rescale c := by
  cases x with
  | none => rfl
  | some x =>
    simp only [focussState, FocussState.rescale, Option.map_some]
    have : c • y - Phi *ᵥ (c • x) = c • (y - Phi *ᵥ x) := by rw [Matrix.mulVec_smul, smul_sub]
    rw [this]
    congr 2
    rw [smul_dotProduct, dotProduct_smul, smul_eq_mul, smul_eq_mul]; ring

theorem focuss_start {Phi : Matrix (Fin m) (Fin n) ℝ} {y : Fin m → ℝ} {p : ℝ} {N : ℕ} {s : FocussState m n} (h : FocussReach Phi y p N s) :
    s.iterations = 0 → s = focussInit Phi y := by
  cases h with
  | init => exact fun _ => rfl
  | step _ _ => exact fun h => absurd h (Nat.succ_ne_zero _)

theorem focuss_exists (Phi : Matrix (Fin m) (Fin n) ℝ) (y : Fin m → ℝ) (p : ℝ) (N : ℕ) : ∃ s, FocussSolve Phi y p N s :=
  exists_out (fun s : FocussState m n => s.iterations) N (fun _ h => h) (fun _ => Nat.lt_succ_self _)

open Classical in
/-- **C156** (units, FOCUSS) although FOCUSS always starts at the array of ones, multiplying the data by any `c ≠ 0` multiplies the returned signal and residual by `c`
after any positive number of iterations. -/
theorem c156_focuss_units (Phi : Matrix (Fin m) (Fin n) ℝ) (y : Fin m → ℝ) (p : ℝ) {N : ℕ} (hN : 0 < N) {c : ℝ} (hc : c ≠ 0) (s' : FocussState m n) :
    FocussSolve Phi (c • y) p N s' ↔ ∃ s, FocussSolve Phi y p N s ∧ s' = s.rescale c := by
  obtain ⟨s0, hs0⟩ := focuss_exists Phi y p N
  let g : FocussState m n → FocussState m n := fun s => if s.iterations = 0 then focussInit Phi (c • y) else s.rescale c
  have key : FocussSolve Phi (c • y) p N s' ↔ s' = g s0 := by
    have := Out.map (c' := fun s : FocussState m n => s.iterations < N) (f' := focussBody Phi (c • y) p) g (fun s _ => by
        show (g s).iterations < N ↔ s.iterations < N
        simp only [g]
        split_ifs with h
        · rw [h]; rfl
        · rfl) (fun s hs _ => by
        show focussBody Phi (c • y) p (g s) = g (focussBody Phi y p s)
        have e2 : g (focussBody Phi y p s) = (focussBody Phi y p s).rescale c := if_neg (Nat.succ_ne_zero _)
        rw [e2]
        by_cases h : s.iterations = 0
        · have e1 : g s = focussInit Phi (c • y) := if_pos h
          rw [e1, focuss_start hs h]
          show focussState Phi (c • y) (stepNoiseless Phi (c • y) (fun _ => 1) p) 1 = (focussState Phi y (stepNoiseless Phi y (fun _ => 1) p) 1).rescale c
          rw [step_smul_y, focussState_rescale]
        · have e1 : g s = s.rescale c := if_neg h
          rw [e1]
          unfold focussBody
          rw [← focussState_rescale]
          congr 1
          show (s.x.map fun x => c • x).bind (fun x => stepNoiseless Phi (c • y) x p) = (s.x.bind fun x => stepNoiseless Phi y x p).map fun x => c • x
          cases s.x with
          | none => rfl
          | some x => simp [step_smul_y, step_smul_x _ _ _ _ hc]) hs0 s'
    have e0 : g (focussInit Phi y) = focussInit Phi (c • y) := if_pos rfl
    rw [e0] at this
    exact this
  have hpos : s0.iterations ≠ 0 := by
    have : ¬ s0.iterations < N := hs0.2
    omega
  rw [key, show g s0 = s0.rescale c from if_neg hpos]
  exact ⟨fun h => ⟨s0, hs0, h⟩, fun ⟨s, hs, h⟩ => by rw [h, Out.unique hs hs0]⟩

theorem step_mul_left (Q : Matrix (Fin m) (Fin m) ℝ) (hQ : Q.det ≠ 0) (Phi : Matrix (Fin m) (Fin n) ℝ) (y : Fin m → ℝ) (x : Fin n → ℝ) (p : ℝ) :
    stepNoiseless (Q * Phi) (Q *ᵥ y) x p = stepNoiseless Phi y x p := by
  have e : focussA (Q * Phi) p x = focussA Phi p x * Qᵀ := by
    ext i j
    simp only [focussA, Matrix.of_apply, Matrix.mul_apply, Finset.mul_sum, Matrix.transpose_apply]
    exact Finset.sum_congr rfl fun k _ => by ring
  unfold stepNoiseless
  rw [e]
  simp only
  set G := Phi * focussA Phi p x with hG
  have e1 : Q * Phi * (focussA Phi p x * Qᵀ) = Q * G * Qᵀ := by simp only [hG, Matrix.mul_assoc]
  rw [e1]
  unfold linSolve
  have hd : (Q * G * Qᵀ).det = Q.det * G.det * Q.det := by rw [Matrix.det_mul, Matrix.det_mul, Matrix.det_transpose]
  by_cases h : G.det = 0
  · rw [if_neg (by simp [hd, h]), if_neg (by simp [h])]; rfl
  · rw [if_pos (by rw [hd]; exact mul_ne_zero (mul_ne_zero hQ h) hQ), if_pos h]
    have hu := isUnit_iff_ne_zero.2 hQ
    have hut : IsUnit Qᵀ.det := by rwa [Matrix.det_transpose]
    simp only [Option.map_some, Matrix.mulVec_mulVec]
    congr 2
    rw [Matrix.mul_inv_rev, Matrix.mul_inv_rev]
    simp only [Matrix.mul_assoc]
    rw [← Matrix.mul_assoc Qᵀ, Matrix.mul_nonsing_inv _ hut, Matrix.one_mul, Matrix.nonsing_inv_mul _ hu, Matrix.mul_one]

/-- **C156** (measurement coordinates, FOCUSS) multiplying dictionary and data by an invertible matrix `Q` leaves the returned signal and the iteration count unchanged
and multiplies the residual by `Q`. -/
theorem c156_focuss_coordinates (Q : Matrix (Fin m) (Fin m) ℝ) (hQ : Q.det ≠ 0) (Phi : Matrix (Fin m) (Fin n) ℝ) (y : Fin m → ℝ) (p : ℝ) (N : ℕ)
    (s s' : FocussState m n) (hs : FocussSolve Phi y p N s) (hs' : FocussSolve (Q * Phi) (Q *ᵥ y) p N s') :
    s'.x = s.x ∧ s'.iterations = s.iterations ∧ s'.r = s.r.map fun r => Q *ᵥ r := by
  let g : FocussState m n → FocussState m n := fun s => focussState (Q * Phi) (Q *ᵥ y) s.x s.iterations
  have hr : s.r = s.x.map fun x => y - Phi *ᵥ x := by
    have : s.r = (focussState Phi y s.x s.iterations).r := hs.1.inv (fun s => s.r = (focussState Phi y s.x s.iterations).r) rfl (fun s _ _ => rfl)
    exact this
  have := (Out.map (c' := fun s : FocussState m n => s.iterations < N) (f' := focussBody (Q * Phi) (Q *ᵥ y) p) g (fun s _ => Iff.rfl) (fun s _ _ => by
    show focussState _ _ (s.x.bind fun x => stepNoiseless (Q * Phi) (Q *ᵥ y) x p) _ = focussState _ _ (s.x.bind fun x => stepNoiseless Phi y x p) _
    simp only [step_mul_left Q hQ]
    rfl) hs s').1 hs'
  rw [this]
  refine ⟨rfl, rfl, ?_⟩
  rw [hr]
  show (s.x.map fun x => Q *ᵥ y - (Q * Phi) *ᵥ x) = _
  rw [Option.map_map]
  congr 1
  funext x
  show _ = Q *ᵥ (y - Phi *ᵥ x)
  rw [Matrix.mulVec_sub, Matrix.mulVec_mulVec]

/-! ## SPGL1 -/

/-- **C156** fails for `solve_lasso` of SPGL1: its tolerances are absolute for small data. For every problem there is a scale below which the default solver returns
the zero array without iterating. -/
theorem c156_lasso_units_fails (A : Vec n →ₗ[ℝ] Vec m) (At : Vec m →ₗ[ℝ] Vec n) (b : Vec m) {tau : ℝ} (htau : 0 ≤ tau) :
    ∃ c0 > 0, ∀ c, 0 < c → c ≤ c0 → ∀ s, LassoSolve A At (c • b) (c * tau) spgl1Default s → s.x = 0 ∧ s.iterations = 1 := by
  have hK : 0 ≤ tau * linf (At b) := mul_nonneg htau (linf_nonneg _)
  refine ⟨min 1 (1e-4 / (1 + tau * linf (At b))), by positivity, fun c hc hc0 s hs => ?_⟩
  have hx : projectToL1Ball (0 : Vec n) (c * tau) = 0 := by
    unfold projectToL1Ball projL1Ball
    show (if l1 (0 : Vec n) > c * tau then _ else (0 : Vec n)) = 0
    rw [if_neg (by rw [show l1 (0 : Vec n) = 0 by simp [l1]]; exact not_lt.2 (by positivity))]
  have hstop : ¬ lassoCond (c • b) spgl1Default (lassoInit A At (c • b) (c * tau) 0 spgl1Default) := by
    rintro ⟨_, h2, _⟩
    have e : (lassoInit A At (c • b) (c * tau) 0 spgl1Default).rGap = relGap (c • b) (-At (c • b)) (c • b) (objVal (c • b)) (c * tau) := by
      simp only [lassoInit, counted, hx, map_zero, sub_zero]
    rw [e, relGap, sub_self, inner_zero_right, zero_add, linf_neg, map_smul, linf_smul, abs_of_pos hc] at h2
    have h3 : |c * tau * (c * linf (At b))| / max 1 (objVal (c • b)) ≤ |c * tau * (c * linf (At b))| := div_le_self (abs_nonneg _) (le_max_left _ _)
    have h4 : |c * tau * (c * linf (At b))| = c * (c * (tau * linf (At b))) := by
      rw [abs_of_nonneg (by have := linf_nonneg (At b); positivity)]; ring
    have h5 : c ≤ 1 := hc0.trans (min_le_left _ _)
    have h6 : c * (1 + tau * linf (At b)) ≤ 1e-4 := by
      have := hc0.trans (min_le_right _ _)
      rwa [le_div_iff₀ (by positivity)] at this
    have h7 : c * (c * (tau * linf (At b))) ≤ 1 * (c * (tau * linf (At b))) := mul_le_mul_of_nonneg_right h5 (by positivity)
    have : (spgl1Default).optTol = 1e-4 := rfl
    rw [this] at h2
    nlinarith
  have : s = _ := Out.unique hs ⟨Reach.init, hstop⟩
  rw [this]
  exact ⟨hx, rfl⟩

/-- **C156** fails for `solve_bpic` of SPGL1 as well: whatever the problem, if the data are small enough (norm at most `1e-4`) and `0 ≤ sigma < |b|`, the run started at zero
ends before its first iteration, at the zero array, whose residual violates the constraint. -/
theorem c156_bpic_units_fails (A : Vec n →ₗ[ℝ] Vec m) (At : Vec m →ₗ[ℝ] Vec n) (b : Vec m) (hb : ‖b‖ ≤ 1e-4) {sigma : ℝ} (h0 : 0 ≤ sigma) (h1 : sigma < ‖b‖)
    (s : BpState m n) (hs : BpReach A At b sigma 0 spgl1Default s) : ¬ bpCond b sigma spgl1Default s ∧ s.x = 0 ∧ s.r = b ∧ sigma < ‖s.r‖ := by
  have hx : projectToL1Ball (0 : Vec n) (l1 (0 : Vec n)) = 0 := by
    unfold projectToL1Ball projL1Ball
    show (if l1 (0 : Vec n) > l1 (0 : Vec n) then _ else (0 : Vec n)) = 0
    rw [if_neg (lt_irrefl _)]
  have key : ∀ s, bpInit A At b sigma 0 spgl1Default = some s → ¬ bpCond b sigma spgl1Default s ∧ s.x = 0 ∧ s.r = b ∧ sigma < ‖s.r‖ := fun s hs => by
    unfold bpInit at hs
    simp only [counted, hx, map_zero, sub_zero, Option.map_eq_some_iff] at hs
    obtain ⟨t, _, rfl⟩ := hs
    refine ⟨?_, rfl, rfl, h1⟩
    have he : resError ‖b‖ sigma ≤ 1e-4 := by
      unfold resError
      rw [abs_of_pos (by linarith)]
      exact (div_le_self (by linarith) (le_max_left _ _)).trans (by linarith)
    rintro ⟨⟨_, h⟩ | ⟨_, h, _⟩, _⟩ <;> exact absurd h (not_lt.2 he)
  induction hs with
  | init h => exact key _ h
  | step _ hc _ ih => exact absurd hc ih.1

/-! ## Concrete cases -/

/-- The default lasso solver does solve the same problem in larger units: for `x = 1`, `tau = 10` it returns `1`, in small enough units it returns `0`. -/
example : (∃ s, LassoSolve unit1 unit1 (v1 1) 10 spgl1Default s ∧ s.x = v1 1) ∧
    ∃ c > 0, ∀ s, LassoSolve unit1 unit1 (c • v1 1) (c * 10) spgl1Default s → s.x = 0 := by
  constructor
  · have e : ∀ x, unit1 x = x := unit1_apply
    set s0 := lassoInit unit1 unit1 (v1 1) 10 0 spgl1Default with hs0
    have hx : projectToL1Ball (0 : Vec 1) 10 = v1 0 := by rw [v1_zero]; exact v1_proj_in (by norm_num)
    have e_x : s0.x = v1 0 := hx
    have e_r : s0.r = v1 1 := by show v1 1 - unit1 (projectToL1Ball 0 10) = _; rw [hx, e, v1_sub]; norm_num
    have e_g : s0.g = v1 (-1) := by show -unit1 s0.r = _; rw [e_r, e, v1_neg]
    have e_a : s0.alphaNext = 1 := by
      have : s0.alphaNext = firstAlpha spgl1Default (projectToL1Ball (s0.x - s0.g) 10 - s0.x) := rfl
      rw [this, e_x, e_g, v1_sub, v1_proj_in (by norm_num), v1_sub, firstAlpha, v1_linf, if_neg (by norm_num), clip]
      simp only [spgl1Default]
      rw [max_eq_left (by norm_num), min_eq_left (by norm_num)]; norm_num
    have e_f : listMax s0.fPast = 1 / 2 := by
      have : s0.fPast = List.replicate 3 (objVal s0.r) := rfl
      rw [this, e_r, v1_obj]; norm_num [listMax, List.replicate]
    have hxn : projectToL1Ball (v1 0 - ((1 : ℝ) * 1) • ((1 : ℝ) • v1 (-1))) 10 = v1 1 := by
      rw [v1_smul, v1_smul, v1_sub, v1_proj_in (by norm_num)]; norm_num
    have hacc : ¬ curvyCond (curvyInit unit1 (v1 1) s0.x (s0.alphaNext • s0.g) (listMax s0.fPast) 10 spgl1Default.gamma s0.timesCalls) := by
      rw [e_x, e_g, e_a, e_f]
      rintro ⟨_, _, h⟩
      have h' : objVal (v1 1 - unit1 (projectToL1Ball (v1 0 - ((1 : ℝ) * 1) • ((1 : ℝ) • v1 (-1))) 10)) ≥ 1 / 2 + spgl1Default.gamma * 1 *
        (1 * ⟪(1 : ℝ) • v1 (-1), projectToL1Ball (v1 0 - ((1 : ℝ) * 1) • ((1 : ℝ) • v1 (-1))) 10 - v1 0⟫) := h
      rw [hxn, e, v1_sub, v1_sub, v1_obj, v1_smul, v1_inner] at h'
      norm_num [spgl1Default] at h'
    have hls := (curvy_out unit1 (v1 1) s0.x s0.g (listMax s0.fPast) 10 spgl1Default.gamma s0.timesCalls s0.alphaNext).unique ⟨.init, hacc⟩
    have hc : lassoCond (v1 1) spgl1Default s0 := by
      refine ⟨by simp [hs0, lassoInit, spgl1Default], ?_, ?_⟩
      · have : s0.rGap = relGap (v1 1) s0.g s0.r (objVal s0.r) 10 := rfl
        rw [this, e_g, e_r, relGap, v1_sub, v1_inner, v1_linf, v1_obj]
        norm_num [spgl1Default]
      · have : s0.rNorm = ‖s0.r‖ := rfl
        rw [this, e_r, v1_norm]; norm_num [spgl1Default]
    set s1 := lassoBody unit1 unit1 (v1 1) 10 spgl1Default s0 with hs1
    have f_x : s1.x = v1 1 := by
      show (curvyLineSearch unit1 (v1 1) s0.x s0.g s0.alphaNext (listMax s0.fPast) 10 spgl1Default.gamma s0.timesCalls).xNew = _
      rw [hls, e_x, e_g, e_a]
      exact hxn
    have f_r : s1.r = v1 0 := by
      show (curvyLineSearch unit1 (v1 1) s0.x s0.g s0.alphaNext (listMax s0.fPast) 10 spgl1Default.gamma s0.timesCalls).rNew = _
      rw [hls, e_x, e_g, e_a]
      show v1 1 - unit1 (projectToL1Ball (v1 0 - ((1 : ℝ) * 1) • ((1 : ℝ) • v1 (-1))) 10) = _
      rw [hxn, e, v1_sub]; norm_num
    refine ⟨s1, ⟨.step .init hc, fun h => ?_⟩, f_x⟩
    have h3 : s1.rNorm ≥ spgl1Default.optTol * ‖v1 1‖ := h.2.2
    rw [show s1.rNorm = ‖s1.r‖ from rfl, f_r, v1_norm, v1_norm] at h3
    norm_num [spgl1Default] at h3
  · obtain ⟨c0, h0, h⟩ := c156_lasso_units_fails unit1 unit1 (v1 1) (tau := 10) (by norm_num)
    exact ⟨c0, h0, fun s hs => (h c0 h0 le_rfl s hs).1⟩

/-- The failing BPIC runs exist: `b = 10⁻⁵`, `sigma = 0`. -/
example : ∃ s, BpReach unit1 unit1 (v1 1e-5) 0 0 spgl1Default s ∧ ¬ bpCond (v1 1e-5) 0 spgl1Default s ∧ s.x = 0 ∧ 0 < ‖s.r‖ := by
  have hn : ‖v1 1e-5‖ = 1e-5 := by rw [v1_norm]; norm_num
  have hx : projectToL1Ball (0 : Vec 1) (l1 (0 : Vec 1)) = 0 := by
    unfold projectToL1Ball projL1Ball
    show (if l1 (0 : Vec 1) > l1 (0 : Vec 1) then _ else (0 : Vec 1)) = 0
    rw [if_neg (lt_irrefl _)]
  obtain ⟨s, hs⟩ : ∃ s, bpInit unit1 unit1 (v1 1e-5) 0 0 spgl1Default = some s := by
    unfold bpInit
    simp only [counted, hx, map_zero, sub_zero, newtonTau, linf_neg, unit1_apply, v1_linf]
    rw [if_neg (by norm_num)]
    exact ⟨_, rfl⟩
  have := c156_bpic_units_fails unit1 unit1 (v1 1e-5) (by rw [hn]; norm_num) le_rfl (by rw [hn]; norm_num) s (.init hs)
  exact ⟨s, .init hs, this.1, this.2.1, this.2.2.2⟩

/-- A penalised problem measured in thousandths. -/
example (res : YallResult 1 1) (h : YallSolve unit1 unit1 (v1 1) none none none false 0.1 0 1 0.005 9999 res) :
    YallSolve unit1 unit1 ((1000 : ℝ) • v1 1) none none none false (1000 * 0.1) (1000 * 0) 1 0.005 9999 (res.rescale 1000) :=
  (c156_yall_units unit1 unit1 (v1 1) none none false 0.1 0 1 0.005 9999 (by norm_num : (0 : ℝ) < 1000) (map_smul _ _ _) _).2 ⟨res, h, rfl⟩

/-- Such runs exist. -/
example : ∃ res : YallResult 1 1, YallSolve unit1 unit1 (v1 1) none none none false 0.1 0 1 0.005 9999 res :=
  (c64_terminates (unit1 : Vec 1 →ₗ[ℝ] Vec 1) unit1 (v1 1) none none none false 0.1 0 1 0.005 9999).1

/-- Swapping the two unknowns of `x₀ + 2 x₁ = 1`. -/
example : ∃ (A A' : Vec 2 →ₗ[ℝ] Vec 1) (At At' : Vec 1 →ₗ[ℝ] Vec 2), A ≠ A' ∧ (∀ x, A' (reorder (Equiv.swap 0 1) x) = reorder 1 (A x)) ∧
    ∀ y, At' (reorder 1 y) = reorder (Equiv.swap 0 1) (At y) := by
  let mk : ℝ → ℝ → (Vec 2 →ₗ[ℝ] Vec 1) := fun a b =>
    { toFun := fun x => v1 (a * x 0 + b * x 1)
      map_add' := fun x y => by ext i; show a * (x 0 + y 0) + b * (x 1 + y 1) = a * x 0 + b * x 1 + (a * y 0 + b * y 1); ring
      map_smul' := fun c x => by ext i; show a * (c * x 0) + b * (c * x 1) = c * (a * x 0 + b * x 1); ring }
  let mkt : ℝ → ℝ → (Vec 1 →ₗ[ℝ] Vec 2) := fun a b =>
    { toFun := fun y => vec fun i => if i = 0 then a * y 0 else b * y 0
      map_add' := fun x y => by ext i; show (if i = 0 then a * (x 0 + y 0) else b * (x 0 + y 0)) = (if i = 0 then a * x 0 else b * x 0) + if i = 0 then a * y 0 else b * y 0; split_ifs <;> ring
      map_smul' := fun c x => by ext i; show (if i = 0 then a * (c * x 0) else b * (c * x 0)) = c * if i = 0 then a * x 0 else b * x 0; split_ifs <;> ring }
  refine ⟨mk 1 2, mk 2 1, mkt 1 2, mkt 2 1, fun h => ?_, fun x => ?_, fun y => ?_⟩
  · have := congrArg (fun f : Vec 2 →ₗ[ℝ] Vec 1 => f (vec fun i => if i = 0 then 1 else 0) 0) h
    have h' : (1 : ℝ) * 1 + 2 * 0 = 2 * 1 + 1 * 0 := this
    norm_num at h'
  · ext i
    show 2 * x (Equiv.swap 0 1 0) + 1 * x (Equiv.swap 0 1 1) = 1 * x 0 + 2 * x 1
    rw [Equiv.swap_apply_left, Equiv.swap_apply_right]; ring
  · ext i
    fin_cases i
    · show 2 * y ((1 : Equiv.Perm (Fin 1)) 0) = 2 * y 0
      rfl
    · show 1 * y ((1 : Equiv.Perm (Fin 1)) 0) = 1 * y 0
      rfl

/-- FOCUSS runs exist, for 20 iterations on `x₀ + 2 x₁ = 5` for instance, and `wideDict` may be multiplied by 3. -/
example : (∃ s, FocussSolve wideDict ![5] (1 / 2) 20 s) ∧ (Matrix.diagonal fun _ : Fin 1 => (3 : ℝ)).det ≠ 0 :=
  ⟨focuss_exists _ _ _ _, by simp⟩

end Verif.Cvx
