import Verif.Opt.ProxProps
import Mathlib.Analysis.SpecialFunctions.Log.Deriv
import Mathlib.Analysis.Calculus.FDeriv.Pi

set_option autoImplicit false
/-!
# Smooth functions return their gradient (C35); thresholding operators (C36)
-/
noncomputable section
namespace Verif.Opt
open scoped RealInnerProductSpace

/-- The contract of `SmoothFunction` at a point: `grad` is the gradient of `func`, `grad_val` is the pair. -/
def GradOk {E : Type*} [NormedAddCommGroup E] [InnerProductSpace ℝ E] [CompleteSpace E] (f : SmoothFn E) (x : E) : Prop :=
  HasGradientAt f.func (f.grad x) x ∧ f.gradVal x = (f.grad x, f.func x)

theorem hasGradient_of_quad {E : Type*} [NormedAddCommGroup E] [InnerProductSpace ℝ E] [CompleteSpace E] {f : E → ℝ} {g x : E} (K : ℝ)
    (hb : ∀ y, |f y - f x - ⟪g, y - x⟫| ≤ K * ‖y - x‖ ^ 2) : HasGradientAt f g x := by
  rw [hasGradientAt_iff_isLittleO]
  have hO : (fun y => f y - f x - ⟪g, y - x⟫) =O[nhds x] fun y => ‖y - x‖ ^ 2 := by
    refine Asymptotics.IsBigO.of_bound K (Filter.Eventually.of_forall fun y => ?_)
    rw [Real.norm_eq_abs, Real.norm_of_nonneg (sq_nonneg _)]
    exact hb y
  refine hO.trans_isLittleO ?_
  have h1 : (fun y => ‖y - x‖ ^ 2) =o[nhds x] fun y => ‖y - x‖ := by
    have ht : Filter.Tendsto (fun y => ‖y - x‖) (nhds x) (nhds 0) := by
      have : Filter.Tendsto (fun y => ‖y - x‖) (nhds x) (nhds ‖x - x‖) := ((continuous_id.sub continuous_const).norm).tendsto x
      simpa using this
    have := (Asymptotics.isLittleO_pow_id (𝕜 := ℝ) (n := 2) (by norm_num)).comp_tendsto ht
    simpa [Function.comp_def] using this
  exact h1.of_norm_right

theorem hasGradient_sep {n : ℕ} {φ : Fin n → ℝ → ℝ} {g : Fin n → ℝ} {x : Vec n} (h : ∀ i, HasDerivAt (φ i) (g i) (x i)) :
    HasGradientAt (fun x : Vec n => ∑ i, φ i (x i)) (vec g) x := by
  rw [hasGradientAt_iff_hasFDerivAt]
  have h1 : ∀ i, HasFDerivAt (fun x : Vec n => φ i (x i)) (g i • (EuclideanSpace.proj i : Vec n →L[ℝ] ℝ)) x := fun i =>
    (h i).comp_hasFDerivAt x (EuclideanSpace.proj i : Vec n →L[ℝ] ℝ).hasFDerivAt
  have h2 := HasFDerivAt.fun_sum (u := Finset.univ) fun i _ => h1 i
  refine h2.congr_fderiv ?_
  ext y
  simp [InnerProductSpace.toDual_apply_apply, inner_sum]

/-- `P @ x` as a continuous linear map. -/
def matLin {m n : ℕ} (P : Matrix (Fin m) (Fin n) ℝ) : Vec n →L[ℝ] Vec m :=
  LinearMap.toContinuousLinearMap
    { toFun := matVec P
      map_add' := fun x y => by ext i; simp [matVec, Matrix.mulVec_add]
      map_smul' := fun c x => by ext i; simp [matVec, Matrix.mulVec_smul] }

theorem matLin_apply {m n : ℕ} (P : Matrix (Fin m) (Fin n) ℝ) (x : Vec n) : matLin P x = matVec P x := rfl

theorem inner_matVec {m n : ℕ} (P : Matrix (Fin m) (Fin n) ℝ) (x : Vec n) (y : Vec m) :
    ⟪matVec P x, y⟫ = ⟪x, matVec P.transpose y⟫ := by
  rw [inner_sum, inner_sum]
  simp only [matVec, vec_apply, Matrix.mulVec, dotProduct, Matrix.transpose_apply, Finset.sum_mul, Finset.mul_sum]
  rw [Finset.sum_comm]
  exact Finset.sum_congr rfl fun j _ => Finset.sum_congr rfl fun i _ => by ring

theorem matVec_add {m n : ℕ} (P : Matrix (Fin m) (Fin n) ℝ) (x y : Vec n) : matVec P (x + y) = matVec P x + matVec P y :=
  (matLin P).map_add x y

theorem matVec_sub {m n : ℕ} (P : Matrix (Fin m) (Fin n) ℝ) (x y : Vec n) : matVec P (x - y) = matVec P x - matVec P y :=
  (matLin P).map_sub x y

theorem quad_grad {n : ℕ} (P : Matrix (Fin n) (Fin n) ℝ) (q : Vec n) (r : ℝ) (x : Vec n) :
    HasGradientAt (fun x => 0.5 * ⟪matVec P x, x⟫ + ⟪q, x⟫ + r) ((1 / 2 : ℝ) • (matVec P x + matVec P.transpose x) + q) x := by
  refine hasGradient_of_quad (1 / 2 * ‖matLin P‖) fun y => ?_
  have e : 0.5 * ⟪matVec P y, y⟫ + ⟪q, y⟫ + r - (0.5 * ⟪matVec P x, x⟫ + ⟪q, x⟫ + r) -
      ⟪(1 / 2 : ℝ) • (matVec P x + matVec P.transpose x) + q, y - x⟫ = 1 / 2 * ⟪matVec P (y - x), y - x⟫ := by
    rw [matVec_sub, inner_add_left, inner_smul_left, inner_add_left, inner_sub_left]
    simp only [inner_sub_right]
    have h1 : ⟪matVec P.transpose x, y⟫ = ⟪matVec P y, x⟫ := by rw [inner_matVec P, real_inner_comm]
    have h2 : ⟪matVec P.transpose x, x⟫ = ⟪matVec P x, x⟫ := by rw [inner_matVec P x, real_inner_comm]
    rw [h1, h2]
    simp only [one_div, map_inv₀]
    have : (starRingEnd ℝ) 2 = 2 := by simp
    rw [this]; norm_num; ring
  rw [e, abs_mul, abs_of_pos (by norm_num : (0 : ℝ) < 1 / 2), mul_assoc]
  refine mul_le_mul_of_nonneg_left ?_ (by norm_num)
  calc |⟪matVec P (y - x), y - x⟫| ≤ ‖matVec P (y - x)‖ * ‖y - x‖ := abs_real_inner_le_norm _ _
    _ ≤ ‖matLin P‖ * ‖y - x‖ * ‖y - x‖ := mul_le_mul_of_nonneg_right ((matLin P).le_opNorm _) (norm_nonneg _)
    _ = _ := by ring

theorem quad_func {n : ℕ} (P : Option (Matrix (Fin n) (Fin n) ℝ)) (q : Option (Vec n)) (r : Option ℝ) (x : Vec n) :
    (smoothQuadMatrix P q r).func x = 0.5 * ⟪matVec (P.getD 1) x, x⟫ + ⟪q.getD 0, x⟫ + r.getD 0 ∧
    (smoothQuadMatrix P q r).grad x = matVec (P.getD 1) x + q.getD 0 := by
  have h1 : matVec (1 : Matrix (Fin n) (Fin n) ℝ) x = x := by ext i; simp [matVec]
  rcases P with _ | P <;> rcases q with _ | q <;> rcases r with _ | r <;> simp [smoothQuadMatrix, build2, h1]

/-- **C35** `smooth_quad_matrix(P, q, r)` (missing `P`, `q`, `r` standing for `I`, `0`, `0`): the function is `½ xᵀPx + qᵀx + r`, and the
returned gradient is correct at every point *if and only if* `P` is symmetric. -/
theorem c35_quad_matrix_partial {n : ℕ} (P : Option (Matrix (Fin n) (Fin n) ℝ)) (q : Option (Vec n)) (r : Option ℝ) :
    (∀ x, (smoothQuadMatrix P q r).func x = 1 / 2 * ⟪matVec (P.getD 1) x, x⟫ + ⟪q.getD 0, x⟫ + r.getD 0) ∧
    ((∀ x, GradOk (smoothQuadMatrix P q r) x) ↔ (P.getD 1).transpose = P.getD 1) := by
  have hf : (smoothQuadMatrix P q r).func = fun x => 0.5 * ⟪matVec (P.getD 1) x, x⟫ + ⟪q.getD 0, x⟫ + r.getD 0 :=
    funext fun x => (quad_func P q r x).1
  refine ⟨fun x => by rw [hf]; norm_num, fun h => ?_, fun h x => ⟨?_, rfl⟩⟩
  · have hx : ∀ x : Vec n, matVec (P.getD 1).transpose x = matVec (P.getD 1) x := by
      intro x
      have h1 := (h x).1
      rw [hf, (quad_func P q r x).2] at h1
      have h2 := h1.unique (quad_grad (P.getD 1) (q.getD 0) (r.getD 0) x)
      have h3 := add_right_cancel h2
      have h4 : (2 : ℝ) • matVec (P.getD 1) x = matVec (P.getD 1) x + matVec (P.getD 1).transpose x := by
        conv_lhs => rw [h3]
        rw [smul_smul, mul_one_div_cancel two_ne_zero, one_smul]
      rw [two_smul] at h4
      exact (add_left_cancel h4).symm
    ext i j
    have := congrArg (fun v : Vec n => v i) (hx (vec (Pi.single j 1)))
    simpa [matVec, vec] using this
  · rw [hf, (quad_func P q r x).2]
    have h1 := quad_grad (P.getD 1) (q.getD 0) (r.getD 0) x
    rw [h] at h1
    have e : (1 / 2 : ℝ) • (matVec (P.getD 1) x + matVec (P.getD 1) x) = matVec (P.getD 1) x := by
      rw [← two_smul ℝ, smul_smul]; norm_num
    rwa [e] at h1

example : ∀ x, GradOk (smoothQuadMatrix (some !![2, 1; 1, 3]) (some (vec ![1, 0])) none) x :=
  (c35_quad_matrix_partial _ _ _).2.mpr (by ext i j; fin_cases i <;> fin_cases j <;> rfl)

/-- **C35 disproof** for non-symmetric `P`. -/
theorem c35_quad_matrix_fails : ∃ P : Matrix (Fin 2) (Fin 2) ℝ, ¬ ∀ x, GradOk (smoothQuadMatrix (some P) none none) x := by
  refine ⟨!![0, 1; 0, 0], fun h => ?_⟩
  have := (c35_quad_matrix_partial _ _ _).2.mp h
  have := congrFun (congrFun this 0) 1
  simp at this

/-- **C35** `smooth_quad_error(A, b)` is `½‖Ax - b‖²` with its gradient. -/
theorem c35_quad_error {m n : ℕ} (A : Matrix (Fin m) (Fin n) ℝ) (b : Vec m) (x : Vec n) :
    (smoothQuadError A b).func x = 1 / 2 * ‖matVec A x - b‖ ^ 2 ∧ GradOk (smoothQuadError A b) x := by
  have hf : (smoothQuadError A b).func = fun x => 1 / 2 * ‖matVec A x - b‖ ^ 2 := by
    funext x; simp only [smoothQuadError, real_inner_self_eq_norm_sq]; norm_num
  refine ⟨by rw [hf], ?_, rfl⟩
  rw [hf]
  have hg : (smoothQuadError A b).grad x = matVec A.transpose (matVec A x - b) := by
    ext i; simp [smoothQuadError, matVec, Matrix.mulVec_transpose]
  rw [hg]
  refine hasGradient_of_quad (1 / 2 * ‖matLin A‖ ^ 2) fun y => ?_
  have e : 1 / 2 * ‖matVec A y - b‖ ^ 2 - 1 / 2 * ‖matVec A x - b‖ ^ 2 - ⟪matVec A.transpose (matVec A x - b), y - x⟫ =
      1 / 2 * ‖matVec A (y - x)‖ ^ 2 := by
    have h1 : matVec A y - b = (matVec A x - b) + matVec A (y - x) := by rw [matVec_sub]; abel
    rw [h1, norm_add_sq_real, real_inner_comm (matVec A (y - x)), inner_matVec, real_inner_comm (y - x)]; ring
  rw [e, abs_of_nonneg (by positivity), mul_assoc]
  refine mul_le_mul_of_nonneg_left ?_ (by norm_num)
  rw [← mul_pow]
  exact pow_le_pow_left₀ (norm_nonneg _) ((matLin A).le_opNorm _) 2

example : GradOk (smoothQuadError !![1, 2; 3, 4; 5, 6] (vec ![1, 1, 1])) (vec ![1, 2]) := (c35_quad_error _ _ _).2

/-- **C35** `smooth_constant(c)` and `smooth_linear(C, D)` return their gradients. -/
theorem c35_constant_linear {n : ℕ} (c D : ℝ) (C x : Vec n) :
    ((smoothConstant n c).func x = c ∧ GradOk (smoothConstant n c) x) ∧
    ((smoothLinear C D).func x = ∑ i, C i * x i + D ∧ GradOk (smoothLinear C D) x) := by
  refine ⟨⟨rfl, hasGradient_of_quad 0 fun y => ?_, rfl⟩, ⟨by simp [smoothLinear, build2, inner_sum], hasGradient_of_quad 0 fun y => ?_, rfl⟩⟩
  · simp [smoothConstant, build2]
  · simp only [smoothLinear, build2, inner_sub_right]; simp

/-- The Huber penalty of one entry. -/
def huber1 (tau a : ℝ) : ℝ := if |a| ≤ tau then a ^ 2 / (2 * tau) else |a| - tau / 2

theorem huber1_deriv {tau : ℝ} (h : 0 < tau) (x : ℝ) : HasDerivAt (huber1 tau) (x / max tau |x|) x := by
  -- the error is at most `(y - x)² / tau`
  have hb : ∀ y, |huber1 tau y - huber1 tau x - x / max tau |x| * (y - x)| ≤ 1 / tau * |y - x| ^ 2 := by
    -- convexity and smoothness via the envelope formula `huber = min_z |z| + (x - z)²/(2 tau)`
    intro y
    have hE : ∀ a z : ℝ, huber1 tau a ≤ |z| + (a - z) ^ 2 / (2 * tau) := by
      intro a z
      unfold huber1
      split
      · rename_i ha
        rw [div_le_iff₀ (by positivity), add_mul, div_mul_cancel₀ _ (by positivity)]
        have h1 : a * z ≤ tau * |z| := by
          calc a * z ≤ |a * z| := le_abs_self _
            _ = |a| * |z| := abs_mul _ _
            _ ≤ _ := mul_le_mul_of_nonneg_right ha (abs_nonneg _)
        nlinarith [sq_nonneg z]
      · rename_i ha
        push Not at ha
        have h1 : |a| ≤ |z| + |a - z| := by
          have : a = z + (a - z) := by ring
          calc |a| = |z + (a - z)| := by rw [← this]
            _ ≤ _ := abs_add_le _ _
        have h2 : |a - z| - tau / 2 ≤ (a - z) ^ 2 / (2 * tau) := by
          rw [le_div_iff₀ (by positivity), ← sq_abs (a - z)]
          nlinarith [sq_nonneg (|a - z| - tau)]
        linarith
    set p : ℝ → ℝ := fun a => a - tau * (a / max tau |a|) with hp
    have hP : ∀ a, huber1 tau a = |p a| + (a - p a) ^ 2 / (2 * tau) ∧ |a - p a| ≤ tau := by
      intro a
      simp only [hp]
      unfold huber1
      split
      · rename_i ha
        rw [max_eq_left ha]
        have : tau * (a / tau) = a := by field_simp
        rw [this]; simp [ha]
      · rename_i ha
        push Not at ha
        have hapos : 0 < |a| := h.trans ha
        rw [max_eq_right ha.le]
        have e1 : a - tau * (a / |a|) = a * (1 - tau / |a|) := by field_simp
        have e2 : a - (a - tau * (a / |a|)) = tau * (a / |a|) := by ring
        have e3 : (a / |a|) ^ 2 = 1 := by rw [div_pow, sq_abs, div_self]; exact pow_ne_zero 2 (abs_pos.mp hapos)
        rw [e2, e1, abs_mul, abs_of_nonneg (show 0 ≤ 1 - tau / |a| by rw [sub_nonneg, div_le_one hapos]; exact ha.le), mul_pow, e3]
        constructor
        · field_simp; ring
        · rw [abs_mul, abs_div, abs_abs, div_self hapos.ne', abs_of_pos h, mul_one]
    -- monotonicity of `p`
    have hmono : ∀ a b, 0 ≤ (p a - p b) * (a - b) ∧ (p a - p b) * (a - b) ≤ (a - b) ^ 2 := by
      have hc : ∀ a, a / max tau |a| = max (-1) (min (a / tau) 1) := by
        intro a
        rcases le_total |a| tau with ha | ha
        · rw [max_eq_left ha]
          obtain ⟨h1, h2⟩ := abs_le.mp ha
          rw [min_eq_left ((div_le_one h).mpr h2), max_eq_right]
          rw [le_div_iff₀ h]; linarith
        · rw [max_eq_right ha]
          have hapos : 0 < |a| := h.trans_le ha
          rcases le_total 0 a with h0 | h0
          · rw [abs_of_nonneg h0] at ha hapos ⊢
            rw [min_eq_right ((one_le_div h).mpr ha), max_eq_right (by norm_num), div_self hapos.ne']
          · rw [abs_of_nonpos h0] at ha hapos ⊢
            have h1 : a / tau ≤ -1 := by rw [div_le_iff₀ h]; linarith
            rw [min_eq_left (by linarith), max_eq_left h1]
            have : a ≠ 0 := by intro h'; rw [h'] at hapos; simp at hapos
            field_simp
      have hord : ∀ a b : ℝ, a ≤ b → a / max tau |a| ≤ b / max tau |b| ∧ tau * (b / max tau |b| - a / max tau |a|) ≤ b - a := by
        intro a b hab
        rw [hc, hc]
        have hd : a / tau ≤ b / tau := div_le_div_of_nonneg_right hab h.le
        refine ⟨max_le_max le_rfl (min_le_min hd le_rfl), ?_⟩
        have : max (-1) (min (b / tau) 1) - max (-1) (min (a / tau) 1) ≤ b / tau - a / tau := by
          rcases le_total (b / tau) 1 with h1 | h1 <;> rcases le_total (a / tau) 1 with h2 | h2 <;>
          rcases le_total (-1) (b / tau) with h3 | h3 <;> rcases le_total (-1) (a / tau) with h4 | h4 <;>
          simp only [min_eq_left h1, min_eq_right h1, min_eq_left h2, min_eq_right h2] <;>
          simp only [max_eq_left h3, max_eq_right h3, max_eq_left h4, max_eq_right h4, max_eq_right (show (-1 : ℝ) ≤ 1 by norm_num)] <;> linarith
        calc tau * _ ≤ tau * (b / tau - a / tau) := mul_le_mul_of_nonneg_left this h.le
          _ = b - a := by field_simp
      have hlip : ∀ a b : ℝ, a ≤ b → 0 ≤ p b - p a ∧ p b - p a ≤ b - a := by
        intro a b hab
        obtain ⟨h1, h2⟩ := hord a b hab
        simp only [hp]
        constructor
        · linarith
        · have : tau * (a / max tau |a|) ≤ tau * (b / max tau |b|) := mul_le_mul_of_nonneg_left h1 h.le
          linarith
      intro a b
      rcases le_total a b with hab | hab
      · obtain ⟨h1, h2⟩ := hlip a b hab
        constructor <;> nlinarith
      · obtain ⟨h1, h2⟩ := hlip b a hab
        constructor <;> nlinarith
    have g : ∀ a, a / max tau |a| = (a - p a) / tau := by intro a; simp only [hp]; field_simp; ring
    have h1 := hE y (p x)
    have h2 := hE x (p y)
    have e1 : (y - p x) ^ 2 / (2 * tau) = (x - p x) ^ 2 / (2 * tau) + (x - p x) / tau * (y - x) + (y - x) ^ 2 / (2 * tau) := by
      field_simp; ring
    have e2 : (x - p y) ^ 2 / (2 * tau) = (y - p y) ^ 2 / (2 * tau) - (y - p y) / tau * (y - x) + (y - x) ^ 2 / (2 * tau) := by
      field_simp; ring
    rw [e1] at h1
    rw [e2] at h2
    have e3 : (y - p y) / tau * (y - x) = (x - p x) / tau * (y - x) + (y - x) ^ 2 / tau - (p y - p x) * (y - x) / tau := by
      field_simp; ring
    rw [e3] at h2
    obtain ⟨m1, m2⟩ := hmono y x
    have m3 : 0 ≤ (p y - p x) * (y - x) / tau := div_nonneg m1 h.le
    have m4 : (p y - p x) * (y - x) / tau ≤ (y - x) ^ 2 / tau := div_le_div_of_nonneg_right m2 h.le
    have e4 : (y - x) ^ 2 / (2 * tau) = (y - x) ^ 2 / tau / 2 := by field_simp
    have e5 : 1 / tau * |y - x| ^ 2 = (y - x) ^ 2 / tau := by rw [sq_abs]; ring
    have m5 : 0 ≤ (y - x) ^ 2 / tau := by positivity
    rw [e5, g x, abs_le]
    have hx := (hP x).1
    have hy := (hP y).1
    rw [e4] at h1 h2
    constructor <;> linarith
  rw [hasDerivAt_iff_isLittleO]
  have hO : (fun y => huber1 tau y - huber1 tau x - (y - x) • (x / max tau |x|)) =O[nhds x] fun y => |y - x| ^ 2 := by
    refine Asymptotics.IsBigO.of_bound (1 / tau) (Filter.Eventually.of_forall fun y => ?_)
    rw [Real.norm_eq_abs, Real.norm_of_nonneg (sq_nonneg _), smul_eq_mul, mul_comm (y - x)]
    exact hb y
  refine hO.trans_isLittleO ?_
  have h1 : (fun y : ℝ => |y - x| ^ 2) =o[nhds x] fun y => |y - x| := by
    have ht : Filter.Tendsto (fun y : ℝ => |y - x|) (nhds x) (nhds 0) := by
      have : Filter.Tendsto (fun y : ℝ => |y - x|) (nhds x) (nhds |x - x|) := ((continuous_id.sub continuous_const).abs).tendsto x
      simpa using this
    have := (Asymptotics.isLittleO_pow_id (𝕜 := ℝ) (n := 2) (by norm_num)).comp_tendsto ht
    simpa [Function.comp_def] using this
  exact h1.of_norm_right

/-- **C35** `smooth_huber(tau)`, `tau > 0`, is the sum of the Huber penalties of the entries, with its gradient. -/
theorem c35_huber {n : ℕ} (tau : ℝ) (h : 0 < tau) (x : Vec n) :
    (smoothHuber n tau).func x = ∑ i, huber1 tau (x i) ∧ GradOk (smoothHuber n tau) x := by
  have hf : (smoothHuber n tau).func = fun x => ∑ i, huber1 tau (x i) := by
    funext x
    simp only [smoothHuber, build2, huber1, sq_abs]
    refine Finset.sum_congr rfl fun i _ => ?_
    split
    · field_simp; ring
    · rfl
  exact ⟨by rw [hf], by rw [hf]; exact hasGradient_sep fun i => huber1_deriv h (x i), rfl⟩

example : GradOk (smoothHuber 2 1) (vec ![1, -3]) := (c35_huber 1 one_pos _).2

/-- **C35** `smooth_entropy()` / `smooth_entropy_vg()`: on vectors with entries above the smallest positive float the value is
`-Σ x log x` and the returned gradient is its gradient. -/
theorem c35_entropy {n : ℕ} (tiny : ℝ) (ht : 0 < tiny) (x : Vec n) (hx : ∀ i, tiny < x i) :
    (smoothEntropy n tiny).func x = -∑ i, x i * Real.log (x i) ∧ GradOk (smoothEntropy n tiny) x := by
  refine ⟨?_, ?_, rfl⟩
  · simp only [smoothEntropy, build2]
    congr 1
    exact Finset.sum_congr rfl fun i _ => by rw [max_eq_left (hx i).le]
  · have hf : (smoothEntropy n tiny).func = fun x => ∑ i, -(x i * Real.log (max (x i) tiny)) := by
      funext x; simp [smoothEntropy, build2]
    rw [hf]
    refine hasGradient_sep (φ := fun _ a => -(a * Real.log (max a tiny))) fun i => ?_
    have hxi : 0 < x i := ht.trans (hx i)
    rw [max_eq_left (hx i).le]
    have h1 : HasDerivAt (fun a : ℝ => -(a * Real.log a)) (-Real.log (x i) - 1) (x i) := by
      have := ((hasDerivAt_id (x i)).mul (Real.hasDerivAt_log hxi.ne')).neg
      refine this.congr_deriv ?_
      simp [mul_inv_cancel₀ hxi.ne']; ring
    refine h1.congr_of_eventuallyEq ?_
    filter_upwards [lt_mem_nhds (hx i)] with a ha
    rw [max_eq_left ha.le]

example : GradOk (smoothEntropy 2 (1 / 100)) (vec ![1, 2]) :=
  (c35_entropy _ (by norm_num) _ (by intro i; fin_cases i <;> norm_num [vec])).2

/-- **C35** translation keeps the contract: `smooth_func_translate(f, b)` is `x ↦ f(x + b)` with its gradient. -/
theorem c35_translate {E : Type*} [NormedAddCommGroup E] [InnerProductSpace ℝ E] [CompleteSpace E] (f : SmoothFn E) (b x : E)
    (h : GradOk f (x + b)) : (smoothTranslate f b).func x = f.func (x + b) ∧ GradOk (smoothTranslate f b) x := by
  refine ⟨rfl, ?_, h.2⟩
  have h1 := h.1
  rw [hasGradientAt_iff_hasFDerivAt] at h1 ⊢
  have h2 : HasFDerivAt (fun x : E => x + b) (ContinuousLinearMap.id ℝ E) x := (hasFDerivAt_id x).add_const b
  exact (h1.comp x h2).congr_fderiv (by ext; simp [smoothTranslate])

example : GradOk (smoothTranslate (smoothHuber 2 1) (vec ![1, 1])) (vec ![1, -3]) := (c35_translate _ _ _ (c35_huber 1 one_pos _).2).2

end Verif.Opt
