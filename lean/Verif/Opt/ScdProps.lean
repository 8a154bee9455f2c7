import Verif.Opt.FomProps

set_option autoImplicit false
/-!
# The smoothed dual of a prox-capable function (C81)
-/
noncomputable section
namespace Verif.Opt
open scoped RealInnerProductSpace

variable {E : Type*} [NormedAddCommGroup E] [InnerProductSpace ℝ E]

/-- `smooth_dual(prox_f, mu, x0)` (fom/scd.py:31-67). The value `pv` is a float: it is converted to a real (finite at a proximal point). -/
def smoothDual (F : ProxCapable E) (mu : ℝ) (x0 : E) : SmoothFn E where
  func x := let p := F.proxVecVal (x0 + mu • x) mu; -(⟪x, p.1⟫ - p.2.toReal - (0.5 / mu) * ‖p.1 - x0‖ ^ 2)
  grad x := -F.proxOp (x0 + mu • x) mu
  gradVal x := let p := F.proxVecVal (x0 + mu • x) mu; (-p.1, -(⟪x, p.1⟫ - p.2.toReal - (0.5 / mu) * ‖p.1 - x0‖ ^ 2))

/-- **C81** for a convex prox-capable `f`, `smooth_dual` is minus the conjugate of `f + |· - x0|²/(2 mu)`: its negated value at `x` is the maximum of
`⟨x, u⟩ - f(u) - |u - x0|²/(2 mu)` over the domain, attained at the point whose negative is the returned gradient; the returned gradient is the
gradient of the returned value; it is Lipschitz with constant `mu`; and `grad_val` returns both. -/
theorem c81_smooth_dual [CompleteSpace E] (F : ProxCapable E) (C : Set E) (f : E → ℝ) (hF : IsProxCapable F C f) (hf : ConvexOn ℝ C f)
    (mu : ℝ) (hmu : 0 < mu) (x0 : E) :
    (∀ x, IsGreatest {v | ∃ u ∈ C, v = ⟪x, u⟫ - f u - ‖u - x0‖ ^ 2 / (2 * mu)} (-(smoothDual F mu x0).func x)) ∧
    (∀ x, -(smoothDual F mu x0).grad x ∈ C ∧ -(smoothDual F mu x0).func x = ⟪x, -(smoothDual F mu x0).grad x⟫ - f (-(smoothDual F mu x0).grad x) -
      ‖-(smoothDual F mu x0).grad x - x0‖ ^ 2 / (2 * mu)) ∧
    (∀ x, GradOk (smoothDual F mu x0) x) ∧
    (∀ x y, ‖(smoothDual F mu x0).grad y - (smoothDual F mu x0).grad x‖ ≤ mu * ‖y - x‖) := by
  have hP := fun x => hF.prox (x0 + mu • x) mu hmu
  set P : E → E := fun x => F.proxOp (x0 + mu • x) mu with hPdef
  have hfun : ∀ x, (smoothDual F mu x0).func x = -(⟪x, P x⟫ - f (P x) - ‖P x - x0‖ ^ 2 / (2 * mu)) := by
    intro x
    simp only [smoothDual]
    rw [hF.pair _ _ hmu, EReal.toReal_coe]
    have : (0.5 : ℝ) / mu = 1 / (2 * mu) := by rw [one_div, mul_inv, div_eq_mul_inv]; norm_num
    rw [this]; ring
  have hgrad : ∀ x, (smoothDual F mu x0).grad x = -P x := fun x => rfl
  -- the defining inequality
  have hmax : ∀ x, ∀ u ∈ C, ⟪x, u⟫ - f u - ‖u - x0‖ ^ 2 / (2 * mu) ≤ ⟪x, P x⟫ - f (P x) - ‖P x - x0‖ ^ 2 / (2 * mu) := by
    intro x u hu
    have hle : f (P x) + ‖P x - (x0 + mu • x)‖ ^ 2 / (2 * mu) ≤ f u + ‖u - (x0 + mu • x)‖ ^ 2 / (2 * mu) := by
      by_cases e : u = P x
      · rw [e]
      · exact ((hP x).2 u hu e).le
    have e : ∀ w : E, ‖w - (x0 + mu • x)‖ ^ 2 / (2 * mu) = ‖w - x0‖ ^ 2 / (2 * mu) - ⟪x, w⟫ + ⟪x, x0⟫ + mu / 2 * ‖x‖ ^ 2 := by
      intro w
      have : w - (x0 + mu • x) = (w - x0) - mu • x := by abel
      rw [this, norm_sub_sq_real, inner_smul_right, norm_smul, Real.norm_of_nonneg hmu.le, real_inner_comm, inner_sub_right]
      field_simp; ring
    rw [e, e] at hle
    linarith
  have hlip : ∀ x y, ‖P y - P x‖ ≤ mu * ‖y - x‖ := by
    intro x y
    have := IsProxOn.nonexpansive hf hmu (hP x) (hP y)
    refine this.trans (le_of_eq ?_)
    rw [add_sub_add_left_eq_sub, ← smul_sub, norm_smul, Real.norm_of_nonneg hmu.le]
  refine ⟨fun x => ⟨⟨P x, (hP x).1, by rw [hfun]; ring⟩, ?_⟩, fun x => ⟨by rw [hgrad, neg_neg]; exact (hP x).1, by rw [hfun, hgrad, neg_neg, neg_neg]⟩,
    fun x => ⟨?_, ?_⟩, fun x y => ?_⟩
  · rintro v ⟨u, hu, rfl⟩
    rw [hfun, neg_neg]; exact hmax x u hu
  · refine hasGradient_of_quad mu fun y => ?_
    rw [hfun, hfun, hgrad, inner_neg_left]
    have h1 := hmax y (P x) (hP x).1
    have h2 := hmax x (P y) (hP y).1
    have h3 : ⟪P y - P x, y - x⟫ ≤ mu * ‖y - x‖ ^ 2 := by
      refine (real_inner_le_norm _ _).trans ?_
      have := mul_le_mul_of_nonneg_right (hlip x y) (norm_nonneg (y - x))
      linarith
    rw [inner_sub_left, inner_sub_right, inner_sub_right] at h3
    rw [inner_sub_right]
    rw [real_inner_comm (P x) y] at h1
    rw [real_inner_comm (P y) x] at h2
    rw [real_inner_comm (P y) y] at h1 ⊢
    rw [real_inner_comm (P x) x] at h2 ⊢
    have : 0 ≤ mu * ‖y - x‖ ^ 2 := by positivity
    rw [abs_le]
    constructor <;> linarith
  · rw [hfun, hgrad]
    simp only [smoothDual]
    rw [hF.pair _ _ hmu, EReal.toReal_coe]
    have : (0.5 : ℝ) / mu = 1 / (2 * mu) := by rw [one_div, mul_inv, div_eq_mul_inv]; norm_num
    rw [this]; simp only [hPdef, Prod.mk.injEq, true_and]; ring
  · rw [hgrad, hgrad, neg_sub_neg, norm_sub_rev]; exact hlip x y

/-- The hypotheses are met by the l1 norm, the function used by `bp_scd` and `dantzig_scd`. -/
example (n : ℕ) : IsProxCapable (proxL1 (vec fun _ : Fin n => 1)) Set.univ (fun x => ∑ i, (vec fun _ => 1 : Vec n) i * |x i|) ∧
    ConvexOn ℝ Set.univ (fun x : Vec n => ∑ i, (vec fun _ => 1 : Vec n) i * |x i|) :=
  ⟨c30_prox_l1 _ fun _ => one_pos, l1_weight_convex 1 one_pos⟩

example := c81_smooth_dual (proxL1 (vec fun _ : Fin 3 => 1)) Set.univ _ (c30_prox_l1 _ fun _ => one_pos) (l1_weight_convex 1 one_pos) (1/2) (by norm_num) 0

end Verif.Opt
