import Verif.Opt.ProxModel
import Verif.Opt.ProjProps
import Mathlib.Analysis.Convex.Function

set_option autoImplicit false
/-!
# Proximal operators and Moreau envelopes (C30 – C32, C34)
-/
noncomputable section
namespace Verif.Opt
open scoped RealInnerProductSpace

/-- What `ProxCapable` documents (opt/proximal_ops/prox.py:25-45) for a function equal to `f` on `C` and `+∞` elsewhere: `func` is that
function, `prox_op(x, t)` is its proximal point and `prox_vec_val(x, t)` the pair of the proximal point and its value. -/
structure IsProxCapable {E : Type*} [NormedAddCommGroup E] [InnerProductSpace ℝ E]
    (F : ProxCapable E) (C : Set E) (f : E → ℝ) : Prop where
  value : ∀ x ∈ C, F.func x = f x
  outside : ∀ x ∉ C, F.func x = ⊤
  prox : ∀ x t, 0 < t → IsProxOn C f t x (F.proxOp x t)
  pair : ∀ x t, 0 < t → F.proxVecVal x t = (F.proxOp x t, (f (F.proxOp x t) : EReal))

theorem IsProxOn.of_coord {n : ℕ} {C : Set (Vec n)} {f : Vec n → ℝ} {g : Fin n → ℝ → ℝ} (hf : ∀ z ∈ C, f z = ∑ i, g i (z i))
    {t : ℝ} (ht : 0 < t) {x p : Vec n} (hp : p ∈ C)
    (h : ∀ z ∈ C, ∀ i, g i (p i) + (x i - p i) * (z i - p i) / t ≤ g i (z i)) : IsProxOn C f t x p := by
  refine IsProxOn.of_subgradient ht hp fun z hz => ?_
  rw [hf z hz, hf p hp, inner_sum, Finset.sum_div, ← Finset.sum_add_distrib]
  exact Finset.sum_le_sum fun i _ => by simpa using h z hz i

/-- **C30** `prox_l1(q)` with positive weights (in particular a positive scalar) is the proximal operator of `‖q x‖₁`. -/
theorem c30_prox_l1 {n : ℕ} (q : Vec n) (hq : ∀ i, 0 < q i) :
    IsProxCapable (proxL1 q) Set.univ (fun x => ∑ i, q i * |x i|) := by
  have hval : ∀ x : Vec n, ∑ i, |q i * x i| = ∑ i, q i * |x i| := fun x =>
    Finset.sum_congr rfl fun i _ => by rw [abs_mul, abs_of_pos (hq i)]
  refine ⟨fun x _ => by simp only [proxL1, build, hval], fun x h => absurd trivial h, fun x t ht => ?_, fun x t _ => ?_⟩
  · refine IsProxOn.of_coord (g := fun i a => q i * |a|) (fun z _ => rfl) ht trivial fun z _ i => ?_
    simp only [proxL1, build, vec_apply]
    have hqi := hq i
    have htq : 0 < t * q i := mul_pos ht hqi
    generalize z i = z
    generalize x i = x
    -- the subgradient inequality in one dimension
    have key : ∀ p : ℝ, |x - p| ≤ t * q i → (x - p) * p = t * q i * |p| → q i * |p| + (x - p) * (z - p) / t ≤ q i * |z| := by
      intro p h1 h2
      have h3 : (x - p) * z ≤ t * q i * |z| := by
        calc _ ≤ |(x - p) * z| := le_abs_self _
          _ = |x - p| * |z| := abs_mul _ _
          _ ≤ _ := mul_le_mul_of_nonneg_right h1 (abs_nonneg _)
      have h4 : (x - p) * (z - p) ≤ t * (q i * |z| - q i * |p|) := by rw [mul_sub, h2]; linarith
      have h5 : (x - p) * (z - p) / t ≤ q i * |z| - q i * |p| := by
        rw [div_le_iff₀ ht]; linarith
      linarith
    apply key
    · unfold minDiv1
      split
      · rename_i h; rw [abs_eq_zero.mp h]; simpa using htq.le
      · rename_i h
        have hx : 0 < |x| := lt_of_le_of_ne (abs_nonneg _) (Ne.symm h)
        have : x - x * (1 - min (t * q i / |x|) 1) = x * min (t * q i / |x|) 1 := by ring
        rw [this, abs_mul, abs_of_nonneg (le_min (by positivity : (0 : ℝ) ≤ t * q i / |x|) zero_le_one)]
        calc |x| * min (t * q i / |x|) 1 ≤ |x| * (t * q i / |x|) := mul_le_mul_of_nonneg_left (min_le_left _ _) hx.le
          _ = _ := by field_simp
    · unfold minDiv1
      split
      · rename_i h; rw [abs_eq_zero.mp h]; simp
      · rename_i h
        have hx : 0 < |x| := lt_of_le_of_ne (abs_nonneg _) (Ne.symm h)
        have e : x - x * (1 - min (t * q i / |x|) 1) = x * min (t * q i / |x|) 1 := by ring
        rw [e, abs_mul]
        rcases le_total (t * q i / |x|) 1 with h1 | h1
        · rw [min_eq_left h1, abs_of_nonneg (show 0 ≤ 1 - t * q i / |x| by linarith)]
          have : x * x = |x| * |x| := (abs_mul_abs_self x).symm
          calc x * (t * q i / |x|) * (x * (1 - t * q i / |x|)) = (x * x) * ((t * q i / |x|) * (1 - t * q i / |x|)) := by ring
            _ = _ := by rw [this]; field_simp
        · rw [min_eq_right h1]; simp
  · simp only [proxL1, build, hval]

example : IsProxCapable (proxL1 (vec fun _ : Fin 3 => 2)) Set.univ (fun x => ∑ i, 2 * |x i|) :=
  c30_prox_l1 _ fun _ => by norm_num [vec]

/-- **C30** the proximal point computed by `prox_l1` is soft thresholding, the same as `shrink` (opt/shrinkage.py). -/
theorem c30_prox_l1_shrink {n : ℕ} (q t : ℝ) (h : 0 < t * q) (x : Vec n) :
    (proxL1 (vec fun _ : Fin n => q)).proxOp x t = shrink x (t * q) := by
  ext i
  simp only [proxL1, build, shrink, vec_apply, shrink1, minDiv1]
  generalize x i = x
  split
  · rename_i h0
    rw [abs_eq_zero.mp h0, max_eq_left (by linarith), min_eq_left (by linarith)]; simp
  · rename_i h0
    have hx : 0 < |x| := lt_of_le_of_ne (abs_nonneg _) (Ne.symm h0)
    rcases le_total (t * q) |x| with h1 | h1
    · rw [min_eq_left ((div_le_one hx).mpr h1)]
      rcases le_total 0 x with h2 | h2
      · rw [abs_of_nonneg h2] at h1 hx ⊢
        rw [max_eq_right (by linarith), min_eq_left (by linarith)]; field_simp; ring
      · rw [abs_of_nonpos h2] at h1 hx ⊢
        have : x < 0 := by linarith
        have := this.ne
        rw [max_eq_left (by linarith), min_eq_right (by linarith)]; field_simp; ring
    · rw [min_eq_right ((one_le_div hx).mpr h1)]
      obtain ⟨h2, h3⟩ := abs_le.mp h1
      rw [max_eq_left (by linarith), min_eq_left (by linarith)]; simp

example : (proxL1 (vec fun _ : Fin 2 => 1)).proxOp (vec ![3, -1/2]) 1 = shrink (vec ![3, -1/2]) 1 := by
  simpa using c30_prox_l1_shrink 1 1 (by norm_num) (vec ![3, -1/2])

/-- **C31** `prox_l2(q)`, `q > 0`, is the proximal operator of `q ‖x‖₂`. -/
theorem c31_prox_l2 (n : ℕ) (q : ℝ) (hq : 0 < q) : IsProxCapable (proxL2 n q) Set.univ (fun x => q * ‖x‖) := by
  refine ⟨fun x _ => rfl, fun x h => absurd trivial h, fun x t ht => ?_, fun x t _ => rfl⟩
  refine IsProxOn.of_subgradient ht trivial fun z _ => ?_
  simp only [proxL2, build]
  have htq : 0 < t * q := mul_pos ht hq
  rcases le_total ‖x‖ (t * q) with h | h
  · rw [max_eq_right ((div_le_one htq).mpr h)]
    simp only [div_one, sub_self, zero_smul, norm_zero, mul_zero, sub_zero, zero_add]
    rw [div_le_iff₀ ht]
    calc ⟪x, z⟫ ≤ ‖x‖ * ‖z‖ := real_inner_le_norm _ _
      _ ≤ t * q * ‖z‖ := mul_le_mul_of_nonneg_right h (norm_nonneg _)
      _ = _ := by ring
  · have hx : 0 < ‖x‖ := htq.trans_le h
    rw [max_eq_left ((one_le_div htq).mpr h)]
    have e : 1 / (‖x‖ / (t * q)) = t * q / ‖x‖ := by field_simp
    rw [e]
    set s := 1 - t * q / ‖x‖ with hs
    have hs0 : 0 ≤ s := by rw [hs, sub_nonneg, div_le_one hx]; exact h
    have e1 : x - s • x = (t * q / ‖x‖) • x := by
      rw [hs]; module
    rw [e1, inner_smul_left, inner_sub_right, inner_smul_right, real_inner_self_eq_norm_sq, norm_smul, Real.norm_of_nonneg hs0]
    have h1 : ⟪x, z⟫ ≤ ‖x‖ * ‖z‖ := real_inner_le_norm _ _
    have e2 : (starRingEnd ℝ) (t * q / ‖x‖) * (⟪x, z⟫ - s * ‖x‖ ^ 2) / t = q / ‖x‖ * (⟪x, z⟫ - s * ‖x‖ ^ 2) := by
      simp; field_simp
    rw [e2]
    have h2 : q / ‖x‖ * (⟪x, z⟫ - s * ‖x‖ ^ 2) ≤ q / ‖x‖ * (‖x‖ * ‖z‖ - s * ‖x‖ ^ 2) :=
      mul_le_mul_of_nonneg_left (by linarith) (by positivity)
    have h3 : q / ‖x‖ * (‖x‖ * ‖z‖ - s * ‖x‖ ^ 2) = q * ‖z‖ - q * (s * ‖x‖) := by field_simp
    linarith

example : IsProxCapable (proxL2 3 2) Set.univ (fun x => 2 * ‖x‖) := c31_prox_l2 3 2 (by norm_num)

/-- **C32** `prox_l1_pos(q)` with positive weights is the proximal operator of `Σ q_i x_i` restricted to non-negative vectors. -/
theorem c32_prox_l1_pos {n : ℕ} (q : Vec n) (hq : ∀ i, 0 < q i) :
    IsProxCapable (proxL1Pos q) {x | ∀ i, 0 ≤ x i} (fun x => ∑ i, q i * x i) := by
  have hval : ∀ x : Vec n, (∀ i, 0 ≤ x i) → ∑ i, |q i * x i| = ∑ i, q i * x i := fun x hx =>
    Finset.sum_congr rfl fun i _ => abs_of_nonneg (mul_nonneg (hq i).le (hx i))
  have hneg : ∀ x : Vec n, (∀ i, 0 ≤ x i) → ¬ ∃ i, x i < 0 := by
    rintro x h ⟨i, hi⟩; exact absurd (h i) (not_le.mpr hi)
  have hmem : ∀ (x : Vec n) t, (proxL1Pos q).proxOp x t ∈ {x : Vec n | ∀ i, 0 ≤ x i} := by
    intro x t i; simp [proxL1Pos, build]
  refine ⟨fun x hx => ?_, fun x hx => ?_, fun x t ht => ?_, fun x t _ => ?_⟩
  · simp only [proxL1Pos, build, if_neg (hneg x hx), hval x hx]
  · have : ∃ i, x i < 0 := by by_contra h; push Not at h; exact hx h
    simp only [proxL1Pos, build, if_pos this]
  · refine IsProxOn.of_coord (g := fun i a => q i * a) (fun z _ => rfl) ht (hmem x t) fun z hz i => ?_
    have hz' : 0 ≤ z i := hz i
    simp only [proxL1Pos, build, vec_apply]
    rcases le_total (x i) (t * q i) with h | h
    · rw [max_eq_left (by linarith)]
      simp only [sub_zero, mul_zero, zero_add]
      rw [div_le_iff₀ ht]; nlinarith
    · rw [max_eq_right (by linarith)]
      have e : (x i - (x i - t * q i)) * (z i - (x i - t * q i)) / t = q i * (z i - (x i - t * q i)) := by field_simp; ring
      rw [e]; linarith
  · have h1 := hmem x t
    simp only [proxL1Pos, build] at h1 ⊢
    rw [if_neg (hneg _ h1), hval _ h1]

example : IsProxCapable (proxL1Pos (vec fun _ : Fin 3 => 2)) {x | ∀ i, 0 ≤ x i} (fun x => ∑ i, 2 * x i) :=
  c32_prox_l1_pos _ fun _ => by norm_num [vec]

/-- `prox_zero` and `prox_l1_ball` are the proximal operators of the zero function and of the `ℓ₁`-ball indicator; in general
`build_from_ind_proj` turns an indicator and the nearest-point map of its set into a prox-capable function. -/
theorem c32_prox_indicators :
    (∀ n, IsProxCapable (proxZero n) Set.univ fun _ => 0) ∧
    (∀ n q, 0 ≤ q → IsProxCapable (proxL1Ball n q) (ball1 0 q) fun _ => 0) ∧
    (∀ (n : ℕ) (C : Set (Vec n)) I P, IsIndicator C I → (∀ x, IsNearest C x (P x)) →
      IsProxCapable (buildFromIndProj I P) C fun _ => 0) := by
  have key : ∀ (n : ℕ) (C : Set (Vec n)) I P, IsIndicator C I → (∀ x, IsNearest C x (P x)) →
      IsProxCapable (buildFromIndProj I P) C fun _ => 0 := by
    intro n C I P hI hP
    refine ⟨fun x hx => (hI x).1 hx, fun x hx => (hI x).2 hx, fun x t ht => ⟨(hP x).1, fun z hz hne => ?_⟩, fun x t _ => rfl⟩
    have := (hP x).2 z hz hne
    rw [norm_sub_rev, norm_sub_rev z]
    have h2 : ‖x - P x‖ ^ 2 < ‖x - z‖ ^ 2 := pow_lt_pow_left₀ this (norm_nonneg _) two_ne_zero
    have : ‖x - P x‖ ^ 2 / (2 * t) < ‖x - z‖ ^ 2 / (2 * t) := div_lt_div_of_pos_right h2 (by positivity)
    simpa [buildFromIndProj] using this
  refine ⟨fun n => ⟨fun x _ => rfl, fun x h => absurd trivial h, fun x t ht => ⟨trivial, fun z _ hne => ?_⟩, fun x t _ => rfl⟩,
    fun n q hq => key n _ _ _ ((c29_indicators (n := n) (m := n)).2.2.2.1 q none) fun x => (c25_proj_l1_ball q hq none x).1, key⟩
  have : 0 < ‖z - x‖ := norm_pos_iff.mpr (sub_ne_zero.mpr hne)
  simp only [proxZero, sub_self, norm_zero]
  norm_num
  positivity

/-! ## C34 Moreau envelope -/

section
variable {E : Type*} [NormedAddCommGroup E] [InnerProductSpace ℝ E]

/-- `v` is the value at `x` of the Moreau envelope `inf_{z ∈ C} f z + ‖x - z‖² / (2 μ)`. -/
def IsEnvelope (C : Set E) (f : E → ℝ) (mu : ℝ) (x : E) (v : ℝ) : Prop :=
  IsGLB {w | ∃ z ∈ C, w = f z + ‖x - z‖ ^ 2 / (2 * mu)} v

theorem IsProxOn.envelope {C : Set E} {f : E → ℝ} {mu : ℝ} {x p : E} (h : IsProxOn C f mu x p) :
    IsEnvelope C f mu x (f p + ‖x - p‖ ^ 2 / (2 * mu)) := by
  refine ⟨?_, fun w hw => hw ⟨p, h.1, rfl⟩⟩
  rintro w ⟨z, hz, rfl⟩
  by_cases e : z = p
  · rw [e]
  · have := (h.2 z hz e).le
    rwa [norm_sub_rev p, norm_sub_rev z] at this

/-- For convex `f` a proximal point satisfies the subgradient inequality. -/
theorem IsProxOn.subgradient {C : Set E} {f : E → ℝ} (hf : ConvexOn ℝ C f) {mu : ℝ} (hmu : 0 < mu) {x p : E}
    (h : IsProxOn C f mu x p) {z : E} (hz : z ∈ C) : f p + ⟪x - p, z - p⟫ / mu ≤ f z := by
  by_contra hlt
  push Not at hlt
  set d := f p + ⟪x - p, z - p⟫ / mu - f z with hd
  have hdpos : 0 < d := by linarith
  -- a short step from `p` towards `z` would be better
  obtain ⟨s, hs0, hs1, hs2⟩ : ∃ s : ℝ, 0 < s ∧ s ≤ 1 ∧ s * (‖z - p‖ ^ 2 / (2 * mu)) < d := by
    set B := ‖z - p‖ ^ 2 / (2 * mu) with hB
    have hB0 : 0 ≤ B := by positivity
    refine ⟨min 1 (d / (2 * (B + 1))), lt_min one_pos (by positivity), min_le_left _ _, ?_⟩
    calc min 1 (d / (2 * (B + 1))) * B ≤ d / (2 * (B + 1)) * B := mul_le_mul_of_nonneg_right (min_le_right _ _) hB0
      _ < d := by
        rw [div_mul_eq_mul_div, div_lt_iff₀ (by positivity)]
        nlinarith
  set w := p + s • (z - p) with hw
  have hwe : w = (1 - s) • p + s • z := by rw [hw]; module
  have hwC : w ∈ C := by
    rw [hwe]; exact hf.1 h.1 hz (by linarith) hs0.le (by ring)
  have hfw : f w ≤ (1 - s) * f p + s * f z := by
    rw [hwe]; exact hf.2 h.1 hz (by linarith) hs0.le (by ring)
  have hle : f p + ‖p - x‖ ^ 2 / (2 * mu) ≤ f w + ‖w - x‖ ^ 2 / (2 * mu) := by
    by_cases e : w = p
    · rw [e]
    · exact (h.2 w hwC e).le
  have hnorm : ‖w - x‖ ^ 2 = ‖p - x‖ ^ 2 - 2 * s * ⟪x - p, z - p⟫ + s ^ 2 * ‖z - p‖ ^ 2 := by
    have e : w - x = (p - x) + s • (z - p) := by rw [hw]; abel
    have e2 : ⟪p - x, z - p⟫ = -⟪x - p, z - p⟫ := by rw [← inner_neg_left]; congr 1; abel
    rw [e, norm_add_sq_real, inner_smul_right, norm_smul, Real.norm_of_nonneg hs0.le, e2]; ring
  rw [hnorm] at hle
  have e3 : (‖p - x‖ ^ 2 - 2 * s * ⟪x - p, z - p⟫ + s ^ 2 * ‖z - p‖ ^ 2) / (2 * mu) =
      ‖p - x‖ ^ 2 / (2 * mu) - s * (⟪x - p, z - p⟫ / mu) + s * (s * (‖z - p‖ ^ 2 / (2 * mu))) := by
    field_simp
  rw [e3] at hle
  have : s * d ≤ s * (s * (‖z - p‖ ^ 2 / (2 * mu))) := by rw [hd]; nlinarith
  have := le_of_mul_le_mul_left this hs0
  linarith

/-- Proximal points of a convex function depend non-expansively on the point. -/
theorem IsProxOn.nonexpansive {C : Set E} {f : E → ℝ} (hf : ConvexOn ℝ C f) {mu : ℝ} (hmu : 0 < mu) {x y p r : E}
    (hx : IsProxOn C f mu x p) (hy : IsProxOn C f mu y r) : ‖r - p‖ ≤ ‖y - x‖ := by
  have h1 := hx.subgradient hf hmu hy.1
  have h2 := hy.subgradient hf hmu hx.1
  have e : ⟪y - r, p - r⟫ = -⟪y - r, r - p⟫ := by rw [← inner_neg_right]; congr 1; abel
  rw [e] at h2
  have h3 : ⟪x - p, r - p⟫ - ⟪y - r, r - p⟫ ≤ 0 := by
    have : (⟪x - p, r - p⟫ - ⟪y - r, r - p⟫) / mu ≤ 0 := by rw [sub_div]; rw [neg_div] at h2; linarith
    by_contra hc
    push Not at hc
    exact absurd this (not_le.mpr (by positivity))
  have e2 : ⟪x - p, r - p⟫ - ⟪y - r, r - p⟫ = ‖r - p‖ ^ 2 - ⟪y - x, r - p⟫ := by
    rw [← inner_sub_left, ← real_inner_self_eq_norm_sq, ← inner_sub_left]
    congr 1; abel
  have h4 : ⟪y - x, r - p⟫ ≤ ‖y - x‖ * ‖r - p‖ := real_inner_le_norm _ _
  by_contra hc
  push Not at hc
  nlinarith [norm_nonneg (r - p), norm_nonneg (y - x)]

/-- The gradient of the Moreau envelope of a convex function. -/
theorem envelope_hasGradient [CompleteSpace E] {C : Set E} {f : E → ℝ} (hf : ConvexOn ℝ C f) {mu : ℝ} (hmu : 0 < mu) (P : E → E)
    (hP : ∀ x, IsProxOn C f mu x (P x)) (x : E) :
    HasGradientAt (fun x => f (P x) + ‖x - P x‖ ^ 2 / (2 * mu)) ((1 / mu) • (x - P x)) x := by
  rw [hasGradientAt_iff_isLittleO]
  have hb : ∀ y, |(f (P y) + ‖y - P y‖ ^ 2 / (2 * mu)) - (f (P x) + ‖x - P x‖ ^ 2 / (2 * mu)) - ⟪(1 / mu) • (x - P x), y - x⟫| ≤
      (3 / (2 * mu)) * ‖y - x‖ ^ 2 := by
    intro y
    have hE : ∀ a b : E, f (P a) + ‖a - P a‖ ^ 2 / (2 * mu) ≤ f (P b) + ‖a - P b‖ ^ 2 / (2 * mu) := fun a b =>
      (hP a).envelope.1 ⟨P b, (hP b).1, rfl⟩
    have hsq : ∀ a b : E, ‖a - P b‖ ^ 2 = ‖b - P b‖ ^ 2 + 2 * ⟪b - P b, a - b⟫ + ‖a - b‖ ^ 2 := by
      intro a b
      have : a - P b = (b - P b) + (a - b) := by abel
      rw [this, norm_add_sq_real]
    have h1 := hE y x
    rw [hsq y x] at h1
    have h2 := hE x y
    rw [hsq x y] at h2
    have hne := IsProxOn.nonexpansive hf hmu (hP x) (hP y)
    have hcs : |⟪P y - P x, y - x⟫| ≤ ‖y - x‖ ^ 2 := by
      calc _ ≤ ‖P y - P x‖ * ‖y - x‖ := abs_real_inner_le_norm _ _
        _ ≤ ‖y - x‖ * ‖y - x‖ := mul_le_mul_of_nonneg_right hne (norm_nonneg _)
        _ = _ := by ring
    have e1 : ⟪y - P y, x - y⟫ = -⟪x - P x, y - x⟫ - ‖y - x‖ ^ 2 + ⟪P y - P x, y - x⟫ := by
      have : y - P y = (x - P x) + (y - x) - (P y - P x) := by abel
      have e' : x - y = -(y - x) := by abel
      rw [e', inner_neg_right, this, inner_sub_left, inner_add_left, real_inner_self_eq_norm_sq]; ring
    have e2 : ‖x - y‖ = ‖y - x‖ := norm_sub_rev _ _
    rw [e1, e2] at h2
    rw [inner_smul_left]
    obtain ⟨h5, h6⟩ := abs_le.mp hcs
    have e3 : (starRingEnd ℝ) (1 / mu) = 1 / mu := by simp
    rw [e3, abs_le]
    set g := ⟪x - P x, y - x⟫ with hg
    set c := ⟪P y - P x, y - x⟫ with hc
    set D := ‖y - x‖ ^ 2 with hD
    have a1 : (‖x - P x‖ ^ 2 + 2 * g + D) / (2 * mu) = ‖x - P x‖ ^ 2 / (2 * mu) + 1 / mu * g + D / (2 * mu) := by field_simp
    have a2 : (‖y - P y‖ ^ 2 + 2 * (-g - D + c) + D) / (2 * mu) = ‖y - P y‖ ^ 2 / (2 * mu) - 1 / mu * g + (2 * c - D) / (2 * mu) := by
      field_simp; ring
    rw [a1] at h1
    rw [a2] at h2
    have a3 : D / (2 * mu) ≤ 3 / (2 * mu) * D := by
      rw [div_mul_eq_mul_div]
      exact div_le_div_of_nonneg_right (by nlinarith [sq_nonneg ‖y - x‖]) (by positivity)
    have a4 : (2 * c - D) / (2 * mu) ≤ 3 / (2 * mu) * D := by
      rw [div_mul_eq_mul_div]
      exact div_le_div_of_nonneg_right (by nlinarith [sq_nonneg ‖y - x‖]) (by positivity)
    constructor <;> linarith
  have hO : (fun y => (f (P y) + ‖y - P y‖ ^ 2 / (2 * mu)) - (f (P x) + ‖x - P x‖ ^ 2 / (2 * mu)) - ⟪(1 / mu) • (x - P x), y - x⟫) =O[nhds x]
      fun y => ‖y - x‖ ^ 2 := by
    refine Asymptotics.IsBigO.of_bound (3 / (2 * mu)) (Filter.Eventually.of_forall fun y => ?_)
    rw [Real.norm_eq_abs, Real.norm_of_nonneg (sq_nonneg _)]
    exact hb y
  refine hO.trans_isLittleO ?_
  have h1 : (fun y => ‖y - x‖ ^ 2) =o[nhds x] fun y => ‖y - x‖ := by
    have ht : Filter.Tendsto (fun y => ‖y - x‖) (nhds x) (nhds 0) := by
      have : Filter.Tendsto (fun y => ‖y - x‖) (nhds x) (nhds ‖x - x‖) := ((continuous_id.sub continuous_const).norm).tendsto x
      simpa using this
    have := (Asymptotics.isLittleO_pow_id (𝕜 := ℝ) (n := 2) (by norm_num)).comp_tendsto ht
    simpa [Function.comp_def] using this
  exact h1.of_norm_right

/-- **C34 partial** `moreau_envelope(f, mu)` for a prox-capable convex `f`: the returned gradient is, for every `mu > 0`, the gradient of
the true envelope `inf_z f z + ‖x - z‖²/(2 mu)` and equals `(x - prox_{mu f}(x)) / mu`; for `mu = 1` the returned value is the envelope;
`grad_val` is the pair. Missing: for `mu ≠ 1` the returned value is not the envelope (`c34_value_fails`). -/
theorem c34_moreau_partial [CompleteSpace E] (F : ProxCapable E) (C : Set E) (f : E → ℝ) (hF : IsProxCapable F C f)
    (hf : ConvexOn ℝ C f) (mu : ℝ) (hmu : 0 < mu) :
    (∃ M : E → ℝ, (∀ x, IsEnvelope C f mu x (M x)) ∧ (∀ x, HasGradientAt M ((moreauEnvelope F mu).grad x) x) ∧
      (mu = 1 → ∀ x, (moreauEnvelope F mu).func x = M x)) ∧
    (∀ x, IsProxOn C f mu x (x - mu • (moreauEnvelope F mu).grad x)) ∧
    (∀ x, (moreauEnvelope F mu).gradVal x = ((moreauEnvelope F mu).grad x, (moreauEnvelope F mu).func x)) := by
  have hP := fun x => hF.prox x mu hmu
  refine ⟨⟨fun x => f (F.proxOp x mu) + ‖x - F.proxOp x mu‖ ^ 2 / (2 * mu), fun x => (hP x).envelope,
    fun x => envelope_hasGradient hf hmu (fun x => F.proxOp x mu) hP x, fun h1 x => ?_⟩, fun x => ?_, fun x => ?_⟩
  · subst h1
    simp only [moreauEnvelope, hF.pair x 1 one_pos, EReal.toReal_coe]
    ring
  · have : x - mu • (moreauEnvelope F mu).grad x = F.proxOp x mu := by
      simp only [moreauEnvelope, smul_smul, mul_one_div_cancel hmu.ne', one_smul]; abel
    rw [this]; exact hP x
  · simp only [moreauEnvelope, hF.pair x mu hmu]

end

/-- The hypotheses of C34 are met by `prox_l1`, `prox_l2` and the `ℓ₁` ball. -/
theorem c34_hypotheses (n : ℕ) (q : ℝ) (hq : 0 < q) :
    (IsProxCapable (proxL2 n q) Set.univ (fun x => q * ‖x‖) ∧ ConvexOn ℝ Set.univ fun x : Vec n => q * ‖x‖) ∧
    (IsProxCapable (proxL1Ball n q) (ball1 0 q) (fun _ => 0) ∧ ConvexOn ℝ (ball1 (0 : Vec n) q) fun _ => (0 : ℝ)) := by
  refine ⟨⟨c31_prox_l2 n q hq, (convexOn_norm convex_univ).smul hq.le⟩, c32_prox_indicators.2.1 n q hq.le, convexOn_const _ ?_⟩
  intro x hx y hy a b ha hb hab
  simp only [ball1, Set.mem_ofPred_eq, sub_zero] at hx hy ⊢
  calc l1 (a • x + b • y) ≤ ∑ i, (a * |x i| + b * |y i|) := by
        refine Finset.sum_le_sum fun i _ => ?_
        simp only [PiLp.add_apply, PiLp.smul_apply, smul_eq_mul]
        calc _ ≤ |a * x i| + |b * y i| := abs_add_le _ _
          _ = _ := by rw [abs_mul, abs_mul, abs_of_nonneg ha, abs_of_nonneg hb]
    _ = a * l1 x + b * l1 y := by rw [Finset.sum_add_distrib, l1, l1, Finset.mul_sum, Finset.mul_sum]
    _ ≤ a * q + b * q := add_le_add (mul_le_mul_of_nonneg_left hx ha) (mul_le_mul_of_nonneg_left hy hb)
    _ = q := by rw [← add_mul, hab, one_mul]

/-- **C34 disproof**: for `mu = 2` and `f = ‖x‖₂` on the line, at `x = 4`, the returned value is 4 but the envelope is 3. -/
theorem c34_value_fails : ∃ x : Vec 1, (moreauEnvelope (proxL2 1 1) 2).func x = 4 ∧
    IsEnvelope Set.univ (fun x : Vec 1 => 1 * ‖x‖) 2 x 3 := by
  have hn : ∀ a : ℝ, ‖(vec fun _ : Fin 1 => a)‖ = |a| := by
    intro a
    have := norm_sq_sum (vec fun _ : Fin 1 => a)
    simp at this
    rw [← abs_norm]; exact (sq_eq_sq_iff_abs_eq_abs _ _).mp this
  have hp : (proxL2 1 1).proxOp (vec fun _ : Fin 1 => 4) 2 = vec fun _ => 2 := by
    simp only [proxL2, build, hn]
    ext i; simp; norm_num
  have hs : (vec fun _ : Fin 1 => (4 : ℝ)) - (vec fun _ : Fin 1 => (2 : ℝ)) = vec fun _ => 2 := by
    ext i; simp; norm_num
  refine ⟨vec fun _ => 4, ?_, ?_⟩
  · simp only [moreauEnvelope, (c31_prox_l2 1 1 one_pos).pair _ 2 two_pos, hp, hs, hn, EReal.toReal_coe]
    norm_num
  · have := ((c31_prox_l2 1 1 one_pos).prox (vec fun _ => 4) 2 two_pos).envelope
    rw [hp, hs] at this
    simp only [hn] at this
    norm_num at this
    simpa using this

/-- Instance: the envelope of the `l2` norm on `ℝ³`. -/
example := c34_moreau_partial (proxL2 3 2) Set.univ (fun x => 2 * ‖x‖) (c34_hypotheses 3 2 two_pos).1.1 (c34_hypotheses 3 2 two_pos).1.2 1 one_pos

end Verif.Opt
