import Verif.Opt.ScdSolveProps

set_option autoImplicit false
/-! # C163: projectors and proximal operators are stable, find minimisers, and fit together -/
noncomputable section
namespace Verif.Opt
open scoped RealInnerProductSpace

section general
variable {E : Type*} [NormedAddCommGroup E] [InnerProductSpace ℝ E]

/-- A firmly nonexpansive map. -/
def Firm (P : E → E) : Prop := ∀ x y, ‖P x - P y‖ ^ 2 ≤ ⟪x - y, P x - P y⟫

theorem Firm.nonexpansive {P : E → E} (h : Firm P) (x y : E) : ‖P x - P y‖ ≤ ‖x - y‖ := by
  have h1 := (h x y).trans (real_inner_le_norm _ _)
  by_contra hc
  push Not at hc
  nlinarith [norm_nonneg (x - y), norm_nonneg (P x - P y)]

/-- What a user expects of a projector: applying it twice changes nothing more, and it does not increase distances (in the strong form of firm
nonexpansiveness). -/
structure StableProj (P : E → E) : Prop where
  idem : ∀ x, P (P x) = P x
  dist : ∀ x y, ‖P x - P y‖ ≤ ‖x - y‖
  firm : ∀ x y, ‖P x - P y‖ ^ 2 ≤ ⟪x - y, P x - P y⟫

theorem IsProxOn.firm {C : Set E} {f : E → ℝ} (hf : ConvexOn ℝ C f) {mu : ℝ} (hmu : 0 < mu) {P : E → E} (hP : ∀ x, IsProxOn C f mu x (P x)) : Firm P := by
  intro x y
  have h1 := (hP x).subgradient hf hmu (hP y).1
  have h2 := (hP y).subgradient hf hmu (hP x).1
  have h3 : (⟪x - P x, P y - P x⟫ + ⟪y - P y, P x - P y⟫) / mu ≤ 0 := by rw [add_div]; linarith
  have h4 : ⟪x - P x, P y - P x⟫ + ⟪y - P y, P x - P y⟫ ≤ 0 := by
    by_contra hc
    push Not at hc
    exact absurd h3 (not_le.mpr (by positivity))
  have e : ⟪x - P x, P y - P x⟫ + ⟪y - P y, P x - P y⟫ = ‖P x - P y‖ ^ 2 - ⟪x - y, P x - P y⟫ := by
    rw [show P y - P x = -(P x - P y) by abel, inner_neg_right, ← real_inner_self_eq_norm_sq, neg_add_eq_sub, ← inner_sub_left, ← inner_sub_left]
    congr 1
    abel
  linarith

theorem IsNearest.prox {C : Set E} {x p : E} (h : IsNearest C x p) : IsProxOn C (fun _ => (0 : ℝ)) 1 x p := by
  refine ⟨h.1, fun z hz hne => ?_⟩
  have := h.2 z hz hne
  rw [norm_sub_rev x p, norm_sub_rev x z] at this
  have := norm_nonneg (p - x)
  simp only [zero_add]
  gcongr

theorem IsNearest.self {C : Set E} {x p : E} (h : IsNearest C x p) (hx : x ∈ C) : p = x := by
  by_contra hne
  have := h.2 x hx (Ne.symm hne)
  rw [sub_self, norm_zero] at this
  exact absurd this (not_lt.mpr (norm_nonneg _))

theorem stableProj {C : Set E} (hC : Convex ℝ C) {P : E → E} (hP : ∀ x, IsNearest C x (P x)) : StableProj P := by
  have hf : Firm P := IsProxOn.firm (convexOn_const (0 : ℝ) hC) one_pos fun x => (hP x).prox
  exact ⟨fun x => (hP (P x)).self (hP x).1, hf.nonexpansive, hf⟩

/-- `x` is a minimiser of `f` over `C`. -/
def IsMinimiser (C : Set E) (f : E → ℝ) (x : E) : Prop := x ∈ C ∧ ∀ z ∈ C, f x ≤ f z

/-- A point is left unchanged by the proximal step exactly if it minimises the function. -/
theorem IsProxOn.fixed_iff {C : Set E} {f : E → ℝ} (hf : ConvexOn ℝ C f) {mu : ℝ} (hmu : 0 < mu) {x p : E} (h : IsProxOn C f mu x p) :
    p = x ↔ IsMinimiser C f x := by
  constructor
  · rintro rfl
    refine ⟨h.1, fun z hz => ?_⟩
    have := h.subgradient hf hmu hz
    rwa [sub_self, inner_zero_left, zero_div, add_zero] at this
  · rintro ⟨hx, hmin⟩
    by_contra hne
    have h1 := h.2 x hx (Ne.symm hne)
    have h2 := hmin p h.1
    rw [sub_self, norm_zero] at h1
    have : 0 ≤ ‖p - x‖ ^ 2 / (2 * mu) := by positivity
    norm_num at h1
    linarith

/-- What a user expects of a proximal operator: for every step it does not increase distances (firmly), and the points it does not move are the minimisers. -/
structure StableProx (F : ProxCapable E) (C : Set E) (f : E → ℝ) : Prop where
  dist : ∀ t, 0 < t → ∀ x y, ‖F.proxOp x t - F.proxOp y t‖ ≤ ‖x - y‖
  firm : ∀ t, 0 < t → ∀ x y, ‖F.proxOp x t - F.proxOp y t‖ ^ 2 ≤ ⟪x - y, F.proxOp x t - F.proxOp y t⟫
  fixed : ∀ t, 0 < t → ∀ x, F.proxOp x t = x ↔ IsMinimiser C f x

theorem stableProx {F : ProxCapable E} {C : Set E} {f : E → ℝ} (hF : IsProxCapable F C f) (hf : ConvexOn ℝ C f) : StableProx F C f := by
  have h : ∀ t, 0 < t → Firm fun x => F.proxOp x t := fun t ht => IsProxOn.firm hf ht fun x => hF.prox x t ht
  exact ⟨fun t ht => (h t ht).nonexpansive, h, fun t ht x => (hF.prox x t ht).fixed_iff hf ht⟩

end general

/-! ## The sets are convex -/

theorem boxSet_convex {n : ℕ} (l u : Option (Vec n)) : Convex ℝ (boxSet l u) := by
  intro x hx y hy a b ha hb hab
  refine ⟨fun w hw i => ?_, fun w hw i => ?_⟩
  · have h1 := hx.1 w hw i
    have h2 := hy.1 w hw i
    show w i ≤ a * x i + b * y i
    calc w i = a * w i + b * w i := by rw [← add_mul, hab, one_mul]
      _ ≤ _ := by gcongr
  · have h1 := hx.2 w hw i
    have h2 := hy.2 w hw i
    show a * x i + b * y i ≤ w i
    calc a * x i + b * y i ≤ a * w i + b * w i := by gcongr
      _ = w i := by rw [← add_mul, hab, one_mul]

theorem ball2_convex {n : ℕ} (c : Vec n) (q : ℝ) : Convex ℝ (ball2 c q) := by
  have : ball2 c q = Metric.closedBall c q := by
    ext x
    rw [Metric.mem_closedBall, dist_eq_norm]
    rfl
  rw [this]
  exact convex_closedBall c q

theorem ball1_convex {n : ℕ} (c : Vec n) (q : ℝ) : Convex ℝ (ball1 c q) := by
  intro x hx y hy a b ha hb hab
  show l1 (a • x + b • y - c) ≤ q
  have e : a • x + b • y - c = a • (x - c) + b • (y - c) := by
    have : c = a • c + b • c := by rw [← add_smul, hab, one_smul]
    nth_rw 1 [this]
    module
  have hx' : l1 (x - c) ≤ q := hx
  have hy' : l1 (y - c) ≤ q := hy
  rw [e]
  calc l1 (a • (x - c) + b • (y - c)) ≤ ∑ i, (a * |(x - c) i| + b * |(y - c) i|) := by
        refine Finset.sum_le_sum fun i _ => (abs_add_le _ _).trans ?_
        show |a * (x - c) i| + |b * (y - c) i| ≤ _
        rw [abs_mul, abs_mul, abs_of_nonneg ha, abs_of_nonneg hb]
    _ = a * l1 (x - c) + b * l1 (y - c) := by rw [Finset.sum_add_distrib, ← Finset.mul_sum, ← Finset.mul_sum]; rfl
    _ ≤ a * q + b * q := by gcongr
    _ = q := by rw [← add_mul, hab, one_mul]

theorem soc_convex (n : ℕ) : Convex ℝ (soc n) := by
  intro x hx y hy a b ha hb hab
  rw [mem_soc] at hx hy ⊢
  have e1 : xPre (a • x + b • y) = a • xPre x + b • xPre y := by ext i; rfl
  have e2 : xLast (a • x + b • y) = a * xLast x + b * xLast y := rfl
  rw [e1, e2]
  calc _ ≤ ‖a • xPre x‖ + ‖b • xPre y‖ := norm_add_le _ _
    _ = a * ‖xPre x‖ + b * ‖xPre y‖ := by rw [norm_smul, norm_smul, Real.norm_of_nonneg ha, Real.norm_of_nonneg hb]
    _ ≤ _ := by gcongr

theorem solSet_convex {m n : ℕ} (A : Matrix (Fin m) (Fin n) ℝ) (b : Fin m → ℝ) : Convex ℝ (solSet A b) := by
  intro x hx y hy c d hc hd hcd
  show A.mulVec (c • x.ofLp + d • y.ofLp) = b
  rw [Matrix.mulVec_add, Matrix.mulVec_smul, Matrix.mulVec_smul, show A.mulVec x.ofLp = b from hx, show A.mulVec y.ofLp = b from hy, ← add_smul, hcd, one_smul]

/-! ## Projectors -/

/-- **C163** (projectors) The projectors onto boxes, `l1` balls, `l2` balls around the origin, the second order cone and solution sets of linear systems
are idempotent and do not increase distances. -/
theorem c163_projectors {m n : ℕ} :
    (∀ (l u : Option (Vec n)) P, projBox l u = .ok P → (∀ a b, l = some a → u = some b → ∀ i, a i ≤ b i) → StableProj P) ∧
    (∀ (q : ℝ) (b : Option (Vec n)), 0 ≤ q → StableProj (projL1Ball q b)) ∧
    (∀ (q : ℝ) P, projL2Ball (n := n) q none false = .ok P → StableProj P) ∧
    (∀ q : ℝ, 0 < q → StableProj fun x : Vec n => projectToBall x q) ∧
    StableProj (projConic (n := n)) ∧
    ∀ (L : LinAlg m n) (A : Matrix (Fin m) (Fin n) ℝ) (b : Fin m → ℝ), LinearIndependent ℝ A.row → LinAlgOk L A → StableProj (projAffine L A b) := by
  have h2 : ∀ (q : ℝ) P, projL2Ball (n := n) q none false = .ok P → 0 < q ∧ ∀ x, IsNearest (ball2 0 q) x (P x) := by
    intro q P hP
    have hq : 0 < q := by
      by_contra hc
      rw [((c26_proj_l2_ball q).1 (not_lt.mp hc) none false)] at hP
      cases hP
    obtain ⟨-, P', h1, h2, -, -⟩ := (c26_proj_l2_ball (n := n) q).2 hq
    rw [h1] at hP
    cases hP
    exact ⟨hq, h2⟩
  refine ⟨fun l u P hP hlu => ?_, fun q b hq => ?_, fun q P hP => ?_, fun q hq => ?_, ?_, fun L A b hA hL => ?_⟩
  · have hne : ¬ (l = none ∧ u = none) := fun h => by
      rw [(c24_proj_box l u).1.2 h] at hP
      cases hP
    obtain ⟨P', h1, h2, -⟩ := (c24_proj_box l u).2 hne hlu
    rw [h1] at hP
    cases hP
    exact stableProj (boxSet_convex l u) h2
  · exact stableProj (ball1_convex _ q) fun x => (c25_proj_l1_ball q hq b x).1
  · exact stableProj (ball2_convex 0 q) (h2 q P hP).2
  · obtain ⟨-, P, h1, h3, -, h4⟩ := (c26_proj_l2_ball (n := n) q).2 hq
    exact stableProj (ball2_convex 0 q) fun x => by rw [← h4]; exact h3 x
  · exact stableProj (soc_convex n) c27_proj_conic
  · exact stableProj (solSet_convex A b) fun x => c28_proj_affine L A b hA hL x

/-- **C163** (the code) The `l2` ball projector with a centre moves points outside the ball `1e-7` too far in, so it increases some distances, and by any factor. -/
theorem c163_center_fails (K : ℝ) (hK : 0 < K) : ∃ P, projL2Ball (n := 1) 1 (some 0) false = .ok P ∧ ∃ x y, K * ‖x - y‖ < ‖P x - P y‖ := by
  have hn : ∀ a : ℝ, ‖(vec fun _ : Fin 1 => a)‖ = |a| := by
    intro a
    have := norm_sq_sum (vec fun _ : Fin 1 => a)
    simp at this
    rw [← abs_norm]; exact (sq_eq_sq_iff_abs_eq_abs _ _).mp this
  have hd : ∀ a b : ℝ, (vec fun _ : Fin 1 => a) - (vec fun _ : Fin 1 => b) = vec fun _ => a - b := fun a b => by ext i; rfl
  have hs : ∀ a b : ℝ, a • (vec fun _ : Fin 1 => b) = vec fun _ => a * b := fun a b => by ext i; rfl
  refine ⟨_, by simp only [projL2Ball, if_neg (not_le.mpr (one_pos : (0 : ℝ) < 1))]; rfl, ?_⟩
  set δ : ℝ := 1e-8 / K with hδ
  have hδ0 : 0 < δ := by positivity
  refine ⟨vec fun _ => 1 + δ, vec fun _ => 1, ?_⟩
  simp only [sub_zero, add_zero]
  rw [if_pos (by rw [hn, abs_of_pos (by linarith)]; linarith), if_neg (by rw [hn, abs_one]; exact lt_irrefl 1), hn, hs, hd, hd, hn, hn, abs_of_pos (by linarith : 0 < 1 + δ),
    mul_assoc, inv_mul_cancel₀ (by linarith), show 1 + δ - 1 = δ by ring, abs_of_pos hδ0, hδ, mul_div_cancel₀ _ hK.ne']
  norm_num

/-! ## Proximal operators -/

theorem l1w_convex {n : ℕ} (q : Vec n) (hq : ∀ i, 0 < q i) : ConvexOn ℝ Set.univ fun x : Vec n => ∑ i, q i * |x i| := by
  refine ⟨convex_univ, fun x _ y _ a b ha hb hab => ?_⟩
  show ∑ i, q i * |a * x i + b * y i| ≤ a * ∑ i, q i * |x i| + b * ∑ i, q i * |y i|
  rw [Finset.mul_sum, Finset.mul_sum, ← Finset.sum_add_distrib]
  refine Finset.sum_le_sum fun i _ => ?_
  have h := abs_add_le (a * x i) (b * y i)
  rw [abs_mul, abs_mul, abs_of_nonneg ha, abs_of_nonneg hb] at h
  nlinarith [hq i]

theorem orthant_convexOn {n : ℕ} (q : Vec n) : ConvexOn ℝ {x : Vec n | ∀ i, 0 ≤ x i} fun x : Vec n => ∑ i, q i * x i := by
  refine ⟨fun x hx y hy a b ha hb hab i => ?_, fun x _ y _ a b ha hb hab => ?_⟩
  · have h1 := hx i
    have h2 := hy i
    show 0 ≤ a * x i + b * y i
    positivity
  · show ∑ i, q i * (a * x i + b * y i) ≤ a * ∑ i, q i * x i + b * ∑ i, q i * y i
    rw [Finset.mul_sum, Finset.mul_sum, ← Finset.sum_add_distrib]
    exact Finset.sum_le_sum fun i _ => by rw [mul_add]; linarith

/-- **C163** (proximal operators) Proximal operators do not increase distances, and leave exactly the minimisers of their function unchanged. -/
theorem c163_proximal {n : ℕ} :
    (∀ q : Vec n, (∀ i, 0 < q i) → StableProx (proxL1 q) Set.univ fun x => ∑ i, q i * |x i|) ∧
    (∀ q : ℝ, 0 < q → StableProx (proxL2 n q) Set.univ fun x => q * ‖x‖) ∧
    (∀ q : Vec n, (∀ i, 0 < q i) → StableProx (proxL1Pos q) {x | ∀ i, 0 ≤ x i} fun x => ∑ i, q i * x i) ∧
    (∀ q : ℝ, 0 ≤ q → StableProx (proxL1Ball n q) (ball1 0 q) fun _ => 0) :=
  ⟨fun q hq => stableProx (c30_prox_l1 q hq) (l1w_convex q hq),
    fun q hq => stableProx (c31_prox_l2 n q hq) ((convexOn_norm convex_univ).smul hq.le),
    fun q hq => stableProx (c32_prox_l1_pos q hq) (orthant_convexOn q),
    fun q hq => stableProx (c32_prox_indicators.2.1 n q hq) (convexOn_const _ (ball1_convex 0 q))⟩

theorem IsProx.on {E : Type*} [NormedAddCommGroup E] [InnerProductSpace ℝ E] {f : E → ℝ} {t : ℝ} {x p : E} (h : IsProx f t x p) : IsProxOn Set.univ f t x p :=
  ⟨trivial, fun z _ hne => h z hne⟩

/-- **C163** (sorted `l1` norm) The same for the results of `prox_owl1`, whenever its loop stops. -/
theorem c163_owl1 {n : ℕ} (lam : Fin n → ℝ) (hl : Antitone lam) (hl0 : ∀ i, 0 ≤ lam i) (t : ℝ) (ht : 0 < t) (x y p r : Vec n) (hx : OwlProx lam x t p)
    (hy : OwlProx lam y t r) : ‖p - r‖ ≤ ‖x - y‖ ∧ (p = x ↔ IsMinimiser Set.univ (owlFunc lam) x) := by
  have h1 := (c33_prox_owl1_partial lam hl hl0 x t ht p hx).on
  have h2 := (c33_prox_owl1_partial lam hl hl0 y t ht r hy).on
  have hc := owlFunc_convex lam hl hl0
  exact ⟨by have := IsProxOn.nonexpansive hc ht h2 h1; exact this, h1.fixed_iff hc ht⟩

/-! ## Decompositions -/

/-- **C163** (Moreau) A proximal step and the projection onto the dual ball add up to the point: `prox_l2` with the `l2` ball, `prox_l1` with a box,
`prox_l1_pos` with a half open box. -/
theorem c163_moreau {n : ℕ} (t : ℝ) (ht : 0 < t) (x : Vec n) :
    (∀ q : ℝ, 0 < q → ∃ P, projL2Ball (n := n) (t * q) none false = .ok P ∧ (proxL2 n q).proxOp x t + P x = x) ∧
    (∀ q : Vec n, (∀ i, 0 < q i) → ∃ P, projBox (some (-(t • q))) (some (t • q)) = .ok P ∧ (proxL1 q).proxOp x t + P x = x) ∧
    (∀ q : Vec n, ∃ P, projBox none (some (t • q)) = .ok P ∧ (proxL1Pos q).proxOp x t + P x = x) := by
  refine ⟨fun q hq => ?_, fun q hq => ⟨_, rfl, ?_⟩, fun q => ⟨_, rfl, ?_⟩⟩
  · have htq : 0 < t * q := mul_pos ht hq
    obtain ⟨-, P, h1, -, -, h4⟩ := (c26_proj_l2_ball (n := n) (t * q)).2 htq
    refine ⟨P, h1, ?_⟩
    rw [h4]
    simp only [proxL2, build, projectToBall]
    split_ifs with h
    · have hx : 0 < ‖x‖ := htq.trans h
      rw [max_eq_left ((one_le_div htq).mpr h.le), one_div_div, ← add_smul, sub_add_cancel, one_smul]
    · rw [max_eq_right ((div_le_one htq).mpr (not_lt.mp h)), div_one, sub_self, zero_smul, zero_add]
  · ext i
    have hk : 0 < t * q i := mul_pos ht (hq i)
    show x i * (1 - minDiv1 (t * q i) |x i|) + min (max (x i) (-(t * q i))) (t * q i) = x i
    generalize x i = a
    generalize t * q i = k at hk
    unfold minDiv1
    by_cases h0 : |a| = 0
    · rw [if_pos h0, abs_eq_zero.mp h0, max_eq_left (by linarith), min_eq_left hk.le]
      ring
    · rw [if_neg h0]
      have ha : 0 < |a| := lt_of_le_of_ne (abs_nonneg a) (Ne.symm h0)
      rcases le_total k |a| with h | h
      · rw [min_eq_left ((div_le_one ha).mpr h)]
        rcases abs_cases a with ⟨e, h1⟩ | ⟨e, h1⟩ <;> rw [e] at h ha ⊢
        · rw [max_eq_left (by linarith), min_eq_right h]
          field_simp
          ring
        · have hne : a ≠ 0 := h1.ne
          rw [max_eq_right (by linarith), min_eq_left (by linarith), div_neg]
          field_simp
          ring
      · rw [min_eq_right ((one_le_div ha).mpr h), sub_self, mul_zero, zero_add]
        obtain ⟨h1, h2⟩ := abs_le.mp h
        rw [max_eq_left h1, min_eq_left h2]
  · ext i
    show max 0 (x i - t * q i) + min (x i) (t * q i) = x i
    rcases le_total (x i) (t * q i) with h | h
    · rw [max_eq_left (by linarith), min_eq_left h, zero_add]
    · rw [max_eq_right (by linarith), min_eq_right h, sub_add_cancel]

/-- **C163** (Moreau, cone) Every point is the difference of the orthogonal projections of itself and its negative onto the second order cone. -/
theorem c163_conic {n : ℕ} (x : Vec (n + 1)) : projConic x - projConic (-x) = x ∧ ⟪projConic x, projConic (-x)⟫ = 0 := by
  have hp : xPre (-x) = -xPre x := by ext i; rfl
  have hl : xLast (-x) = -xLast x := rfl
  have hext : ∀ y z : Vec (n + 1), xPre y = xPre z → xLast y = xLast z → y = z := by
    intro y z h1 h2
    ext i
    refine Fin.lastCases h2 (fun j => ?_) i
    exact congrFun (congrArg (fun v : Vec n => v.ofLp) h1) j
  have hz : (vec fun _ : Fin (n + 1) => (0 : ℝ)) = 0 := by ext i; rfl
  unfold projConic
  simp only [hp, hl, norm_neg, abs_neg, hz]
  by_cases h : ‖xPre x‖ > |xLast x|
  · rw [if_pos h, if_pos h]
    have hN : 0 < ‖xPre x‖ := lt_of_le_of_lt (abs_nonneg _) h
    constructor
    · refine hext _ _ ?_ ?_
      · ext i
        have e : ∀ (c : ℝ) (v : Vec n), xPre (c • xAppend v 1) i = c * v i := fun c v => by simp [xPre, xAppend]
        show xPre _ i - xPre _ i = _
        rw [e, e]
        show (‖xPre x‖ + xLast x) / 2 * (‖xPre x‖⁻¹ * xPre x i) - (‖xPre x‖ + -xLast x) / 2 * (‖xPre x‖⁻¹ * -(xPre x i)) = xPre x i
        field_simp
        ring
      · have e : ∀ (c : ℝ) (v : Vec n), xLast (c • xAppend v 1) = c := fun c v => by simp [xLast, xAppend]
        have es : ∀ y z : Vec (n + 1), xLast (y - z) = xLast y - xLast z := fun y z => rfl
        rw [es, e, e]
        ring
    · have e : ⟪xAppend (‖xPre x‖⁻¹ • xPre x) 1, xAppend (‖xPre x‖⁻¹ • -xPre x) 1⟫ = 0 := by
        rw [inner_split]
        have e1 : ∀ v : Vec n, xPre (xAppend v 1) = v := fun v => by ext i; simp [xPre, xAppend]
        have e2 : ∀ v : Vec n, xLast (xAppend v 1) = 1 := fun v => by simp [xLast, xAppend]
        rw [e1, e1, e2, e2, smul_neg, inner_neg_right, inner_smul_left, inner_smul_right, real_inner_self_eq_norm_sq]
        simp only [conj_trivial]
        field_simp
        ring
      rw [inner_smul_left, inner_smul_right, e, mul_zero, mul_zero]
  · rw [if_neg h, if_neg h]
    have h' := not_lt.mp h
    rcases lt_trichotomy (xLast x) 0 with ht | ht | ht
    · rw [if_neg (by linarith), if_pos (by linarith)]
      exact ⟨by rw [zero_sub, neg_neg], inner_zero_left _⟩
    · rw [ht, abs_zero] at h'
      have h0 : xPre x = 0 := norm_le_zero_iff.mp h'
      have hx : x = 0 := hext _ _ (by rw [h0]; ext i; rfl) (by rw [ht]; rfl)
      rw [ht, if_neg (by simp), if_neg (by simp)]
      exact ⟨by rw [hx, sub_zero], inner_zero_left _⟩
    · rw [if_pos ht, if_neg (by linarith)]
      exact ⟨sub_zero _, inner_zero_right _⟩

/-- **C163** (Huber) `smooth_huber(tau)` is the Moreau envelope of the `l1` norm with parameter `tau`, and its gradient is the one `moreau_envelope(prox_l1(1), tau)` computes. -/
theorem c163_huber {n : ℕ} (tau : ℝ) (ht : 0 < tau) (x : Vec n) :
    IsEnvelope Set.univ (fun z : Vec n => ∑ i, |z i|) tau x ((smoothHuber n tau).func x) ∧
    (smoothHuber n tau).grad x = (moreauEnvelope (proxL1 (vec fun _ : Fin n => 1)) tau).grad x ∧
    (tau = 1 → (moreauEnvelope (proxL1 (vec fun _ : Fin n => 1)) tau).func x = (smoothHuber n tau).func x) := by
  have hF := c30_prox_l1 (vec fun _ : Fin n => (1 : ℝ)) fun i => one_pos
  have hP := hF.prox x tau ht
  set p := (proxL1 (vec fun _ : Fin n => (1 : ℝ))).proxOp x tau with hp
  have hpi : ∀ i, (|x i| ≤ tau → p i = 0) ∧ (tau < |x i| → |p i| = |x i| - tau ∧ x i - p i = tau * (x i / |x i|)) := by
    intro i
    have e : p i = x i * (1 - minDiv1 (tau * 1) |x i|) := rfl
    rw [e, mul_one]
    unfold minDiv1
    constructor
    · intro h
      by_cases h0 : |x i| = 0
      · rw [if_pos h0, sub_self, mul_zero]
      · have ha : 0 < |x i| := lt_of_le_of_ne (abs_nonneg _) (Ne.symm h0)
        rw [if_neg h0, min_eq_right ((one_le_div ha).mpr h), sub_self, mul_zero]
    · intro h
      have ha : 0 < |x i| := ht.trans h
      rw [if_neg ha.ne', min_eq_left ((div_le_one ha).mpr h.le)]
      constructor
      · rw [abs_mul, abs_of_nonneg (show 0 ≤ 1 - tau / |x i| by rw [sub_nonneg, div_le_one ha]; exact h.le)]
        field_simp
      · ring
  have hval : ∑ i, |p i| + ‖x - p‖ ^ 2 / (2 * tau) = (smoothHuber n tau).func x := by
    rw [norm_sq_sum, Finset.sum_div, ← Finset.sum_add_distrib]
    refine Finset.sum_congr rfl fun i _ => ?_
    show |p i| + (x i - p i) ^ 2 / (2 * tau) = _
    split_ifs with h
    · rw [(hpi i).1 h, abs_zero, sub_zero, zero_add, sq_abs]
      field_simp
      norm_num
      ring
    · push Not at h
      obtain ⟨h1, h2⟩ := (hpi i).2 h
      have ha : |x i| ≠ 0 := (ht.trans h).ne'
      rw [h1, h2, mul_pow, div_pow, sq_abs, div_self (by rw [← sq_abs]; positivity)]
      field_simp
      ring
  have hw : ∀ z : Vec n, (∑ i, (vec fun _ : Fin n => (1 : ℝ)) i * |z i|) = ∑ i, |z i| := fun z => Finset.sum_congr rfl fun i _ => one_mul _
  refine ⟨?_, ?_, ?_⟩
  · have := hP.envelope
    simp only [hw] at this
    rwa [hval] at this
  · ext i
    show x i / max tau |x i| = 1 / tau * (x i - p i)
    rcases le_or_gt |x i| tau with h | h
    · rw [max_eq_left h, (hpi i).1 h, sub_zero]
      ring
    · rw [max_eq_right h.le, ((hpi i).2 h).2]
      field_simp
  · rintro rfl
    rw [← hval]
    simp only [moreauEnvelope, hF.pair x 1 one_pos, EReal.toReal_coe, hw]
    rw [← hp]
    ring

/-- **C163** (envelope) The gradient of the Moreau envelope of a convex function is Lipschitz with constant `1 / mu`, and vanishes exactly at the minimisers of the function. -/
theorem c163_envelope {E : Type*} [NormedAddCommGroup E] [InnerProductSpace ℝ E] (F : ProxCapable E) (C : Set E) (f : E → ℝ) (hF : IsProxCapable F C f) (hf : ConvexOn ℝ C f)
    (mu : ℝ) (hmu : 0 < mu) : (∀ x y, ‖(moreauEnvelope F mu).grad x - (moreauEnvelope F mu).grad y‖ ≤ 1 / mu * ‖x - y‖) ∧
    ∀ x, (moreauEnvelope F mu).grad x = 0 ↔ IsMinimiser C f x := by
  have hfirm : Firm fun x => F.proxOp x mu := IsProxOn.firm hf hmu fun x => hF.prox x mu hmu
  refine ⟨fun x y => ?_, fun x => ?_⟩
  · show ‖(1 / mu) • (x - F.proxOp x mu) - (1 / mu) • (y - F.proxOp y mu)‖ ≤ _
    rw [← smul_sub, norm_smul, Real.norm_of_nonneg (by positivity)]
    refine mul_le_mul_of_nonneg_left ?_ (by positivity)
    have h := hfirm x y
    have e : ‖x - F.proxOp x mu - (y - F.proxOp y mu)‖ ^ 2 = ‖x - y‖ ^ 2 - 2 * ⟪x - y, F.proxOp x mu - F.proxOp y mu⟫ + ‖F.proxOp x mu - F.proxOp y mu‖ ^ 2 := by
      rw [show x - F.proxOp x mu - (y - F.proxOp y mu) = (x - y) - (F.proxOp x mu - F.proxOp y mu) by abel, norm_sub_sq_real]
    refine le_of_sq_le_sq ?_ (norm_nonneg _)
    rw [e]
    simp only at h
    nlinarith [sq_nonneg ‖F.proxOp x mu - F.proxOp y mu‖]
  · show (1 / mu) • (x - F.proxOp x mu) = 0 ↔ _
    rw [smul_eq_zero_iff_right (by positivity), sub_eq_zero, eq_comm]
    exact (hF.prox x mu hmu).fixed_iff hf hmu

/-! ## Instances -/
example : StableProj (projL1Ball 2 (some (vec ![1, 0, 0]))) := c163_projectors (m := 1).2.1 2 _ (by norm_num)
example (P : Vec 2 → Vec 2) (hP : projBox (some (vec ![(0 : ℝ), 0])) (some (vec ![1, 2])) = .ok P) : StableProj P :=
  c163_projectors (m := 1).1 _ _ _ hP fun a b ha hb i => by
    rw [← Option.some.inj ha, ← Option.some.inj hb]
    fin_cases i <;> norm_num [vec]
example := c163_center_fails 1000 (by norm_num)
example := (c163_proximal (n := 3)).2.1 2 two_pos
example := (c163_moreau 0.5 (by norm_num) (vec ![3, -1, 0])).1 2 two_pos
example := c163_conic (n := 2) (vec ![3, 4, 1])
example := c163_huber 0.5 (by norm_num) (vec ![3, -1, 0.25])
example := c163_envelope (proxL2 3 2) Set.univ (fun x => 2 * ‖x‖) (c31_prox_l2 3 2 two_pos) ((convexOn_norm convex_univ).smul two_pos.le) 0.5 (by norm_num)

end Verif.Opt
