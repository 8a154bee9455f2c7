import Verif.Opt.ProjModel

set_option autoImplicit false
/-!
# Projectors are nearest-point maps and indicators describe their sets (C24 – C29)
-/
noncomputable section
namespace Verif.Opt
open Verif.Lop (ent cumsum ent_cumsum length_cumsum)
open scoped RealInnerProductSpace

/-! ## Sets (specification) -/

/-- `{x | l ≤ x ≤ u}`, a missing bound being infinite. -/
def boxSet {n : ℕ} (l u : Option (Vec n)) : Set (Vec n) :=
  {x | (∀ b, l = some b → ∀ i, b i ≤ x i) ∧ (∀ b, u = some b → ∀ i, x i ≤ b i)}

/-- The Euclidean ball of radius `q` around `c`. -/
def ball2 {n : ℕ} (c : Vec n) (q : ℝ) : Set (Vec n) := {x | ‖x - c‖ ≤ q}

/-- The `ℓ₁` ball of radius `q` around `c`. -/
def ball1 {n : ℕ} (c : Vec n) (q : ℝ) : Set (Vec n) := {x | l1 (x - c) ≤ q}

/-- The second-order cone `{(u, t) | ‖u‖ ≤ t}`, last entry `t`. -/
def soc (n : ℕ) : Set (Vec (n + 1)) :=
  {x | Real.sqrt (∑ i : Fin n, x i.castSucc ^ 2) ≤ x (Fin.last n)}

/-- Solutions of `A x = b`. -/
def solSet {m n : ℕ} (A : Matrix (Fin m) (Fin n) ℝ) (b : Fin m → ℝ) : Set (Vec n) := {x | A.mulVec x.ofLp = b}

/-! ## C24 -/

theorem IsNearest.of_coord {n : ℕ} {C : Set (Vec n)} {x p : Vec n} (hp : p ∈ C)
    (h : ∀ z ∈ C, ∀ i, (x i - p i) * (z i - p i) ≤ 0) : IsNearest C x p := by
  refine IsNearest.of_inner hp fun z hz => ?_
  rw [inner_sum]
  exact Finset.sum_nonpos fun i _ => by simpa using h z hz i

/-- **C24** `proj_box(l, u)` is rejected exactly when both bounds are missing; otherwise, for `l ≤ u`, it returns the unique
nearest point of the box and leaves the points of the box unchanged. -/
theorem c24_proj_box {n : ℕ} (l u : Option (Vec n)) :
    (projBox l u = .error .valueError ↔ l = none ∧ u = none) ∧
    (¬ (l = none ∧ u = none) → (∀ a b, l = some a → u = some b → ∀ i, a i ≤ b i) →
      ∃ P, projBox l u = .ok P ∧ (∀ x, IsNearest (boxSet l u) x (P x)) ∧ ∀ x ∈ boxSet l u, P x = x) := by
  refine ⟨by rcases l with _ | l <;> rcases u with _ | u <;> simp [projBox], fun hne hle => ?_⟩
  have hex : ∃ P, projBox l u = .ok P ∧ (∀ x, IsNearest (boxSet l u) x (P x)) := by
    rcases l with _ | l <;> rcases u with _ | u
    · exact absurd ⟨rfl, rfl⟩ hne
    · refine ⟨_, rfl, fun x => IsNearest.of_coord ?_ fun z hz i => ?_⟩
      · simp [boxSet]
      · have h := hz.2 u rfl i
        simp only [vec_apply]
        rcases le_total (x i) (u i) with h1 | h1
        · rw [min_eq_left h1]; simp
        · rw [min_eq_right h1]; nlinarith
    · refine ⟨_, rfl, fun x => IsNearest.of_coord ?_ fun z hz i => ?_⟩
      · simp [boxSet]
      · have h := hz.1 l rfl i
        simp only [vec_apply]
        rcases le_total (x i) (l i) with h1 | h1
        · rw [max_eq_right h1]; nlinarith
        · rw [max_eq_left h1]; simp
    · have hlu := hle l u rfl rfl
      refine ⟨_, rfl, fun x => IsNearest.of_coord ?_ fun z hz i => ?_⟩
      · refine ⟨fun b hb i => ?_, fun b hb i => ?_⟩
        · cases hb; exact le_min (le_max_right _ _) (hlu i)
        · cases hb; exact min_le_right _ _
      · have h := hz.1 l rfl i
        have h' := hz.2 u rfl i
        have h3 := hlu i
        simp only [vec_apply]
        rcases le_total (x i) (l i) with h1 | h1
        · rw [max_eq_right h1, min_eq_left h3]; nlinarith
        · rw [max_eq_left h1]
          rcases le_total (x i) (u i) with h2 | h2
          · rw [min_eq_left h2]; simp
          · rw [min_eq_right h2]; nlinarith
  obtain ⟨P, hP, hn⟩ := hex
  refine ⟨P, hP, hn, fun x hx => ?_⟩
  by_contra hne'
  have := (hn x).2 x hx (Ne.symm hne')
  simp at this
  exact absurd (norm_nonneg _) (not_le.mpr this)

example : ∃ P, projBox (some (vec fun _ : Fin 2 => 0)) (some (vec fun _ => 1)) = .ok P ∧
    IsNearest (boxSet (some (vec fun _ : Fin 2 => 0)) (some (vec fun _ => 1))) (vec ![3, 1/2]) (P (vec ![3, 1/2])) ∧
    P (vec ![3, 1/2]) = vec ![1, 1/2] := by
  obtain ⟨P, hP, hn, _⟩ := (c24_proj_box (some (vec fun _ : Fin 2 => 0)) (some (vec fun _ => 1))).2 (by simp)
    (by intro a b ha hb i; cases ha; cases hb; simp)
  refine ⟨P, hP, hn _, ?_⟩
  simp only [projBox, Except.ok.injEq] at hP
  subst hP
  ext i; fin_cases i <;> norm_num [vec]

/-- **C24** (legacy API) `project_to_box(x, r)`, `r > 0`, entry by entry maps to the nearest complex number of modulus at most
`r`; on a real entry it clips to `[-r, r]`. -/
theorem c24_project_to_box (r : ℝ) (hr : 0 < r) (x : ℂ) :
    IsNearest {z : ℂ | ‖z‖ ≤ r} x (projectToBox1 r x) ∧
    (∀ a : ℝ, projectToBox1 r a = ((max (-r) (min a r) : ℝ) : ℂ)) := by
  constructor
  · unfold projectToBox1
    by_cases h : ‖x‖ ≤ r
    · rw [max_eq_right h, div_self hr.ne', Complex.ofReal_one, mul_one]
      exact ⟨h, fun z _ hne => by rw [sub_self, norm_zero]; exact norm_pos_iff.mpr (sub_ne_zero.mpr hne.symm)⟩
    · push Not at h
      rw [max_eq_left h.le]
      have hx : 0 < ‖x‖ := hr.trans h
      have e : x * ((r / ‖x‖ : ℝ) : ℂ) = (r / ‖x‖) • x := by rw [Complex.real_smul, mul_comm]
      rw [e]
      refine IsNearest.of_inner ?_ fun z hz => ?_
      · show ‖(r / ‖x‖) • x‖ ≤ r
        rw [norm_smul, Real.norm_of_nonneg (by positivity), div_mul_cancel₀ _ hx.ne']
      · have e1 : x - (r / ‖x‖) • x = (1 - r / ‖x‖) • x := by rw [sub_smul, one_smul]
        rw [e1, inner_smul_left, inner_sub_right, inner_smul_right, real_inner_self_eq_norm_sq]
        have h1 : r / ‖x‖ ≤ 1 := (div_le_one hx).mpr h.le
        have h2 : ⟪x, z⟫ ≤ ‖x‖ * r := (real_inner_le_norm x z).trans (mul_le_mul_of_nonneg_left hz hx.le)
        have h3 : r / ‖x‖ * ‖x‖ ^ 2 = r * ‖x‖ := by field_simp
        rw [h3]
        refine mul_nonpos_of_nonneg_of_nonpos ?_ (by linarith)
        simpa using h1
  · intro a
    have e : projectToBox1 r a = ((a * (r / max |a| r) : ℝ) : ℂ) := by simp [projectToBox1]
    rw [e]
    congr 1
    rcases le_total |a| r with h | h
    · rw [max_eq_right h, div_self hr.ne', mul_one, min_eq_left (le_of_abs_le h), max_eq_right (neg_le_of_abs_le h)]
    · rw [max_eq_left h]
      rcases le_total 0 a with h0 | h0
      · have ha : 0 < a := by rw [abs_of_nonneg h0] at h; linarith
        rw [abs_of_nonneg h0] at h ⊢
        rw [min_eq_right h, max_eq_right (by linarith)]; field_simp
      · rw [abs_of_nonpos h0] at h ⊢
        have ha : a < 0 := by linarith
        rw [min_eq_left (by linarith), max_eq_left (by linarith)]
        have := ha.ne
        field_simp

example : IsNearest {z : ℂ | ‖z‖ ≤ 1} 2 (projectToBox1 1 2) := (c24_project_to_box 1 one_pos 2).1

/-- **C24** (legacy API) `project_to_real_upper_limit(x, limit)` maps each entry to the nearest real number not above the limit. -/
theorem c24_real_upper_limit (limit : ℝ) (x : ℂ) :
    IsNearest {z : ℂ | z.im = 0 ∧ z.re ≤ limit} x (projectToRealUpperLimit1 limit x : ℝ) := by
  refine IsNearest.of_inner ⟨by simp, by simp [projectToRealUpperLimit1]⟩ fun z hz => ?_
  obtain ⟨h1, h2⟩ := hz
  rw [Complex.inner]
  simp only [projectToRealUpperLimit1, Complex.mul_re, Complex.conj_re, Complex.conj_im, Complex.sub_re, Complex.sub_im,
    Complex.ofReal_re, Complex.ofReal_im, h1]
  rcases le_total x.re limit with h | h
  · rw [min_eq_left h]; simp
  · rw [min_eq_right h]; nlinarith

example : IsNearest {z : ℂ | z.im = 0 ∧ z.re ≤ 1} ⟨3, 2⟩ (projectToRealUpperLimit1 1 ⟨3, 2⟩ : ℝ) := c24_real_upper_limit _ _

/-! ## C26 -/

/-- Radial projection in any real inner product space. -/
theorem radial_nearest {E : Type*} [NormedAddCommGroup E] [InnerProductSpace ℝ E] (q : ℝ) (hq : 0 < q) (x : E) :
    IsNearest {z : E | ‖z‖ ≤ q} x (if ‖x‖ > q then (q / ‖x‖) • x else x) := by
  split
  · rename_i h
    have hx : 0 < ‖x‖ := hq.trans h
    refine IsNearest.of_inner ?_ fun z hz => ?_
    · show ‖(q / ‖x‖) • x‖ ≤ q
      rw [norm_smul, Real.norm_of_nonneg (by positivity), div_mul_cancel₀ _ hx.ne']
    · have e1 : x - (q / ‖x‖) • x = (1 - q / ‖x‖) • x := by rw [sub_smul, one_smul]
      rw [e1, inner_smul_left, inner_sub_right, inner_smul_right, real_inner_self_eq_norm_sq]
      have h1 : q / ‖x‖ ≤ 1 := (div_le_one hx).mpr h.le
      have h2 : ⟪x, z⟫ ≤ ‖x‖ * q := (real_inner_le_norm x z).trans (mul_le_mul_of_nonneg_left hz hx.le)
      have h3 : q / ‖x‖ * ‖x‖ ^ 2 = q * ‖x‖ := by field_simp
      rw [h3]
      refine mul_nonpos_of_nonneg_of_nonpos ?_ (by linarith)
      simpa using h1
  · rename_i h
    exact ⟨not_lt.mp h, fun z _ hne => by
      rw [sub_self, norm_zero]; exact norm_pos_iff.mpr (sub_ne_zero.mpr hne.symm)⟩

/-- **C26** `proj_l2_ball(q)` and `project_to_ball(x, q)` return the nearest point of the ball `‖x‖ ≤ q`; feasible points are
unchanged; `q ≤ 0` is rejected and `A` is not supported. -/
theorem c26_proj_l2_ball {n : ℕ} (q : ℝ) :
    (q ≤ 0 → ∀ (b : Option (Vec n)) hasA, projL2Ball q b hasA = .error .valueError) ∧
    (0 < q → (∀ b : Option (Vec n), projL2Ball q b true = .error .notImplemented) ∧
      ∃ P, projL2Ball (n := n) q none false = .ok P ∧ (∀ x, IsNearest (ball2 0 q) x (P x)) ∧
        (∀ x, ‖x‖ ≤ q → P x = x) ∧ ∀ x, P x = projectToBall x q) := by
  refine ⟨fun h b hasA => by simp [projL2Ball, h], fun h => ⟨fun b => ?_, ?_⟩⟩
  · rcases b with _ | b <;> simp [projL2Ball, not_le.mpr h]
  · refine ⟨fun x => if ‖x‖ > q then (q / ‖x‖) • x else x, by simp [projL2Ball, not_le.mpr h], fun x => ?_, fun x hx => ?_,
      fun x => rfl⟩
    · have := radial_nearest q h x
      simpa [ball2] using this
    · simp [not_lt.mpr hx]

example : ∃ P, projL2Ball (n := 2) 1 none false = .ok P ∧ IsNearest (ball2 0 1) (vec ![3, 4]) (P (vec ![3, 4])) := by
  obtain ⟨P, hP, h, _⟩ := ((c26_proj_l2_ball (n := 2) 1).2 one_pos).2
  exact ⟨P, hP, h _⟩

/-- **C26 partial**: with a centre the result is in the ball (for `q ≥ 5e-8`), feasible points are unchanged, and infeasible
points land within `1e-7` of the nearest point. It is not the nearest point: see `c26_center_fails`. -/
theorem c26_proj_l2_ball_center_partial {n : ℕ} (q : ℝ) (hq : 0 < q) (b : Vec n) :
    ∃ P, projL2Ball q (some b) false = .ok P ∧
      (∀ x, ‖x - b‖ ≤ q → P x = x) ∧
      (∀ x, ∃ p, IsNearest (ball2 b q) x p ∧ ‖P x - p‖ ≤ 1e-7) ∧
      (5e-8 ≤ q → ∀ x, P x ∈ ball2 b q) := by
  refine ⟨_, by simp only [projL2Ball, if_neg (not_le.mpr hq)]; rfl, fun x hx => by simp [not_lt.mpr hx], fun x => ?_, fun hq2 x => ?_⟩
  · refine ⟨(if ‖x - b‖ > q then (q / ‖x - b‖) • (x - b) else x - b) + b, ?_, ?_⟩
    · obtain ⟨h1, h2⟩ := radial_nearest q hq (x - b)
      refine ⟨by simpa [ball2] using h1, fun z hz hne => ?_⟩
      have h3 := h2 (z - b) hz (by intro e; apply hne; rw [← e]; abel)
      have e1 : x - b - (z - b) = x - z := by abel
      rw [e1] at h3
      have e2 : x - ((if ‖x - b‖ > q then (q / ‖x - b‖) • (x - b) else x - b) + b) =
        x - b - (if ‖x - b‖ > q then (q / ‖x - b‖) • (x - b) else x - b) := by abel
      rw [e2]; exact h3
    · simp only [add_sub_add_right_eq_sub]
      split
      · rename_i h
        have hr : 0 < ‖x - b‖ := hq.trans h
        rw [← sub_smul, norm_smul]
        have : (q - 1e-7) * ‖x - b‖⁻¹ - q / ‖x - b‖ = -(1e-7 / ‖x - b‖) := by field_simp; ring
        rw [this, norm_neg, Real.norm_of_nonneg (by positivity), div_mul_cancel₀ _ hr.ne']
      · simp; norm_num
  · show ‖_ - b‖ ≤ q
    simp only [add_sub_cancel_right]
    split
    · rename_i h
      have hr : 0 < ‖x - b‖ := hq.trans h
      rw [norm_smul, norm_mul, norm_inv, norm_norm, mul_assoc, inv_mul_cancel₀ hr.ne', mul_one, Real.norm_eq_abs, abs_le]
      constructor <;> norm_num at hq2 ⊢ <;> linarith
    · rename_i h; exact not_lt.mp h

/-- **C26 disproof**: with a centre, `proj_l2_ball(1, b=0)(2) = 1 - 1e-7`, not the nearest point `1`; and for tiny radii the result
is outside the ball. -/
theorem c26_center_fails :
    (∃ P, projL2Ball (n := 1) 1 (some 0) false = .ok P ∧ ∃ x, ¬ IsNearest (ball2 0 1) x (P x)) ∧
    (∃ P, projL2Ball (n := 1) 1e-8 (some 0) false = .ok P ∧ ∃ x, P x ∉ ball2 0 1e-8) := by
  have hn : ∀ a : ℝ, ‖(vec fun _ : Fin 1 => a)‖ = |a| := by
    intro a
    have := norm_sq_sum (vec fun _ : Fin 1 => a)
    simp at this
    rw [← abs_norm]; exact (sq_eq_sq_iff_abs_eq_abs _ _).mp this
  constructor
  · refine ⟨_, by simp only [projL2Ball, if_neg (show ¬ (1 : ℝ) ≤ 0 by norm_num)]; rfl, vec fun _ => 2, fun h => ?_⟩
    have h1 := h.le (z := vec fun _ => 1) (by simp [ball2, hn])
    simp only [sub_zero, add_zero, hn] at h1
    rw [if_pos (by norm_num)] at h1
    have e1 : (vec fun _ : Fin 1 => (2 : ℝ)) - ((1 - 1e-7) * |(2 : ℝ)|⁻¹) • (vec fun _ : Fin 1 => (2 : ℝ)) = vec fun _ => 1 + 1e-7 := by
      ext i; simp; norm_num
    have e2 : (vec fun _ : Fin 1 => (2 : ℝ)) - (vec fun _ : Fin 1 => (1 : ℝ)) = vec fun _ => 1 := by
      ext i; simp; norm_num
    rw [e1, e2, hn, hn] at h1
    norm_num [abs_of_pos] at h1
  · refine ⟨_, by simp only [projL2Ball, if_neg (show ¬ (1e-8 : ℝ) ≤ 0 by norm_num)]; rfl, vec fun _ => 1, fun h => ?_⟩
    simp only [ball2, Set.mem_ofPred_eq, sub_zero, add_zero, hn] at h
    rw [if_pos (by norm_num)] at h
    have e1 : ((1e-8 - 1e-7) * |(1 : ℝ)|⁻¹) • (vec fun _ : Fin 1 => (1 : ℝ)) = vec fun _ => 1e-8 - 1e-7 := by
      ext i; simp
    rw [e1, hn] at h
    norm_num [abs_of_neg] at h

/-! ## C27 -/

theorem norm_xPre {n : ℕ} (x : Vec (n + 1)) : ‖xPre x‖ = Real.sqrt (∑ i : Fin n, x i.castSucc ^ 2) := by
  rw [← Real.sqrt_sq (norm_nonneg (xPre x)), norm_sq_sum]; rfl

theorem mem_soc {n : ℕ} (x : Vec (n + 1)) : x ∈ soc n ↔ ‖xPre x‖ ≤ xLast x := by rw [norm_xPre]; rfl

theorem inner_split {n : ℕ} (x y : Vec (n + 1)) : ⟪x, y⟫ = ⟪xPre x, xPre y⟫ + xLast x * xLast y := by
  rw [inner_sum, inner_sum, Fin.sum_univ_castSucc]; rfl

/-- **C27** `proj_conic()` returns the nearest point of the second-order cone; the three regions give the point itself, the
origin, or the point of the boundary described by the code. -/
theorem c27_proj_conic {n : ℕ} (x : Vec (n + 1)) : IsNearest (soc n) x (projConic x) := by
  have hpz : xPre (vec fun _ : Fin (n + 1) => (0 : ℝ)) = 0 := by ext i; simp [xPre]
  have hlz : xLast (vec fun _ : Fin (n + 1) => (0 : ℝ)) = 0 := by simp [xLast]
  have hsubp : ∀ y z : Vec (n + 1), xPre (y - z) = xPre y - xPre z := by intro y z; ext i; simp [xPre]
  have hsubl : ∀ y z : Vec (n + 1), xLast (y - z) = xLast y - xLast z := by intro y z; simp [xLast]
  unfold projConic
  simp only
  split
  · rename_i h
    set N := ‖xPre x‖ with hN
    set t := xLast x with ht
    have hNpos : 0 < N := lt_of_le_of_lt (abs_nonneg t) h
    obtain ⟨hl, hr⟩ := abs_lt.mp h
    set y := xAppend (N⁻¹ • xPre x) 1 with hy
    set α := (N + t) / 2 with hα
    have hαpos : 0 < α := by rw [hα]; linarith
    have hpy : xPre (α • y) = (α * N⁻¹) • xPre x := by
      ext i; simp [xPre, hy, xAppend, mul_assoc]
    have hly : xLast (α • y) = α := by simp [xLast, hy, xAppend]
    refine IsNearest.of_inner ?_ fun z hz => ?_
    · rw [mem_soc, hpy, hly, norm_smul, norm_mul, norm_inv, ← hN, Real.norm_of_nonneg hαpos.le, Real.norm_of_nonneg hNpos.le,
        mul_assoc, inv_mul_cancel₀ hNpos.ne', mul_one]
    · rw [mem_soc] at hz
      rw [inner_split, hsubp, hsubp, hsubl, hsubl, hpy, hly, ← ht]
      have e1 : xPre x - (α * N⁻¹) • xPre x = (1 - α * N⁻¹) • xPre x := by rw [sub_smul, one_smul]
      rw [e1, inner_smul_left, inner_sub_right, inner_smul_right, real_inner_self_eq_norm_sq, ← hN]
      have h1 : ⟪xPre x, xPre z⟫ ≤ N * xLast z := (real_inner_le_norm _ _).trans (mul_le_mul_of_nonneg_left hz hNpos.le)
      have h2 : α * N⁻¹ * N ^ 2 = α * N := by field_simp
      rw [h2]
      have h3 : (1 - α * N⁻¹) = (N - t) / (2 * N) := by rw [hα]; field_simp; ring
      have h4 : t - α = -((N - t) / 2) := by rw [hα]; ring
      rw [h3, h4]
      have h5 : (starRingEnd ℝ) ((N - t) / (2 * N)) = (N - t) / (2 * N) := by simp
      rw [h5]
      have h6 : (N - t) / (2 * N) * (⟪xPre x, xPre z⟫ - α * N) ≤ (N - t) / (2 * N) * (N * xLast z - α * N) := by
        refine mul_le_mul_of_nonneg_left (by linarith) ?_
        have : 0 < N - t := by linarith
        positivity
      have h7 : (N - t) / (2 * N) * (N * xLast z - α * N) = (N - t) / 2 * (xLast z - α) := by field_simp
      linarith
  · rename_i h
    have h' : ‖xPre x‖ ≤ |xLast x| := not_lt.mp h
    split
    · rename_i ht
      refine ⟨?_, fun z _ hne => by
        rw [sub_self, norm_zero]; exact norm_pos_iff.mpr (sub_ne_zero.mpr hne.symm)⟩
      rw [mem_soc]; rwa [abs_of_pos ht] at h'
    · rename_i ht
      rw [abs_of_nonpos (not_lt.mp ht)] at h'
      refine IsNearest.of_inner ?_ fun z hz => ?_
      · rw [mem_soc, hpz, hlz]; simp
      · rw [mem_soc] at hz
        rw [inner_split, hsubp, hsubp, hsubl, hsubl, hpz, hlz]
        simp only [sub_zero]
        have h1 : ⟪xPre x, xPre z⟫ ≤ ‖xPre x‖ * ‖xPre z‖ := real_inner_le_norm _ _
        have h2 : ‖xPre x‖ * ‖xPre z‖ ≤ -xLast x * xLast z :=
          mul_le_mul h' hz (norm_nonneg _) (by linarith [norm_nonneg (xPre x)])
        linarith

example : IsNearest (soc 2) (vec ![3, 4, 0]) (projConic (vec ![3, 4, 0])) := c27_proj_conic _

/-! ## C28 -/

/-- `R` is upper triangular. -/
def UpperTri {m : ℕ} (R : Matrix (Fin m) (Fin m) ℝ) : Prop := ∀ i j, j < i → R i j = 0

/-- What the external linear algebra must satisfy: a reduced QR factorisation, and exact solves for invertible upper triangular matrices. -/
structure LinAlgOk {m n : ℕ} (L : LinAlg m n) (A : Matrix (Fin m) (Fin n) ℝ) : Prop where
  qr : ∃ Q : Matrix (Fin n) (Fin m) ℝ, Q.transpose * Q = 1 ∧ A.transpose = Q * L.qrR A.transpose
  tri : UpperTri (L.qrR A.transpose)
  ut : ∀ (R : Matrix (Fin m) (Fin m) ℝ) (b : Fin m → ℝ), UpperTri R → IsUnit R → R.transpose.mulVec (L.solveUT R b) = b
  u : ∀ (R : Matrix (Fin m) (Fin m) ℝ) (b : Fin m → ℝ), UpperTri R → IsUnit R → R.mulVec (L.solveU R b) = b

theorem mulVec_inner {m n : ℕ} (A : Matrix (Fin m) (Fin n) ℝ) (x : Vec n) (w : Fin m → ℝ) :
    ⟪vec (A.transpose.mulVec w), x⟫ = ∑ j, w j * A.mulVec x.ofLp j := by
  rw [inner_sum]
  simp only [vec_apply, Matrix.mulVec, dotProduct, Matrix.transpose_apply, Finset.sum_mul, Finset.mul_sum]
  rw [Finset.sum_comm]
  exact Finset.sum_congr rfl fun j _ => Finset.sum_congr rfl fun i _ => by ring

/-- **C28** for `A` with independent rows `proj_affine(A, b)(x)` solves `A x = b` and is the nearest solution. -/
theorem c28_proj_affine {m n : ℕ} (L : LinAlg m n) (A : Matrix (Fin m) (Fin n) ℝ) (b : Fin m → ℝ)
    (hA : LinearIndependent ℝ A.row) (hL : LinAlgOk L A) (x : Vec n) :
    IsNearest (solSet A b) x (projAffine L A b x) := by
  obtain ⟨Q, hQ, hqr⟩ := hL.qr
  set R := L.qrR A.transpose with hR
  have hinj : Function.Injective R.mulVec := by
    intro v w hvw
    have h1 : A.transpose.mulVec v = A.transpose.mulVec w := by
      rw [hqr, ← Matrix.mulVec_mulVec, ← Matrix.mulVec_mulVec]
      exact congrArg Q.mulVec hvw
    have : Function.Injective A.transpose.mulVec := Matrix.mulVec_injective_iff.mpr hA
    exact this h1
  have hu : IsUnit R := Matrix.mulVec_injective_iff_isUnit.mp hinj
  set r := b - A.mulVec x.ofLp with hr
  set w := L.solveU R (L.solveUT R r) with hw
  have hAw : A.mulVec (A.transpose.mulVec w) = r := by
    have h1 : A = R.transpose * Q.transpose := by
      rw [← Matrix.transpose_mul, ← hqr, Matrix.transpose_transpose]
    have h2 : A * A.transpose = R.transpose * R := by
      conv_lhs => rw [hqr]
      rw [h1]
      simp only [Matrix.mul_assoc]
      rw [← Matrix.mul_assoc Q.transpose, hQ, Matrix.one_mul]
    rw [Matrix.mulVec_mulVec, h2, ← Matrix.mulVec_mulVec, hw, hL.u R _ hL.tri hu, hL.ut R _ hL.tri hu]
  have hp : projAffine L A b x = x + vec (A.transpose.mulVec w) := by
    ext i; rfl
  have hsol : A.mulVec (projAffine L A b x).ofLp = b := by
    rw [hp]
    have : (x + vec (A.transpose.mulVec w)).ofLp = x.ofLp + A.transpose.mulVec w := rfl
    rw [this, Matrix.mulVec_add, hAw, hr]; abel
  refine IsNearest.of_inner hsol fun z hz => ?_
  have e1 : x - projAffine L A b x = -vec (A.transpose.mulVec w) := by rw [hp]; abel
  rw [e1, inner_neg_left, mulVec_inner]
  have e2 : A.mulVec (z - projAffine L A b x).ofLp = 0 := by
    have : (z - projAffine L A b x).ofLp = z.ofLp - (projAffine L A b x).ofLp := rfl
    rw [this, Matrix.mulVec_sub, hsol, hz, sub_self]
  rw [e2]; simp

/-- The hypotheses are met: `A = [3 4]`, `R = [5]`. -/
theorem ex_linAlg : ∃ (L : LinAlg 1 2), LinAlgOk L !![3, 4] ∧ LinearIndependent ℝ (Matrix.row (!![3, 4] : Matrix (Fin 1) (Fin 2) ℝ)) := by
  refine ⟨⟨fun _ => !![5], fun R b => R.transpose⁻¹.mulVec b, fun R b => R⁻¹.mulVec b⟩,
    ⟨⟨!![3/5; 4/5], ?_, ?_⟩, fun i j hij => by omega, fun R b _ hR => ?_, fun R b _ hR => ?_⟩, ?_⟩
  · ext i j; fin_cases i; fin_cases j; simp [Matrix.mul_apply, Fin.sum_univ_two]; norm_num
  · ext i j; fin_cases i <;> fin_cases j <;> simp [Matrix.mul_apply]
  · rw [Matrix.mulVec_mulVec, Matrix.mul_nonsing_inv _ (by rw [Matrix.det_transpose]; exact (Matrix.isUnit_iff_isUnit_det R).mp hR),
      Matrix.one_mulVec]
  · rw [Matrix.mulVec_mulVec, Matrix.mul_nonsing_inv _ ((Matrix.isUnit_iff_isUnit_det R).mp hR), Matrix.one_mulVec]
  · rw [linearIndependent_unique_iff]
    intro h
    have := congrFun h 0
    simp at this

/-- **C28** `proj_singleton(c)`, `proj_zero()`, `proj_identity()` are the projections on `{c}`, `{0}` and the whole space. -/
theorem c28_proj_simple {n : ℕ} (c x : Vec n) :
    IsNearest {c} x (projSingleton c x) ∧ IsNearest {0} x (projZero x) ∧ IsNearest Set.univ x (projIdentity x) := by
  refine ⟨⟨rfl, fun z hz hne => absurd hz hne⟩, ⟨?_, fun z hz hne => ?_⟩, ⟨trivial, fun z _ hne => ?_⟩⟩
  · ext i; simp [projZero]
  · exfalso; apply hne; rw [Set.mem_singleton_iff.mp hz]; ext i; simp [projZero]
  · rw [projIdentity, sub_self, norm_zero]; exact norm_pos_iff.mpr (sub_ne_zero.mpr hne.symm)

/-! ## C25 -/

theorem sortDesc_perm (a : List ℝ) : (sortDesc a).Perm a :=
  (List.reverse_perm _).trans (List.mergeSort_perm _ _)

theorem sortDesc_pairwise (a : List ℝ) : (sortDesc a).Pairwise (· ≥ ·) := by
  unfold sortDesc
  rw [List.pairwise_reverse]
  have := List.pairwise_mergeSort (le := fun s t : ℝ => decide (s ≤ t))
    (by intro a b c; simpa using le_trans) (by intro a b; simpa using le_total a b) a
  exact this.imp (by intro a b h; simpa using h)

theorem ent_sortDesc_anti (a : List ℝ) {i j : ℕ} (hij : i ≤ j) (hj : j < (sortDesc a).length) :
    ent (sortDesc a) j ≤ ent (sortDesc a) i := by
  rcases hij.lt_or_eq with h | rfl
  · have := (List.pairwise_iff_getElem.mp (sortDesc_pairwise a)) i j (by omega) hj h
    simpa [ent, List.getD, hj, show i < (sortDesc a).length by omega] using this
  · exact le_rfl

theorem list_sum_ent (u : List ℝ) (f : ℝ → ℝ) : (u.map f).sum = ∑ i ∈ Finset.range u.length, f (ent u i) := by
  induction u with
  | nil => simp
  | cons a u ih =>
    rw [List.map_cons, List.sum_cons, ih, List.length_cons, Finset.sum_range_succ', add_comm]
    simp [ent]

theorem argmaxB_spec (p : ℕ → Prop) [DecidablePred p] (n : ℕ) :
    let K := argmaxB ((List.range n).map fun i => decide (p i))
    ((∃ i, i < n ∧ p i) → K < n ∧ p K ∧ ∀ i, i < K → ¬ p i) ∧ ((∀ i, i < n → ¬ p i) → K = 0) := by
  intro K
  constructor
  · rintro ⟨i, hi, hpi⟩
    have hany : ((List.range n).map fun i => decide (p i)).any id = true := by
      simp; exact ⟨i, hi, hpi⟩
    have hK : K = ((List.range n).map fun i => decide (p i)).findIdx id := by
      simp only [K, argmaxB, hany, if_true]
    have hlt : K < ((List.range n).map fun i => decide (p i)).length := by
      rw [hK, List.findIdx_lt_length]
      simp; exact ⟨i, hi, hpi⟩
    have hlt' : K < n := by simpa using hlt
    refine ⟨hlt', ?_, fun j hj => ?_⟩
    · have := List.findIdx_getElem (p := id) (xs := (List.range n).map fun i => decide (p i)) (w := by rw [← hK]; exact hlt)
      simp only [id] at this
      simpa [← hK] using this
    · have := List.not_of_lt_findIdx (p := id) (xs := (List.range n).map fun i => decide (p i)) (i := j) (by rw [← hK]; exact hj)
      simpa using this
  · intro h
    have : ((List.range n).map fun i => decide (p i)).any id = false := by
      simp; exact h
    simp only [K, argmaxB, this]; rfl

/-- The threshold of the code solves `Σ max(|x| - κ, 0) = q` with `κ ≥ 0`. -/
theorem l1Kappa_spec (q : ℝ) (hq : 0 ≤ q) (a : List ℝ) (ha : ∀ v ∈ a, 0 ≤ v) (hs : q < a.sum) :
    0 ≤ l1Kappa q a ∧ (a.map fun v => max (v - l1Kappa q a) 0).sum = q := by
  set u := sortDesc a with hu
  set n := u.length with hn
  have hperm : u.Perm a := sortDesc_perm a
  have hcu : ∀ i, i < n → ent (cumsum u) i = ∑ j ∈ Finset.range (i + 1), ent u j := fun i hi => ent_cumsum hi
  have hsum : a.sum = ∑ j ∈ Finset.range n, ent u j := by
    rw [← hperm.sum_eq]
    simpa using list_sum_ent u id
  have hnn : ∀ j, j < n → 0 ≤ ent u j := by
    intro j hj
    apply ha
    rw [← hperm.mem_iff]
    simp [ent, List.getD, show j < u.length from hj]
  have hnpos : 0 < n := by
    rcases Nat.eq_zero_or_pos n with h | h
    · rw [hsum, h] at hs; simp at hs; linarith
    · exact h
  -- the final value of `K`
  obtain ⟨K, hKpos, hKn, hκ, hup, hlo⟩ : ∃ K, 0 < K ∧ K ≤ n ∧ l1Kappa q a = (∑ j ∈ Finset.range K, ent u j - q) / K ∧
      (∑ j ∈ Finset.range K, ent u j - q ≤ ent u (K - 1) * K) ∧
      (K < n → ent u K * K < ∑ j ∈ Finset.range K, ent u j - q) := by
    have hspec := argmaxB_spec (fun i => ent (cumsum u) i - q > ent u i * ((i : ℝ) + 1)) n
    set K0 := argmaxB ((List.range n).map fun i : ℕ => decide (ent (cumsum u) i - q > ent u i * ((i : ℝ) + 1))) with hK0
    have hlk : l1Kappa q a = (ent (cumsum u) ((if K0 = 0 then n else K0) - 1) - q) / ((if K0 = 0 then n else K0 : ℕ) : ℝ) := by
      simp only [l1Kappa, ← hu, ← hn, List.length_map, List.length_range, ← hK0]
    simp only at hspec
    by_cases hex : ∃ i, i < n ∧ ent (cumsum u) i - q > ent u i * ((i : ℝ) + 1)
    · obtain ⟨h1, h2, h3⟩ := hspec.1 hex
      have hK0pos : 0 < K0 := by
        rcases Nat.eq_zero_or_pos K0 with h | h
        · rw [h, hcu 0 hnpos] at h2
          simp at h2; linarith
        · exact h
      rw [if_neg hK0pos.ne', hcu _ (by omega), Nat.sub_add_cancel hK0pos] at hlk
      refine ⟨K0, hK0pos, h1.le, hlk, ?_, fun _ => ?_⟩
      · have := h3 (K0 - 1) (by omega)
        rw [hcu _ (by omega), Nat.sub_add_cancel hK0pos] at this
        have e : ((K0 - 1 : ℕ) : ℝ) + 1 = K0 := by
          rw [Nat.cast_sub hK0pos]; push_cast; ring
        rw [e] at this
        exact not_lt.mp this
      · rw [hcu _ h1, Finset.sum_range_succ] at h2
        linarith
    · push Not at hex
      have h1 := hspec.2 fun i hi => not_lt.mpr (hex i hi)
      rw [if_pos h1, hcu _ (by omega), Nat.sub_add_cancel hnpos] at hlk
      refine ⟨n, hnpos, le_rfl, hlk, ?_, fun h => absurd h (lt_irrefl _)⟩
      have := hex (n - 1) (by omega)
      rw [hcu _ (by omega), Nat.sub_add_cancel hnpos] at this
      have e : ((n - 1 : ℕ) : ℝ) + 1 = n := by
        rw [Nat.cast_sub hnpos]; push_cast; ring
      rwa [e] at this
  set κ := l1Kappa q a with hκdef
  have hKr : (0 : ℝ) < K := by exact_mod_cast hKpos
  have hκK : κ * K = ∑ j ∈ Finset.range K, ent u j - q := by rw [hκ]; field_simp
  have hκ0 : 0 ≤ κ := by
    rcases hKn.lt_or_eq with h | h
    · have h1 := hlo h
      have h2 := hnn K h
      rw [hκ]
      refine div_nonneg ?_ hKr.le
      have : 0 ≤ ent u K * K := by positivity
      linarith
    · rw [hκ]
      refine div_nonneg ?_ hKr.le
      rw [h]; linarith
  refine ⟨hκ0, ?_⟩
  have hp2 : (a.map fun v => max (v - κ) 0).sum = (u.map fun v => max (v - κ) 0).sum := (hperm.map _).sum_eq.symm
  rw [hp2, list_sum_ent, ← hn, ← Finset.sum_range_add_sum_Ico _ hKn]
  have h1 : ∑ k ∈ Finset.range K, max (ent u k - κ) 0 = ∑ k ∈ Finset.range K, (ent u k - κ) := by
    refine Finset.sum_congr rfl fun k hk => max_eq_left ?_
    have hk' := Finset.mem_range.mp hk
    have h2 : ent u (K - 1) ≤ ent u k := ent_sortDesc_anti a (by omega) (by change K - 1 < n; omega)
    have h3 : κ ≤ ent u (K - 1) := by
      rw [← hκK] at hup
      exact le_of_mul_le_mul_right hup hKr
    linarith
  have h2 : ∑ k ∈ Finset.Ico K n, max (ent u k - κ) 0 = 0 := by
    refine Finset.sum_eq_zero fun k hk => max_eq_right ?_
    obtain ⟨hk1, hk2⟩ := Finset.mem_Ico.mp hk
    have h2 : ent u k ≤ ent u K := ent_sortDesc_anti a hk1 hk2
    have h3 : ent u K < κ := by
      have := hlo (by omega)
      rw [← hκK] at this
      exact lt_of_mul_lt_mul_right this hKr.le
    linarith
  rw [h1, h2, Finset.sum_sub_distrib, Finset.sum_const, Finset.card_range, nsmul_eq_mul]
  linarith

theorem shrink1_cases (κ a : ℝ) (hκ : 0 ≤ κ) :
    |shrink1 κ a| = max (|a| - κ) 0 ∧ |a - shrink1 κ a| ≤ κ ∧ (a - shrink1 κ a) * shrink1 κ a = κ * |shrink1 κ a| := by
  unfold shrink1
  rcases le_total a κ with h1 | h1 <;> rcases le_total (-κ) a with h2 | h2
  · rw [max_eq_left (by linarith), min_eq_left (by linarith)]
    simp [abs_le.mpr ⟨h2, h1⟩]
  · rw [max_eq_left (by linarith), min_eq_right (by linarith), abs_of_nonpos (show 0 + (a + κ) ≤ 0 by linarith),
      abs_of_nonpos (show a ≤ 0 by linarith), max_eq_left (by linarith), abs_of_nonpos (by linarith)]
    exact ⟨by ring, by linarith, by ring⟩
  · rw [max_eq_right (by linarith), min_eq_left (by linarith), abs_of_nonneg (show 0 ≤ a - κ + 0 by linarith),
      abs_of_nonneg (show 0 ≤ a by linarith), max_eq_left (by linarith), abs_of_nonneg (by linarith)]
    exact ⟨by ring, by linarith, by ring⟩
  · have hκ' : κ = 0 := by linarith
    have ha : a = 0 := by linarith
    subst hκ' ha; simp

theorem l1_nearest {n : ℕ} (q : ℝ) (hq : 0 ≤ q) (x : Vec n) :
    IsNearest {z | l1 z ≤ q} x (if l1 x > q then projectInsideBall q x else x) := by
  split
  · rename_i h
    set a := List.ofFn fun i => |x i| with ha
    have hsum : ∀ f : ℝ → ℝ, (a.map f).sum = ∑ i, f |x i| := by
      intro f; rw [ha, List.map_ofFn, List.sum_ofFn]; rfl
    have hs : q < a.sum := by
      have := hsum id
      simp only [List.map_id, id] at this
      rw [this]; exact h
    obtain ⟨hκ, hκs⟩ := l1Kappa_spec q hq a (by simp [ha]) hs
    set κ := l1Kappa q a with hκd
    have hp : projectInsideBall q x = shrink x κ := rfl
    have hl1 : l1 (projectInsideBall q x) = q := by
      rw [hp, ← hκs, hsum]
      exact Finset.sum_congr rfl fun i _ => (shrink1_cases κ (x i) hκ).1
    refine IsNearest.of_inner hl1.le fun z hz => ?_
    rw [inner_sub_right, inner_sum, inner_sum]
    have h1 : ∑ i, (x - projectInsideBall q x) i * projectInsideBall q x i = κ * q := by
      conv_rhs => rw [← hl1, l1, Finset.mul_sum]
      exact Finset.sum_congr rfl fun i _ => (shrink1_cases κ (x i) hκ).2.2
    have h2 : ∑ i, (x - projectInsideBall q x) i * z i ≤ κ * l1 z := by
      rw [l1, Finset.mul_sum]
      refine Finset.sum_le_sum fun i _ => ?_
      calc _ ≤ |(x - projectInsideBall q x) i * z i| := le_abs_self _
        _ = |x i - shrink1 κ (x i)| * |z i| := by rw [abs_mul]; rfl
        _ ≤ κ * |z i| := mul_le_mul_of_nonneg_right (shrink1_cases κ (x i) hκ).2.1 (abs_nonneg _)
    have h3 : κ * l1 z ≤ κ * q := mul_le_mul_of_nonneg_left hz hκ
    linarith
  · rename_i h
    exact ⟨not_lt.mp h, fun z _ hne => by
      rw [sub_self, norm_zero]; exact norm_pos_iff.mpr (sub_ne_zero.mpr hne.symm)⟩

/-- **C25** `proj_l1_ball(q, b)` / `project_to_l1_ball` / `project_to_l1_ball_at` return, for every `q ≥ 0`, every centre and every
point (ties and zeros included), the unique nearest point of the `ℓ₁` ball, and do not move the points of the ball. -/
theorem c25_proj_l1_ball {n : ℕ} (q : ℝ) (hq : 0 ≤ q) (b : Option (Vec n)) (x : Vec n) :
    IsNearest (ball1 (b.getD 0) q) x (projL1Ball q b x) ∧ (x ∈ ball1 (b.getD 0) q → projL1Ball q b x = x) := by
  rcases b with _ | b
  · constructor
    · have := l1_nearest q hq x
      simpa [ball1, projL1Ball] using this
    · intro h
      have h' : l1 x ≤ q := by simpa [ball1] using h
      simp [projL1Ball, not_lt.mpr h']
  · constructor
    · obtain ⟨h1, h2⟩ := l1_nearest q hq (x - b)
      simp only [projL1Ball, Option.getD_some]
      refine ⟨by simpa [ball1] using h1, fun z hz hne => ?_⟩
      have h3 := h2 (z - b) hz (by intro e; apply hne; rw [← e]; abel)
      have e1 : x - b - (z - b) = x - z := by abel
      rw [e1] at h3
      have e2 : x - ((if l1 (x - b) > q then projectInsideBall q (x - b) else x - b) + b) =
        x - b - (if l1 (x - b) > q then projectInsideBall q (x - b) else x - b) := by abel
      rw [e2]; exact h3
    · intro h
      have h' : l1 (x - b) ≤ q := h
      simp [projL1Ball, not_lt.mpr h']

example : IsNearest (ball1 0 1) (vec ![1, 1, 0]) (projL1Ball 1 none (vec ![1, 1, 0])) :=
  (c25_proj_l1_ball 1 zero_le_one none _).1

/-- The projection of an infeasible point is on the sphere. -/
theorem c25_on_sphere {n : ℕ} (q : ℝ) (hq : 0 ≤ q) (x : Vec n) (h : q < l1 x) : l1 (projL1Ball q none x) = q := by
  set a := List.ofFn fun i => |x i| with ha
  have hsum : ∀ f : ℝ → ℝ, (a.map f).sum = ∑ i, f |x i| := by
    intro f; rw [ha, List.map_ofFn, List.sum_ofFn]; rfl
  have hs : q < a.sum := by
    have := hsum id
    simp only [List.map_id, id] at this
    rw [this]; exact h
  obtain ⟨hκ, hκs⟩ := l1Kappa_spec q hq a (by simp [ha]) hs
  simp only [projL1Ball, gt_iff_lt, h, if_true]
  rw [hsum] at hκs
  refine Eq.trans ?_ hκs
  exact Finset.sum_congr rfl fun i _ => (shrink1_cases _ (x i) hκ).1

example : (1 : ℝ) < l1 (vec ![1, 1, 0]) := by simp [l1, Fin.sum_univ_three]

/-! ## C29 -/

theorem indVal_eq_zero {p : Prop} [Decidable p] : indVal p = 0 ↔ ¬ p := by
  unfold indVal; split <;> simp_all

theorem indVal_top {p : Prop} [Decidable p] : indVal p = ⊤ ↔ p := by
  unfold indVal; split <;> simp_all

/-- `I` is the indicator of `C`: zero on `C`, infinite outside. -/
def IsIndicator {E : Type*} (C : Set E) (I : E → EReal) : Prop := ∀ x, (x ∈ C → I x = 0) ∧ (x ∉ C → I x = ⊤)

theorem IsIndicator.of {E : Type*} {C : Set E} {p : E → Prop} [DecidablePred p] (h : ∀ x, x ∈ C ↔ ¬ p x) :
    IsIndicator C fun x => indVal (p x) := fun x =>
  ⟨fun hx => indVal_eq_zero.mpr ((h x).mp hx), fun hx => indVal_top.mpr (by by_contra hp; exact hx ((h x).mpr hp))⟩

/-- **C29** the zero, singleton, conic, box and norm-ball indicators are 0 exactly on the documented set and `+∞` elsewhere, and
the matching projector lands where the indicator is 0. -/
theorem c29_indicators {n m : ℕ} :
    IsIndicator ({0} : Set (Vec n)) indZero ∧
    (∀ c : Vec n, IsIndicator {c} (indSingleton c)) ∧
    IsIndicator (soc n) indConic ∧
    (∀ (q : ℝ) (b : Option (Vec n)), IsIndicator (ball1 (b.getD 0) q) (indL1Ball q b)) ∧
    (∀ (q : ℝ) (b : Option (Vec m)) (A : Matrix (Fin m) (Fin n) ℝ),
      IsIndicator {x : Vec n | l1 (vec (A.mulVec x.ofLp) - b.getD 0) ≤ q} (indL1BallA q b A)) ∧
    (∀ (q : ℝ) (b : Option (Vec n)), (q ≤ 0 → indL2Ball q b = .error .valueError) ∧
      (0 < q → ∃ I, indL2Ball q b = .ok I ∧ IsIndicator (ball2 (b.getD 0) q) I)) ∧
    (∀ (q : ℝ) (b : Option (Vec m)) (A : Matrix (Fin m) (Fin n) ℝ), (q ≤ 0 → indL2BallA q b A = .error .valueError) ∧
      (0 < q → ∃ I, indL2BallA q b A = .ok I ∧ IsIndicator {x : Vec n | ‖vec (A.mulVec x.ofLp) - b.getD 0‖ ≤ q} I)) ∧
    (∀ l u : Option (Vec n), (indBox l u = .error .valueError ↔ l = none ∧ u = none) ∧
      (¬ (l = none ∧ u = none) → ∃ I, indBox l u = .ok I ∧ IsIndicator (boxSet l u) I)) ∧
    (∀ (l u a : Vec n) (alpha tol : ℝ),
      IsIndicator (boxSet (some l) (some u) ∩ {x | |⟪a, x⟫ - alpha| ≤ tol}) (indBoxAffine l u a alpha tol)) := by
  have hz : ∀ {k : ℕ} (b : Option (Vec k)), b.getD (vec fun _ => 0) = b.getD 0 := by
    intro k b; congr 1
  refine ⟨IsIndicator.of fun x => ?_, fun c => IsIndicator.of fun x => ?_, IsIndicator.of fun x => ?_, fun q b => ?_,
    fun q b A => ?_, fun q b => ⟨fun h => by simp [indL2Ball, h], fun h => ?_⟩,
    fun q b A => ⟨fun h => by simp [indL2BallA, h], fun h => ?_⟩, fun l u => ⟨?_, fun h => ?_⟩,
    fun l u a alpha tol => IsIndicator.of fun x => ?_⟩
  · simp only [Set.mem_singleton_iff, not_exists, not_not]
    exact ⟨fun h i => by rw [h]; rfl, fun h => by ext i; exact h i⟩
  · simp only [Set.mem_singleton_iff, not_exists, not_not]
    exact ⟨fun h i => by rw [h]; simp, fun h => by ext i; exact sub_eq_zero.mp (h i)⟩
  · rw [mem_soc]; simp
  · rcases b with _ | b
    · exact IsIndicator.of fun x => by simp [ball1]
    · exact IsIndicator.of fun x => by simp [ball1]
  · exact IsIndicator.of fun x => by simp [hz]
  · rcases b with _ | b
    · exact ⟨_, by simp only [indL2Ball, if_neg (not_le.mpr h)]; rfl, IsIndicator.of fun x => by simp [ball2]⟩
    · exact ⟨_, by simp only [indL2Ball, if_neg (not_le.mpr h)]; rfl, IsIndicator.of fun x => by simp [ball2]⟩
  · exact ⟨_, if_neg (not_le.mpr h), IsIndicator.of fun x => by simp [hz]⟩
  · rcases l with _ | l <;> rcases u with _ | u <;> simp [indBox]
  · rcases l with _ | l <;> rcases u with _ | u
    · exact absurd ⟨rfl, rfl⟩ h
    · exact ⟨_, rfl, IsIndicator.of fun x => by simp [boxSet]⟩
    · exact ⟨_, rfl, IsIndicator.of fun x => by simp [boxSet]⟩
    · exact ⟨_, rfl, IsIndicator.of fun x => by simp [boxSet]⟩
  · simp [boxSet]

/-- **C29** projector and indicator agree: the projected point has indicator 0. -/
theorem c29_projector_feasible {n : ℕ} :
    (∀ x : Vec n, indZero (projZero x) = 0) ∧
    (∀ c x : Vec n, indSingleton c (projSingleton c x) = 0) ∧
    (∀ x : Vec (n + 1), indConic (projConic x) = 0) ∧
    (∀ (q : ℝ) (b : Option (Vec n)) (x : Vec n), 0 ≤ q → indL1Ball q b (projL1Ball q b x) = 0) ∧
    (∀ (q : ℝ) (b : Option (Vec n)), (b = none ∧ 0 < q ∨ 5e-8 ≤ q) → ∃ P I, projL2Ball q b false = .ok P ∧ indL2Ball q b = .ok I ∧
      ∀ x, I (P x) = 0) ∧
    (∀ l u : Option (Vec n), ¬ (l = none ∧ u = none) → (∀ a b, l = some a → u = some b → ∀ i, a i ≤ b i) →
      ∃ P I, projBox l u = .ok P ∧ indBox l u = .ok I ∧ ∀ x, I (P x) = 0) := by
  obtain ⟨h1, h2, -, h4, -, h6, -, h8, -⟩ := c29_indicators (n := n) (m := n)
  have h3 := (c29_indicators (n := n) (m := n)).2.2.1
  refine ⟨fun x => (h1 _).1 (c28_proj_simple x x).2.1.1, fun c x => (h2 c _).1 rfl, fun x => (h3 _).1 (c27_proj_conic x).1,
    fun q b x hq => (h4 q b _).1 (c25_proj_l1_ball q hq b x).1.1, fun q b hqb => ?_, fun l u hne hle => ?_⟩
  · have hq : 0 < q := by
      rcases hqb with ⟨_, h⟩ | h
      · exact h
      · norm_num at h; linarith
    obtain ⟨I, hI, hI'⟩ := (h6 q b).2 hq
    rcases b with _ | b
    · obtain ⟨P, hP, hn, _⟩ := ((c26_proj_l2_ball (n := n) q).2 hq).2
      exact ⟨P, I, hP, hI, fun x => (hI' _).1 (hn x).1⟩
    · obtain ⟨P, hP, _, _, hm⟩ := c26_proj_l2_ball_center_partial q hq b
      refine ⟨P, I, hP, hI, fun x => (hI' _).1 (hm ?_ x)⟩
      simpa using hqb
  · obtain ⟨P, hP, hn, _⟩ := (c24_proj_box l u).2 hne hle
    obtain ⟨I, hI, hI'⟩ := (h8 l u).2 hne
    exact ⟨P, I, hP, hI, fun x => (hI' _).1 (hn x).1⟩

/-- **C29 partial** `indicator_affine(A, b)`: for `b = 0` it is the indicator of the null space; for `b ≠ 0` it is the indicator of
the *relative-tolerance* neighbourhood of the solution set, so it is 0 on all solutions but also on points that are not
solutions (`c29_affine_fails`). -/
theorem c29_affine_partial {m n : ℕ} (A : Matrix (Fin m) (Fin n) ℝ) (b : Vec m) :
    (b = 0 → IsIndicator (solSet A b.ofLp) (indAffine A b)) ∧
    (∀ x ∈ solSet A b.ofLp, indAffine A b x = 0) ∧
    IsIndicator {x : Vec n | ‖vec (A.mulVec x.ofLp) - b‖ ≤ 1e-10 * ‖b‖} (indAffine A b) := by
  have key : IsIndicator {x : Vec n | ‖vec (A.mulVec x.ofLp) - b‖ ≤ 1e-10 * ‖b‖} (indAffine A b) := by
    intro x
    simp only [Set.mem_ofPred_eq, indAffine]
    by_cases hb : ‖b‖ = 0
    · simp only [hb, if_true, mul_zero]
      rw [indVal_eq_zero, indVal_top]
      constructor
      · intro h h'; exact h' (le_antisymm h (norm_nonneg _))
      · intro h h'; exact h h'.le
    · simp only [hb, if_false]
      rw [indVal_eq_zero, indVal_top]
      have : 0 < ‖b‖ := lt_of_le_of_ne (norm_nonneg _) (Ne.symm hb)
      rw [gt_iff_lt, lt_div_iff₀ this, not_le, not_lt]
      exact ⟨id, id⟩
  have hmem : ∀ x ∈ solSet A b.ofLp, vec (A.mulVec x.ofLp) - b = 0 := by
    intro x hx
    have : A.mulVec x.ofLp = b.ofLp := hx
    rw [this]; ext i; simp [vec]
  refine ⟨fun hb x => ?_, fun x hx => (key x).1 ?_, key⟩
  · refine ⟨fun hx => (key x).1 ?_, fun hx => (key x).2 ?_⟩
    · show ‖_‖ ≤ _
      rw [hmem x hx, norm_zero]; positivity
    · intro h
      apply hx
      have h' : ‖vec (A.mulVec x.ofLp) - b‖ ≤ 1e-10 * ‖b‖ := h
      rw [hb, norm_zero, mul_zero, sub_zero] at h'
      have h0 := norm_le_zero_iff.mp h'
      show A.mulVec x.ofLp = b.ofLp
      rw [hb]
      exact congrArg (fun v : Vec m => v.ofLp) h0
  · show ‖_‖ ≤ _
    rw [hmem x hx, norm_zero]; positivity

/-- **C29 disproof**: `indicator_affine([[1]], [1])` is 0 at `1 + 1e-11`, which does not solve `x = 1`. -/
theorem c29_affine_fails : ∃ x : Vec 1, x ∉ solSet (1 : Matrix (Fin 1) (Fin 1) ℝ) (vec fun _ => 1).ofLp ∧
    indAffine (1 : Matrix (Fin 1) (Fin 1) ℝ) (vec fun _ => 1) x = 0 := by
  have hn : ∀ a : ℝ, ‖(vec fun _ : Fin 1 => a)‖ = |a| := by
    intro a
    have := norm_sq_sum (vec fun _ : Fin 1 => a)
    simp at this
    rw [← abs_norm]; exact (sq_eq_sq_iff_abs_eq_abs _ _).mp this
  refine ⟨vec fun _ => 1 + 1e-11, fun h => ?_, ?_⟩
  · have := congrFun (show Matrix.mulVec 1 _ = _ from h) 0
    simp [vec] at this
    norm_num at this
  · refine ((c29_affine_partial 1 (vec fun _ => 1)).2.2 _).1 ?_
    show ‖_‖ ≤ _
    have e : vec (Matrix.mulVec (1 : Matrix (Fin 1) (Fin 1) ℝ) (vec fun _ : Fin 1 => (1 + 1e-11 : ℝ)).ofLp) - (vec fun _ : Fin 1 => (1 : ℝ)) =
        vec fun _ : Fin 1 => 1e-11 := by
      ext i; simp [vec]
    rw [e, hn, hn]
    norm_num [abs_of_pos]

example := c26_proj_l2_ball_center_partial 2 two_pos (vec ![1, -1, 3])

example (b : Fin 1 → ℝ) (x : Vec 2) : ∃ L : LinAlg 1 2, IsNearest (solSet !![3, 4] b) x (projAffine L !![3, 4] b x) := by
  obtain ⟨L, h1, h2⟩ := ex_linAlg
  exact ⟨L, c28_proj_affine L _ b h2 h1 x⟩

example : l1 (projL1Ball 1 none (vec ![1, 1, 0])) = 1 := c25_on_sphere 1 zero_le_one _ (by simp [l1, Fin.sum_univ_three])

end Verif.Opt
