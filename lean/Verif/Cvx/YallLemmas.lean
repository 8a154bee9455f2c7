import Verif.Cvx.YallModel
import Verif.Cvx.Spgl1Props
import Mathlib.Topology.MetricSpace.Sequences
import Mathlib.Topology.Algebra.Order.LiminfLimsup
import Mathlib.Topology.Order.MonotoneConvergence

set_option autoImplicit false
/-!
# The problems YALL1 solves, their optimality conditions, and one iteration
-/
noncomputable section
namespace Verif.Cvx
open Verif.Loop Verif.Opt
open scoped RealInnerProductSpace

variable {m n : ℕ}

/-- Specification: the feasible points of the three problems. -/
def yallFeas (f : YallForm) (nonneg : Bool) (A : Vec n →ₗ[ℝ] Vec m) (b : Vec m) (x : Vec n) : Prop :=
  (nonneg = true → ∀ i, 0 ≤ x i) ∧
  match f with
  | .bp => A x = b
  | .l1l2 _ => True
  | .con delta => ‖A x - b‖ ≤ delta

/-- Specification: the objective of the three problems, `Σ w_i |x_i|` and for the penalised problem `|A x - b|² / (2 rho)`. -/
def yallObj (f : YallForm) (w : Vec n) (A : Vec n →ₗ[ℝ] Vec m) (b : Vec m) (x : Vec n) : ℝ :=
  match f with
  | .l1l2 rho => (∑ i, w i * |x i|) + ‖A x - b‖ ^ 2 / (2 * rho)
  | _ => ∑ i, w i * |x i|

/-- Specification: `x` solves the problem. -/
def YallSol (f : YallForm) (nonneg : Bool) (w : Vec n) (A : Vec n →ₗ[ℝ] Vec m) (b : Vec m) (x : Vec n) : Prop :=
  yallFeas f nonneg A b x ∧ ∀ x', yallFeas f nonneg A b x' → yallObj f w A b x ≤ yallObj f w A b x'

/-- The parameter of the form is positive. -/
def YallForm.Pos : YallForm → Prop
  | .bp => True
  | .l1l2 rho => 0 < rho
  | .con delta => 0 < delta

/-- The set the dual variable is kept in. -/
def dualBox (nonneg : Bool) (w : Vec n) : Set (Vec n) := {z | ∀ i, z i ≤ w i ∧ (nonneg = false → -w i ≤ z i)}

/-- `x` is normal to the dual set at `z`. -/
def IsNormal (nonneg : Bool) (w x z : Vec n) : Prop := z ∈ dualBox nonneg w ∧ ∀ z' ∈ dualBox nonneg w, ⟪x, z' - z⟫ ≤ 0

/-- The term added to `-⟨b, y⟩` in the dual problem. -/
def dualPen (f : YallForm) (y : Vec m) : ℝ :=
  match f with
  | .bp => 0
  | .l1l2 rho => rho / 2 * ‖y‖ ^ 2
  | .con delta => delta * ‖y‖

/-- `v` is a subgradient of `dualPen` at `y`. -/
def IsSubgrad (f : YallForm) (v y : Vec m) : Prop := ∀ y', dualPen f y + ⟪v, y' - y⟫ ≤ dualPen f y'

/-- The optimality conditions. -/
structure Kkt (f : YallForm) (nonneg : Bool) (w : Vec n) (A : Vec n →ₗ[ℝ] Vec m) (At : Vec m →ₗ[ℝ] Vec n) (b : Vec m) (x z : Vec n) (y : Vec m) :
    Prop where
  dual : z = At y
  normal : IsNormal nonneg w x z
  sub : IsSubgrad f (b - A x) y

theorem IsNormal.monotone {nonneg : Bool} {w x z x' z' : Vec n} (h : IsNormal nonneg w x z) (h' : IsNormal nonneg w x' z') : 0 ≤ ⟪x - x', z - z'⟫ := by
  have h1 := h.2 z' h'.1
  have h2 := h'.2 z h.1
  have e : ⟪x - x', z - z'⟫ = -⟪x, z' - z⟫ - ⟪x', z - z'⟫ := by
    rw [inner_sub_left, inner_sub_right, inner_sub_right, inner_sub_right]; ring
  linarith

theorem IsSubgrad.monotone {f : YallForm} {v y v' y' : Vec m} (h : IsSubgrad f v y) (h' : IsSubgrad f v' y') : 0 ≤ ⟪v - v', y - y'⟫ := by
  have h1 := h y'
  have h2 := h' y
  have e : ⟪v - v', y - y'⟫ = -⟪v, y' - y⟫ - ⟪v', y - y'⟫ := by
    rw [inner_sub_left, inner_sub_right, inner_sub_right, inner_sub_right]; ring
  linarith

theorem inner_box_le {nonneg : Bool} {w z x : Vec n} (hz : z ∈ dualBox nonneg w) (hx : nonneg = true → ∀ i, 0 ≤ x i) :
    ⟪x, z⟫ ≤ ∑ i, w i * |x i| := by
  rw [Verif.Opt.inner_sum]
  refine Finset.sum_le_sum fun i _ => ?_
  obtain ⟨h1, h2⟩ := hz i
  cases nonneg with
  | true =>
    have := hx rfl i
    rw [abs_of_nonneg this, mul_comm]
    exact mul_le_mul_of_nonneg_right h1 this
  | false =>
    have h2 := h2 rfl
    have : |z i| ≤ w i := abs_le.mpr ⟨h2, h1⟩
    calc x i * z i ≤ |x i * z i| := le_abs_self _
      _ = |z i| * |x i| := by rw [abs_mul, mul_comm]
      _ ≤ w i * |x i| := mul_le_mul_of_nonneg_right this (abs_nonneg _)

theorem IsNormal.nonneg_of {w x z : Vec n} (h : IsNormal true w x z) (i : Fin n) : 0 ≤ x i := by
  have h1 := h.2 (vec fun j => if j = i then z j - 1 else z j) (fun j => ⟨by
    rw [vec_apply]; have := (h.1 j).1; split <;> linarith, fun h => absurd h (by simp)⟩)
  rw [Verif.Opt.inner_sum] at h1
  have h2 : ∀ j, x j * ((vec fun j => if j = i then z j - 1 else z j) - z) j = if j = i then -x j else 0 := by
    intro j
    rw [PiLp.sub_apply, vec_apply]
    split <;> ring
  rw [Finset.sum_congr rfl fun j _ => h2 j] at h1
  simp at h1
  linarith

theorem IsNormal.inner_eq {nonneg : Bool} {w x z : Vec n} (hw : ∀ i, 0 ≤ w i) (h : IsNormal nonneg w x z) : ⟪x, z⟫ = ∑ i, w i * |x i| := by
  refine le_antisymm (inner_box_le h.1 fun hn i => ?_) ?_
  · subst hn; exact h.nonneg_of i
  have hmem : (vec fun i => if 0 ≤ x i then w i else -w i) ∈ dualBox nonneg w := by
    intro i
    rw [vec_apply]
    have := hw i
    split
    · exact ⟨le_refl _, fun _ => by linarith⟩
    · exact ⟨by linarith, fun _ => le_refl _⟩
  have h1 := h.2 _ hmem
  rw [inner_sub_right] at h1
  have e : ⟪x, (vec fun i => if 0 ≤ x i then w i else -w i)⟫ = ∑ i, w i * |x i| := by
    rw [Verif.Opt.inner_sum]
    refine Finset.sum_congr rfl fun i _ => ?_
    rw [vec_apply]
    split
    · rename_i h; rw [abs_of_nonneg h, mul_comm]
    · rename_i h; rw [abs_of_neg (not_le.mp h)]; ring
  linarith

theorem sub_bp {v y : Vec m} (h : IsSubgrad .bp v y) : v = 0 := by
  have := h (y + v)
  rw [add_sub_cancel_left, real_inner_self_eq_norm_sq] at this
  have h0 : (0 : ℝ) + ‖v‖ ^ 2 ≤ 0 := this
  have : ‖v‖ ^ 2 = 0 := le_antisymm (by linarith) (sq_nonneg _)
  exact norm_eq_zero.mp (pow_eq_zero_iff (two_ne_zero) |>.mp this)

theorem sub_l1l2 {rho : ℝ} (hr : 0 < rho) {v y : Vec m} (h : IsSubgrad (.l1l2 rho) v y) : v = rho • y := by
  have h1 := h (y + (1 / rho) • (v - rho • y))
  have h2 : rho / 2 * ‖y‖ ^ 2 + ⟪v, (1 / rho) • (v - rho • y)⟫ ≤ rho / 2 * ‖y + (1 / rho) • (v - rho • y)‖ ^ 2 := by
    rw [add_sub_cancel_left] at h1; exact h1
  rw [norm_add_sq_real, norm_smul, Real.norm_eq_abs, abs_of_pos (by positivity : 0 < 1 / rho), inner_smul_right, inner_smul_right] at h2
  have h3 : ⟪v, v - rho • y⟫ - rho * ⟪y, v - rho • y⟫ = ‖v - rho • y‖ ^ 2 := by
    rw [← real_inner_smul_left, ← inner_sub_left, real_inner_self_eq_norm_sq]
  have h4 : ‖v - rho • y‖ ^ 2 = 0 := by
    refine le_antisymm ?_ (sq_nonneg _)
    have e : rho / 2 * (‖y‖ ^ 2 + 2 * (1 / rho * ⟪y, v - rho • y⟫) + (1 / rho * ‖v - rho • y‖) ^ 2) =
      rho / 2 * ‖y‖ ^ 2 + ⟪y, v - rho • y⟫ + ‖v - rho • y‖ ^ 2 / (2 * rho) := by field_simp
    rw [e] at h2
    have h5 : 1 / rho * ⟪v, v - rho • y⟫ - ⟪y, v - rho • y⟫ = ‖v - rho • y‖ ^ 2 / rho := by
      rw [← h3]; field_simp
    have h6 : ‖v - rho • y‖ ^ 2 / rho = 2 * (‖v - rho • y‖ ^ 2 / (2 * rho)) := by field_simp
    have h7 : ‖v - rho • y‖ ^ 2 / (2 * rho) ≤ 0 := by linarith
    have h8 : ‖v - rho • y‖ ^ 2 = ‖v - rho • y‖ ^ 2 / (2 * rho) * (2 * rho) := by field_simp
    rw [h8]
    exact mul_nonpos_of_nonpos_of_nonneg h7 (by positivity)
  exact sub_eq_zero.mp (norm_eq_zero.mp (pow_eq_zero_iff two_ne_zero |>.mp h4))

theorem sub_con {delta : ℝ} (hd : 0 < delta) {v y : Vec m} (h : IsSubgrad (.con delta) v y) : ‖v‖ ≤ delta ∧ delta * ‖y‖ ≤ ⟪v, y⟫ := by
  constructor
  · have h1 : delta * ‖y‖ + ⟪v, y + v - y⟫ ≤ delta * ‖y + v‖ := h (y + v)
    rw [add_sub_cancel_left, real_inner_self_eq_norm_sq] at h1
    have h2 := mul_le_mul_of_nonneg_left (norm_add_le y v) hd.le
    rcases (norm_nonneg v).eq_or_lt with h0 | h0
    · rw [← h0]; exact hd.le
    · by_contra hc
      push Not at hc
      nlinarith
  · have h1 : delta * ‖y‖ + ⟪v, 0 - y⟫ ≤ delta * ‖(0 : Vec m)‖ := h 0
    rw [zero_sub, inner_neg_right, norm_zero, mul_zero] at h1
    linarith

/-- The optimality conditions are sufficient. -/
theorem Kkt.sol {f : YallForm} (hf : f.Pos) {nonneg : Bool} {w : Vec n} (hw : ∀ i, 0 ≤ w i) {A : Vec n →ₗ[ℝ] Vec m} {At : Vec m →ₗ[ℝ] Vec n}
    (hadj : IsAdj A At) {b : Vec m} {x z : Vec n} {y : Vec m} (h : Kkt f nonneg w A At b x z y) : YallSol f nonneg w A b x := by
  have hx : nonneg = true → ∀ i, 0 ≤ x i := fun hn i => by have := h.normal; subst hn; exact this.nonneg_of i
  have hv : ∀ x' : Vec n, (nonneg = true → ∀ i, 0 ≤ x' i) → ⟪A x', y⟫ ≤ ∑ i, w i * |x' i| := fun x' hx' => by
    rw [hadj, ← h.dual]; exact inner_box_le h.normal.1 hx'
  have he : ⟪A x, y⟫ = ∑ i, w i * |x i| := by rw [hadj, ← h.dual]; exact h.normal.inner_eq hw
  have hs := h.sub
  cases f with
  | bp =>
    have := sub_bp hs
    have hb : A x = b := (sub_eq_zero.mp this).symm
    refine ⟨⟨hx, hb⟩, fun x' hx' => ?_⟩
    show ∑ i, w i * |x i| ≤ ∑ i, w i * |x' i|
    have h1 := hv x' hx'.1
    have h2 : A x' = b := hx'.2
    rw [h2, ← hb] at h1
    linarith
  | l1l2 rho =>
    have hr : 0 < rho := hf
    have hy := sub_l1l2 hr hs
    refine ⟨⟨hx, trivial⟩, fun x' hx' => ?_⟩
    show (∑ i, w i * |x i|) + ‖A x - b‖ ^ 2 / (2 * rho) ≤ (∑ i, w i * |x' i|) + ‖A x' - b‖ ^ 2 / (2 * rho)
    have h1 := hv x' hx'.1
    have h2 : ‖A x' - b‖ ^ 2 = ‖A x - b‖ ^ 2 - 2 * rho * ⟪A x' - A x, y⟫ + ‖A x' - A x‖ ^ 2 := by
      have e : A x' - b = (A x' - A x) - (b - A x) := by abel
      have e2 : ‖A x - b‖ = ‖rho • y‖ := by rw [← hy, norm_sub_rev]
      rw [e, hy, norm_sub_sq_real, inner_smul_right, e2]; ring
    rw [h2, inner_sub_left]
    have h3 : (‖A x - b‖ ^ 2 - 2 * rho * (⟪A x', y⟫ - ⟪A x, y⟫) + ‖A x' - A x‖ ^ 2) / (2 * rho) =
      ‖A x - b‖ ^ 2 / (2 * rho) - (⟪A x', y⟫ - ⟪A x, y⟫) + ‖A x' - A x‖ ^ 2 / (2 * rho) := by field_simp
    rw [h3]
    have h4 : 0 ≤ ‖A x' - A x‖ ^ 2 / (2 * rho) := by positivity
    linarith
  | con delta =>
    obtain ⟨h1, h2⟩ := sub_con hf hs
    refine ⟨⟨hx, by rw [norm_sub_rev]; exact h1⟩, fun x' hx' => ?_⟩
    show ∑ i, w i * |x i| ≤ ∑ i, w i * |x' i|
    have h3 := hv x' hx'.1
    have h4 : ‖A x' - b‖ ≤ delta := hx'.2
    have h5 : ⟪b - A x', y⟫ ≤ delta * ‖y‖ := (real_inner_le_norm _ _).trans (by
      rw [norm_sub_rev]; exact mul_le_mul_of_nonneg_right h4 (norm_nonneg _))
    rw [inner_sub_left] at h5 h2
    linarith

/-! ## One iteration -/

/-- The `y` of an iteration. -/
def iterY (A : Vec n →ₗ[ℝ] Vec m) (p : YallArgs m n) (x z : Vec n) : Vec m :=
  yallShrink p.form (yallMu p.b) (A (z - (yallMu p.b)⁻¹ • x) + (yallMu p.b)⁻¹ • p.b)

/-- The `z` of an iteration. -/
def iterZ (A : Vec n →ₗ[ℝ] Vec m) (At : Vec m →ₗ[ℝ] Vec n) (p : YallArgs m n) (x z : Vec n) : Vec n :=
  yallProj p.nonneg (At (iterY A p x z) + (yallMu p.b)⁻¹ • x) p.w

/-- The `x` of an iteration. -/
def iterX (A : Vec n →ₗ[ℝ] Vec m) (At : Vec m →ₗ[ℝ] Vec n) (p : YallArgs m n) (x z : Vec n) : Vec n :=
  x - (p.gamma * yallMu p.b) • (iterZ A At p x z - At (iterY A p x z))

theorem yallIter_z (A : Vec n →ₗ[ℝ] Vec m) (At : Vec m →ₗ[ℝ] Vec n) (p : YallArgs m n) (s : YallState m n) :
    (yallIter A At p s).z = iterZ A At p s.x s.z := rfl

theorem yallIter_x (A : Vec n →ₗ[ℝ] Vec m) (At : Vec m →ₗ[ℝ] Vec n) (p : YallArgs m n) (s : YallState m n) :
    (yallIter A At p s).x = iterX A At p s.x s.z := rfl

theorem shrink_sub {f : YallForm} (hf : f.Pos) {mu : ℝ} (hmu : 0 < mu) (yt : Vec m) : IsSubgrad f (mu • (yt - yallShrink f mu yt)) (yallShrink f mu yt) := by
  intro y'
  cases f with
  | bp => show (0 : ℝ) + ⟪mu • (yt - yt), y' - yt⟫ ≤ 0; rw [sub_self, smul_zero, inner_zero_left, add_zero]
  | l1l2 rho =>
    have hr : 0 < rho := hf
    show rho / 2 * ‖(rho / mu + 1)⁻¹ • yt‖ ^ 2 + ⟪mu • (yt - (rho / mu + 1)⁻¹ • yt), y' - (rho / mu + 1)⁻¹ • yt⟫ ≤ rho / 2 * ‖y'‖ ^ 2
    set y := (rho / mu + 1)⁻¹ • yt with hy
    have h1 : mu • (yt - y) = rho • y := by
      rw [hy, smul_sub, smul_smul, smul_smul, ← sub_smul]
      congr 1
      have : rho / mu + 1 ≠ 0 := by positivity
      field_simp
      ring
    rw [h1, real_inner_smul_left, inner_sub_right, real_inner_self_eq_norm_sq]
    have h2 : ⟪y, y'⟫ ≤ ‖y‖ * ‖y'‖ := real_inner_le_norm _ _
    have h3 : 0 ≤ (‖y‖ - ‖y'‖) ^ 2 := sq_nonneg _
    nlinarith
  | con delta =>
    have hd : 0 < delta := hf
    show delta * ‖max 0 (1 - delta / mu / ‖yt‖) • yt‖ + ⟪mu • (yt - max 0 (1 - delta / mu / ‖yt‖) • yt), y' - max 0 (1 - delta / mu / ‖yt‖) • yt⟫
      ≤ delta * ‖y'‖
    rcases (norm_nonneg yt).eq_or_lt with h0 | h0
    · have : yt = 0 := norm_eq_zero.mp h0.symm
      rw [this, smul_zero, sub_self, smul_zero, inner_zero_left, norm_zero, mul_zero, zero_add]
      positivity
    rcases le_total (1 - delta / mu / ‖yt‖) 0 with h1 | h1
    · rw [max_eq_left h1, zero_smul, sub_zero, sub_zero, norm_zero, mul_zero, zero_add, real_inner_smul_left]
      have h2 : mu * ‖yt‖ ≤ delta := by
        have : 1 ≤ delta / mu / ‖yt‖ := by linarith
        rw [div_div, le_div_iff₀ (by positivity)] at this
        linarith
      have h3 := real_inner_le_norm yt y'
      calc mu * ⟪yt, y'⟫ ≤ mu * (‖yt‖ * ‖y'‖) := mul_le_mul_of_nonneg_left h3 hmu.le
        _ = mu * ‖yt‖ * ‖y'‖ := by ring
        _ ≤ delta * ‖y'‖ := mul_le_mul_of_nonneg_right h2 (norm_nonneg _)
    · rw [max_eq_right h1]
      set c := 1 - delta / mu / ‖yt‖ with hc
      have h2 : mu • (yt - c • yt) = (delta / ‖yt‖) • yt := by
        rw [smul_sub, smul_smul, ← sub_smul, hc]
        congr 1
        field_simp
        ring
      rw [h2, real_inner_smul_left, inner_sub_right, inner_smul_right, real_inner_self_eq_norm_sq, norm_smul, Real.norm_eq_abs, abs_of_nonneg h1]
      have h3 := real_inner_le_norm yt y'
      have h4 : delta * (c * ‖yt‖) + delta / ‖yt‖ * (⟪yt, y'⟫ - c * ‖yt‖ ^ 2) = delta / ‖yt‖ * ⟪yt, y'⟫ := by field_simp; ring
      rw [h4]
      calc delta / ‖yt‖ * ⟪yt, y'⟫ ≤ delta / ‖yt‖ * (‖yt‖ * ‖y'‖) := mul_le_mul_of_nonneg_left h3 (by positivity)
        _ = delta * ‖y'‖ := by field_simp

theorem proj_normal {nonneg : Bool} {w : Vec n} (hw : ∀ i, 0 < w i) (v : Vec n) : IsNormal nonneg w (v - yallProj nonneg v w) (yallProj nonneg v w) := by
  cases nonneg with
  | true =>
    refine ⟨fun i => ⟨min_le_left _ _, fun h => absurd h (by simp)⟩, fun z' hz' => ?_⟩
    show ⟪v - projectToUpper v w, z' - projectToUpper v w⟫ ≤ 0
    rw [Verif.Opt.inner_sum]
    refine Finset.sum_nonpos fun i _ => ?_
    show (v i - min (w i) (v i)) * (z' i - min (w i) (v i)) ≤ 0
    have h1 := (hz' i).1
    rcases le_total (w i) (v i) with h | h
    · rw [min_eq_left h]; exact mul_nonpos_of_nonneg_of_nonpos (by linarith) (by linarith)
    · rw [min_eq_right h, sub_self, zero_mul]
  | false =>
    have key : ∀ i, projectToBox v w i = max (-w i) (min (w i) (v i)) := by
      intro i
      show v i * (w i / max (w i) |v i|) = _
      have hp := hw i
      rcases le_total |v i| (w i) with h | h
      · rw [max_eq_left h, div_self hp.ne', mul_one]
        have := abs_le.mp h
        rw [min_eq_right this.2, max_eq_right this.1]
      · rw [max_eq_right h]
        rcases le_total 0 (v i) with h0 | h0
        · rw [abs_of_nonneg h0] at h ⊢
          rw [min_eq_left h, max_eq_right (by linarith)]
          have : v i ≠ 0 := by linarith
          field_simp
        · rw [abs_of_nonpos h0] at h ⊢
          rw [min_eq_right (by linarith), max_eq_left (by linarith)]
          have : v i ≠ 0 := by linarith
          field_simp
    refine ⟨fun i => ?_, fun z' hz' => ?_⟩
    · show projectToBox v w i ≤ w i ∧ (_ → -w i ≤ projectToBox v w i)
      rw [key]
      have := hw i
      exact ⟨max_le (by linarith) (min_le_left _ _), fun _ => le_max_left _ _⟩
    · show ⟪v - projectToBox v w, z' - projectToBox v w⟫ ≤ 0
      rw [Verif.Opt.inner_sum]
      refine Finset.sum_nonpos fun i _ => ?_
      show (v i - projectToBox v w i) * (z' i - projectToBox v w i) ≤ 0
      rw [key]
      obtain ⟨h1, h2⟩ := hz' i
      have h2 := h2 rfl
      rcases le_total (w i) (v i) with h | h
      · rw [min_eq_left h, max_eq_right (by linarith [hw i])]; exact mul_nonpos_of_nonneg_of_nonpos (by linarith) (by linarith)
      · rw [min_eq_right h]
        rcases le_total (-w i) (v i) with h' | h'
        · rw [max_eq_right h', sub_self, zero_mul]
        · rw [max_eq_left h']; exact mul_nonpos_of_nonpos_of_nonneg (by linarith) (by linarith)

theorem yallMu_pos {b : Vec m} (hb : b ≠ 0) : 0 < yallMu b := by
  have : ∃ i, b i ≠ 0 := by
    by_contra h; push Not at h; exact hb (by ext i; exact h i)
  obtain ⟨i, hi⟩ := this
  have hm : 0 < m := i.pos
  refine div_pos ?_ (by exact_mod_cast hm)
  exact Finset.sum_pos' (fun j _ => abs_nonneg _) ⟨i, Finset.mem_univ _, abs_pos.mpr hi⟩

theorem IsNormal.smul {nonneg : Bool} {w x z : Vec n} (h : IsNormal nonneg w x z) {c : ℝ} (hc : 0 ≤ c) : IsNormal nonneg w (c • x) z :=
  ⟨h.1, fun z' hz' => by rw [real_inner_smul_left]; exact mul_nonpos_of_nonneg_of_nonpos hc (h.2 z' hz')⟩

section iter
variable (A : Vec n →ₗ[ℝ] Vec m) (At : Vec m →ₗ[ℝ] Vec n) (p : YallArgs m n) (x z : Vec n)

/-- The `z` step: `x + mu (At y - z')` is normal at the new `z'`. -/
theorem iter_normal (hw : ∀ i, 0 < p.w i) (hb : p.b ≠ 0) :
    IsNormal p.nonneg p.w (x + yallMu p.b • (At (iterY A p x z) - iterZ A At p x z)) (iterZ A At p x z) := by
  have h := (proj_normal (nonneg := p.nonneg) hw (At (iterY A p x z) + (yallMu p.b)⁻¹ • x)).smul (yallMu_pos hb).le
  have e : x + yallMu p.b • (At (iterY A p x z) - iterZ A At p x z) =
      yallMu p.b • (At (iterY A p x z) + (yallMu p.b)⁻¹ • x - yallProj p.nonneg (At (iterY A p x z) + (yallMu p.b)⁻¹ • x) p.w) := by
    rw [← iterZ]
    have hm := (yallMu_pos hb).ne'
    match_scalars <;> field_simp
  rw [e]
  exact h

/-- The `y` step: the residual of `x + mu (At y - z)` is a subgradient at the new `y`. -/
theorem iter_sub (hf : p.form.Pos) (hb : p.b ≠ 0) (hA : ∀ y, A (At y) = y) :
    IsSubgrad p.form (p.b - A (x + yallMu p.b • (At (iterY A p x z) - z))) (iterY A p x z) := by
  have h := shrink_sub hf (yallMu_pos hb) (A (z - (yallMu p.b)⁻¹ • x) + (yallMu p.b)⁻¹ • p.b)
  have hm := (yallMu_pos hb).ne'
  have e : p.b - A (x + yallMu p.b • (At (iterY A p x z) - z)) =
      yallMu p.b • (A (z - (yallMu p.b)⁻¹ • x) + (yallMu p.b)⁻¹ • p.b - iterY A p x z) := by
    rw [map_add, map_smul, map_sub, hA, map_sub, map_smul]
    match_scalars <;> field_simp
  rw [e]
  exact h

/-- A fixed point of the iteration satisfies the optimality conditions. -/
theorem fixed_kkt (hf : p.form.Pos) (hw : ∀ i, 0 < p.w i) (hb : p.b ≠ 0) (hg : p.gamma ≠ 0) (hA : ∀ y, A (At y) = y)
    (hx : iterX A At p x z = x) (hz : iterZ A At p x z = z) : Kkt p.form p.nonneg p.w A At p.b x z (iterY A p x z) := by
  have hm := (yallMu_pos hb).ne'
  have h1 : iterZ A At p x z - At (iterY A p x z) = 0 := by
    have h2 : (p.gamma * yallMu p.b) • (iterZ A At p x z - At (iterY A p x z)) = 0 := by
      rw [iterX] at hx; exact sub_eq_self.mp hx
    exact (smul_eq_zero.mp h2).resolve_left (mul_ne_zero hg hm)
  have h3 : At (iterY A p x z) = z := by rw [← sub_eq_zero.mp h1, hz]
  have h4 := iter_normal A At p x z hw hb
  have h5 := iter_sub A At p x z hf hb hA
  rw [hz, h3, sub_self, smul_zero, add_zero] at h4
  rw [h3, sub_self, smul_zero, add_zero] at h5
  exact ⟨h3.symm, h4, h5⟩

/-- An iteration with `gamma = 1` comes nearer to every point satisfying the optimality conditions. -/
theorem kkt_progress (hf : p.form.Pos) (hw : ∀ i, 0 < p.w i) (hb : p.b ≠ 0) (hg : p.gamma = 1) (hadj : IsAdj A At) (hA : ∀ y, A (At y) = y)
    (hn : IsNormal p.nonneg p.w x z) {xs zs : Vec n} {ys : Vec m} (hk : Kkt p.form p.nonneg p.w A At p.b xs zs ys) :
    ‖iterX A At p x z - xs‖ ^ 2 / yallMu p.b + yallMu p.b * ‖iterZ A At p x z - zs‖ ^ 2 ≤
      ‖x - xs‖ ^ 2 / yallMu p.b + yallMu p.b * ‖z - zs‖ ^ 2 -
      (‖iterX A At p x z - x‖ ^ 2 / yallMu p.b + yallMu p.b * ‖iterZ A At p x z - z‖ ^ 2) := by
  have hm := yallMu_pos hb
  set mu := yallMu p.b with hmu
  set y' := iterY A p x z with hy'
  set z' := iterZ A At p x z with hz'
  set x' := iterX A At p x z with hx'
  have e1 : x' = x + mu • (At y' - z') := by
    rw [hx', iterX, hg, one_mul, ← hmu, ← hy', ← hz', smul_sub, smul_sub]; abel
  have n1 : IsNormal p.nonneg p.w x' z' := by rw [e1]; exact iter_normal A At p x z hw hb
  have s1 := (iter_sub A At p x z hf hb hA).monotone hk.sub
  have m1 := n1.monotone hk.normal
  have m2 := n1.monotone hn
  rw [← hmu, ← hy'] at s1
  have e2 : p.b - A (x + mu • (At y' - z)) - (p.b - A xs) = A (xs - (x' + mu • (z' - z))) := by
    rw [e1, map_sub, map_add, map_add, map_add, map_smul, map_smul, map_smul]
    rw [map_sub, map_sub, map_sub]
    module
  have e3 : At (y' - ys) = z' - zs + mu⁻¹ • (x' - x) := by
    rw [e1, map_sub, ← hk.dual, add_sub_cancel_left, smul_smul, inv_mul_cancel₀ hm.ne', one_smul]; abel
  rw [e2, hadj, e3] at s1
  -- expand everything in the differences
  set a := x' - xs with ha
  set d := x' - x with hd
  set c := z' - zs with hc
  set e := z' - z with he
  have e4 : xs - (x' + mu • e) = -a - mu • e := by rw [ha]; abel
  have e5 : x - xs = a - d := by rw [ha, hd]; abel
  have e6 : z - zs = c - e := by rw [hc, he]; abel
  rw [e4, inner_add_right, inner_sub_left, inner_neg_left, real_inner_smul_left, inner_smul_right, inner_sub_left (-a), inner_neg_left,
    real_inner_smul_left] at s1
  rw [e5, e6, norm_sub_sq_real a d, norm_sub_sq_real c e]
  have s2 : 0 ≤ -(mu * ⟪e, c⟫) - mu⁻¹ * ⟪a, d⟫ - ⟪e, d⟫ := by
    have : mu⁻¹ * (-⟪a, d⟫ - mu * ⟪e, d⟫) = -(mu⁻¹ * ⟪a, d⟫) - ⟪e, d⟫ := by field_simp
    rw [this] at s1
    linarith
  rw [real_inner_comm] at m2
  rw [real_inner_comm c e] at s2
  have h1 : (‖a‖ ^ 2 - 2 * ⟪a, d⟫ + ‖d‖ ^ 2) / mu = ‖a‖ ^ 2 / mu - 2 * (mu⁻¹ * ⟪a, d⟫) + ‖d‖ ^ 2 / mu := by field_simp
  have h2 : mu * (‖c‖ ^ 2 - 2 * ⟪c, e⟫ + ‖e‖ ^ 2) = mu * ‖c‖ ^ 2 - 2 * (mu * ⟪c, e⟫) + mu * ‖e‖ ^ 2 := by ring
  rw [h1, h2]
  linarith

end iter

/-! ## Convergence of Fejér monotone iterations in finite dimension -/

open Filter Topology in
theorem fejer {E : Type*} [NormedAddCommGroup E] [ProperSpace E] (T : E → E) (hT : Continuous T) (q : E → ℝ) (hq : Continuous q) (hq0 : q 0 = 0)
    (c : ℝ) (hc : 0 < c) (hqc : ∀ u, c * ‖u‖ ^ 2 ≤ q u) (u : ℕ → E) (hu : ∀ k, u (k + 1) = T (u k))
    (hF : ∀ p, T p = p → ∀ k, q (u (k + 1) - p) ≤ q (u k - p) - q (u (k + 1) - u k)) (p0 : E) (hp0 : T p0 = p0) :
    ∃ p, T p = p ∧ Tendsto u atTop (𝓝 p) := by
  have qnn : ∀ v, 0 ≤ q v := fun v => (by positivity : (0 : ℝ) ≤ c * ‖v‖ ^ 2).trans (hqc v)
  have anti : ∀ p, T p = p → Antitone fun k => q (u k - p) := fun p hp => antitone_nat_of_succ_le fun k => by
    have := hF p hp k
    have := qnn (u (k + 1) - u k)
    linarith
  have conv : ∀ p, T p = p → ∃ L, Tendsto (fun k => q (u k - p)) atTop (𝓝 L) := fun p hp =>
    ⟨_, tendsto_atTop_ciInf (anti p hp) ⟨0, by rintro _ ⟨k, rfl⟩; exact qnn _⟩⟩
  -- a sequence whose `q` tends to zero tends to zero
  have small : ∀ v : ℕ → E, Tendsto (fun k => q (v k)) atTop (𝓝 0) → Tendsto v atTop (𝓝 0) := by
    intro v hv
    rw [tendsto_zero_iff_norm_tendsto_zero]
    have h1 : Tendsto (fun k => ‖v k‖ ^ 2) atTop (𝓝 0) := by
      refine squeeze_zero (fun _ => by positivity) (fun k => ?_) (by simpa using hv.const_mul c⁻¹)
      have := hqc (v k)
      rw [← div_eq_inv_mul, le_div_iff₀ hc]
      linarith
    have h2 := h1.sqrt
    simpa [Real.sqrt_sq_eq_abs] using h2
  -- successive differences vanish
  obtain ⟨L, hL⟩ := conv p0 hp0
  have hdiff : Tendsto (fun k => u (k + 1) - u k) atTop (𝓝 0) := by
    apply small
    have h1 : Tendsto (fun k => q (u k - p0) - q (u (k + 1) - p0)) atTop (𝓝 0) := by
      have := hL.sub (hL.comp (tendsto_add_atTop_nat 1))
      simpa using this
    refine squeeze_zero (fun _ => qnn _) (fun k => ?_) h1
    have := hF p0 hp0 k
    linarith
  -- a cluster point
  have hbd : ∀ k, u k ∈ Metric.closedBall p0 (Real.sqrt (q (u 0 - p0) / c)) := by
    intro k
    rw [mem_closedBall_iff_norm]
    refine Real.le_sqrt_of_sq_le ?_
    rw [le_div_iff₀ hc]
    have h1 := hqc (u k - p0)
    have h2 := anti p0 hp0 (Nat.zero_le k)
    simp only at h2
    linarith
  obtain ⟨p, -, φ, hφ, hlim⟩ := tendsto_subseq_of_bounded Metric.isBounded_closedBall hbd
  have hp : T p = p := by
    have h1 : Tendsto (fun k => T (u (φ k))) atTop (𝓝 (T p)) := (hT.tendsto p).comp hlim
    have h2 : Tendsto (fun k => (u (φ k + 1) - u (φ k)) + u (φ k)) atTop (𝓝 (0 + p)) := (hdiff.comp hφ.tendsto_atTop).add hlim
    rw [zero_add] at h2
    refine tendsto_nhds_unique h1 (h2.congr fun k => ?_)
    rw [sub_add_cancel, hu]
  refine ⟨p, hp, ?_⟩
  obtain ⟨L', hL'⟩ := conv p hp
  have h3 : Tendsto (fun k => q (u (φ k) - p)) atTop (𝓝 0) := by
    have h4 : Tendsto (fun k => u (φ k) - p) atTop (𝓝 0) := by
      have := hlim.sub (tendsto_const_nhds (x := p))
      simpa using this
    have := (hq.tendsto 0).comp h4
    rwa [hq0] at this
  have h5 : L' = 0 := tendsto_nhds_unique (hL'.comp hφ.tendsto_atTop) h3
  rw [h5] at hL'
  have h6 := small _ hL'
  have h7 := h6.add (tendsto_const_nhds (x := p))
  simpa using h7

end Verif.Cvx
