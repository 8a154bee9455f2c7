import Verif.Cvx.YallLemmas
import Mathlib.Analysis.LocallyConvex.Separation
import Mathlib.Analysis.InnerProductSpace.Dual
import Mathlib.Topology.Algebra.Module.FiniteDimension
import Mathlib.Analysis.Normed.Module.FiniteDimension

set_option autoImplicit false
/-!
# Existence of solutions and of dual certificates for the problems of YALL1
-/
noncomputable section
namespace Verif.Cvx
open Verif.Loop Verif.Opt
open scoped RealInnerProductSpace Topology

variable {m n : ℕ}

/-- The weighted norm `Σ w_i |x_i|`. -/
def wl1 (w x : Vec n) : ℝ := ∑ i, w i * |x i|

theorem wl1_add {w : Vec n} (hw : ∀ i, 0 < w i) (x y : Vec n) : wl1 w (x + y) ≤ wl1 w x + wl1 w y := by
  rw [wl1, wl1, wl1, ← Finset.sum_add_distrib]
  refine Finset.sum_le_sum fun i _ => ?_
  rw [← mul_add]
  exact mul_le_mul_of_nonneg_left (abs_add_le _ _) (hw i).le

theorem wl1_smul (w : Vec n) (c : ℝ) (x : Vec n) : wl1 w (c • x) = |c| * wl1 w x := by
  rw [wl1, wl1, Finset.mul_sum]
  refine Finset.sum_congr rfl fun i _ => ?_
  rw [PiLp.smul_apply, smul_eq_mul, abs_mul]; ring

theorem wl1_nonneg {w : Vec n} (hw : ∀ i, 0 < w i) (x : Vec n) : 0 ≤ wl1 w x :=
  Finset.sum_nonneg fun i _ => mul_nonneg (hw i).le (abs_nonneg _)

theorem wl1_zero (w : Vec n) : wl1 w 0 = 0 := by simp [wl1]

theorem wl1_pos {w : Vec n} (hw : ∀ i, 0 < w i) {x : Vec n} (hx : x ≠ 0) : 0 < wl1 w x := by
  have : ∃ i, x i ≠ 0 := by
    by_contra h; push Not at h; exact hx (by ext i; exact h i)
  obtain ⟨i, hi⟩ := this
  exact Finset.sum_pos' (fun j _ => mul_nonneg (hw j).le (abs_nonneg _)) ⟨i, Finset.mem_univ _, mul_pos (hw i) (abs_pos.mpr hi)⟩

theorem wl1_continuous (w : Vec n) : Continuous (wl1 w) := by
  unfold wl1
  fun_prop

theorem wl1_compact {w : Vec n} (hw : ∀ i, 0 < w i) (R : ℝ) : IsCompact {x : Vec n | wl1 w x ≤ R} := by
  refine Metric.isCompact_of_isClosed_isBounded (isClosed_le (wl1_continuous w) continuous_const) ?_
  refine (Metric.isBounded_closedBall (x := (0 : Vec n)) (r := Real.sqrt (∑ i, (R / w i) ^ 2))).subset fun x hx => ?_
  rw [mem_closedBall_zero_iff, EuclideanSpace.norm_eq]
  refine Real.sqrt_le_sqrt (Finset.sum_le_sum fun i _ => ?_)
  have h1 : w i * |x i| ≤ R :=
    (Finset.single_le_sum (f := fun i => w i * |x i|) (fun j _ => mul_nonneg (hw j).le (abs_nonneg _)) (Finset.mem_univ i)).trans hx
  have h2 : |x i| ≤ R / w i := by rw [le_div_iff₀ (hw i)]; linarith
  rw [Real.norm_eq_abs]
  exact pow_le_pow_left₀ (abs_nonneg _) h2 2

/-- A continuous function dominating the weighted norm attains its minimum on a closed nonempty set. -/
theorem exists_min {w : Vec n} (hw : ∀ i, 0 < w i) (g : Vec n → ℝ) (hg : Continuous g) (hgw : ∀ x, wl1 w x ≤ g x) (S : Set (Vec n)) (hS : IsClosed S)
    (x1 : Vec n) (hx1 : x1 ∈ S) : ∃ x ∈ S, ∀ x' ∈ S, g x ≤ g x' := by
  have hc : IsCompact (S ∩ {x | g x ≤ g x1}) :=
    (wl1_compact hw (g x1)).of_isClosed_subset (hS.inter (isClosed_le hg continuous_const)) fun x hx => (hgw x).trans hx.2
  obtain ⟨x, hx, hmin⟩ := hc.exists_isMinOn ⟨x1, hx1, le_refl (g x1)⟩ hg.continuousOn
  refine ⟨x, hx.1, fun x' hx' => ?_⟩
  rcases le_total (g x') (g x1) with h | h
  · exact hmin ⟨hx', h⟩
  · exact (show g x ≤ g x1 from hx.2).trans h

/-- A vector supporting the weighted norm at `x` puts `x` in the normal cone. -/
theorem normal_of_support {nonneg : Bool} {w x z : Vec n} (hx : nonneg = true → ∀ i, 0 ≤ x i)
    (h : ∀ v : Vec n, (nonneg = true → ∀ i, 0 ≤ v i) → ⟪z, v⟫ ≤ wl1 w v) (he : wl1 w x ≤ ⟪z, x⟫) : IsNormal nonneg w x z := by
  have hz : z ∈ dualBox nonneg w := by
    intro i
    have hin : ∀ c : ℝ, ⟪z, (vec fun j => if j = i then c else 0)⟫ = c * z i := fun c => by
      rw [Verif.Opt.inner_sum]; simp [mul_comm]
    have hw1 : ∀ c : ℝ, wl1 w (vec fun j => if j = i then c else 0) = w i * |c| := fun c => by
      rw [wl1, Finset.sum_eq_single i]
      · simp
      · intro j _ hj; simp [hj]
      · intro h; exact absurd (Finset.mem_univ i) h
    refine ⟨?_, fun hn => ?_⟩
    · have := h (vec fun j => if j = i then 1 else 0) (fun _ j => by rw [vec_apply]; split <;> norm_num)
      rw [hin, hw1] at this
      simpa using this
    · have := h (vec fun j => if j = i then -1 else 0) (fun h' => by rw [hn] at h'; exact absurd h' (by simp))
      rw [hin, hw1] at this
      simp at this
      linarith
  refine ⟨hz, fun z' hz' => ?_⟩
  rw [inner_sub_right, real_inner_comm z x]
  have := inner_box_le hz' hx
  rw [wl1] at he
  linarith

theorem convex_wl1 {w : Vec n} (hw : ∀ i, 0 < w i) (r : ℝ) : Convex ℝ {x | wl1 w x < r} := by
  intro x hx y hy a b ha hb hab
  show wl1 w (a • x + b • y) < r
  have h1 := wl1_add hw (a • x) (b • y)
  rw [wl1_smul, wl1_smul, abs_of_nonneg ha, abs_of_nonneg hb] at h1
  have hx : wl1 w x < r := hx
  have hy : wl1 w y < r := hy
  rcases ha.eq_or_lt with h0 | h0
  · have hb1 : b = 1 := by linarith
    rw [← h0, hb1] at h1
    rw [← h0, hb1]
    linarith
  · have h2 : a * wl1 w x < a * r := mul_lt_mul_of_pos_left hx h0
    have h3 : b * wl1 w y ≤ b * r := mul_le_mul_of_nonneg_left hy.le hb
    have : a * r + b * r = r := by rw [← add_mul, hab, one_mul]
    linarith

/-- Separation: the least weighted norm over the preimage of a convex set is certified by a dual vector. -/
theorem exists_dual {w : Vec n} (hw : ∀ i, 0 < w i) (A : Vec n →ₗ[ℝ] Vec m) (hA : Function.Surjective A) (B : Set (Vec m)) (hB : Convex ℝ B)
    (x : Vec n) (hx : A x ∈ B) (r : ℝ) (hr : 0 < r) (hmin : ∀ x', A x' ∈ B → r ≤ wl1 w x') :
    ∃ y : Vec m, (∀ x', ⟪y, A x'⟫ ≤ wl1 w x') ∧ ∀ c ∈ B, r ≤ ⟪y, c⟫ := by
  have hopen : IsOpen (A '' {x | wl1 w x < r}) := A.isOpenMap_of_finiteDimensional hA _ (isOpen_lt (wl1_continuous w) continuous_const)
  have hdisj : Disjoint (A '' {x | wl1 w x < r}) B := by
    rw [Set.disjoint_left]
    rintro _ ⟨x', hx', rfl⟩ hc
    exact absurd (hmin x' hc) (not_le.mpr hx')
  obtain ⟨f, u, h1, h2⟩ := geometric_hahn_banach_open ((convex_wl1 hw r).linear_image A) hopen hB hdisj
  have hu : 0 < u := by
    have := h1 0 ⟨0, by show wl1 w 0 < r; rw [wl1_zero]; exact hr, map_zero A⟩
    rwa [map_zero] at this
  set y0 : Vec m := (InnerProductSpace.toDual ℝ (Vec m)).symm f with hy0
  have hf : ∀ c, ⟪y0, c⟫ = f c := fun c => by rw [hy0, InnerProductSpace.toDual_symm_apply]
  have hru : 0 < r / u := div_pos hr hu
  refine ⟨(r / u) • y0, fun x' => ?_, fun c hc => ?_⟩
  · rw [real_inner_smul_left, hf]
    by_contra hcon
    push Not at hcon
    have hx' : 0 < wl1 w x' := by
      refine wl1_pos hw ?_
      rintro rfl
      rw [map_zero, map_zero, mul_zero, wl1_zero] at hcon
      exact lt_irrefl _ hcon
    -- scale `x'` so that its norm is just below `r`
    have hfx : 0 < f (A x') := by
      by_contra h; push Not at h
      have : r / u * f (A x') ≤ 0 := mul_nonpos_of_nonneg_of_nonpos hru.le h
      linarith
    set t := u / f (A x') with ht
    have htp : 0 < t := div_pos hu hfx
    have h3 : wl1 w (t • x') < r := by
      rw [wl1_smul, abs_of_pos htp]
      calc t * wl1 w x' < t * (r / u * f (A x')) := mul_lt_mul_of_pos_left hcon htp
        _ = r := by rw [ht]; field_simp
    have h4 := h1 _ ⟨t • x', h3, rfl⟩
    rw [map_smul, map_smul, smul_eq_mul, ht, div_mul_cancel₀ _ hfx.ne'] at h4
    exact lt_irrefl _ h4
  · rw [real_inner_smul_left, hf]
    have := h2 c hc
    calc r = r / u * u := by field_simp
      _ ≤ r / u * f c := mul_le_mul_of_nonneg_left this hru.le

/-- Points satisfying the optimality conditions exist, except that for sign constraints only the penalised problem is treated. -/
theorem exists_kkt (f : YallForm) (hf : f.Pos) (nonneg : Bool) (hnn : nonneg = true → ∃ rho, f = .l1l2 rho) (w : Vec n) (hw : ∀ i, 0 < w i)
    (A : Vec n →ₗ[ℝ] Vec m) (At : Vec m →ₗ[ℝ] Vec n) (hadj : IsAdj A At) (hA : ∀ y, A (At y) = y) (b : Vec m) :
    ∃ x z y, Kkt f nonneg w A At b x z y := by
  have hcA : Continuous A := A.continuous_of_finiteDimensional
  have hsurj : Function.Surjective A := fun y => ⟨At y, hA y⟩
  -- from a certificate to the conditions, without sign constraints
  have fin : ∀ (x : Vec n) (y : Vec m), (∀ x', ⟪y, A x'⟫ ≤ wl1 w x') → wl1 w x ≤ ⟪y, A x⟫ → IsNormal false w x (At y) := fun x y h1 h2 =>
    normal_of_support (fun h => absurd h (by simp)) (fun v _ => by rw [real_inner_comm, ← hadj, real_inner_comm]; exact h1 v)
      (by rw [real_inner_comm, ← hadj, real_inner_comm]; exact h2)
  cases f with
  | bp =>
    have hn : nonneg = false := by
      cases nonneg with
      | false => rfl
      | true => obtain ⟨r, hr⟩ := hnn rfl; exact absurd hr (by simp)
    subst hn
    obtain ⟨x, hx, hmin⟩ := exists_min hw (wl1 w) (wl1_continuous w) (fun x => le_refl _) {x | A x = b} (isClosed_eq hcA continuous_const) (At b) (hA b)
    have hx : A x = b := hx
    rcases (wl1_nonneg hw x).eq_or_lt with h0 | h0
    · refine ⟨x, At 0, 0, rfl, fin x 0 (fun x' => by rw [inner_zero_left]; exact wl1_nonneg hw x') (by rw [inner_zero_left, ← h0]), fun y' => ?_⟩
      rw [hx, sub_self, inner_zero_left, add_zero]; exact le_refl _
    · obtain ⟨y, h1, h2⟩ := exists_dual hw A hsurj {b} (convex_singleton b) x hx (wl1 w x) h0 (fun x' hx' => hmin x' hx')
      refine ⟨x, At y, y, rfl, fin x y h1 (h2 _ hx), fun y' => ?_⟩
      rw [hx, sub_self, inner_zero_left, add_zero]; exact le_refl _
  | con delta =>
    have hd : 0 < delta := hf
    have hn : nonneg = false := by
      cases nonneg with
      | false => rfl
      | true => obtain ⟨r, hr⟩ := hnn rfl; exact absurd hr (by simp)
    subst hn
    obtain ⟨x, hx, hmin⟩ := exists_min hw (wl1 w) (wl1_continuous w) (fun x => le_refl _) {x | ‖A x - b‖ ≤ delta}
      (isClosed_le (hcA.sub continuous_const).norm continuous_const) (At b) (by
        show ‖A (At b) - b‖ ≤ delta; rw [hA, sub_self, norm_zero]; exact hd.le)
    have hx : ‖A x - b‖ ≤ delta := hx
    rcases (wl1_nonneg hw x).eq_or_lt with h0 | h0
    · refine ⟨x, At 0, 0, rfl, fin x 0 (fun x' => by rw [inner_zero_left]; exact wl1_nonneg hw x') (by rw [inner_zero_left, ← h0]), fun y' => ?_⟩
      show delta * ‖(0 : Vec m)‖ + ⟪b - A x, y' - 0⟫ ≤ delta * ‖y'‖
      rw [norm_zero, mul_zero, zero_add, sub_zero]
      refine (real_inner_le_norm _ _).trans (mul_le_mul_of_nonneg_right ?_ (norm_nonneg _))
      rwa [norm_sub_rev]
    · have hball : ∀ c, c ∈ Metric.closedBall b delta ↔ ‖c - b‖ ≤ delta := fun c => mem_closedBall_iff_norm
      obtain ⟨y, h1, h2⟩ := exists_dual hw A hsurj (Metric.closedBall b delta) (convex_closedBall b delta) x ((hball _).mpr hx) (wl1 w x) h0
        (fun x' hx' => hmin x' ((hball _).mp hx'))
      have h3 := h2 _ ((hball _).mpr hx)
      refine ⟨x, At y, y, rfl, fin x y h1 h3, fun y' => ?_⟩
      show delta * ‖y‖ + ⟪b - A x, y' - y⟫ ≤ delta * ‖y'‖
      have h4 : ⟪b - A x, y'⟫ ≤ delta * ‖y'‖ := (real_inner_le_norm _ _).trans (mul_le_mul_of_nonneg_right (by rwa [norm_sub_rev]) (norm_nonneg _))
      have h5 : delta * ‖y‖ ≤ ⟪b - A x, y⟫ := by
        rcases (norm_nonneg y).eq_or_lt with hy | hy
        · have : y = 0 := norm_eq_zero.mp hy.symm
          rw [this, inner_zero_right, norm_zero, mul_zero]
        have h6 := h2 (b - (delta / ‖y‖) • y) ((hball _).mpr (by
          rw [sub_sub_cancel_left, norm_neg, norm_smul, Real.norm_eq_abs, abs_of_pos (div_pos hd hy), div_mul_cancel₀ _ hy.ne']))
        have h7 := h1 x
        rw [inner_sub_right, inner_smul_right, real_inner_self_eq_norm_sq] at h6
        have h8 : delta / ‖y‖ * ‖y‖ ^ 2 = delta * ‖y‖ := by field_simp
        rw [h8] at h6
        rw [inner_sub_left, real_inner_comm y b, real_inner_comm y (A x)]
        linarith
      rw [inner_sub_right]
      linarith
  | l1l2 rho =>
    have hr : 0 < rho := hf
    set S : Set (Vec n) := {x | nonneg = true → ∀ i, 0 ≤ x i} with hS
    have hSc : IsClosed S := by
      cases nonneg with
      | false => simp [hS]
      | true =>
        have : S = ⋂ i, {x : Vec n | 0 ≤ x i} := by ext x; simp [hS]
        rw [this]
        exact isClosed_iInter fun i => isClosed_le continuous_const (by fun_prop)
    obtain ⟨x, hx, hmin⟩ := exists_min hw (fun x => wl1 w x + ‖A x - b‖ ^ 2 / (2 * rho))
      ((wl1_continuous w).add (((hcA.sub continuous_const).norm.pow 2).div_const _))
      (fun x => by have : 0 ≤ ‖A x - b‖ ^ 2 / (2 * rho) := by positivity
                   linarith) S hSc 0 (fun _ i => le_refl _)
    have hx : nonneg = true → ∀ i, 0 ≤ x i := hx
    set y := (1 / rho) • (b - A x) with hy
    -- first order condition in a direction of the cone
    have foc : ∀ x' ∈ S, ⟪At y, x' - x⟫ ≤ wl1 w x' - wl1 w x := by
      intro x' hx'
      have hx' : nonneg = true → ∀ i, 0 ≤ x' i := hx'
      have step : ∀ t : ℝ, 0 < t → t ≤ 1 → ⟪At y, x' - x⟫ ≤ wl1 w x' - wl1 w x + t * (‖A (x' - x)‖ ^ 2 / (2 * rho)) := by
        intro t ht ht1
        have h1 := hmin ((1 - t) • x + t • x') (fun hn i => by
          rw [PiLp.add_apply, PiLp.smul_apply, PiLp.smul_apply, smul_eq_mul, smul_eq_mul]
          have := hx hn i
          have := hx' hn i
          have : 0 ≤ 1 - t := by linarith
          positivity)
        have h2 := wl1_add hw ((1 - t) • x) (t • x')
        rw [wl1_smul, wl1_smul, abs_of_pos ht, abs_of_nonneg (by linarith : 0 ≤ 1 - t)] at h2
        have e1 : A ((1 - t) • x + t • x') - b = t • A (x' - x) - (b - A x) := by
          rw [map_add, map_smul, map_smul, map_sub]; module
        have e2 : b - A x = rho • y := by rw [hy, smul_smul, mul_one_div_cancel hr.ne', one_smul]
        have e3 : ⟪At y, x' - x⟫ = ⟪A (x' - x), y⟫ := by rw [real_inner_comm, ← hadj]
        rw [e3]
        rw [e1, norm_sub_sq_real (t • A (x' - x)), norm_smul, Real.norm_eq_abs, abs_of_pos ht, real_inner_smul_left] at h1
        rw [norm_sub_rev (A x) b] at h1
        have e4 : ⟪A (x' - x), b - A x⟫ = rho * ⟪A (x' - x), y⟫ := by rw [e2, inner_smul_right]
        rw [e4] at h1
        have e5 : ((t * ‖A (x' - x)‖) ^ 2 - 2 * (t * (rho * ⟪A (x' - x), y⟫)) + ‖b - A x‖ ^ 2) / (2 * rho) =
          t ^ 2 * (‖A (x' - x)‖ ^ 2 / (2 * rho)) - t * ⟪A (x' - x), y⟫ + ‖b - A x‖ ^ 2 / (2 * rho) := by field_simp
        rw [e5] at h1
        have h3 : t * ⟪A (x' - x), y⟫ ≤ t * (wl1 w x' - wl1 w x + t * (‖A (x' - x)‖ ^ 2 / (2 * rho))) := by nlinarith
        exact le_of_mul_le_mul_left h3 ht
      set K := ‖A (x' - x)‖ ^ 2 / (2 * rho) with hK
      have hKnn : 0 ≤ K := by positivity
      refine le_of_forall_pos_le_add fun ε hε => ?_
      have h4 : 0 < min 1 (ε / (K + 1)) := lt_min one_pos (by positivity)
      have h5 := step (min 1 (ε / (K + 1))) h4 (min_le_left _ _)
      have h6 : min 1 (ε / (K + 1)) * K ≤ ε := by
        calc min 1 (ε / (K + 1)) * K ≤ ε / (K + 1) * K := mul_le_mul_of_nonneg_right (min_le_right _ _) hKnn
          _ ≤ ε := by rw [div_mul_eq_mul_div, div_le_iff₀ (by positivity)]; nlinarith
      linarith
    refine ⟨x, At y, y, rfl, normal_of_support hx (fun v hv => ?_) ?_, fun y' => ?_⟩
    · have h1 := foc (x + v) (fun hn i => by rw [PiLp.add_apply]; exact add_nonneg (hx hn i) (hv hn i))
      rw [add_sub_cancel_left] at h1
      have := wl1_add hw x v
      linarith
    · have h1 := foc 0 (fun _ i => le_refl _)
      rw [zero_sub, inner_neg_right, wl1_zero] at h1
      linarith
    · show rho / 2 * ‖y‖ ^ 2 + ⟪b - A x, y' - y⟫ ≤ rho / 2 * ‖y'‖ ^ 2
      have e2 : b - A x = rho • y := by rw [hy, smul_smul, mul_one_div_cancel hr.ne', one_smul]
      rw [e2, real_inner_smul_left, inner_sub_right, real_inner_self_eq_norm_sq]
      have h2 : ⟪y, y'⟫ ≤ ‖y‖ * ‖y'‖ := real_inner_le_norm _ _
      have h3 : 0 ≤ (‖y‖ - ‖y'‖) ^ 2 := sq_nonneg _
      nlinarith

end Verif.Cvx
