import Verif.Lop.Spec
import Mathlib.Algebra.BigOperators.Intervals
import Mathlib.Algebra.BigOperators.Fin
import Mathlib.Tactic.LinearCombination

set_option autoImplicit false

/-! Helper lemmas about list vectors. -/
set_option linter.unusedSectionVars false
namespace Verif.Lop
variable {R : Type*} [CommRing R] [StarRing R]

@[simp] theorem length_vadd (x y : List R) : (vadd x y).length = min x.length y.length := by
  simp [vadd]
@[simp] theorem length_vsub (x y : List R) : (vsub x y).length = min x.length y.length := by
  simp [vsub]
@[simp] theorem length_vneg (x : List R) : (vneg x).length = x.length := by simp [vneg]
@[simp] theorem length_smul (a : R) (x : List R) : (smul a x).length = x.length := by simp [smul]
@[simp] theorem length_vconj (x : List R) : (vconj x).length = x.length := by simp [vconj]

@[simp] theorem vdot_nil_left (y : List R) : vdot [] y = 0 := by simp [vdot]
@[simp] theorem vdot_nil_right (x : List R) : vdot x [] = 0 := by simp [vdot]
@[simp] theorem vdot_cons (a b : R) (x y : List R) :
    vdot (a :: x) (b :: y) = star a * b + vdot x y := by simp [vdot]

theorem vdot_append {x y u v : List R} (h : x.length = u.length) :
    vdot (x ++ y) (u ++ v) = vdot x u + vdot y v := by
  simp [vdot, List.zipWith_append h]

theorem vdot_reverse {x y : List R} (h : x.length = y.length) :
    vdot x.reverse y.reverse = vdot x y := by
  simp [vdot, ← List.reverse_zipWith h]

theorem star_vdot (x y : List R) : star (vdot x y) = vdot y x := by
  induction x generalizing y with
  | nil => simp
  | cons a x ih =>
    cases y with
    | nil => simp
    | cons b y => simp [ih, mul_comm]

theorem vdot_vconj (x y : List R) : vdot (vconj x) (vconj y) = star (vdot x y) := by
  induction x generalizing y with
  | nil => simp [vconj]
  | cons a x ih =>
    cases y with
    | nil => simp [vconj]
    | cons b y =>
      have := ih y
      simp only [vconj] at this
      simp [vconj, this, mul_comm]

@[simp] theorem vconj_vconj (x : List R) : vconj (vconj x) = x := by
  simp [vconj, Function.comp_def]

theorem vdot_vadd_left {x y : List R} (z : List R) (h : x.length = y.length) :
    vdot (vadd x y) z = vdot x z + vdot y z := by
  induction x generalizing y z with
  | nil => cases y <;> simp_all [vadd]
  | cons a x ih =>
    cases y with
    | nil => simp at h
    | cons b y =>
      cases z with
      | nil => simp [vadd]
      | cons c z =>
        have := ih (y := y) z (by simpa using h)
        simp only [vadd] at this
        simp only [vadd, List.zipWith_cons_cons, vdot_cons, this, star_add]
        ring

theorem vdot_vadd_right {x y : List R} (z : List R) (h : x.length = y.length) :
    vdot z (vadd x y) = vdot z x + vdot z y := by
  rw [← star_vdot, vdot_vadd_left z h, star_add, star_vdot, star_vdot]

theorem vdot_vneg_left (x z : List R) : vdot (vneg x) z = - vdot x z := by
  induction x generalizing z with
  | nil => simp [vneg]
  | cons a x ih =>
    cases z with
    | nil => simp [vneg]
    | cons c z =>
      have := ih z
      simp only [vneg] at this
      simp only [vneg, List.map_cons, vdot_cons, this, star_neg]
      ring

theorem vdot_vneg_right (x z : List R) : vdot z (vneg x) = - vdot z x := by
  rw [← star_vdot, vdot_vneg_left, star_neg, star_vdot]

theorem vsub_eq (x y : List R) : vsub x y = vadd x (vneg y) := by
  simp [vsub, vadd, vneg, List.zipWith_map_right, sub_eq_add_neg]

theorem vdot_vsub_left {x y : List R} (z : List R) (h : x.length = y.length) :
    vdot (vsub x y) z = vdot x z - vdot y z := by
  rw [vsub_eq, vdot_vadd_left z (by simpa using h), vdot_vneg_left, sub_eq_add_neg]

theorem vdot_vsub_right {x y : List R} (z : List R) (h : x.length = y.length) :
    vdot z (vsub x y) = vdot z x - vdot z y := by
  rw [vsub_eq, vdot_vadd_right z (by simpa using h), vdot_vneg_right, sub_eq_add_neg]

theorem vdot_smul_left (a : R) (x z : List R) : vdot (smul a x) z = star a * vdot x z := by
  induction x generalizing z with
  | nil => simp [smul]
  | cons b x ih =>
    cases z with
    | nil => simp [smul]
    | cons c z =>
      have := ih z
      simp only [smul] at this
      simp only [smul, List.map_cons, vdot_cons, this, star_mul]
      ring

theorem vdot_smul_right (a : R) (x z : List R) : vdot z (smul a x) = a * vdot z x := by
  rw [← star_vdot, vdot_smul_left, star_mul, star_star, star_vdot, mul_comm]

theorem vdot_replicate_zero_left (n : ℕ) (z : List R) : vdot (List.replicate n 0) z = 0 := by
  induction n generalizing z with
  | zero => simp
  | succ n ih => cases z <;> simp [List.replicate_succ, ih]

theorem vdot_replicate_zero_right (n : ℕ) (z : List R) : vdot z (List.replicate n 0) = 0 := by
  rw [← star_vdot, vdot_replicate_zero_left, star_zero]

/-- The inner product as an indexed sum. -/
theorem vdot_eq_sum {n : ℕ} {x y : List R} (hx : x.length = n) (hy : y.length = n) :
    vdot x y = ∑ i ∈ Finset.range n, star (x.getD i 0) * y.getD i 0 := by
  induction n generalizing x y with
  | zero =>
    have : x = [] := List.length_eq_zero_iff.mp hx
    simp [this]
  | succ n ih =>
    match x, y, hx, hy with
    | a :: x, b :: y, hx, hy =>
      rw [Finset.sum_range_succ', vdot_cons, ih (x := x) (y := y) (by simpa using hx) (by simpa using hy)]
      simp [add_comm]

/-- Two arrays of the same length are equal when they have the same inner products with everything. -/
theorem ext_vdot {n : ℕ} {x y : List R} (hx : x.length = n) (hy : y.length = n)
    (h : ∀ z : List R, z.length = n → vdot z x = vdot z y) : x = y := by
  apply List.ext_getElem (by rw [hx, hy])
  intro i h1 h2
  have := h ((List.range n).map fun j => if j = i then 1 else 0) (by simp)
  rw [vdot_eq_sum (n := n) (by simp) hx, vdot_eq_sum (n := n) (by simp) hy] at this
  have hi : i < n := hx ▸ h1
  have key : ∀ w : List R, w.length = n → ∑ j ∈ Finset.range n,
      star (((List.range n).map fun j => if j = i then (1:R) else 0).getD j 0) * w.getD j 0
      = w.getD i 0 := by
    intro w hw
    rw [Finset.sum_eq_single i]
    · simp [List.getD, hi]
    · intro j hj hne
      simp [List.getD, Finset.mem_range.mp hj, hne]
    · intro hni
      exact absurd (Finset.mem_range.mpr hi) hni
  rw [key x hx, key y hy] at this
  simpa [List.getD, h1, h2] using this

theorem ext_vdot_left {n : ℕ} {x y : List R} (hx : x.length = n) (hy : y.length = n)
    (h : ∀ z : List R, z.length = n → vdot x z = vdot y z) : x = y :=
  ext_vdot hx hy fun z hz => by rw [← star_vdot, h z hz, star_vdot]

/-- Extensionality through `getD`. -/
theorem ext_getD {n : ℕ} {x y : List R} (hx : x.length = n) (hy : y.length = n)
    (h : ∀ i, i < n → x.getD i 0 = y.getD i 0) : x = y := by
  apply List.ext_getElem (by rw [hx, hy])
  intro i h1 h2
  have := h i (hx ▸ h1)
  simpa [List.getD, h1, h2] using this

end Verif.Lop
