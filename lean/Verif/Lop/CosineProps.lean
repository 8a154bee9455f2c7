import Verif.Lop.FourierProps
import Mathlib.Algebra.BigOperators.Field

set_option autoImplicit false
/-!
# `cosine_basis` is the orthonormal DCT-II basis (C17)
-/
noncomputable section
namespace Verif.Lop
open Complex (I)

/-- The orthonormal DCT-II matrix, the specification of `cosine_basis`. -/
def dctEntry (n i k : ℕ) : ℝ :=
  (if k = 0 then 1 / Real.sqrt n else Real.sqrt (2 / n)) * Real.cos (Real.pi * k * (2 * i + 1) / (2 * n))

theorem sum_cos_odd (n : ℕ) (θ : ℝ) :
    (∑ i ∈ Finset.range n, Real.cos ((2 * i + 1) * θ)) * (2 * Real.sin θ) = Real.sin (2 * n * θ) := by
  induction n with
  | zero => simp
  | succ n ih =>
    rw [Finset.sum_range_succ, add_mul, ih]
    have e1 : (2 * ((n + 1 : ℕ) : ℝ) * θ) = (2 * n + 1) * θ + θ := by push_cast; ring
    have e2 : (2 * (n : ℝ) * θ) = (2 * n + 1) * θ - θ := by ring
    rw [e1, e2, Real.sin_add, Real.sin_sub]; ring

theorem sum_cos_int (n : ℕ) (m : ℤ) (h0 : m ≠ 0) (h1 : |m| < 2 * n) :
    ∑ i ∈ Finset.range n, Real.cos (Real.pi * m * (2 * i + 1) / (2 * n)) = 0 := by
  have hn : (0 : ℝ) < n := by
    rcases Nat.eq_zero_or_pos n with h | h
    · subst h; simp at h1; exact absurd h1 (not_lt.mpr (abs_nonneg m))
    · exact_mod_cast h
  have h := sum_cos_odd n (Real.pi * m / (2 * n))
  have e : Real.sin (2 * n * (Real.pi * m / (2 * n))) = 0 := by
    have : 2 * n * (Real.pi * m / (2 * n)) = m * Real.pi := by field_simp
    rw [this, Real.sin_int_mul_pi]
  rw [e] at h
  have hs : Real.sin (Real.pi * m / (2 * n)) ≠ 0 := by
    intro hs
    rw [Real.sin_eq_zero_iff] at hs
    obtain ⟨w, hw⟩ := hs
    have h2 : (m : ℝ) = 2 * n * w := by
      field_simp at hw
      nlinarith [Real.pi_pos, hw]
    have h3 : m = 2 * n * w := by exact_mod_cast h2
    have hw0 : w ≠ 0 := by rintro rfl; simp at h3; exact h0 h3
    have h5 : 1 ≤ |w| := Int.one_le_abs hw0
    have h6 : |m| = 2 * n * |w| := by
      rw [h3, abs_mul, abs_of_nonneg (by positivity)]
    nlinarith
  have h4 := (mul_eq_zero.mp h).resolve_right (mul_ne_zero two_ne_zero hs)
  rw [← h4]
  refine Finset.sum_congr rfl fun i _ => ?_
  congr 1; ring

theorem dct_orth (n k l : ℕ) (hk : k < n) (hl : l < n) :
    ∑ i ∈ Finset.range n, dctEntry n i k * dctEntry n i l = if k = l then 1 else 0 := by
  have hn : (0 : ℝ) < n := by
    have : 0 < n := by omega
    exact_mod_cast this
  have hc : ∑ i ∈ Finset.range n, Real.cos (Real.pi * k * (2 * i + 1) / (2 * n)) *
      Real.cos (Real.pi * l * (2 * i + 1) / (2 * n)) =
      (∑ i ∈ Finset.range n, Real.cos (Real.pi * ((k - l : ℤ) : ℝ) * (2 * i + 1) / (2 * n)) +
       ∑ i ∈ Finset.range n, Real.cos (Real.pi * ((k + l : ℤ) : ℝ) * (2 * i + 1) / (2 * n))) / 2 := by
    rw [← Finset.sum_add_distrib, Finset.sum_div]
    refine Finset.sum_congr rfl fun i _ => ?_
    have e1 : Real.pi * ((k - l : ℤ) : ℝ) * (2 * i + 1) / (2 * n) =
        Real.pi * k * (2 * i + 1) / (2 * n) - Real.pi * l * (2 * i + 1) / (2 * n) := by push_cast; ring
    have e2 : Real.pi * ((k + l : ℤ) : ℝ) * (2 * i + 1) / (2 * n) =
        Real.pi * k * (2 * i + 1) / (2 * n) + Real.pi * l * (2 * i + 1) / (2 * n) := by push_cast; ring
    rw [e1, e2, Real.cos_sub, Real.cos_add]; ring
  have hfac : ∀ i, dctEntry n i k * dctEntry n i l =
      ((if k = 0 then 1 / Real.sqrt n else Real.sqrt (2 / n)) * (if l = 0 then 1 / Real.sqrt n else Real.sqrt (2 / n))) *
      (Real.cos (Real.pi * k * (2 * i + 1) / (2 * n)) * Real.cos (Real.pi * l * (2 * i + 1) / (2 * n))) := by
    intro i; simp only [dctEntry]; ring
  simp only [hfac, ← Finset.mul_sum, hc]
  by_cases h : k = l
  · subst h
    rw [if_pos rfl]
    have e0 : ∑ i ∈ Finset.range n, Real.cos (Real.pi * ((k - k : ℤ) : ℝ) * (2 * i + 1) / (2 * n)) = n := by simp
    rw [e0]
    by_cases hk0 : k = 0
    · subst hk0
      have hs : Real.sqrt n * Real.sqrt n = n := Real.mul_self_sqrt hn.le
      have hs0 : Real.sqrt n ≠ 0 := (Real.sqrt_pos.mpr hn).ne'
      simp only [if_true]
      simp only [Nat.cast_zero, add_zero, Int.cast_zero, mul_zero, zero_mul, zero_div, Real.cos_zero,
        Finset.sum_const, Finset.card_range, nsmul_eq_mul, mul_one]
      rw [div_mul_div_comm, hs]; field_simp; norm_num
    · rw [sum_cos_int n (k + k) (by omega) (by rw [abs_of_nonneg (by omega)]; omega), if_neg hk0,
        Real.mul_self_sqrt (by positivity)]
      field_simp; ring
  · rw [if_neg h, sum_cos_int n (k - l) (by omega) (by rw [abs_lt]; constructor <;> omega),
      sum_cos_int n (k + l) (by omega) (by rw [abs_of_nonneg (by omega)]; omega)]
    simp

theorem dct_orth' (n i j : ℕ) (hi : i < n) (hj : j < n) :
    ∑ k ∈ Finset.range n, dctEntry n i k * dctEntry n j k = if i = j then 1 else 0 := by
  let M : Matrix (Fin n) (Fin n) ℝ := Matrix.of fun i k => dctEntry n i k
  have h1 : M.transpose * M = 1 := by
    ext k l
    rw [Matrix.mul_apply, Matrix.one_apply]
    have := dct_orth n k l k.2 l.2
    rw [Finset.sum_range] at this
    simp only [Matrix.transpose_apply, M, Matrix.of_apply]
    rw [this]
    simp [Fin.ext_iff]
  have h2 := mul_eq_one_comm.mp h1
  have h3 := congrFun (congrFun h2 ⟨i, hi⟩) ⟨j, hj⟩
  rw [Matrix.mul_apply, Matrix.one_apply] at h3
  rw [Finset.sum_range]
  simpa [M, Fin.ext_iff] using h3

/-- Sum of an even `2n`-periodic spectrum. -/
theorem sum_even (n : ℕ) (hn : 0 < n) (h : ℕ → ℝ) (hs : ∀ k, 0 < k → k < n → h (2 * n - k) = h k) (h0 : h n = 0) :
    ∑ k ∈ Finset.range (2 * n), h k = ∑ k ∈ Finset.range n, (if k = 0 then 1 else 2) * h k := by
  obtain ⟨p, rfl⟩ : ∃ p, n = p + 1 := ⟨n - 1, by omega⟩
  rw [two_mul, Finset.sum_range_add, Finset.sum_range_succ' (fun k => h (p + 1 + k)), Nat.add_zero, h0, add_zero]
  have e : ∑ j ∈ Finset.range p, h (p + 1 + (j + 1)) = ∑ j ∈ Finset.range p, h (j + 1) := by
    rw [← Finset.sum_range_reflect (fun j => h (j + 1)) p]
    refine Finset.sum_congr rfl fun j hj => ?_
    have := Finset.mem_range.mp hj
    rw [← hs (p - 1 - j + 1) (by omega) (by omega)]
    congr 1; omega
  rw [e, Finset.sum_range_succ', Finset.sum_range_succ' (fun k => (if k = 0 then (1 : ℝ) else 2) * h k)]
  simp only [Nat.add_eq_zero_iff, one_ne_zero, and_false, if_false, if_true, one_mul, ← Finset.mul_sum]
  ring

theorem two_sqrt (n : ℕ) (hn : 0 < n) : Real.sqrt (2 * n) * (1 / (2 * n)) * 2 = Real.sqrt (2 / n) ∧
    Real.sqrt (2 * n) * Real.sqrt 2 * (1 / (2 * n)) = 1 / Real.sqrt n ∧
    2 / Real.sqrt (2 * n) = Real.sqrt (2 / n) ∧
    1 / Real.sqrt 2 / Real.sqrt (2 * n) * 2 = 1 / Real.sqrt n := by
  have hn' : (0 : ℝ) < n := by exact_mod_cast hn
  have h2 : Real.sqrt 2 * Real.sqrt 2 = 2 := Real.mul_self_sqrt (by norm_num)
  have hs : Real.sqrt n * Real.sqrt n = n := Real.mul_self_sqrt hn'.le
  have e2 : Real.sqrt 2 ≠ 0 := (Real.sqrt_pos.mpr (by norm_num)).ne'
  have en : Real.sqrt n ≠ 0 := (Real.sqrt_pos.mpr hn').ne'
  rw [Real.sqrt_mul (by norm_num), Real.sqrt_div (by norm_num)]
  refine ⟨?_, ?_, ?_, ?_⟩
  · field_simp; rw [pow_two, hs]
  · field_simp; rw [pow_two, pow_two, h2, hs]
  · field_simp; rw [pow_two, h2]
  · field_simp; rw [pow_two, h2]

theorem ent_cosine_times (n : ℕ) (hn : 0 < n) (x : List ℝ) (hx : x.length = n) (i : ℕ) (hi : i < n) :
    ent ((cosineBasis n).times x) i = ∑ k ∈ Finset.range n, dctEntry n i k * ent x k := by
  have hn' : (n : ℝ) ≠ 0 := by exact_mod_cast hn.ne'
  obtain ⟨t1, t2, -, -⟩ := two_sqrt n hn
  simp only [cosineBasis]
  set X := vmul (phiF n) (toC x) ++ [0] with hX
  have hphi : (phiF n).length = n := by simp [phiF]
  have hxl : (toC x).length = n := by simp [toC, hx]
  have hul : (vmul (phiF n) (toC x)).length = n := by simp [hphi, hxl]
  have hXl : X.length = n + 1 := by simp [hX, hphi, hxl]
  have hXn : ent X n = 0 := by
    rw [hX, ent_append, if_neg (by omega), hul, Nat.sub_self, ent_cons_zero]
  have hXk : ∀ k, k < n → ent X k = cis (Real.pi * k / (2 * n)) *
      ((Real.sqrt (2 * n) * (if k = 0 then Real.sqrt 2 else 1) * ent x k : ℝ) : ℂ) := by
    intro k hk
    rw [hX, ent_append, if_pos (by omega), ent_vmul, ent_toC, phiF, ent_tab _ hk]
    split <;> push_cast <;> ring
  rw [hXl, Nat.add_sub_cancel, ent_take hi, irfft, ent_map_re, ent_idft _ (by omega)]
  have e1 : (1 / ((2 * n : ℕ) : ℂ)) = ((1 / (2 * n) : ℝ) : ℂ) := by push_cast; rfl
  rw [e1, Complex.re_ofReal_mul, Complex.re_sum]
  set h : ℕ → ℝ := fun k => (cis (2 * Real.pi * (i * k) / (2 * n : ℕ)) * ent (hermExt (2 * n) X) k).re with hh
  have hsmall : ∀ k, k ≤ n → h k = (cis (2 * Real.pi * (i * k) / (2 * n : ℕ)) * ent X k).re := by
    intro k hk
    simp only [hh]
    rw [hermExt, ent_tab _ (by omega), if_pos (by omega)]
  rw [sum_even n hn h ?_ ?_, Finset.mul_sum]
  · refine Finset.sum_congr rfl fun k hk => ?_
    have hk' := Finset.mem_range.mp hk
    rw [hsmall k hk'.le, hXk k hk', ← mul_assoc (cis _) (cis _), ← cis_add, Complex.re_mul_ofReal, cis_re, dctEntry]
    have e2 : 2 * Real.pi * (i * k) / (2 * n : ℕ) + Real.pi * k / (2 * n) = Real.pi * k * (2 * i + 1) / (2 * n) := by
      push_cast; field_simp
    rw [e2]
    by_cases h0 : k = 0
    · rw [if_pos h0, if_pos h0, if_pos h0, ← t2]; ring
    · rw [if_neg h0, if_neg h0, if_neg h0, ← t1]; ring
  · intro k h0 hk
    rw [hsmall k hk.le]
    simp only [hh]
    rw [hermExt, ent_tab _ (by omega), if_neg (by omega)]
    have e3 : 2 * n - (2 * n - k) = k := by omega
    rw [e3]
    have e4 : cis (2 * Real.pi * (i * ((2 * n - k : ℕ) : ℝ)) / (2 * n : ℕ)) = star (cis (2 * Real.pi * (i * k) / (2 * n : ℕ))) := by
      rw [star_cis]
      have : 2 * Real.pi * (i * ((2 * n - k : ℕ) : ℝ)) / (2 * n : ℕ) =
          -(2 * Real.pi * (i * k) / (2 * n : ℕ)) + 2 * Real.pi * ((i : ℤ) : ℝ) := by
        rw [Nat.cast_sub (by omega)]; push_cast; field_simp; ring
      rw [this, cis_add, cis_int, mul_one]
    rw [e4, ← star_mul']
    simp
  · rw [hsmall n le_rfl, hXn]; simp

theorem ent_cosine_trans (n : ℕ) (hn : 0 < n) (x : List ℝ) (hx : x.length = n) (k : ℕ) (hk : k < n) :
    ent ((cosineBasis n).trans x) k = ∑ i ∈ Finset.range n, dctEntry n i k * ent x i := by
  have hn' : (n : ℝ) ≠ 0 := by exact_mod_cast hn.ne'
  obtain ⟨-, -, t3, t4⟩ := two_sqrt n hn
  simp only [cosineBasis]
  have hl : (x ++ x.reverse).length = 2 * n := by simp [hx]; ring
  rw [hl, ent_map_re, ent_vmul, rfft, ent_take hk, ent_take (by omega), ent_dft _ (by omega), two_mul n,
    Finset.sum_range_add, ← two_mul n]
  have ea : ∀ j ∈ Finset.range n, cis (-(2 * Real.pi * (k * j) / (2 * n : ℕ))) * ent (toC (x ++ x.reverse)) j =
      cis (-(2 * Real.pi * (k * j) / (2 * n : ℕ))) * (ent x j : ℝ) := by
    intro j hj
    have hj' := Finset.mem_range.mp hj
    rw [ent_toC, ent_append, if_pos (by omega)]
  have eb : ∑ j ∈ Finset.range n, cis (-(2 * Real.pi * (k * ((n + j : ℕ) : ℝ)) / (2 * n : ℕ))) * ent (toC (x ++ x.reverse)) (n + j) =
      ∑ j ∈ Finset.range n, cis (Real.pi * k * (j + 1) / n) * (ent x j : ℝ) := by
    rw [← Finset.sum_range_reflect]
    refine Finset.sum_congr rfl fun j hj => ?_
    have hj' := Finset.mem_range.mp hj
    rw [ent_toC, ent_append, if_neg (by omega), hx, ent_reverse (by omega), hx]
    have e5 : n - 1 - (n + (n - 1 - j) - n) = j := by omega
    rw [e5]
    congr 1
    have : -(2 * Real.pi * (k * ((n + (n - 1 - j) : ℕ) : ℝ)) / (2 * n : ℕ)) =
        Real.pi * k * (j + 1) / n + 2 * Real.pi * ((-k : ℤ) : ℝ) := by
      have : ((n + (n - 1 - j) : ℕ) : ℝ) = 2 * n - 1 - j := by
        have h1 : n + (n - 1 - j) = 2 * n - 1 - j := by omega
        rw [h1, Nat.cast_sub (by omega), Nat.cast_sub (by omega)]; push_cast; ring
      rw [this]; push_cast; field_simp; ring
    rw [this, cis_add, cis_int, mul_one]
  rw [Finset.sum_congr rfl ea, eb, ← Finset.sum_add_distrib, Finset.mul_sum, Complex.re_sum]
  refine Finset.sum_congr rfl fun j _ => ?_
  have hphi : ent (phiA n) k = cis (-(Real.pi * k / (2 * n))) *
      (((if k = 0 then 1 / Real.sqrt 2 else 1) / Real.sqrt (2 * n) : ℝ) : ℂ) := by
    rw [phiA, ent_tab _ hk]
    split <;> push_cast <;> ring
  set θ := Real.pi * k * (2 * j + 1) / (2 * n) with hθ
  set w : ℝ := (if k = 0 then 1 / Real.sqrt 2 else 1) / Real.sqrt (2 * n) with hw
  have e6 : ent (phiA n) k * (cis (-(2 * Real.pi * (k * j) / (2 * n : ℕ))) * (ent x j : ℝ) +
      cis (Real.pi * k * (j + 1) / n) * (ent x j : ℝ)) = (cis (-θ) + cis θ) * ((w * ent x j : ℝ) : ℂ) := by
    rw [hphi]
    have e7 : cis (-θ) = cis (-(Real.pi * k / (2 * n))) * cis (-(2 * Real.pi * (k * j) / (2 * n : ℕ))) := by
      rw [← cis_add]; congr 1; rw [hθ]; push_cast; field_simp; ring
    have e8 : cis θ = cis (-(Real.pi * k / (2 * n))) * cis (Real.pi * k * (j + 1) / n) := by
      rw [← cis_add]; congr 1; rw [hθ]; field_simp; ring
    rw [e7, e8]; push_cast; ring
  rw [e6, Complex.re_mul_ofReal, Complex.add_re, cis_re, cis_re, Real.cos_neg, dctEntry, ← hθ, hw]
  by_cases h0 : k = 0
  · rw [if_pos h0, if_pos h0, ← t4]; ring
  · rw [if_neg h0, if_neg h0, ← t3]; ring

/-- **C17** `cosine_basis(n)` is the orthonormal DCT-II basis: `times` and `trans` multiply with the DCT-II matrix
and its transpose, they invert each other, preserve inner products and form an adjoint pair. -/
theorem c17_cosine_orthonormal (n : ℕ) (hn : 0 < n) :
    (∀ x, x.length = n → ∀ i, i < n →
      ent ((cosineBasis n).times x) i = ∑ k ∈ Finset.range n, dctEntry n i k * ent x k) ∧
    AdjointPair n n (cosineBasis n).times (cosineBasis n).trans ∧
    (∀ x, x.length = n → (cosineBasis n).trans ((cosineBasis n).times x) = x) ∧
    (∀ y, y.length = n → (cosineBasis n).times ((cosineBasis n).trans y) = y) ∧
    (∀ x y, x.length = n → y.length = n →
      vdot ((cosineBasis n).times x) ((cosineBasis n).times y) = vdot x y) := by
  have l1 : ∀ x : List ℝ, x.length = n → ((cosineBasis n).times x).length = n := by
    intro x hx; simp [cosineBasis, irfft, phiF, toC, hx]; omega
  have l2 : ∀ x : List ℝ, x.length = n → ((cosineBasis n).trans x).length = n := by
    intro x hx; simp [cosineBasis, rfft, phiA, hx]; omega
  have hp : AdjointPair n n (cosineBasis n).times (cosineBasis n).trans := by
    refine AdjointPair.of_entries (fun i k => dctEntry n i k) l1 l2 ?_ ?_
    · intro x hx i hi; exact ent_cosine_times n hn x hx i hi
    · intro y hy k hk
      rw [show star (R := ℝ) = id from rfl]
      exact ent_cosine_trans n hn y hy k hk
  have h1 : ∀ x, x.length = n → (cosineBasis n).trans ((cosineBasis n).times x) = x := by
    intro x hx
    refine ext_getD (n := n) (l2 _ (l1 x hx)) hx fun k hk => ?_
    change ent _ k = ent _ k
    rw [ent_cosine_trans n hn _ (l1 x hx) k hk]
    have e : ∀ i ∈ Finset.range n, dctEntry n i k * ent ((cosineBasis n).times x) i =
        ∑ l ∈ Finset.range n, dctEntry n i k * dctEntry n i l * ent x l := by
      intro i hi
      rw [ent_cosine_times n hn x hx i (Finset.mem_range.mp hi), Finset.mul_sum]
      exact Finset.sum_congr rfl fun _ _ => by ring
    rw [Finset.sum_congr rfl e, Finset.sum_comm]
    have e2 : ∀ l ∈ Finset.range n, ∑ i ∈ Finset.range n, dctEntry n i k * dctEntry n i l * ent x l =
        if k = l then ent x l else 0 := by
      intro l hl
      rw [← Finset.sum_mul, dct_orth n k l hk (Finset.mem_range.mp hl)]
      split <;> simp
    rw [Finset.sum_congr rfl e2, Finset.sum_ite_eq, if_pos (Finset.mem_range.mpr hk)]
  have h2 : ∀ y, y.length = n → (cosineBasis n).times ((cosineBasis n).trans y) = y := by
    intro y hy
    refine ext_getD (n := n) (l1 _ (l2 y hy)) hy fun i hi => ?_
    change ent _ i = ent _ i
    rw [ent_cosine_times n hn _ (l2 y hy) i hi]
    have e : ∀ k ∈ Finset.range n, dctEntry n i k * ent ((cosineBasis n).trans y) k =
        ∑ j ∈ Finset.range n, dctEntry n i k * dctEntry n j k * ent y j := by
      intro k hk
      rw [ent_cosine_trans n hn y hy k (Finset.mem_range.mp hk), Finset.mul_sum]
      exact Finset.sum_congr rfl fun _ _ => by ring
    rw [Finset.sum_congr rfl e, Finset.sum_comm]
    have e2 : ∀ j ∈ Finset.range n, ∑ k ∈ Finset.range n, dctEntry n i k * dctEntry n j k * ent y j =
        if i = j then ent y j else 0 := by
      intro j hj
      rw [← Finset.sum_mul, dct_orth' n i j hi (Finset.mem_range.mp hj)]
      split <;> simp
    rw [Finset.sum_congr rfl e2, Finset.sum_ite_eq, if_pos (Finset.mem_range.mpr hi)]
  refine ⟨fun x hx i hi => ent_cosine_times n hn x hx i hi, hp, h1, h2, fun x y hx hy => ?_⟩
  rw [hp.adjoint x _ hx (hp.times_length y hy), h1 y hy]

example : ent ((cosineBasis 4).times [2, 0, 0, 0]) 3 = 1 := by
  rw [(c17_cosine_orthonormal 4 (by norm_num)).1 _ rfl 3 (by norm_num)]
  have : Real.sqrt 4 = 2 := by
    rw [show (4 : ℝ) = 2 ^ 2 by norm_num, Real.sqrt_sq (by norm_num)]
  simp [Finset.sum_range_succ, ent, dctEntry, this]

/-- **C17** the explicit dictionary `dict.cosine_basis(N)` is the transpose of the orthonormal DCT-II matrix, hence
has orthonormal rows and columns. -/
theorem c17_dict_cosine (N : ℕ) (hN : 0 < N) :
    (∀ i k, i < N → k < N → dictCosine N k i = dctEntry N i k) ∧
    (∀ k l, k < N → l < N →
      ∑ i ∈ Finset.range N, dictCosine N k i * dictCosine N l i = if k = l then 1 else 0) ∧
    (∀ i j, i < N → j < N →
      ∑ k ∈ Finset.range N, dictCosine N k i * dictCosine N k j = if i = j then 1 else 0) := by
  have hN' : (0 : ℝ) < N := by exact_mod_cast hN
  have key : ∀ i k, i < N → k < N → dictCosine N k i = dctEntry N i k := by
    intro i k hi hk
    set w : ℝ := if k = 0 then 1 / Real.sqrt N else Real.sqrt (2 / N) with hw
    have hwpos : 0 < w := by
      rw [hw]; split
      · exact div_pos one_pos (Real.sqrt_pos.mpr hN')
      · exact Real.sqrt_pos.mpr (by positivity)
    have hD : ∀ t : ℕ, 2 * Real.cos (Real.pi / (2 * N) * (2 * t + 1) * k) = 2 / w * dctEntry N t k := by
      intro t
      rw [dctEntry, ← hw]
      have : Real.pi / (2 * N) * (2 * t + 1) * k = Real.pi * k * (2 * t + 1) / (2 * N) := by ring
      rw [this]; field_simp
    have hsum : ∑ t ∈ Finset.range N, (2 * Real.cos (Real.pi / (2 * N) * (2 * t + 1) * k)) ^ 2 = (2 / w) ^ 2 := by
      have h1 := dct_orth N k k hk hk
      rw [if_pos rfl] at h1
      calc _ = ∑ t ∈ Finset.range N, (2 / w) ^ 2 * (dctEntry N t k * dctEntry N t k) := by
            refine Finset.sum_congr rfl fun t _ => ?_
            rw [hD]; ring
        _ = _ := by rw [← Finset.mul_sum, h1, mul_one]
    simp only [dictCosine]
    rw [hsum, Real.sqrt_sq (by positivity), hD]
    field_simp
  refine ⟨key, fun k l hk hl => ?_, fun i j hi hj => ?_⟩
  · rw [← dct_orth N k l hk hl]
    refine Finset.sum_congr rfl fun i hi => ?_
    rw [key i k (Finset.mem_range.mp hi) hk, key i l (Finset.mem_range.mp hi) hl]
  · rw [← dct_orth' N i j hi hj]
    refine Finset.sum_congr rfl fun k hk => ?_
    rw [key i k hi (Finset.mem_range.mp hk), key j k hj (Finset.mem_range.mp hk)]

example := c17_dict_cosine 5 (by norm_num)

end Verif.Lop
