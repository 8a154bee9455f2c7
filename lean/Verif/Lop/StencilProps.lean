import Verif.Lop.StencilModel
import Verif.Lop.BasicProps
import Mathlib.Analysis.Complex.Basic
import Mathlib.Tactic.IntervalCases

set_option autoImplicit false
/-!
# Properties of convolution, filters, derivatives and total variation (C05, C06, C07, C18)
-/
set_option linter.unusedSectionVars false
namespace Verif.Lop
variable {R : Type*} [CommRing R] [StarRing R]

/-- Adjointness from a matrix of entries. -/
theorem AdjointPair.of_entries {m n : ℕ} {f g : List R → List R} (a : ℕ → ℕ → R)
    (hf : ∀ x, x.length = n → (f x).length = m) (hg : ∀ y, y.length = m → (g y).length = n)
    (h1 : ∀ x, x.length = n → ∀ i, i < m → ent (f x) i = ∑ j ∈ Finset.range n, a i j * ent x j)
    (h2 : ∀ y, y.length = m → ∀ j, j < n →
      ent (g y) j = ∑ i ∈ Finset.range m, star (a i j) * ent y i) : AdjointPair m n f g := by
  refine AdjointPair.of_sum hf hg ?_
  intro x y hx hy
  have e1 : ∀ i ∈ Finset.range m, star (ent (f x) i) * ent y i =
      ∑ j ∈ Finset.range n, star (a i j) * star (ent x j) * ent y i := by
    intro i hi
    rw [h1 x hx i (Finset.mem_range.mp hi), star_sum, Finset.sum_mul]
    simp
  have e2 : ∀ j ∈ Finset.range n, star (ent x j) * ent (g y) j =
      ∑ i ∈ Finset.range m, star (a i j) * star (ent x j) * ent y i := by
    intro j hj
    rw [h2 y hy j (Finset.mem_range.mp hj), Finset.mul_sum]
    refine Finset.sum_congr rfl fun i _ => ?_
    ring
  rw [Finset.sum_congr rfl e1, Finset.sum_congr rfl e2, Finset.sum_comm]

/-- `f` extended by zero to all integers. -/
def zext (f : List R) (z : ℤ) : R := if 0 ≤ z then ent f z.toNat else 0

theorem zext_natCast (f : List R) (k : ℕ) : zext f k = ent f k := by simp [zext]

theorem zext_of_lt {f : List R} {z : ℤ} (h : z < 0) : zext f z = 0 := by
  simp [zext, not_le.mpr h]

theorem zext_of_ge {f : List R} {z : ℤ} (h : (f.length : ℤ) ≤ z) : zext f z = 0 := by
  unfold zext
  split
  · exact ent_eq_zero (by omega)
  · rfl

theorem zext_vconj (f : List R) (z : ℤ) : zext (vconj f) z = star (zext f z) := by
  unfold zext
  split
  · exact ent_vconj
  · simp

theorem zext_reverse (f : List R) (z : ℤ) : zext f.reverse z = zext f (f.length - 1 - z) := by
  by_cases h0 : z < 0
  · rw [zext_of_lt h0, zext_of_ge (by omega)]
  · by_cases h1 : (f.length : ℤ) ≤ z
    · rw [zext_of_ge (by simpa using h1), zext_of_lt (by omega)]
    · obtain ⟨k, rfl⟩ := Int.eq_ofNat_of_zero_le (not_lt.mp h0)
      have hk : k < f.length := by omega
      have : (f.length : ℤ) - 1 - k = ((f.length - 1 - k : ℕ) : ℤ) := by omega
      rw [this, zext_natCast, zext_natCast, ent_reverse hk]

theorem ent_corr {p q n t : ℕ} {x f : List R} (hx : x.length = n)
    (ht : t < n + p + q + 1 - f.length) :
    ent (corr p q x f) t = ∑ j ∈ Finset.range n, zext f ((j : ℤ) + p - t) * ent x j := by
  subst hx
  unfold corr
  rw [ent_tab _ ht]
  have h1 : ∀ k ∈ Finset.range f.length, ent f k * ent (pad p q x) (t + k) =
      ∑ j ∈ Finset.range x.length, if t + k = p + j then ent f k * ent x j else 0 := by
    intro k _
    rw [ent_pad]
    split
    · rename_i h
      rw [Finset.sum_eq_single (t + k - p)]
      · rw [if_pos (by omega)]
      · intro j _ hj
        rw [if_neg (by omega)]
      · intro hn; exact absurd (Finset.mem_range.mpr (by omega)) hn
    · rename_i h
      rw [mul_zero, Finset.sum_eq_zero]
      intro j hj
      rw [if_neg]
      have := Finset.mem_range.mp hj
      omega
  rw [Finset.sum_congr rfl h1, Finset.sum_comm]
  refine Finset.sum_congr rfl fun j hj => ?_
  by_cases h0 : (j : ℤ) + p - t < 0
  · rw [zext_of_lt h0, zero_mul, Finset.sum_eq_zero]
    intro k _
    rw [if_neg (by omega)]
  · obtain ⟨k, hk⟩ := Int.eq_ofNat_of_zero_le (not_lt.mp h0)
    rw [hk, zext_natCast]
    by_cases hkf : k < f.length
    · rw [Finset.sum_eq_single k]
      · rw [if_pos (by omega)]
      · intro l _ hl
        rw [if_neg (by omega)]
      · intro hn; exact absurd (Finset.mem_range.mpr hkf) hn
    · rw [ent_eq_zero (x := f) (by omega), zero_mul, Finset.sum_eq_zero]
      intro l hl
      have := Finset.mem_range.mp hl
      rw [if_neg (by omega)]

@[simp] theorem length_corr (p q : ℕ) (x f : List R) :
    (corr p q x f).length = x.length + p + q + 1 - f.length := by simp [corr]

/-- The full linear convolution of `h` and `x`, entry `t` (independent specification). -/
def fullConv (h x : List R) (t : ℤ) : R :=
  ∑ j ∈ Finset.range x.length, zext h (t - j) * ent x j

/-- It is the coefficient of the product of the two polynomials: symmetric in its arguments. -/
theorem fullConv_comm (h x : List R) (t : ℕ) : fullConv h x t = fullConv x h t := by
  have key : ∀ u v : List R, fullConv u v t =
      ∑ j ∈ Finset.range v.length, ∑ k ∈ Finset.range u.length, if k + j = t then ent u k * ent v j else 0 := by
    intro u v
    unfold fullConv
    refine Finset.sum_congr rfl fun j _ => ?_
    by_cases h0 : (t : ℤ) - j < 0
    · rw [zext_of_lt h0, zero_mul, Finset.sum_eq_zero]
      intro k _; rw [if_neg (by omega)]
    · obtain ⟨k, hk⟩ := Int.eq_ofNat_of_zero_le (not_lt.mp h0)
      rw [hk, zext_natCast]
      by_cases hku : k < u.length
      · rw [Finset.sum_eq_single k]
        · rw [if_pos (by omega)]
        · intro l _ hl; rw [if_neg (by omega)]
        · intro hn; exact absurd (Finset.mem_range.mpr hku) hn
      · rw [ent_eq_zero (by omega), zero_mul, Finset.sum_eq_zero]
        intro l hl
        have := Finset.mem_range.mp hl
        rw [if_neg (by omega)]
  rw [key, key, Finset.sum_comm]
  refine Finset.sum_congr rfl fun k _ => Finset.sum_congr rfl fun j _ => ?_
  rw [Nat.add_comm, mul_comm]

/-! ## C07 -/

/-- **C07** `convolve(n, h, offset)` is accepted exactly for `n > 0` and `0 ≤ offset < len(h)`; entry
`i` of `times(x)` is entry `offset + i` of the full linear convolution, and `trans` is the exact adjoint. -/
theorem c07_convolve (n : ℕ) (h : List R) (offset : ℤ) :
    (¬ (0 < n ∧ 0 ≤ offset ∧ offset < h.length) → convolve n h offset = none) ∧
    (0 < n ∧ 0 ≤ offset ∧ offset < h.length → ∃ T, convolve n h offset = some T ∧
      T.shape = (n, n) ∧ AdjointPair n n T.times T.trans ∧
      ∀ x, x.length = n → ∀ i, i < n → ent (T.times x) i = fullConv h x (offset + i)) := by
  constructor
  · intro hc; exact if_neg hc
  · rintro ⟨hn, h0, h1⟩
    obtain ⟨o, rfl⟩ := Int.eq_ofNat_of_zero_le h0
    have ho : o < h.length := by omega
    refine ⟨_, if_pos ⟨hn, h0, h1⟩, rfl, ?_, ?_⟩
    · refine AdjointPair.of_entries (fun i j => zext h ((o : ℤ) + i - j)) ?_ ?_ ?_ ?_
      · intro x hx; simp [hx]; omega
      · intro y hy; simp [hy]; omega
      · intro x hx i hi
        simp only [Int.toNat_natCast]
        rw [ent_slice (by omega), ent_corr hx (by simp; omega)]
        refine Finset.sum_congr rfl fun j _ => ?_
        rw [zext_reverse]
        congr 2
        omega
      · intro y hy j hj
        simp only [Int.toNat_natCast]
        rw [ent_slice (by omega), ent_corr hy (by simp; omega)]
        refine Finset.sum_congr rfl fun i _ => ?_
        rw [zext_vconj]
        congr 3
        omega
    · intro x hx i hi
      simp only [Int.toNat_natCast]
      rw [ent_slice (by omega), ent_corr hx (by simp; omega), fullConv, hx]
      refine Finset.sum_congr rfl fun j _ => ?_
      rw [zext_reverse]
      congr 2
      omega

example : (convolve 4 ([1, 2, 3] : List ℤ) 1).map (fun T => T.times [1, 10, 100, 1000]) =
    some [12, 123, 1230, 2300] ∧ (convolve 4 ([1, 2, 3] : List ℤ) 3).isNone := by decide

/-! ## C18 -/

theorem npConvolve_same {n : ℕ} {x h : List R} (hx : x.length = n) (h0 : 0 < h.length)
    (hn : h.length ≤ n) :
    npConvolve' x h .same = corr (h.length / 2) (h.length - h.length / 2 - 1) x h.reverse := by
  have hx0 : x ≠ [] := by intro e; simp [e] at hx; omega
  have hh0 : h ≠ [] := by intro e; simp [e] at h0
  have : ¬ x.length < h.length := by omega
  simp [npConvolve', npConvolve, hx0, hh0, this, convolveLonger]

theorem npConvolve_full {n : ℕ} {x h : List R} (hx : x.length = n) (h0 : 0 < h.length)
    (hn : h.length ≤ n) :
    npConvolve' x h .full = corr (h.length - 1) (h.length - 1) x h.reverse := by
  have hx0 : x ≠ [] := by intro e; simp [e] at hx; omega
  have hh0 : h ≠ [] := by intro e; simp [e] at h0
  have : ¬ x.length < h.length := by omega
  simp [npConvolve', npConvolve, hx0, hh0, this, convolveLonger]

theorem pair_same_full (n : ℕ) (h g : List R) (h0 : 0 < h.length) (hn : h.length ≤ n)
    (hgl : g.length = h.length) (hg : ∀ z, zext g.reverse z = star (zext h z)) :
    AdjointPair n n (fun x => npConvolve' x h .same)
      (fun x => slice (h.length / 2) (h.length / 2 + n) (npConvolve' x g .full)) := by
  refine AdjointPair.of_entries (fun i j => zext h.reverse ((j : ℤ) + (h.length / 2 : ℕ) - i)) ?_ ?_ ?_ ?_
  · intro x hx; rw [npConvolve_same hx h0 hn]; simp [hx]; omega
  · intro y hy; rw [npConvolve_full hy (by omega) (by omega)]; simp [hy, hgl]; omega
  · intro x hx i hi
    rw [npConvolve_same hx h0 hn, ent_corr hx (by simp; omega)]
  · intro y hy j hj
    rw [npConvolve_full hy (by omega) (by omega), ent_slice (by omega), ent_corr hy (by simp [hgl]; omega)]
    refine Finset.sum_congr rfl fun i _ => ?_
    rw [hg, zext_reverse]
    congr 3
    rw [hgl]
    omega

/-- **C18** (adjointness) For every filter that is not longer than the signal, `fir_filter(n, h)` and
`running_average(n, length)` are adjoint-consistent. -/
theorem c18_filters_adjoint (n : ℕ) (h : List R) (h0 : 0 < h.length) (hn : h.length ≤ n) :
    AdjointPair n n (firFilter n h).times (firFilter n h).trans ∧
    ∀ (length : ℕ) (li : R), 0 < length → length ≤ n → star li = li →
      AdjointPair n n (runningAverage n length li).times (runningAverage n length li).trans := by
  constructor
  · refine pair_same_full n h (vconj h.reverse) h0 hn (by simp) ?_
    intro z
    have : (vconj h.reverse).reverse = vconj h := by simp [vconj]
    rw [this, zext_vconj]
  · intro length li hl hln hli
    have := pair_same_full n (List.replicate length li) (List.replicate length li) (by simpa using hl)
      (by simpa using hln) rfl ?_
    · simpa [runningAverage] using this
    · intro z
      rw [List.reverse_replicate]
      unfold zext ent
      split
      · by_cases hz : z.toNat < length <;> simp [List.getD, hz, hli]
      · simp

/-- **C18** (meaning) `fir_filter` computes the centred window of the full convolution, and every output
sample of `running_average` whose window lies inside the signal is the average of `length` consecutive
samples around it. -/
theorem c18_filters_compute (n : ℕ) (x : List R) (hx : x.length = n) :
    (∀ h : List R, 0 < h.length → h.length ≤ n → ∀ i, i < n →
      ent ((firFilter n h).times x) i = fullConv h x (i + (h.length - 1) / 2)) ∧
    (∀ (length : ℕ) (li : R), 0 < length → length ≤ n → ∀ i, length / 2 ≤ i →
      i + (length - 1) / 2 < n →
      ent ((runningAverage n length li).times x) i =
        li * ∑ k ∈ Finset.range length, ent x (i - length / 2 + k)) := by
  constructor
  · intro h h0 hn i hi
    simp only [firFilter]
    rw [npConvolve_same hx h0 hn, ent_corr hx (by simp; omega), fullConv, hx]
    refine Finset.sum_congr rfl fun j _ => ?_
    rw [zext_reverse]
    congr 2
    omega
  · intro length li hl hln i hi1 hi2
    simp only [runningAverage]
    rw [npConvolve_same hx (by simpa using hl) (by simpa using hln)]
    simp only [List.length_replicate, List.reverse_replicate]
    unfold corr
    rw [ent_tab _ (by simp [hx]; omega), List.length_replicate, Finset.mul_sum]
    refine Finset.sum_congr rfl fun k hk => ?_
    have hk' := Finset.mem_range.mp hk
    rw [ent_pad, if_pos (by omega)]
    have : ent (List.replicate length li) k = li := by simp [ent, List.getD, hk']
    rw [this]
    congr 2
    omega

example : (firFilter 5 ([1, 2, 3] : List ℤ)).times [1, 0, 0, 0, 10] = [2, 3, 0, 10, 20] ∧
    (runningAverage 5 4 (1 : ℤ)).times [1, 2, 3, 4, 5] = [1 + 2, 1 + 2 + 3, 1 + 2 + 3 + 4, 2 + 3 + 4 + 5, 3 + 4 + 5] := by
  decide

/-- **C18** (running average) With the weights of the code: `length` times every output sample is the sum of the samples in the window of `length`
positions around it, samples outside the signal counting as zero; the operator is adjoint-consistent; and a constant signal is reproduced wherever
the window lies inside the signal. -/
theorem c18_running_average {K : Type*} [Field K] [StarRing K] [CharZero K] (n length : ℕ) (hl : 0 < length) (hn : length ≤ n) :
    AdjointPair n n (runningAverageK (K := K) n length).times (runningAverageK (K := K) n length).trans ∧
    (∀ x : List K, x.length = n → ∀ i, i < n → (length : K) * ent ((runningAverageK n length).times x) i =
      ∑ k ∈ Finset.range length, if length / 2 ≤ i + k then ent x (i + k - length / 2) else 0) ∧
    ∀ (a : K) (i : ℕ), length / 2 ≤ i → i + (length - 1) / 2 < n → ent ((runningAverageK n length).times (List.replicate n a)) i = a := by
  have h0 : (length : K) ≠ 0 := Nat.cast_ne_zero.mpr (by omega)
  have main : ∀ x : List K, x.length = n → ∀ i, i < n → (length : K) * ent ((runningAverageK n length).times x) i =
      ∑ k ∈ Finset.range length, if length / 2 ≤ i + k then ent x (i + k - length / 2) else 0 := by
    intro x hx i hi
    simp only [runningAverageK, runningAverage]
    rw [npConvolve_same hx (by simpa using hl) (by simpa using hn)]
    simp only [List.length_replicate, List.reverse_replicate]
    unfold corr
    rw [ent_tab _ (by simp [hx]; omega), List.length_replicate, Finset.mul_sum]
    refine Finset.sum_congr rfl fun k hk => ?_
    have hk' := Finset.mem_range.mp hk
    have : ent (List.replicate length (1 / (length : K))) k = 1 / (length : K) := by simp [ent, List.getD, hk']
    rw [this, ent_pad, ← mul_assoc, mul_one_div_cancel h0, one_mul]
    split
    · next h =>
      rw [if_pos (by omega)]
    · next h =>
      split
      · next h' =>
        have : x.length ≤ i + k - length / 2 := by omega
        simp [ent, List.getD, List.getElem?_eq_none this]
      · rfl
  refine ⟨(c18_filters_adjoint n (List.replicate length (1 : K)) (by simpa using hl) (by simpa using hn)).2 length _ hl hn (by simp), main, fun a i h1 h2 => ?_⟩
  refine mul_left_cancel₀ h0 ((main _ (by simp) i (by omega)).trans ?_)
  rw [Finset.sum_congr rfl (g := fun _ => a) fun k hk => ?_]
  · simp
  · have hk' := Finset.mem_range.mp hk
    rw [if_pos (by omega)]
    simp [ent, List.getD, show i + k - length / 2 < n by omega]

/-- The hypotheses are met, and the average of `[1, 2, 3]` over three samples is `2`. -/
example : ent ((runningAverageK (K := ℚ) 3 3).times [1, 2, 3]) 1 = 2 := by
  have := (c18_running_average (K := ℚ) 3 3 (by norm_num) (by norm_num)).2.1 [1, 2, 3] rfl 1 (by norm_num)
  rw [show (∑ k ∈ Finset.range 3, if 3 / 2 ≤ 1 + k then ent ([1, 2, 3] : List ℚ) (1 + k - 3 / 2) else 0) = 6 by
    simp [Finset.sum_range_succ, ent]; norm_num] at this
  push_cast at this
  linarith

/-- **C18, limit of the claim** A filter longer than the signal breaks the operator: the output of
`fir_filter(1, [1,2,3])` has three entries although the shape says one. -/
theorem c18_long_filter_fails :
    ((firFilter 1 ([1, 2, 3] : List ℤ)).times [1]).length = 3 ∧
    (firFilter 1 ([1, 2, 3] : List ℤ)).shape = (1, 1) := by decide

/-! ## C05 -/

theorem lastEnt_eq {n : ℕ} {x : List R} (hx : x.length = n) : lastEnt x = ent x (n - 1) := by
  rw [lastEnt, hx]

theorem ent_ndiff_append {x : List R} {a : R} {i : ℕ} (hi : i < x.length) :
    ent (ndiff (x ++ [a])) i = (if i + 1 < x.length then ent x (i + 1) else a) - ent x i := by
  rw [ent_ndiff (by simpa using hi), ent_append, ent_append, if_pos hi]
  split
  · rfl
  · have : i + 1 - x.length = 0 := by omega
    rw [this, ent_cons_zero]

theorem ent_ndiff_cons {x : List R} {a : R} {i : ℕ} (hi : i < x.length) :
    ent (ndiff (a :: x)) i = ent x i - (if i = 0 then a else ent x (i - 1)) := by
  rw [ent_ndiff (by simpa using hi), ent_cons_succ]
  cases i with
  | zero => simp [ent_cons_zero]
  | succ i => simp [ent_cons_succ]

theorem sum_pick {n : ℕ} (P : ℕ → Prop) [DecidablePred P] (c : ℕ → R) (i0 : ℕ)
    (h : ∀ i, i < n → P i → i = i0) :
    ∑ i ∈ Finset.range n, (if P i then c i else 0) = if i0 < n ∧ P i0 then c i0 else 0 := by
  split
  · rename_i h0
    rw [Finset.sum_eq_single i0]
    · rw [if_pos h0.2]
    · intro i hi hne
      rw [if_neg fun hP => hne (h i (Finset.mem_range.mp hi) hP)]
    · intro hn; exact absurd (Finset.mem_range.mpr h0.1) hn
  · rename_i h0
    refine Finset.sum_eq_zero fun i hi => ?_
    rw [if_neg]
    intro hP
    have := h i (Finset.mem_range.mp hi) hP
    subst this
    exact h0 ⟨Finset.mem_range.mp hi, hP⟩

/-- Adjointness of two-point stencils: row `i` has the coefficient `u` where `P i j` and `v` where `Q i j`. -/
theorem pair_two_point {n : ℕ} {f g : List R → List R} (P Q : ℕ → ℕ → Prop)
    [∀ i j, Decidable (P i j)] [∀ i j, Decidable (Q i j)] (u v : R) (hu : star u = u) (hv : star v = v)
    (p q p' q' : ℕ → ℕ)
    (hp : ∀ i j, i < n → j < n → P i j → j = p i ∧ i = p' j)
    (hq : ∀ i j, i < n → j < n → Q i j → j = q i ∧ i = q' j)
    (hfl : ∀ x, x.length = n → (f x).length = n) (hgl : ∀ y, y.length = n → (g y).length = n)
    (hf : ∀ x, x.length = n → ∀ i, i < n → ent (f x) i =
      (if p i < n ∧ P i (p i) then u * ent x (p i) else 0) +
      (if q i < n ∧ Q i (q i) then v * ent x (q i) else 0))
    (hg : ∀ y, y.length = n → ∀ j, j < n → ent (g y) j =
      (if p' j < n ∧ P (p' j) j then u * ent y (p' j) else 0) +
      (if q' j < n ∧ Q (q' j) j then v * ent y (q' j) else 0)) : AdjointPair n n f g := by
  refine AdjointPair.of_entries (fun i j => (if P i j then u else 0) + (if Q i j then v else 0)) hfl hgl ?_ ?_
  · intro x hx i hi
    rw [hf x hx i hi]
    simp only [add_mul, Finset.sum_add_distrib, ite_mul, zero_mul]
    rw [sum_pick (P i) _ (p i) (fun j hj h => (hp i j hi hj h).1),
      sum_pick (Q i) _ (q i) (fun j hj h => (hq i j hi hj h).1)]
  · intro y hy j hj
    rw [hg y hy j hj]
    simp only [star_add, apply_ite star, star_zero, hu, hv, add_mul, Finset.sum_add_distrib, ite_mul, zero_mul]
    rw [sum_pick (fun i => P i j) _ (p' j) (fun i hi h => (hp i j hi hj h).2),
      sum_pick (fun i => Q i j) _ (q' j) (fun i hi h => (hq i j hi hj h).2)]

theorem ent_set_last {n l : ℕ} {y : List R} (hy : y.length = n) (hl : l < n) :
    ent (y.set (y.length - 1) 0) l = if l + 1 < n then ent y l else 0 := by
  rw [ent_set, hy]
  by_cases h : l + 1 < n
  · rw [if_neg (by omega), if_pos h]
  · rw [if_pos (by omega), if_neg h]

theorem ent_set_first {n l : ℕ} {y : List R} (hy : y.length = n) (hl : l < n) :
    ent (y.set 0 0) l = if 0 < l then ent y l else 0 := by
  rw [ent_set]
  by_cases h : 0 < l
  · rw [if_neg (by omega), if_pos h]
  · rw [if_pos (by omega), if_neg h]

theorem pair_derivativeFwd (n : ℕ) (d : R) (hr : star d = d) :
    AdjointPair n n (derivativeFwd d) (derivativeFwdAdj d) := by
  refine pair_two_point (fun i j => j = i + 1) (fun i j => j = i ∧ i + 1 < n) d (-d) hr (by simp [hr])
    (fun i => i + 1) (fun i => i) (fun j => j - 1) (fun j => j) (by intros; omega) (by intros; omega)
    (fun x hx => by simp [derivativeFwd, hx]) (fun y hy => by simp [derivativeFwdAdj, hy]) ?_ ?_
  · intro x hx i hi
    rw [derivativeFwd, ent_smul, ent_ndiff_append (by omega), lastEnt_eq hx, hx]
    by_cases h : i + 1 < n
    · rw [if_pos h, if_pos (by omega), if_pos (by omega)]; ring
    · rw [if_neg h, if_neg (by omega), if_neg (by omega)]
      have : n - 1 = i := by omega
      rw [this]; ring
  · intro y hy j hj
    simp only [derivativeFwdAdj]
    rw [ent_smul, ent_ndiff_cons (by simp only [length_vneg, List.length_set, hy]; omega), ent_vneg, ent_vneg, ent_set_last hy hj]
    by_cases h0 : j = 0
    · rw [if_pos h0]
      simp only [true_and]
      split_ifs <;> first | (exfalso; omega) | ring
    · rw [if_neg h0, ent_set_last hy (by omega)]
      simp only [true_and]
      split_ifs <;> first | (exfalso; omega) | ring

theorem pair_derivativeBwd (n : ℕ) (d : R) (hr : star d = d) :
    AdjointPair n n (derivativeBwd d) (derivativeBwdAdj d) := by
  refine pair_two_point (fun i j => j = i ∧ 0 < i) (fun i j => i = j + 1) d (-d) hr (by simp [hr])
    (fun i => i) (fun i => i - 1) (fun j => j) (fun j => j + 1) (by intros; omega) (by intros; omega)
    (fun x hx => by simp [derivativeBwd, hx]) (fun y hy => by simp [derivativeBwdAdj, hy]) ?_ ?_
  · intro x hx i hi
    rw [derivativeBwd, ent_smul, ent_ndiff_cons (by omega)]
    by_cases h : i = 0
    · subst h; simp
    · rw [if_neg h, if_pos (by omega), if_pos (by omega)]; ring
  · intro y hy j hj
    simp only [derivativeBwdAdj]
    rw [ent_smul, ent_ndiff_append (by simp [hy]; omega), ent_vneg, ent_vneg, ent_set_first hy hj]
    simp only [length_vneg, List.length_set, hy]
    by_cases h : j + 1 < n
    · rw [if_pos h, ent_set_first hy h]
      simp only [true_and, and_true]
      split_ifs <;> first | (exfalso; omega) | ring
    · rw [if_neg h]
      simp only [true_and, and_true]
      split_ifs <;> first | (exfalso; omega) | ring

theorem ent_derivativeCentered {n i : ℕ} {half d : R} {x : List R} (hx : x.length = n) (hn : 2 ≤ n) :
    ent (derivativeCentered half d x) i =
      if 1 ≤ i ∧ i + 1 < n then d * (half * ent x (i + 1) - half * ent x (i - 1)) else 0 := by
  simp only [derivativeCentered]
  rw [ent_pad]
  simp only [length_smul, length_vsub, List.length_drop, List.length_take, hx]
  by_cases h : 1 ≤ i ∧ i + 1 < n
  · rw [if_pos (by omega), if_pos h, ent_smul, ent_vsub (by simp [hx]), ent_smul, ent_smul, ent_drop,
      ent_take (by omega)]
    congr 4
    omega
  · rw [if_neg (by omega), if_neg h]

theorem ent_derivativeCenteredAdj {n j : ℕ} {half d : R} {y : List R} (hy : y.length = n) (hn : 2 ≤ n) (hj : j < n) :
    ent (derivativeCenteredAdj id half d y) j =
      (if 2 ≤ j then half * ent y (j - 1) else 0) + (if j + 2 < n then -half * ent y (j + 1) else 0) := by
  simp only [derivativeCenteredAdj, List.map_id]
  rw [ent_vadd (by simp [hy]; omega), ent_pad, ent_pad]
  simp only [length_smul, length_slice, hy, Nat.sub_zero, ent_smul]
  rw [add_comm]
  congr 1
  · by_cases h : 2 ≤ j
    · rw [if_pos (by omega), if_pos h, ent_slice (by omega)]
      congr 2; omega
    · rw [if_neg (by omega), if_neg h]
  · by_cases h : j + 2 < n
    · rw [if_pos (by omega), if_pos h, ent_slice (by omega)]
      congr 2; omega
    · rw [if_neg (by omega), if_neg h]

/-- The centred pair is adjoint when `dxi = 1` (i.e. `dx = 1`). -/
theorem pair_derivativeCentered (n : ℕ) (hn : 2 ≤ n) (half : R) (hr : star half = half) :
    AdjointPair n n (derivativeCentered half 1) (derivativeCenteredAdj id half 1) := by
  refine pair_two_point (fun i j => j = i + 1 ∧ 1 ≤ i) (fun i j => i = j + 1 ∧ i + 1 < n) half (-half) hr (by simp [hr])
    (fun i => i + 1) (fun i => i - 1) (fun j => j - 1) (fun j => j + 1) (by intros; omega) (by intros; omega)
    (fun x hx => by simp [derivativeCentered, hx]; omega) (fun y hy => by simp [derivativeCenteredAdj, hy]; omega) ?_ ?_
  · intro x hx i hi
    rw [ent_derivativeCentered hx hn]
    by_cases h : 1 ≤ i ∧ i + 1 < n
    · rw [if_pos h, if_pos (by omega), if_pos (by omega)]; ring
    · rw [if_neg h, if_neg (by omega), if_neg (by omega)]; ring
  · intro y hy j hj
    rw [ent_derivativeCenteredAdj hy hn hj]
    congr 1
    · by_cases h : 2 ≤ j
      · rw [if_pos h, if_pos (by omega)]
      · rw [if_neg h, if_neg (by omega)]
    · by_cases h : j + 2 < n
      · rw [if_pos h, if_pos (by omega)]
      · rw [if_neg h, if_neg (by omega)]

theorem ent_npConvolve_full {x h : List R} (hx : 0 < x.length) (hh : 0 < h.length) {t : ℕ}
    (ht : t + 1 < x.length + h.length) : ent (npConvolve' x h .full) t = fullConv h x t := by
  have hx0 : x ≠ [] := by intro e; simp [e] at hx
  have hh0 : h ≠ [] := by intro e; simp [e] at hh
  have main : ∀ u v : List R, 0 < u.length → 0 < v.length → t + 1 < u.length + v.length →
      ent (corr (v.length - 1) (v.length - 1) u v.reverse) t = fullConv v u t := by
    intro u v hu hv huv
    rw [ent_corr rfl (by simp; omega), fullConv]
    refine Finset.sum_congr rfl fun j _ => ?_
    rw [zext_reverse]
    congr 2
    omega
  by_cases hl : x.length < h.length
  · have : npConvolve' x h .full = corr (x.length - 1) (x.length - 1) h x.reverse := by
      simp [npConvolve', npConvolve, hx0, hh0, hl, convolveLonger]
    rw [this, main h x hh hx (by omega), fullConv_comm]
  · have : npConvolve' x h .full = corr (h.length - 1) (h.length - 1) x h.reverse := by
      simp [npConvolve', npConvolve, hx0, hh0, hl, convolveLonger]
    rw [this, main x h hx hh ht]

theorem length_npConvolve_full {x h : List R} (hx : 0 < x.length) (hh : 0 < h.length) :
    (npConvolve' x h .full).length = x.length + h.length - 1 := by
  have hx0 : x ≠ [] := by intro e; simp [e] at hx
  have hh0 : h ≠ [] := by intro e; simp [e] at hh
  by_cases hl : x.length < h.length
  · simp [npConvolve', npConvolve, hx0, hh0, hl, convolveLonger]; omega
  · simp [npConvolve', npConvolve, hx0, hh0, hl, convolveLonger]; omega

theorem npConvolve_valid3 {n : ℕ} {x : List R} (hx : x.length = n) (hn : 3 ≤ n) (a b c : R) :
    npConvolve' x [a, b, c] .valid = corr 0 0 x [c, b, a] := by
  have hx0 : x ≠ [] := by intro e; simp [e] at hx; omega
  have : ¬ x.length < 3 := by omega
  simp [npConvolve', npConvolve, hx0, this, convolveLonger]

theorem pair_secondDerivative (n : ℕ) (hn : 3 ≤ n) (d : R) (hr : star d = d) :
    AdjointPair n n (secondDerivative n d).times (secondDerivative n d).trans := by
  set F : List R := [1 * d * d, (-2) * d * d, 1 * d * d] with hF
  have hsym : ∀ z, zext F (-z) = zext F (z + 2) := by
    intro z
    have h := zext_reverse F (-z)
    have h2 : F.reverse = F := by simp [hF]
    rw [h2] at h
    rw [h]
    congr 1
    simp [hF]; ring
  have hreal : ∀ z, star (zext F z) = zext F z := by
    intro z
    rw [← zext_vconj]
    congr 1
    simp [hF, vconj, hr]
  refine AdjointPair.of_entries
    (fun i j => if 1 ≤ i ∧ i + 1 < n then zext F ((j : ℤ) + 1 - i) else 0) ?_ ?_ ?_ ?_
  · intro x hx
    simp only [secondDerivative]
    rw [npConvolve_valid3 hx hn]
    simp [hx]; omega
  · intro y hy
    simp only [secondDerivative]
    rw [length_npConvolve_full (by simp [hy]; omega) (by simp)]
    simp [hy]; omega
  · intro x hx i hi
    simp only [secondDerivative]
    rw [npConvolve_valid3 hx hn, ← hF, ent_pad]
    simp only [length_corr, hx]
    have hlF : F.length = 3 := by simp [hF]
    by_cases h : 1 ≤ i ∧ i + 1 < n
    · rw [if_pos (by omega), ent_corr hx (by omega)]
      refine Finset.sum_congr rfl fun j _ => ?_
      rw [if_pos h]
      congr 2
      omega
    · rw [if_neg (by omega), Finset.sum_eq_zero]
      intro j _
      rw [if_neg h, zero_mul]
  · intro y hy j hj
    simp only [secondDerivative]
    rw [← hF]
    have hlF : F.length = 3 := by simp [hF]
    have hls : (slice 1 (y.length - 1) y).length = n - 2 := by simp [hy]; omega
    rw [ent_npConvolve_full (by omega) (by omega) (by omega), fullConv, hls]
    obtain ⟨k, rfl⟩ : ∃ k, n = k + 2 := ⟨n - 2, by omega⟩
    rw [Finset.sum_range_succ, Finset.sum_range_succ']
    rw [if_neg (by omega), if_neg (by omega)]
    simp only [star_zero, zero_mul, add_zero, Nat.add_sub_cancel]
    refine Finset.sum_congr rfl fun l hl => ?_
    have := Finset.mem_range.mp hl
    rw [if_pos (by omega), hreal, ent_slice (by omega)]
    have e1 : ((j : ℤ) - l) = -((l : ℤ) - j) := by ring
    rw [e1, hsym]
    have h2 : zext F ((l : ℤ) - j + 2) = zext F ((j : ℤ) - l) := by
      rw [← hsym]; congr 1; ring
    rw [h2]
    congr 1
    · congr 1; push_cast; ring
    · congr 1; omega

/-- **C05** (adjointness) For every size, every real step and the forward and backward kinds,
`first_derivative` is adjoint-consistent; so is `second_derivative` for `n ≥ 3` (for smaller `n` the code's
convolution is not defined on the interior slice). -/
theorem c05_derivative_adjoint (cast : R → R) (n : ℕ) (half dxi : R) (hr : star dxi = dxi) :
    AdjointPair n n (firstDerivative cast n half dxi .forward).times (firstDerivative cast n half dxi .forward).trans ∧
    AdjointPair n n (firstDerivative cast n half dxi .backward).times (firstDerivative cast n half dxi .backward).trans ∧
    (3 ≤ n → AdjointPair n n (secondDerivative n dxi).times (secondDerivative n dxi).trans) :=
  ⟨pair_derivativeFwd n dxi hr, pair_derivativeBwd n dxi hr, fun h => pair_secondDerivative n h dxi hr⟩

example : (firstDerivative id 4 (0 : ℤ) 1 .forward).times [1, 4, 9, 16] = [3, 5, 7, 0] ∧
    (firstDerivative id 4 (0 : ℤ) 1 .backward).times [1, 4, 9, 16] = [0, 3, 5, 7] ∧
    (secondDerivative 4 (1 : ℤ)).times [1, 4, 9, 16] = [0, 2, 2, 0] ∧
    (secondDerivative 4 (1 : ℤ)).trans [7, 1, 10, 7] = [1, 8, -19, 10] := by decide

/-- **C05** (the part of the claim that holds for the centred kind) `trans` of the centred derivative is the
adjoint of the operator with step 1, so it is adjoint-consistent when `dx = 1`.  For a general step the code
forgets the division by `dx`: missing, and false, see `c05_centered_fails`.  `cast` is the identity for real data. -/
theorem c05_centered_partial (cast : R → R) (hc : ∀ a, cast a = a) (n : ℕ) (hn : 2 ≤ n) (half dxi : R) (hr : star half = half) :
    AdjointPair n n (firstDerivative cast n half 1 .centered).times (firstDerivative cast n half 1 .centered).trans ∧
    (star dxi = dxi → AdjointPair n n (firstDerivative cast n half dxi .centered).times
      (fun y => smul dxi ((firstDerivative cast n half dxi .centered).trans y))) := by
  obtain rfl : cast = id := funext hc
  refine ⟨pair_derivativeCentered n hn half hr, fun hd => ?_⟩
  have h := (pair_derivativeCentered n hn half hr)
  refine AdjointPair.of_sum ?_ ?_ ?_
  · intro x hx; simp [firstDerivative, derivativeCentered, hx]; omega
  · intro y hy; simp [firstDerivative, derivativeCenteredAdj, hy]; omega
  · intro x y hx hy
    have h1 := h.adjoint x y hx hy
    rw [vdot_eq_sum (h.times_length x hx) hy, vdot_eq_sum hx (h.trans_length y hy)] at h1
    change ∑ i ∈ Finset.range n, star (ent (derivativeCentered half 1 x) i) * ent y i =
      ∑ j ∈ Finset.range n, star (ent x j) * ent (derivativeCenteredAdj id half 1 y) j at h1
    have e : ∀ i, ent (derivativeCentered half dxi x) i = dxi * ent (derivativeCentered half 1 x) i := by
      intro i
      rw [ent_derivativeCentered hx hn, ent_derivativeCentered hx hn]
      split <;> ring
    simp only [firstDerivative, e, ent_smul, star_mul', hd]
    have e2 : derivativeCenteredAdj id half dxi y = derivativeCenteredAdj id half 1 y := rfl
    rw [e2]
    simp only [mul_assoc, ← Finset.mul_sum, h1]
    rw [Finset.mul_sum]
    exact Finset.sum_congr rfl fun i _ => by ring

/-- **C05, refutation** With `dx = 1/2` the centred derivative is not adjoint-consistent. -/
theorem c05_centered_fails :
    ¬ AdjointPair 3 3 (firstDerivative id 3 (1 / 2 : ℚ) 2 .centered).times
      (firstDerivative id 3 (1 / 2 : ℚ) 2 .centered).trans := by
  intro h
  have := h.adjoint [0, 0, 1] [0, 1, 0] rfl rfl
  revert this
  decide +kernel

/-- **C05, refutation for complex data** `trans` of the centred derivative returns a real array, also for complex input: with
step 1 it is not the adjoint on complex vectors. -/
theorem c05_centered_complex_fails :
    ¬ AdjointPair 3 3 (firstDerivative (fun z : ℂ => (z.re : ℂ)) 3 (1 / 2) 1 .centered).times
      (firstDerivative (fun z : ℂ => (z.re : ℂ)) 3 (1 / 2) 1 .centered).trans := by
  intro h
  have := h.adjoint [0, 0, 1] [0, Complex.I, 0] rfl rfl
  simp [firstDerivative, derivativeCentered, derivativeCenteredAdj, vdot, vadd, vsub, smul, pad, slice] at this

/-- **C05** (exactness) On the samples `a + b t + c t²` of a quadratic at `t = i·dx`, the forward and backward
derivatives of the affine ones (`c = 0`) are `b` on every row that is not padded, the centred one is the exact
derivative `b + 2 c t` also for `c ≠ 0`, the second derivative is `2c`; padded rows are zero. -/
theorem c05_derivative_exact (cast : R → R) (n : ℕ) (half dx dxi a b c : R) (hd : dxi * dx = 1) (hh : half + half = 1)
    (x : List R) (hx : x.length = n) (q : List R) (hq : q.length = n)
    (hxe : ∀ i, i < n → ent x i = a + b * (i * dx))
    (hqe : ∀ i, i < n → ent q i = a + b * (i * dx) + c * (i * dx) ^ 2) :
    (∀ i, i < n → ent ((firstDerivative cast n half dxi .forward).times x) i = if i + 1 < n then b else 0) ∧
    (∀ i, i < n → ent ((firstDerivative cast n half dxi .backward).times x) i = if 0 < i then b else 0) ∧
    (2 ≤ n → ∀ i, i < n → ent ((firstDerivative cast n half dxi .centered).times q) i =
      if 0 < i ∧ i + 1 < n then b + 2 * c * (i * dx) else 0) ∧
    (3 ≤ n → ∀ i, i < n → ent ((secondDerivative n dxi).times q) i =
      if 0 < i ∧ i + 1 < n then 2 * c else 0) := by
  refine ⟨?_, ?_, ?_, ?_⟩
  · intro i hi
    simp only [firstDerivative]
    rw [derivativeFwd, ent_smul, ent_ndiff_append (by omega), lastEnt_eq hx, hx]
    split
    · rename_i h
      rw [hxe _ h, hxe _ hi]
      push_cast
      linear_combination b * hd
    · have : n - 1 = i := by omega
      rw [this]; ring
  · intro i hi
    simp only [firstDerivative]
    rw [derivativeBwd, ent_smul, ent_ndiff_cons (by omega)]
    cases i with
    | zero => simp
    | succ i =>
      rw [if_neg (by omega), if_pos (by omega), hxe _ hi, Nat.add_sub_cancel, hxe _ (by omega)]
      push_cast
      linear_combination b * hd
  · intro hn i hi
    simp only [firstDerivative]
    rw [ent_derivativeCentered hq hn]
    cases i with
    | zero => simp
    | succ i =>
      by_cases h : i + 1 + 1 < n
      · rw [if_pos (by omega), if_pos (by omega), hqe _ h, Nat.add_sub_cancel, hqe _ (by omega)]
        push_cast
        linear_combination (b * (half + half) + 2 * c * ((i + 1) * dx) * (half + half)) * hd +
          (b + 2 * c * ((i + 1) * dx)) * hh
      · rw [if_neg (by omega), if_neg (by omega)]
  · intro hn i hi
    simp only [secondDerivative]
    rw [npConvolve_valid3 hq hn, ent_pad]
    simp only [length_corr, hq, List.length_cons, List.length_nil]
    cases i with
    | zero => simp
    | succ i =>
      by_cases h : i + 1 + 1 < n
      · rw [if_pos (by omega), if_pos (by omega)]
        unfold corr
        rw [ent_tab _ (by simp [hq]; omega)]
        simp only [List.length_cons, List.length_nil, Finset.sum_range_succ, Finset.sum_range_zero, ent_pad, hq]
        rw [if_pos (by omega), if_pos (by omega), if_pos (by omega)]
        simp only [Nat.sub_zero, Nat.add_sub_cancel]
        rw [hqe _ (by omega), hqe _ (by omega), hqe _ (by omega)]
        simp only [ent_cons_zero, ent_cons_succ]
        push_cast
        linear_combination (2 * c * (dxi * dx + 1)) * hd
      · rw [if_neg (by omega), if_neg (by omega)]

example : (firstDerivative id 4 (1 / 2 : ℚ) 2 .centered).times [0, 1 / 4, 1, 9 / 4] = [0, 1, 2, 0] ∧
    (secondDerivative 4 (2 : ℚ)).times [0, 1 / 4, 1, 9 / 4] = [0, 2, 2, 0] := by decide +kernel

/-! ## C06 -/

theorem ent_cons_dropLast {n j : ℕ} {a : R} {y : List R} (hy : y.length = n) (hj : j < n) :
    ent (a :: y.dropLast) j = if j = 0 then a else ent y (j - 1) := by
  cases j with
  | zero => simp [ent_cons_zero]
  | succ j => rw [ent_cons_succ, ent_dropLast (by omega), if_neg (by omega), Nat.add_sub_cancel]

theorem pair_tv (n : ℕ) (kind : TvKind) : AdjointPair n n (diffFwd (R := R) kind) (diffAdj kind) := by
  cases kind with
  | regular =>
    have h := pair_derivativeFwd n (1 : R) (by simp)
    have e1 : derivativeFwd (1 : R) = diffFwd .regular := by
      funext x; simp [derivativeFwd, diffFwd, smul]
    have e2 : derivativeFwdAdj (1 : R) = diffAdj .regular := by
      funext x; simp [derivativeFwdAdj, diffAdj, smul]
    rwa [e1, e2] at h
  | dirichlet =>
    refine pair_two_point (fun i j => j = i + 1) (fun i j => j = i) 1 (-1) (by simp) (by simp)
      (fun i => i + 1) (fun i => i) (fun j => j - 1) (fun j => j) (by intros; omega) (by intros; omega)
      (fun x hx => by simp [diffFwd, hx]) (fun y hy => by simp [diffAdj, hy]; omega) ?_ ?_
    · intro x hx i hi
      simp only [diffFwd]
      rw [ent_ndiff_append (by omega), hx]
      simp only [and_true]
      split_ifs <;> ring
    · intro y hy j hj
      simp only [diffAdj]
      rw [ent_vsub (by simp [hy]; omega), ent_cons_dropLast hy hj]
      simp only [and_true]
      split_ifs <;> first | (exfalso; omega) | ring
  | circular =>
    refine pair_two_point (fun i j => j = if i + 1 < n then i + 1 else 0) (fun i j => j = i) 1 (-1)
      (by simp) (by simp)
      (fun i => if i + 1 < n then i + 1 else 0) (fun i => i) (fun j => if j = 0 then n - 1 else j - 1)
      (fun j => j) (by intro i j hi hj h; refine ⟨h, ?_⟩; split_ifs at h <;> split_ifs <;> omega)
      (by intros; omega)
      (fun x hx => by simp [diffFwd, hx]) (fun y hy => by simp [diffAdj, hy]; omega) ?_ ?_
    · intro x hx i hi
      simp only [diffFwd]
      rw [ent_ndiff_append (by omega), hx]
      simp only [and_true]
      split_ifs <;> first | (exfalso; omega) | ring
    · intro y hy j hj
      simp only [diffAdj]
      rw [ent_vsub (by simp [hy]; omega), ent_cons_dropLast hy hj, lastEnt_eq hy]
      simp only [and_true]
      split_ifs <;> first | (exfalso; omega) | ring

/-- **C06** (1-D) `tv(n, kind)` is adjoint-consistent for the three boundary rules. -/
theorem c06_tv_adjoint (n : ℕ) (kind : TvKind) :
    AdjointPair n n (tv (R := R) n kind).times (tv n kind).trans := pair_tv n kind

/-- **C06** (1-D, meaning) entry `i` is the forward difference; at the end of the signal it is `0`,
`-x[n-1]` and `x[0] - x[n-1]` for the regular, Dirichlet and circular rules. -/
theorem c06_tv_entries (n : ℕ) (x : List R) (hx : x.length = n) (kind : TvKind) (i : ℕ) (hi : i < n) :
    ent ((tv n kind).times x) i =
      if i + 1 < n then ent x (i + 1) - ent x i
      else match kind with
        | .regular => 0
        | .dirichlet => - ent x i
        | .circular => ent x 0 - ent x i := by
  cases kind <;> simp only [tv, diffFwd] <;> rw [ent_ndiff_append (by omega), hx] <;> split
  all_goals first
    | rfl
    | (rename_i h; have : n - 1 = i := by omega
       rw [lastEnt_eq hx, this]; ring)
    | ring

/-- **C06** (1-D, kernel) constants are exactly the kernel of the regular and circular operators; the
Dirichlet operator is injective. -/
theorem c06_tv_kernel (n : ℕ) (x : List R) (hx : x.length = n) :
    ((∀ i, i < n → ent ((tv n .regular).times x) i = 0) ↔ ∀ i, i < n → ent x i = ent x 0) ∧
    ((∀ i, i < n → ent ((tv n .circular).times x) i = 0) ↔ ∀ i, i < n → ent x i = ent x 0) ∧
    ((∀ i, i < n → ent ((tv n .dirichlet).times x) i = 0) ↔ ∀ i, i < n → ent x i = 0) := by
  have step : (∀ i, i + 1 < n → ent x (i + 1) - ent x i = 0) → ∀ i, i < n → ent x i = ent x 0 := by
    intro h i
    induction i with
    | zero => intro _; rfl
    | succ i ih => intro hi; rw [sub_eq_zero.mp (h i hi)]; exact ih (by omega)
  refine ⟨⟨fun h => step fun i hi => ?_, fun h i hi => ?_⟩, ⟨fun h => step fun i hi => ?_, fun h i hi => ?_⟩,
    ⟨fun h => ?_, fun h i hi => ?_⟩⟩
  · have := h i (by omega); rw [c06_tv_entries n x hx _ i (by omega), if_pos hi] at this; exact this
  · rw [c06_tv_entries n x hx _ i hi]
    split
    · rename_i h1; rw [h i hi, h _ h1, sub_self]
    · rfl
  · have := h i (by omega); rw [c06_tv_entries n x hx _ i (by omega), if_pos hi] at this; exact this
  · rw [c06_tv_entries n x hx _ i hi]
    split
    · rename_i h1; rw [h i hi, h _ h1, sub_self]
    · simp only; rw [h i hi, sub_self]
  · have h1 := step fun i hi => by
      have := h i (by omega); rw [c06_tv_entries n x hx _ i (by omega), if_pos hi] at this; exact this
    intro i hi
    rw [h1 i hi, ← h1 (n - 1) (by omega)]
    have := h (n - 1) (by omega)
    rw [c06_tv_entries n x hx _ _ (by omega), if_neg (by omega)] at this
    exact neg_eq_zero.mp this
  · rw [c06_tv_entries n x hx _ i hi]
    split
    · rename_i h1; rw [h i hi, h _ h1, sub_self]
    · simp only; rw [h i hi, neg_zero]

example : (tv 3 .circular).times ([5, 5, 5] : List ℤ) = [0, 0, 0] ∧
    (tv 3 .circular).times ([5, 5, 6] : List ℤ) = [0, 1, -1] ∧
    (tv 3 .circular).trans ([5, 5, 6] : List ℤ) = [1, 0, -1] ∧
    (tv 3 .dirichlet).times ([5, 5, 6] : List ℤ) = [0, 1, -6] := by decide

/-- Inner product of two `p × q` images. -/
def imgDot (p q : ℕ) (X Y : ℕ → ℕ → R) : R :=
  ∑ i ∈ Finset.range p, ∑ j ∈ Finset.range q, star (X i j) * Y i j

/-- Product of two images without conjugation. -/
def imgDotT (p q : ℕ) (X Y : ℕ → ℕ → R) : R :=
  ∑ i ∈ Finset.range p, ∑ j ∈ Finset.range q, X i j * Y i j

omit [StarRing R] in
theorem diff_transpose (n : ℕ) (kind : TvKind) (x y : ℕ → R) :
    ∑ i ∈ Finset.range n, ent (diffFwd kind ((List.range n).map x)) i * y i =
      ∑ i ∈ Finset.range n, x i * ent (diffAdj kind ((List.range n).map y)) i := by
  letI : StarRing R := starRingOfComm
  have h := pair_tv (R := R) n kind
  have h1 := h.adjoint ((List.range n).map x) ((List.range n).map y) (by simp) (by simp)
  rw [vdot_eq_sum (h.times_length _ (by simp)) (by simp),
    vdot_eq_sum (n := n) (by simp) (h.trans_length _ (by simp))] at h1
  have e1 : ∀ i ∈ Finset.range n, ent (diffFwd kind ((List.range n).map x)) i * y i =
      ent (diffFwd kind ((List.range n).map x)) i * ent ((List.range n).map y) i := by
    intro i hi; rw [ent_tab y (Finset.mem_range.mp hi)]
  have e2 : ∀ i ∈ Finset.range n, x i * ent (diffAdj kind ((List.range n).map y)) i =
      ent ((List.range n).map x) i * ent (diffAdj kind ((List.range n).map y)) i := by
    intro i hi; rw [ent_tab x (Finset.mem_range.mp hi)]
  rw [Finset.sum_congr rfl e1, Finset.sum_congr rfl e2]
  exact h1

/-- **C06** (2-D, part that holds) `tv2D(shape, kind).trans` is the transpose of `times` (no conjugation of the
imaginary unit that multiplies the vertical differences).  Missing, and false: the adjoint identity, see
`c06_tv2D_fails`. -/
theorem c06_tv2D_partial (p q : ℕ) (kind : TvKind) (im : R) (X Y : ℕ → ℕ → R) :
    imgDotT p q (tv2DTimes p q kind im X) Y = imgDotT p q X (tv2DTrans p q kind im Y) := by
  unfold imgDotT tv2DTimes tv2DTrans alongRows alongCols
  simp only [add_mul, mul_add, Finset.sum_add_distrib]
  congr 1
  · refine Finset.sum_congr rfl fun i _ => ?_
    exact diff_transpose q kind (fun k => X i k) (fun k => Y i k)
  · rw [Finset.sum_comm]
    conv_rhs => rw [Finset.sum_comm]
    refine Finset.sum_congr rfl fun j _ => ?_
    have := diff_transpose p kind (fun k => X k j) (fun k => Y k j)
    have h2 := congrArg (· * im) this
    simp only [Finset.sum_mul] at h2
    refine Eq.trans (Finset.sum_congr rfl fun i _ => ?_) (h2.trans (Finset.sum_congr rfl fun i _ => ?_)) <;> ring

/-- **C06, refutation** For a complex image with two rows and one column the pair of `tv2D` is not adjoint. -/
theorem c06_tv2D_fails (kind : TvKind) : ∃ X Y : ℕ → ℕ → ℂ,
    imgDot 2 1 (tv2DTimes 2 1 kind Complex.I X) Y ≠ imgDot 2 1 X (tv2DTrans 2 1 kind Complex.I Y) := by
  refine ⟨fun i _ => if i = 1 then 1 else 0, fun i _ => if i = 0 then 1 else 0, ?_⟩
  cases kind <;>
  · simp [imgDot, tv2DTimes, tv2DTrans, alongRows, alongCols, diffFwd, diffAdj, ndiff, ent, vsub, vneg, lastEnt,
      List.range_succ, Finset.sum_range_succ]
    try (intro h; have := congrArg Complex.im h; norm_num at this)

/-- The forward difference of the sequence `x` of length `n` at position `i` under a boundary rule. -/
def fwdDiff (n : ℕ) (kind : TvKind) (x : ℕ → ℝ) (i : ℕ) : ℝ :=
  if i + 1 < n then x (i + 1) - x i
  else match kind with
    | .regular => 0
    | .dirichlet => - x i
    | .circular => x 0 - x i

theorem tv_fwdDiff (n : ℕ) (kind : TvKind) (x : ℕ → ℝ) (i : ℕ) (hi : i < n) :
    ent (diffFwd kind ((List.range n).map fun k => (x k : ℂ))) i = (fwdDiff n kind x i : ℝ) := by
  have h := c06_tv_entries n ((List.range n).map fun k => (x k : ℂ)) (by simp) kind i hi
  simp only [tv] at h
  rw [h, ent_tab _ hi, ent_tab _ (by omega : 0 < n), fwdDiff.eq_def]
  by_cases h1 : i + 1 < n
  · rw [if_pos h1, if_pos h1, ent_tab _ h1]; push_cast; rfl
  · rw [if_neg h1, if_neg h1]
    cases kind <;> simp

/-- **C06** (2-D, meaning) for a real image `tv2D` stores the horizontal differences in the real part and the vertical ones in the imaginary part, as documented, so the
modulus of an entry is the length of the discrete gradient. -/
theorem c06_tv2D_entries (p q : ℕ) (kind : TvKind) (X : ℕ → ℕ → ℝ) (i j : ℕ) (hi : i < p) (hj : j < q) :
    (tv2DTimes p q kind Complex.I (fun a b => (X a b : ℂ)) i j).re = fwdDiff q kind (fun b => X i b) j ∧
    (tv2DTimes p q kind Complex.I (fun a b => (X a b : ℂ)) i j).im = fwdDiff p kind (fun a => X a j) i := by
  unfold tv2DTimes alongRows alongCols
  rw [tv_fwdDiff q kind (fun b => X i b) j hj, tv_fwdDiff p kind (fun a => X a j) i hi]
  simp

/-- **C06** (2-D, kernel) for the regular and the circular rule the real images of zero variation are exactly the constant ones; for the Dirichlet rule only the zero image. -/
theorem c06_tv2D_kernel (p q : ℕ) (hp : 0 < p) (hq : 0 < q) (X : ℕ → ℕ → ℝ) :
    ((∀ i j, i < p → j < q → tv2DTimes p q .regular Complex.I (fun a b => (X a b : ℂ)) i j = 0) ↔ ∀ i j, i < p → j < q → X i j = X 0 0) ∧
    ((∀ i j, i < p → j < q → tv2DTimes p q .circular Complex.I (fun a b => (X a b : ℂ)) i j = 0) ↔ ∀ i j, i < p → j < q → X i j = X 0 0) ∧
    ((∀ i j, i < p → j < q → tv2DTimes p q .dirichlet Complex.I (fun a b => (X a b : ℂ)) i j = 0) ↔ ∀ i j, i < p → j < q → X i j = 0) := by
  have key : ∀ kind i j, i < p → j < q → (tv2DTimes p q kind Complex.I (fun a b => (X a b : ℂ)) i j = 0 ↔
      fwdDiff q kind (fun b => X i b) j = 0 ∧ fwdDiff p kind (fun a => X a j) i = 0) := by
    intro kind i j hi hj
    obtain ⟨h1, h2⟩ := c06_tv2D_entries p q kind X i j hi hj
    rw [Complex.ext_iff, h1, h2]
    rfl
  have const : ∀ (n : ℕ) (x : ℕ → ℝ), (∀ i, i + 1 < n → x (i + 1) - x i = 0) → ∀ i, i < n → x i = x 0 := by
    intro n x h i
    induction i with
    | zero => intro _; rfl
    | succ i ih => intro hi; rw [← ih (by omega)]; exact sub_eq_zero.mp (h i hi)
  have inner : ∀ kind, (∀ i j, i < p → j < q → tv2DTimes p q kind Complex.I (fun a b => (X a b : ℂ)) i j = 0) → ∀ i j, i < p → j < q → X i j = X 0 0 := by
    intro kind h i j hi hj
    have h1 := const q (fun b => X i b) (fun k hk => by
      have := ((key kind i k hi (by omega)).mp (h i k hi (by omega))).1
      rwa [fwdDiff.eq_def, if_pos hk] at this) j hj
    have h2 := const p (fun a => X a 0) (fun k hk => by
      have := ((key kind k 0 (by omega) hq).mp (h k 0 (by omega) hq)).2
      rwa [fwdDiff.eq_def, if_pos hk] at this) i hi
    exact h1.trans h2
  refine ⟨⟨inner _, fun h i j hi hj => ?_⟩, ⟨inner _, fun h i j hi hj => ?_⟩, ⟨fun h i j hi hj => ?_, fun h i j hi hj => ?_⟩⟩
  · rw [key _ i j hi hj]
    unfold fwdDiff
    constructor <;> split
    · rename_i h1; simp only [h i (j + 1) hi h1, h i j hi hj, sub_self]
    · rfl
    · rename_i h1; simp only [h (i + 1) j h1 hj, h i j hi hj, sub_self]
    · rfl
  · rw [key _ i j hi hj]
    unfold fwdDiff
    constructor <;> split
    · rename_i h1; simp only [h i (j + 1) hi h1, h i j hi hj, sub_self]
    · simp only [h i 0 hi hq, h i j hi hj, sub_self]
    · rename_i h1; simp only [h (i + 1) j h1 hj, h i j hi hj, sub_self]
    · simp only [h 0 j hp hj, h i j hi hj, sub_self]
  · have h0 := inner _ h
    have h1 := ((key .dirichlet (p - 1) (q - 1) (by omega) (by omega)).mp (h (p - 1) (q - 1) (by omega) (by omega))).1
    rw [fwdDiff.eq_def, if_neg (by omega)] at h1
    simp only [neg_eq_zero] at h1
    rw [h0 i j hi hj, ← h0 (p - 1) (q - 1) (by omega) (by omega), h1]
  · rw [key _ i j hi hj]
    unfold fwdDiff
    constructor <;> split
    · rename_i h1; simp only [h i (j + 1) hi h1, h i j hi hj, sub_self]
    · simp only [h i j hi hj, neg_zero]
    · rename_i h1; simp only [h (i + 1) j h1 hj, h i j hi hj, sub_self]
    · simp only [h i j hi hj, neg_zero]

example := c18_filters_adjoint 5 ([1, 2, 3] : List ℤ) (by norm_num) (by norm_num)

example := c18_filters_compute 5 ([1, 0, 0, 0, 10] : List ℤ) rfl

example := c05_derivative_adjoint id 4 (0 : ℤ) 1 rfl

example := c05_centered_partial id (fun _ => rfl) 4 (by norm_num) (1 / 2 : ℚ) 2 rfl

/-- Samples of `t` and of `t ^ 2` with spacing `1/2`. -/
example := c05_derivative_exact id 3 (1 / 2 : ℚ) (1 / 2) 2 0 1 0 (by norm_num) (by norm_num) [0, 1 / 2, 1] rfl [0, 1 / 2, 1] rfl
  (by intro i hi; interval_cases i <;> norm_num [ent]) (by intro i hi; interval_cases i <;> norm_num [ent])

example := c05_derivative_exact id 3 (1 / 2 : ℚ) (1 / 2) 2 1 0 1 (by norm_num) (by norm_num) [1, 1, 1] rfl [1, 5 / 4, 2] rfl
  (by intro i hi; interval_cases i <;> norm_num [ent]) (by intro i hi; interval_cases i <;> norm_num [ent])

example := c06_tv_entries 3 ([5, 5, 6] : List ℤ) rfl .circular 2 (by norm_num)

example := c06_tv_kernel 3 ([5, 5, 6] : List ℤ) rfl

example := c06_tv2D_entries 3 4 .dirichlet (fun a b => (a : ℝ) * b) 1 3 (by norm_num) (by norm_num)

example := c06_tv2D_kernel 3 4 (by norm_num) (by norm_num) (fun a b => (a : ℝ) * b)

end Verif.Lop
