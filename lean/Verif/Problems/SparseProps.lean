import Verif.Problems.Props
import Verif.Problems.AudioModel
import Verif.Lop.HeavisideProps
import Mathlib.Tactic.NormNum
import Mathlib.Tactic.FieldSimp

set_option autoImplicit false

/-!
# C78: the recorded representations are sparse, and the signals are those the problems are named after
-/
noncomputable section
namespace Verif.Problems
open Verif.Lop

/-! ## Helpers -/

theorem ent_map_mul {R : Type*} [CommRing R] (l : List R) (c : R) (i : ℕ) : ent (l.map fun a => a * c) i = ent l i * c := by
  by_cases h : i < l.length
  · simp [ent, List.getD_eq_getElem?_getD, h]
  · simp [ent, List.getD_eq_getElem?_getD, h]

theorem ent_coeffsOf {R : Type*} [CommRing R] [StarRing R] (n : ℕ) (c : R) (I : List ℕ) (v : List R) (i : ℕ) :
    ent (coeffsOf n c I v) i = ent (spikesOf n I v) i * c := ent_map_mul _ _ _

theorem ext_ent {R : Type*} [CommRing R] {n : ℕ} {x y : List R} (hx : x.length = n) (hy : y.length = n) (h : ∀ i < n, ent x i = ent y i) :
    x = y := by
  apply List.ext_getElem (by omega)
  intro i h1 h2
  have := h i (by omega)
  rwa [ent, ent, List.getD_eq_getElem _ _ h1, List.getD_eq_getElem _ _ h2] at this

/-- The two Fourier coefficients of the sine part. -/
def sineCoeffs (n : ℕ) : List ℂ :=
  (List.range n).map fun k => if k = 2 then -(2 * Complex.I) * Real.sqrt n * cis (2 * Real.pi * 2 / n) else
    if k = n - 2 then 2 * Complex.I * Real.sqrt n * cis (-(2 * Real.pi * 2 / n)) else 0

theorem four_sin (a : ℝ) : ((4 * Real.sin a : ℝ) : ℂ) = -(2 * Complex.I) * cis a + 2 * Complex.I * cis (-a) := by
  have h1 : cis a = Real.cos a + Real.sin a * Complex.I := by
    rw [cis, Complex.exp_mul_I]; simp
  have h2 : cis (-a) = Real.cos a - Real.sin a * Complex.I := by
    rw [cis, Complex.exp_mul_I]; simp [sub_eq_add_neg]
  rw [h1, h2]
  push_cast
  linear_combination (4 * Complex.sin a) * Complex.I_sq

theorem sine_eq (n : ℕ) (hn : 5 ≤ n) : (fourierBasis n).times (sineCoeffs n) = toC (sigSine n) := by
  have hne : ((Real.sqrt n : ℝ) : ℂ) ≠ 0 := sqrt_cast_ne (by omega)
  have hnn : (n : ℂ) ≠ 0 := by exact_mod_cast (show n ≠ 0 by omega)
  have hsq := sqrt_mul_self_cast n
  apply ext_ent (n := n) (by simp [fourierBasis, smul]) (by simp [toC, sigSine])
  intro j hj
  have hnr : (n : ℝ) ≠ 0 := by exact_mod_cast (show n ≠ 0 by omega)
  have e1 : ent (toC (sigSine n)) j = ((4 * Real.sin (4 * Real.pi * (((j : ℝ) + 1) / n)) : ℝ) : ℂ) := by
    rw [ent_toC, sigSine, ent_tab _ hj]
  have e2 : ent (smul ((Real.sqrt n : ℝ) : ℂ) (idft n (sineCoeffs n))) j = ((Real.sqrt n : ℝ) : ℂ) * ent (idft n (sineCoeffs n)) j := by
    simp [smul, ent, List.getD_eq_getElem?_getD, hj]
  have h1 : cis (2 * Real.pi * (j * (2 : ℕ)) / n) * cis (2 * Real.pi * 2 / n) = cis (4 * Real.pi * (((j : ℝ) + 1) / n)) := by
    rw [← cis_add]; congr 1; push_cast; ring
  have h2 : cis (2 * Real.pi * (j * (n - 2 : ℕ)) / n) * cis (-(2 * Real.pi * 2 / n)) = cis (-(4 * Real.pi * (((j : ℝ) + 1) / n))) := by
    have : cis (2 * Real.pi * (j * (n - 2 : ℕ)) / n) = cis (-(2 * Real.pi * (j * 2) / n)) := by
      have h := cis_int (j : ℤ)
      rw [← one_mul (cis (-(2 * Real.pi * (j * 2) / n))), ← h, ← cis_add]
      congr 1
      rw [Nat.cast_sub (by omega)]
      push_cast
      field_simp
      ring
    rw [this, ← cis_add]; congr 1; ring
  show ent (smul ((Real.sqrt n : ℝ) : ℂ) (idft n (sineCoeffs n))) j = _
  rw [e1, four_sin, e2, ent_idft _ hj]
  have hsum : ∑ k ∈ Finset.range n, cis (2 * Real.pi * (j * k) / n) * ent (sineCoeffs n) k =
      ∑ k ∈ ({2, n - 2} : Finset ℕ), cis (2 * Real.pi * (j * k) / n) * ent (sineCoeffs n) k := by
    symm
    apply Finset.sum_subset
    · intro k hk
      simp at hk ⊢
      omega
    · intro k hk hk2
      simp only [Finset.mem_insert, Finset.mem_singleton, not_or] at hk2
      rw [sineCoeffs, ent_tab _ (Finset.mem_range.1 hk), if_neg hk2.1, if_neg hk2.2, mul_zero]
  have c2 : ent (sineCoeffs n) 2 = -(2 * Complex.I) * Real.sqrt n * cis (2 * Real.pi * 2 / n) := by
    rw [sineCoeffs, ent_tab _ (by omega), if_pos rfl]
  have c3 : ent (sineCoeffs n) (n - 2) = 2 * Complex.I * Real.sqrt n * cis (-(2 * Real.pi * 2 / n)) := by
    rw [sineCoeffs, ent_tab _ (by omega), if_neg (by omega), if_pos rfl]
  rw [hsum, Finset.sum_pair (by omega), c2, c3]
  rw [← h1, ← h2, ← hsq]
  field_simp

theorem sine_trans (n : ℕ) (hn : 5 ≤ n) : (fourierBasis n).trans (toC (sigSine n)) = sineCoeffs n := by
  rw [← sine_eq n hn]
  exact (c14_fourier_unitary n (by omega)).2.1 _ (by simp [sineCoeffs])

/-- A step function `sign(t - a)`, `a > 0`, sampled at `t = (j+1)/n` changes between two neighbours only next to `a n`. -/
theorem sign_change {n j : ℕ} (hn : 0 < n) {a : ℝ} (h1 : j + 1 ≠ ⌈a * n⌉₊) (h2 : j ≠ ⌊a * n⌋₊) (ha : 0 ≤ a) :
    Real.sign (((j : ℝ) + 1) / n - a) = Real.sign ((j : ℝ) / n - a) := by
  have hn' : (0 : ℝ) < n := by exact_mod_cast hn
  have han : 0 ≤ a * n := by positivity
  rcases lt_trichotomy (a * n) j with h | h | h
  · have p1 : 0 < (j : ℝ) / n - a := by rw [sub_pos, lt_div_iff₀ hn']; exact h
    have p2 : 0 < ((j : ℝ) + 1) / n - a := by rw [sub_pos, lt_div_iff₀ hn']; linarith
    rw [Real.sign_of_pos p1, Real.sign_of_pos p2]
  · exact absurd (by rw [h]; simp) h2
  · have q1 : a * n > j + 1 := by
      by_contra hc
      push Not at hc
      rcases hc.lt_or_eq with hc | hc
      · exact h2 (by symm; rw [Nat.floor_eq_iff han]; exact ⟨h.le, hc⟩)
      · exact h1 (by rw [hc]; exact_mod_cast (Nat.ceil_natCast (R := ℝ) (j + 1)).symm)
    have p1 : (j : ℝ) / n - a < 0 := by rw [sub_neg, div_lt_iff₀ hn']; exact h
    have p2 : ((j : ℝ) + 1) / n - a < 0 := by rw [sub_neg, div_lt_iff₀ hn']; exact q1
    rw [Real.sign_of_neg p1, Real.sign_of_neg p2]

/-- The positions at which the representation recorded by problem 001 may be nonzero: two frequencies, the first sample, and two samples next to each of the jumps
at `t = 0.3` and `t = 0.72`. -/
def prob001Support (n : ℕ) : Finset ℕ :=
  {2, n - 2, n, n + (⌈(0.3 : ℝ) * n⌉₊ - 1), n + ⌊(0.3 : ℝ) * n⌋₊, n + (⌈(0.72 : ℝ) * n⌉₊ - 1), n + ⌊(0.72 : ℝ) * n⌋₊}

/-! ## Properties -/

/-- C78 (problem 001) the observed signal is `4 sin(4 π t) + sign(t - 0.3) - sign(0.72 - t)` at the times `t = 1/n, 2/n, ..., 1`. -/
theorem c78_prob001_signal (n : ℕ) (hn : 0 < n) : ∃ P, prob001 n = some P ∧ P.b.length = n ∧
    ∀ i < n, ent P.b i = ((4 * Real.sin (4 * Real.pi * ((i + 1) / n)) + Real.sign ((i + 1) / n - 0.3) - Real.sign (0.72 - (i + 1) / n) : ℝ) : ℂ) := by
  obtain ⟨P, x, hP, -⟩ := c78_prob001 n hn
  refine ⟨P, hP, ?_⟩
  simp only [prob001, Option.map_eq_some_iff] at hP
  obtain ⟨d, -, rfl⟩ := hP
  refine ⟨by simp [sigSine, sigJump], fun i hi => ?_⟩
  rw [ent_vadd (by simp [sigSine, sigJump]), ent_toC, ent_toC, sigSine, sigJump, ent_tab _ hi, ent_tab _ hi]
  push_cast
  ring

/-- C78 (problem 001) the recorded representation has at most seven nonzero entries, whatever the size: two Fourier coefficients and five Heaviside coefficients. -/
theorem c78_prob001_sparse (n : ℕ) (hn : 5 ≤ n) : ∃ P x, prob001 n = some P ∧ P.x = some x ∧ x.length = 2 * n ∧
    (∀ i, ent x i ≠ 0 → i ∈ prob001Support n) ∧ ((Finset.range (2 * n)).filter fun i => ent x i ≠ 0).card ≤ 7 := by
  obtain ⟨P, x, hP, hc⟩ := c78_prob001 n (by omega)
  refine ⟨P, x, hP, hc.x_recorded, ?_⟩
  have hx : x = (fourierBasis n).trans (toC (sigSine n)) ++ (invHeaviside n true).times (toC (sigJump n)) := by
    have := hc.x_recorded
    simp only [prob001, Option.map_eq_some_iff] at hP
    obtain ⟨d, -, rfl⟩ := hP
    exact (Option.some.inj this).symm
  rw [sine_trans n hn] at hx
  have hl2 : (toC (sigJump n)).length = n := by simp [sigJump]
  have hx1 : ((invHeaviside (𝕜 := ℂ) n true).times (toC (sigJump n))).length = n :=
    (c04_heaviside_adjoint (𝕜 := ℂ) n (by omega) true).2.times_length _ hl2
  have hl : x.length = 2 * n := by rw [hx, List.length_append, hx1]; simp [sineCoeffs]; omega
  have key : ∀ i, ent x i ≠ 0 → i ∈ prob001Support n := by
    intro i hi
    rw [hx, ent_append, show (sineCoeffs n).length = n by simp [sineCoeffs]] at hi
    by_cases h : i < n
    · rw [if_pos h, sineCoeffs, ent_tab _ h] at hi
      simp only [prob001Support, Finset.mem_insert, Finset.mem_singleton]
      by_contra hc
      push Not at hc
      rw [if_neg hc.1, if_neg hc.2.1] at hi
      exact hi rfl
    · rw [if_neg h] at hi
      obtain ⟨j, rfl⟩ := Nat.exists_eq_add_of_le (not_lt.1 h)
      rw [Nat.add_sub_cancel_left] at hi
      have hj : j < n := by
        by_contra hc
        exact hi (by simp [ent, List.getD_eq_getElem?_getD, hx1, not_lt.1 hc])
      simp only [prob001Support, Finset.mem_insert, Finset.mem_singleton]
      by_contra hc
      push Not at hc
      obtain ⟨-, -, c0, c1, c2, c3, c4⟩ := hc
      apply hi
      simp only [invHeaviside, if_true]
      rw [ent_vmul, ndiff_cons_zero_ent (by omega)]
      rw [if_neg (by omega)]
      have s1 := sign_change (n := n) (j := j) (a := 0.3) (by omega) (by omega) (by omega) (by norm_num)
      have s2 := sign_change (n := n) (j := j) (a := 0.72) (by omega) (by omega) (by omega) (by norm_num)
      obtain ⟨k, rfl⟩ : ∃ k, j = k + 1 := ⟨j - 1, by omega⟩
      rw [ent_toC, ent_toC, sigJump, ent_tab _ hj, ent_tab _ (by omega)]
      have e1 : (((k + 1 - 1 : ℕ) : ℝ) + 1) = ((k + 1 : ℕ) : ℝ) := by push_cast; simp
      have f1 : ∀ t : ℝ, Real.sign (0.72 - t) = - Real.sign (t - 0.72) := fun t => by rw [← Real.sign_neg, neg_sub]
      rw [e1, f1, f1, s1, s2, sub_self, zero_mul]
  refine ⟨hl, key, ?_⟩
  refine (Finset.card_le_card (t := prob001Support n) fun i hi => key i (Finset.mem_filter.1 hi).2).trans ?_
  unfold prob001Support
  refine (Finset.card_insert_le _ _).trans (Nat.succ_le_succ ?_)
  exact Finset.card_le_six

example : ∃ P, prob001 10 = some P ∧ P.b.length = 10 ∧
    ∀ i < 10, ent P.b i = ((4 * Real.sin (4 * Real.pi * ((i + 1) / (10 : ℕ))) + Real.sign ((i + 1) / (10 : ℕ) - 0.3) - Real.sign (0.72 - (i + 1) / (10 : ℕ)) : ℝ) : ℂ) :=
  c78_prob001_signal 10 (by norm_num)

example := c78_prob001_sparse 1024 (by norm_num)

/-- Spikes and scaled coefficients side by side: nonzero only at the drawn positions, with the drawn values there. -/
theorem ent_spikes_coeffs {R : Type*} [CommRing R] [StarRing R] (n : ℕ) (c : R) (ci : List ℕ) (cv : List R) (si : List ℕ) (sv : List R)
    (h1 : ci.Nodup) (h2 : ∀ i ∈ ci, i < n) (h3 : ci.length = cv.length) (h4 : si.Nodup) (h5 : ∀ i ∈ si, i < n) (h6 : si.length = sv.length) (i : ℕ)
    (hi : i < n) : (i ∉ si → ent (spikesOf n si sv ++ coeffsOf n c ci cv) i = 0) ∧ (i ∉ ci → ent (spikesOf n si sv ++ coeffsOf n c ci cv) (n + i) = 0) ∧
      (∀ k, si[k]? = some i → ent (spikesOf n si sv ++ coeffsOf n c ci cv) i = ent sv k) ∧
      ∀ k, ci[k]? = some i → ent (spikesOf n si sv ++ coeffsOf n c ci cv) (n + i) = ent cv k * c := by
  have hl : (spikesOf n si sv).length = n := by simp [spikesOf]
  have g1 : ent (spikesOf n si sv ++ coeffsOf n c ci cv) i = ent (spikesOf n si sv) i := by rw [ent_append, hl, if_pos hi]
  have g2 : ent (spikesOf n si sv ++ coeffsOf n c ci cv) (n + i) = ent (spikesOf n ci cv) i * c := by
    rw [ent_append, hl, if_neg (by omega), Nat.add_sub_cancel_left, ent_coeffsOf]
  have a1 := ent_spikesOf n si sv h4 h5 h6
  have a2 := ent_spikesOf n ci cv h1 h2 h3
  refine ⟨fun h => by rw [g1, a1.1 i h], fun h => by rw [g2, a2.1 i h, zero_mul], fun k hk => ?_, fun k hk => ?_⟩
  · obtain ⟨hk1, hk2⟩ := List.getElem?_eq_some_iff.1 hk
    have := a1.2 k hk1
    rw [List.getD_eq_getElem _ _ hk1, hk2] at this
    rw [g1, this]
  · obtain ⟨hk1, hk2⟩ := List.getElem?_eq_some_iff.1 hk
    have := a2.2 k hk1
    rw [List.getD_eq_getElem _ _ hk1, hk2] at this
    rw [g2, this]

/-- C78 (sparsity of 003, 004, 005): with distinct positions, the recorded representation `x` (of length `2n`) holds the drawn spike values at the drawn spike positions, the drawn
values times `√(n/2)` at `n +` the drawn frequencies, and zeros elsewhere. -/
theorem c78_two_ortho_sparse (m n : ℕ) (hn : 0 < n) (ci : List ℕ) (cv : List ℝ) (cz : List ℂ) (si : List ℕ) (sv : List ℝ) (sz : List ℂ)
    (g : ℕ → ℕ → ℝ) (h1 : ci.Nodup) (h2 : ∀ i ∈ ci, i < n) (h3 : ci.length = cv.length) (h3' : ci.length = cz.length) (h4 : si.Nodup)
    (h5 : ∀ i ∈ si, i < n) (h6 : si.length = sv.length) (h6' : si.length = sz.length) :
    (∀ P, prob003 n ci cv si sv = some P ∨ prob005 m n ci cv si sv g = some P → ∃ x, P.x = some x ∧ x.length = 2 * n ∧ ∀ i < n,
      (i ∉ si → ent x i = 0) ∧ (i ∉ ci → ent x (n + i) = 0) ∧ (∀ k, si[k]? = some i → ent x i = ent sv k) ∧
      ∀ k, ci[k]? = some i → ent x (n + i) = ent cv k * Real.sqrt (n / 2)) ∧
    ∀ P, prob004 n ci cz si sz = some P → ∃ x, P.x = some x ∧ x.length = 2 * n ∧ ∀ i < n,
      (i ∉ si → ent x i = 0) ∧ (i ∉ ci → ent x (n + i) = 0) ∧ (∀ k, si[k]? = some i → ent x i = ent sz k) ∧
      ∀ k, ci[k]? = some i → ent x (n + i) = ent cz k * ((Real.sqrt (n / 2) : ℝ) : ℂ) := by
  refine ⟨?_, ?_⟩
  · rintro P (hP | hP)
    · obtain ⟨P', e, hc⟩ := c78_prob003 n hn ci cv si sv
      obtain rfl : P' = P := Option.some.inj (e.symm.trans hP)
      exact ⟨_, hc.x_recorded, by simp [spikesOf, coeffsOf]; omega, fun i hi => ent_spikes_coeffs n _ ci cv si sv h1 h2 h3 h4 h5 h6 i hi⟩
    · obtain ⟨P', e, -, -, hc⟩ := c78_prob005 m n hn ci cv si sv g
      obtain rfl : P' = P := Option.some.inj (e.symm.trans hP)
      exact ⟨_, hc.x_recorded, by simp [spikesOf, coeffsOf]; omega, fun i hi => ent_spikes_coeffs n _ ci cv si sv h1 h2 h3 h4 h5 h6 i hi⟩
  · intro P hP
    obtain ⟨P', e, -, hc⟩ := c78_prob004 n hn ci cz si sz
    obtain rfl : P' = P := Option.some.inj (e.symm.trans hP)
    exact ⟨_, hc.x_recorded, by simp [spikesOf, coeffsOf]; omega, fun i hi => ent_spikes_coeffs n _ ci cz si sz h1 h2 h3' h4 h5 h6' i hi⟩

example := c78_two_ortho_sparse 2 4 (by norm_num) [1, 3] [2, -1] [2, Complex.I] [0] [5] [7] (fun _ _ => 1) (by decide) (by decide) rfl rfl (by decide) (by decide) rfl rfl

/-- C78 (problem 009) the dictionary is the step matrix: `A x` is the vector of the running sums of `x`; (problem 010) its columns scaled to norm one. -/
theorem c78_heaviside_dictionaries (n : ℕ) (b : List ℝ) :
    (∀ x : List ℝ, x.length = n → ∀ i < n, ent ((prob009 n b).A.times x) i = ∑ k ∈ Finset.range (i + 1), ent x k) ∧
    (∀ x : List ℝ, x.length = n → ∀ i < n, ent ((prob010 n b).A.times x) i = ∑ k ∈ Finset.range (i + 1), ent x k / Real.sqrt ((n - k : ℕ) : ℝ)) ∧
    ∀ j < n, ∑ i ∈ Finset.range n, ent ((prob010 n b).A.times (unitVec n j)) i ^ 2 = 1 := by
  refine ⟨fun x hx i hi => ?_, fun x hx i hi => c04_heaviside_normalized_values (𝕜 := ℝ) n x hx i hi, fun j hj => ?_⟩
  · exact (c04_heaviside_columns (𝕜 := ℝ) n i hi).1 x hx i hi
  · have := (c04_heaviside_columns (𝕜 := ℝ) n j hj).2
    simp only [Real.norm_eq_abs, sq_abs] at this
    exact this

example : ent ((prob009 3 [1, 1, 4]).A.times [1, 0, 3]) 2 = 4 := by
  rw [(c78_heaviside_dictionaries 3 [1, 1, 4]).1 _ rfl 2 (by norm_num)]
  norm_num [Finset.sum_range_succ, ent]

/-- C122 compiling an operator for arrays changes none of its maps, and raises exactly for operators that are not jit safe. -/
theorem c122_jit {R : Type*} (A : Op2 R) : (jit2 A = none ↔ A.jit_safe = false) ∧
    ∀ B, jit2 A = some B → B.times = A.times ∧ B.trans = A.trans ∧ B.times2 = A.times2 ∧ B.trans2 = A.trans2 ∧ B.shape = A.shape ∧ B.real = A.real ∧
      B.linear = A.linear := by
  unfold jit2
  cases h : A.jit_safe
  · simp
  · simp only [if_true, Option.some.injEq, reduceCtorEq, false_iff, true_and, not_false_eq_true, Bool.true_eq_false]
    rintro B rfl
    exact ⟨rfl, rfl, rfl, rfl, rfl, rfl, rfl⟩

example : ∃ B, jit2 (matrixAxis1 2 2 (fun i j => if i = j then (1 : ℝ) else 0) true) = some B ∧ B.real = true := ⟨_, rfl, rfl⟩

end Verif.Problems
