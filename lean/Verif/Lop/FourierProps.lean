import Verif.Lop.FourierModel
import Verif.Lop.StencilProps
import Verif.Lop.StructProps
import Mathlib.LinearAlgebra.Matrix.NonsingularInverse

set_option autoImplicit false
/-!
# Properties of the Fourier, circulant and cosine operators (C14, C15, C16, C17)
-/
noncomputable section
namespace Verif.Lop
open Complex (I)

theorem cis_add (a b : ℝ) : cis (a + b) = cis a * cis b := by
  simp [cis, ← Complex.exp_add, add_mul]

theorem cis_zero : cis 0 = 1 := by simp [cis]

theorem star_cis (a : ℝ) : star (cis a) = cis (-a) := by
  simp only [cis, Complex.star_def, ← Complex.exp_conj]
  simp

theorem cis_re (a : ℝ) : (cis a).re = Real.cos a := by simp [cis, Complex.exp_ofReal_mul_I_re]

theorem cis_int (z : ℤ) : cis (2 * Real.pi * z) = 1 := by
  rw [cis, Complex.exp_eq_one_iff]
  exact ⟨z, by push_cast; ring⟩

theorem cis_pow (a : ℝ) (k : ℕ) : cis a ^ k = cis (k * a) := by
  rw [cis, cis, ← Complex.exp_nat_mul]; push_cast; ring_nf

/-- Orthogonality of the characters of `ℤ/n`. -/
theorem sum_cis (n : ℕ) (hn : 0 < n) (z : ℤ) :
    ∑ k ∈ Finset.range n, cis (2 * Real.pi * (k * z) / n) = if (n : ℤ) ∣ z then (n : ℂ) else 0 := by
  have hn' : (n : ℝ) ≠ 0 := by positivity
  set r := cis (2 * Real.pi * z / n) with hr
  have e : ∀ k : ℕ, cis (2 * Real.pi * (k * z) / n) = r ^ k := by
    intro k; rw [hr, cis_pow]; congr 1; ring
  simp only [e]
  split
  · rename_i h
    obtain ⟨w, rfl⟩ := h
    have : r = 1 := by
      rw [hr, ← cis_int w]; congr 1; push_cast; field_simp
    simp [this]
  · rename_i h
    have hne : r ≠ 1 := by
      intro h1
      rw [hr, cis, Complex.exp_eq_one_iff] at h1
      obtain ⟨w, hw⟩ := h1
      apply h
      refine ⟨w, ?_⟩
      have h2 : ((2 * Real.pi * z / n : ℝ) : ℂ) = w * (2 * Real.pi) := by
        have hI : (I : ℂ) ≠ 0 := Complex.I_ne_zero
        apply mul_right_cancel₀ hI
        rw [hw]; ring
      have h3 : (2 * Real.pi * z / n : ℝ) = w * (2 * Real.pi) := by exact_mod_cast h2
      have h4 : (z : ℝ) = n * w := by
        field_simp at h3
        nlinarith [h3, Real.pi_pos]
      exact_mod_cast h4
    have hpow : r ^ n = 1 := by
      rw [← e n, ← cis_int z]; congr 1; field_simp
    have := geom_sum_mul r n
    rw [hpow, sub_self] at this
    exact (mul_eq_zero.mp this).resolve_right (sub_ne_zero.mpr hne)

@[simp] theorem length_dft (n : ℕ) (x : List ℂ) : (dft n x).length = n := by simp [dft]
@[simp] theorem length_idft (n : ℕ) (x : List ℂ) : (idft n x).length = n := by simp [idft]

theorem ent_dft {n k : ℕ} (x : List ℂ) (hk : k < n) :
    ent (dft n x) k = ∑ j ∈ Finset.range n, cis (-(2 * Real.pi * (k * j) / n)) * ent x j := ent_tab _ hk

theorem ent_idft {n j : ℕ} (x : List ℂ) (hj : j < n) :
    ent (idft n x) j = (1 / (n : ℂ)) * ∑ k ∈ Finset.range n, cis (2 * Real.pi * (j * k) / n) * ent x k := ent_tab _ hj

theorem sum_cis_sub {n : ℕ} (hn : 0 < n) {a b : ℕ} (ha : a < n) (hb : b < n) :
    ∑ k ∈ Finset.range n, cis (2 * Real.pi * (a * k) / n) * cis (-(2 * Real.pi * (k * b) / n)) =
      if a = b then (n : ℂ) else 0 := by
  have h := sum_cis n hn ((a : ℤ) - b)
  have e : ((n : ℤ) ∣ (a : ℤ) - b) ↔ a = b := by
    constructor
    · rintro ⟨w, hw⟩
      rcases lt_trichotomy w 0 with h' | h' | h'
      · nlinarith
      · subst h'; omega
      · nlinarith
    · rintro rfl; simp
  simp only [e] at h
  rw [← h]
  refine Finset.sum_congr rfl fun k _ => ?_
  rw [← cis_add]; congr 1; push_cast; ring

theorem idft_dft {n : ℕ} (hn : 0 < n) {x : List ℂ} (hx : x.length = n) : idft n (dft n x) = x := by
  have hn' : (n : ℂ) ≠ 0 := by exact_mod_cast hn.ne'
  refine ext_getD (length_idft n _) hx fun j hj => ?_
  change ent _ j = ent _ j
  rw [ent_idft _ hj]
  have e : ∀ k ∈ Finset.range n, cis (2 * Real.pi * (j * k) / n) * ent (dft n x) k =
      ∑ l ∈ Finset.range n, cis (2 * Real.pi * (j * k) / n) * cis (-(2 * Real.pi * (k * l) / n)) * ent x l := by
    intro k hk
    rw [ent_dft _ (Finset.mem_range.mp hk), Finset.mul_sum]
    exact Finset.sum_congr rfl fun _ _ => by ring
  rw [Finset.sum_congr rfl e, Finset.sum_comm]
  have e2 : ∀ l ∈ Finset.range n, ∑ k ∈ Finset.range n, cis (2 * Real.pi * (j * k) / n) *
      cis (-(2 * Real.pi * (k * l) / n)) * ent x l = if j = l then (n : ℂ) * ent x l else 0 := by
    intro l hl
    rw [← Finset.sum_mul, sum_cis_sub hn hj (Finset.mem_range.mp hl)]
    split <;> simp
  rw [Finset.sum_congr rfl e2, Finset.sum_ite_eq, if_pos (Finset.mem_range.mpr hj)]
  field_simp

theorem dft_idft {n : ℕ} (hn : 0 < n) {x : List ℂ} (hx : x.length = n) : dft n (idft n x) = x := by
  have hn' : (n : ℂ) ≠ 0 := by exact_mod_cast hn.ne'
  refine ext_getD (length_dft n _) hx fun k hk => ?_
  change ent _ k = ent _ k
  rw [ent_dft _ hk]
  have e : ∀ j ∈ Finset.range n, cis (-(2 * Real.pi * (k * j) / n)) * ent (idft n x) j =
      ∑ l ∈ Finset.range n, (1 / (n : ℂ)) * (cis (2 * Real.pi * (l * j) / n) * cis (-(2 * Real.pi * (j * k) / n))) * ent x l := by
    intro j hj
    rw [ent_idft _ (Finset.mem_range.mp hj), Finset.mul_sum, Finset.mul_sum]
    refine Finset.sum_congr rfl fun l _ => ?_
    rw [mul_comm (k : ℝ) j, mul_comm (j : ℝ) l]; ring
  rw [Finset.sum_congr rfl e, Finset.sum_comm]
  have e2 : ∀ l ∈ Finset.range n, ∑ j ∈ Finset.range n, (1 / (n : ℂ)) * (cis (2 * Real.pi * (l * j) / n) *
      cis (-(2 * Real.pi * (j * k) / n))) * ent x l = if k = l then ent x l else 0 := by
    intro l hl
    rw [← Finset.sum_mul, ← Finset.mul_sum, sum_cis_sub hn (Finset.mem_range.mp hl) hk]
    by_cases h : l = k
    · rw [if_pos h, if_pos h.symm]; field_simp
    · rw [if_neg h, if_neg (Ne.symm h)]; simp
  rw [Finset.sum_congr rfl e2, Finset.sum_ite_eq, if_pos (Finset.mem_range.mpr hk)]

theorem smul_smul_list {R : Type*} [CommRing R] (a b : R) (x : List R) : smul a (smul b x) = smul (a * b) x := by
  simp [smul, Function.comp_def, mul_assoc]

theorem dft_smul (n : ℕ) (a : ℂ) (x : List ℂ) : dft n (smul a x) = smul a (dft n x) := by
  refine ext_getD (length_dft n _) (by simp) fun k hk => ?_
  change ent _ k = ent _ k
  rw [ent_smul, ent_dft _ hk, ent_dft _ hk, Finset.mul_sum]
  exact Finset.sum_congr rfl fun _ _ => by rw [ent_smul]; ring

theorem idft_smul (n : ℕ) (a : ℂ) (x : List ℂ) : idft n (smul a x) = smul a (idft n x) := by
  refine ext_getD (length_idft n _) (by simp) fun k hk => ?_
  change ent _ k = ent _ k
  rw [ent_smul, ent_idft _ hk, ent_idft _ hk, Finset.mul_sum, Finset.mul_sum, Finset.mul_sum]
  exact Finset.sum_congr rfl fun _ _ => by rw [ent_smul]; ring

theorem smul_one_list {R : Type*} [CommRing R] (x : List R) : smul 1 x = x := by simp [smul]

theorem sqrt_cast_ne {n : ℕ} (hn : 0 < n) : ((Real.sqrt n : ℝ) : ℂ) ≠ 0 := by
  have : Real.sqrt n ≠ 0 := (Real.sqrt_pos.mpr (by exact_mod_cast hn)).ne'
  exact_mod_cast this

theorem sqrt_mul_self_cast (n : ℕ) : ((Real.sqrt n : ℝ) : ℂ) * ((Real.sqrt n : ℝ) : ℂ) = n := by
  rw [← Complex.ofReal_mul, Real.mul_self_sqrt (by positivity)]; simp

theorem pair_fourier (n : ℕ) (hn : 0 < n) : AdjointPair n n (fourierBasis n).times (fourierBasis n).trans := by
  have h0 := sqrt_cast_ne hn
  have hs := sqrt_mul_self_cast n
  have hn' : (n : ℂ) ≠ 0 := by exact_mod_cast hn.ne'
  refine AdjointPair.of_entries (fun i j => 1 / ((Real.sqrt n : ℝ) : ℂ) * cis (2 * Real.pi * (i * j) / n)) ?_ ?_ ?_ ?_
  · intro x _; simp [fourierBasis]
  · intro x _; simp [fourierBasis]
  · intro x hx i hi
    simp only [fourierBasis]
    rw [ent_smul, ent_idft _ hi, ← mul_assoc, Finset.mul_sum]
    refine Finset.sum_congr rfl fun j _ => ?_
    have : ((Real.sqrt n : ℝ) : ℂ) * (1 / n) = 1 / ((Real.sqrt n : ℝ) : ℂ) := by
      rw [← hs]; field_simp
    rw [this]; ring
  · intro y hy j hj
    simp only [fourierBasis]
    rw [ent_smul, ent_dft _ hj, Finset.mul_sum]
    refine Finset.sum_congr rfl fun i _ => ?_
    rw [star_mul', star_cis]
    have : star (1 / ((Real.sqrt n : ℝ) : ℂ)) = 1 / ((Real.sqrt n : ℝ) : ℂ) := by
      simp
    rw [this, mul_comm (i : ℝ) j]; ring

/-! ## C14 -/

/-- **C14** `fourier_basis(n)` is unitary: `trans` and `times` invert each other, both preserve inner products
(hence the l2 norm), the pair is adjoint, and column `k` is the sampled complex exponential
`exp(2πi j k / n) / √n`. -/
theorem c14_fourier_unitary (n : ℕ) (hn : 0 < n) :
    AdjointPair n n (fourierBasis n).times (fourierBasis n).trans ∧
    (∀ x, x.length = n → (fourierBasis n).trans ((fourierBasis n).times x) = x) ∧
    (∀ y, y.length = n → (fourierBasis n).times ((fourierBasis n).trans y) = y) ∧
    (∀ x y, x.length = n → y.length = n →
      vdot ((fourierBasis n).times x) ((fourierBasis n).times y) = vdot x y ∧
      vdot ((fourierBasis n).trans x) ((fourierBasis n).trans y) = vdot x y) ∧
    (∀ j k, j < n → k < n → ent ((fourierBasis n).times (unitVec n k)) j =
      Complex.exp (2 * Real.pi * I * (j * k) / n) / Real.sqrt n) := by
  have h0 := sqrt_cast_ne hn
  have hp := pair_fourier n hn
  have h1 : ∀ x, x.length = n → (fourierBasis n).trans ((fourierBasis n).times x) = x := by
    intro x hx
    simp only [fourierBasis]
    rw [dft_smul, smul_smul_list, dft_idft hn hx]
    have : (1 / ((Real.sqrt n : ℝ) : ℂ)) * ((Real.sqrt n : ℝ) : ℂ) = 1 := by field_simp
    rw [this, smul_one_list]
  have h2 : ∀ x, x.length = n → (fourierBasis n).times ((fourierBasis n).trans x) = x := by
    intro x hx
    simp only [fourierBasis]
    rw [idft_smul, smul_smul_list, idft_dft hn hx]
    have : ((Real.sqrt n : ℝ) : ℂ) * (1 / ((Real.sqrt n : ℝ) : ℂ)) = 1 := by field_simp
    rw [this, smul_one_list]
  refine ⟨hp, h1, h2, fun x y hx hy => ⟨?_, ?_⟩, ?_⟩
  · rw [hp.adjoint x _ hx (hp.times_length y hy), h1 y hy]
  · rw [← hp.adjoint _ y (hp.trans_length x hx) hy, h2 x hx]
  · intro j k hj hk
    simp only [fourierBasis]
    rw [ent_smul, ent_idft _ hj, Finset.sum_eq_single k]
    · have hu : ent (unitVec n k : List ℂ) k = 1 := by
        change List.getD _ _ _ = _
        rw [getD_unitVec]
        · simp
        · exact hk
      rw [hu, mul_one, cis, ← mul_assoc]
      have : ((Real.sqrt n : ℝ) : ℂ) * (1 / n) = 1 / ((Real.sqrt n : ℝ) : ℂ) := by
        rw [← sqrt_mul_self_cast n]; field_simp
      rw [this, one_div_mul_eq_div]
      congr 2; push_cast; ring
    · intro l hl hne
      have hu : ent (unitVec n k : List ℂ) l = 0 := by
        change List.getD _ _ _ = _
        rw [getD_unitVec]
        · simp [hne]
        · exact Finset.mem_range.mp hl
      rw [hu, mul_zero]
    · intro h; exact absurd (Finset.mem_range.mpr hk) h

/-- **C14** `dirac_fourier_basis(n)` is the concatenation `[I F]` (`hcat` of identity and `fourier_basis`) and is
adjoint-consistent; it is a tight frame: `times (trans y) = 2 y`. -/
theorem c14_dirac_fourier (n : ℕ) (hn : 0 < n) :
    (∃ T, hcat (identity n n) (fourierBasis n) = some T ∧
      (diracFourierBasis n).times = T.times ∧ (diracFourierBasis n).trans = T.trans ∧
      (diracFourierBasis n).shape = (n, 2 * n) ∧ T.shape = (n, 2 * n)) ∧
    AdjointPair n (2 * n) (diracFourierBasis n).times (diracFourierBasis n).trans ∧
    (∀ y, y.length = n → (diracFourierBasis n).times ((diracFourierBasis n).trans y) = smul 2 y) := by
  have hp := pair_fourier n hn
  have hh := (AdjointPair.id (R := ℂ) n).hcat hp
  have hid : (identity n n : Op ℂ) = { times := fun x => x, trans := fun x => x, shape := (n, n) } := if_pos rfl
  rw [hid]
  refine ⟨⟨_, if_pos rfl, rfl, rfl, rfl, ?_⟩, ?_, ?_⟩
  · simp [fourierBasis, two_mul]
  · rw [two_mul]
    exact hh
  · intro y hy
    simp only [diracFourierBasis]
    rw [List.take_left' hy, List.drop_left' hy]
    have := (c14_fourier_unitary n hn).2.2.1 y hy
    simp only [fourierBasis] at this
    rw [this]
    refine ext_getD (n := n) (by simp [hy]) (by simp [hy]) fun k _ => ?_
    change ent _ k = ent _ k
    rw [ent_vadd rfl, ent_smul]; ring

/-- **C14** (explicit dictionary) the entries of `dict.fourier_basis(n)` are those of the operator. -/
theorem c14_dict_fourier (n : ℕ) (hn : 0 < n) (i k : ℕ) (hi : i < n) (hk : k < n) :
    dictFourier n i k = ent ((fourierBasis n).times (unitVec n k)) i := by
  rw [(c14_fourier_unitary n hn).2.2.2.2 i k hi hk, dictFourier, star_div₀, star_cis, cis]
  congr 1
  · congr 1; push_cast; ring
  · simp

/-! ## C15 -/

/-- **C15** `fft(m, n, mode='c2c')` is accepted exactly for `n ≥ m`, computes the `n`-point DFT of the zero-padded
input and is adjoint-consistent for complex vectors. -/
theorem c15_fft_adjoint (m n : ℕ) :
    (n < m → fft m n .c2c = none ∧ fft m n .r2c = none) ∧ fft m n .other = none ∧
    (m ≤ n → ∃ T, fft m n .c2c = some T ∧ T.shape = (n, m) ∧ AdjointPair n m T.times T.trans ∧
      ∀ x, x.length = m → ∀ k, k < n → ent (T.times x) k =
        ∑ j ∈ Finset.range m, Complex.exp (-(2 * Real.pi * I * (k * j) / n)) * ent x j) := by
  refine ⟨fun h => ⟨if_neg (by omega), if_neg (by omega)⟩, rfl, fun h => ?_⟩
  have trunc : ∀ (x : List ℂ) (k : ℕ), x.length = m → ∑ j ∈ Finset.range n, cis (-(2 * Real.pi * (k * j) / n)) * ent x j =
      ∑ j ∈ Finset.range m, cis (-(2 * Real.pi * (k * j) / n)) * ent x j := by
    intro x k hx
    obtain ⟨r, rfl⟩ := Nat.exists_eq_add_of_le h
    rw [Finset.sum_range_add, add_eq_left]
    refine Finset.sum_eq_zero fun j _ => ?_
    rw [ent_eq_zero (by omega), mul_zero]
  refine ⟨_, if_pos h, rfl, ?_, ?_⟩
  · refine AdjointPair.of_entries (fun k j => cis (-(2 * Real.pi * (k * j) / n))) ?_ ?_ ?_ ?_
    · intro x _; simp
    · intro x _; simp [h]
    · intro x hx k hk
      change ent (dft n x) k = _
      rw [ent_dft _ hk]
      exact trunc x k hx
    · intro y hy j hj
      change ent (List.take m _) j = _
      rw [ent_take hj, ent_smul, ent_idft _ (by omega), ← mul_assoc]
      have : (n : ℂ) * (1 / n) = 1 := by
        have : (n : ℂ) ≠ 0 := by
          have : n ≠ 0 := by omega
          exact_mod_cast this
        field_simp
      rw [this, one_mul]
      refine Finset.sum_congr rfl fun k _ => ?_
      rw [star_cis, neg_neg, mul_comm (j : ℝ) k]
  · intro x hx k hk
    change ent (dft n x) k = _
    rw [ent_dft _ hk, trunc x k hx]
    refine Finset.sum_congr rfl fun j _ => ?_
    rw [cis]; congr 2; push_cast; ring

/-- **C15** (default mode) `fft(m, n, mode='r2c')` takes the real part of its input; on real vectors it is the same
operator as `c2c`, so the adjoint identity holds for real `x` and arbitrary complex `w`. Missing: complex input, for
which the default mode is not linear and the identity fails (`c15_r2c_fails`). -/
theorem c15_r2c_partial (m n : ℕ) (h : m ≤ n) : ∃ T T', fft m n .r2c = some T ∧ fft m n .c2c = some T' ∧
    T.trans = T'.trans ∧ ∀ x : List ℝ, x.length = m → T.times (toC x) = T'.times (toC x) ∧
      ∀ w, w.length = n → vdot (T.times (toC x)) w = vdot (toC x) (T.trans w) := by
  obtain ⟨T', hT', _, hp, _⟩ := (c15_fft_adjoint m n).2.2 h
  have e : T' = { times := fun x => dft n x, trans := fun w => (smul (n : ℂ) (idft n w)).take m, shape := (n, m),
                  real := false } := by
    simp only [fft, ge_iff_le, h, if_true] at hT'
    exact (Option.some.inj hT').symm
  refine ⟨_, T', if_pos h, hT', by rw [e], fun x hx => ?_⟩
  have key : dft n ((toC x).map fun z => (z.re : ℂ)) = T'.times (toC x) := by
    rw [e]; change dft n (List.map _ (List.map _ x)) = _; rw [List.map_map]; rfl
  refine ⟨key, fun w hw => ?_⟩
  change vdot (dft n ((toC x).map fun z => (z.re : ℂ))) w = _
  rw [key, hp.adjoint _ w (by simpa [toC] using hx) hw, e]

/-- **C15, refutation** the default mode is not adjoint-consistent for complex input. -/
theorem c15_r2c_fails : ∃ T, fft 1 1 .r2c = some T ∧ ¬ AdjointPair 1 1 T.times T.trans := by
  refine ⟨{ times := fun x => dft 1 (x.map fun z => (z.re : ℂ)),
             trans := fun w => (smul ((1 : ℕ) : ℂ) (idft 1 w)).take 1, shape := (1, 1), real := false }, by simp [fft], fun h => ?_⟩
  have := h.adjoint [I] [1] rfl rfl
  simp [dft, idft, vdot, smul, ent, cis] at this

/-! ## C16 -/

theorem ent_toC (x : List ℝ) (j : ℕ) : ent (toC x) j = ((ent x j : ℝ) : ℂ) := by
  unfold ent List.getD toC
  rw [List.getElem?_map]
  cases x[j]? <;> simp

theorem ent_map_re (x : List ℂ) (j : ℕ) : ent (x.map Complex.re) j = (ent x j).re := by
  unfold ent List.getD
  rw [List.getElem?_map]
  cases x[j]? <;> simp

/-- The spectrum of a real signal is Hermitian symmetric. -/
theorem dft_herm (n : ℕ) (x : List ℝ) {k : ℕ} (h0 : 0 < k) (hk : k < n) :
    star (ent (dft n (toC x)) (n - k)) = ent (dft n (toC x)) k := by
  have hn : (n : ℝ) ≠ 0 := by
    have : n ≠ 0 := by omega
    exact_mod_cast this
  rw [ent_dft _ (by omega), ent_dft _ hk, star_sum]
  refine Finset.sum_congr rfl fun j _ => ?_
  rw [star_mul', star_cis, ent_toC]
  congr 1
  · have : -(-(2 * Real.pi * (((n - k : ℕ) : ℝ) * j) / n)) = -(2 * Real.pi * (k * j) / n) + 2 * Real.pi * ((j : ℤ) : ℝ) := by
      rw [Nat.cast_sub hk.le]; push_cast; field_simp; ring
    rw [this, cis_add, cis_int, mul_one]
  · simp

theorem hermExt_take (n : ℕ) (D : List ℂ) (hl : D.length = n)
    (h : ∀ k, 0 < k → k < n → star (ent D (n - k)) = ent D k) (X : List ℂ)
    (hX : ∀ k, k < n / 2 + 1 → k < n → ent X k = ent D k) : hermExt n X = D := by
  refine ext_getD (n := n) (by simp [hermExt]) hl fun k hk => ?_
  change ent _ k = ent _ k
  rw [hermExt, ent_tab _ hk]
  split
  · rename_i h1; rw [hX k (by omega) hk]
  · rename_i h1; rw [hX (n - k) (by omega) (by omega), h k (by omega) hk]

/-- Circular convolution theorem for the `irfft(rfft · rfft)` pipeline. -/
theorem irfft_mul (n : ℕ) (hn : 0 < n) (x c : List ℝ) (i : ℕ) (hi : i < n) :
    ent (irfft n (vmul (rfft n x) (rfft n c))) i = ∑ a ∈ Finset.range n, ent c ((i + n - a) % n) * ent x a := by
  have hn' : (n : ℂ) ≠ 0 := by exact_mod_cast hn.ne'
  have h1 : hermExt n (vmul (rfft n x) (rfft n c)) = vmul (dft n (toC x)) (dft n (toC c)) := by
    refine hermExt_take n _ (by simp) ?_ _ ?_
    · intro k h0 hk
      rw [ent_vmul, ent_vmul, star_mul', dft_herm n x h0 hk, dft_herm n c h0 hk]
    · intro k hk hkn
      rw [ent_vmul, ent_vmul, rfft, rfft, ent_take hk, ent_take hk]
  rw [irfft, ent_map_re, h1, ent_idft _ hi]
  have e1 : ∀ k ∈ Finset.range n, cis (2 * Real.pi * (i * k) / n) * ent (vmul (dft n (toC x)) (dft n (toC c))) k =
      ∑ a ∈ Finset.range n, ∑ b ∈ Finset.range n,
        cis (2 * Real.pi * (k * ((i : ℤ) - a - b : ℤ)) / n) * (((ent x a : ℝ) : ℂ) * ((ent c b : ℝ) : ℂ)) := by
    intro k hk
    rw [ent_vmul, ent_dft _ (Finset.mem_range.mp hk), ent_dft _ (Finset.mem_range.mp hk), Finset.sum_mul_sum,
      Finset.mul_sum]
    refine Finset.sum_congr rfl fun a _ => ?_
    rw [Finset.mul_sum]
    refine Finset.sum_congr rfl fun b _ => ?_
    rw [ent_toC, ent_toC]
    have : cis (2 * Real.pi * (k * ((i : ℤ) - a - b : ℤ)) / n) = cis (2 * Real.pi * (i * k) / n) *
        cis (-(2 * Real.pi * (k * a) / n)) * cis (-(2 * Real.pi * (k * b) / n)) := by
      rw [← cis_add, ← cis_add]; congr 1; push_cast; ring
    rw [this]; ring
  rw [Finset.sum_congr rfl e1, Finset.sum_comm]
  have e2 : ∀ a ∈ Finset.range n, (∑ k ∈ Finset.range n, ∑ b ∈ Finset.range n,
        cis (2 * Real.pi * (k * ((i : ℤ) - a - b : ℤ)) / n) * (((ent x a : ℝ) : ℂ) * ((ent c b : ℝ) : ℂ))) =
      (n : ℂ) * ((ent c ((i + n - a) % n) * ent x a : ℝ) : ℂ) := by
    intro a ha
    have ha' := Finset.mem_range.mp ha
    rw [Finset.sum_comm]
    simp only [← Finset.sum_mul, sum_cis n hn]
    have hmod : (i + n - a) % n < n := Nat.mod_lt _ hn
    rw [Finset.sum_eq_single ((i + n - a) % n)]
    · rw [if_pos]
      · push_cast; ring
      · have h2 := Nat.div_add_mod (i + n - a) n
        refine ⟨((i + n - a) / n : ℕ) - 1, ?_⟩
        have h3 : ((i + n - a : ℕ) : ℤ) = i + n - a := by omega
        have h4 : (n : ℤ) * ((i + n - a) / n : ℕ) + ((i + n - a) % n : ℕ) = ((i + n - a : ℕ) : ℤ) := by exact_mod_cast h2
        rw [h3] at h4
        rw [mul_sub, mul_one]; omega
    · intro b hb hne
      rw [if_neg, zero_mul]
      rintro ⟨w, hw⟩
      apply hne
      have hb' := Finset.mem_range.mp hb
      have h3 : ((i + n - a : ℕ) : ℤ) = i + n - a := by omega
      have h5 : ((i + n - a : ℕ) : ℤ) = b + n * (w + 1) := by rw [h3]; linarith
      have h6 : (((i + n - a) % n : ℕ) : ℤ) = b := by
        rw [Int.natCast_mod, h5, Int.add_mul_emod_self_left, Int.emod_eq_of_lt (by omega) (by omega)]
      exact_mod_cast h6.symm
    · intro h; exact absurd (Finset.mem_range.mpr hmod) h
  rw [Finset.sum_congr rfl e2, ← Finset.mul_sum, ← mul_assoc, one_div_mul_cancel hn', one_mul, ← Complex.ofReal_sum,
    Complex.ofReal_re]

theorem ent_roll_reverse (n : ℕ) (c : List ℝ) (hc : c.length = n) (i : ℕ) (hi : i < n) :
    ent (roll1 c.reverse) i = ent c ((n - i) % n) := by
  rw [roll1, ent_tab _ (by simpa [hc] using hi)]
  simp only [List.length_reverse, hc]
  rw [ent_reverse (by rw [hc]; exact Nat.mod_lt _ (by omega)), hc]
  congr 1
  rcases Nat.eq_zero_or_pos i with h | h
  · subst h
    rw [Nat.mod_eq_of_lt (by omega), Nat.sub_zero, Nat.mod_self]; omega
  · have : i + n - 1 = (i - 1) + n := by omega
    rw [this, Nat.add_mod_right, Nat.mod_eq_of_lt (a := i - 1) (by omega), Nat.mod_eq_of_lt (a := n - i) (by omega)]
    omega

theorem mod_flip (n i a : ℕ) (hi : i < n) (ha : a < n) : (n - (i + n - a) % n) % n = (a + n - i) % n := by
  by_cases h : a ≤ i
  · have : i + n - a = (i - a) + n := by omega
    rw [this, Nat.add_mod_right, Nat.mod_eq_of_lt (a := i - a) (by omega)]
    congr 1; omega
  · rw [Nat.mod_eq_of_lt (a := i + n - a) (by omega)]
    have : a + n - i = (a - i) + n := by omega
    rw [this, Nat.add_mod_right]
    congr 1; omega

/-- **C16** `circulant(n, c)` is accepted exactly when `c` is not longer than `n`; `times` is the circular
convolution of the (zero-padded) `c` with `x`, `trans` is the circular correlation, and the two are adjoint. -/
theorem c16_circulant (n : ℕ) (hn : 0 < n) (c : List ℝ) :
    (n < c.length → circulant n c = none) ∧
    (c.length ≤ n → ∃ T, circulant n c = some T ∧ T.shape = (n, n) ∧
      (∀ x i, i < n → ent (T.times x) i = ∑ a ∈ Finset.range n, ent c ((i + n - a) % n) * ent x a) ∧
      (∀ y a, a < n → ent (T.trans y) a = ∑ i ∈ Finset.range n, ent c ((i + n - a) % n) * ent y i) ∧
      AdjointPair n n T.times T.trans) := by
  refine ⟨fun h => if_neg (by omega), fun h => ?_⟩
  have hpl : (pad 0 (n - c.length) c).length = n := by simp; omega
  have hpe : ∀ k, ent (pad 0 (n - c.length) c) k = ent c k := by
    intro k
    rw [ent_pad]
    split
    · rfl
    · rw [ent_eq_zero (by omega)]
  have h1 : ∀ x i, i < n → ent (irfft n (vmul (rfft n x) (rfft n (pad 0 (n - c.length) c)))) i =
      ∑ a ∈ Finset.range n, ent c ((i + n - a) % n) * ent x a := by
    intro x i hi
    rw [irfft_mul n hn _ _ i hi]
    exact Finset.sum_congr rfl fun a _ => by rw [hpe]
  have h2 : ∀ y a, a < n → ent (irfft n (vmul (rfft n y) (rfft n (roll1 (pad 0 (n - c.length) c).reverse)))) a =
      ∑ i ∈ Finset.range n, ent c ((i + n - a) % n) * ent y i := by
    intro y a ha
    rw [irfft_mul n hn _ _ a ha]
    refine Finset.sum_congr rfl fun i hi => ?_
    rw [ent_roll_reverse n _ hpl _ (Nat.mod_lt _ hn), hpe, mod_flip n a i ha (Finset.mem_range.mp hi)]
  refine ⟨_, if_pos h, rfl, h1, h2, ?_⟩
  refine AdjointPair.of_entries (fun i a => ent c ((i + n - a) % n)) ?_ ?_ ?_ ?_
  · intro x _; simp [irfft]
  · intro x _; simp [irfft]
  · intro x _ i hi; exact h1 x i hi
  · intro y _ a ha
    rw [show star (R := ℝ) = id from rfl]
    exact h2 y a ha

example : ∃ T, circulant 3 [1, 2] = some T ∧ ent (T.times [1, 10, 100]) 0 = 201 ∧
    ent (T.times [1, 10, 100]) 1 = 12 ∧ ent (T.trans [1, 10, 100]) 0 = 21 := by
  obtain ⟨T, hT, _, h1, h2, _⟩ := (c16_circulant 3 (by norm_num) [1, 2]).2 (by simp)
  refine ⟨T, hT, ?_, ?_, ?_⟩
  · rw [h1 _ _ (by norm_num)]; norm_num [Finset.sum_range_succ, ent]
  · rw [h1 _ _ (by norm_num)]; norm_num [Finset.sum_range_succ, ent]
  · rw [h2 _ _ (by norm_num)]; norm_num [Finset.sum_range_succ, ent]

example := c14_fourier_unitary 5 (by norm_num)

example := c14_dirac_fourier 5 (by norm_num)

example := c14_dict_fourier 5 (by norm_num) 2 3 (by norm_num) (by norm_num)

example := c15_r2c_partial 3 4 (by norm_num)

end Verif.Lop
