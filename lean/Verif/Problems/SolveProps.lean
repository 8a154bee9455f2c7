import Verif.Problems.SolveLemmas
import Verif.Pursuit.RecoveryProps
import Verif.Cvx.YallRecovery
import Verif.Dict.BasesProps

set_option autoImplicit false
/-!
# The solvers solve the library's own spikes-and-sinusoids problems (C135)
-/
noncomputable section
namespace Verif.Problems
open Verif.Lop Verif.Pursuit Verif.Loop Verif.Dict
open Verif.Opt (Vec vec)

/-! ## Specification -/

/-- The positions of the non-zero entries of `x`. -/
def suppL {𝕜 : Type*} [RCLike 𝕜] (x : List 𝕜) : Finset ℕ := (Finset.range x.length).filter fun i => x.getD i 0 ≠ 0

/-- The sum of the magnitudes of the entries. -/
def l1L (x : List ℝ) : ℝ := (x.map abs).sum

/-! ## Coherence of the dictionaries -/

/-- Cosines at multiples `t` of `π/(2n)` that are not multiples of `π` are at most `cos(π/(2n))`. -/
theorem cos_grid_le (n t : ℕ) (hn : 0 < n) (ht : ¬ 2 * n ∣ t) : |Real.cos (Real.pi * t / (2 * n))| ≤ Real.cos (Real.pi / (2 * n)) := by
  have hn' : (0 : ℝ) < n := by exact_mod_cast hn
  have hpi := Real.pi_pos
  set r := t % (2 * n) with hr
  set q := t / (2 * n) with hq
  have htr : t = 2 * n * q + r := (Nat.div_add_mod t (2 * n)).symm
  have hr0 : 1 ≤ r := Nat.one_le_iff_ne_zero.mpr fun h => ht (Nat.dvd_of_mod_eq_zero h)
  have hr1 : r + 1 ≤ 2 * n := Nat.mod_lt _ (by omega)
  have hr0' : (1 : ℝ) ≤ r := by exact_mod_cast hr0
  have hr1' : (r : ℝ) + 1 ≤ 2 * n := by exact_mod_cast hr1
  have e1 : Real.pi * t / (2 * n) = Real.pi * r / (2 * n) + (q : ℕ) * Real.pi := by
    rw [htr]; push_cast; field_simp; ring
  rw [e1, Real.cos_add_nat_mul_pi, abs_mul, abs_pow, abs_neg, abs_one, one_pow, one_mul, abs_le]
  have ha : Real.pi / (2 * n) ≤ Real.pi * r / (2 * n) := by gcongr; nlinarith
  have hb : Real.pi * r / (2 * n) ≤ Real.pi - Real.pi / (2 * n) := by
    rw [le_sub_iff_add_le, ← add_div, div_le_iff₀ (by positivity)]; nlinarith
  have h0 : 0 ≤ Real.pi / (2 * n) := by positivity
  constructor
  · rw [← Real.cos_pi_sub]
    exact Real.cos_le_cos_of_nonneg_of_le_pi (by linarith) (by linarith) hb
  · exact Real.cos_le_cos_of_nonneg_of_le_pi h0 (by linarith) ha

open scoped Classical in
/-- The largest entry of the cosine basis of size `n ≥ 2`. -/
def cosineMax (n : ℕ) : ℝ := Real.sqrt (2 / n) * if ∃ m, n = 2 ^ m then Real.cos (Real.pi / (2 * n)) else 1

theorem dct_greatest (n : ℕ) (hn : 2 ≤ n) : IsGreatest {c : ℝ | ∃ i < n, ∃ k < n, c = |dctEntry n i k|} (cosineMax n) := by
  have hn' : (0 : ℝ) < n := by exact_mod_cast (by omega : 0 < n)
  have hn2 : (2 : ℝ) ≤ n := by exact_mod_cast hn
  have hpi := Real.pi_pos
  have hsq := Real.sqrt_nonneg (2 / (n : ℝ))
  have hc0 : 0 ≤ Real.cos (Real.pi / (2 * n)) := Real.cos_nonneg_of_mem_Icc ⟨by have : 0 ≤ Real.pi / (2 * n) := by positivity
                                                                                linarith, by
    rw [div_le_div_iff₀ (by positivity) (by norm_num)]; nlinarith⟩
  by_cases hp : ∃ m, n = 2 ^ m
  · rw [cosineMax, if_pos hp]
    constructor
    · refine ⟨0, by omega, 1, by omega, ?_⟩
      rw [dctEntry, if_neg one_ne_zero, abs_mul, abs_of_nonneg hsq]
      simp only [Nat.cast_one, Nat.cast_zero, mul_one, mul_zero, zero_add]
      rw [abs_of_nonneg hc0]
    · rintro c ⟨i, hi, k, hk, rfl⟩
      by_cases hk0 : k = 0
      · subst hk0
        rw [dctEntry, if_pos rfl, abs_mul]
        simp only [Nat.cast_zero, mul_zero, zero_mul, zero_div, Real.cos_zero, abs_one, mul_one]
        have h4 : Real.sqrt 2 / 2 ≤ Real.cos (Real.pi / (2 * n)) := by
          rw [← Real.cos_pi_div_four]
          refine Real.cos_le_cos_of_nonneg_of_le_pi (by positivity) (by linarith) ?_
          exact div_le_div_of_nonneg_left hpi.le (by norm_num) (by linarith)
        have h2 : Real.sqrt 2 * Real.sqrt 2 = 2 := Real.mul_self_sqrt (by norm_num)
        rw [abs_of_nonneg (by positivity)]
        calc 1 / Real.sqrt n = Real.sqrt (2 / n) * (Real.sqrt 2 / 2) := by
              rw [Real.sqrt_div (by norm_num)]
              field_simp; rw [sq, h2]
          _ ≤ _ := mul_le_mul_of_nonneg_left h4 hsq
      · rw [dctEntry, if_neg hk0, abs_mul, abs_of_nonneg hsq]
        refine mul_le_mul_of_nonneg_left ?_ hsq
        have e : Real.pi * k * (2 * i + 1) / (2 * n) = Real.pi * ((k * (2 * i + 1) : ℕ) : ℝ) / (2 * n) := by push_cast; ring
        rw [e]
        refine cos_grid_le n _ (by omega) fun hdvd => ?_
        obtain ⟨m, rfl⟩ := hp
        rw [show 2 * 2 ^ m = 2 ^ (m + 1) from by ring] at hdvd
        have hcop : Nat.Coprime (2 ^ (m + 1)) (2 * i + 1) := Nat.Coprime.pow_left _ (by simp)
        have := Nat.le_of_dvd (Nat.pos_of_ne_zero hk0) (hcop.dvd_of_dvd_mul_right hdvd)
        rw [pow_succ] at this
        omega
  · rw [cosineMax, if_neg hp, mul_one]
    constructor
    · obtain ⟨a, p, hpodd, hnp⟩ := Nat.exists_eq_two_pow_mul_odd (n := n) (by omega)
      have hp1 : p ≠ 1 := fun h => hp ⟨a, by rw [hnp, h, mul_one]⟩
      obtain ⟨b, hb⟩ := hpodd
      have hpos : 0 < 2 ^ a := by positivity
      have hn3 : 2 ^ a * 3 ≤ n := by rw [hnp]; exact Nat.mul_le_mul_left _ (by omega)
      have hbn : b < n := by rw [hnp]; nlinarith
      refine ⟨b, hbn, 2 * 2 ^ a, by omega, ?_⟩
      rw [dctEntry, if_neg (by positivity), abs_mul, abs_of_nonneg hsq]
      have e : Real.pi * ((2 * 2 ^ a : ℕ) : ℝ) * (2 * b + 1) / (2 * n) = Real.pi := by
        have : (n : ℝ) = 2 ^ a * (2 * b + 1) := by rw [hnp, hb]; push_cast; ring
        rw [this]; push_cast; field_simp
      rw [e]; simp
    · rintro c ⟨i, hi, k, hk, rfl⟩
      exact dct_le n i k (by omega)

open scoped Classical in
/-- **C135** Coherence of spikes and cosines, for `n ≥ 2`: the atoms of the operator of problem 003 and the columns of `dict.dirac_cosine_basis(n)` have
unit norm and the coherence reported for them is `√(2/n) cos(π/(2n))` when `n` is a power of two and `√(2/n)` otherwise. -/
theorem c135_dirac_cosine_coherence (n : ℕ) (hn : 2 ≤ n) (ci : List ℕ) (cv : List ℝ) (si : List ℕ) (sv : List ℝ) (P : Problem ℝ)
    (hP : prob003 n ci cv si sv = some P) :
    let v := Real.sqrt (2 / n) * if ∃ m, n = 2 ^ m then Real.cos (Real.pi / (2 * n)) else 1
    (∀ i < n + n, ‖atomOf P.A n i‖ = 1) ∧ coherence ℝ (atomOf P.A n) (n + n) = v ∧
    coherence ℝ (fun j => (vec fun i : Fin n => diracCosineBasis n i j)) (n + n) = v := by
  intro v
  have hpair := prob003_pair n (by omega) ci cv si sv P hP
  have hg := dct_greatest n hn
  have hv : cosineMax n = v := rfl
  rw [hv] at hg
  have hv0 : 0 ≤ v := by obtain ⟨⟨i, -, k, -, h⟩, -⟩ := hg; rw [h]; exact abs_nonneg _
  refine ⟨fun i hi => hpair.norm_atom hi, ?_, ?_⟩
  · refine (c66_coherence_real_partial (atomOf P.A n) (n + n) (by omega)).1.unique ⟨?_, ?_⟩
    · obtain ⟨i, hi, k, hk, h⟩ := hg.1
      refine ⟨i, by omega, n + k, by omega, by omega, ?_⟩
      rw [hpair.inner_atom (by omega) (by omega) (by omega) (by omega), if_pos ⟨hi, by omega⟩, Nat.add_sub_cancel_left, cosine_col n (by omega) hi hk, h]
    · rintro c ⟨i, hi, j, hj, hij, rfl⟩
      refine hpair.coh hv0 (fun i k hi hk => ?_) hi hj hij
      rw [cosine_col n (by omega) hi hk]
      exact hg.2 ⟨i, hi, k, hk, rfl⟩
  · obtain ⟨-, hd1, hd2⟩ := c104_dirac_cosine n
    obtain ⟨hk1, hk2, hk3⟩ := c17_dict_cosine n (by omega)
    have hin : ∀ i j, inner ℝ (vec fun k : Fin n => diracCosineBasis n k i) (vec fun k : Fin n => diracCosineBasis n k j) =
        ∑ k ∈ Finset.range n, diracCosineBasis n k i * diracCosineBasis n k j := by
      intro i j
      rw [PiLp.inner_apply, ← Fin.sum_univ_eq_sum_range (fun k => diracCosineBasis n k i * diracCosineBasis n k j) n]
      refine Finset.sum_congr rfl fun k _ => ?_
      simp [vec, mul_comm]
    have hmix : ∀ i k, i < n → k < n → inner ℝ (vec fun k : Fin n => diracCosineBasis n k i) (vec fun l : Fin n => diracCosineBasis n l (n + k)) =
        dctEntry n k i := by
      intro i k hi hk
      rw [hin, Finset.sum_eq_single i]
      · rw [hd1 i hi i hi, hd2 i hi k hk, if_pos rfl, one_mul, hk1 k i hk hi]
      · intro b hb hne
        rw [hd1 b (Finset.mem_range.mp hb) i hi, if_neg hne, zero_mul]
      · intro h; exact absurd (Finset.mem_range.mpr hi) h
    refine (c66_coherence_real_partial _ (n + n) (by omega)).1.unique ⟨?_, ?_⟩
    · obtain ⟨i, hi, k, hk, h⟩ := hg.1
      refine ⟨k, by omega, n + i, by omega, by omega, ?_⟩
      rw [hmix k i hk hi, h]
    · have key : ∀ i j, i < n + n → j < n + n → i < j →
          |inner ℝ (vec fun k : Fin n => diracCosineBasis n k i) (vec fun k : Fin n => diracCosineBasis n k j)| ≤ v := by
        intro i j hi hj hlt
        by_cases hin' : i < n
        · by_cases hjn : j < n
          · rw [hin, Finset.sum_eq_zero, abs_zero]
            · exact hv0
            · intro k hk
              rw [hd1 k (Finset.mem_range.mp hk) i hin', hd1 k (Finset.mem_range.mp hk) j hjn]
              split_ifs <;> first | omega | simp
          · obtain ⟨l, rfl⟩ := Nat.exists_eq_add_of_le (not_lt.mp hjn)
            rw [hmix i l hin' (by omega)]
            exact hg.2 ⟨l, by omega, i, hin', rfl⟩
        · obtain ⟨a, rfl⟩ := Nat.exists_eq_add_of_le (not_lt.mp hin')
          obtain ⟨l, rfl⟩ := Nat.exists_eq_add_of_le (show n ≤ j by omega)
          rw [hin, Finset.sum_congr rfl fun k hk => by
            rw [hd2 k (Finset.mem_range.mp hk) a (by omega), hd2 k (Finset.mem_range.mp hk) l (by omega)], hk3 a l (by omega) (by omega),
            if_neg (by omega), abs_zero]
          exact hv0
      rintro c ⟨i, hi, j, hj, hij, rfl⟩
      rcases lt_or_gt_of_ne hij with hlt | hlt
      · exact key i j hi hj hlt
      · rw [real_inner_comm]; exact key j i hj hi hlt

/-- **C135** Spikes and sinusoids: in problem 004 the atoms have unit norm, distinct atoms of the same kind are orthogonal and the inner product of a spike
with a sinusoid has magnitude exactly `1/√n`. -/
theorem c135_dirac_fourier_coherence (n : ℕ) (hn : 0 < n) (ci : List ℕ) (cv : List ℂ) (si : List ℕ) (sv : List ℂ) (P : Problem ℂ)
    (hP : prob004 n ci cv si sv = some P) :
    (∀ i < n + n, ‖atomOf P.A n i‖ = 1) ∧
    (∀ i < n, ∀ j < n, i ≠ j → inner ℂ (atomOf P.A n i) (atomOf P.A n j) = 0 ∧ inner ℂ (atomOf P.A n (n + i)) (atomOf P.A n (n + j)) = 0) ∧
    ∀ i < n, ∀ j < n, ‖inner ℂ (atomOf P.A n i) (atomOf P.A n (n + j))‖ = 1 / Real.sqrt n := by
  have hpair := prob004_pair n hn ci cv si sv P hP
  have hz : ∀ a b, a < n + n → b < n + n → a ≠ b → ¬ (a < n ∧ n ≤ b) → ¬ (b < n ∧ n ≤ a) → inner ℂ (atomOf P.A n a) (atomOf P.A n b) = 0 := by
    intro a b ha hb hab h1 h2
    rcases lt_or_gt_of_ne hab with hlt | hlt
    · rw [hpair.inner_atom ha hb hab hlt, if_neg h1]
    · rw [← inner_conj_symm, hpair.inner_atom hb ha (Ne.symm hab) hlt, if_neg h2, map_zero]
  refine ⟨fun i hi => hpair.norm_atom hi, fun i hi j hj hij => ⟨hz _ _ (by omega) (by omega) hij (by omega) (by omega),
    hz _ _ (by omega) (by omega) (by omega) (by omega) (by omega)⟩, fun i hi j hj => ?_⟩
  rw [hpair.inner_atom (by omega) (by omega) (by omega) (by omega), if_pos ⟨hi, by omega⟩, Nat.add_sub_cancel_left, fourier_col n hn hi hj]

/-! ## Recovery -/

theorem synth_supp {n : ℕ} {𝕜 : Type*} [RCLike 𝕜] {E : Type*} [NormedAddCommGroup E] [InnerProductSpace 𝕜 E] (phi : ℕ → E) {x : List 𝕜}
    (hx : x.length = n) : ∑ i ∈ Finset.range n, x.getD i 0 • phi i = ∑ i ∈ suppL x, x.getD i 0 • phi i := by
  rw [suppL, hx, Finset.sum_filter]
  refine Finset.sum_congr rfl fun i _ => ?_
  by_cases h : x.getD i 0 = 0
  · rw [if_neg (by simpa using h), h, zero_smul]
  · rw [if_pos h]

theorem prob003_data (n : ℕ) (hn : 0 < n) (ci : List ℕ) (cv : List ℝ) (si : List ℕ) (sv : List ℝ) (P : Problem ℝ)
    (hP : prob003 n ci cv si sv = some P) (x : List ℝ) (hx : P.x = some x) :
    x.length = n + n ∧ P.A.times x = P.b ∧ Incoherent (atomOf P.A n) (n + n) (Real.sqrt (2 / n)) := by
  have hpair := prob003_pair n hn ci cv si sv P hP
  obtain ⟨P', hP', hcon⟩ := c78_prob003 n hn ci cv si sv
  rw [hP] at hP'
  cases hP'
  have hxe := hcon.x_recorded
  rw [hx] at hxe
  cases hxe
  refine ⟨by rw [hcon.x_length, hpair.shape], hcon.observed, fun i hi => hpair.norm_atom hi, fun i j hi hj hij => ?_⟩
  refine hpair.coh (Real.sqrt_nonneg _) (fun i k hi hk => ?_) hi hj hij
  rw [cosine_col n hn hi hk]
  exact dct_le n i k hn

/-- **C135** Orthogonal matching pursuit solves problem 003: for every draw whose representation `x` has `K ≥ 1` non-zero entries with
`(2K - 1) √(2/n) < 1`, `omp.operator_solve` on the atoms of `A` and the measurements `b` with this `K` and no tolerance returns, and what it returns is `x`: the
selected atoms are exactly the support, the coefficients are those of `x` and the residual is zero. -/
theorem c135_omp_solves_prob003 (n : ℕ) (hn : 0 < n) (ci : List ℕ) (cv : List ℝ) (si : List ℕ) (sv : List ℝ) (P : Problem ℝ)
    (hP : prob003 n ci cv si sv = some P) (x : List ℝ) (hx : P.x = some x) (hne : (suppL x).Nonempty)
    (hK : (2 * ((suppL x).card : ℝ) - 1) * Real.sqrt (2 / n) < 1) :
    (∃ s, OmpOperatorSolve (atomOf P.A n) (n + n) (euc n P.b) (suppL x).card 0 s) ∧
    ∀ s, OmpOperatorSolve (atomOf P.A n) (n + n) (euc n P.b) (suppL x).card 0 s → s.k = (suppL x).card ∧ s.r = 0 ∧
      (∀ l, l ∈ suppL x ↔ ∃ i, i < (suppL x).card ∧ s.I i = l) ∧ ∀ i, i < (suppL x).card → s.x i = x.getD (s.I i) 0 := by
  have hpair := prob003_pair n hn ci cv si sv P hP
  obtain ⟨hl, hb, hinc⟩ := prob003_data n hn ci cv si sv P hP x hx
  have e : euc n P.b = ∑ i ∈ suppL x, x.getD i 0 • atomOf P.A n i := by
    rw [← hb, euc_times P.A hpair.shape hpair.linear hl, synth_supp _ hl]
  rw [e]
  exact c109_omp_operator_recovery (atomOf P.A n) (n + n) _ hinc (Real.sqrt_nonneg _) (suppL x)
    (fun i hi => by rw [← hl]; exact Finset.mem_range.mp (Finset.mem_filter.mp hi).1) hK hne (fun i => x.getD i 0)
    (fun l hl => (Finset.mem_filter.mp hl).2)

/-- **C135** Basis pursuit determines problem 003: under the same bound every other list of coefficients with the same measurements has a strictly larger
sum of magnitudes, so any solver that returns a minimiser of the basis pursuit problem returns `x`. -/
theorem c135_l1_solves_prob003 (n : ℕ) (hn : 0 < n) (ci : List ℕ) (cv : List ℝ) (si : List ℕ) (sv : List ℝ) (P : Problem ℝ)
    (hP : prob003 n ci cv si sv = some P) (x : List ℝ) (hx : P.x = some x)
    (hK : (2 * ((suppL x).card : ℝ) - 1) * Real.sqrt (2 / n) < 1) (x' : List ℝ) (hl' : x'.length = n + n) (hb' : P.A.times x' = P.b) (hne : x' ≠ x) :
    l1L x < l1L x' := by
  classical
  have hpair := prob003_pair n hn ci cv si sv P hP
  obtain ⟨hl, hb, hinc⟩ := prob003_data n hn ci cv si sv P hP x hx
  let A : Vec (n + n) →ₗ[ℝ] Vec n :=
    { toFun := fun h => ∑ i : Fin (n + n), h i • atomOf P.A n i
      map_add' := fun a b => by simp [add_smul, Finset.sum_add_distrib]
      map_smul' := fun c a => by simp [mul_smul, Finset.smul_sum] }
  have hA : ∀ z : List ℝ, z.length = n + n → A (vec fun i => z.getD i 0) = euc n (P.A.times z) := by
    intro z hz
    rw [euc_times P.A hpair.shape hpair.linear hz, ← Fin.sum_univ_eq_sum_range (fun i => z.getD i 0 • atomOf P.A n i) (n + n)]
    rfl
  have hcol : ∀ i, Cvx.colV A i = atomOf P.A n i := by
    intro i
    show ∑ k : Fin (n + n), (vec fun j => if j = i then (1 : ℝ) else 0 : Vec (n + n)) k • atomOf P.A n k = _
    simp [vec]
  let S : Finset (Fin (n + n)) := Finset.univ.filter fun i => x.getD i 0 ≠ 0
  have hcard : S.card = (suppL x).card := by
    rw [suppL, hl, ← Finset.card_map Fin.valEmbedding]
    congr 1
    ext i
    simp only [S, Finset.mem_map, Finset.mem_filter, Finset.mem_univ, true_and, Fin.valEmbedding_apply, Finset.mem_range]
    exact ⟨fun ⟨a, h1, h2⟩ => h2 ▸ ⟨a.2, h1⟩, fun ⟨h1, h2⟩ => ⟨⟨i, h1⟩, h2, rfl⟩⟩
  have hN := Cvx.c112_coherence A 1 (Real.sqrt (2 / n)) one_pos (Real.sqrt_nonneg _)
    (fun i => by rw [hcol, hinc.unit i i.2, one_pow])
    (fun i j hij => by rw [hcol, hcol, mul_one]; exact hinc.coh i j i.2 j.2 fun h => hij (Fin.ext h)) S (by rw [hcard]; exact hK)
  have h0 : A ((vec fun i => x'.getD i 0) - vec fun i => x.getD i 0) = 0 := by
    rw [map_sub, hA x' hl', hA x hl, hb, hb', sub_self]
  have hh : ((vec fun i => x'.getD i 0) - vec fun i => x.getD i 0 : Vec (n + n)) ≠ 0 := by
    intro h
    refine hne (ext_getD hl' hl fun i hi => ?_)
    have := congrArg (fun v : Vec (n + n) => v ⟨i, hi⟩) h
    exact sub_eq_zero.mp this
  have h1 := hN _ hh h0
  have hw : ∀ i, (Cvx.yallWeights none : Vec (n + n)) i = 1 := fun i => rfl
  simp only [hw, one_mul] at h1
  have hsum : ∀ z : List ℝ, z.length = n + n → l1L z = ∑ i : Fin (n + n), |z.getD i 0| := by
    intro z hz
    rw [l1L, Fin.sum_univ_eq_sum_range (fun i => |z.getD i 0|) (n + n), ← hz]
    clear hz
    induction z with
    | nil => simp
    | cons a z ih => rw [List.map_cons, List.sum_cons, ih, List.length_cons, Finset.sum_range_succ']; simp [add_comm]
  rw [hsum x hl, hsum x' hl', ← Finset.sum_add_sum_compl S, ← Finset.sum_add_sum_compl S (fun i : Fin (n + n) => |x'.getD i 0|)]
  have hd : ∀ i : Fin (n + n), ((vec fun i => x'.getD i 0) - vec fun i => x.getD i 0 : Vec (n + n)) i = x'.getD i 0 - x.getD i 0 := fun i => rfl
  simp only [hd] at h1
  have hSc : ∀ i ∈ Sᶜ, x.getD i 0 = 0 := fun i hi => by simpa [S] using hi
  have h2 : ∑ i ∈ Sᶜ, |x.getD i 0| = 0 := Finset.sum_eq_zero fun i hi => by rw [hSc i hi, abs_zero]
  have h3 : ∑ i ∈ Sᶜ, |x'.getD i 0 - x.getD i 0| = ∑ i ∈ Sᶜ, |x'.getD i 0| := Finset.sum_congr rfl fun i hi => by rw [hSc i hi, sub_zero]
  have h4 : ∑ i ∈ S, |x.getD i 0| ≤ ∑ i ∈ S, |x'.getD i 0| + ∑ i ∈ S, |x'.getD i 0 - x.getD i 0| := by
    rw [← Finset.sum_add_distrib]
    refine Finset.sum_le_sum fun i _ => ?_
    have := abs_sub_abs_le_abs_sub (x.getD i 0) (x'.getD i 0)
    rw [abs_sub_comm] at this
    linarith
  linarith

/-- **C135** Hard thresholding pursuit solves problem 004: write `δ = (3K - 1)/√n` for a `K ≥ 1` not below the number of non-zero entries of the representation
`x`, and let `δ < 1`. On the atoms of `A` and the measurements `b`, with step one and any least squares routine, every state of the loop (whatever the stop rule) reached
after `t ≥ 2` iterations is `x` itself with a zero residual as soon as `√2 δ ρ^(t-2) 2δ |x|` is below the smallest non-zero magnitude of `x`, where
`ρ = √2 δ / √(1 - δ²)`. -/
theorem c135_htp_solves_prob004 (n : ℕ) (hn : 0 < n) (ci : List ℕ) (cv : List ℂ) (si : List ℕ) (sv : List ℂ) (P : Problem ℂ)
    (hP : prob004 n ci cv si sv = some P) (x : List ℂ) (hx : P.x = some x) (K : ℕ) (hK1 : 1 ≤ K) (hKn : K ≤ n + n) (hS : (suppL x).card ≤ K)
    (δ : ℝ) (hδe : δ = (3 * K - 1) / Real.sqrt n) (hδ : δ < 1)
    (lstsq : List ℕ → EuclideanSpace ℂ (Fin n) → List ℂ) (hlst : ∀ I, IsLstsq (atomOf P.A n) I (euc n P.b) (lstsq I (euc n P.b)))
    (c : GState ℂ (EuclideanSpace ℂ (Fin n)) → Prop) (s : GState ℂ (EuclideanSpace ℂ (Fin n)))
    (hs : Reach c (htpBody (atomOf P.A n) (n + n) 1 lstsq (euc n P.b) K) (ihtInit (atomOf P.A n) (n + n) 1 (euc n P.b) K) s)
    (h2 : 2 ≤ s.iters)
    (hclose : ∀ i ∈ suppL x, Real.sqrt 2 * (δ * ((Real.sqrt 2 * δ / Real.sqrt (1 - δ ^ 2)) ^ (s.iters - 2) *
      (2 * δ * l2 (n + n) fun i => x.getD i 0))) < ‖x.getD i 0‖) :
    (∀ i ∈ suppL x, i ∈ s.I) ∧ (∀ i, i < n + n → buildSignal s.I s.x i = x.getD i 0) ∧ s.r = 0 := by
  have hpair := prob004_pair n hn ci cv si sv P hP
  obtain ⟨P', hP', -, hcon⟩ := c78_prob004 n hn ci cv si sv
  rw [hP] at hP'
  cases hP'
  have hxe := hcon.x_recorded
  rw [hx] at hxe
  cases hxe
  have hl : (spikesOf n si sv ++ coeffsOf n ((Real.sqrt (n / 2) : ℝ) : ℂ) ci cv).length = n + n := by rw [hcon.x_length, hpair.shape]
  have hb := hcon.observed
  obtain ⟨x, hxdef⟩ : ∃ x, x = spikesOf n si sv ++ coeffsOf n ((Real.sqrt (n / 2) : ℝ) : ℂ) ci cv := ⟨_, rfl⟩
  rw [← hxdef] at hl hb hS hclose ⊢
  have hn' : (0 : ℝ) < Real.sqrt n := Real.sqrt_pos.mpr (by exact_mod_cast hn)
  have hK1' : (1 : ℝ) ≤ K := by exact_mod_cast hK1
  have hrip : Rip ℂ (atomOf P.A n) (n + n) 1 (3 * K) δ := by
    have := c135_rip_of_coherence (𝕜 := ℂ) (atomOf P.A n) (n + n) (1 / Real.sqrt n) (by positivity) (fun i hi => hpair.norm_atom hi)
      (fun i j hi hj hij => hpair.coh (by positivity) (fun i k hi hk => (fourier_col n hn hi hk).le) hi hj hij) (3 * K) (by omega)
    rw [hδe]
    convert this using 1
    push_cast; ring
  refine c111_htp_finite (atomOf P.A n) (n + n) 1 zero_le_one K hKn δ (by rw [hδe]; exact div_nonneg (by linarith) hn'.le) hδ hrip lstsq
    (fun i => x.getD i 0) (suppL x) hS (fun i hi => by rw [← hl]; exact Finset.mem_range.mp (Finset.mem_filter.mp hi).1) (fun i hi hni => ?_)
    (euc n P.b) ?_ hlst c s hs h2 hclose
  · by_contra h
    exact hni (Finset.mem_filter.mpr ⟨Finset.mem_range.mpr (by rw [hl]; exact hi), h⟩)
  · rw [← hb, euc_times P.A hpair.shape hpair.linear hl]; rfl

/-- The support of what the generators draw. -/
theorem mem_supp {𝕜 : Type*} [RCLike 𝕜] (n : ℕ) (r : 𝕜) (hr : r ≠ 0) (ci : List ℕ) (cv : List 𝕜) (si : List ℕ) (sv : List 𝕜) (l : ℕ) :
    l ∈ suppL (spikesOf n si sv ++ coeffsOf n r ci cv) ↔
      (l < n ∧ (spikesOf n si sv).getD l 0 ≠ 0) ∨ ∃ k, k < n ∧ l = n + k ∧ (spikesOf n ci cv).getD k 0 ≠ 0 := by
  have hc : ∀ k, (coeffsOf n r ci cv).getD k 0 = (spikesOf n ci cv).getD k 0 * r := by
    intro k
    simp only [coeffsOf, List.getD, List.getElem?_map]
    cases (spikesOf n ci cv)[k]? <;> simp
  simp only [suppL, Finset.mem_filter, Finset.mem_range, List.length_append, length_spikesOf, length_coeffsOf]
  by_cases hl : l < n
  · rw [List.getD_append _ _ _ _ (by simpa using hl)]
    exact ⟨fun h => Or.inl ⟨hl, h.2⟩, fun h => ⟨by omega, by
      rcases h with h | ⟨k, -, h, -⟩
      · exact h.2
      · omega⟩⟩
  · obtain ⟨k, rfl⟩ := Nat.exists_eq_add_of_le (not_lt.mp hl)
    rw [List.getD_append_right _ _ _ _ (by simp), length_spikesOf, Nat.add_sub_cancel_left, hc]
    constructor
    · rintro ⟨h1, h2⟩
      exact Or.inr ⟨k, by omega, rfl, left_ne_zero_of_mul h2⟩
    · rintro (h | ⟨k', h1, h2, h3⟩)
      · omega
      · have : k' = k := by omega
        subst this
        exact ⟨by omega, mul_ne_zero h3 hr⟩

theorem spikes_mem {𝕜 : Type*} [RCLike 𝕜] (n : ℕ) (si : List ℕ) (sv : List 𝕜) (l : ℕ) (h : (spikesOf n si sv).getD l 0 ≠ 0) : l ∈ si := by
  by_contra hn
  refine h ?_
  have := ent_scatterSet_of_notMem (v := sv) (z := List.replicate n (0 : 𝕜)) hn
  rw [spikesOf]
  exact this.trans (by by_cases hl : l < n <;> simp [ent, List.getD, hl])

/-- The number of non-zero entries of the drawn representation is at most the number of spikes plus the number of (co)sines, with equality when the positions
are distinct and in range and the drawn values are not zero. -/
theorem card_supp {𝕜 : Type*} [RCLike 𝕜] (n : ℕ) (r : 𝕜) (hr : r ≠ 0) (ci : List ℕ) (cv : List 𝕜) (si : List ℕ) (sv : List 𝕜) :
    (suppL (spikesOf n si sv ++ coeffsOf n r ci cv)).card ≤ si.length + ci.length ∧
    (ci.Nodup → si.Nodup → (∀ i ∈ ci, i < n) → (∀ i ∈ si, i < n) → ci.length = cv.length → si.length = sv.length → (∀ a ∈ cv, a ≠ 0) → (∀ a ∈ sv, a ≠ 0) →
      (suppL (spikesOf n si sv ++ coeffsOf n r ci cv)).card = si.length + ci.length) := by
  classical
  have hsub : suppL (spikesOf n si sv ++ coeffsOf n r ci cv) ⊆ si.toFinset ∪ (ci.map (n + ·)).toFinset := by
    intro l hl
    rw [mem_supp n r hr] at hl
    rw [Finset.mem_union, List.mem_toFinset, List.mem_toFinset, List.mem_map]
    rcases hl with ⟨-, h⟩ | ⟨k, -, rfl, h⟩
    · exact Or.inl (spikes_mem n si sv l h)
    · exact Or.inr ⟨k, spikes_mem n ci cv k h, rfl⟩
  constructor
  · refine (Finset.card_le_card hsub).trans ((Finset.card_union_le _ _).trans (Nat.add_le_add (List.toFinset_card_le _) ?_))
    exact (List.toFinset_card_le _).trans (by simp)
  · intro hc1 hs1 hc2 hs2 hc3 hs3 hc4 hs4
    have hval : ∀ (I : List ℕ) (v : List 𝕜), I.Nodup → (∀ i ∈ I, i < n) → I.length = v.length → (∀ a ∈ v, a ≠ 0) → ∀ l ∈ I, (spikesOf n I v).getD l 0 ≠ 0 := by
      intro I v h1 h2 h3 h4 l hl
      obtain ⟨k, hk, rfl⟩ := List.getElem_of_mem hl
      have := ent_scatterSet_of_nodup (v := v) (z := List.replicate n (0 : 𝕜)) (k := k) h1 h3 hk (by simpa [List.getD, hk] using h2 _ hl)
      rw [spikesOf]
      have e : (scatterSet (List.replicate n (0 : 𝕜)) I v).getD I[k] 0 = v[k] := by
        simpa [ent, List.getD, hk, h3 ▸ hk] using this
      rw [e]
      exact h4 _ (List.getElem_mem _)
    have heq : suppL (spikesOf n si sv ++ coeffsOf n r ci cv) = si.toFinset ∪ (ci.map (n + ·)).toFinset := by
      refine Finset.Subset.antisymm hsub fun l hl => ?_
      rw [mem_supp n r hr]
      rw [Finset.mem_union, List.mem_toFinset, List.mem_toFinset, List.mem_map] at hl
      rcases hl with h | ⟨k, hk, rfl⟩
      · exact Or.inl ⟨hs2 l h, hval si sv hs1 hs2 hs3 hs4 l h⟩
      · exact Or.inr ⟨k, hc2 k hk, rfl, hval ci cv hc1 hc2 hc3 hc4 k hk⟩
    rw [heq, Finset.card_union_of_disjoint, List.toFinset_card_of_nodup hs1, List.toFinset_card_of_nodup (hc1.map fun a b h => by simpa using h), List.length_map]
    rw [Finset.disjoint_left]
    intro l h1 h2
    rw [List.mem_toFinset] at h1
    rw [List.mem_toFinset, List.mem_map] at h2
    obtain ⟨k, -, rfl⟩ := h2
    have := hs2 _ h1
    omega

/-- A draw that meets the hypotheses: `n = 32`, one spike and one cosine. -/
theorem ex_prob003 : ∃ P x, prob003 32 [3] [1] [5] [-2] = some P ∧ P.x = some x ∧ (suppL x).Nonempty ∧ (2 * ((suppL x).card : ℝ) - 1) * Real.sqrt (2 / (32 : ℕ)) < 1 := by
  obtain ⟨P, hP, hc⟩ := c78_prob003 32 (by norm_num) [3] [1] [5] [-2]
  have hcard := (card_supp (𝕜 := ℝ) 32 (Real.sqrt ((32 : ℕ) / 2)) (by rw [ne_eq, Real.sqrt_eq_zero']; norm_num) [3] [1] [5] [-2]).2 (by simp) (by simp) (by simp) (by simp)
    rfl rfl (by simp) (by simp)
  refine ⟨P, _, hP, hc.x_recorded, ?_, ?_⟩
  · rw [← Finset.card_pos, hcard]; simp
  · rw [hcard]
    have : Real.sqrt (2 / (32 : ℕ)) = 1 / 4 := by
      rw [show (2 / ((32 : ℕ) : ℝ)) = (1 / 4) ^ 2 by norm_num, Real.sqrt_sq (by norm_num)]
    rw [this]; norm_num

/-- A draw of problem 004 with one spike and one sinusoid in dimension 100: `δ = 1/2` for `K = 2`, and a least squares routine exists. -/
theorem ex_prob004 : ∃ P x, prob004 100 [3] [Complex.I] [5] [-2] = some P ∧ P.x = some x ∧ (suppL x).card = 2 ∧ ((3 * (2 : ℕ) - 1 : ℝ)) / Real.sqrt (100 : ℕ) = 1 / 2 ∧
    ∃ lstsq : List ℕ → EuclideanSpace ℂ (Fin 100) → List ℂ, ∀ I, IsLstsq (atomOf P.A 100) I (euc 100 P.b) (lstsq I (euc 100 P.b)) := by
  obtain ⟨P, hP, -, hc⟩ := c78_prob004 100 (by norm_num) [3] [Complex.I] [5] [-2]
  have hcard := (card_supp (𝕜 := ℂ) 100 ((Real.sqrt ((100 : ℕ) / 2) : ℝ) : ℂ) (by rw [ne_eq, Complex.ofReal_eq_zero, Real.sqrt_eq_zero']; norm_num) [3] [Complex.I] [5] [-2]).2
    (by simp) (by simp) (by simp) (by simp) rfl rfl (by simp) (by simp)
  refine ⟨P, _, hP, hc.x_recorded, by rw [hcard]; rfl, ?_, fun I y => (exists_lstsq (atomOf P.A 100) I y).choose,
    fun I => (exists_lstsq (atomOf P.A 100) I (euc 100 P.b)).choose_spec⟩
  rw [show (((100 : ℕ) : ℝ)) = 10 ^ 2 by norm_num, Real.sqrt_sq (by norm_num)]; norm_num

/-! Instances. -/

example : ∃ P : Problem ℝ, coherence ℝ (atomOf P.A 32) (32 + 32) = Real.sqrt (2 / (32 : ℕ)) * Real.cos (Real.pi / (2 * (32 : ℕ))) := by
  obtain ⟨P, x, hP, -⟩ := ex_prob003
  have := (c135_dirac_cosine_coherence 32 (by norm_num) _ _ _ _ P hP).2.1
  rw [if_pos ⟨5, by norm_num⟩] at this
  exact ⟨P, this⟩

example : ∃ P : Problem ℂ, ∀ i < 100, ∀ j < 100, ‖inner ℂ (atomOf P.A 100 i) (atomOf P.A 100 (100 + j))‖ = 1 / Real.sqrt (100 : ℕ) := by
  obtain ⟨P, x, hP, -⟩ := ex_prob004
  exact ⟨P, (c135_dirac_fourier_coherence 100 (by norm_num) _ _ _ _ P hP).2.2⟩

/-- One spike and one cosine in 32 samples: OMP recovers them, and every other exact representation has a larger l1 norm. -/
example : ∃ (P : Problem ℝ) (x : List ℝ), (∃ s, OmpOperatorSolve (atomOf P.A 32) (32 + 32) (euc 32 P.b) (suppL x).card 0 s ∧ s.r = 0) ∧
    ∀ x' : List ℝ, x'.length = 32 + 32 → P.A.times x' = P.b → x' ≠ x → l1L x < l1L x' := by
  obtain ⟨P, x, hP, hx, hne, hK⟩ := ex_prob003
  obtain ⟨⟨s, hs⟩, h⟩ := c135_omp_solves_prob003 32 (by norm_num) _ _ _ _ P hP x hx hne hK
  exact ⟨P, x, ⟨s, hs, (h s hs).2.1⟩, c135_l1_solves_prob003 32 (by norm_num) _ _ _ _ P hP x hx hK⟩

/-- One spike and one exponential in 100 samples, `delta = 1/2`. -/
example : ∃ (P : Problem ℂ) (x : List ℂ) (lstsq : List ℕ → EuclideanSpace ℂ (Fin 100) → List ℂ), (suppL x).card = 2 ∧
    ∀ (c : GState ℂ (EuclideanSpace ℂ (Fin 100)) → Prop) s,
      Reach c (htpBody (atomOf P.A 100) (100 + 100) 1 lstsq (euc 100 P.b) 2) (ihtInit (atomOf P.A 100) (100 + 100) 1 (euc 100 P.b) 2) s → 2 ≤ s.iters →
      (∀ i ∈ suppL x, Real.sqrt 2 * (1 / 2 * ((Real.sqrt 2 * (1 / 2) / Real.sqrt (1 - (1 / 2) ^ 2)) ^ (s.iters - 2) *
        (2 * (1 / 2) * l2 (100 + 100) fun i => x.getD i 0))) < ‖x.getD i 0‖) → s.r = 0 := by
  obtain ⟨P, x, hP, hx, hc, hδ, lstsq, hl⟩ := ex_prob004
  exact ⟨P, x, lstsq, hc, fun c s hs h2 hcl => (c135_htp_solves_prob004 100 (by norm_num) _ _ _ _ P hP x hx 2 (by norm_num) (by norm_num) hc.le (1 / 2) hδ.symm
    (by norm_num) lstsq hl c s hs h2 hcl).2.2⟩

end Verif.Problems
