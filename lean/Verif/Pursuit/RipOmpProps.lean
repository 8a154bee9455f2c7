import Verif.Pursuit.OmpNoiseProps
import Verif.Pursuit.CoherenceRip

set_option autoImplicit false
/-!
# Orthogonal and plain matching pursuit under the restricted isometry property and the exact recovery condition (C138)
-/
noncomputable section
namespace Verif.Pursuit
open Verif.Loop
open scoped RealInnerProductSpace

variable {E : Type*} [NormedAddCommGroup E] [InnerProductSpace ℝ E]

/-! ## Lemmas -/

/-- The restricted isometry property for sums over a set of atoms. -/
theorem Rip.sum {phi : ℕ → E} {n s : ℕ} {δ : ℝ} (h : Rip ℝ phi n 1 s δ) {T : Finset ℕ} (hT : T.card ≤ s) (hTn : ∀ i ∈ T, i < n) (z : ℕ → ℝ) :
    |‖∑ i ∈ T, z i • phi i‖ ^ 2 - ∑ i ∈ T, z i ^ 2| ≤ δ * ∑ i ∈ T, z i ^ 2 := by
  classical
  have h1 := h (restr T z) T hT (restr_supp n T z)
  obtain ⟨e1, e2⟩ := synth_restrict phi n (restr T z) T (restr_supp n T z)
  have hf : (Finset.range n).filter (· ∈ T) = T := by
    ext i
    simp only [Finset.mem_filter, Finset.mem_range]
    exact ⟨fun h => h.2, fun h => ⟨hTn i h, h⟩⟩
  rw [e1, e2, one_mul, hf] at h1
  have e3 : ∑ i ∈ T, restr T z i • phi i = ∑ i ∈ T, z i • phi i := Finset.sum_congr rfl fun i hi => by rw [restr, if_pos hi]
  have e4 : ∑ i ∈ T, ‖restr T z i‖ ^ 2 = ∑ i ∈ T, z i ^ 2 := Finset.sum_congr rfl fun i hi => by rw [restr, if_pos hi, Real.norm_eq_abs, sq_abs]
  rwa [e3, e4] at h1

/-- The energy of a combination is at most the largest correlation times the total coefficient size. -/
theorem energy_le {phi : ℕ → E} {S : Finset ℕ} (c : ℕ → ℝ) {M : ℝ} (hM : ∀ l ∈ S, |⟪phi l, ∑ l ∈ S, c l • phi l⟫| ≤ M) (hM0 : 0 ≤ M) :
    ‖∑ l ∈ S, c l • phi l‖ ^ 2 ≤ Real.sqrt S.card * Real.sqrt (∑ l ∈ S, c l ^ 2) * M := by
  have h1 : ‖∑ l ∈ S, c l • phi l‖ ^ 2 = ∑ l ∈ S, c l * ⟪phi l, ∑ l ∈ S, c l • phi l⟫ := by
    rw [← real_inner_self_eq_norm_sq, sum_inner]
    exact Finset.sum_congr rfl fun l _ => real_inner_smul_left _ _ _
  have h2 : ∑ l ∈ S, c l * ⟪phi l, ∑ l ∈ S, c l • phi l⟫ ≤ (∑ l ∈ S, |c l|) * M := by
    rw [Finset.sum_mul]
    refine Finset.sum_le_sum fun l hl => (le_abs_self _).trans ?_
    rw [abs_mul]
    exact mul_le_mul_of_nonneg_left (hM l hl) (abs_nonneg _)
  have h3 : ∑ l ∈ S, |c l| ≤ Real.sqrt S.card * Real.sqrt (∑ l ∈ S, c l ^ 2) := by
    rw [← Real.sqrt_mul (Nat.cast_nonneg _)]
    refine Real.le_sqrt_of_sq_le ?_
    have := sq_sum_le_card_mul_sum_sq (s := S) (f := fun l => |c l|)
    simpa using this
  rw [h1]
  exact h2.trans (mul_le_mul_of_nonneg_right h3 hM0)

/-- The correlation of an atom outside the combination, under the restricted isometry property. -/
theorem rip_outside {phi : ℕ → E} {n : ℕ} {δ : ℝ} {S : Finset ℕ} (h : Rip ℝ phi n 1 (S.card + 1) δ) (hS : ∀ i ∈ S, i < n) (c : ℕ → ℝ) {j : ℕ} (hj : j < n)
    (hjS : j ∉ S) :
    (1 - δ * Real.sqrt (S.card + 1)) * ∑ l ∈ S, c l ^ 2 + Real.sqrt S.card * Real.sqrt (∑ l ∈ S, c l ^ 2) * |⟪phi j, ∑ l ∈ S, c l • phi l⟫| ≤
      ‖∑ l ∈ S, c l • phi l‖ ^ 2 := by
  classical
  obtain ⟨v, hv⟩ : ∃ v, v = ∑ l ∈ S, c l • phi l := ⟨_, rfl⟩
  obtain ⟨Q, hQ⟩ : ∃ Q, Q = ∑ l ∈ S, c l ^ 2 := ⟨_, rfl⟩
  obtain ⟨σ, hσ, hσ1⟩ : ∃ σ : ℝ, σ * ⟪phi j, v⟫ = |⟪phi j, v⟫| ∧ σ ^ 2 = 1 := by
    rcases le_total 0 ⟪phi j, v⟫ with h | h
    · exact ⟨1, by rw [abs_of_nonneg h, one_mul], by norm_num⟩
    · exact ⟨-1, by rw [abs_of_nonpos h]; ring, by norm_num⟩
  obtain ⟨s, hs⟩ : ∃ s, s = Real.sqrt (S.card + 1) := ⟨_, rfl⟩
  have hs2 : s ^ 2 = S.card + 1 := by rw [hs]; exact Real.sq_sqrt (by positivity)
  have hs0 : 0 < s := by rw [hs]; exact Real.sqrt_pos.mpr (by positivity)
  obtain ⟨t, ht⟩ : ∃ t, t = Real.sqrt S.card * Real.sqrt Q := ⟨_, rfl⟩
  have hQ0 : 0 ≤ Q := by rw [hQ]; exact Finset.sum_nonneg fun _ _ => sq_nonneg _
  have ht2 : t ^ 2 = (s ^ 2 - 1) * Q := by
    rw [ht, mul_pow, Real.sq_sqrt (Nat.cast_nonneg _), Real.sq_sqrt hQ0, hs2]; ring
  -- the two test vectors
  have key : ∀ α τ : ℝ, |‖α • v + τ • phi j‖ ^ 2 - (α ^ 2 * Q + τ ^ 2)| ≤ δ * (α ^ 2 * Q + τ ^ 2) := by
    intro α τ
    have h1 := h.sum (T := insert j S) (by rw [Finset.card_insert_of_notMem hjS]) (fun i hi => by
      rcases Finset.mem_insert.mp hi with h | h
      · rw [h]; exact hj
      · exact hS i h) (fun i => if i = j then τ else α * c i)
    rw [Finset.sum_insert hjS, Finset.sum_insert hjS, if_pos rfl] at h1
    have e1 : ∑ i ∈ S, (if i = j then τ else α * c i) • phi i = α • v := by
      rw [hv, Finset.smul_sum]
      exact Finset.sum_congr rfl fun i hi => by rw [if_neg (ne_of_mem_of_not_mem hi hjS), mul_smul]
    have e2 : ∑ i ∈ S, (if i = j then τ else α * c i) ^ 2 = α ^ 2 * Q := by
      rw [hQ, Finset.mul_sum]
      exact Finset.sum_congr rfl fun i hi => by rw [if_neg (ne_of_mem_of_not_mem hi hjS), mul_pow]
    rwa [e1, e2, add_comm (τ • phi j), add_comm (τ ^ 2)] at h1
  have expand : ∀ α τ : ℝ, ‖α • v + τ • phi j‖ ^ 2 = α ^ 2 * ‖v‖ ^ 2 + 2 * (α * τ) * ⟪phi j, v⟫ + τ ^ 2 * ‖phi j‖ ^ 2 := by
    intro α τ
    rw [norm_add_sq_real, norm_smul, norm_smul, mul_pow, mul_pow, Real.norm_eq_abs, Real.norm_eq_abs, sq_abs, sq_abs, real_inner_smul_left, real_inner_smul_right,
      real_inner_comm]
    ring
  have k1 := (abs_le.mp (key (s + 1) (-(σ * t)))).1
  have k2 := (abs_le.mp (key (s - 1) (σ * t))).2
  rw [expand] at k1 k2
  have e1 : 2 * ((s + 1) * -(σ * t)) * ⟪phi j, v⟫ = -(2 * (s + 1) * t * |⟪phi j, v⟫|) := by rw [← hσ]; ring
  have e2 : 2 * ((s - 1) * (σ * t)) * ⟪phi j, v⟫ = 2 * (s - 1) * t * |⟪phi j, v⟫| := by rw [← hσ]; ring
  have e3 : (-(σ * t)) ^ 2 = (s ^ 2 - 1) * Q := by rw [neg_sq, mul_pow, hσ1, ht2, one_mul]
  have e4 : (σ * t) ^ 2 = (s ^ 2 - 1) * Q := by rw [mul_pow, hσ1, ht2, one_mul]
  rw [e1, e3] at k1
  rw [e2, e4] at k2
  have k3 : 4 * s * ((1 - δ * s) * Q + t * |⟪phi j, v⟫|) ≤ 4 * s * ‖v‖ ^ 2 := by nlinarith
  have k4 := le_of_mul_le_mul_left k3 (by linarith : 0 < 4 * s)
  rw [← hs, ← hQ, ← hv, ← ht]
  exact k4

/-- The margins of the restricted isometry property. -/
theorem rip_margin {phi : ℕ → E} {n : ℕ} {δ : ℝ} (hδ : 0 ≤ δ) {S : Finset ℕ} (hne : S.Nonempty) (h : Rip ℝ phi n 1 (S.card + 1) δ) (hS : ∀ i ∈ S, i < n)
    (hK : δ * Real.sqrt (S.card + 1) ≤ 1) :
    Margin phi n S ((1 - δ) / Real.sqrt S.card) ((1 - δ * Real.sqrt (S.card + 1)) / Real.sqrt S.card) := by
  have hcard : (0 : ℝ) < S.card := by exact_mod_cast Finset.card_pos.2 hne
  have hκ : 0 < Real.sqrt S.card := Real.sqrt_pos.mpr hcard
  have hs1 : 1 ≤ Real.sqrt ((S.card : ℝ) + 1) := by rw [Real.one_le_sqrt]; linarith
  have hle : δ ≤ δ * Real.sqrt (S.card + 1) := le_mul_of_one_le_right hδ hs1
  refine ⟨div_nonneg (by linarith) hκ.le, div_le_div_of_nonneg_right (by linarith) hκ.le, fun c l hl => ?_⟩
  obtain ⟨i, hi, hmax⟩ := Finset.exists_max_image S (fun i => |⟪phi i, ∑ l ∈ S, c l • phi l⟫|) ⟨l, hl⟩
  have hen := energy_le (phi := phi) c (fun l hl => hmax l hl) (abs_nonneg _)
  obtain ⟨M, hM⟩ : ∃ M, M = |⟪phi i, ∑ l ∈ S, c l • phi l⟫| := ⟨_, rfl⟩
  obtain ⟨Z, hZ⟩ : ∃ Z, Z = Real.sqrt (∑ l ∈ S, c l ^ 2) := ⟨_, rfl⟩
  have hQ0 : 0 ≤ ∑ l ∈ S, c l ^ 2 := Finset.sum_nonneg fun _ _ => sq_nonneg _
  have hZ2 : ∑ l ∈ S, c l ^ 2 = Z ^ 2 := by rw [hZ, Real.sq_sqrt hQ0]
  have hcl : |c l| ≤ Z := by
    rw [hZ]
    refine Real.le_sqrt_of_sq_le ?_
    rw [sq_abs]
    exact Finset.single_le_sum (f := fun l => c l ^ 2) (fun _ _ => sq_nonneg _) hl
  have hlow := (abs_le.mp (h.sum (T := S) (by omega) hS c)).1
  have hZ0 : 0 ≤ Z := (abs_nonneg _).trans hcl
  rw [← hM, ← hZ] at hen
  rw [hZ2] at hlow
  have zero_case : Z = 0 → c l = 0 := fun h0 => by rw [h0] at hcl; exact abs_nonpos_iff.mp hcl
  refine ⟨i, hi, ?_, fun j hj hjS => ?_⟩
  · rw [← hM, div_mul_eq_mul_div, div_le_iff₀ hκ]
    rcases hZ0.eq_or_lt with h0 | h0
    · rw [zero_case h0.symm, abs_zero, mul_zero]
      exact mul_nonneg (by rw [hM]; exact abs_nonneg _) hκ.le
    · have h1 : (1 - δ) * Z * Z ≤ M * Real.sqrt S.card * Z := by nlinarith
      have h2 := le_of_mul_le_mul_right h1 h0
      have h3 : (1 - δ) * |c l| ≤ (1 - δ) * Z := mul_le_mul_of_nonneg_left hcl (by linarith)
      linarith
  · have h1 := rip_outside h hS c hj hjS
    rw [hZ2, Real.sqrt_sq hZ0] at h1
    rw [← hM, div_mul_eq_mul_div, ← le_sub_iff_add_le', div_le_iff₀ hκ]
    rcases hZ0.eq_or_lt with h0 | h0
    · have hz : ∑ l ∈ S, c l • phi l = 0 := Finset.sum_eq_zero fun k hk => by
        have h2 : c k ^ 2 ≤ 0 := by
          have := Finset.single_le_sum (f := fun l => c l ^ 2) (fun _ _ => sq_nonneg _) hk
          rw [hZ2, ← h0] at this
          simpa using this
        rw [pow_eq_zero_iff two_ne_zero |>.mp (le_antisymm h2 (sq_nonneg _)), zero_smul]
      rw [zero_case h0.symm, hM, hz, inner_zero_right, inner_zero_right, abs_zero, mul_zero, sub_self, zero_mul]
    · have h2 : ((1 - δ * Real.sqrt (S.card + 1)) * Z) * Z ≤ (M - |⟪phi j, ∑ l ∈ S, c l • phi l⟫|) * Real.sqrt S.card * Z := by nlinarith
      have h3 := le_of_mul_le_mul_right h2 h0
      have h4 := mul_le_mul_of_nonneg_left hcl (by linarith : 0 ≤ 1 - δ * Real.sqrt (S.card + 1))
      linarith

theorem Margin.selects {phi : ℕ → E} {n : ℕ} {S : Finset ℕ} {β γ : ℝ} (h : Margin phi n S β γ) (hγ : 0 < γ) : Selects phi n S := by
  rintro c ⟨l, hl, hc⟩
  obtain ⟨i, hi, h1, h2⟩ := h.sel c l hl
  have hp : 0 < γ * |c l| := mul_pos hγ (abs_pos.mpr hc)
  have hq : 0 < β * |c l| := mul_pos (hγ.trans_le h.le) (abs_pos.mpr hc)
  refine ⟨i, hi, fun h0 => ?_, fun j hj hjS => ?_⟩
  · rw [h0, abs_zero] at h1
    linarith
  · have := h2 j hj hjS
    linarith

/-- Matching pursuit on a support that is always selected. -/
theorem mp_of_select {phi : ℕ → E} {n : ℕ} (hu : ∀ i, i < n → ‖phi i‖ = 1) {S : Finset ℕ} (hS : ∀ i ∈ S, i < n) (hne : S.Nonempty) (hS2 : Selects phi n S) {lam : ℝ}
    (hl0 : 0 < lam) (hl : ∀ c : ℕ → ℝ, lam * ∑ l ∈ S, c l ^ 2 ≤ ‖∑ l ∈ S, c l • phi l‖ ^ 2) (a : ℕ → ℝ) {y : E} (hy : y = ∑ l ∈ S, a l • phi l) {rtol : ℝ} {N : ℕ}
    {s : MpState E} (h : Reach (mpCond y rtol N) (mpStep phi n y) (mpInit y) s) :
    (∀ i, i ∉ S → s.x i = 0) ∧ ‖s.r‖ ^ 2 ≤ (1 - lam / S.card) ^ s.iters * ‖y‖ ^ 2 ∧ lam * ∑ l ∈ S, (a l - s.x l) ^ 2 ≤ ‖s.r‖ ^ 2 := by
  classical
  have hcard : (0 : ℝ) < S.card := by exact_mod_cast Finset.card_pos.2 hne
  have hcard1 : (1 : ℝ) ≤ S.card := by exact_mod_cast Finset.card_pos.2 hne
  have hn : 0 < n := by obtain ⟨l, hl⟩ := hne; exact lt_of_le_of_lt (Nat.zero_le _) (hS l hl)
  have hlam1 : lam ≤ 1 := by
    obtain ⟨i, hi⟩ := hne
    have h1 := hl fun l => if l = i then 1 else 0
    have e1 : ∑ l ∈ S, (if l = i then (1 : ℝ) else 0) ^ 2 = 1 := by
      rw [Finset.sum_eq_single i (fun b _ hb => by rw [if_neg hb]; norm_num) (fun h => absurd hi h), if_pos rfl]; norm_num
    have e2 : ∑ l ∈ S, (if l = i then (1 : ℝ) else 0) • phi l = phi i := by
      rw [Finset.sum_eq_single i (fun b _ hb => by rw [if_neg hb, zero_smul]) (fun h => absurd hi h), if_pos rfl, one_smul]
    rw [e1, e2, hu i (hS i hi)] at h1
    linarith
  have hrate : 0 ≤ 1 - lam / S.card := by
    have : lam / S.card ≤ 1 := by rw [div_le_one hcard]; linarith
    linarith
  have hinv : (∀ i, i ∉ S → s.x i = 0) ∧ s.r = ∑ l ∈ S, (a l - s.x l) • phi l ∧ ‖s.r‖ ^ 2 ≤ (1 - lam / S.card) ^ s.iters * ‖y‖ ^ 2 := by
    refine h.inv (fun s => (∀ i, i ∉ S → s.x i = 0) ∧ s.r = ∑ l ∈ S, (a l - s.x l) • phi l ∧ ‖s.r‖ ^ 2 ≤ (1 - lam / S.card) ^ s.iters * ‖y‖ ^ 2) ?_ ?_
    · refine ⟨fun _ _ => rfl, ?_, by simp [mpInit]⟩
      simp only [mpInit, sub_zero]
      exact hy
    · rintro s ⟨h1, h2, h3⟩ -
      obtain ⟨hb, hmax⟩ := best_spec phi hn s.r
      rw [mpStep_eq phi hn y s]
      obtain ⟨b, hbd⟩ : ∃ b, b = absMaxIdx (corr ℝ phi n s.r) := ⟨_, rfl⟩
      have hdec := (c44_mp_decrease phi n hn hu y s).2.1
      rw [mpStep_eq phi hn y s] at hdec
      simp only at hdec ⊢
      rw [← hbd] at hb hmax hdec ⊢
      -- the chosen atom is in `S`, or its coefficient is zero
      have hbS : b ∈ S ∨ ⟪phi b, s.r⟫ = 0 := by
        by_cases hc : ∃ i ∈ S, a i - s.x i ≠ 0
        · left
          obtain ⟨i, hi, -, hsel⟩ := hS2 (fun l => a l - s.x l) hc
          rw [← h2] at hsel
          by_contra hbS
          exact absurd (hmax i (hS i hi)) (not_le.2 (hsel b hb hbS))
        · right
          push Not at hc
          have : s.r = 0 := by rw [h2]; exact Finset.sum_eq_zero fun l hl => by rw [hc l hl, zero_smul]
          rw [this, inner_zero_right]
      refine ⟨fun i hi => ?_, ?_, ?_⟩
      · by_cases e : i = b
        · rcases hbS with hbS | hbS
          · exact absurd (e ▸ hbS) hi
          · rw [e, Function.update_self, hbS, add_zero]
            exact h1 b (e ▸ hi)
        · rw [Function.update_of_ne e]
          exact h1 i hi
      · rcases hbS with hbS | hbS
        · rw [h2, ← Finset.sum_erase_add _ _ hbS, ← Finset.sum_erase_add S (fun l => (a l - Function.update s.x b _ l) • phi l) hbS, Function.update_self, add_sub_assoc]
          rw [Finset.sum_erase_add _ _ hbS, ← h2]
          congr 1
          · exact Finset.sum_congr rfl fun i hi => by rw [Function.update_of_ne (Finset.ne_of_mem_erase hi)]
          · rw [← sub_sub, sub_smul (a b - s.x b)]
        · rw [hbS, zero_smul, sub_zero, add_zero, Function.update_eq_self]
          exact h2
      · -- the largest correlation
        obtain ⟨i, hi, hmx⟩ := Finset.exists_max_image S (fun i => |⟪phi i, s.r⟫|) hne
        have hen := energy_le (phi := phi) (S := S) (fun l => a l - s.x l) (M := |⟪phi i, s.r⟫|) (fun l hl => by rw [← h2]; exact hmx l hl) (abs_nonneg _)
        have hlow := hl fun l => a l - s.x l
        rw [← h2] at hen hlow
        obtain ⟨Q, hQ⟩ : ∃ Q, Q = ∑ l ∈ S, (a l - s.x l) ^ 2 := ⟨_, rfl⟩
        rw [← hQ] at hen hlow
        have hQ0 : 0 ≤ Q := by rw [hQ]; exact Finset.sum_nonneg fun _ _ => sq_nonneg _
        have h5 : lam / S.card * ‖s.r‖ ^ 2 ≤ ⟪phi i, s.r⟫ ^ 2 := by
          have h6 : (‖s.r‖ ^ 2) ^ 2 ≤ (Real.sqrt S.card * Real.sqrt Q * |⟪phi i, s.r⟫|) ^ 2 := pow_le_pow_left₀ (sq_nonneg _) hen 2
          rw [mul_pow, mul_pow, Real.sq_sqrt hcard.le, Real.sq_sqrt hQ0, sq_abs] at h6
          rcases (sq_nonneg ‖s.r‖).eq_or_lt with h0 | h0
          · rw [← h0, mul_zero]
            exact sq_nonneg _
          · rw [div_mul_eq_mul_div, div_le_iff₀ hcard]
            have h7 : lam * (‖s.r‖ ^ 2) ^ 2 ≤ ⟪phi i, s.r⟫ ^ 2 * S.card * ‖s.r‖ ^ 2 := by
              have h8 := mul_le_mul_of_nonneg_left h6 hl0.le
              have h9 := mul_le_mul_of_nonneg_right hlow (by positivity : 0 ≤ S.card * ⟪phi i, s.r⟫ ^ 2)
              nlinarith
            have h8 : lam * ‖s.r‖ ^ 2 * ‖s.r‖ ^ 2 ≤ ⟪phi i, s.r⟫ ^ 2 * S.card * ‖s.r‖ ^ 2 := by nlinarith
            exact le_of_mul_le_mul_right h8 h0
        have h6 := hdec i (hS i hi)
        rw [pow_succ]
        calc _ ≤ (1 - lam / S.card) * ‖s.r‖ ^ 2 := by linarith
          _ ≤ (1 - lam / S.card) * ((1 - lam / S.card) ^ s.iters * ‖y‖ ^ 2) := mul_le_mul_of_nonneg_left h3 hrate
          _ = _ := by ring
  obtain ⟨h1, h2, h3⟩ := hinv
  refine ⟨h1, h3, ?_⟩
  rw [h2]
  exact hl fun l => a l - s.x l

/-! ## Specification -/

/-- Tropp's exact recovery condition: the atoms of `S` are independent and the projection of every other atom on their span has coefficients of total size below one. -/
def ExactRecovery (phi : ℕ → E) (n : ℕ) (S : Finset ℕ) : Prop :=
  (∀ c : ℕ → ℝ, ∑ l ∈ S, c l • phi l = 0 → ∀ l ∈ S, c l = 0) ∧
  ∀ j, j < n → j ∉ S → ∃ b : ℕ → ℝ, (∀ l ∈ S, ⟪phi l, phi j - ∑ l ∈ S, b l • phi l⟫ = 0) ∧ ∑ l ∈ S, |b l| < 1

theorem project_inner {phi : ℕ → E} {S : Finset ℕ} {j : ℕ} {b : ℕ → ℝ} (hb : ∀ l ∈ S, ⟪phi l, phi j - ∑ l ∈ S, b l • phi l⟫ = 0) (c : ℕ → ℝ) :
    ⟪phi j, ∑ l ∈ S, c l • phi l⟫ = ∑ l ∈ S, b l * ⟪phi l, ∑ l ∈ S, c l • phi l⟫ := by
  have h1 : ⟪phi j - ∑ l ∈ S, b l • phi l, ∑ l ∈ S, c l • phi l⟫ = 0 := by
    rw [_root_.inner_sum]
    exact Finset.sum_eq_zero fun l hl => by rw [real_inner_smul_right, real_inner_comm, hb l hl, mul_zero]
  rw [inner_sub_left, sub_eq_zero, sum_inner] at h1
  rw [h1]
  exact Finset.sum_congr rfl fun l _ => real_inner_smul_left _ _ _

theorem ExactRecovery.selects {phi : ℕ → E} {n : ℕ} {S : Finset ℕ} (h : ExactRecovery phi n S) : Selects phi n S := by
  rintro c ⟨l, hl, hc⟩
  obtain ⟨i, hi, hmax⟩ := Finset.exists_max_image S (fun i => |⟪phi i, ∑ l ∈ S, c l • phi l⟫|) ⟨l, hl⟩
  have hv : ∑ l ∈ S, c l • phi l ≠ 0 := fun h0 => hc (h.1 c h0 l hl)
  have hne : ⟪phi i, ∑ l ∈ S, c l • phi l⟫ ≠ 0 := by
    intro h0
    have := energy_le (phi := phi) (S := S) c (M := 0) (fun l hl => by have := hmax l hl; rwa [h0, abs_zero] at this) le_rfl
    rw [mul_zero] at this
    have h2 := norm_pos_iff.mpr hv
    nlinarith
  refine ⟨i, hi, hne, fun j hj hjS => ?_⟩
  obtain ⟨b, hb, hb1⟩ := h.2 j hj hjS
  rw [project_inner hb c]
  calc |∑ l ∈ S, b l * ⟪phi l, ∑ l ∈ S, c l • phi l⟫| ≤ ∑ l ∈ S, |b l| * |⟪phi i, ∑ l ∈ S, c l • phi l⟫| := by
        refine (Finset.abs_sum_le_sum_abs _ _).trans (Finset.sum_le_sum fun l hl => ?_)
        rw [abs_mul]
        exact mul_le_mul_of_nonneg_left (hmax l hl) (abs_nonneg _)
    _ = (∑ l ∈ S, |b l|) * |⟪phi i, ∑ l ∈ S, c l • phi l⟫| := (Finset.sum_mul _ _ _).symm
    _ < 1 * |⟪phi i, ∑ l ∈ S, c l • phi l⟫| := mul_lt_mul_of_pos_right hb1 (abs_pos.mpr hne)
    _ = _ := one_mul _

/-! ## Properties -/

/-- **C138** (exact recovery condition) for unit-norm atoms and a support `S` meeting Tropp's exact recovery condition, OMP recovers every signal on `S`: with `K = |S|`
passes `matrix_solve` (`K ≥ 2`) selects exactly the atoms of `S` and returns the coefficients and a zero residual; `operator_solve` with zero tolerance does so for
every `K ≥ 1`. -/
theorem c138_omp_erc (phi : ℕ → E) (n : ℕ) (hu : ∀ i, i < n → ‖phi i‖ = 1) (S : Finset ℕ) (hS : ∀ i ∈ S, i < n) (hne : S.Nonempty) (h : ExactRecovery phi n S)
    (a : ℕ → ℝ) (ha : ∀ l ∈ S, a l ≠ 0) :
    (2 ≤ S.card → ∃ s, ompMatrixSolve phi n (∑ l ∈ S, a l • phi l) S.card = some s ∧ s.k = S.card ∧ s.r = 0 ∧
      (∀ l, l ∈ S ↔ ∃ i, i < S.card ∧ s.I i = l) ∧ ∀ i, i < S.card → s.x i = a (s.I i)) ∧
    (∃ s, OmpOperatorSolve phi n (∑ l ∈ S, a l • phi l) S.card 0 s) ∧
    ∀ s, OmpOperatorSolve phi n (∑ l ∈ S, a l • phi l) S.card 0 s → s.k = S.card ∧ s.r = 0 ∧
      (∀ l, l ∈ S ↔ ∃ i, i < S.card ∧ s.I i = l) ∧ ∀ i, i < S.card → s.x i = a (s.I i) :=
  ⟨(omp_recovery_of_select phi n hu S hS h.selects hne a ha).2, omp_operator_recovery_of_select phi n hu S hS h.selects hne a ha⟩

/-- **C138** (the condition is sharp) if the projection of some atom outside an independent set `S` on the span of `S` has coefficients of total size above one, then there is
a signal on `S` for which the first atom chosen by OMP is not in `S`. -/
theorem c138_omp_erc_necessary (phi : ℕ → E) (n : ℕ) (S : Finset ℕ) (hind : ∀ c : ℕ → ℝ, ∑ l ∈ S, c l • phi l = 0 → ∀ l ∈ S, c l = 0)
    (j : ℕ) (hj : j < n) (b : ℕ → ℝ) (hb : ∀ l ∈ S, ⟪phi l, phi j - ∑ l ∈ S, b l • phi l⟫ = 0) (hb1 : 1 < ∑ l ∈ S, |b l|) :
    ∃ a : ℕ → ℝ, (ompInit phi n (∑ l ∈ S, a l • phi l)).I 0 ∉ S ∧ (ompOpInit phi n (∑ l ∈ S, a l • phi l)).I 0 ∉ S := by
  classical
  let G : (S → ℝ) →ₗ[ℝ] (S → ℝ) :=
    { toFun := fun c l => ⟪phi l, ∑ k, c k • phi k⟫
      map_add' := fun c d => by
        funext l
        simp only [Pi.add_apply, add_smul, Finset.sum_add_distrib, inner_add_right]
      map_smul' := fun t c => by
        funext l
        simp only [Pi.smul_apply, smul_eq_mul, mul_smul, ← Finset.smul_sum, real_inner_smul_right, RingHom.id_apply] }
  have hext : ∀ c : S → ℝ, ∑ k, c k • phi k = ∑ l ∈ S, (fun l => if h : l ∈ S then c ⟨l, h⟩ else 0) l • phi l := by
    intro c
    rw [← Finset.sum_coe_sort S]
    exact Finset.sum_congr rfl fun k _ => by simp only [dif_pos k.2]
  have hinj : Function.Injective G := by
    rw [← LinearMap.ker_eq_bot, LinearMap.ker_eq_bot']
    intro c hc
    have h0 : ∑ k, c k • phi k = 0 := by
      rw [← inner_self_eq_zero (𝕜 := ℝ), sum_inner]
      refine Finset.sum_eq_zero fun k _ => ?_
      rw [real_inner_smul_left]
      have : ⟪phi k, ∑ k, c k • phi k⟫ = 0 := congrFun hc k
      rw [this, mul_zero]
    rw [hext c] at h0
    funext k
    have := hind _ h0 k k.2
    simpa using this
  obtain ⟨c, hc⟩ := (LinearMap.injective_iff_surjective.mp hinj) fun l => if 0 ≤ b l then 1 else -1
  obtain ⟨a, ha⟩ : ∃ a : ℕ → ℝ, a = fun l => if h : l ∈ S then c ⟨l, h⟩ else 0 := ⟨_, rfl⟩
  have hav : ∑ k, c k • phi k = ∑ l ∈ S, a l • phi l := by rw [ha]; exact hext c
  have hcor : ∀ l ∈ S, ⟪phi l, ∑ l ∈ S, a l • phi l⟫ = if 0 ≤ b l then 1 else -1 := by
    intro l hl
    rw [← hav]
    exact congrFun hc ⟨l, hl⟩
  have hj1 : ⟪phi j, ∑ l ∈ S, a l • phi l⟫ = ∑ l ∈ S, |b l| := by
    rw [project_inner hb a]
    refine Finset.sum_congr rfl fun l hl => ?_
    rw [hcor l hl]
    split
    · rename_i h; rw [abs_of_nonneg h, mul_one]
    · rename_i h; rw [abs_of_neg (not_le.mp h)]; ring
  have hn : 0 < n := lt_of_le_of_lt (Nat.zero_le _) hj
  obtain ⟨hbn, hmax⟩ := best_spec phi hn (∑ l ∈ S, a l • phi l)
  have hnot : absMaxIdx (corr ℝ phi n (∑ l ∈ S, a l • phi l)) ∉ S := by
    intro hin
    have h1 := hmax j hj
    rw [hcor _ hin, hj1, abs_of_pos (by linarith)] at h1
    have h2 : |(if 0 ≤ b (absMaxIdx (corr ℝ phi n (∑ l ∈ S, a l • phi l))) then (1 : ℝ) else -1)| = 1 := by split <;> simp
    rw [h2] at h1
    linarith
  exact ⟨a, hnot, hnot⟩

/-- **C138** OMP under the restricted isometry property: for unit-norm atoms with restricted isometry constant `δ` of order `K + 1`, `δ √(K+1) < 1`, OMP recovers every
signal with `K` nonzero entries, as in `c138_omp_erc`. -/
theorem c138_omp_rip (phi : ℕ → E) (n : ℕ) (hu : ∀ i, i < n → ‖phi i‖ = 1) (S : Finset ℕ) (hS : ∀ i ∈ S, i < n) (hne : S.Nonempty) (δ : ℝ) (hδ : 0 ≤ δ)
    (h : Rip ℝ phi n 1 (S.card + 1) δ) (hK : δ * Real.sqrt (S.card + 1) < 1) (a : ℕ → ℝ) (ha : ∀ l ∈ S, a l ≠ 0) :
    (2 ≤ S.card → ∃ s, ompMatrixSolve phi n (∑ l ∈ S, a l • phi l) S.card = some s ∧ s.k = S.card ∧ s.r = 0 ∧
      (∀ l, l ∈ S ↔ ∃ i, i < S.card ∧ s.I i = l) ∧ ∀ i, i < S.card → s.x i = a (s.I i)) ∧
    (∃ s, OmpOperatorSolve phi n (∑ l ∈ S, a l • phi l) S.card 0 s) ∧
    ∀ s, OmpOperatorSolve phi n (∑ l ∈ S, a l • phi l) S.card 0 s → s.k = S.card ∧ s.r = 0 ∧
      (∀ l, l ∈ S ↔ ∃ i, i < S.card ∧ s.I i = l) ∧ ∀ i, i < S.card → s.x i = a (s.I i) := by
  have hcard : (0 : ℝ) < S.card := by exact_mod_cast Finset.card_pos.2 hne
  have hsel := (rip_margin hδ hne h hS hK.le).selects (div_pos (by linarith) (Real.sqrt_pos.mpr hcard))
  exact ⟨(omp_recovery_of_select phi n hu S hS hsel hne a ha).2, omp_operator_recovery_of_select phi n hu S hS hsel hne a ha⟩

/-- **C138** OMP with noise under the restricted isometry property: with noise whose correlation with every atom is at most `eps` and coefficients with
`|a_l| (1 - δ √(K+1)) > 2 √K eps`, `K` passes select exactly the atoms of the signal, return coefficients within `√K eps / (1 - δ)` of the true ones and a residual not
larger than the noise. -/
theorem c138_omp_rip_noise (phi : ℕ → E) (n : ℕ) (hu : ∀ i, i < n → ‖phi i‖ = 1) (S : Finset ℕ) (hS : ∀ i ∈ S, i < n) (hne : S.Nonempty) (δ : ℝ) (hδ : 0 ≤ δ)
    (h : Rip ℝ phi n 1 (S.card + 1) δ) (a : ℕ → ℝ) (w : E) (eps : ℝ) (hw : ∀ i, i < n → |⟪phi i, w⟫| ≤ eps)
    (ha : ∀ l ∈ S, 2 * Real.sqrt S.card * eps < (1 - δ * Real.sqrt (S.card + 1)) * |a l|) :
    (2 ≤ S.card → ∃ s, ompMatrixSolve phi n (∑ l ∈ S, a l • phi l + w) S.card = some s ∧ s.k = S.card ∧ ‖s.r‖ ≤ ‖w‖ ∧
      (∀ l, l ∈ S ↔ ∃ i, i < S.card ∧ s.I i = l) ∧ ∀ i, i < S.card → |s.x i - a (s.I i)| ≤ Real.sqrt S.card * eps / (1 - δ)) ∧
    ∀ rtol, 0 ≤ rtol → (∀ l ∈ S, rtol * ‖∑ l ∈ S, a l • phi l + w‖ < (1 - δ) * |a l| / Real.sqrt S.card - eps) →
      (∃ s, OmpOperatorSolve phi n (∑ l ∈ S, a l • phi l + w) S.card rtol s) ∧
      ∀ s, OmpOperatorSolve phi n (∑ l ∈ S, a l • phi l + w) S.card rtol s → s.k = S.card ∧ ‖s.r‖ ≤ ‖w‖ ∧
        (∀ l, l ∈ S ↔ ∃ i, i < S.card ∧ s.I i = l) ∧ ∀ i, i < S.card → |s.x i - a (s.I i)| ≤ Real.sqrt S.card * eps / (1 - δ) := by
  have hcard : (0 : ℝ) < S.card := by exact_mod_cast Finset.card_pos.2 hne
  have hκ : 0 < Real.sqrt S.card := Real.sqrt_pos.mpr hcard
  have heps : 0 ≤ eps := by obtain ⟨l, hl⟩ := hne; exact (abs_nonneg _).trans (hw l (hS l hl))
  have hK : 0 < 1 - δ * Real.sqrt (S.card + 1) := margin_pos (eps := Real.sqrt S.card * eps) hne (by positivity) fun l hl => by
    have := ha l hl
    rwa [mul_assoc] at this
  have hM := rip_margin hδ hne h hS (by linarith)
  have ha' : ∀ l ∈ S, 2 * eps < (1 - δ * Real.sqrt (S.card + 1)) / Real.sqrt S.card * |a l| := fun l hl => by
    rw [div_mul_eq_mul_div, lt_div_iff₀ hκ]
    have := ha l hl
    linarith
  have e1 : eps / ((1 - δ) / Real.sqrt S.card) = Real.sqrt S.card * eps / (1 - δ) := by rw [div_div_eq_mul_div, mul_comm]
  refine ⟨?_, fun rtol hrt hup => ?_⟩
  · have := (omp_noise_of_margin phi n _ _ eps hu S hM hS hne a w hw ha').2
    rwa [e1] at this
  · have := omp_operator_noise_of_margin phi n _ _ eps hu S hM hS hne a w hw ha' S.card rtol hrt (fun l hl => by
      rw [div_mul_eq_mul_div]; exact hup l hl) (Or.inl rfl)
    rwa [e1] at this

/-- **C138** Matching pursuit under the restricted isometry property: for unit-norm atoms with restricted isometry constant `δ` of order `K + 1`, `δ √(K+1) < 1`, and a signal
with coefficients `a` on `K` atoms, every iterate is supported on the atoms of the signal, the squared residual is at most `(1 - (1-δ)/K)^t |y|²` after `t` iterations, and the
squared error of the coefficients is at most that over `1 - δ`. -/
theorem c138_mp_rip (phi : ℕ → E) (n : ℕ) (hu : ∀ i, i < n → ‖phi i‖ = 1) (S : Finset ℕ) (hS : ∀ i ∈ S, i < n) (hne : S.Nonempty) (δ : ℝ) (hδ : 0 ≤ δ)
    (h : Rip ℝ phi n 1 (S.card + 1) δ) (hK : δ * Real.sqrt (S.card + 1) < 1) (a : ℕ → ℝ) (y : E) (hy : y = ∑ l ∈ S, a l • phi l) (rtol : ℝ) (N : ℕ) (s : MpState E)
    (hs : Reach (mpCond y rtol N) (mpStep phi n y) (mpInit y) s) :
    (∀ i, i ∉ S → s.x i = 0) ∧ ‖s.r‖ ^ 2 ≤ (1 - (1 - δ) / S.card) ^ s.iters * ‖y‖ ^ 2 ∧
      ∑ l ∈ S, (a l - s.x l) ^ 2 ≤ (1 - (1 - δ) / S.card) ^ s.iters * ‖y‖ ^ 2 / (1 - δ) := by
  have hcard : (0 : ℝ) < S.card := by exact_mod_cast Finset.card_pos.2 hne
  have hs1 : 1 ≤ Real.sqrt ((S.card : ℝ) + 1) := by rw [Real.one_le_sqrt]; linarith
  have hδ1 : 0 < 1 - δ := by have := le_mul_of_one_le_right hδ hs1; linarith
  have hsel := (rip_margin hδ hne h hS hK.le).selects (div_pos (by linarith) (Real.sqrt_pos.mpr hcard))
  obtain ⟨h1, h2, h3⟩ := mp_of_select hu hS hne hsel hδ1 (fun c => by have := (abs_le.mp (h.sum (T := S) (by omega) hS c)).1; linarith) a hy hs
  refine ⟨h1, h2, ?_⟩
  rw [le_div_iff₀ hδ1]
  linarith

/-- **C138** Matching pursuit under low coherence: the same for unit-norm atoms with coherence at most `mu`, `(2K - 1) mu < 1`, at the rate `1 - (1 - (K-1) mu)/K`. -/
theorem c138_mp_coherence (phi : ℕ → E) (n : ℕ) (mu : ℝ) (hd : Incoherent phi n mu) (hmu : 0 ≤ mu) (S : Finset ℕ) (hS : ∀ i ∈ S, i < n) (hne : S.Nonempty)
    (hK : (2 * (S.card : ℝ) - 1) * mu < 1) (a : ℕ → ℝ) (y : E) (hy : y = ∑ l ∈ S, a l • phi l) (rtol : ℝ) (N : ℕ) (s : MpState E)
    (hs : Reach (mpCond y rtol N) (mpStep phi n y) (mpInit y) s) :
    (∀ i, i ∉ S → s.x i = 0) ∧ ‖s.r‖ ^ 2 ≤ (1 - (1 - (S.card - 1) * mu) / S.card) ^ s.iters * ‖y‖ ^ 2 ∧
      ∑ l ∈ S, (a l - s.x l) ^ 2 ≤ (1 - (1 - (S.card - 1) * mu) / S.card) ^ s.iters * ‖y‖ ^ 2 / (1 - (S.card - 1) * mu) := by
  have hcard : (1 : ℝ) ≤ S.card := by exact_mod_cast Finset.card_pos.2 hne
  have hδ1 : 0 < 1 - ((S.card : ℝ) - 1) * mu := by nlinarith
  have hr := c135_rip_of_coherence phi n mu hmu hd.unit (fun i j hi hj hij => by rw [Real.norm_eq_abs]; exact hd.coh i j hi hj hij) S.card (Finset.card_pos.2 hne)
  obtain ⟨h1, h2, h3⟩ := mp_of_select hd.unit hS hne (fun c hc => incoherent_select hd hmu S hS hK c hc) hδ1 (fun c => by
    have := (abs_le.mp (hr.sum (T := S) le_rfl hS c)).1; linarith) a hy hs
  refine ⟨h1, h2, ?_⟩
  rw [le_div_iff₀ hδ1]
  linarith

/-- Three unit vectors of space, the last two with inner product `7/25`. -/
def threeAtoms (i : ℕ) : EuclideanSpace ℝ (Fin 3) := if i = 0 then !₂[1, 0, 0] else if i = 1 then !₂[0, 1, 0] else !₂[0, 7 / 25, 24 / 25]

theorem threeAtoms_incoherent : Incoherent threeAtoms 3 (7 / 25) := by
  refine ⟨fun i hi => ?_, fun i j hi hj hij => ?_⟩
  · interval_cases i <;> simp [threeAtoms, EuclideanSpace.norm_eq, Fin.sum_univ_three] <;> norm_num
  · interval_cases i <;> interval_cases j <;> simp [threeAtoms, PiLp.inner_apply, Fin.sum_univ_three] at hij ⊢ <;> norm_num [abs_le]

/-- The hypotheses of the theorems hold for these atoms and any support of two of them: the restricted isometry constant of order three is at most `14/25`, and
`(14/25) √3 < 1`; `3 · 7/25 < 1`. With coefficients of size `100` the noise `(1/4, 0, 0)` is small enough. -/
theorem ex_rip3 : (∀ i, i < 3 → ‖threeAtoms i‖ = 1) ∧ Rip ℝ threeAtoms 3 1 (({0, 1} : Finset ℕ).card + 1) (14 / 25) ∧
    (14 / 25 : ℝ) * Real.sqrt ((({0, 1} : Finset ℕ).card : ℕ) + 1) < 1 ∧ (2 * ((({0, 1} : Finset ℕ).card : ℕ) : ℝ) - 1) * (7 / 25) < 1 ∧
    (∀ i, i < 3 → |⟪threeAtoms i, !₂[1 / 4, 0, 0]⟫| ≤ 1 / 4) ∧
    2 * Real.sqrt (({0, 1} : Finset ℕ).card : ℕ) * (1 / 4) < (1 - (14 / 25 : ℝ) * Real.sqrt ((({0, 1} : Finset ℕ).card : ℕ) + 1)) * |100| := by
  have hc : ({0, 1} : Finset ℕ).card = 2 := by decide
  have h3 : Real.sqrt ((2 : ℕ) + 1) ≤ 7 / 4 := by
    rw [Real.sqrt_le_iff]; norm_num
  have h2 : Real.sqrt ((2 : ℕ)) ≤ 3 / 2 := by
    rw [Real.sqrt_le_iff]; norm_num
  rw [hc]
  refine ⟨threeAtoms_incoherent.unit, ?_, by linarith, by norm_num, fun i hi => ?_, ?_⟩
  · have := c135_rip_of_coherence threeAtoms 3 (7 / 25) (by norm_num) threeAtoms_incoherent.unit
      (fun i j hi hj hij => by rw [Real.norm_eq_abs]; exact threeAtoms_incoherent.coh i j hi hj hij) 3 (by norm_num)
    norm_num at this ⊢
    exact this
  · interval_cases i <;> simp [threeAtoms, PiLp.inner_apply, Fin.sum_univ_three] <;> norm_num [abs_le]
  · rw [abs_of_pos (by norm_num : (0 : ℝ) < 100)]
    linarith

/-- The first atom of the pair `1`, `(3 + 4i)/5` of the plane meets the exact recovery condition. -/
theorem ex_erc : ExactRecovery (fun i => if i = 0 then (1 : ℂ) else ⟨3 / 5, 4 / 5⟩) 2 {0} := by
  refine ⟨fun c hc l hl => ?_, fun j hj hjS => ⟨fun _ => 3 / 5, fun l hl => ?_, ?_⟩⟩
  · have hl0 : l = 0 := by simpa using hl
    subst hl0
    simpa using hc
  · have hl0 : l = 0 := by simpa using hl
    have hj1 : j = 1 := by simp at hjS; omega
    subst hl0 hj1
    simp [Complex.inner]
  · simp; norm_num [abs_of_pos]

/-- The pair `1`, `i` does not, in the presence of `(3 + 4i)/5`: the coefficients of the projection are `3/5` and `4/5`. -/
theorem ex_not_erc : (∀ c : ℕ → ℝ, ∑ l ∈ ({0, 1} : Finset ℕ), c l • (if l = 0 then (1 : ℂ) else if l = 1 then Complex.I else ⟨3 / 5, 4 / 5⟩) = 0 → ∀ l ∈ ({0, 1} : Finset ℕ), c l = 0) ∧
    (∀ l ∈ ({0, 1} : Finset ℕ), ⟪(if l = 0 then (1 : ℂ) else if l = 1 then Complex.I else ⟨3 / 5, 4 / 5⟩), ⟨3 / 5, 4 / 5⟩ -
      ∑ l ∈ ({0, 1} : Finset ℕ), (if l = 0 then (3 / 5 : ℝ) else 4 / 5) • (if l = 0 then (1 : ℂ) else if l = 1 then Complex.I else ⟨3 / 5, 4 / 5⟩)⟫ = 0) ∧
    1 < ∑ l ∈ ({0, 1} : Finset ℕ), |if l = 0 then (3 / 5 : ℝ) else 4 / 5| := by
  refine ⟨fun c hc l hl => ?_, fun l hl => ?_, ?_⟩
  · simp [Complex.ext_iff] at hc
    simp at hl
    rcases hl with rfl | rfl
    · exact hc.1
    · exact hc.2
  · simp at hl
    rcases hl with rfl | rfl <;> simp [Complex.inner]
  · rw [Finset.sum_pair (by norm_num)]
    norm_num [abs_of_pos]

/-! Instances. -/

example := c138_omp_erc (fun i => if i = 0 then (1 : ℂ) else ⟨3 / 5, 4 / 5⟩) 2 (fun i _ => by
    have n35 : ‖(⟨3 / 5, 4 / 5⟩ : ℂ)‖ = 1 := by
      rw [Complex.norm_def, Complex.normSq_mk]; norm_num
    show ‖if i = 0 then (1 : ℂ) else ⟨3 / 5, 4 / 5⟩‖ = 1
    split_ifs <;> simp [n35]) {0} (by simp) (by simp) ex_erc (fun _ => 3) (by simp)
example := c138_omp_erc_necessary (fun l => if l = 0 then (1 : ℂ) else if l = 1 then Complex.I else ⟨3 / 5, 4 / 5⟩) 3 {0, 1} ex_not_erc.1 2 (by norm_num) _ ex_not_erc.2.1 ex_not_erc.2.2
example := c138_omp_rip threeAtoms 3 ex_rip3.1 {0, 1} (by simp) (by simp) (14 / 25) (by norm_num) ex_rip3.2.1 ex_rip3.2.2.1 (fun _ => 100) (by simp)
example := c138_omp_rip_noise threeAtoms 3 ex_rip3.1 {0, 1} (by simp) (by simp) (14 / 25) (by norm_num) ex_rip3.2.1 (fun _ => 100) !₂[1 / 4, 0, 0] (1 / 4) ex_rip3.2.2.2.2.1
  (fun _ _ => ex_rip3.2.2.2.2.2)
example (rtol : ℝ) (N : ℕ) := c138_mp_rip threeAtoms 3 ex_rip3.1 {0, 1} (by simp) (by simp) (14 / 25) (by norm_num) ex_rip3.2.1 ex_rip3.2.2.1 (fun _ => 100) _ rfl rtol N
example (rtol : ℝ) (N : ℕ) := c138_mp_coherence threeAtoms 3 (7 / 25) threeAtoms_incoherent (by norm_num) {0, 1} (by simp) (by simp) ex_rip3.2.2.2.1 (fun _ => 100) _ rfl rtol N

end Verif.Pursuit
