import Verif.Pursuit.RecoveryProps

set_option autoImplicit false
/-!
# Recovery of sparse signals from noisy measurements by orthogonal matching pursuit (C128)
-/
noncomputable section
namespace Verif.Pursuit
open Verif.Loop
open scoped RealInnerProductSpace

variable {E : Type*} [NormedAddCommGroup E] [InnerProductSpace ℝ E]

/-- The atom with the largest coefficient of a combination `∑ c_l phi_l` of atoms of `S`: its correlation from below, the correlation of the
atoms outside `S` from above. -/
theorem incoherent_bounds {phi : ℕ → E} {n : ℕ} {mu : ℝ} (hd : Incoherent phi n mu) (S : Finset ℕ) (hS : ∀ i ∈ S, i < n)
    (c : ℕ → ℝ) {i : ℕ} (hi : i ∈ S) (hmax : ∀ l ∈ S, |c l| ≤ |c i|) :
    |c i| * (1 - ((S.card : ℝ) - 1) * mu) ≤ |⟪phi i, ∑ l ∈ S, c l • phi l⟫| ∧
    ∀ j, j < n → j ∉ S → |⟪phi j, ∑ l ∈ S, c l • phi l⟫| ≤ (S.card : ℝ) * (|c i| * mu) := by
  have hcard : 1 ≤ S.card := Finset.card_pos.2 ⟨i, hi⟩
  constructor
  · rw [← Finset.add_sum_erase S _ hi, inner_add_right, real_inner_smul_right, real_inner_self_eq_norm_sq, hd.unit i (hS i hi)]
    have hb : |⟪phi i, ∑ l ∈ S.erase i, c l • phi l⟫| ≤ ((S.card : ℝ) - 1) * (|c i| * mu) := by
      rw [_root_.inner_sum]
      refine (Finset.abs_sum_le_sum_abs _ _).trans ?_
      have : ∀ l ∈ S.erase i, |⟪phi i, c l • phi l⟫| ≤ |c i| * mu := fun l hl => by
        obtain ⟨h1, h2⟩ := Finset.mem_erase.1 hl
        rw [real_inner_smul_right, abs_mul]
        exact mul_le_mul (hmax l h2) (hd.coh i l (hS i hi) (hS l h2) h1.symm) (abs_nonneg _) (abs_nonneg _)
      refine (Finset.sum_le_card_nsmul _ _ _ this).trans_eq ?_
      rw [Finset.card_erase_of_mem hi, nsmul_eq_mul, Nat.cast_sub hcard, Nat.cast_one]
    have h2 := abs_sub_abs_le_abs_sub (c i * 1 ^ 2) (-⟪phi i, ∑ l ∈ S.erase i, c l • phi l⟫)
    rw [abs_neg, sub_neg_eq_add] at h2
    simp only [one_pow, mul_one] at h2 ⊢
    nlinarith
  · intro j hj hjS
    rw [_root_.inner_sum]
    refine (Finset.abs_sum_le_sum_abs _ _).trans ?_
    have : ∀ l ∈ S, |⟪phi j, c l • phi l⟫| ≤ |c i| * mu := fun l hl => by
      rw [real_inner_smul_right, abs_mul]
      exact mul_le_mul (hmax l hl) (hd.coh j l hj (hS l hl) (fun h => hjS (h ▸ hl))) (abs_nonneg _) (abs_nonneg _)
    refine (Finset.sum_le_card_nsmul _ _ _ this).trans_eq ?_
    rw [nsmul_eq_mul]

/-- For every combination of the atoms of `S` some atom of `S` has a correlation of at least `β` times any of the coefficients, and exceeds the correlation of
every atom outside `S` by at least `γ` times the coefficient. -/
structure Margin (phi : ℕ → E) (n : ℕ) (S : Finset ℕ) (β γ : ℝ) : Prop where
  nonneg : 0 ≤ γ
  le : γ ≤ β
  sel : ∀ (c : ℕ → ℝ), ∀ l ∈ S, ∃ i ∈ S, β * |c l| ≤ |⟪phi i, ∑ l ∈ S, c l • phi l⟫| ∧
    ∀ j, j < n → j ∉ S → |⟪phi j, ∑ l ∈ S, c l • phi l⟫| + γ * |c l| ≤ |⟪phi i, ∑ l ∈ S, c l • phi l⟫|

/-- The margins of an incoherent dictionary. -/
theorem incoherent_margin {phi : ℕ → E} {n : ℕ} {mu : ℝ} (hd : Incoherent phi n mu) (hmu : 0 ≤ mu) (S : Finset ℕ) (hS : ∀ i ∈ S, i < n) (hne : S.Nonempty)
    (hK : 0 ≤ 1 - (2 * (S.card : ℝ) - 1) * mu) : Margin phi n S (1 - ((S.card : ℝ) - 1) * mu) (1 - (2 * (S.card : ℝ) - 1) * mu) := by
  have hcard : (1 : ℝ) ≤ S.card := by exact_mod_cast Finset.card_pos.2 hne
  refine ⟨hK, by nlinarith, fun c l hl => ?_⟩
  obtain ⟨i, hi, hmax⟩ := Finset.exists_max_image S (fun l => |c l|) ⟨l, hl⟩
  have hmx : |c l| ≤ |c i| := hmax l hl
  obtain ⟨h1, h2⟩ := incoherent_bounds hd S hS c hi hmax
  have hK1 : 0 ≤ 1 - ((S.card : ℝ) - 1) * mu := by nlinarith
  refine ⟨i, hi, ?_, fun j hj hjS => ?_⟩
  · have := mul_le_mul_of_nonneg_left hmx hK1
    linarith
  · have e1 := h2 j hj hjS
    have := mul_le_mul_of_nonneg_left hmx hK
    linarith

/-- With noise whose correlations are at most `eps`, and one coefficient above the noise floor, the best atom is in `S`. -/
theorem noisy_select {phi : ℕ → E} {n : ℕ} {β γ eps : ℝ} {S : Finset ℕ} (hM : Margin phi n S β γ) (hS : ∀ i ∈ S, i < n)
    (w : E) (hw : ∀ i, i < n → |⟪phi i, w⟫| ≤ eps) (c : ℕ → ℝ) {l : ℕ} (hl : l ∈ S)
    (hc : 2 * eps < γ * |c l|) :
    ∃ i ∈ S, β * |c l| - eps ≤ |⟪phi i, ∑ l ∈ S, c l • phi l + w⟫| ∧
      ⟪phi i, ∑ l ∈ S, c l • phi l + w⟫ ≠ 0 ∧
      ∀ j, j < n → j ∉ S → |⟪phi j, ∑ l ∈ S, c l • phi l + w⟫| < |⟪phi i, ∑ l ∈ S, c l • phi l + w⟫| := by
  obtain ⟨i, hi, h1, h2⟩ := hM.sel c l hl
  have heps : 0 ≤ eps := (abs_nonneg _).trans (hw i (hS i hi))
  have hle : γ * |c l| ≤ β * |c l| := mul_le_mul_of_nonneg_right hM.le (abs_nonneg _)
  have hadd : |⟪phi i, ∑ l ∈ S, c l • phi l⟫| - eps ≤ |⟪phi i, ∑ l ∈ S, c l • phi l + w⟫| := by
    rw [inner_add_right]
    have e := abs_sub_abs_le_abs_sub (⟪phi i, ∑ l ∈ S, c l • phi l⟫) (-⟪phi i, w⟫)
    rw [abs_neg, sub_neg_eq_add] at e
    have := hw i (hS i hi)
    linarith
  refine ⟨i, hi, by linarith, fun h0 => ?_, fun j hj hjS => ?_⟩
  · rw [h0, abs_zero] at hadd
    linarith
  · rw [inner_add_right (phi j)]
    have e := abs_add_le (⟪phi j, ∑ l ∈ S, c l • phi l⟫) (⟪phi j, w⟫)
    have e1 := h2 j hj hjS
    have e2 := hw j hj
    linarith

/-- The residual of an OMP state whose atoms are in `S` as a combination of the atoms of `S` plus the noise. -/
theorem noisy_residual {phi : ℕ → E} {n : ℕ} {y w : E} {s : OmpState E} (h : OmpGood phi n y s) (S : Finset ℕ) (a : ℕ → ℝ)
    (hy : y = ∑ l ∈ S, a l • phi l + w) (hI : ∀ i, i < s.k → s.I i ∈ S) :
    s.r = ∑ l ∈ S, (a l - ∑ i ∈ (Finset.range s.k).filter (fun i => s.I i = l), s.x i) • phi l + w := by
  rw [h.residual, hy]
  simp only [sub_smul, Finset.sum_sub_distrib]
  have : ∀ l ∈ S, (∑ i ∈ (Finset.range s.k).filter (fun i => s.I i = l), s.x i) • phi l
      = ∑ i ∈ (Finset.range s.k).filter (fun i => s.I i = l), s.x i • phi (s.I i) := by
    intro l _
    rw [Finset.sum_smul]
    exact Finset.sum_congr rfl fun i hi => by rw [(Finset.mem_filter.1 hi).2]
  rw [Finset.sum_congr rfl this, Finset.sum_fiberwise_of_maps_to (fun i hi => hI i (Finset.mem_range.1 hi))]
  abel

/-- Before all the atoms of `S` are chosen the residual has an atom of `S` that is more correlated with it than every atom outside. -/
theorem noisy_pass {phi : ℕ → E} {n : ℕ} {β γ eps : ℝ} (hu : ∀ i, i < n → ‖phi i‖ = 1) (S : Finset ℕ) (hM : Margin phi n S β γ) (hS : ∀ i ∈ S, i < n)
    (a : ℕ → ℝ) (w : E) (hw : ∀ i, i < n → |⟪phi i, w⟫| ≤ eps) (ha : ∀ l ∈ S, 2 * eps < γ * |a l|)
    {y : E} (hy : y = ∑ l ∈ S, a l • phi l + w) (s : OmpState E) (h : OmpGood phi n y s) (hI : ∀ i, i < s.k → s.I i ∈ S)
    (hk : s.k < S.card) :
    ∃ l ∈ S, ∃ i ∈ S, β * |a l| - eps ≤ |⟪phi i, s.r⟫| ∧ ⟪phi i, s.r⟫ ≠ 0 ∧
      ∀ j, j < n → j ∉ S → |⟪phi j, s.r⟫| < |⟪phi i, s.r⟫| := by
  classical
  obtain ⟨l, hl, hnot⟩ : ∃ l ∈ S, ∀ i, i < s.k → s.I i ≠ l := by
    by_contra hcon
    push Not at hcon
    have hsub : S ⊆ (Finset.range s.k).image s.I := fun l hl => by
      obtain ⟨i, hi, e⟩ := hcon l hl
      exact Finset.mem_image.2 ⟨i, Finset.mem_range.2 hi, e⟩
    have := (Finset.card_le_card hsub).trans Finset.card_image_le
    rw [Finset.card_range] at this
    omega
  have hres := noisy_residual h S a hy hI
  set c : ℕ → ℝ := fun l => a l - ∑ i ∈ (Finset.range s.k).filter (fun i => s.I i = l), s.x i with hc
  have hcl : c l = a l := by
    have : (Finset.range s.k).filter (fun i => s.I i = l) = ∅ := by
      ext i; simp only [Finset.mem_filter, Finset.mem_range, Finset.notMem_empty, iff_false, not_and]; exact hnot i
    simp [hc, this]
  obtain ⟨i, hi, h1, h2, h3⟩ := noisy_select hM hS w hw c hl (by rw [hcl]; exact ha l hl)
  rw [← hres] at h1 h2 h3
  rw [hcl] at h1
  exact ⟨l, hl, i, hi, h1, h2, h3⟩

theorem noisy_step {phi : ℕ → E} {n : ℕ} {β γ eps : ℝ} (hu : ∀ i, i < n → ‖phi i‖ = 1) (S : Finset ℕ) (hM : Margin phi n S β γ) (hS : ∀ i ∈ S, i < n)
    (a : ℕ → ℝ) (w : E) (hw : ∀ i, i < n → |⟪phi i, w⟫| ≤ eps) (ha : ∀ l ∈ S, 2 * eps < γ * |a l|)
    {y : E} (hy : y = ∑ l ∈ S, a l • phi l + w) (s : OmpState E) (h : OmpInv phi n y s) (hI : ∀ i, i < s.k → s.I i ∈ S)
    (hk : s.k < S.card) :
    OmpInv phi n y (ompStep phi n y s) ∧ ∀ i, i < (ompStep phi n y s).k → (ompStep phi n y s).I i ∈ S := by
  obtain ⟨l, hl, i, hi, -, hne, hsel⟩ := noisy_pass hu S hM hS a w hw ha hy s h.toOmpGood hI hk
  have hn : 0 < n := lt_of_le_of_lt (Nat.zero_le _) (hS l hl)
  refine ⟨ompStep_inv phi hn hu y s h ⟨i, hS i hi, hne⟩, ?_⟩
  obtain ⟨hb, hmax⟩ := best_spec phi hn s.r
  set b := absMaxIdx (corr ℝ phi n s.r) with hbd
  have hbS : b ∈ S := by
    by_contra hbS
    exact absurd (hmax i (hS i hi)) (not_le.2 (hsel b hb hbS))
  intro j hj
  have hj' : j < s.k + 1 := hj
  show Function.update s.I s.k b j ∈ S
  rcases Nat.lt_succ_iff_lt_or_eq.mp hj' with hj | rfl
  · rw [Function.update_of_ne (by omega)]; exact hI j hj
  · rw [Function.update_self]; exact hbS

theorem noisy_init {phi : ℕ → E} {n : ℕ} {β γ eps : ℝ} (hu : ∀ i, i < n → ‖phi i‖ = 1) (S : Finset ℕ) (hM : Margin phi n S β γ) (hS : ∀ i ∈ S, i < n)
    (hne : S.Nonempty) (a : ℕ → ℝ) (w : E) (hw : ∀ i, i < n → |⟪phi i, w⟫| ≤ eps)
    (ha : ∀ l ∈ S, 2 * eps < γ * |a l|) {y : E} (hy : y = ∑ l ∈ S, a l • phi l + w) :
    OmpInv phi n y (ompInit phi n y) ∧ ∀ i, i < (ompInit phi n y).k → (ompInit phi n y).I i ∈ S := by
  obtain ⟨l, hl⟩ := hne
  have hn : 0 < n := lt_of_le_of_lt (Nat.zero_le _) (hS l hl)
  refine ⟨ompInit_inv phi hn hu y, fun _ _ => ?_⟩
  obtain ⟨i, hi, _, _, hsel⟩ := noisy_select hM hS w hw a hl (ha l hl)
  rw [← hy] at hsel
  obtain ⟨hb, hmax⟩ := best_spec phi hn y
  show absMaxIdx (corr ℝ phi n y) ∈ S
  by_contra hbS
  exact absurd (hmax i (hS i hi)) (not_le.2 (hsel _ hb hbS))

/-- The state after as many passes as the signal has atoms. -/
theorem noisy_final {phi : ℕ → E} {n : ℕ} {β γ eps : ℝ} (S : Finset ℕ) (hM : Margin phi n S β γ) (hS : ∀ i ∈ S, i < n)
    (hK : 0 < β) (a : ℕ → ℝ) (w : E) (hw : ∀ i, i < n → |⟪phi i, w⟫| ≤ eps)
    {y : E} (hy : y = ∑ l ∈ S, a l • phi l + w)
    (s : OmpState E) (h : OmpGood phi n y s) (hI : ∀ i, i < s.k → s.I i ∈ S) (hk : s.k = S.card) :
    ‖s.r‖ ≤ ‖w‖ ∧ (∀ l, l ∈ S ↔ ∃ i, i < s.k ∧ s.I i = l) ∧
      ∀ i, i < s.k → |s.x i - a (s.I i)| ≤ eps / β := by
  classical
  have hinj : Set.InjOn s.I (Finset.range s.k) := fun i hi j hj e => h.distinct i j (by simpa using hi) (by simpa using hj) e
  have himg : (Finset.range s.k).image s.I = S := by
    apply Finset.eq_of_subset_of_card_le
    · intro l hl
      obtain ⟨i, hi, rfl⟩ := Finset.mem_image.1 hl
      exact hI i (Finset.mem_range.1 hi)
    · rw [Finset.card_image_of_injOn hinj, Finset.card_range, hk]
  have hsum : ∑ l ∈ S, a l • phi l = ∑ i ∈ Finset.range s.k, a (s.I i) • phi (s.I i) := by
    rw [← himg, Finset.sum_image hinj]
  refine ⟨?_, fun l => ?_, ?_⟩
  · have := h.least_squares fun i => a (s.I i)
    rwa [← hsum, hy, add_sub_cancel_left] at this
  · rw [← himg, Finset.mem_image]
    simp
  · have hres := noisy_residual h S a hy hI
    set d : ℕ → ℝ := fun l => a l - ∑ i ∈ (Finset.range s.k).filter (fun i => s.I i = l), s.x i with hdef
    have hd' : ∀ i, i < s.k → d (s.I i) = a (s.I i) - s.x i := by
      intro i hi
      have : (Finset.range s.k).filter (fun j => s.I j = s.I i) = {i} := by
        ext j
        simp only [Finset.mem_filter, Finset.mem_range, Finset.mem_singleton]
        exact ⟨fun hj => h.distinct j i hj.1 hi hj.2, fun e => by rw [e]; exact ⟨hi, rfl⟩⟩
      simp [hdef, this]
    intro i hi
    obtain ⟨m, hm, h1, -⟩ := hM.sel d _ (hI i hi)
    obtain ⟨j, hj, ej⟩ : ∃ j, j < s.k ∧ s.I j = m := by
      rw [← himg, Finset.mem_image] at hm
      obtain ⟨j, hj, e⟩ := hm
      exact ⟨j, Finset.mem_range.1 hj, e⟩
    have ho := h.orth j hj
    rw [ej, hres, inner_add_right] at ho
    have e1 : |⟪phi m, ∑ l ∈ S, d l • phi l⟫| = |⟪phi m, w⟫| := by
      rw [eq_neg_of_add_eq_zero_left ho, abs_neg]
    have e2 := hw m (hS m hm)
    rw [le_div_iff₀ hK, abs_sub_comm, ← hd' i hi, mul_comm]
    linarith

/-- A positive margin. -/
theorem margin_pos {S : Finset ℕ} {γ eps : ℝ} (hne : S.Nonempty) {a : ℕ → ℝ} (heps : 0 ≤ eps) (ha : ∀ l ∈ S, 2 * eps < γ * |a l|) : 0 < γ := by
  obtain ⟨l, hl⟩ := hne
  by_contra hcon
  have := mul_nonneg (neg_nonneg.2 (not_lt.1 hcon)) (abs_nonneg (a l))
  have := ha l hl
  linarith

/-- The matrix version of OMP with noise on a support with margins. -/
theorem omp_noise_of_margin (phi : ℕ → E) (n : ℕ) (β γ eps : ℝ) (hu : ∀ i, i < n → ‖phi i‖ = 1) (S : Finset ℕ) (hM : Margin phi n S β γ) (hS : ∀ i ∈ S, i < n)
    (hne : S.Nonempty) (a : ℕ → ℝ) (w : E) (hw : ∀ i, i < n → |⟪phi i, w⟫| ≤ eps)
    (ha : ∀ l ∈ S, 2 * eps < γ * |a l|) :
    (∀ j, j < S.card → ∀ i, i ≤ j → (ompSeq phi n (∑ l ∈ S, a l • phi l + w) j).I i ∈ S) ∧
    (2 ≤ S.card → ∃ s, ompMatrixSolve phi n (∑ l ∈ S, a l • phi l + w) S.card = some s ∧ s.k = S.card ∧ ‖s.r‖ ≤ ‖w‖ ∧
      (∀ l, l ∈ S ↔ ∃ i, i < S.card ∧ s.I i = l) ∧
      ∀ i, i < S.card → |s.x i - a (s.I i)| ≤ eps / β) := by
  set y := ∑ l ∈ S, a l • phi l + w with hy
  have heps : 0 ≤ eps := by obtain ⟨l, hl⟩ := hne; exact (abs_nonneg _).trans (hw l (hS l hl))
  have hβ : 0 < β := (margin_pos hne heps ha).trans_le hM.le
  have hall : ∀ j, j < S.card → OmpInv phi n y (ompSeq phi n y j) ∧ ∀ i, i < (ompSeq phi n y j).k → (ompSeq phi n y j).I i ∈ S := by
    intro j
    induction j with
    | zero => intro _; exact noisy_init hu S hM hS hne a w hw ha hy
    | succ j ih =>
      intro hj
      obtain ⟨h1, h2⟩ := ih (by omega)
      have e : ompSeq phi n y (j + 1) = ompStep phi n y (ompSeq phi n y j) := by simp only [ompSeq, Function.iterate_succ_apply']
      rw [e]
      exact noisy_step hu S hM hS a w hw ha hy _ h1 h2 (by rw [ompSeq_k]; omega)
  refine ⟨fun j hj i hi => (hall j hj).2 i (by rw [ompSeq_k]; omega), fun h2 => ?_⟩
  obtain ⟨e1, e2⟩ := (c46_matrix_solve phi n y S.card).1 h2
  obtain ⟨i1, i2⟩ := hall (S.card - 1) (by omega)
  obtain ⟨f1, f2, f3⟩ := noisy_final S hM hS hβ a w hw hy _ i1.toOmpGood i2 e2
  rw [e2] at f2 f3
  exact ⟨_, e1, e2, f1, f2, f3⟩

/-- The operator version of OMP with noise on a support with margins. -/
theorem omp_operator_noise_of_margin (phi : ℕ → E) (n : ℕ) (β γ eps : ℝ) (hu : ∀ i, i < n → ‖phi i‖ = 1) (S : Finset ℕ) (hM : Margin phi n S β γ)
    (hS : ∀ i ∈ S, i < n) (hne : S.Nonempty) (a : ℕ → ℝ) (w : E) (hw : ∀ i, i < n → |⟪phi i, w⟫| ≤ eps)
    (ha : ∀ l ∈ S, 2 * eps < γ * |a l|) (maxIters : ℕ) (rtol : ℝ) (hrt : 0 ≤ rtol)
    (hup : ∀ l ∈ S, rtol * ‖∑ l ∈ S, a l • phi l + w‖ < β * |a l| - eps)
    (hmi : maxIters = S.card ∨ (2 ≤ S.card ∧ S.card ≤ maxIters ∧ ‖w‖ ≤ rtol * ‖∑ l ∈ S, a l • phi l + w‖)) :
    (∃ s, OmpOperatorSolve phi n (∑ l ∈ S, a l • phi l + w) maxIters rtol s) ∧
    ∀ s, OmpOperatorSolve phi n (∑ l ∈ S, a l • phi l + w) maxIters rtol s → s.k = S.card ∧ ‖s.r‖ ≤ ‖w‖ ∧
      (∀ l, l ∈ S ↔ ∃ i, i < S.card ∧ s.I i = l) ∧
      ∀ i, i < S.card → |s.x i - a (s.I i)| ≤ eps / β := by
  classical
  set y := ∑ l ∈ S, a l • phi l + w with hy
  obtain ⟨l0, hl0⟩ := id hne
  have heps : 0 ≤ eps := (abs_nonneg _).trans (hw l0 (hS l0 hl0))
  have hroom : 0 < β := (margin_pos hne heps ha).trans_le hM.le
  have hcard : 1 ≤ S.card := Finset.card_pos.2 hne
  have hy0 : y ≠ 0 := by
    obtain ⟨i, _, _, hi, _⟩ := noisy_select hM hS w hw a hl0 (ha l0 hl0)
    rw [← hy] at hi
    intro h0; rw [h0, inner_zero_right] at hi; exact hi rfl
  have hny : 0 < ‖y‖ := norm_pos_iff.2 hy0
  have hgt : 0 < 1 / ‖y‖ := one_div_pos.2 hny
  set g := 1 / ‖y‖ with hg
  have hgy : g * ‖y‖ = 1 := by rw [hg]; field_simp
  set u := g • y with hud
  have hu' : u = ∑ l ∈ S, (g * a l) • phi l + g • w := by
    rw [hud]; conv_lhs => rw [hy]
    rw [smul_add, Finset.smul_sum]; simp only [smul_smul]
  have hw' : ∀ i, i < n → |⟪phi i, g • w⟫| ≤ g * eps := fun i hi => by
    rw [real_inner_smul_right, abs_mul, abs_of_pos hgt]
    exact mul_le_mul_of_nonneg_left (hw i hi) hgt.le
  have ha' : ∀ l ∈ S, 2 * (g * eps) < γ * |g * a l| := fun l hl => by
    rw [abs_mul, abs_of_pos hgt]
    have := mul_lt_mul_of_pos_left (ha l hl) hgt
    linarith
  constructor
  · obtain ⟨t, ht⟩ : ∃ t, Out (ompCond maxIters rtol) (ompStep phi n u) (ompOpInit phi n u) t :=
      exists_out (fun s => s.k) maxIters (fun s h => h.2) fun s => Nat.lt_succ_self _
    exact ⟨_, t, ht, rfl⟩
  rintro s ⟨t, ⟨hr, hc⟩, rfl⟩
  -- the tolerance in the scaled problem
  have hun : ‖u‖ = 1 := by rw [hud, norm_smul, Real.norm_of_nonneg hgt.le, hgy]
  have hrt1 : rtol < 1 := by
    obtain ⟨i, hi, hb, _⟩ := noisy_select hM hS w hw a hl0 (ha l0 hl0)
    rw [← hy] at hb
    have h1 := (abs_real_inner_le_norm (phi i) y)
    rw [hu i (hS i hi), one_mul] at h1
    have h2 := hup l0 hl0
    by_contra hcon
    have := mul_le_mul_of_nonneg_right (not_lt.1 hcon) hny.le
    linarith
  have hinv : (OmpInv phi n u t ∧ ∀ i, i < t.k → t.I i ∈ S) ∧ t.k ≤ S.card ∧ (t.rr = ‖t.r‖ ^ 2 ∨ (t.k = 1 ∧ t.rr = 1)) := by
    refine hr.inv (fun t => (OmpInv phi n u t ∧ ∀ i, i < t.k → t.I i ∈ S) ∧ t.k ≤ S.card ∧ (t.rr = ‖t.r‖ ^ 2 ∨ (t.k = 1 ∧ t.rr = 1))) ?_ ?_
    · obtain ⟨h0, hI⟩ := noisy_init hu S hM hS hne _ _ hw' ha' hu'
      refine ⟨⟨⟨⟨h0.range, h0.distinct, h0.indep, h0.residual, h0.orth⟩, h0.atoms, h0.chol⟩, hI⟩, hcard, Or.inr ⟨rfl, ?_⟩⟩
      show ‖u‖ ^ 2 = 1
      rw [hun]; norm_num
    · rintro t ⟨⟨h1, h2⟩, h3, h4⟩ hcd
      have hlt : t.k < S.card := by
        rcases hmi with hmi | ⟨hc2, _, hwn⟩
        · exact hmi ▸ hcd.2
        · by_contra hge
          have hk : t.k = S.card := by omega
          obtain ⟨f1, _, _⟩ := noisy_final S hM hS hroom _ _ hw' hu' t h1.toOmpGood h2 hk
          rcases h4 with h4 | h4
          · have hgt' := hcd.1
            rw [h4] at hgt'
            have : ‖t.r‖ ≤ rtol := by
              refine f1.trans ?_
              rw [norm_smul, Real.norm_of_nonneg hgt.le]
              have := mul_le_mul_of_nonneg_left hwn hgt.le
              calc g * ‖w‖ ≤ g * (rtol * ‖y‖) := this
                _ = rtol * (g * ‖y‖) := by ring
                _ = rtol := by rw [hgy, mul_one]
            have := pow_le_pow_left₀ (norm_nonneg _) this 2
            linarith
          · omega
      exact ⟨noisy_step hu S hM hS _ _ hw' ha' hu' t h1 h2 hlt, hlt, Or.inl rfl⟩
  obtain ⟨⟨h1, h2⟩, h3, h4⟩ := hinv
  have hSm : S.card ≤ maxIters := by rcases hmi with hmi | hmi; exacts [hmi.ge, hmi.2.1]
  -- the loop cannot stop early: the residual is above the tolerance before all atoms are found
  have hk : t.k = S.card := by
    by_contra hlt
    have hlt : t.k < S.card := by omega
    apply hc
    refine ⟨?_, by omega⟩
    rcases h4 with h4 | h4
    · obtain ⟨l, hl, i, hi, hb, -, -⟩ := noisy_pass hu S hM hS _ _ hw' ha' hu' t h1.toOmpGood h2 hlt
      have e1 := abs_real_inner_le_norm (phi i) t.r
      rw [hu i (hS i hi), one_mul] at e1
      have e2 : rtol < β * |g * a l| - g * eps := by
        have := mul_lt_mul_of_pos_left (hup l hl) hgt
        rw [abs_mul, abs_of_pos hgt]
        calc rtol = g * (rtol * ‖y‖) := by rw [mul_left_comm, hgy, mul_one]
          _ < _ := this
          _ = _ := by ring
      rw [h4]
      exact pow_lt_pow_left₀ (by linarith) hrt two_ne_zero
    · rw [h4.2]
      have := pow_lt_pow_left₀ hrt1 hrt two_ne_zero
      simpa using this
  obtain ⟨f1, f2, f3⟩ := noisy_final S hM hS hroom _ _ hw' hu' t h1.toOmpGood h2 hk
  refine ⟨hk, ?_, ?_, ?_⟩
  · show ‖‖y‖ • t.r‖ ≤ ‖w‖
    rw [norm_smul, norm_norm]
    rw [norm_smul, Real.norm_of_nonneg hgt.le] at f1
    have := mul_le_mul_of_nonneg_left f1 hny.le
    calc ‖y‖ * ‖t.r‖ ≤ ‖y‖ * (g * ‖w‖) := this
      _ = (g * ‖y‖) * ‖w‖ := by ring
      _ = ‖w‖ := by rw [hgy, one_mul]
  · rw [← hk]; exact f2
  · intro i hi
    show |‖y‖ * t.x i - a (t.I i)| ≤ _
    have h5 := mul_le_mul_of_nonneg_left (f3 i (by omega)) hny.le
    have e1 : ‖y‖ * t.x i - a (t.I i) = ‖y‖ * (t.x i - g * a (t.I i)) := by
      rw [mul_sub, ← mul_assoc, mul_comm ‖y‖ g, hgy, one_mul]
    rw [e1, abs_mul, abs_of_pos hny]
    refine h5.trans_eq ?_
    rw [← mul_div_assoc, ← mul_assoc, mul_comm ‖y‖ g, hgy, one_mul]

/-- **C128** OMP with noise: for a dictionary of unit-norm atoms with coherence at most `mu`, measurements `y = ∑_{l ∈ S} a_l phi_l + w` of `K`
atoms with noise whose correlation with every atom is at most `eps`, and coefficients with `|a_l| (1 - (2K-1) mu) > 2 eps`, `matrix_solve` with
`max_iters = K` (`K ≥ 2`) selects exactly the atoms of `S`, every coefficient it returns is within `eps / (1 - (K-1) mu)` of the true one, and
its residual is not larger than the noise; every earlier pass selects atoms of `S` only. -/
theorem c128_omp_noise (phi : ℕ → E) (n : ℕ) (mu eps : ℝ) (hd : Incoherent phi n mu) (hmu : 0 ≤ mu) (S : Finset ℕ) (hS : ∀ i ∈ S, i < n)
    (hne : S.Nonempty) (a : ℕ → ℝ) (w : E) (hw : ∀ i, i < n → |⟪phi i, w⟫| ≤ eps)
    (ha : ∀ l ∈ S, 2 * eps < (1 - (2 * (S.card : ℝ) - 1) * mu) * |a l|) :
    (∀ j, j < S.card → ∀ i, i ≤ j → (ompSeq phi n (∑ l ∈ S, a l • phi l + w) j).I i ∈ S) ∧
    (2 ≤ S.card → ∃ s, ompMatrixSolve phi n (∑ l ∈ S, a l • phi l + w) S.card = some s ∧ s.k = S.card ∧ ‖s.r‖ ≤ ‖w‖ ∧
      (∀ l, l ∈ S ↔ ∃ i, i < S.card ∧ s.I i = l) ∧
      ∀ i, i < S.card → |s.x i - a (s.I i)| ≤ eps / (1 - ((S.card : ℝ) - 1) * mu)) :=
  omp_noise_of_margin phi n _ _ eps hd.unit S (incoherent_margin hd hmu S hS hne
    (margin_pos hne (by obtain ⟨l, hl⟩ := hne; exact (abs_nonneg _).trans (hw l (hS l hl))) ha).le) hS hne a w hw ha

/-- **C128** `operator_solve` finds the sparsity level of a noisy signal by itself: with the data of `c128_omp_noise`, at least two atoms, any
`max_iters ≥ K` and a tolerance `rtol |y|` between the size of the noise and `|a_l| (1 - (K-1) mu) - eps`, it returns and stops after exactly
`K` passes with exactly the atoms of `S`, coefficients within `eps / (1 - (K-1) mu)` and a residual not larger than the noise. With
`max_iters = K` the lower end of the tolerance is not needed, nor are two atoms. -/
theorem c128_omp_operator_noise (phi : ℕ → E) (n : ℕ) (mu eps : ℝ) (hd : Incoherent phi n mu) (hmu : 0 ≤ mu) (S : Finset ℕ)
    (hS : ∀ i ∈ S, i < n) (hne : S.Nonempty) (a : ℕ → ℝ) (w : E) (hw : ∀ i, i < n → |⟪phi i, w⟫| ≤ eps)
    (ha : ∀ l ∈ S, 2 * eps < (1 - (2 * (S.card : ℝ) - 1) * mu) * |a l|) (maxIters : ℕ) (rtol : ℝ) (hrt : 0 ≤ rtol)
    (hup : ∀ l ∈ S, rtol * ‖∑ l ∈ S, a l • phi l + w‖ < (1 - ((S.card : ℝ) - 1) * mu) * |a l| - eps)
    (hmi : maxIters = S.card ∨ (2 ≤ S.card ∧ S.card ≤ maxIters ∧ ‖w‖ ≤ rtol * ‖∑ l ∈ S, a l • phi l + w‖)) :
    (∃ s, OmpOperatorSolve phi n (∑ l ∈ S, a l • phi l + w) maxIters rtol s) ∧
    ∀ s, OmpOperatorSolve phi n (∑ l ∈ S, a l • phi l + w) maxIters rtol s → s.k = S.card ∧ ‖s.r‖ ≤ ‖w‖ ∧
      (∀ l, l ∈ S ↔ ∃ i, i < S.card ∧ s.I i = l) ∧
      ∀ i, i < S.card → |s.x i - a (s.I i)| ≤ eps / (1 - ((S.card : ℝ) - 1) * mu) :=
  omp_operator_noise_of_margin phi n _ _ eps hd.unit S (incoherent_margin hd hmu S hS hne
    (margin_pos hne (by obtain ⟨l, hl⟩ := hne; exact (abs_nonneg _).trans (hw l (hS l hl))) ha).le) hS hne a w hw ha maxIters rtol hrt hup hmi

/-- The hypotheses hold: the orthonormal pair `1`, `i` of the plane, measurements `3 + 4i + (1/2)(1 + i)`, noise correlations `1/2`, and a
tolerance of `1/3`. -/
theorem ex_noise : Incoherent (fun i => if i = 0 then (1 : ℂ) else Complex.I) 2 0 ∧
    (∀ i, i < 2 → |⟪(if i = 0 then (1 : ℂ) else Complex.I), (⟨1 / 2, 1 / 2⟩ : ℂ)⟫| ≤ (1 / 2 : ℝ)) ∧
    (∀ l ∈ ({0, 1} : Finset ℕ), 2 * (1 / 2 : ℝ) < (1 - (2 * ((({0, 1} : Finset ℕ).card : ℕ) : ℝ) - 1) * 0) * |if l = 0 then (3 : ℝ) else 4|) ∧
    ‖(⟨1 / 2, 1 / 2⟩ : ℂ)‖ ≤ 1 / 3 * ‖(⟨7 / 2, 9 / 2⟩ : ℂ)‖ ∧
    (∀ l ∈ ({0, 1} : Finset ℕ), 1 / 3 * ‖(⟨7 / 2, 9 / 2⟩ : ℂ)‖
      < (1 - (((({0, 1} : Finset ℕ).card : ℕ) : ℝ) - 1) * 0) * |if l = 0 then (3 : ℝ) else 4| - 1 / 2) := by
  have n1 : ‖(⟨7 / 2, 9 / 2⟩ : ℂ)‖ ≤ 6 := by
    rw [Complex.norm_def, Complex.normSq_mk]
    exact Real.sqrt_le_iff.2 ⟨by norm_num, by norm_num⟩
  have n2 : 3 ≤ ‖(⟨7 / 2, 9 / 2⟩ : ℂ)‖ := by
    rw [Complex.norm_def, Complex.normSq_mk]
    exact Real.le_sqrt_of_sq_le (by norm_num)
  have n3 : ‖(⟨1 / 2, 1 / 2⟩ : ℂ)‖ ≤ 1 := by
    rw [Complex.norm_def, Complex.normSq_mk]
    exact Real.sqrt_le_iff.2 ⟨by norm_num, by norm_num⟩
  refine ⟨⟨fun i hi => ?_, fun i j hi hj hij => ?_⟩, fun i hi => ?_, fun l hl => ?_, by linarith, fun l hl => ?_⟩
  · interval_cases i <;> simp
  · interval_cases i <;> interval_cases j <;> simp [Complex.inner] at hij ⊢
  · interval_cases i <;> simp [Complex.inner] <;> norm_num [abs_le]
  · simp only [Finset.mem_insert, Finset.mem_singleton] at hl
    rcases hl with rfl | rfl <;> norm_num
  · simp only [Finset.mem_insert, Finset.mem_singleton] at hl
    rcases hl with rfl | rfl <;> norm_num <;> linarith

example := c128_omp_noise (fun i => if i = 0 then (1 : ℂ) else Complex.I) 2 0 (1 / 2) ex_noise.1 le_rfl {0, 1} (by simp) (by simp) (fun l => if l = 0 then (3 : ℝ) else 4) ⟨1 / 2, 1 / 2⟩
  ex_noise.2.1 ex_noise.2.2.1

theorem ex_noise_sum : ∑ l ∈ ({0, 1} : Finset ℕ), (if l = 0 then (3 : ℝ) else 4) • (if l = 0 then (1 : ℂ) else Complex.I) + ⟨1 / 2, 1 / 2⟩ = ⟨7 / 2, 9 / 2⟩ := by
  rw [Finset.sum_pair (by norm_num)]
  apply Complex.ext <;> norm_num

/-- Relative tolerance `1/3`, up to five iterations allowed: two are made. -/
example := c128_omp_operator_noise (fun i => if i = 0 then (1 : ℂ) else Complex.I) 2 0 (1 / 2) ex_noise.1 le_rfl {0, 1} (by simp) (by simp) (fun l => if l = 0 then (3 : ℝ) else 4) ⟨1 / 2, 1 / 2⟩
  ex_noise.2.1 ex_noise.2.2.1 5 (1 / 3) (by norm_num) (by rw [ex_noise_sum]; exact ex_noise.2.2.2.2) (.inr ⟨by decide, by decide, by rw [ex_noise_sum]; exact ex_noise.2.2.2.1⟩)

end Verif.Pursuit
