import Verif.Pursuit.OmpProps

set_option autoImplicit false
/-!
# Exact recovery of sparse signals by orthogonal matching pursuit (C109)
-/
noncomputable section
namespace Verif.Pursuit
open Verif.Loop
open scoped RealInnerProductSpace

variable {E : Type*} [NormedAddCommGroup E] [InnerProductSpace ℝ E]

/-- A dictionary of `n` atoms of unit norm whose coherence is at most `mu`. -/
structure Incoherent (phi : ℕ → E) (n : ℕ) (mu : ℝ) : Prop where
  unit : ∀ i, i < n → ‖phi i‖ = 1
  coh : ∀ i j, i < n → j < n → i ≠ j → |⟪phi i, phi j⟫| ≤ mu

/-- A combination of at most `K` atoms with `(2K - 1) mu < 1`: some atom of the combination is strictly more correlated with it than every
atom outside of it. -/
theorem incoherent_select {phi : ℕ → E} {n : ℕ} {mu : ℝ} (hd : Incoherent phi n mu) (hmu : 0 ≤ mu) (S : Finset ℕ) (hS : ∀ i ∈ S, i < n)
    (hK : (2 * (S.card : ℝ) - 1) * mu < 1) (c : ℕ → ℝ) (hc : ∃ i ∈ S, c i ≠ 0) :
    ∃ i ∈ S, ⟪phi i, ∑ l ∈ S, c l • phi l⟫ ≠ 0 ∧ ∀ j, j < n → j ∉ S → |⟪phi j, ∑ l ∈ S, c l • phi l⟫| < |⟪phi i, ∑ l ∈ S, c l • phi l⟫| := by
  obtain ⟨i1, hi1, hne⟩ := hc
  obtain ⟨i, hi, hmax⟩ := Finset.exists_max_image S (fun l => |c l|) ⟨i1, hi1⟩
  have hpos : 0 < |c i| := lt_of_lt_of_le (abs_pos.2 hne) (hmax i1 hi1)
  have hcard : 1 ≤ S.card := Finset.card_pos.2 ⟨i, hi⟩
  have hcard' : (1 : ℝ) ≤ S.card := by exact_mod_cast hcard
  have hlow : |c i| * (1 - ((S.card : ℝ) - 1) * mu) ≤ |⟪phi i, ∑ l ∈ S, c l • phi l⟫| := by
    rw [← Finset.add_sum_erase S _ hi, inner_add_right, real_inner_smul_right, real_inner_self_eq_norm_sq, hd.unit i (hS i hi)]
    have hb : |⟪phi i, ∑ l ∈ S.erase i, c l • phi l⟫| ≤ ((S.card : ℝ) - 1) * (|c i| * mu) := by
      rw [_root_.inner_sum]
      refine (Finset.abs_sum_le_sum_abs _ _).trans ?_
      have : ∀ l ∈ S.erase i, |⟪phi i, c l • phi l⟫| ≤ |c i| * mu := fun l hl => by
        obtain ⟨h1, h2⟩ := Finset.mem_erase.1 hl
        rw [real_inner_smul_right, abs_mul]
        exact mul_le_mul (hmax l h2) (hd.coh i l (hS i hi) (hS l h2) h1.symm) (abs_nonneg _) (abs_nonneg _)
      refine (Finset.sum_le_card_nsmul _ _ _ this).trans_eq ?_
      rw [Finset.card_erase_of_mem hi, nsmul_eq_mul, Nat.cast_sub hcard, Nat.cast_one]
    have h2 := abs_sub_abs_le_abs_sub (c i * 1 ^ 2) (-⟪phi i, ∑ l ∈ S.erase i, c l • phi l⟫)
    rw [abs_neg, sub_neg_eq_add] at h2
    simp only [one_pow, mul_one] at h2 ⊢
    nlinarith
  refine ⟨i, hi, ?_, fun j hj hjS => ?_⟩
  · intro h0
    rw [h0, abs_zero] at hlow
    have : 0 < |c i| * (1 - ((S.card : ℝ) - 1) * mu) := mul_pos hpos (by nlinarith)
    linarith
  · have hup : |⟪phi j, ∑ l ∈ S, c l • phi l⟫| ≤ (S.card : ℝ) * (|c i| * mu) := by
      rw [_root_.inner_sum]
      refine (Finset.abs_sum_le_sum_abs _ _).trans ?_
      have : ∀ l ∈ S, |⟪phi j, c l • phi l⟫| ≤ |c i| * mu := fun l hl => by
        rw [real_inner_smul_right, abs_mul]
        exact mul_le_mul (hmax l hl) (hd.coh j l hj (hS l hl) (fun h => hjS (h ▸ hl))) (abs_nonneg _) (abs_nonneg _)
      refine (Finset.sum_le_card_nsmul _ _ _ this).trans_eq ?_
      rw [nsmul_eq_mul]
    have : (S.card : ℝ) * (|c i| * mu) < |c i| * (1 - ((S.card : ℝ) - 1) * mu) := by nlinarith
    linarith

/-- For every combination of the atoms of `S` that is not trivial, some atom of `S` is strictly more correlated with it than every atom outside `S`, and is not
orthogonal to it. -/
def Selects (phi : ℕ → E) (n : ℕ) (S : Finset ℕ) : Prop :=
  ∀ c : ℕ → ℝ, (∃ i ∈ S, c i ≠ 0) → ∃ i ∈ S, ⟪phi i, ∑ l ∈ S, c l • phi l⟫ ≠ 0 ∧
    ∀ j, j < n → j ∉ S → |⟪phi j, ∑ l ∈ S, c l • phi l⟫| < |⟪phi i, ∑ l ∈ S, c l • phi l⟫|

/-- The residual of an OMP state whose atoms are in `S` as a combination of the atoms of `S`. -/
theorem residual_comb {phi : ℕ → E} {n : ℕ} {y : E} {s : OmpState E} (h : OmpGood phi n y s) (S : Finset ℕ) (a : ℕ → ℝ)
    (hy : y = ∑ l ∈ S, a l • phi l) (hI : ∀ i, i < s.k → s.I i ∈ S) :
    s.r = ∑ l ∈ S, (a l - ∑ i ∈ (Finset.range s.k).filter (fun i => s.I i = l), s.x i) • phi l := by
  rw [h.residual, hy]
  simp only [sub_smul, Finset.sum_sub_distrib]
  congr 1
  have : ∀ l ∈ S, (∑ i ∈ (Finset.range s.k).filter (fun i => s.I i = l), s.x i) • phi l
      = ∑ i ∈ (Finset.range s.k).filter (fun i => s.I i = l), s.x i • phi (s.I i) := by
    intro l _
    rw [Finset.sum_smul]
    exact Finset.sum_congr rfl fun i hi => by rw [(Finset.mem_filter.1 hi).2]
  rw [Finset.sum_congr rfl this]
  exact (Finset.sum_fiberwise_of_maps_to (fun i hi => hI i (Finset.mem_range.1 hi)) _).symm

/-- The invariant of the run: the state is a good OMP state and its atoms are atoms of the signal. -/
theorem recovery_step {phi : ℕ → E} {n : ℕ} (hu : ∀ i, i < n → ‖phi i‖ = 1) (S : Finset ℕ) (hS : ∀ i ∈ S, i < n)
    (hS2 : Selects phi n S) (a : ℕ → ℝ) (ha : ∀ l ∈ S, a l ≠ 0) {y : E} (hy : y = ∑ l ∈ S, a l • phi l)
    (s : OmpState E) (h : OmpInv phi n y s) (hI : ∀ i, i < s.k → s.I i ∈ S) (hk : s.k < S.card) :
    OmpInv phi n y (ompStep phi n y s) ∧ ∀ i, i < (ompStep phi n y s).k → (ompStep phi n y s).I i ∈ S := by
  classical
  -- some atom of the signal is not selected yet
  obtain ⟨l, hl, hnot⟩ : ∃ l ∈ S, ∀ i, i < s.k → s.I i ≠ l := by
    by_contra hcon
    push Not at hcon
    have hsub : S ⊆ (Finset.range s.k).image s.I := fun l hl => by
      obtain ⟨i, hi, e⟩ := hcon l hl
      exact Finset.mem_image.2 ⟨i, Finset.mem_range.2 hi, e⟩
    have := (Finset.card_le_card hsub).trans Finset.card_image_le
    rw [Finset.card_range] at this
    omega
  have hres := residual_comb h.toOmpGood S a hy hI
  set c : ℕ → ℝ := fun l => a l - ∑ i ∈ (Finset.range s.k).filter (fun i => s.I i = l), s.x i with hc
  have hcl : c l = a l := by
    have : (Finset.range s.k).filter (fun i => s.I i = l) = ∅ := by
      ext i; simp only [Finset.mem_filter, Finset.mem_range, Finset.notMem_empty, iff_false, not_and]; exact hnot i
    simp [hc, this]
  obtain ⟨i, hi, hne, hsel⟩ := hS2 c ⟨l, hl, by rw [hcl]; exact ha l hl⟩
  rw [← hres] at hne hsel
  have hn : 0 < n := lt_of_le_of_lt (Nat.zero_le _) (hS l hl)
  refine ⟨ompStep_inv phi hn hu y s h ⟨i, hS i hi, hne⟩, ?_⟩
  obtain ⟨hb, hmax⟩ := best_spec phi hn s.r
  set b := absMaxIdx (corr ℝ phi n s.r) with hbd
  have hbS : b ∈ S := by
    by_contra hbS
    exact absurd (hmax i (hS i hi)) (not_le.2 (hsel b hb hbS))
  intro j hj
  have hj' : j < s.k + 1 := hj
  show Function.update s.I s.k b j ∈ S
  rcases Nat.lt_succ_iff_lt_or_eq.mp hj' with hj | rfl
  · rw [Function.update_of_ne (by omega)]; exact hI j hj
  · rw [Function.update_self]; exact hbS

theorem recovery_init {phi : ℕ → E} {n : ℕ} (hu : ∀ i, i < n → ‖phi i‖ = 1) (S : Finset ℕ) (hS : ∀ i ∈ S, i < n)
    (hS2 : Selects phi n S) (hne : S.Nonempty) (a : ℕ → ℝ) (ha : ∀ l ∈ S, a l ≠ 0) {y : E} (hy : y = ∑ l ∈ S, a l • phi l) :
    OmpInv phi n y (ompInit phi n y) ∧ ∀ i, i < (ompInit phi n y).k → (ompInit phi n y).I i ∈ S := by
  obtain ⟨l, hl⟩ := hne
  have hn : 0 < n := lt_of_le_of_lt (Nat.zero_le _) (hS l hl)
  refine ⟨ompInit_inv phi hn hu y, fun _ _ => ?_⟩
  obtain ⟨i, hi, _, hsel⟩ := hS2 a ⟨l, hl, ha l hl⟩
  rw [← hy] at hsel
  obtain ⟨hb, hmax⟩ := best_spec phi hn y
  show absMaxIdx (corr ℝ phi n y) ∈ S
  by_contra hbS
  exact absurd (hmax i (hS i hi)) (not_le.2 (hsel _ hb hbS))

/-- The state after as many passes as the signal has atoms. -/
theorem recovery_final {phi : ℕ → E} {n : ℕ} {y : E} (S : Finset ℕ) (a : ℕ → ℝ) (hy : y = ∑ l ∈ S, a l • phi l)
    (s : OmpState E) (h : OmpGood phi n y s) (hI : ∀ i, i < s.k → s.I i ∈ S) (hk : s.k = S.card) :
    s.r = 0 ∧ (∀ l, l ∈ S ↔ ∃ i, i < s.k ∧ s.I i = l) ∧ ∀ i, i < s.k → s.x i = a (s.I i) := by
  classical
  have himg : (Finset.range s.k).image s.I = S := by
    apply Finset.eq_of_subset_of_card_le
    · intro l hl
      obtain ⟨i, hi, rfl⟩ := Finset.mem_image.1 hl
      exact hI i (Finset.mem_range.1 hi)
    · rw [Finset.card_image_of_injOn, Finset.card_range, hk]
      intro i hi j hj e
      exact h.distinct i j (by simpa using hi) (by simpa using hj) e
  have hsum : y = ∑ i ∈ Finset.range s.k, a (s.I i) • phi (s.I i) := by
    rw [hy, ← himg, Finset.sum_image]
    intro i hi j hj e
    exact h.distinct i j (by simpa using hi) (by simpa using hj) e
  have hr0 : s.r = 0 := by
    have := h.least_squares fun i => a (s.I i)
    rw [← hsum, sub_self, norm_zero] at this
    exact norm_le_zero_iff.1 this
  refine ⟨hr0, fun l => ?_, fun i hi => ?_⟩
  · rw [← himg, Finset.mem_image]
    simp
  · have h1 := h.residual
    rw [hr0] at h1
    have h2 : ∑ i ∈ Finset.range s.k, (s.x i - a (s.I i)) • phi (s.I i) = 0 := by
      simp only [sub_smul, Finset.sum_sub_distrib]
      rw [← hsum, ← neg_sub, ← h1, neg_zero]
    exact sub_eq_zero.1 (h.indep _ h2 i hi)

/-- The matrix version of OMP on a support that is always selected. -/
theorem omp_recovery_of_select (phi : ℕ → E) (n : ℕ) (hu : ∀ i, i < n → ‖phi i‖ = 1) (S : Finset ℕ) (hS : ∀ i ∈ S, i < n)
    (hS2 : Selects phi n S) (hne : S.Nonempty) (a : ℕ → ℝ) (ha : ∀ l ∈ S, a l ≠ 0) :
    (∀ j, j < S.card → ∀ i, i ≤ j → (ompSeq phi n (∑ l ∈ S, a l • phi l) j).I i ∈ S) ∧
    (2 ≤ S.card → ∃ s, ompMatrixSolve phi n (∑ l ∈ S, a l • phi l) S.card = some s ∧ s.k = S.card ∧ s.r = 0 ∧
      (∀ l, l ∈ S ↔ ∃ i, i < S.card ∧ s.I i = l) ∧ ∀ i, i < S.card → s.x i = a (s.I i)) := by
  set y := ∑ l ∈ S, a l • phi l with hy
  have hall : ∀ j, j < S.card → OmpInv phi n y (ompSeq phi n y j) ∧ ∀ i, i < (ompSeq phi n y j).k → (ompSeq phi n y j).I i ∈ S := by
    intro j
    induction j with
    | zero => intro _; exact recovery_init hu S hS hS2 hne a ha hy
    | succ j ih =>
      intro hj
      obtain ⟨h1, h2⟩ := ih (by omega)
      have e : ompSeq phi n y (j + 1) = ompStep phi n y (ompSeq phi n y j) := by simp only [ompSeq, Function.iterate_succ_apply']
      rw [e]
      exact recovery_step hu S hS hS2 a ha hy _ h1 h2 (by rw [ompSeq_k]; omega)
  refine ⟨fun j hj i hi => (hall j hj).2 i (by rw [ompSeq_k]; omega), fun h2 => ?_⟩
  obtain ⟨e1, e2⟩ := (c46_matrix_solve phi n y S.card).1 h2
  obtain ⟨i1, i2⟩ := hall (S.card - 1) (by omega)
  obtain ⟨f1, f2, f3⟩ := recovery_final S a hy _ i1.toOmpGood i2 e2
  rw [e2] at f2 f3
  exact ⟨_, e1, e2, f1, f2, f3⟩

/-- The operator version of OMP on a support that is always selected. -/
theorem omp_operator_recovery_of_select (phi : ℕ → E) (n : ℕ) (hu : ∀ i, i < n → ‖phi i‖ = 1) (S : Finset ℕ) (hS : ∀ i ∈ S, i < n)
    (hS2 : Selects phi n S) (hne : S.Nonempty) (a : ℕ → ℝ) (ha : ∀ l ∈ S, a l ≠ 0) :
    (∃ s, OmpOperatorSolve phi n (∑ l ∈ S, a l • phi l) S.card 0 s) ∧
    ∀ s, OmpOperatorSolve phi n (∑ l ∈ S, a l • phi l) S.card 0 s → s.k = S.card ∧ s.r = 0 ∧
      (∀ l, l ∈ S ↔ ∃ i, i < S.card ∧ s.I i = l) ∧ ∀ i, i < S.card → s.x i = a (s.I i) := by
  classical
  set y := ∑ l ∈ S, a l • phi l with hy
  have hn : 0 < n := by obtain ⟨l, hl⟩ := hne; exact lt_of_le_of_lt (Nat.zero_le _) (hS l hl)
  have hy0 : y ≠ 0 := by
    obtain ⟨l, hl⟩ := hne
    obtain ⟨i, _, hi, _⟩ := hS2 a ⟨l, hl, ha l hl⟩
    rw [← hy] at hi
    intro h0; rw [h0, inner_zero_right] at hi; exact hi rfl
  have hny : 0 < ‖y‖ := norm_pos_iff.2 hy0
  set u := (1 / ‖y‖) • y with hud
  have hu' : u = ∑ l ∈ S, (1 / ‖y‖ * a l) • phi l := by
    rw [hud]; conv_lhs => rw [hy]
    rw [Finset.smul_sum]; simp only [smul_smul]; rfl
  have ha' : ∀ l ∈ S, 1 / ‖y‖ * a l ≠ 0 := fun l hl => mul_ne_zero (one_div_ne_zero hny.ne') (ha l hl)
  constructor
  · obtain ⟨t, ht⟩ : ∃ t, Out (ompCond S.card 0) (ompStep phi n u) (ompOpInit phi n u) t :=
      exists_out (fun s => s.k) S.card (fun s h => h.2) fun s => Nat.lt_succ_self _
    exact ⟨_, t, ht, rfl⟩
  rintro s ⟨t, ⟨hr, hc⟩, rfl⟩
  have hinv : (OmpInv phi n u t ∧ ∀ i, i < t.k → t.I i ∈ S) ∧ t.k ≤ S.card ∧ (t.rr ≤ 0 → t.r = 0) := by
    refine hr.inv (fun t => (OmpInv phi n u t ∧ ∀ i, i < t.k → t.I i ∈ S) ∧ t.k ≤ S.card ∧ (t.rr ≤ 0 → t.r = 0)) ?_ ?_
    · obtain ⟨h0, hI⟩ := recovery_init hu S hS hS2 hne _ ha' hu'
      refine ⟨⟨⟨⟨h0.range, h0.distinct, h0.indep, h0.residual, h0.orth⟩, h0.atoms, h0.chol⟩, hI⟩, Finset.card_pos.2 hne, fun h => ?_⟩
      have h1 : ‖u‖ = 1 := by rw [hud, norm_smul, norm_div, norm_one, norm_norm, one_div, inv_mul_cancel₀ hny.ne']
      have h2 : ‖u‖ ^ 2 ≤ 0 := h
      rw [h1] at h2; norm_num at h2
    · rintro t ⟨⟨h1, h2⟩, h3, _⟩ hcd
      refine ⟨recovery_step hu S hS hS2 _ ha' hu' t h1 h2 hcd.2, hcd.2, fun h => ?_⟩
      have h4 : ‖(ompStep phi n u t).r‖ ^ 2 ≤ 0 := h
      exact norm_eq_zero.1 (pow_eq_zero_iff two_ne_zero |>.1 (le_antisymm h4 (sq_nonneg _)))
  obtain ⟨⟨h1, h2⟩, h3, h4⟩ := hinv
  -- the loop cannot stop early: the residual is not zero before all atoms are found
  have hk : t.k = S.card := by
    by_contra hlt
    have hlt : t.k < S.card := by omega
    have hr0 : t.r = 0 := h4 (by
      by_contra hpos
      exact hc ⟨by simpa using hpos, hlt⟩)
    obtain ⟨l, hl, hnot⟩ : ∃ l ∈ S, ∀ i, i < t.k → t.I i ≠ l := by
      by_contra hcon
      push Not at hcon
      have hsub : S ⊆ (Finset.range t.k).image t.I := fun l hl => by
        obtain ⟨i, hi, e⟩ := hcon l hl
        exact Finset.mem_image.2 ⟨i, Finset.mem_range.2 hi, e⟩
      have := (Finset.card_le_card hsub).trans Finset.card_image_le
      rw [Finset.card_range] at this
      omega
    have hres := residual_comb h1.toOmpGood S _ hu' h2
    have hcl : (1 / ‖y‖ * a l - ∑ i ∈ (Finset.range t.k).filter (fun i => t.I i = l), t.x i) ≠ 0 := by
      have : (Finset.range t.k).filter (fun i => t.I i = l) = ∅ := by
        ext i; simp only [Finset.mem_filter, Finset.mem_range, Finset.notMem_empty, iff_false, not_and]; exact hnot i
      rw [this, Finset.sum_empty, sub_zero]
      exact ha' l hl
    obtain ⟨i, _, hi, _⟩ := hS2
      (fun l => 1 / ‖y‖ * a l - ∑ i ∈ (Finset.range t.k).filter (fun i => t.I i = l), t.x i) ⟨l, hl, hcl⟩
    rw [← hres, hr0, inner_zero_right] at hi
    exact hi rfl
  obtain ⟨f1, f2, f3⟩ := recovery_final S _ hu' t h1.toOmpGood h2 hk
  refine ⟨hk, ?_, ?_, ?_⟩
  · show ‖y‖ • t.r = 0
    rw [f1, smul_zero]
  · rw [← hk]; exact f2
  · intro i hi
    show ‖y‖ * t.x i = a (t.I i)
    rw [f3 i (by omega)]
    field_simp

/-- **C109** OMP recovers sparse signals: for a dictionary of unit-norm atoms with coherence at most `mu` and a signal `y` that is a combination
of `K` atoms (index set `S`, non-zero coefficients `a`) with `(2K - 1) mu < 1`, `matrix_solve` with `max_iters = K` (`K ≥ 2`) selects exactly
the atoms of `S`, returns their coefficients and a zero residual; every earlier pass selects atoms of `S` only. -/
theorem c109_omp_recovery (phi : ℕ → E) (n : ℕ) (mu : ℝ) (hd : Incoherent phi n mu) (hmu : 0 ≤ mu) (S : Finset ℕ) (hS : ∀ i ∈ S, i < n)
    (hK : (2 * (S.card : ℝ) - 1) * mu < 1) (hne : S.Nonempty) (a : ℕ → ℝ) (ha : ∀ l ∈ S, a l ≠ 0) :
    (∀ j, j < S.card → ∀ i, i ≤ j → (ompSeq phi n (∑ l ∈ S, a l • phi l) j).I i ∈ S) ∧
    (2 ≤ S.card → ∃ s, ompMatrixSolve phi n (∑ l ∈ S, a l • phi l) S.card = some s ∧ s.k = S.card ∧ s.r = 0 ∧
      (∀ l, l ∈ S ↔ ∃ i, i < S.card ∧ s.I i = l) ∧ ∀ i, i < S.card → s.x i = a (s.I i)) :=
  omp_recovery_of_select phi n hd.unit S hS (fun c hc => incoherent_select hd hmu S hS hK c hc) hne a ha

/-- **C109** The same for `operator_solve` (any `K ≥ 1`) with `res_norm_rtol = 0`: it returns, and what it returns is the signal. -/
theorem c109_omp_operator_recovery (phi : ℕ → E) (n : ℕ) (mu : ℝ) (hd : Incoherent phi n mu) (hmu : 0 ≤ mu) (S : Finset ℕ) (hS : ∀ i ∈ S, i < n)
    (hK : (2 * (S.card : ℝ) - 1) * mu < 1) (hne : S.Nonempty) (a : ℕ → ℝ) (ha : ∀ l ∈ S, a l ≠ 0) :
    (∃ s, OmpOperatorSolve phi n (∑ l ∈ S, a l • phi l) S.card 0 s) ∧
    ∀ s, OmpOperatorSolve phi n (∑ l ∈ S, a l • phi l) S.card 0 s → s.k = S.card ∧ s.r = 0 ∧
      (∀ l, l ∈ S ↔ ∃ i, i < S.card ∧ s.I i = l) ∧ ∀ i, i < S.card → s.x i = a (s.I i) :=
  omp_operator_recovery_of_select phi n hd.unit S hS (fun c hc => incoherent_select hd hmu S hS hK c hc) hne a ha

/-- The hypotheses hold for the atoms `1`, `i` and `(3 + 4i)/5` of the plane with coherence `4/5` and one atom, and for an orthonormal pair with
both atoms. -/
theorem ex_incoherent : Incoherent (fun i => if i = 0 then (1 : ℂ) else if i = 1 then Complex.I else ⟨3 / 5, 4 / 5⟩) 3 (4 / 5) ∧
    (2 * ((({1} : Finset ℕ).card : ℕ) : ℝ) - 1) * (4 / 5) < 1 ∧
    Incoherent (fun i => if i = 0 then (1 : ℂ) else Complex.I) 2 0 ∧ (2 * ((({0, 1} : Finset ℕ).card : ℕ) : ℝ) - 1) * 0 < 1 := by
  have n35 : ‖(⟨3 / 5, 4 / 5⟩ : ℂ)‖ = 1 := by
    rw [Complex.norm_def, Complex.normSq_mk]; norm_num
  refine ⟨⟨fun i hi => ?_, fun i j hi hj hij => ?_⟩, by norm_num, ⟨fun i hi => ?_, fun i j hi hj hij => ?_⟩, by norm_num⟩
  · interval_cases i <;> simp [n35]
  · interval_cases i <;> interval_cases j <;> simp [Complex.inner] at hij ⊢ <;> norm_num [abs_le]
  · interval_cases i <;> simp
  · interval_cases i <;> interval_cases j <;> simp [Complex.inner] at hij ⊢

example := c109_omp_recovery _ 2 0 ex_incoherent.2.2.1 le_rfl {0, 1} (by simp) ex_incoherent.2.2.2 (by simp) (fun l => if l = 0 then 3 else 4) (fun l _ => by split_ifs <;> norm_num)
example := c109_omp_operator_recovery _ 3 (4 / 5) ex_incoherent.1 (by norm_num) {1} (by simp) ex_incoherent.2.1 (by simp) (fun _ => 3) (by simp)

end Verif.Pursuit
