import Verif.Pursuit.OmpProps

set_option autoImplicit false
/-!
# How fast greedy pursuits approximate (C134)

For a dictionary of unit-norm atoms, with no assumption on how the atoms are correlated.
-/
noncomputable section
namespace Verif.Pursuit
open Verif.Loop
open scoped RealInnerProductSpace

variable {E : Type*} [NormedAddCommGroup E] [InnerProductSpace ℝ E]

/-- A combination of atoms with coefficients of total size `M`, each having correlation at most `m` with `r`, has correlation at most
`M m` with `r`. -/
theorem inner_synth_le (phi : ℕ → E) (n : ℕ) (c : ℕ → ℝ) (r : E) (m M : ℝ) (hm0 : 0 ≤ m) (hm : ∀ i, i < n → |⟪phi i, r⟫| ≤ m)
    (hM : ∑ i ∈ Finset.range n, |c i| ≤ M) : ⟪synth phi n c, r⟫ ≤ M * m := by
  unfold synth
  rw [sum_inner]
  calc _ ≤ ∑ i ∈ Finset.range n, |c i| * m := Finset.sum_le_sum fun i hi => by
        rw [real_inner_smul_left]
        refine (le_abs_self _).trans ?_
        rw [abs_mul]
        exact mul_le_mul_of_nonneg_left (hm i (Finset.mem_range.mp hi)) (abs_nonneg _)
    _ = (∑ i ∈ Finset.range n, |c i|) * m := (Finset.sum_mul _ _ _).symm
    _ ≤ M * m := mul_le_mul_of_nonneg_right hM hm0

theorem norm_synth_le (phi : ℕ → E) (n : ℕ) (hu : ∀ i, i < n → ‖phi i‖ = 1) (c : ℕ → ℝ) : ‖synth phi n c‖ ≤ ∑ i ∈ Finset.range n, |c i| := by
  unfold synth
  refine (norm_sum_le _ _).trans (Finset.sum_le_sum fun i hi => ?_)
  rw [norm_smul, hu i (Finset.mem_range.mp hi), mul_one, Real.norm_eq_abs]

/-! ## Matching pursuit -/

/-- **C134** matching pursuit on a signal that is a combination of unit-norm atoms with coefficients of total size at most `M`: after `k`
iterations `|r|⁶ ≤ M⁶ / (2k + 1)`, whatever the dictionary. -/
theorem c134_mp_rate (phi : ℕ → E) (n : ℕ) (hn : 0 < n) (hu : ∀ i, i < n → ‖phi i‖ = 1) (c : ℕ → ℝ) (M : ℝ)
    (hM : ∑ i ∈ Finset.range n, |c i| ≤ M) (y : E) (hy : y = synth phi n c) (rtol : ℝ) (N : ℕ) (s : MpState E)
    (h : Reach (mpCond y rtol N) (mpStep phi n y) (mpInit y) s) : ‖s.r‖ ^ 6 ≤ M ^ 6 / (2 * s.iters + 1) := by
  have hM0 : 0 ≤ M := (Finset.sum_nonneg fun i _ => abs_nonneg (c i)).trans hM
  have key : s.r = y - synth phi n s.x ∧ ∃ b, 0 ≤ b ∧ ∑ i ∈ Finset.range n, |c i - s.x i| ≤ b ∧ ‖s.r‖ ^ 2 * b ≤ M ^ 3 ∧
      (2 * (s.iters : ℝ) + 1) * ‖s.r‖ ^ 2 ≤ b ^ 2 := by
    refine ⟨((c44_mp_residual phi n hn y rtol N).1 s h).1, ?_⟩
    refine h.inv' (fun s => ∃ b, 0 ≤ b ∧ ∑ i ∈ Finset.range n, |c i - s.x i| ≤ b ∧ ‖s.r‖ ^ 2 * b ≤ M ^ 3 ∧
      (2 * (s.iters : ℝ) + 1) * ‖s.r‖ ^ 2 ≤ b ^ 2) ?_ ?_
    · have h1 : ‖y‖ ^ 2 ≤ M ^ 2 := by
        rw [hy]
        exact pow_le_pow_left₀ (norm_nonneg _) ((norm_synth_le phi n hu c).trans hM) 2
      refine ⟨M, hM0, by simpa [mpInit] using hM, ?_, by simpa [mpInit] using h1⟩
      show ‖y‖ ^ 2 * M ≤ M ^ 3
      nlinarith
    · rintro s hr ⟨b, hb0, hb1, hb2, hb3⟩ -
      have hres := ((c44_mp_residual phi n hn y rtol N).1 s hr).1
      obtain ⟨hbn, hmax⟩ := best_spec phi hn s.r
      have hdec := (c44_mp_decrease phi n hn hu y s).2.1 _ hbn
      have hx : (mpStep phi n y s).x = Function.update s.x (absMaxIdx (corr ℝ phi n s.r))
          (s.x (absMaxIdx (corr ℝ phi n s.r)) + ⟪phi (absMaxIdx (corr ℝ phi n s.r)), s.r⟫) := by rw [mpStep_eq phi hn y s]
      have hit : (mpStep phi n y s).iters = s.iters + 1 := rfl
      obtain ⟨i, hi⟩ : ∃ i, i = absMaxIdx (corr ℝ phi n s.r) := ⟨_, rfl⟩
      rw [← hi] at hbn hmax hdec hx
      obtain ⟨m, hm⟩ : ∃ m, m = |⟪phi i, s.r⟫| := ⟨_, rfl⟩
      have hm0 : 0 ≤ m := hm ▸ abs_nonneg _
      rw [← hm] at hmax
      rw [← sq_abs ⟪phi i, s.r⟫, ← hm] at hdec
      have ha : ‖s.r‖ ^ 2 ≤ b * m := by
        have e : s.r = synth phi n fun i => c i - s.x i := by
          rw [hres, hy]
          unfold synth
          rw [← Finset.sum_sub_distrib]
          exact Finset.sum_congr rfl fun i _ => by rw [sub_smul]
        have h1 := inner_synth_le phi n (fun i => c i - s.x i) s.r m b hm0 hmax hb1
        rw [← e, real_inner_self_eq_norm_sq] at h1
        exact h1
      refine ⟨b + m, add_nonneg hb0 hm0, ?_, ?_, ?_⟩
      · have hmem : i ∈ Finset.range n := Finset.mem_range.mpr hbn
        rw [hx, ← Finset.sum_erase_add _ _ hmem, Function.update_self]
        rw [← Finset.sum_erase_add _ _ hmem] at hb1
        have e1 : ∑ j ∈ (Finset.range n).erase i, |c j - Function.update s.x i (s.x i + ⟪phi i, s.r⟫) j| =
            ∑ j ∈ (Finset.range n).erase i, |c j - s.x j| :=
          Finset.sum_congr rfl fun j hj => by rw [Function.update_of_ne (Finset.ne_of_mem_erase hj)]
        have e2 : |c i - (s.x i + ⟪phi i, s.r⟫)| ≤ |c i - s.x i| + m := by
          rw [hm, ← sub_sub]; exact abs_sub _ _
        rw [e1]; linarith
      · have : ‖(mpStep phi n y s).r‖ ^ 2 * (b + m) ≤ (‖s.r‖ ^ 2 - m ^ 2) * (b + m) :=
          mul_le_mul_of_nonneg_right hdec (add_nonneg hb0 hm0)
        have h3 : 0 ≤ m ^ 3 := by positivity
        nlinarith [mul_le_mul_of_nonneg_right ha hm0]
      · rw [hit]; push_cast
        have hk : (0 : ℝ) ≤ 2 * (s.iters + 1 : ℝ) + 1 := by positivity
        have h1 := mul_le_mul_of_nonneg_left hdec hk
        have h2 : 0 ≤ (2 * ((s.iters : ℝ) + 1) + 1) * m ^ 2 := by positivity
        nlinarith [sq_nonneg m]
  obtain ⟨-, b, hb0, -, h2, h3⟩ := key
  have hk : (0 : ℝ) < 2 * s.iters + 1 := by positivity
  rw [le_div_iff₀ hk]
  have ha : 0 ≤ ‖s.r‖ ^ 2 := by positivity
  calc ‖s.r‖ ^ 6 * (2 * s.iters + 1) = (‖s.r‖ ^ 2) ^ 2 * ((2 * (s.iters : ℝ) + 1) * ‖s.r‖ ^ 2) := by ring
    _ ≤ (‖s.r‖ ^ 2) ^ 2 * b ^ 2 := mul_le_mul_of_nonneg_left h3 (by positivity)
    _ = (‖s.r‖ ^ 2 * b) ^ 2 := by ring
    _ ≤ (M ^ 3) ^ 2 := pow_le_pow_left₀ (by positivity) h2 2
    _ = M ^ 6 := by ring

/-! ## Orthogonal matching pursuit -/

/-- One pass of OMP removes at least the largest squared correlation. -/
theorem ompStep_gain (phi : ℕ → E) {n : ℕ} (hn : 0 < n) (hu : ∀ i, i < n → ‖phi i‖ = 1) (y : E) (s : OmpState E) (h : OmpInv phi n y s)
    (hcor : ∃ i, i < n ∧ ⟪phi i, s.r⟫ ≠ 0) (i : ℕ) (hi : i < n) :
    ‖(ompStep phi n y s).r‖ ^ 2 ≤ ‖s.r‖ ^ 2 - ⟪phi i, s.r⟫ ^ 2 := by
  have h' := ompStep_inv phi hn hu y s h hcor
  obtain ⟨hb, hmax⟩ := best_spec phi hn s.r
  set b := absMaxIdx (corr ℝ phi n s.r) with hbd
  have hls := h'.toOmpGood.least_squares (Function.update s.x s.k ⟪phi b, s.r⟫)
  have hk : (ompStep phi n y s).k = s.k + 1 := rfl
  have hI : (ompStep phi n y s).I = Function.update s.I s.k b := rfl
  rw [hk, hI, Finset.sum_range_succ, Function.update_self, Function.update_self] at hls
  have hsum : ∑ i ∈ Finset.range s.k, Function.update s.x s.k ⟪phi b, s.r⟫ i • phi (Function.update s.I s.k b i) =
      ∑ i ∈ Finset.range s.k, s.x i • phi (s.I i) :=
    Finset.sum_congr rfl fun i hi => by
      have : i ≠ s.k := by have := Finset.mem_range.mp hi; omega
      rw [Function.update_of_ne this, Function.update_of_ne this]
  rw [hsum, ← sub_sub, ← h.residual] at hls
  have h2 := pow_le_pow_left₀ (norm_nonneg _) hls 2
  rw [norm_sub_sq_real, real_inner_smul_right, norm_smul, hu _ hb, real_inner_comm, Real.norm_eq_abs, mul_one, sq_abs] at h2
  have h3 := pow_le_pow_left₀ (abs_nonneg _) (hmax i hi) 2
  rw [sq_abs, sq_abs] at h3
  rw [real_inner_comm] at h2
  have e := real_inner_comm s.r (phi b)
  nlinarith

theorem ompInit_gain (phi : ℕ → E) {n : ℕ} (hn : 0 < n) (hu : ∀ i, i < n → ‖phi i‖ = 1) (y : E) (i : ℕ) (hi : i < n) :
    ‖(ompInit phi n y).r‖ ^ 2 ≤ ‖y‖ ^ 2 - ⟪phi i, y⟫ ^ 2 := by
  obtain ⟨hb, hmax⟩ := best_spec phi hn y
  have e : (ompInit phi n y).r = y - ⟪phi (absMaxIdx (corr ℝ phi n y)), y⟫ • phi (absMaxIdx (corr ℝ phi n y)) := by
    show y - (corr ℝ phi n y).getD _ 0 • _ = _
    rw [corr_getD phi n y hb]
  have h3 := pow_le_pow_left₀ (abs_nonneg _) (hmax i hi) 2
  rw [sq_abs, sq_abs] at h3
  rw [e, norm_sub_sq_real, real_inner_smul_right, norm_smul, hu _ hb, real_inner_comm y, Real.norm_eq_abs, mul_one, sq_abs]
  rw [real_inner_comm] at h3
  have e2 := real_inner_comm y (phi i)
  have e3 := real_inner_comm y (phi (absMaxIdx (corr ℝ phi n y)))
  rw [e2]; rw [e3] at h3
  nlinarith

/-- The residual of a least squares fit has inner product `|r|²` with the signal. -/
theorem OmpGood.inner_self {phi : ℕ → E} {n : ℕ} {y : E} {s : OmpState E} (h : OmpGood phi n y s) : ⟪s.r, y⟫ = ‖s.r‖ ^ 2 := by
  have e : y = s.r + ∑ i ∈ Finset.range s.k, s.x i • phi (s.I i) := by rw [h.residual]; abel
  have z : ⟪s.r, ∑ i ∈ Finset.range s.k, s.x i • phi (s.I i)⟫ = 0 := by
    rw [inner_sum]
    exact Finset.sum_eq_zero fun i hi => by
      rw [real_inner_smul_right, real_inner_comm, h.orth i (Finset.mem_range.mp hi), mul_zero]
  calc ⟪s.r, y⟫ = ⟪s.r, s.r + ∑ i ∈ Finset.range s.k, s.x i • phi (s.I i)⟫ := congrArg (fun t => ⟪s.r, t⟫) e
    _ = _ := by rw [inner_add_right, z, add_zero, real_inner_self_eq_norm_sq]

/-- The excess `a` of the squared residual over that of a competitor: one step removes `a²/(4M²)`. -/
theorem excess_le {r y w : E} {M m : ℝ} (hry : ⟪r, y⟫ = ‖r‖ ^ 2) (hw : ⟪w, r⟫ ≤ M * m) :
    ‖r‖ ^ 2 - ‖y - w‖ ^ 2 ≤ 2 * (M * m) := by
  have h1 : ⟪r, y⟫ = ⟪r, y - w⟫ + ⟪r, w⟫ := by rw [inner_sub_right]; ring
  have h2 := real_inner_le_norm r (y - w)
  rw [real_inner_comm] at hw
  nlinarith [sq_nonneg (‖r‖ - ‖y - w‖)]

theorem rate_step {a a' B q : ℝ} (hB : 0 ≤ B) (hq : 2 ≤ q) (h : q * a ≤ 4 * B) (hle : a' ≤ a) (hd : 0 ≤ a → a ^ 2 ≤ 4 * B * (a - a')) :
    (q + 1) * a' ≤ 4 * B := by
  by_cases ha : a < 0
  · nlinarith
  push Not at ha
  have hd := hd ha
  rcases hB.eq_or_lt with h0 | h0
  · subst h0
    have : a = 0 := by nlinarith
    nlinarith
  · have h1 : (q + 1) * (4 * B * a - a ^ 2) ≤ 16 * B ^ 2 := by
      have hw : 0 ≤ 4 * B - q * a := by linarith
      have hq0 : 0 < q ^ 2 := by positivity
      have h5 : 0 ≤ (q + 1) * (4 * B * (q - 2) * (4 * B - q * a) + (4 * B - q * a) ^ 2) :=
        mul_nonneg (by linarith) (add_nonneg (mul_nonneg (mul_nonneg (by linarith) (by linarith)) hw) (sq_nonneg _))
      have h6 : 0 ≤ q ^ 2 * (16 * B ^ 2 - (q + 1) * (4 * B * a - a ^ 2)) := by nlinarith [sq_nonneg B]
      have := nonneg_of_mul_nonneg_right h6 hq0
      linarith
    have h2 : 4 * B * ((q + 1) * a') ≤ 4 * B * (4 * B) := by nlinarith
    exact le_of_mul_le_mul_left h2 (by linarith)

theorem exists_max_corr (phi : ℕ → E) {n : ℕ} (hn : 0 < n) (r : E) : ∃ b, b < n ∧ ∀ i, i < n → |⟪phi i, r⟫| ≤ |⟪phi b, r⟫| :=
  ⟨_, best_spec phi hn r⟩

/-- The bound after the first atom. -/
theorem omp_oracle_init (phi : ℕ → E) {n : ℕ} (hn : 0 < n) (hu : ∀ i, i < n → ‖phi i‖ = 1) (y : E) (c : ℕ → ℝ) (M : ℝ)
    (hM : ∑ i ∈ Finset.range n, |c i| ≤ M) : (4 : ℝ) * (‖(ompInit phi n y).r‖ ^ 2 - ‖y - synth phi n c‖ ^ 2) ≤ 4 * M ^ 2 := by
  obtain ⟨b, hb, hmax⟩ := exists_max_corr phi hn y
  have h1 := ompInit_gain phi hn hu y b hb
  have h2 := excess_le (M := M) (real_inner_self_eq_norm_sq y) (inner_synth_le phi n c y _ M (abs_nonneg _) hmax hM)
  rw [← sq_abs ⟪phi b, y⟫] at h1
  nlinarith [sq_nonneg (M - |⟪phi b, y⟫|)]

theorem omp_oracle_step (phi : ℕ → E) {n : ℕ} (hn : 0 < n) (hu : ∀ i, i < n → ‖phi i‖ = 1) (y : E) (c : ℕ → ℝ) (M : ℝ)
    (hM : ∑ i ∈ Finset.range n, |c i| ≤ M) (s : OmpState E) (h : OmpInv phi n y s) (hcor : ∃ i, i < n ∧ ⟪phi i, s.r⟫ ≠ 0) (q : ℝ) (hq : 2 ≤ q)
    (ih : q * (‖s.r‖ ^ 2 - ‖y - synth phi n c‖ ^ 2) ≤ 4 * M ^ 2) :
    (q + 1) * (‖(ompStep phi n y s).r‖ ^ 2 - ‖y - synth phi n c‖ ^ 2) ≤ 4 * M ^ 2 := by
  obtain ⟨b, hb, hmax⟩ := exists_max_corr phi hn s.r
  have h1 := ompStep_gain phi hn hu y s h hcor b hb
  have h2 := excess_le (M := M) h.toOmpGood.inner_self (inner_synth_le phi n c s.r _ M (abs_nonneg _) hmax hM)
  rw [← sq_abs ⟪phi b, s.r⟫] at h1
  refine rate_step (sq_nonneg M) hq ih (by nlinarith [sq_nonneg |⟪phi b, s.r⟫|]) fun h0 => ?_
  have h3 := pow_le_pow_left₀ h0 h2 2
  nlinarith [mul_le_mul_of_nonneg_left h1 (sq_nonneg M)]

/-- **C134** (OMP against every competitor) for unit-norm atoms: as long as the residual is correlated with some atom, after `j + 1` atoms
`|r|² ≤ |y - Phi c|² + 4 M² / (j + 4)` for every coefficient vector `c` with `∑ |c i| ≤ M`. -/
theorem c134_omp_oracle (phi : ℕ → E) (n : ℕ) (hn : 0 < n) (hu : ∀ i, i < n → ‖phi i‖ = 1) (y : E) (j : ℕ)
    (hcor : ∀ j', j' < j → ∃ i, i < n ∧ ⟪phi i, (ompSeq phi n y j').r⟫ ≠ 0) (c : ℕ → ℝ) (M : ℝ)
    (hM : ∑ i ∈ Finset.range n, |c i| ≤ M) :
    ‖(ompSeq phi n y j).r‖ ^ 2 ≤ ‖y - synth phi n c‖ ^ 2 + 4 * M ^ 2 / (j + 4) := by
  have key : ((j : ℝ) + 4) * (‖(ompSeq phi n y j).r‖ ^ 2 - ‖y - synth phi n c‖ ^ 2) ≤ 4 * M ^ 2 := by
    induction j with
    | zero =>
      have := omp_oracle_init phi hn hu y c M hM
      simpa [ompSeq] using this
    | succ j ih =>
      have e : ompSeq phi n y (j + 1) = ompStep phi n y (ompSeq phi n y j) := by simp only [ompSeq, Function.iterate_succ_apply']
      have := omp_oracle_step phi hn hu y c M hM _ (ompSeq_inv phi hn hu y j fun j' hj' => hcor j' (by omega)) (hcor j (by omega)) (j + 4)
        (by have : (0 : ℝ) ≤ j := by positivity
            linarith) (ih fun j' hj' => hcor j' (by omega))
      rw [e]
      push_cast
      convert this using 2
      ring
  have hj : (0 : ℝ) < j + 4 := by positivity
  have : ‖(ompSeq phi n y j).r‖ ^ 2 - ‖y - synth phi n c‖ ^ 2 ≤ 4 * M ^ 2 / (j + 4) := by
    rw [le_div_iff₀ hj]; linarith
  linarith

/-- **C134** (geometric rate of OMP) if every vector has correlation at least `γ |r|` with some unit-norm atom, then while the residual is not
zero OMP has `|r|² ≤ (1 - γ²)^(j+1) |y|²` after `j + 1` atoms. -/
theorem c134_omp_geometric (phi : ℕ → E) (n : ℕ) (hn : 0 < n) (hu : ∀ i, i < n → ‖phi i‖ = 1) (γ : ℝ) (hγ : 0 < γ)
    (hcov : ∀ r : E, ∃ i, i < n ∧ γ * ‖r‖ ≤ |⟪phi i, r⟫|) (y : E) (j : ℕ) (hne : ∀ j', j' < j → (ompSeq phi n y j').r ≠ 0) :
    ‖(ompSeq phi n y j).r‖ ^ 2 ≤ (1 - γ ^ 2) ^ (j + 1) * ‖y‖ ^ 2 := by
  have hc1 : 0 ≤ 1 - γ ^ 2 := by
    obtain ⟨i, hi, h1⟩ := hcov (phi 0)
    have h2 := abs_real_inner_le_norm (phi i) (phi 0)
    rw [hu i hi, hu 0 hn] at h2
    rw [hu 0 hn] at h1
    nlinarith
  have hcor : ∀ r : E, r ≠ 0 → ∃ i, i < n ∧ ⟪phi i, r⟫ ≠ 0 := fun r hr => by
    obtain ⟨i, hi, h1⟩ := hcov r
    refine ⟨i, hi, fun h0 => ?_⟩
    rw [h0, abs_zero] at h1
    have : 0 < γ * ‖r‖ := mul_pos hγ (norm_pos_iff.mpr hr)
    linarith
  have hsq : ∀ r : E, ∃ i, i < n ∧ γ ^ 2 * ‖r‖ ^ 2 ≤ ⟪phi i, r⟫ ^ 2 := fun r => by
    obtain ⟨i, hi, h1⟩ := hcov r
    have h3 := pow_le_pow_left₀ (by positivity) h1 2
    rw [mul_pow, sq_abs] at h3
    exact ⟨i, hi, h3⟩
  induction j with
  | zero =>
    obtain ⟨i, hi, h1⟩ := hsq y
    have := ompInit_gain phi hn hu y i hi
    simp only [ompSeq, Function.iterate_zero, id, zero_add, pow_one]
    linarith
  | succ j ih =>
    have e : ompSeq phi n y (j + 1) = ompStep phi n y (ompSeq phi n y j) := by simp only [ompSeq, Function.iterate_succ_apply']
    obtain ⟨i, hi, h1⟩ := hsq (ompSeq phi n y j).r
    have := ompStep_gain phi hn hu y _ (ompSeq_inv phi hn hu y j fun j' hj' => hcor _ (hne j' (by omega))) (hcor _ (hne j (by omega))) i hi
    rw [e, pow_succ]
    calc _ ≤ (1 - γ ^ 2) * ‖(ompSeq phi n y j).r‖ ^ 2 := by linarith
      _ ≤ (1 - γ ^ 2) * ((1 - γ ^ 2) ^ (j + 1) * ‖y‖ ^ 2) := mul_le_mul_of_nonneg_left (ih fun j' hj' => hne j' (by omega)) hc1
      _ = _ := by ring

/-- **C134** what `operator_solve` returns, on a dictionary of unit-norm atoms that spans: with `s.k` atoms the residual satisfies
`|r|² ≤ |y - Phi c|² + 4 M² / (s.k + 3)` for every `c` with `∑ |c i| ≤ M`. -/
theorem c134_operator_solve (phi : ℕ → E) (n : ℕ) (hn : 0 < n) (hu : ∀ i, i < n → ‖phi i‖ = 1)
    (hspan : ∀ r : E, r ≠ 0 → ∃ i, i < n ∧ ⟪phi i, r⟫ ≠ 0) (y : E) (hy : y ≠ 0) (K : ℕ) (rtol : ℝ)
    (hfirst : (ompInit phi n ((1 / ‖y‖) • y)).r ≠ 0) (s : OmpState E) (hs : OmpOperatorSolve phi n y K rtol s) (c : ℕ → ℝ) (M : ℝ)
    (hM : ∑ i ∈ Finset.range n, |c i| ≤ M) : ‖s.r‖ ^ 2 ≤ ‖y - synth phi n c‖ ^ 2 + 4 * M ^ 2 / (s.k + 3) := by
  obtain ⟨t, ⟨hr, hc⟩, rfl⟩ := hs
  have hny : 0 < ‖y‖ := norm_pos_iff.mpr hy
  obtain ⟨u, hud⟩ : ∃ u, u = (1 / ‖y‖) • y := ⟨_, rfl⟩
  rw [← hud] at hr hfirst
  obtain ⟨d, hd⟩ : ∃ d : ℕ → ℝ, d = fun i => c i / ‖y‖ := ⟨_, rfl⟩
  have hdM : ∑ i ∈ Finset.range n, |d i| ≤ M / ‖y‖ := by
    rw [hd]
    simp only [abs_div, abs_norm]
    rw [← Finset.sum_div]
    exact div_le_div_of_nonneg_right hM hny.le
  have hw : ‖u - synth phi n d‖ = ‖y - synth phi n c‖ / ‖y‖ := by
    have : u - synth phi n d = (1 / ‖y‖) • (y - synth phi n c) := by
      rw [smul_sub, ← hud, hd]
      unfold synth
      rw [Finset.smul_sum]
      simp only [smul_smul]
      congr 1
      exact Finset.sum_congr rfl fun i _ => by congr 1; ring
    rw [this, norm_smul, Real.norm_eq_abs, abs_of_pos (by positivity)]; ring
  have hinv : OmpInv phi n u t ∧ 1 ≤ t.k ∧ (2 ≤ t.k → t.rr = ‖t.r‖ ^ 2) ∧ (t.k = 1 → t.r ≠ 0) ∧
      ((t.k : ℝ) + 3) * (‖t.r‖ ^ 2 - ‖u - synth phi n d‖ ^ 2) ≤ 4 * (M / ‖y‖) ^ 2 := by
    refine hr.inv (fun t => OmpInv phi n u t ∧ 1 ≤ t.k ∧ (2 ≤ t.k → t.rr = ‖t.r‖ ^ 2) ∧ (t.k = 1 → t.r ≠ 0) ∧
      ((t.k : ℝ) + 3) * (‖t.r‖ ^ 2 - ‖u - synth phi n d‖ ^ 2) ≤ 4 * (M / ‖y‖) ^ 2) ?_ ?_
    · have h0 := ompInit_inv phi hn hu u
      refine ⟨⟨⟨h0.range, h0.distinct, h0.indep, h0.residual, h0.orth⟩, h0.atoms, h0.chol⟩, le_rfl, fun h => by simp [ompOpInit, ompInit] at h,
        fun _ => hfirst, ?_⟩
      have := omp_oracle_init phi hn hu u d _ hdM
      have e : (((ompOpInit phi n u).k : ℕ) : ℝ) + 3 = 4 := by simp [ompOpInit, ompInit]; norm_num
      rw [e]; exact this
    · rintro t ⟨h1, h2, h4, h5, h6⟩ hcd
      have hne : t.r ≠ 0 := by
        by_cases hk : t.k = 1
        · exact h5 hk
        · intro h0
          have := hcd.1
          rw [h4 (by omega), h0, norm_zero] at this
          nlinarith [sq_nonneg rtol]
      refine ⟨ompStep_inv phi hn hu u t h1 (hspan _ hne), ?_, fun _ => rfl, fun h => ?_, ?_⟩
      · show 1 ≤ t.k + 1; omega
      · have : t.k + 1 = 1 := h
        omega
      · have := omp_oracle_step phi hn hu u d _ hdM t h1 (hspan _ hne) (t.k + 3) (by have : (0 : ℝ) ≤ t.k := by positivity
                                                                                     linarith) h6
        have e : (((ompStep phi n u t).k : ℕ) : ℝ) + 3 = t.k + 3 + 1 := by
          show ((t.k + 1 : ℕ) : ℝ) + 3 = _
          push_cast; ring
        rw [e]; exact this
  obtain ⟨-, -, -, -, h6⟩ := hinv
  show ‖‖y‖ • t.r‖ ^ 2 ≤ ‖y - synth phi n c‖ ^ 2 + 4 * M ^ 2 / ((t.k : ℝ) + 3)
  have hk : (0 : ℝ) < t.k + 3 := by positivity
  have h7 : ‖t.r‖ ^ 2 - ‖u - synth phi n d‖ ^ 2 ≤ 4 * (M / ‖y‖) ^ 2 / (t.k + 3) := by rw [le_div_iff₀ hk]; linarith
  rw [hw] at h7
  rw [norm_smul, norm_norm, mul_pow]
  have h8 := mul_le_mul_of_nonneg_left h7 (sq_nonneg ‖y‖)
  have e1 : ‖y‖ ^ 2 * (‖t.r‖ ^ 2 - (‖y - synth phi n c‖ / ‖y‖) ^ 2) = ‖y‖ ^ 2 * ‖t.r‖ ^ 2 - ‖y - synth phi n c‖ ^ 2 := by
    field_simp
  have e2 : ‖y‖ ^ 2 * (4 * (M / ‖y‖) ^ 2 / (t.k + 3)) = 4 * M ^ 2 / (t.k + 3) := by
    field_simp
  rw [e1, e2] at h8
  linarith

/-! ## The hypotheses hold in concrete cases -/

/-- Matching pursuit with the three unit vectors `1, i, (3 + 4i)/5` of the plane on `y = 1 + i + (3 + 4i)/5`. -/
example (rtol : ℝ) (N : ℕ) (s : MpState ℂ)
    (h : Reach (mpCond (synth (fun i => if i = 0 then (1 : ℂ) else if i = 1 then Complex.I else ⟨3/5, 4/5⟩) 3 fun _ => (1 : ℝ)) rtol N)
      (mpStep (fun i => if i = 0 then (1 : ℂ) else if i = 1 then Complex.I else ⟨3/5, 4/5⟩) 3
        (synth (fun i => if i = 0 then (1 : ℂ) else if i = 1 then Complex.I else ⟨3/5, 4/5⟩) 3 fun _ => (1 : ℝ)))
      (mpInit (synth (fun i => if i = 0 then (1 : ℂ) else if i = 1 then Complex.I else ⟨3/5, 4/5⟩) 3 fun _ => (1 : ℝ))) s) :
    ‖s.r‖ ^ 6 ≤ 3 ^ 6 / (2 * s.iters + 1) := by
  refine c134_mp_rate _ 3 (by norm_num) (fun i hi => ?_) (fun _ => 1) 3 (by simp) _ rfl rtol N s h
  have h5 : ‖(⟨3/5, 4/5⟩ : ℂ)‖ = 1 := by
    rw [Complex.norm_def, Complex.normSq_mk]; norm_num
  rcases i with _ | _ | i
  · simp
  · simp
  · simpa using h5

/-- The hypotheses of `c134_operator_solve` for the atoms `1, i` of the plane and `y = 2 + i`. -/
theorem ex_plane : (∀ i, i < 2 → ‖(fun i => if i = 0 then (1 : ℂ) else Complex.I) i‖ = 1) ∧
    (∀ r : ℂ, r ≠ 0 → ∃ i, i < 2 ∧ ⟪(fun i => if i = 0 then (1 : ℂ) else Complex.I) i, r⟫ ≠ 0) ∧
    (ompInit (fun i => if i = 0 then (1 : ℂ) else Complex.I) 2 ((1 / ‖(⟨2, 1⟩ : ℂ)‖) • (⟨2, 1⟩ : ℂ))).r ≠ 0 := by
  have hu : ∀ i, i < 2 → ‖(fun i => if i = 0 then (1 : ℂ) else Complex.I) i‖ = 1 := fun i _ => by
    show ‖if i = 0 then (1 : ℂ) else Complex.I‖ = 1
    split_ifs <;> simp
  refine ⟨hu, fun r hr => ?_, fun h0 => ?_⟩
  · by_cases h : r.re = 0
    · refine ⟨1, by norm_num, fun h1 => hr (Complex.ext h ?_)⟩
      simpa [Complex.inner] using h1
    · exact ⟨0, by norm_num, fun h1 => h (by simpa [Complex.inner] using h1)⟩
  · have hn : 0 < ‖(⟨2, 1⟩ : ℂ)‖ := norm_pos_iff.mpr fun h => by simpa using congrArg Complex.re h
    have h1 := h0
    simp only [ompInit, sub_eq_zero] at h1
    split_ifs at h1
    · have := congrArg Complex.im h1
      simp [hn.ne'] at this
    · have := congrArg Complex.re h1
      simp [hn.ne'] at this

/-! Instances on the atoms `1`, `i` of the plane. -/

theorem ex_cov (r : ℂ) : ∃ i, i < 2 ∧ (1 / 2 : ℝ) * ‖r‖ ≤ |⟪(fun i => if i = 0 then (1 : ℂ) else Complex.I) i, r⟫| := by
  have h := Complex.norm_le_abs_re_add_abs_im r
  rcases le_total |r.re| |r.im| with h' | h'
  · exact ⟨1, by norm_num, by simp [Complex.inner]; linarith⟩
  · exact ⟨0, by norm_num, by simp [Complex.inner]; linarith⟩

/-- With the atom list `1, i` and the signal `2 + i`, the best 2-term error is zero and `M = 3`. -/
example := c134_omp_oracle (fun i => if i = 0 then (1 : ℂ) else Complex.I) 2 (by norm_num) ex_plane.1 ⟨2, 1⟩ 0 (fun j' h => absurd h (by omega))
  (fun i => if i = 0 then 2 else 1) 3 (by norm_num [Finset.sum_range_succ])
example (y : ℂ) (j : ℕ) (h : ∀ j', j' < j → (ompSeq (fun i => if i = 0 then (1 : ℂ) else Complex.I) 2 y j').r ≠ 0) :=
  c134_omp_geometric (fun i => if i = 0 then (1 : ℂ) else Complex.I) 2 (by norm_num) ex_plane.1 (1 / 2) (by norm_num) ex_cov y j h
example (s : OmpState ℂ) (hs : OmpOperatorSolve (fun i => if i = 0 then (1 : ℂ) else Complex.I) 2 ⟨2, 1⟩ 2 0 s) :=
  c134_operator_solve (fun i => if i = 0 then (1 : ℂ) else Complex.I) 2 (by norm_num) ex_plane.1 ex_plane.2.1 ⟨2, 1⟩
    (fun h => by simpa using congrArg Complex.re h) 2 0 ex_plane.2.2 s hs (fun i => if i = 0 then 2 else 1) 3 (by norm_num [Finset.sum_range_succ])

end Verif.Pursuit
