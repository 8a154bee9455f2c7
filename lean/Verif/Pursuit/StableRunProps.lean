import Verif.Pursuit.TwoVersionsProps
import Verif.Pursuit.OmpProps

set_option autoImplicit false
/-!
# C169: away from ties the greedy pursuits depend on the data in a stable way
-/
noncomputable section
namespace Verif.Pursuit
open Verif.Loop
open scoped RealInnerProductSpace

variable {E : Type*} [NormedAddCommGroup E] [InnerProductSpace ℝ E]

/-- Specification: atom `i` is the clear winner for the residual `r`: its correlation is at least `g` and beats that of every other atom by at least `g`. -/
def Clear (phi : ℕ → E) (n : ℕ) (g : ℝ) (r : E) (i : ℕ) : Prop :=
  i < n ∧ g ≤ |⟪phi i, r⟫| ∧ ∀ j, j < n → j ≠ i → |⟪phi j, r⟫| + g ≤ |⟪phi i, r⟫|

/-- A clear winner is selected, also for every residual nearer than half the margin, with a non-zero correlation. -/
theorem Clear.select {phi : ℕ → E} {n : ℕ} (hu : ∀ i, i < n → ‖phi i‖ = 1) {g : ℝ} {r r' : E} {i : ℕ} (h : Clear phi n g r i) {d : ℝ} (hd : ‖r' - r‖ ≤ d) (hg : 2 * d < g) :
    absMaxIdx (corr ℝ phi n r') = i ∧ ⟪phi i, r'⟫ ≠ 0 := by
  have close : ∀ j, j < n → |(|⟪phi j, r'⟫| - |⟪phi j, r⟫|)| ≤ d := fun j hj => by
    refine (abs_abs_sub_abs_le_abs_sub _ _).trans ?_
    rw [← inner_sub_right]
    have := abs_real_inner_le_norm (phi j) (r' - r)
    rw [hu j hj, one_mul] at this
    exact this.trans hd
  obtain ⟨hi, h1, h2⟩ := h
  have ci := abs_le.1 (close i hi)
  refine ⟨?_, fun h0 => ?_⟩
  · obtain ⟨hb, hmax⟩ := best_spec phi (Nat.pos_of_ne_zero fun h => by omega : 0 < n) r'
    by_contra hne
    have c := abs_le.1 (close _ hb)
    have := h2 _ hb hne
    have := hmax i hi
    linarith [ci.1, c.2]
  · rw [h0, abs_zero] at ci
    have := (norm_nonneg _).trans hd
    linarith [ci.1]

/-- Two least squares fits with the same atoms: fits and residuals are no further apart than the data. -/
theorem same_atoms {phi : ℕ → E} {n : ℕ} {y y' : E} {s s' : OmpState E} (h : OmpGood phi n y s) (h' : OmpGood phi n y' s') (hk : s'.k = s.k) (hI : ∀ l, l < s.k → s'.I l = s.I l) :
    ‖s'.r - s.r‖ ^ 2 + ‖∑ l ∈ Finset.range s.k, (s'.x l - s.x l) • phi (s.I l)‖ ^ 2 = ‖y' - y‖ ^ 2 := by
  have e : y' - y = (s'.r - s.r) + ∑ l ∈ Finset.range s.k, (s'.x l - s.x l) • phi (s.I l) := by
    rw [h.residual, h'.residual, hk, Finset.sum_congr rfl fun l hl => by rw [hI l (Finset.mem_range.1 hl)]]
    simp only [sub_smul, Finset.sum_sub_distrib]; abel
  have ho : ⟪s'.r - s.r, ∑ l ∈ Finset.range s.k, (s'.x l - s.x l) • phi (s.I l)⟫ = 0 := by
    rw [_root_.inner_sum]
    refine Finset.sum_eq_zero fun l hl => ?_
    have hl' := Finset.mem_range.1 hl
    rw [real_inner_smul_right, real_inner_comm, inner_sub_right, h.orth l hl', ← hI l hl', h'.orth l (by omega), sub_zero, mul_zero]
  rw [e, norm_add_sq_real, ho]; ring

theorem same_residual {phi : ℕ → E} {n : ℕ} {y y' : E} {s s' : OmpState E} (h : OmpGood phi n y s) (h' : OmpGood phi n y' s') (hk : s'.k = s.k) (hI : ∀ l, l < s.k → s'.I l = s.I l) :
    ‖s'.r - s.r‖ ≤ ‖y' - y‖ := by
  refine abs_le_of_sq_le_sq' ?_ (norm_nonneg _) |>.2
  rw [← same_atoms h h' hk hI]
  linarith [sq_nonneg ‖∑ l ∈ Finset.range s.k, (s'.x l - s.x l) • phi (s.I l)‖]

theorem ompSeq_succ (phi : ℕ → E) (n : ℕ) (y : E) (j : ℕ) : ompSeq phi n y (j + 1) = ompStep phi n y (ompSeq phi n y j) := by
  simp only [ompSeq, Function.iterate_succ_apply']

theorem omp_near (phi : ℕ → E) (n : ℕ) (hu : ∀ i, i < n → ‖phi i‖ = 1) (y y' : E) (g : ℝ) (hg : 2 * ‖y' - y‖ < g) (h0 : ∃ i, Clear phi n g y i) (j : ℕ)
    (hc : ∀ j', j' < j → ∃ i, Clear phi n g (ompSeq phi n y j').r i) :
    OmpInv phi n y (ompSeq phi n y j) ∧ OmpInv phi n y' (ompSeq phi n y' j) ∧ ∀ l, l < j + 1 → (ompSeq phi n y' j).I l = (ompSeq phi n y j).I l := by
  obtain ⟨i, hi⟩ := h0
  have hn : 0 < n := Nat.pos_of_ne_zero fun h => by have := hi.1; omega
  have g0 : 2 * (0 : ℝ) < g := by linarith [norm_nonneg (y' - y)]
  induction j with
  | zero =>
    refine ⟨ompInit_inv phi hn hu y, ompInit_inv phi hn hu y', fun l _ => ?_⟩
    show absMaxIdx (corr ℝ phi n y') = absMaxIdx (corr ℝ phi n y)
    rw [(hi.select hu le_rfl hg).1, (hi.select hu (r' := y) (d := 0) (by simp) g0).1]
  | succ j ih =>
    obtain ⟨a, b, c⟩ := ih fun j' hj' => hc j' (by omega)
    obtain ⟨i, hi⟩ := hc j (by omega)
    have hk : (ompSeq phi n y' j).k = (ompSeq phi n y j).k := by rw [ompSeq_k, ompSeq_k]
    have hr := same_residual a.toOmpGood b.toOmpGood hk (by rw [ompSeq_k]; exact c)
    have s1 := hi.select hu (r' := (ompSeq phi n y j).r) (d := 0) (by simp) g0
    have s2 := hi.select hu hr hg
    rw [ompSeq_succ, ompSeq_succ]
    refine ⟨ompStep_inv phi hn hu y _ a ⟨i, hi.1, s1.2⟩, ompStep_inv phi hn hu y' _ b ⟨i, hi.1, s2.2⟩, fun l hl => ?_⟩
    show Function.update (ompSeq phi n y' j).I (ompSeq phi n y' j).k (absMaxIdx (corr ℝ phi n (ompSeq phi n y' j).r)) l =
      Function.update (ompSeq phi n y j).I (ompSeq phi n y j).k (absMaxIdx (corr ℝ phi n (ompSeq phi n y j).r)) l
    rw [s1.1, s2.1, hk, ompSeq_k]
    rcases Nat.lt_succ_iff_lt_or_eq.1 hl with hl | rfl
    · rw [Function.update_of_ne (by omega), Function.update_of_ne (by omega)]; exact c l hl
    · rw [Function.update_self, Function.update_self]

/-- **C169** (`omp.matrix_solve`) suppose every atom chosen for the data `y` is a clear winner by the margin `g`. For all data nearer to `y` than `g/2` the same atoms are chosen in the same order, the residuals and the
fits are no further apart than the data, and so are the coefficients up to the factor `1/√σ` when `σ` bounds the squared norms of unit combinations of the chosen atoms from below. -/
theorem c169_omp (phi : ℕ → E) (n : ℕ) (hu : ∀ i, i < n → ‖phi i‖ = 1) (y y' : E) (K : ℕ) (hK : 2 ≤ K) (g : ℝ) (hg : 2 * ‖y' - y‖ < g) (h0 : ∃ i, Clear phi n g y i)
    (hc : ∀ j, j + 1 < K → ∃ i, Clear phi n g (ompSeq phi n y j).r i) :
    ∃ s s', ompMatrixSolve phi n y K = some s ∧ ompMatrixSolve phi n y' K = some s' ∧ s.k = K ∧ s'.k = K ∧ (∀ l, l < K → s'.I l = s.I l) ∧ ‖s'.r - s.r‖ ≤ ‖y' - y‖ ∧
      ‖∑ l ∈ Finset.range K, s'.x l • phi (s'.I l) - ∑ l ∈ Finset.range K, s.x l • phi (s.I l)‖ ≤ ‖y' - y‖ ∧
      ∀ σ : ℝ, 0 < σ → (∀ c : ℕ → ℝ, σ * ∑ l ∈ Finset.range K, c l ^ 2 ≤ ‖∑ l ∈ Finset.range K, c l • phi (s.I l)‖ ^ 2) →
        ∑ l ∈ Finset.range K, (s'.x l - s.x l) ^ 2 ≤ ‖y' - y‖ ^ 2 / σ := by
  obtain ⟨a, b, c⟩ := omp_near phi n hu y y' g hg h0 (K - 1) fun j hj => hc j (by omega)
  have k1 : (ompSeq phi n y (K - 1)).k = K := by rw [ompSeq_k]; omega
  have k2 : (ompSeq phi n y' (K - 1)).k = K := by rw [ompSeq_k]; omega
  have hI : ∀ l, l < K → (ompSeq phi n y' (K - 1)).I l = (ompSeq phi n y (K - 1)).I l := fun l hl => c l (by omega)
  have key := same_atoms a.toOmpGood b.toOmpGood (by rw [k1, k2]) (by rw [k1]; exact hI)
  rw [k1] at key
  refine ⟨ompSeq phi n y (K - 1), ompSeq phi n y' (K - 1), if_neg (by omega), if_neg (by omega), k1, k2, hI, ?_, ?_, fun σ hσ hs => ?_⟩
  · exact same_residual a.toOmpGood b.toOmpGood (by rw [k1, k2]) (by rw [k1]; exact hI)
  · have e : ∑ l ∈ Finset.range K, (ompSeq phi n y' (K - 1)).x l • phi ((ompSeq phi n y' (K - 1)).I l) - ∑ l ∈ Finset.range K, (ompSeq phi n y (K - 1)).x l • phi ((ompSeq phi n y (K - 1)).I l) =
        ∑ l ∈ Finset.range K, ((ompSeq phi n y' (K - 1)).x l - (ompSeq phi n y (K - 1)).x l) • phi ((ompSeq phi n y (K - 1)).I l) := by
      rw [← Finset.sum_sub_distrib]
      exact Finset.sum_congr rfl fun l hl => by rw [hI l (Finset.mem_range.1 hl), sub_smul]
    rw [e]
    refine abs_le_of_sq_le_sq' ?_ (norm_nonneg _) |>.2
    rw [← key]
    linarith [sq_nonneg ‖(ompSeq phi n y' (K - 1)).r - (ompSeq phi n y (K - 1)).r‖]
  · rw [le_div_iff₀ hσ]
    have := hs fun l => (ompSeq phi n y' (K - 1)).x l - (ompSeq phi n y (K - 1)).x l
    rw [← key]
    linarith [sq_nonneg ‖(ompSeq phi n y' (K - 1)).r - (ompSeq phi n y (K - 1)).r‖]

/-- **C169** (`omp.operator_solve`) when both runs end with the same number `k ≥ 2` of atoms. -/
theorem c169_omp_operator (phi : ℕ → E) (n : ℕ) (hu : ∀ i, i < n → ‖phi i‖ = 1) (y y' : E) (hy : y ≠ 0) (hy' : y' ≠ 0) (K : ℕ) (rtol : ℝ) (s s' : OmpState E)
    (hs : OmpOperatorSolve phi n y K rtol s) (hs' : OmpOperatorSolve phi n y' K rtol s') (hk : s'.k = s.k) (h2 : 2 ≤ s.k) (g : ℝ) (hg : 2 * ‖y' - y‖ < g) (h0 : ∃ i, Clear phi n g y i)
    (hc : ∀ j, j + 1 < s.k → ∃ i, Clear phi n g (ompSeq phi n y j).r i) :
    (∀ l, l < s.k → s'.I l = s.I l) ∧ ‖s'.r - s.r‖ ≤ ‖y' - y‖ ∧
      ‖∑ l ∈ Finset.range s.k, s'.x l • phi (s'.I l) - ∑ l ∈ Finset.range s.k, s.x l • phi (s.I l)‖ ≤ ‖y' - y‖ := by
  obtain ⟨t, t', a, b, -, -, c, d, e, -⟩ := c169_omp phi n hu y y' s.k h2 g hg h0 hc
  have a' := (c166_omp phi n y hy K rtol s hs h2).1
  have b' := (c166_omp phi n y' hy' K rtol s' hs' (by omega)).1
  rw [hk] at b'
  obtain rfl := Option.some.inj (a.symm.trans a')
  obtain rfl := Option.some.inj (b.symm.trans b')
  exact ⟨c, d, e⟩

/-- Removing the component along a unit vector does not increase the norm. -/
theorem peel_le {u : E} (hu : ‖u‖ = 1) (r : E) : ‖r - ⟪u, r⟫ • u‖ ≤ ‖r‖ := by
  refine abs_le_of_sq_le_sq' ?_ (norm_nonneg _) |>.2
  rw [norm_sub_sq_real, real_inner_smul_right, norm_smul, hu, real_inner_comm, mul_one, Real.norm_eq_abs, sq_abs]
  nlinarith [sq_nonneg ⟪u, r⟫]

/-- **C169** (`mp`) the same for matching pursuit: after `m` iterations each of which had a clear winner on `y`, residuals are no further apart than the data, and every coefficient by at most `m` times that; coefficients
that are untouched for `y` are untouched for `y'`. -/
theorem c169_mp (phi : ℕ → E) (n : ℕ) (hu : ∀ i, i < n → ‖phi i‖ = 1) (y y' : E) (g : ℝ) (hg : 2 * ‖y' - y‖ < g) (m : ℕ)
    (hc : ∀ j, j < m → ∃ i, Clear phi n g ((mpStep phi n y)^[j] (mpInit y)).r i) :
    let s := (mpStep phi n y)^[m] (mpInit y)
    let s' := (mpStep phi n y')^[m] (mpInit y')
    ‖s'.r - s.r‖ ≤ ‖y' - y‖ ∧ (∀ i, |s'.x i - s.x i| ≤ m * ‖y' - y‖) ∧
      ∀ i, (∀ j, j < m → ¬ Clear phi n g ((mpStep phi n y)^[j] (mpInit y)).r i) → s.x i = 0 ∧ s'.x i = 0 := by
  induction m with
  | zero => simp [mpInit]
  | succ m ih =>
    intro s s'
    obtain ⟨a, b, c⟩ := ih fun j hj => hc j (by omega)
    obtain ⟨i, hi⟩ := hc m (by omega)
    have hn : 0 < n := Nat.pos_of_ne_zero fun h => by have := hi.1; omega
    have g0 : 2 * (0 : ℝ) < g := by linarith [norm_nonneg (y' - y)]
    have es : s = mpStep phi n y ((mpStep phi n y)^[m] (mpInit y)) := Function.iterate_succ_apply' _ _ _
    have es' : s' = mpStep phi n y' ((mpStep phi n y')^[m] (mpInit y')) := Function.iterate_succ_apply' _ _ _
    set t := (mpStep phi n y)^[m] (mpInit y) with ht
    set t' := (mpStep phi n y')^[m] (mpInit y') with ht'
    have s1 := (hi.select hu (r' := t.r) (d := 0) (by simp) g0).1
    have s2 := (hi.select hu a hg).1
    rw [mpStep_eq phi hn y, s1] at es
    rw [mpStep_eq phi hn y', s2] at es'
    have hin : |⟪phi i, t'.r⟫ - ⟪phi i, t.r⟫| ≤ ‖y' - y‖ := by
      rw [← inner_sub_right]
      have := abs_real_inner_le_norm (phi i) (t'.r - t.r)
      rw [hu i hi.1, one_mul] at this
      exact this.trans a
    rw [es, es']
    refine ⟨?_, fun l => ?_, fun l hl => ?_⟩
    · have e : t'.r - ⟪phi i, t'.r⟫ • phi i - (t.r - ⟪phi i, t.r⟫ • phi i) = (t'.r - t.r) - ⟪phi i, t'.r - t.r⟫ • phi i := by
        rw [inner_sub_right, sub_smul]; abel
      show ‖t'.r - ⟪phi i, t'.r⟫ • phi i - (t.r - ⟪phi i, t.r⟫ • phi i)‖ ≤ _
      rw [e]
      exact (peel_le (hu i hi.1) _).trans a
    · show |Function.update t'.x i (t'.x i + ⟪phi i, t'.r⟫) l - Function.update t.x i (t.x i + ⟪phi i, t.r⟫) l| ≤ _
      push_cast
      by_cases h : l = i
      · subst h
        rw [Function.update_self, Function.update_self, add_sub_add_comm]
        refine (abs_add_le _ _).trans ?_
        linarith [b l]
      · rw [Function.update_of_ne h, Function.update_of_ne h]
        linarith [b l, norm_nonneg (y' - y)]
    · have hne : l ≠ i := fun h => hl m (by omega) (by rw [h]; exact hi)
      show Function.update t.x i (t.x i + ⟪phi i, t.r⟫) l = 0 ∧ Function.update t'.x i (t'.x i + ⟪phi i, t'.r⟫) l = 0
      rw [Function.update_of_ne hne, Function.update_of_ne hne]
      exact c l fun j hj => hl j (by omega)

/-! ## Ties -/

/-- The atoms `1`, `i` of the plane. -/
def cplane : ℕ → ℂ := fun i => if i = 0 then (1 : ℂ) else Complex.I

theorem cplane_unit (i : ℕ) : ‖cplane i‖ = 1 := by unfold cplane; split_ifs <;> simp

theorem cplane_zero (z : ℂ) : ⟪cplane 0, z⟫ = z.re := by simp [cplane, Complex.inner]
theorem cplane_one (z : ℂ) : ⟪cplane 1, z⟫ = z.im := by simp [cplane, Complex.inner]

/-- In the plane the winner is clear by the difference of the coordinates. -/
theorem cplane_clear {g : ℝ} {z : ℂ} : (g ≤ |z.re| → |z.im| + g ≤ |z.re| → Clear cplane 2 g z 0) ∧ (g ≤ |z.im| → |z.re| + g ≤ |z.im| → Clear cplane 2 g z 1) := by
  refine ⟨fun h h' => ⟨by norm_num, by rwa [cplane_zero], fun j hj hne => ?_⟩, fun h h' => ⟨by norm_num, by rwa [cplane_one], fun j hj hne => ?_⟩⟩
  · obtain rfl : j = 1 := by omega
    rwa [cplane_zero, cplane_one]
  · obtain rfl : j = 0 := by omega
    rwa [cplane_zero, cplane_one]

/-- **C169** (a tie) the margin is needed: on the atoms `1`, `i` of the plane and `y = 1 + i` one iteration of matching pursuit uses the atom `1` only, and for data as near as one likes the atom `i` only. -/
theorem c169_tie_fails (e : ℝ) (he : 0 < e) : ∃ y' : ℂ, ‖y' - ⟨1, 1⟩‖ ≤ e ∧
    (mpStep cplane 2 (⟨1, 1⟩ : ℂ) (mpInit ⟨1, 1⟩)).x 0 = 1 ∧ (mpStep cplane 2 y' (mpInit y')).x 0 = 0 ∧ (mpStep cplane 2 y' (mpInit y')).x 1 = 1 + e := by
  have h0 : absMaxIdx (corr ℝ cplane 2 (⟨1, 1⟩ : ℂ)) = 0 :=
    absMaxIdx_eq_zero cplane (by norm_num) _ fun i hi => by
      interval_cases i
      · exact le_rfl
      · rw [cplane_zero, cplane_one]
  have h1 : absMaxIdx (corr ℝ cplane 2 (⟨1, 1 + e⟩ : ℂ)) = 1 :=
    ((cplane_clear (g := e) (z := ⟨1, 1 + e⟩)).2 (by show e ≤ |1 + e|; rw [abs_of_pos (by linarith)]; linarith)
      (by show |(1 : ℝ)| + e ≤ |1 + e|; rw [abs_of_pos (by linarith : 0 < 1 + e), abs_one])).select (fun i _ => cplane_unit i) (r' := ⟨1, 1 + e⟩) (d := 0) (by simp) (by linarith) |>.1
  refine ⟨⟨1, 1 + e⟩, ?_, ?_, ?_, ?_⟩
  · have : (⟨1, 1 + e⟩ : ℂ) - ⟨1, 1⟩ = (e : ℂ) * Complex.I := by apply Complex.ext <;> simp
    rw [this, norm_mul, Complex.norm_I, mul_one, Complex.norm_real, Real.norm_eq_abs, abs_of_pos he]
  · rw [mpStep_eq cplane (by norm_num)]
    simp only [mpInit]
    rw [h0, Function.update_self, cplane_zero]; simp
  · rw [mpStep_eq cplane (by norm_num)]
    simp only [mpInit]
    rw [h1, Function.update_of_ne (by norm_num)]
  · rw [mpStep_eq cplane (by norm_num)]
    simp only [mpInit]
    rw [h1, Function.update_self, cplane_one]; simp

/-! Two atoms of the plane, `y = 3 + i`, all data nearer than `1/2`. -/

theorem ex_first_residual : (ompSeq cplane 2 (⟨3, 1⟩ : ℂ) 0).r = Complex.I := by
  have hb : absMaxIdx (corr ℝ cplane 2 (⟨3, 1⟩ : ℂ)) = 0 :=
    ((cplane_clear (g := 1) (z := ⟨3, 1⟩)).1 (by norm_num) (by norm_num)).select (fun i _ => cplane_unit i) (r' := ⟨3, 1⟩) (d := 0) (by simp) (by norm_num) |>.1
  show (⟨3, 1⟩ : ℂ) - (corr ℝ cplane 2 ⟨3, 1⟩).getD (absMaxIdx (corr ℝ cplane 2 (⟨3, 1⟩ : ℂ))) 0 • cplane (absMaxIdx (corr ℝ cplane 2 (⟨3, 1⟩ : ℂ))) = _
  rw [hb, corr_getD cplane 2 _ (by norm_num), cplane_zero]
  apply Complex.ext <;> simp [cplane]

example (y' : ℂ) (h : ‖y' - ⟨3, 1⟩‖ < 1 / 2) := c169_omp cplane 2 (fun i _ => cplane_unit i) ⟨3, 1⟩ y' 2 le_rfl 1 (by linarith) ⟨0, cplane_clear.1 (by norm_num) (by norm_num)⟩
  (fun j hj => by
    obtain rfl : j = 0 := by omega
    rw [ex_first_residual]
    exact ⟨1, cplane_clear.2 (by norm_num) (by norm_num)⟩)

example (y' : ℂ) (h : ‖y' - ⟨3, 1⟩‖ < 1 / 2) := c169_mp cplane 2 (fun i _ => cplane_unit i) ⟨3, 1⟩ y' 1 (by linarith) 1
  (fun j hj => by
    obtain rfl : j = 0 := by omega
    exact ⟨0, cplane_clear.1 (by simp [mpInit]) (by norm_num [mpInit])⟩)

end Verif.Pursuit
