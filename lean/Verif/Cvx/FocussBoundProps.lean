import Verif.Cvx.FocussConvProps

set_option autoImplicit false
/-!
# FOCUSS: boundedness for every exponent, the default exponent, and convergence for `p = 1/2` (C137)
-/
noncomputable section
namespace Verif.Cvx
open Verif.Loop Matrix
open Filter Topology

variable {m n : ℕ}

/-! ## Lemmas -/

/-- A solution that no null vector with conforming signs can extend. -/
def Tight (Phi : Matrix (Fin m) (Fin n) ℝ) (y : Fin m → ℝ) (x : Fin n → ℝ) : Prop :=
  Phi *ᵥ x = y ∧ ∀ h, Phi *ᵥ h = 0 → (∀ i, 0 ≤ x i * h i) → (∀ i, x i = 0 → h i = 0) → h = 0

theorem step_tight {Phi : Matrix (Fin m) (Fin n) ℝ} {y : Fin m → ℝ} {x x' : Fin n → ℝ} {p : ℝ} (hs : stepNoiseless Phi y x p = some x') : Tight Phi y x' := by
  obtain ⟨h1, v, hv⟩ := step_some hs
  refine ⟨h1, fun h hn hc hz => ?_⟩
  have h0 : ∑ i, (Phiᵀ *ᵥ v) i * h i = 0 := by
    have e : ∑ i, (Phiᵀ *ᵥ v) i * h i = (Phiᵀ *ᵥ v) ⬝ᵥ h := rfl
    rw [e, mulVec_transpose, ← dotProduct_mulVec, hn, dotProduct_zero]
  have nn : ∀ i ∈ Finset.univ, 0 ≤ (Phiᵀ *ᵥ v) i * h i := by
    intro i _
    rcases (xp2_nonneg p x i).eq_or_lt with hw | hw
    · rw [hz i (by rw [hv i, ← hw, zero_mul]), mul_zero]
    · have h2 := hc i
      rw [hv i, mul_assoc] at h2
      exact nonneg_of_mul_nonneg_right h2 hw
  funext i
  have h3 := (Finset.sum_eq_zero_iff_of_nonneg nn).mp h0 i (Finset.mem_univ i)
  rcases mul_eq_zero.mp h3 with h4 | h4
  · exact hz i (by rw [hv i, h4, mul_zero])
  · exact h4

theorem tight_bounded (Phi : Matrix (Fin m) (Fin n) ℝ) (y : Fin m → ℝ) : ∃ C : ℝ, ∀ x, Tight Phi y x → ‖x‖ ≤ C := by
  have each : ∀ σ : Fin n → SignType, Bornology.IsBounded {x | Tight Phi y x ∧ ∀ i, SignType.sign (x i) = σ i} := by
    intro σ
    by_contra hno
    rw [isBounded_iff_forall_norm_le] at hno
    push Not at hno
    choose u hu1 hu2 using fun k : ℕ => hno k
    have hpos : ∀ k, 0 < ‖u k‖ := fun k => lt_of_le_of_lt (Nat.cast_nonneg k) (hu2 k)
    obtain ⟨h, -, φ, hφ, hlim⟩ := tendsto_subseq_of_bounded (x := fun k => ‖u k‖⁻¹ • u k) (s := Metric.closedBall 0 1) Metric.isBounded_closedBall fun k => by
      rw [mem_closedBall_zero_iff, norm_smul, norm_inv, norm_norm, inv_mul_cancel₀ (hpos k).ne']
    have hn1 : ‖h‖ = 1 := by
      have h1 := hlim.norm
      refine tendsto_nhds_unique h1 (tendsto_const_nhds.congr fun k => ?_)
      show 1 = ‖‖u (φ k)‖⁻¹ • u (φ k)‖
      rw [norm_smul, norm_inv, norm_norm, inv_mul_cancel₀ (hpos _).ne']
    have hker : Phi *ᵥ h = 0 := by
      have c1 : Continuous fun z : Fin n → ℝ => Phi *ᵥ z := continuous_const.matrix_mulVec continuous_id
      have h1 := (c1.tendsto h).comp hlim
      have h2 : Tendsto (fun k => ‖u (φ k)‖⁻¹ • y) atTop (𝓝 ((0 : ℝ) • y)) := by
        refine Tendsto.smul_const ?_ y
        refine tendsto_inv_atTop_zero.comp ?_
        refine tendsto_atTop_mono (fun k => ?_) (tendsto_natCast_atTop_atTop.comp hφ.tendsto_atTop)
        exact (hu2 (φ k)).le
      rw [zero_smul] at h2
      refine tendsto_nhds_unique h1 (h2.congr fun k => ?_)
      show _ = Phi *ᵥ (‖u (φ k)‖⁻¹ • u (φ k))
      rw [mulVec_smul, (hu1 (φ k)).1.1]
    have hco : ∀ i, Tendsto (fun k => ‖u (φ k)‖⁻¹ * u (φ k) i) atTop (𝓝 (h i)) := fun i => ((continuous_apply i).tendsto h).comp hlim
    have hsig : ∀ i, (SignType.sign (u 0 i) : ℝ) * h i ≥ 0 := fun i => by
      refine ge_of_tendsto' ((hco i).const_mul (SignType.sign (u 0 i) : ℝ)) fun k => ?_
      have e : (SignType.sign (u 0 i) : ℝ) * (‖u (φ k)‖⁻¹ * u (φ k) i) = ‖u (φ k)‖⁻¹ * |u (φ k) i| := by
        rw [(hu1 0).2 i, ← (hu1 (φ k)).2 i]
        have : |u (φ k) i| = SignType.sign (u (φ k) i) * u (φ k) i := (sign_mul_self _).symm
        rw [this]; ring
      rw [e]
      exact mul_nonneg (inv_nonneg.mpr (norm_nonneg _)) (abs_nonneg _)
    have hz : ∀ i, u 0 i = 0 → h i = 0 := fun i hi => by
      refine tendsto_nhds_unique (hco i) (tendsto_const_nhds.congr fun k => ?_)
      have e1 : SignType.sign (u (φ k) i) = 0 := by rw [(hu1 (φ k)).2 i, ← (hu1 0).2 i, hi, sign_zero]
      rw [sign_eq_zero_iff.mp e1, mul_zero]
    have := (hu1 0).1.2 h hker (fun i => ?_) hz
    · rw [this, norm_zero] at hn1
      exact zero_ne_one hn1
    · have e : u 0 i * h i = |u 0 i| * ((SignType.sign (u 0 i) : ℝ) * h i) := by
        rw [← mul_assoc, mul_comm |u 0 i|, sign_mul_abs]
      rw [e]
      exact mul_nonneg (abs_nonneg _) (hsig i)
  have hall : Bornology.IsBounded (⋃ σ ∈ (Set.univ : Set (Fin n → SignType)), {x | Tight Phi y x ∧ ∀ i, SignType.sign (x i) = σ i}) :=
    (Bornology.isBounded_biUnion Set.finite_univ).mpr fun σ _ => each σ
  obtain ⟨C, hC⟩ := isBounded_iff_forall_norm_le.mp hall
  exact ⟨C, fun x hx => hC x (Set.mem_biUnion (Set.mem_univ fun i => SignType.sign (x i)) ⟨hx, fun i => rfl⟩)⟩

/-- The default exponent: the change of the product is bounded by that of the reweighted norm. -/
theorem prod_bound {x x' : Fin n → ℝ} : ∏ i with x i ≠ 0, (x' i ^ 2 / x i ^ 2) ≤ Real.exp (reweighted 1 x x' - reweighted 1 x x) := by
  have e2 : ∀ c : ℝ, ∀ i, c / |x i| ^ (2 * (1 : ℝ)) = c / x i ^ 2 := by
    intro c i
    rw [mul_one, ← sq_abs (x i)]
    norm_num
  have e : reweighted 1 x x' - reweighted 1 x x = ∑ i with x i ≠ 0, (x' i ^ 2 / x i ^ 2 - 1) := by
    rw [reweighted, reweighted, ← Finset.sum_sub_distrib]
    refine Finset.sum_congr rfl fun i hi => ?_
    have hi : x i ≠ 0 := (Finset.mem_filter.mp hi).2
    rw [e2, e2, div_self (by positivity)]
  rw [e, Real.exp_sum]
  exact Finset.prod_le_prod (fun i _ => by positivity) fun i _ => by have := Real.add_one_le_exp (x' i ^ 2 / x i ^ 2 - 1); linarith

/-- Two stationary solutions for `p = 1/2` with the same signs are equal for a generic dictionary. -/
theorem fixed_signs_half {Phi : Matrix (Fin m) (Fin n) ℝ} {y : Fin m → ℝ}
    (hgen : ∀ h, Phi *ᵥ h = 0 → ∀ σ : Fin n → ℝ, (∀ i, σ i = 1 ∨ σ i = -1) → ∑ i, σ i * h i = 0 → h = 0) {a b : Fin n → ℝ}
    (ha : stepNoiseless Phi y a (1 / 2) = some a) (hb : stepNoiseless Phi y b (1 / 2) = some b) (hs : ∀ i, SignType.sign (a i) = SignType.sign (b i)) : a = b := by
  obtain ⟨ha1, v, hv⟩ := step_some ha
  obtain ⟨hb1, -⟩ := step_some hb
  have hker : Phi *ᵥ (a - b) = 0 := by rw [mulVec_sub, ha1, hb1, sub_self]
  obtain ⟨σ, hσ⟩ : ∃ σ : Fin n → ℝ, σ = fun i => if a i < 0 then -1 else 1 := ⟨_, rfl⟩
  have h0 : ∑ i, (Phiᵀ *ᵥ v) i * (a - b) i = 0 := by
    have e : ∑ i, (Phiᵀ *ᵥ v) i * (a - b) i = (Phiᵀ *ᵥ v) ⬝ᵥ (a - b) := rfl
    rw [e, mulVec_transpose, ← dotProduct_mulVec, hker, dotProduct_zero]
  have := hgen (a - b) hker σ (fun i => by rw [hσ]; dsimp only; split <;> simp) (by
    rw [← h0]
    refine Finset.sum_congr rfl fun i _ => ?_
    by_cases hi : a i = 0
    · have hbi : b i = 0 := by rw [← sign_eq_zero_iff, ← hs i, hi, sign_zero]
      rw [Pi.sub_apply, hi, hbi, sub_self, mul_zero, mul_zero]
    · congr 1
      rw [fixed_gradient hv i hi, hσ]
      norm_num
      rcases lt_or_gt_of_ne hi with h | h
      · rw [if_pos h, abs_of_neg h, div_neg, div_self hi]
      · rw [if_neg (not_lt.mpr h.le), abs_of_pos h, div_self hi])
  exact sub_eq_zero.mp this

/-! ## Properties -/

/-- **C137.** All finite iterates lie in one bounded set that depends only on the dictionary and the measurements: not on the exponent, the iteration count or `max_iters`. -/
theorem c137_bounded (Phi : Matrix (Fin m) (Fin n) ℝ) (y : Fin m → ℝ) : ∃ C : ℝ, ∀ (p : ℝ) (maxIters : ℕ) (s : FocussState m n), FocussReach Phi y p maxIters s →
    ∀ x, s.x = some x → ∀ i, |x i| ≤ C := by
  obtain ⟨C, hC⟩ := tight_bounded Phi y
  refine ⟨max 1 C, fun p maxIters s h => ?_⟩
  refine h.inv (fun s => ∀ x, s.x = some x → ∀ i, |x i| ≤ max 1 C) (fun x hx i => ?_) fun s _ _ x hx i => ?_
  · have hx : some (fun _ => (1 : ℝ)) = some x := hx
    rw [Option.some.injEq] at hx
    rw [← hx, abs_one]
    exact le_max_left _ _
  · have hx : (s.x.bind fun x => stepNoiseless Phi y x p) = some x := hx
    rw [Option.bind_eq_some_iff] at hx
    obtain ⟨x0, -, hx⟩ := hx
    exact (norm_le_pi_norm x i).trans ((hC x (step_tight hx)).trans (le_max_right _ _))

/-- **C137.** For the default `p = 1` an iteration from a solution of the measurement equations strictly decreases the product of the magnitudes of its nonzero entries
unless it changes nothing. -/
theorem c137_strict_default (Phi : Matrix (Fin m) (Fin n) ℝ) (y : Fin m → ℝ) (maxIters : ℕ) (s : FocussState m n)
    (h : FocussReach Phi y 1 maxIters s) (hi : 0 < s.iterations) (x x' : Fin n → ℝ) (hx : s.x = some x) (hx' : (focussBody Phi y 1 s).x = some x') :
    ∏ i with x i ≠ 0, |x' i| < ∏ i with x i ≠ 0, |x i| ∨ x' = x := by
  by_cases hne : x' = x
  · exact Or.inr hne
  refine Or.inl ?_
  have hsol := (c65_solution_partial Phi y 1 maxIters s h hi x hx).1
  have hmin := c65_minimal Phi y 1 s x x' (Or.inl one_pos) hx hx' x hsol (fun _ h => h) (Ne.symm hne)
  have h2 : ∏ i with x i ≠ 0, (x' i ^ 2 / x i ^ 2) < 1 := lt_of_le_of_lt prod_bound (by rw [Real.exp_lt_one_iff]; linarith)
  rw [Finset.prod_div_distrib] at h2
  have hpos : 0 < ∏ i with x i ≠ 0, x i ^ 2 := Finset.prod_pos fun i hi => by
    have hi : x i ≠ 0 := (Finset.mem_filter.mp hi).2
    positivity
  rw [div_lt_one hpos, Finset.prod_pow, Finset.prod_pow] at h2
  have h3 := sq_lt_sq.mp h2
  rwa [Finset.abs_prod, Finset.abs_prod] at h3

/-- **C137.** Convergence for `p = 1/2`, when no nonzero null vector of `Phi` has a vanishing sum for any choice of signs. -/
theorem c137_converges_half (Phi : Matrix (Fin m) (Fin n) ℝ) (y : Fin m → ℝ) (hg : GeneralPosition Phi y)
    (hgen : ∀ h, Phi *ᵥ h = 0 → ∀ σ : Fin n → ℝ, (∀ i, σ i = 1 ∨ σ i = -1) → ∑ i, σ i * h i = 0 → h = 0) :
    ∃ x l, FocussResults Phi y (1 / 2) x ∧ Tendsto x atTop (𝓝 l) ∧ Phi *ᵥ l = y ∧ stepNoiseless Phi y l (1 / 2) = some l := by
  obtain ⟨x, hx, -⟩ := focuss_seq hg (1 / 2)
  obtain ⟨h1, h2, h3⟩ := focuss_core hg (by norm_num) (by norm_num) hx
  have hfin : {l : Fin n → ℝ | stepNoiseless Phi y l (1 / 2) = some l}.Finite := by
    refine Set.Finite.of_finite_image (f := fun l : Fin n → ℝ => fun i => SignType.sign (l i)) (Set.toFinite _) ?_
    intro a ha b hb h
    exact fixed_signs_half hgen ha hb fun i => congrFun h i
  obtain ⟨l, hl, hlim⟩ := converge_finite (u := fun k => x (k + 1)) h1 h3 _ hfin fun l hl => (h2 l hl).2
  exact ⟨x, l, hx, (tendsto_add_atTop_iff_nat 1).mp hlim, h2 l hl⟩

/-! ## The hypotheses are met -/

theorem wide_general : GeneralPosition wideDict ![5] := by
  refine ⟨by norm_num, fun v hv => ?_, fun x hx => ?_⟩
  · have hv0 : v 0 ≠ 0 := fun h => hv (funext fun i => by fin_cases i; exact h)
    rw [Nat.lt_one_iff, Finset.card_eq_zero, Finset.filter_eq_empty_iff]
    intro i _
    fin_cases i <;> simp [wideDict, mulVec, dotProduct, hv0]
  · rw [nnz, Nat.one_le_iff_ne_zero, Finset.card_ne_zero]
    by_contra h
    rw [Finset.not_nonempty_iff_eq_empty, Finset.filter_eq_empty_iff] at h
    have hx0 : x = 0 := funext fun i => not_not.mp (h (Finset.mem_univ i))
    have := congrFun hx 0
    rw [hx0, mulVec_zero] at this
    norm_num at this

/-- Convergence for the dictionary `(1, 2)` and `y = 5`, with the exponents `1/4`, `3/4` and `1/2`. -/
example : (∃ x l, FocussResults wideDict ![5] (1 / 4) x ∧ Tendsto x atTop (𝓝 l) ∧ wideDict *ᵥ l = ![5] ∧ stepNoiseless wideDict ![5] l (1 / 4) = some l) ∧
    (∃ x l, FocussResults wideDict ![5] (3 / 4) x ∧ Tendsto x atTop (𝓝 l) ∧ wideDict *ᵥ l = ![5] ∧ stepNoiseless wideDict ![5] l (3 / 4) = some l) ∧
    ∃ x l, FocussResults wideDict ![5] (1 / 2) x ∧ Tendsto x atTop (𝓝 l) ∧ wideDict *ᵥ l = ![5] ∧ stepNoiseless wideDict ![5] l (1 / 2) = some l := by
  refine ⟨c137_converges _ _ wide_general (1 / 4) (by norm_num) (by norm_num) (by norm_num), c137_converges _ _ wide_general (3 / 4) (by norm_num) (by norm_num) (by norm_num),
    c137_converges_half _ _ wide_general fun h hh σ hσ hs => ?_⟩
  have h0 := congrFun hh 0
  simp [wideDict, mulVec, dotProduct, Fin.sum_univ_two] at h0
  rw [Fin.sum_univ_two] at hs
  have h1 : h 1 = 0 := by
    rcases hσ 0 with e0 | e0 <;> rcases hσ 1 with e1 | e1 <;> rw [e0, e1] at hs <;> linarith
  have h2 : h 0 = 0 := by rw [h1] at h0; linarith
  funext i
  fin_cases i
  · exact h2
  · exact h1

/-- No iterate for that dictionary has a zero entry, so the limit has the least `Σ |z_i|^(3/2)` of all solutions. -/
example : ∃ x l, FocussResults wideDict ![5] (1 / 4) x ∧ Tendsto x atTop (𝓝 l) ∧ ∀ z, wideDict *ᵥ z = ![5] →
    ∑ i, |l i| ^ (2 - 2 * (1 / 4 : ℝ)) ≤ ∑ i, |z i| ^ (2 - 2 * (1 / 4 : ℝ)) := by
  obtain ⟨x, l, hx, hl, -, -⟩ := c137_converges wideDict ![5] wide_general (1 / 4) (by norm_num) (by norm_num) (by norm_num)
  refine ⟨x, l, hx, hl, fun z hz => c137_global _ _ wide_general (1 / 4) (by norm_num) (by norm_num) x hx l hl z hz ?_⟩
  rintro i ⟨N, hN⟩
  exfalso
  obtain ⟨x', hx', hs⟩ := focuss_seq wide_general (1 / 4)
  rw [← results_unique hx hx'] at hs
  have hx0 : x 0 = fun _ => 1 := by
    obtain ⟨s, h1, h2⟩ := hx 0
    have : s = focussInit wideDict ![5] := Out.unique h1 ⟨.init, Nat.not_lt_zero _⟩
    rw [this] at h2
    exact (Option.some.inj h2).symm
  have hne : ∀ k i, x k i ≠ 0 := by
    intro k
    induction k with
    | zero => intro i; rw [hx0]; exact one_ne_zero
    | succ k ih =>
      obtain ⟨hd, h1, h2⟩ := hs k
      obtain ⟨v, hvd⟩ : ∃ v, v = focussV wideDict ![5] (1 / 4) (x k) := ⟨_, rfl⟩
      have hv : v 0 ≠ 0 := by
        intro h0
        have h3 := congrFun h2 0
        have hz : x (k + 1) = 0 := by
          rw [h1]
          funext i
          rw [focussT_apply, ← hvd]
          simp [mulVec, dotProduct, h0]
        rw [hz, mulVec_zero] at h3
        norm_num at h3
      intro i
      rw [h1, focussT_apply, xp2_eq (ih i), ← hvd]
      refine mul_ne_zero (Real.rpow_pos_of_pos (abs_pos.mpr (ih i)) _).ne' ?_
      fin_cases i <;> simp [wideDict, mulVec, dotProduct, hv]
  exact hne N i hN

example : ∃ s x x', FocussReach wideDict ![5] 1 20 s ∧ s.x = some x ∧ (focussBody wideDict ![5] 1 s).x = some x' ∧
    (∏ i with x i ≠ 0, |x' i| < ∏ i with x i ≠ 0, |x i| ∨ x' = x) := by
  obtain ⟨s, x, x', h, hi, hx, hx'⟩ := wide_two 1
  exact ⟨s, x, x', h, hx, hx', c137_strict_default _ _ 20 s h hi x x' hx hx'⟩

end Verif.Cvx
