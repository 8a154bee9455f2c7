import Verif.Cvx.FocussBoundProps
import Mathlib.Analysis.SpecialFunctions.Log.Basic

set_option autoImplicit false
/-!
# FOCUSS with the default exponent converges (C137)
-/
noncomputable section
namespace Verif.Cvx
open Verif.Loop Matrix
open Filter Topology

variable {m n : ℕ}

/-- The multipliers along the iterates are bounded. -/
theorem multipliers_bounded {Phi : Matrix (Fin m) (Fin n) ℝ} {y : Fin m → ℝ} (hg : GeneralPosition Phi y) {p : ℝ} (hp : 0 < p) {x : ℕ → Fin n → ℝ}
    (hs : ∀ k, (Phi * focussA Phi p (x k)).det ≠ 0 ∧ x (k + 1) = focussT Phi y p (x k) ∧ Phi *ᵥ x (k + 1) = y) :
    Bornology.IsBounded (Set.range fun k => x (k + 1)) ∧ ∃ M : ℝ, 0 < M ∧ ∀ k i, |(Phiᵀ *ᵥ focussV Phi y p (x (k + 1))) i| ≤ M := by
  have hb : Bornology.IsBounded (Set.range fun k => x (k + 1)) := by
    obtain ⟨C, hC⟩ := tight_bounded Phi y
    rw [isBounded_iff_forall_norm_le]
    refine ⟨C, ?_⟩
    rintro _ ⟨k, rfl⟩
    have h1 := step_tight (step_eq (y := y) (hs k).1)
    rw [← (hs k).2.1] at h1
    exact hC _ h1
  refine ⟨hb, ?_⟩
  have hK : IsCompact (closure (Set.range fun k => x (k + 1))) := hb.isCompact_closure
  have c1 : Continuous fun z : Fin n → ℝ => Phi *ᵥ z := continuous_const.matrix_mulVec continuous_id
  have hsol : ∀ l ∈ closure (Set.range fun k => x (k + 1)), Phi *ᵥ l = y := by
    have hcl : IsClosed {l : Fin n → ℝ | Phi *ᵥ l = y} := isClosed_eq c1 continuous_const
    refine fun l hl => closure_minimal (s := Set.range fun k => x (k + 1)) (t := {l : Fin n → ℝ | Phi *ᵥ l = y}) ?_ hcl hl
    rintro _ ⟨k, rfl⟩
    exact (hs k).2.2
  have cont : ContinuousOn (fun z => Phiᵀ *ᵥ focussV Phi y p z) (closure (Set.range fun k => x (k + 1))) := by
    intro l hl
    have h1 := focussV_continuousAt y hp (det_of_spark hg.2.1 p (hg.2.2 l (hsol l hl)))
    have c2 : Continuous fun w : Fin m → ℝ => Phiᵀ *ᵥ w := continuous_const.matrix_mulVec continuous_id
    exact (c2.continuousAt.comp h1).continuousWithinAt
  obtain ⟨M, hM⟩ := hK.exists_bound_of_continuousOn cont
  refine ⟨max M 1, lt_max_of_lt_right one_pos, fun k i => ?_⟩
  exact (norm_le_pi_norm _ i).trans ((hM _ (subset_closure ⟨k, rfl⟩)).trans (le_max_left _ _))

/-- An iteration with `p = 1` squares every entry, up to a multiplier. -/
theorem square_bound {Phi : Matrix (Fin m) (Fin n) ℝ} {y : Fin m → ℝ} {z : Fin n → ℝ} {M : ℝ} {i : Fin n} (hM : |(Phiᵀ *ᵥ focussV Phi y 1 z) i| ≤ M) :
    |focussT Phi y 1 z i| ≤ |z i| ^ 2 * M := by
  rw [focussT_apply, abs_mul]
  have h1 : |xp2 1 z i| = |z i| ^ 2 := by
    by_cases h0 : z i = 0
    · rw [xp2_zero one_pos h0, h0, abs_zero]; norm_num
    · rw [xp2_eq h0, mul_one]
      norm_num
  rw [h1]
  exact mul_le_mul_of_nonneg_left hM (sq_nonneg _)

/-- An entry that is small once decays geometrically. -/
theorem small_decays {a : ℕ → ℝ} {M : ℝ} (hM : 0 < M) (ha : ∀ k, 0 ≤ a k) (hs : ∀ k, a (k + 1) ≤ a k ^ 2 * M) {K : ℕ} (hK : a K ≤ (2 * M)⁻¹) (j : ℕ) :
    a (K + j) ≤ (2 * M)⁻¹ * (1 / 2) ^ j := by
  induction j with
  | zero => simpa using hK
  | succ j ih =>
    have h1 : a (K + j) ≤ (2 * M)⁻¹ := ih.trans (mul_le_of_le_one_right (by positivity) (pow_le_one₀ (by norm_num) (by norm_num)))
    have h2 : a (K + j) * M ≤ 1 / 2 := by
      calc a (K + j) * M ≤ (2 * M)⁻¹ * M := mul_le_mul_of_nonneg_right h1 hM.le
        _ = 1 / 2 := by field_simp
    calc a (K + j + 1) ≤ a (K + j) ^ 2 * M := hs _
      _ = a (K + j) * (a (K + j) * M) := by ring
      _ ≤ a (K + j) * (1 / 2) := mul_le_mul_of_nonneg_left h2 (ha _)
      _ ≤ (2 * M)⁻¹ * (1 / 2) ^ j * (1 / 2) := mul_le_mul_of_nonneg_right ih (by norm_num)
      _ = _ := by ring

/-- The entries split into those that decay geometrically and those that stay away from zero. -/
theorem split_entries {x : ℕ → Fin n → ℝ} {M : ℝ} (hM : 0 < M) (hs : ∀ k i, |x (k + 1) i| ≤ |x k i| ^ 2 * M) :
    ∃ (S : Finset (Fin n)) (K : ℕ), (∀ i ∈ S, ∀ k, (2 * M)⁻¹ < |x k i|) ∧ ∀ i ∉ S, ∀ j, |x (K + j) i| ≤ (2 * M)⁻¹ * (1 / 2) ^ j := by
  classical
  obtain ⟨S, hS⟩ : ∃ S : Finset (Fin n), S = Finset.univ.filter fun i => ∀ k, (2 * M)⁻¹ < |x k i| := ⟨_, rfl⟩
  have hZ : ∀ i, ∃ K, i ∉ S → |x K i| ≤ (2 * M)⁻¹ := by
    intro i
    by_cases hi : i ∈ S
    · exact ⟨0, fun h => absurd hi h⟩
    · rw [hS] at hi
      simp only [Finset.mem_filter, Finset.mem_univ, true_and, not_forall, not_lt] at hi
      obtain ⟨K, hK⟩ := hi
      exact ⟨K, fun _ => hK⟩
  choose K hK using hZ
  refine ⟨S, Finset.univ.sup K, fun i hi k => ?_, fun i hi j => ?_⟩
  · rw [hS] at hi
    exact (Finset.mem_filter.mp hi).2 k
  · have hle : K i ≤ Finset.univ.sup K := Finset.le_sup (Finset.mem_univ i)
    have h1 := small_decays (a := fun k => |x k i|) hM (fun _ => abs_nonneg _) (fun k => hs k i) (hK i hi) (Finset.univ.sup K - K i + j)
    have e : K i + (Finset.univ.sup K - K i + j) = Finset.univ.sup K + j := by omega
    rw [e] at h1
    refine h1.trans (mul_le_mul_of_nonneg_left ?_ (by positivity))
    exact pow_le_pow_of_le_one (by norm_num) (by norm_num) (by omega)

/-- A vector on `S` with the same image as the rest of `w`, of comparable size. -/
theorem correction {Phi : Matrix (Fin m) (Fin n) ℝ} {y : Fin m → ℝ} (hg : GeneralPosition Phi y) {S : Finset (Fin n)} (hS : m ≤ S.card) :
    ∃ B : ℝ, 0 ≤ B ∧ ∀ w : Fin n → ℝ, ∀ e : ℝ, (∀ i, |w i| ≤ e) → ∃ h : Fin n → ℝ, Phi *ᵥ h = Phi *ᵥ w ∧ (∀ i ∉ S, h i = 0) ∧ ∀ i, |h i| ≤ B * e := by
  classical
  obtain ⟨χ, hχ⟩ : ∃ χ : Fin n → ℝ, χ = fun i => if i ∈ S then 1 else 0 := ⟨_, rfl⟩
  have hn : m ≤ nnz χ := by
    have : (Finset.univ.filter fun i => χ i ≠ 0) = S := by
      ext i
      simp [hχ]
    rw [nnz, this]
    exact hS
  have hd := det_of_spark hg.2.1 1 hn
  obtain ⟨Q, hQ⟩ : ∃ Q : Matrix (Fin n) (Fin n) ℝ, Q = focussA Phi 1 χ * ((Phi * focussA Phi 1 χ)⁻¹ * Phi) := ⟨_, rfl⟩
  refine ⟨∑ i, ∑ j, |Q i j|, Finset.sum_nonneg fun i _ => Finset.sum_nonneg fun j _ => abs_nonneg _, fun w e hw => ⟨Q *ᵥ w, ?_, fun i hi => ?_, fun i => ?_⟩⟩
  · rw [mulVec_mulVec, hQ, ← Matrix.mul_assoc, ← Matrix.mul_assoc, Matrix.mul_nonsing_inv _ (isUnit_iff_ne_zero.mpr hd), Matrix.one_mul]
  · have hrow : ∀ j, Q i j = 0 := fun j => by
      rw [hQ, Matrix.mul_apply]
      refine Finset.sum_eq_zero fun k _ => ?_
      have : focussA Phi 1 χ i k = 0 := by
        show xp2 1 χ i * Phi k i = 0
        rw [xp2_zero one_pos (by rw [hχ]; exact if_neg hi), zero_mul]
      rw [this, zero_mul]
    show ∑ j, Q i j * w j = 0
    exact Finset.sum_eq_zero fun j _ => by rw [hrow j, zero_mul]
  · calc |∑ j, Q i j * w j| ≤ ∑ j, |Q i j * w j| := Finset.abs_sum_le_sum_abs _ _
      _ ≤ ∑ j, |Q i j| * e := Finset.sum_le_sum fun j _ => by rw [abs_mul]; exact mul_le_mul_of_nonneg_left (hw j) (abs_nonneg _)
      _ = (∑ j, |Q i j|) * e := (Finset.sum_mul _ _ _).symm
      _ ≤ _ := by
        have he : 0 ≤ e := (abs_nonneg _).trans (hw i)
        exact mul_le_mul_of_nonneg_right (Finset.single_le_sum (f := fun i => ∑ j, |Q i j|) (fun i _ => Finset.sum_nonneg fun j _ => abs_nonneg _) (Finset.mem_univ i)) he

/-- The logarithms of the entries that stay away from zero increase by at most a multiple of the size of the others. -/
theorem log_increase {Phi : Matrix (Fin m) (Fin n) ℝ} {y : Fin m → ℝ} {S : Finset (Fin n)} {B δ : ℝ} (hB0 : 0 ≤ B) (hδ : 0 < δ)
    (hB : ∀ w : Fin n → ℝ, ∀ e : ℝ, (∀ i, |w i| ≤ e) → ∃ h : Fin n → ℝ, Phi *ᵥ h = Phi *ᵥ w ∧ (∀ i ∉ S, h i = 0) ∧ ∀ i, |h i| ≤ B * e)
    {x x' : Fin n → ℝ} (hsol : Phi *ᵥ x = y) (hst : stepNoiseless Phi y x 1 = some x') (hx : ∀ i ∈ S, δ < |x i|) (hx' : ∀ i ∈ S, δ < |x' i|)
    {e : ℝ} (he : ∀ i ∉ S, |x i| ≤ e) (he0 : 0 ≤ e) (he1 : e ≤ δ) :
    ∑ i ∈ S, Real.log |x' i| ≤ ∑ i ∈ S, Real.log |x i| + S.card * ((2 * B + B ^ 2) / δ) * e := by
  classical
  obtain ⟨w, hw⟩ : ∃ w : Fin n → ℝ, w = fun i => if i ∈ S then 0 else x i := ⟨_, rfl⟩
  obtain ⟨h, h1, h2, h3⟩ := hB w e fun i => by
    rw [hw]; dsimp only
    split
    · rwa [abs_zero]
    · rename_i hi; exact he i hi
  obtain ⟨z, hz⟩ : ∃ z : Fin n → ℝ, z = x - w + h := ⟨_, rfl⟩
  have hzsol : Phi *ᵥ z = y := by rw [hz, mulVec_add, mulVec_sub, h1, sub_add_cancel, hsol]
  have hzS : ∀ i ∈ S, z i = x i + h i := fun i hi => by
    rw [hz, hw]
    show x i - (if i ∈ S then 0 else x i) + h i = _
    rw [if_pos hi, sub_zero]
  have hzZ : ∀ i ∉ S, z i = 0 := fun i hi => by
    rw [hz, hw]
    show x i - (if i ∈ S then 0 else x i) + h i = _
    rw [if_neg hi, h2 i hi, sub_self, add_zero]
  have hx0 : ∀ i ∈ S, x i ≠ 0 := fun i hi h0 => by
    have := hx i hi
    rw [h0, abs_zero] at this
    linarith
  have hsub : S ⊆ Finset.univ.filter fun i => x i ≠ 0 := fun i hi => Finset.mem_filter.mpr ⟨Finset.mem_univ i, hx0 i hi⟩
  have e2 : ∀ c : ℝ, ∀ i, c / |x i| ^ (2 * (1 : ℝ)) = c / x i ^ 2 := by
    intro c i
    rw [mul_one, ← sq_abs (x i)]
    norm_num
  have hmin : reweighted 1 x x' ≤ reweighted 1 x z := by
    by_cases hne : z = x'
    · rw [hne]
    · exact (c65_minimal Phi y 1 (focussState Phi y (some x) 0) x x' (Or.inl one_pos) rfl hst z hzsol
        (fun i hi => hzZ i fun hS => hx0 i hS hi) hne).le
  have hlow : ∑ i ∈ S, x' i ^ 2 / x i ^ 2 ≤ reweighted 1 x x' := by
    have : ∑ i ∈ S, x' i ^ 2 / x i ^ 2 = ∑ i ∈ S, x' i ^ 2 / |x i| ^ (2 * (1 : ℝ)) := Finset.sum_congr rfl fun i _ => (e2 _ i).symm
    rw [this]
    exact Finset.sum_le_sum_of_subset_of_nonneg hsub fun i _ _ => div_nonneg (sq_nonneg _) (Real.rpow_nonneg (abs_nonneg _) _)
  have hup : reweighted 1 x z = ∑ i ∈ S, z i ^ 2 / x i ^ 2 := by
    have : ∑ i ∈ S, z i ^ 2 / x i ^ 2 = ∑ i ∈ S, z i ^ 2 / |x i| ^ (2 * (1 : ℝ)) := Finset.sum_congr rfl fun i _ => (e2 _ i).symm
    rw [this]
    exact (Finset.sum_subset hsub fun i _ hi => by rw [hzZ i hi, zero_pow two_ne_zero, zero_div]).symm
  have hterm : ∀ i ∈ S, z i ^ 2 / x i ^ 2 ≤ 1 + 2 * ((2 * B + B ^ 2) / δ * e) := by
    intro i hi
    have ha := hx i hi
    have hz2 : |z i| ≤ |x i| + B * e := by rw [hzS i hi]; exact (abs_add_le _ _).trans (add_le_add le_rfl (h3 i))
    have hb : 0 ≤ B * e := mul_nonneg hB0 he0
    have hx2 : 0 < x i ^ 2 := by have := hx0 i hi; positivity
    rw [div_le_iff₀ hx2, ← sq_abs (z i), ← sq_abs (x i)]
    have h5 : |z i| ^ 2 ≤ (|x i| + B * e) ^ 2 := pow_le_pow_left₀ (abs_nonneg _) hz2 2
    obtain ⟨a, ha'⟩ : ∃ a, a = |x i| := ⟨_, rfl⟩
    rw [← ha'] at h5 ha ⊢
    -- (a + Be)² ≤ a² + 2 (2B + B²)/δ e a²
    have h6 : B * e * a ≤ B / δ * e * a ^ 2 := by
      have : B * e * a * 1 ≤ B * e * a * (a / δ) := mul_le_mul_of_nonneg_left (by rw [le_div_iff₀ hδ]; linarith) (mul_nonneg hb (by linarith))
      calc B * e * a = B * e * a * 1 := (mul_one _).symm
        _ ≤ _ := this
        _ = _ := by ring
    have h7 : (B * e) ^ 2 ≤ B ^ 2 / δ * e * a ^ 2 := by
      have h8 : e ≤ a ^ 2 / δ := by
        rw [le_div_iff₀ hδ]
        nlinarith
      calc (B * e) ^ 2 = B ^ 2 * e * e := by ring
        _ ≤ B ^ 2 * e * (a ^ 2 / δ) := mul_le_mul_of_nonneg_left h8 (mul_nonneg (sq_nonneg _) he0)
        _ = _ := by ring
    have h9 : 0 ≤ B ^ 2 / δ * e * a ^ 2 := mul_nonneg (mul_nonneg (div_nonneg (sq_nonneg _) hδ.le) he0) (sq_nonneg _)
    have h10 : 0 ≤ B / δ * e * a ^ 2 := mul_nonneg (mul_nonneg (div_nonneg hB0 hδ.le) he0) (sq_nonneg _)
    have e3 : (1 + 2 * ((2 * B + B ^ 2) / δ * e)) * a ^ 2 = a ^ 2 + 4 * (B / δ * e * a ^ 2) + 2 * (B ^ 2 / δ * e * a ^ 2) := by ring
    rw [e3]
    nlinarith
  have hsum : ∑ i ∈ S, x' i ^ 2 / x i ^ 2 ≤ ∑ i ∈ S, (1 + 2 * ((2 * B + B ^ 2) / δ * e)) := by
    refine hlow.trans (hmin.trans ?_)
    rw [hup]
    exact Finset.sum_le_sum hterm
  have hlog : ∀ i ∈ S, 2 * Real.log |x' i| ≤ 2 * Real.log |x i| + (x' i ^ 2 / x i ^ 2 - 1) := by
    intro i hi
    have a1 := hx i hi
    have a2 := hx' i hi
    have p1 : 0 < |x i| := by linarith
    have p2 : 0 < |x' i| := by linarith
    have h5 := Real.log_le_sub_one_of_pos (x := x' i ^ 2 / x i ^ 2) (by rw [← sq_abs, ← sq_abs (x i)]; positivity)
    rw [← sq_abs (x' i), ← sq_abs (x i), Real.log_div (by positivity) (by positivity), Real.log_pow, Real.log_pow] at h5
    push_cast at h5
    rw [← sq_abs (x' i), ← sq_abs (x i)]
    linarith
  have h6 := Finset.sum_le_sum hlog
  rw [Finset.sum_add_distrib, ← Finset.mul_sum, ← Finset.mul_sum, Finset.sum_sub_distrib] at h6
  rw [Finset.sum_const, nsmul_eq_mul] at hsum
  rw [Finset.sum_const, nsmul_eq_mul, mul_one] at h6
  nlinarith

/-- The iterates for `p = 1`, from the first on. -/
theorem default_core {Phi : Matrix (Fin m) (Fin n) ℝ} {y : Fin m → ℝ} (hg : GeneralPosition Phi y) {x : ℕ → Fin n → ℝ} (hx : FocussResults Phi y 1 x) :
    Bornology.IsBounded (Set.range fun k => x (k + 1)) ∧ ∀ l, ClusterSeq (fun k => x (k + 1)) l →
      Phi *ᵥ l = y ∧ ContinuousAt (focussT Phi y 1) l ∧ focussT Phi y 1 l = l ∧ stepNoiseless Phi y l 1 = some l := by
  classical
  obtain ⟨x', hx', hs⟩ := focuss_seq hg 1
  rw [results_unique hx hx']
  clear hx hx' x
  obtain ⟨hb, M, hM, hgM⟩ := multipliers_bounded hg one_pos hs
  refine ⟨hb, ?_⟩
  obtain ⟨u, hu⟩ : ∃ u : ℕ → Fin n → ℝ, u = fun k => x' (k + 1) := ⟨_, rfl⟩
  rw [← hu] at hb ⊢
  have hu1 : ∀ k, (Phi * focussA Phi 1 (u k)).det ≠ 0 := fun k => by rw [hu]; exact (hs (k + 1)).1
  have hu2 : ∀ k, u (k + 1) = focussT Phi y 1 (u k) := fun k => by rw [hu]; exact (hs (k + 1)).2.1
  have hu3 : ∀ k, Phi *ᵥ u k = y := fun k => by rw [hu]; exact (hs k).2.2
  have hgM : ∀ k i, |(Phiᵀ *ᵥ focussV Phi y 1 (u k)) i| ≤ M := fun k i => by rw [hu]; exact hgM k i
  have hsq : ∀ k i, |u (k + 1) i| ≤ |u k i| ^ 2 * M := fun k i => by rw [hu2 k]; exact square_bound (hgM k i)
  obtain ⟨S, K, hS, hZ⟩ := split_entries hM hsq
  obtain ⟨δ, hδ'⟩ : ∃ δ, δ = (2 * M)⁻¹ := ⟨_, rfl⟩
  have hδ : 0 < δ := by rw [hδ']; positivity
  rw [← hδ'] at hS hZ
  have c1 : Continuous fun z : Fin n → ℝ => Phi *ᵥ z := continuous_const.matrix_mulVec continuous_id
  -- limit points
  have hcl : ∀ l, ClusterSeq u l → Phi *ᵥ l = y ∧ (∀ i ∈ S, δ ≤ |l i|) ∧ ∀ i ∉ S, l i = 0 := by
    rintro l ⟨φ, hφ, hlim⟩
    have hco : ∀ i, Tendsto (fun k => u (φ k) i) atTop (𝓝 (l i)) := fun i => ((continuous_apply i).tendsto l).comp hlim
    refine ⟨?_, fun i hi => ?_, fun i hi => ?_⟩
    · have h1 := (c1.tendsto l).comp hlim
      refine tendsto_nhds_unique h1 (tendsto_const_nhds.congr fun k => ?_)
      exact (hu3 (φ k)).symm
    · exact ge_of_tendsto' (hco i).abs fun k => (hS i hi (φ k)).le
    · have hpow : Tendsto (fun j : ℕ => δ * (1 / 2 : ℝ) ^ j) atTop (𝓝 0) := by
        have := (tendsto_pow_atTop_nhds_zero_of_lt_one (r := (1 / 2 : ℝ)) (by norm_num) (by norm_num)).const_mul δ
        rwa [mul_zero] at this
      have h1 : Tendsto (fun j => u (K + j) i) atTop (𝓝 0) := squeeze_zero_norm (fun j => hZ i hi j) hpow
      have h2 : Tendsto (fun j => u j i) atTop (𝓝 0) := by
        have e : (fun j => u (K + j) i) = fun j => (fun k => u k i) (j + K) := funext fun j => by rw [add_comm]
        rw [e] at h1
        exact (tendsto_add_atTop_iff_nat (f := fun k => u k i) K).mp h1
      have h3 := h2.comp hφ.tendsto_atTop
      exact tendsto_nhds_unique (hco i) h3
  intro l hl
  obtain ⟨hsol, hlS, hlZ⟩ := hcl l hl
  have hd := det_of_spark hg.2.1 1 (hg.2.2 l hsol)
  have hcont := focussT_continuousAt y one_pos hd
  have hsupp : (Finset.univ.filter fun i => l i ≠ 0) = S := by
    ext i
    simp only [Finset.mem_filter, Finset.mem_univ, true_and]
    constructor
    · intro h
      by_contra hi
      exact h (hlZ i hi)
    · intro hi h0
      have := hlS i hi
      rw [h0, abs_zero] at this
      linarith
  have hcard : m ≤ S.card := by
    have := hg.2.2 l hsol
    rwa [nnz, hsupp] at this
  obtain ⟨B, hB0, hB⟩ := correction hg hcard
  have hstep : ∀ k, stepNoiseless Phi y (u k) 1 = some (u (k + 1)) := fun k => by rw [hu2 k]; exact step_eq (hu1 k)
  -- the sum of logarithms converges
  obtain ⟨A, hA⟩ : ∃ A : ℝ, A = S.card * ((2 * B + B ^ 2) / δ) * δ := ⟨_, rfl⟩
  obtain ⟨f, hf⟩ : ∃ f : (Fin n → ℝ) → ℝ, f = fun z => ∑ i ∈ S, Real.log |z i| := ⟨_, rfl⟩
  have hdec : ∀ j, f (u (K + j + 1)) + 2 * A * (1 / 2) ^ (j + 1) ≤ f (u (K + j)) + 2 * A * (1 / 2) ^ j := by
    intro j
    have h1 := log_increase (e := δ * (1 / 2) ^ j) hB0 hδ hB (hu3 (K + j)) (hstep (K + j)) (fun i hi => hS i hi _) (fun i hi => hS i hi _) (fun i hi => hZ i hi j)
      (by positivity) (mul_le_of_le_one_right hδ.le (pow_le_one₀ (by norm_num) (by norm_num)))
    rw [hf]
    have e : S.card * ((2 * B + B ^ 2) / δ) * (δ * (1 / 2) ^ j) = A * (1 / 2) ^ j := by rw [hA]; ring
    rw [e] at h1
    have e2 : 2 * A * (1 / 2 : ℝ) ^ (j + 1) = A * (1 / 2) ^ j := by ring
    rw [e2]
    dsimp only
    linarith
  have hA0 : 0 ≤ A := by rw [hA]; positivity
  obtain ⟨L, hL⟩ : ∃ L, Tendsto (fun j => f (u (K + j)) + 2 * A * (1 / 2) ^ j) atTop (𝓝 L) := by
    refine ⟨_, tendsto_atTop_ciInf (antitone_nat_of_succ_le hdec) ⟨∑ i ∈ S, Real.log δ, ?_⟩⟩
    rintro _ ⟨j, rfl⟩
    have h1 : ∑ i ∈ S, Real.log δ ≤ f (u (K + j)) := by
      rw [hf]
      exact Finset.sum_le_sum fun i hi => Real.log_le_log hδ (hS i hi _).le
    have h2 : 0 ≤ 2 * A * (1 / 2 : ℝ) ^ j := by positivity
    dsimp only
    linarith
  have hL2 : Tendsto (fun k => f (u k)) atTop (𝓝 L) := by
    have hpow : Tendsto (fun j : ℕ => 2 * A * (1 / 2 : ℝ) ^ j) atTop (𝓝 0) := by
      have := (tendsto_pow_atTop_nhds_zero_of_lt_one (r := (1 / 2 : ℝ)) (by norm_num) (by norm_num)).const_mul (2 * A)
      rwa [mul_zero] at this
    have h1 := hL.sub hpow
    rw [sub_zero] at h1
    have h2 : Tendsto (fun j => f (u (j + K))) atTop (𝓝 L) := h1.congr fun j => by rw [add_comm j K]; ring
    exact (tendsto_add_atTop_iff_nat (f := fun k => f (u k)) K).mp h2
  have hfc : ∀ z, (∀ i ∈ S, δ ≤ |z i|) → ContinuousAt f z := by
    intro z hz
    rw [hf]
    refine tendsto_finset_sum _ fun i hi => ?_
    have h0 : |z i| ≠ 0 := by have := hz i hi; linarith
    exact ((continuous_apply i).abs.continuousAt).log h0
  obtain ⟨φ, hφ, hlim⟩ := hl
  have hT : Tendsto (fun k => u (φ k + 1)) atTop (𝓝 (focussT Phi y 1 l)) := by
    have h1 := hcont.tendsto.comp hlim
    refine h1.congr fun k => ?_
    exact (hu2 (φ k)).symm
  have hTl := hcl _ ⟨fun k => φ k + 1, fun a b hab => Nat.add_lt_add_right (hφ hab) 1, hT⟩
  have e1 : f l = L := by
    have h1 := (hfc l hlS).tendsto.comp hlim
    have h2 := hL2.comp hφ.tendsto_atTop
    exact tendsto_nhds_unique h1 h2
  have e2 : f (focussT Phi y 1 l) = L := by
    have h1 := (hfc _ hTl.2.1).tendsto.comp hT
    have h2 := hL2.comp ((tendsto_add_atTop_nat 1).comp hφ.tendsto_atTop)
    exact tendsto_nhds_unique h1 h2
  have hst : stepNoiseless Phi y l 1 = some (focussT Phi y 1 l) := step_eq hd
  have hfix : focussT Phi y 1 l = l := by
    by_contra hne
    have hmin := c65_minimal Phi y 1 (focussState Phi y (some l) 0) l _ (Or.inl one_pos) rfl hst l hsol (fun _ h => h) (Ne.symm hne)
    have h2 : ∏ i with l i ≠ 0, (focussT Phi y 1 l i ^ 2 / l i ^ 2) < 1 := lt_of_le_of_lt prod_bound (by rw [Real.exp_lt_one_iff]; linarith)
    rw [hsupp] at h2
    have hpos : ∀ i ∈ S, 0 < |focussT Phi y 1 l i| ∧ 0 < |l i| := fun i hi => ⟨hδ.trans_le (hTl.2.1 i hi), hδ.trans_le (hlS i hi)⟩
    have h3 : Real.log (∏ i ∈ S, (focussT Phi y 1 l i ^ 2 / l i ^ 2)) < 0 := by
      refine Real.log_neg (Finset.prod_pos fun i hi => ?_) h2
      rw [← sq_abs, ← sq_abs (l i)]
      have := hpos i hi
      exact div_pos (pow_pos this.1 2) (pow_pos this.2 2)
    have h4 : Real.log (∏ i ∈ S, (focussT Phi y 1 l i ^ 2 / l i ^ 2)) = 2 * f (focussT Phi y 1 l) - 2 * f l := by
      rw [Real.log_prod fun i hi => ?_, hf]
      · dsimp only
        rw [Finset.mul_sum, Finset.mul_sum, ← Finset.sum_sub_distrib]
        refine Finset.sum_congr rfl fun i hi => ?_
        have := hpos i hi
        rw [← sq_abs (focussT Phi y 1 l i), ← sq_abs (l i), Real.log_div (pow_pos this.1 2).ne' (pow_pos this.2 2).ne', Real.log_pow, Real.log_pow]
        push_cast
        ring
      · rw [← sq_abs, ← sq_abs (l i)]
        have := hpos i hi
        exact (div_pos (pow_pos this.1 2) (pow_pos this.2 2)).ne'
    rw [h4, e1, e2] at h3
    linarith
  exact ⟨hsol, hcont, hfix, by rw [hst, hfix]⟩

/-- A solution with exactly `m` nonzero entries is the only solution on its support. -/
theorem sparse_unique {Phi : Matrix (Fin m) (Fin n) ℝ} {y : Fin m → ℝ} (hg : GeneralPosition Phi y) {l z : Fin n → ℝ} (hm : nnz l = m) (hz : Phi *ᵥ z = y) (hl : Phi *ᵥ l = y)
    (h0 : ∀ i, l i = 0 → z i = 0) : z = l := by
  classical
  by_contra hne
  obtain ⟨i, hi⟩ : ∃ i, z i ≠ l i := by
    by_contra h
    push Not at h
    exact hne (funext h)
  have hli : l i ≠ 0 := fun h => hi (by rw [h0 i h, h])
  -- a combination of the two solutions with one more zero
  obtain ⟨t, ht⟩ : ∃ t, t = l i / (l i - z i) := ⟨_, rfl⟩
  have hd : l i - z i ≠ 0 := sub_ne_zero.mpr (Ne.symm hi)
  obtain ⟨w, hw⟩ : ∃ w : Fin n → ℝ, w = l + t • (z - l) := ⟨_, rfl⟩
  have hwsol : Phi *ᵥ w = y := by rw [hw, mulVec_add, mulVec_smul, mulVec_sub, hz, hl, sub_self, smul_zero, add_zero]
  have hwi : w i = 0 := by
    rw [hw]
    show l i + t * (z i - l i) = 0
    rw [ht]
    field_simp
    ring
  have hsub : (Finset.univ.filter fun j => w j ≠ 0) ⊆ (Finset.univ.filter fun j => l j ≠ 0).erase i := by
    intro j hj
    have hj : w j ≠ 0 := (Finset.mem_filter.mp hj).2
    refine Finset.mem_erase.mpr ⟨fun e => hj (by rw [e, hwi]), Finset.mem_filter.mpr ⟨Finset.mem_univ j, fun h => hj ?_⟩⟩
    rw [hw]
    show l j + t * (z j - l j) = 0
    rw [h, h0 j h, sub_self, mul_zero, add_zero]
  have h1 := Finset.card_le_card hsub
  rw [Finset.card_erase_of_mem (Finset.mem_filter.mpr ⟨Finset.mem_univ i, hli⟩)] at h1
  have h2 := hg.2.2 w hwsol
  have h3 : 0 < (Finset.univ.filter fun j => l j ≠ 0).card := Finset.card_pos.mpr ⟨i, Finset.mem_filter.mpr ⟨Finset.mem_univ i, hli⟩⟩
  rw [nnz] at h2 hm
  omega

/-! ## Property -/

/-- **C137.** With the default exponent `p = 1` and data in general position, the results for growing `max_iters` converge to a solution of the measurement equations that
another iteration leaves unchanged. -/
theorem c137_converges_default (Phi : Matrix (Fin m) (Fin n) ℝ) (y : Fin m → ℝ) (hg : GeneralPosition Phi y) :
    ∃ x l, FocussResults Phi y 1 x ∧ Tendsto x atTop (𝓝 l) ∧ Phi *ᵥ l = y ∧ stepNoiseless Phi y l 1 = some l := by
  obtain ⟨x, hx, hs⟩ := focuss_seq hg 1
  obtain ⟨h1, h2⟩ := default_core hg hx
  have h3 := steps_vanish (u := fun k => x (k + 1)) (T := focussT Phi y 1) (fun k => (hs (k + 1)).2.1) h1 fun l hl => ⟨(h2 l hl).2.1, (h2 l hl).2.2.1⟩
  obtain ⟨l, hl, hlim⟩ := converge_finite (u := fun k => x (k + 1)) h1 h3 _ (fixed_finite (Phi := Phi) (y := y) one_pos (by norm_num)) fun l hl => (h2 l hl).2.2.2
  exact ⟨x, l, hx, (tendsto_add_atTop_iff_nat 1).mp hlim, (h2 l hl).1, (h2 l hl).2.2.2⟩

/-- **C137.** For data in general position a solution with exactly `m` nonzero entries is left unchanged by an iteration with any `p > 0`. -/
theorem c137_sparse_fixed (Phi : Matrix (Fin m) (Fin n) ℝ) (y : Fin m → ℝ) (hg : GeneralPosition Phi y) (p : ℝ) (hp : 0 < p) (l : Fin n → ℝ) (hl : Phi *ᵥ l = y)
    (hm : nnz l = m) : stepNoiseless Phi y l p = some l := by
  have hst := step_eq (y := y) (det_of_spark hg.2.1 p (hg.2.2 l hl))
  rw [hst]
  refine congrArg some (sparse_unique hg hm ?_ hl fun i hi => ?_)
  · exact (step_some hst).1
  · rw [focussT_apply, xp2_zero hp hi, zero_mul]

/-- **C137.** With the default exponent `p = 1` and data in general position there is a threshold such that, as soon as one result is below it wherever a solution `l` with
exactly `m` nonzero entries vanishes, the results for growing `max_iters` converge to `l`. -/
theorem c137_attracts (Phi : Matrix (Fin m) (Fin n) ℝ) (y : Fin m → ℝ) (hg : GeneralPosition Phi y) : ∃ ε > 0, ∀ x, FocussResults Phi y 1 x →
    ∀ l, Phi *ᵥ l = y → nnz l = m → ∀ N, (∀ i, l i = 0 → |x (N + 1) i| ≤ ε) → Tendsto x atTop (𝓝 l) := by
  obtain ⟨x, l', hx, hlim, hl', -⟩ := c137_converges_default Phi y hg
  obtain ⟨x', hx', hs⟩ := focuss_seq hg 1
  rw [← results_unique hx hx'] at hs
  obtain ⟨-, M, hM, hgM⟩ := multipliers_bounded hg one_pos hs
  refine ⟨(2 * M)⁻¹, by positivity, fun x'' hx'' l hl hm N hN => ?_⟩
  rw [← results_unique hx hx''] at hN ⊢
  have e : l' = l := by
    refine sparse_unique hg hm hl' hl fun i hi => ?_
    have hd := small_decays (a := fun k => |x (k + 1) i|) hM (fun _ => abs_nonneg _) (fun k => by rw [(hs (k + 1)).2.1]; exact square_bound (hgM k i)) (hN i hi)
    have hpow : Tendsto (fun j : ℕ => (2 * M)⁻¹ * (1 / 2 : ℝ) ^ j) atTop (𝓝 0) := by
      have := (tendsto_pow_atTop_nhds_zero_of_lt_one (r := (1 / 2 : ℝ)) (by norm_num) (by norm_num)).const_mul (2 * M)⁻¹
      rwa [mul_zero] at this
    have h1 : Tendsto (fun j => x (N + j + 1) i) atTop (𝓝 0) := squeeze_zero_norm (fun j => hd j) hpow
    have h2 : Tendsto (fun k => x k i) atTop (𝓝 (l' i)) := ((continuous_apply i).tendsto l').comp hlim
    have h3 : Tendsto (fun j => x (N + j + 1) i) atTop (𝓝 (l' i)) := by
      have e : (fun j => x (N + j + 1) i) = fun j => (fun k => x k i) (j + (N + 1)) := funext fun j => by
        show x (N + j + 1) i = x (j + (N + 1)) i
        rw [show N + j + 1 = j + (N + 1) by omega]
      rw [e]
      exact (tendsto_add_atTop_iff_nat (f := fun k => x k i) (N + 1)).mpr h2
    exact tendsto_nhds_unique h3 h1
  rw [← e]
  exact hlim

/-- The dictionary `(1, 2)` with `y = 5`: the solution `(0, 5/2)` has one nonzero entry. -/
theorem wide_sparse : wideDict *ᵥ ![0, 5 / 2] = ![5] ∧ nnz (![0, 5 / 2] : Fin 2 → ℝ) = 1 := by
  refine ⟨?_, ?_⟩
  · funext i
    fin_cases i
    simp [wideDict, mulVec, dotProduct, Fin.sum_univ_two]
    norm_num
  · have : (Finset.univ.filter fun i : Fin 2 => (![0, 5 / 2] : Fin 2 → ℝ) i ≠ 0) = {1} := by
      ext i
      fin_cases i <;> simp
    rw [nnz, this]
    rfl

example : stepNoiseless wideDict ![5] ![0, 5 / 2] 1 = some ![0, 5 / 2] :=
  c137_sparse_fixed _ _ wide_general 1 one_pos _ wide_sparse.1 wide_sparse.2

/-- The results for that dictionary converge to the sparse solution. -/
example : ∃ x, FocussResults wideDict ![5] 1 x ∧ Tendsto x atTop (𝓝 ![0, 5 / 2]) := by
  obtain ⟨ε, hε, h⟩ := c137_attracts wideDict ![5] wide_general
  obtain ⟨x, hx, hs⟩ := focuss_seq wide_general 1
  have hx0 : x 0 = fun _ => 1 := by
    obtain ⟨s, h1, h2⟩ := hx 0
    have : s = focussInit wideDict ![5] := Out.unique h1 ⟨.init, Nat.not_lt_zero _⟩
    rw [this] at h2
    exact (Option.some.inj h2).symm
  have hinv : ∀ k, 0 < x k 0 ∧ 2 ^ k * x k 0 ≤ x k 1 := by
    intro k
    induction k with
    | zero => rw [hx0]; norm_num
    | succ k ih =>
      obtain ⟨hd, h1, h2⟩ := hs k
      obtain ⟨ih1, ih2⟩ := ih
      have hk : (1 : ℝ) ≤ 2 ^ k := one_le_pow₀ (by norm_num)
      have ih3 : 0 < x k 1 := lt_of_lt_of_le (by positivity) ih2
      obtain ⟨v, hvd⟩ : ∃ v, v = focussV wideDict ![5] 1 (x k) := ⟨_, rfl⟩
      have e0 : x (k + 1) 0 = x k 0 ^ 2 * v 0 := by
        rw [h1, focussT_apply, xp2_eq ih1.ne', ← hvd, mul_one]
        simp [wideDict, mulVec, dotProduct]
      have e1 : x (k + 1) 1 = x k 1 ^ 2 * (2 * v 0) := by
        rw [h1, focussT_apply, xp2_eq ih3.ne', ← hvd, mul_one]
        simp [wideDict, mulVec, dotProduct]
      have h3 := congrFun h2 0
      simp [wideDict, mulVec, dotProduct, Fin.sum_univ_two] at h3
      have hv : 0 < v 0 := by
        by_contra hv
        push Not at hv
        rw [e0, e1] at h3
        nlinarith [mul_nonneg (sq_nonneg (x k 0)) (neg_nonneg.mpr hv), mul_nonneg (sq_nonneg (x k 1)) (neg_nonneg.mpr hv)]
      refine ⟨by rw [e0]; positivity, ?_⟩
      rw [e0, e1, pow_succ]
      have h4 : (2 ^ k * x k 0) ^ 2 ≤ x k 1 ^ 2 := pow_le_pow_left₀ (by positivity) ih2 2
      have h5 : 2 ^ k * x k 0 ^ 2 ≤ (2 ^ k * x k 0) ^ 2 := by
        rw [mul_pow, pow_two ((2 : ℝ) ^ k)]
        exact mul_le_mul_of_nonneg_right (le_mul_of_one_le_left (by positivity) hk) (sq_nonneg _)
      nlinarith [mul_le_mul_of_nonneg_right (h5.trans h4) hv.le]
  obtain ⟨N, hN⟩ := pow_unbounded_of_one_lt (5 / ε) (one_lt_two : (1 : ℝ) < 2)
  refine ⟨x, hx, h x hx _ wide_sparse.1 wide_sparse.2 N fun i hi => ?_⟩
  fin_cases i
  · show |x (N + 1) 0| ≤ ε
    obtain ⟨p1, p2⟩ := hinv (N + 1)
    have h3 := congrFun (hs N).2.2 0
    simp [wideDict, mulVec, dotProduct, Fin.sum_univ_two] at h3
    rw [abs_of_pos p1]
    rw [div_lt_iff₀ hε] at hN
    have h6 : (2 : ℝ) ^ (N + 1) * x (N + 1) 0 ≤ 5 := by linarith
    rw [pow_succ] at h6
    have hp : (0 : ℝ) < 2 ^ N := by positivity
    by_contra hc
    push Not at hc
    nlinarith [mul_lt_mul_of_pos_left hc hp]
  · simp at hi

/-- The dictionary `(1, 2)` with `y = 5`. -/
example : ∃ x l, FocussResults wideDict ![5] 1 x ∧ Tendsto x atTop (𝓝 l) ∧ wideDict *ᵥ l = ![5] ∧ stepNoiseless wideDict ![5] l 1 = some l :=
  c137_converges_default _ _ wide_general

end Verif.Cvx
