import Verif.Pursuit.MpProps
import Mathlib.Analysis.Normed.Module.FiniteDimension
import Mathlib.Analysis.SpecificLimits.Basic

set_option autoImplicit false
/-!
# Matching pursuit converges for every dictionary (C44)
-/
noncomputable section
namespace Verif.Pursuit
open Verif.Loop Filter
open scoped RealInnerProductSpace Topology

variable {E : Type*} [NormedAddCommGroup E] [InnerProductSpace ℝ E]

/-! ## Lemmas -/

/-- Some atom has a correlation of at least a fixed fraction with every vector of the span of the atoms. -/
theorem exists_cover (phi : ℕ → E) (n : ℕ) (hn : 0 < n) : ∃ c : ℝ, 0 < c ∧ c ≤ 1 ∧
    ∀ v ∈ Submodule.span ℝ (phi '' Set.Iio n), ∃ i, i < n ∧ c * ‖v‖ ≤ |⟪phi i, v⟫| := by
  classical
  have : Nonempty (Fin n) := ⟨⟨0, hn⟩⟩
  have : FiniteDimensional ℝ (Submodule.span ℝ (phi '' Set.Iio n)) := FiniteDimensional.span_of_finite ℝ ((Set.finite_Iio n).image _)
  let f : Submodule.span ℝ (phi '' Set.Iio n) →ₗ[ℝ] (Fin n → ℝ) :=
    { toFun := fun v i => ⟪phi i, (v : E)⟫
      map_add' := fun u v => by funext i; simp [inner_add_right]
      map_smul' := fun a v => by funext i; simp [inner_smul_right] }
  have hker : LinearMap.ker f = ⊥ := by
    rw [LinearMap.ker_eq_bot']
    intro v hv
    have h0 : ∀ w ∈ Submodule.span ℝ (phi '' Set.Iio n), ⟪w, (v : E)⟫ = 0 := by
      intro w hw
      refine Submodule.span_induction (p := fun w _ => ⟪w, (v : E)⟫ = 0) ?_ (by simp) ?_ ?_ hw
      · rintro x ⟨i, hi, rfl⟩
        exact congrFun hv ⟨i, hi⟩
      · intro x y _ _ hx hy; rw [inner_add_left, hx, hy, add_zero]
      · intro a x _ hx; rw [real_inner_smul_left, hx, mul_zero]
    have := h0 v v.2
    exact Subtype.ext (inner_self_eq_zero.mp this)
  obtain ⟨K, hK, hf⟩ := f.exists_antilipschitzWith hker
  have hK' : (0 : ℝ) < K := hK
  refine ⟨min 1 (1 / K), lt_min one_pos (by positivity), min_le_left _ _, fun v hv => ?_⟩
  have h1 : ‖v‖ ≤ K * ‖f ⟨v, hv⟩‖ := by
    have := hf.le_mul_dist ⟨v, hv⟩ 0
    rwa [map_zero, dist_zero_right, dist_zero_right] at this
  obtain ⟨i, -, hi⟩ := Finset.exists_max_image Finset.univ (fun i => |⟪phi (i : Fin n), v⟫|) Finset.univ_nonempty
  have h2 : ‖f ⟨v, hv⟩‖ ≤ |⟪phi i, v⟫| := by
    rw [pi_norm_le_iff_of_nonneg (abs_nonneg _)]
    intro j
    exact hi j (Finset.mem_univ _)
  refine ⟨i, i.2, ?_⟩
  calc min 1 (1 / (K : ℝ)) * ‖v‖ ≤ 1 / K * ‖v‖ := mul_le_mul_of_nonneg_right (min_le_right _ _) (norm_nonneg _)
    _ ≤ 1 / K * (K * ‖f ⟨v, hv⟩‖) := mul_le_mul_of_nonneg_left h1 (by positivity)
    _ = ‖f ⟨v, hv⟩‖ := by field_simp
    _ ≤ _ := h2

/-- Removing from the residual a part that no atom sees does not change what a pass removes. -/
theorem mpStep_shift (phi : ℕ → E) (n : ℕ) (hn : 0 < n) (y q : E) (hq : ∀ i, i < n → ⟪phi i, q⟫ = 0) (s : MpState E) :
    ∃ (t : ℝ) (b : ℕ), b < n ∧ (mpStep phi n y s).r = s.r - t • phi b ∧
      (mpStep phi n y { s with r := s.r - q }).r = (mpStep phi n y s).r - q := by
  have e : corr ℝ phi n (s.r - q) = corr ℝ phi n s.r := by
    refine List.map_congr_left fun i hi => ?_
    rw [inner_sub_right, hq i (List.mem_range.mp hi), sub_zero]
  have hb := (best_spec phi hn s.r).1
  refine ⟨(corr ℝ phi n s.r).getD (absMaxIdx (corr ℝ phi n s.r)) 0, absMaxIdx (corr ℝ phi n s.r), hb, ?_, ?_⟩
  · simp [mpStep, absMaxIdx]
  · simp only [mpStep, e]
    abel

/-! ## Properties -/

/-- **C44** (convergence for every dictionary) for unit-norm atoms there is a constant `c > 0` which depends on the dictionary only, such that for every signal `y = p + q`, with `p` in
the span of the atoms and `q` orthogonal to them, the residual of `mp` approaches `q` at a geometric rate: `|r - q|² ≤ (1 - c²)^k |p|²` after `k` iterations. -/
theorem c44_mp_every_dictionary (phi : ℕ → E) (n : ℕ) (hn : 0 < n) (hu : ∀ i, i < n → ‖phi i‖ = 1) :
    ∃ c : ℝ, 0 < c ∧ c ≤ 1 ∧ ∀ p q : E, p ∈ Submodule.span ℝ (phi '' Set.Iio n) → (∀ i, i < n → ⟪phi i, q⟫ = 0) →
      ∀ (rtol : ℝ) (N : ℕ) (s : MpState E), Reach (mpCond (p + q) rtol N) (mpStep phi n (p + q)) (mpInit (p + q)) s →
        ‖s.r - q‖ ^ 2 ≤ (1 - c ^ 2) ^ s.iters * ‖p‖ ^ 2 ∧ ‖p - synth phi n s.x‖ ^ 2 ≤ (1 - c ^ 2) ^ s.iters * ‖p‖ ^ 2 := by
  obtain ⟨c, hc, hc1, hcov⟩ := exists_cover phi n hn
  have hc2 : 0 ≤ 1 - c ^ 2 := by nlinarith
  refine ⟨c, hc, hc1, fun p q hp hq rtol N s h => ?_⟩
  have key := h.inv (fun s => s.r - q ∈ Submodule.span ℝ (phi '' Set.Iio n) ∧ ‖s.r - q‖ ^ 2 ≤ (1 - c ^ 2) ^ s.iters * ‖p‖ ^ 2)
    (by simpa [mpInit] using hp) fun s ⟨hm, ih⟩ _ => by
    obtain ⟨t, b, hb, h1, h2⟩ := mpStep_shift phi n hn (p + q) q hq s
    refine ⟨?_, ?_⟩
    · rw [h1, show s.r - t • phi b - q = (s.r - q) - t • phi b by abel]
      exact Submodule.sub_mem _ hm (Submodule.smul_mem _ _ (Submodule.subset_span ⟨b, hb, rfl⟩))
    · obtain ⟨i, hi, h3⟩ := hcov _ hm
      have h4 := (c44_mp_decrease phi n hn hu (p + q) { s with r := s.r - q }).2.1 i hi
      rw [h2] at h4
      have h5 := pow_le_pow_left₀ (by positivity) h3 2
      rw [mul_pow, sq_abs] at h5
      have ei : (mpStep phi n (p + q) s).iters = s.iters + 1 := rfl
      rw [ei, pow_succ]
      calc _ ≤ (1 - c ^ 2) * ‖s.r - q‖ ^ 2 := by
            have h6 : ‖(mpStep phi n (p + q) s).r - q‖ ^ 2 ≤ ‖s.r - q‖ ^ 2 - ⟪phi i, s.r - q⟫ ^ 2 := h4
            linarith
        _ ≤ (1 - c ^ 2) * ((1 - c ^ 2) ^ s.iters * ‖p‖ ^ 2) := mul_le_mul_of_nonneg_left ih hc2
        _ = _ := by ring
  have hr := ((c44_mp_residual phi n hn (p + q) rtol N).1 s h).1
  refine ⟨key.2, ?_⟩
  have e : p - synth phi n s.x = s.r - q := by rw [hr]; abel
  rw [e]
  exact key.2

/-- **C44** (limit) so for every dictionary of unit-norm atoms and every signal `p + q` the approximations `Phi x` of `mp` converge to `p`, the best approximation by the atoms. -/
theorem c44_mp_limit (phi : ℕ → E) (n : ℕ) (hn : 0 < n) (hu : ∀ i, i < n → ‖phi i‖ = 1) (p q : E) (hp : p ∈ Submodule.span ℝ (phi '' Set.Iio n))
    (hq : ∀ i, i < n → ⟪phi i, q⟫ = 0) (hpq : p + q ≠ 0) (rtol : ℝ) (hr : |rtol| < 1) (r : ℕ → E)
    (h : ∀ N, ∃ s, Out (mpCond (p + q) rtol N) (mpStep phi n (p + q)) (mpInit (p + q)) s ∧ synth phi n s.x = r N) :
    Tendsto r atTop (𝓝 p) := by
  obtain ⟨c, hc, hc1, hall⟩ := c44_mp_every_dictionary phi n hn hu
  rw [tendsto_iff_norm_sub_tendsto_zero]
  have hlim : Tendsto (fun N : ℕ => (1 - c ^ 2) ^ N * ‖p‖ ^ 2) atTop (𝓝 0) := by
    have := (tendsto_pow_atTop_nhds_zero_of_lt_one (r := 1 - c ^ 2) (by nlinarith) (by nlinarith)).mul_const (‖p‖ ^ 2)
    rwa [zero_mul] at this
  have hsq : Tendsto (fun N => ‖r N - p‖ ^ 2) atTop (𝓝 0) := by
    refine squeeze_zero (fun N => by positivity) (fun N => ?_) hlim
    obtain ⟨s, ⟨hs, hns⟩, e⟩ := h N
    have h1 := (hall p q hp hq rtol N s hs).2
    rw [(c44_reported_norm phi n (p + q) rtol N s hs).2 hpq hr hns] at h1
    rw [← e, norm_sub_rev]
    exact h1
  have := hsq.sqrt
  simpa using this

/-- The two atoms `1` and `i` of the plane, the signal `3 + 4i` in their span. -/
theorem ex_dict : (∀ i, i < 2 → ‖(fun i : ℕ => if i = 0 then (1 : ℂ) else Complex.I) i‖ = 1) ∧
    (⟨3, 4⟩ : ℂ) ∈ Submodule.span ℝ ((fun i : ℕ => if i = 0 then (1 : ℂ) else Complex.I) '' Set.Iio 2) := by
  refine ⟨fun i hi => by interval_cases i <;> simp, ?_⟩
  have e : (⟨3, 4⟩ : ℂ) = (3 : ℝ) • (1 : ℂ) + (4 : ℝ) • Complex.I := by apply Complex.ext <;> simp
  rw [e]
  exact Submodule.add_mem _ (Submodule.smul_mem _ _ (Submodule.subset_span ⟨0, by simp, by simp⟩))
    (Submodule.smul_mem _ _ (Submodule.subset_span ⟨1, by simp, by simp⟩))

example := c44_mp_every_dictionary (fun i : ℕ => if i = 0 then (1 : ℂ) else Complex.I) 2 (by norm_num) ex_dict.1
/-- The limit exists: for every cap the run ends. -/
example (rtol : ℝ) (hr : |rtol| < 1) : ∃ r : ℕ → ℂ, Tendsto r atTop (𝓝 (⟨3, 4⟩ : ℂ)) := by
  have h := fun N => (c44_mp_residual (fun i : ℕ => if i = 0 then (1 : ℂ) else Complex.I) 2 (by norm_num) ((⟨3, 4⟩ : ℂ) + 0) rtol N).2
  exact ⟨_, c44_mp_limit (fun i : ℕ => if i = 0 then (1 : ℂ) else Complex.I) 2 (by norm_num) ex_dict.1 ⟨3, 4⟩ 0 ex_dict.2 (by simp)
    (fun h => by simpa using congrArg Complex.re h) rtol hr (fun N => synth _ 2 (h N).choose.x) fun N => ⟨_, (h N).choose_spec, rfl⟩⟩

end Verif.Pursuit
