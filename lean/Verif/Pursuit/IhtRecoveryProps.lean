import Verif.Pursuit.RipProps
import Mathlib.Tactic.IntervalCases
import Mathlib.Analysis.Complex.Basic
import Mathlib.Analysis.InnerProductSpace.Basic

set_option autoImplicit false
/-!
# Recovery of sparse signals by IHT and HTP (C110, C111)
-/
noncomputable section
namespace Verif.Pursuit
open Verif.Loop

variable {𝕜 : Type*} [RCLike 𝕜] {E : Type*} [NormedAddCommGroup E] [InnerProductSpace 𝕜 E]

/-- The distance of the gradient step from the signal, on the supports. -/
theorem step_bound {phi : ℕ → E} {n : ℕ} {mu : ℝ} (hmu : 0 ≤ mu) {K : ℕ} {δ : ℝ} (h : Rip 𝕜 phi n mu (3 * K) δ) (hδ : 0 ≤ δ)
    (a : ℕ → 𝕜) (S : Finset ℕ) (hS : S.card ≤ K) (ha : SuppIn n S a) (e : E)
    (I : List ℕ) (x : List 𝕜) (hI : I.length ≤ K) (T : Finset ℕ) (hT : T.card ≤ K) :
    l2 n (restr (T ∪ S) fun i =>
        (gradStep n I x mu (corr 𝕜 phi n (synth phi n a + e - synth phi n (buildSignal I x)))).getD i 0 - a i) ≤
      δ * l2 n (fun i => buildSignal I x i - a i) + Real.sqrt (mu * (1 + δ)) * ‖e‖ := by
  classical
  set b : ℕ → 𝕜 := buildSignal I x with hb
  set v : ℕ → 𝕜 := fun i => b i - a i with hv
  have hvs : SuppIn n (I.toFinset ∪ S) v := fun i hi hn => by
    simp only [Finset.mem_union, List.mem_toFinset, not_or] at hn
    simp only [hv, hb]
    rw [buildSignal_not_mem I x i hn.1, ha i hi hn.2, sub_zero]
  have hIc : I.toFinset.card ≤ K := (List.toFinset_card_le I).trans hI
  have hTU : ((T ∪ S) ∪ (I.toFinset ∪ S)).card ≤ 3 * K := by
    have e1 : (T ∪ S) ∪ (I.toFinset ∪ S) = T ∪ (S ∪ I.toFinset) := by
      ext i; simp only [Finset.mem_union]; tauto
    rw [e1]
    have := Finset.card_union_le T (S ∪ I.toFinset)
    have := Finset.card_union_le S I.toFinset
    omega
  have hTS : (T ∪ S).card ≤ 3 * K := by have := Finset.card_union_le T S; omega
  have h1 := h.grad_bound (T ∪ S) (I.toFinset ∪ S) hTU v hvs
  have h2 := h.noise_bound hmu hδ (T ∪ S) hTS e
  refine le_trans (le_of_eq ?_) ((l2_add_le n _ _).trans (add_le_add h1 h2))
  apply l2_congr
  intro i hi
  by_cases hiT : i ∈ T ∪ S
  · simp only [restr, hiT, if_true]
    rw [gradStep_getD n _ _ _ _ hi, corr_getD' _ _ _ hi]
    have er : synth phi n a + e - synth phi n b = e - synth phi n v := by
      rw [hv, synth_sub]; abel
    rw [er, inner_sub_right, hv]; ring
  · simp only [restr, hiT, if_false, add_zero]

/-- One pass of IHT from coefficients `x` on a support `I` of at most `K` atoms. -/
theorem iht_step_bound {phi : ℕ → E} {n : ℕ} {mu : ℝ} (hmu : 0 ≤ mu) {K : ℕ} (hK : K ≤ n) {δ : ℝ} (h : Rip 𝕜 phi n mu (3 * K) δ) (hδ : 0 ≤ δ)
    (a : ℕ → 𝕜) (S : Finset ℕ) (hS : S.card ≤ K) (ha : SuppIn n S a) (e : E)
    (I : List ℕ) (x : List 𝕜) (hI : I.length ≤ K) :
    let g := gradStep n I x mu (corr 𝕜 phi n (synth phi n a + e - synth phi n (buildSignal I x)))
    l2 n (fun i => buildSignal (hardThresholdK g K).1 (hardThresholdK g K).2 i - a i) ≤
      2 * δ * l2 n (fun i => buildSignal I x i - a i) + 2 * Real.sqrt (mu * (1 + δ)) * ‖e‖ := by
  intro g
  have hgl : g.length = n := gradStep_length ..
  have hsig : ∀ i, buildSignal (hardThresholdK g K).1 (hardThresholdK g K).2 i = if i ∈ largestIndices g K then g.getD i 0 else 0 :=
    fun i => buildSignal_gather g (largestIndices g K) i
  simp only [hsig]
  refine (thresh_bound g n K hgl a S hS ha).trans ?_
  obtain ⟨h1, h2, -⟩ := c51_largest_indices g K
  have := step_bound hmu h hδ a S hS ha e I x hI (largestIndices g K).toFinset (by
    rw [List.toFinset_card_of_nodup h1, h2]; exact min_le_left _ _)
  linarith

/-- **C110** IHT recovers sparse signals from noisy measurements: let the dictionary, scaled by the step size `mu`, have a restricted isometry
constant `δ` of order `3K`.  For `y = Phi a + e` with `a` supported on at most `K` entries, every iterate `x` satisfies
`|x - a| ≤ (2δ)^t |a| + 2 √(mu(1+δ)) (1 + 2δ + ... + (2δ)^(t-1)) |e|` where `t` is its iteration count. -/
theorem c110_iht_recovery (phi : ℕ → E) (n : ℕ) (mu : ℝ) (hmu : 0 ≤ mu) (K : ℕ) (hK : K ≤ n) (δ : ℝ) (hδ : 0 ≤ δ) (h : Rip 𝕜 phi n mu (3 * K) δ)
    (a : ℕ → 𝕜) (S : Finset ℕ) (hS : S.card ≤ K) (ha : SuppIn n S a) (e y : E) (hy : y = synth phi n a + e)
    (c : GState 𝕜 E → Prop) (s : GState 𝕜 E) (hs : Reach c (ihtBody phi n mu y K) (ihtInit phi n mu y K) s) :
    l2 n (fun i => buildSignal s.I s.x i - a i) ≤
      (2 * δ) ^ s.iters * l2 n a + 2 * Real.sqrt (mu * (1 + δ)) * ‖e‖ * ∑ j ∈ Finset.range s.iters, (2 * δ) ^ j := by
  have hh : (GoodState phi n y K s ∧ s.I.Nodup) ∧ l2 n (fun i => buildSignal s.I s.x i - a i) ≤
      (2 * δ) ^ s.iters * l2 n a + 2 * Real.sqrt (mu * (1 + δ)) * ‖e‖ * ∑ j ∈ Finset.range s.iters, (2 * δ) ^ j := by
    refine hs.inv (fun s => (GoodState phi n y K s ∧ s.I.Nodup) ∧ l2 n (fun i => buildSignal s.I s.x i - a i) ≤
      (2 * δ) ^ s.iters * l2 n a + 2 * Real.sqrt (mu * (1 + δ)) * ‖e‖ * ∑ j ∈ Finset.range s.iters, (2 * δ) ^ j)
      ⟨ihtInit_good phi n _ y K hK, ?_⟩ fun s ih _ => ⟨hardK_good phi n y K hK _ (gradStep_length ..) _ _, ?_⟩
    · have hb : ∀ i, buildSignal ([] : List ℕ) ([] : List 𝕜) i = 0 := fun i => rfl
      have h1 := iht_step_bound hmu hK h hδ a S hS ha e [] [] (by simp)
      have hz : synth phi n (buildSignal ([] : List ℕ) ([] : List 𝕜)) = 0 := by simp [synth, hb]
      rw [hz, sub_zero, ← hy] at h1
      have hl : l2 n (fun i => buildSignal ([] : List ℕ) ([] : List 𝕜) i - a i) = l2 n a := by
        unfold l2; simp [hb]
      rw [hl] at h1
      have it1 : (ihtInit phi n mu y K : GState 𝕜 E).iters = 1 := rfl
      rw [it1, pow_one, Finset.sum_range_one, pow_zero, mul_one]
      exact h1
    · obtain ⟨⟨hg, hn⟩, hb⟩ := ih
      have hr : s.r = synth phi n a + e - synth phi n (buildSignal s.I s.x) := by
        rw [hg.residual, lin_eq_synth phi n s.I s.x hn hg.range hg.coeff, hy]
      have h1 := iht_step_bound hmu hK h hδ a S hS ha e s.I s.x hg.size.le
      rw [← hr] at h1
      have it1 : (ihtBody phi n mu y K s).iters = s.iters + 1 := rfl
      refine le_trans h1 ?_
      rw [it1, pow_succ, Finset.sum_range_succ']
      have : ∑ k ∈ Finset.range s.iters, (2 * δ) ^ (k + 1) = 2 * δ * ∑ k ∈ Finset.range s.iters, (2 * δ) ^ k := by
        rw [Finset.mul_sum]; exact Finset.sum_congr rfl fun k _ => by rw [pow_succ]; ring
      rw [this]
      have h2 := mul_le_mul_of_nonneg_left hb (by positivity : 0 ≤ 2 * δ)
      simp only [pow_zero]
      nlinarith
  exact hh.2

/-! ## Hard thresholding pursuit -/

theorem reach_true {σ : Type*} {c : σ → Prop} {f : σ → σ} {s0 s : σ} (h : Reach c f s0 s) : Reach (fun _ => True) f s0 s := by
  induction h with
  | init => exact Reach.init
  | step _ _ ih => exact Reach.step ih trivial

theorem l2_le_of_sq_ge {n : ℕ} {z : ℕ → 𝕜} {b : ℝ} (h : b ^ 2 ≤ l2 n z ^ 2) : b ≤ l2 n z := by
  have := l2_nonneg n z
  nlinarith

/-- On the selected atoms the least-squares coefficients differ from the signal by little. -/
theorem lstsq_bound {phi : ℕ → E} {n : ℕ} {mu : ℝ} (hmu : 0 ≤ mu) {N : ℕ} {δ : ℝ} (h : Rip 𝕜 phi n mu N δ) (hδ : 0 ≤ δ)
    (a : ℕ → 𝕜) (S : Finset ℕ) (ha : SuppIn n S a) (e : E)
    (I : Finset ℕ) (hI : I.card + S.card ≤ N) (x : ℕ → 𝕜) (hx : SuppIn n I x)
    (hnorm : ∀ i ∈ I, i < n → inner 𝕜 (phi i) (synth phi n a + e - synth phi n x) = 0) :
    l2 n (restr I fun i => x i - a i) ≤ δ * l2 n (fun i => x i - a i) + Real.sqrt (mu * (1 + δ)) * ‖e‖ := by
  classical
  set v : ℕ → 𝕜 := fun i => x i - a i with hv
  have hvs : SuppIn n (I ∪ S) v := fun i hi hn => by
    simp only [Finset.mem_union, not_or] at hn
    simp only [hv]
    rw [hx i hi hn.1, ha i hi hn.2, sub_zero]
  have hIS : (I ∪ (I ∪ S)).card ≤ N := by
    rw [← Finset.union_assoc, Finset.union_self]
    have := Finset.card_union_le I S
    omega
  have h1 := h.grad_bound I (I ∪ S) hIS v hvs
  have h2 := h.noise_bound hmu hδ I (by omega) e
  refine le_trans (le_of_eq ?_) ((l2_add_le n _ _).trans (add_le_add h1 h2))
  apply l2_congr
  intro i hi
  by_cases hiI : i ∈ I
  · simp only [restr, hiI, if_true]
    have h3 := hnorm i hiI hi
    have er : synth phi n a + e - synth phi n x = e - synth phi n v := by
      rw [hv, synth_sub]; abel
    rw [er, inner_sub_right, sub_eq_zero] at h3
    rw [h3]; ring
  · simp only [restr, hiI, if_false, add_zero]

/-- Solving the quadratic inequality of the error. -/
theorem quad_solve {D t q δ : ℝ} (hδ : 0 ≤ δ) (hδ1 : δ < 1) (ht : 0 ≤ t) (hq : 0 ≤ q) (hD : 0 ≤ D) (h : D ^ 2 ≤ (δ * D + t) ^ 2 + q ^ 2) :
    D ≤ q / Real.sqrt (1 - δ ^ 2) + t / (1 - δ) := by
  have h1 : 0 < 1 - δ := by linarith
  have h2 : 0 < 1 - δ ^ 2 := by nlinarith
  have hs : 0 < Real.sqrt (1 - δ ^ 2) := Real.sqrt_pos.2 h2
  by_contra hcon
  push Not at hcon
  set z := D - t / (1 - δ) with hz
  have hz1 : q / Real.sqrt (1 - δ ^ 2) < z := by linarith
  have hzpos : 0 < z := lt_of_le_of_lt (div_nonneg hq hs.le) hz1
  have hz2 : q < z * Real.sqrt (1 - δ ^ 2) := by rwa [div_lt_iff₀ hs] at hz1
  have hz3 : q ^ 2 < z ^ 2 * (1 - δ ^ 2) := by
    have := pow_lt_pow_left₀ hz2 hq two_ne_zero
    rwa [mul_pow, Real.sq_sqrt h2.le] at this
  have hDe : D = t / (1 - δ) + z := by rw [hz]; ring
  -- `D - t = α + z`, `δ D = α + δ z`
  set α := δ * t / (1 - δ) with hα
  have hα0 : 0 ≤ α := div_nonneg (mul_nonneg hδ ht) h1.le
  have e2 : δ * D + t = α + δ * z + t := by rw [hDe, hα]; field_simp
  have e1 : D = t + (α + z) := by rw [hDe, hα]; field_simp; ring
  rw [e2] at h
  rw [e1] at h
  nlinarith [mul_nonneg hα0 hzpos.le, mul_nonneg ht hzpos.le, mul_nonneg (mul_nonneg hα0 hzpos.le) h1.le, mul_nonneg (mul_nonneg ht hzpos.le) h1.le]

/-- What one pass of HTP does: the next state is `lstsq` on the `K` largest entries of the gradient step. -/
theorem htp_pass {phi : ℕ → E} {n : ℕ} {mu : ℝ} (hmu : 0 ≤ mu) {K : ℕ} (hK : K ≤ n) {δ : ℝ} (h : Rip 𝕜 phi n mu (3 * K) δ) (hδ : 0 ≤ δ)
    (lstsq : List ℕ → E → List 𝕜) (a : ℕ → 𝕜) (S : Finset ℕ) (hS : S.card ≤ K) (hSn : ∀ i ∈ S, i < n) (ha : SuppIn n S a) (e y : E)
    (hy : y = synth phi n a + e) (hl : ∀ I, IsLstsq phi I y (lstsq I y)) (s : GState 𝕜 E) (hg : GoodState phi n y K s) (hn : s.I.Nodup) :
    let s' := htpBody phi n mu lstsq y K s
    l2 n (restr (S \ s'.I.toFinset) a) ≤
        Real.sqrt 2 * (δ * l2 n (fun i => buildSignal s.I s.x i - a i) + Real.sqrt (mu * (1 + δ)) * ‖e‖) ∧
      l2 n (restr s'.I.toFinset fun i => buildSignal s'.I s'.x i - a i) ≤
        δ * l2 n (fun i => buildSignal s'.I s'.x i - a i) + Real.sqrt (mu * (1 + δ)) * ‖e‖ ∧
      l2 n (fun i => buildSignal s'.I s'.x i - a i) ^ 2 =
        l2 n (restr s'.I.toFinset fun i => buildSignal s'.I s'.x i - a i) ^ 2 + l2 n (restr (S \ s'.I.toFinset) a) ^ 2 := by
  classical
  intro s'
  have hr : s.r = synth phi n a + e - synth phi n (buildSignal s.I s.x) := by
    rw [hg.residual, lin_eq_synth phi n s.I s.x hn hg.range hg.coeff, hy]
  set g := gradStep n s.I s.x mu (corr 𝕜 phi n s.r) with hgd
  have hgl : g.length = n := gradStep_length ..
  obtain ⟨h1, h2, h3, -⟩ := c51_largest_indices g K
  rw [hgl] at h2 h3
  have hp := (c51_hard_threshold_sorted g K).1
  have hI : s'.I = (hardThresholdSorted g K).1 := rfl
  have hset : s'.I.toFinset = (largestIndices g K).toFinset := by
    ext i; rw [List.mem_toFinset, List.mem_toFinset, hI, hp.mem_iff]; rfl
  have hnd : s'.I.Nodup := by rw [hI, hp.nodup_iff]; exact h1
  have hlen : s'.I.length = K := by rw [hI, hp.length_eq]; show (largestIndices g K).length = K; omega
  have hran : ∀ i ∈ s'.I, i < n := by rw [hI]; exact fun i hi => h3 i (hp.mem_iff.mp hi)
  have hcard : s'.I.toFinset.card ≤ K := (List.toFinset_card_le _).trans hlen.le
  have hx' : s'.x = lstsq s'.I y := rfl
  have hlin : lin phi s'.I s'.x = synth phi n (buildSignal s'.I s'.x) :=
    lin_eq_synth phi n _ _ hnd hran (by rw [hx']; exact (hl _).length)
  refine ⟨?_, ?_, ?_⟩
  · rw [hset]
    refine (missed_bound g n K hgl a S hS hSn ha).trans ?_
    have := step_bound hmu h hδ a S hS ha e s.I s.x hg.size.le (largestIndices g K).toFinset (by rw [← hset]; exact hcard)
    rw [← hr] at this
    exact mul_le_mul_of_nonneg_left this (Real.sqrt_nonneg _)
  · refine lstsq_bound hmu h hδ a S ha e s'.I.toFinset (by omega) _ (fun i _ hi => buildSignal_not_mem _ _ _ (by simpa using hi)) fun i hi _ => ?_
    rw [← hlin, ← hy, hx']
    exact (hl _).normal i (by simpa using hi)
  · rw [restr_split n s'.I.toFinset]
    congr 1
    rw [restr_sq]
    have hnot : ∀ i, i ∉ s'.I → buildSignal s'.I s'.x i = 0 := fun i hi => buildSignal_not_mem _ _ _ hi
    have e1 : ∑ i ∈ (Finset.range n).filter (· ∉ s'.I.toFinset), ‖buildSignal s'.I s'.x i - a i‖ ^ 2
        = ∑ i ∈ (Finset.range n).filter (· ∉ s'.I.toFinset), ‖a i‖ ^ 2 := by
      refine Finset.sum_congr rfl fun i hi => ?_
      simp only [Finset.mem_filter, List.mem_toFinset] at hi
      rw [hnot i hi.2, zero_sub, norm_neg]
    rw [e1]
    symm
    refine Finset.sum_subset (fun i hi => ?_) fun i hi hi' => ?_
    · simp only [Finset.mem_filter, Finset.mem_sdiff] at hi ⊢; exact ⟨hi.1, hi.2.2⟩
    · simp only [Finset.mem_filter, Finset.mem_range, Finset.mem_sdiff, not_and, not_not] at hi hi'
      have : i ∉ S := fun hiS => hi.2 (hi' hi.1 hiS)
      rw [ha i hi.1 this]; simp

/-- **C111** HTP recovers sparse signals from noisy measurements: under the same restricted isometry property with `δ < 1`, every pass maps the
error `|x - a|` to at most `ρ |x - a| + τ |e|` with `ρ = √2 δ / √(1 - δ²)` (less than one for `δ² < 1/3`) and
`τ = (√2/√(1-δ²) + 1/(1-δ)) √(mu(1+δ))`. -/
theorem c111_htp_contraction (phi : ℕ → E) (n : ℕ) (mu : ℝ) (hmu : 0 ≤ mu) (K : ℕ) (hK : K ≤ n) (δ : ℝ) (hδ : 0 ≤ δ) (hδ1 : δ < 1)
    (h : Rip 𝕜 phi n mu (3 * K) δ) (lstsq : List ℕ → E → List 𝕜) (a : ℕ → 𝕜) (S : Finset ℕ) (hS : S.card ≤ K) (hSn : ∀ i ∈ S, i < n)
    (ha : SuppIn n S a) (e y : E) (hy : y = synth phi n a + e) (hl : ∀ I, IsLstsq phi I y (lstsq I y))
    (c : GState 𝕜 E → Prop) (s : GState 𝕜 E) (hs : Reach c (htpBody phi n mu lstsq y K) (ihtInit phi n mu y K) s) :
    let s' := htpBody phi n mu lstsq y K s
    l2 n (fun i => buildSignal s'.I s'.x i - a i) ≤
      Real.sqrt 2 * δ / Real.sqrt (1 - δ ^ 2) * l2 n (fun i => buildSignal s.I s.x i - a i) +
      (Real.sqrt 2 / Real.sqrt (1 - δ ^ 2) + 1 / (1 - δ)) * Real.sqrt (mu * (1 + δ)) * ‖e‖ := by
  intro s'
  obtain ⟨hg, hn, -⟩ := c49_htp_state phi n mu lstsq y K hl hK c s hs
  obtain ⟨h1, h2, h3⟩ := htp_pass hmu hK h hδ lstsq a S hS hSn ha e y hy hl s hg hn
  set D := l2 n (fun i => buildSignal s'.I s'.x i - a i) with hD
  set d := l2 n (fun i => buildSignal s.I s.x i - a i) with hd
  set t := Real.sqrt (mu * (1 + δ)) * ‖e‖ with ht
  have ht0 : 0 ≤ t := by positivity
  have hq : 0 ≤ Real.sqrt 2 * (δ * d + t) := mul_nonneg (Real.sqrt_nonneg _) (add_nonneg (mul_nonneg hδ (l2_nonneg _ _)) ht0)
  have hquad : D ^ 2 ≤ (δ * D + t) ^ 2 + (Real.sqrt 2 * (δ * d + t)) ^ 2 := by
    have := pow_le_pow_left₀ (l2_nonneg _ _) h1 2
    have := pow_le_pow_left₀ (l2_nonneg _ _) h2 2
    linarith
  refine (quad_solve hδ hδ1 ht0 hq (l2_nonneg _ _) hquad).trans_eq ?_
  rw [mul_assoc _ (Real.sqrt (mu * (1 + δ))), ← ht]
  ring

/-- **C111** The error of every HTP state with iteration count `t + 1`, for `ρ = √2 δ / √(1 - δ²)`: at most `ρ^t (2δ|a| + 2√(mu(1+δ))|e|)` plus the
accumulated noise `τ (1 + ρ + ... + ρ^(t-1)) |e|`. -/
theorem c111_htp_recovery (phi : ℕ → E) (n : ℕ) (mu : ℝ) (hmu : 0 ≤ mu) (K : ℕ) (hK : K ≤ n) (δ : ℝ) (hδ : 0 ≤ δ) (hδ1 : δ < 1)
    (h : Rip 𝕜 phi n mu (3 * K) δ) (lstsq : List ℕ → E → List 𝕜) (a : ℕ → 𝕜) (S : Finset ℕ) (hS : S.card ≤ K) (hSn : ∀ i ∈ S, i < n)
    (ha : SuppIn n S a) (e y : E) (hy : y = synth phi n a + e) (hl : ∀ I, IsLstsq phi I y (lstsq I y))
    (c : GState 𝕜 E → Prop) (s : GState 𝕜 E) (hs : Reach c (htpBody phi n mu lstsq y K) (ihtInit phi n mu y K) s) :
    let ρ := Real.sqrt 2 * δ / Real.sqrt (1 - δ ^ 2)
    let τ := (Real.sqrt 2 / Real.sqrt (1 - δ ^ 2) + 1 / (1 - δ)) * Real.sqrt (mu * (1 + δ))
    1 ≤ s.iters ∧ l2 n (fun i => buildSignal s.I s.x i - a i) ≤
      ρ ^ (s.iters - 1) * (2 * δ * l2 n a + 2 * Real.sqrt (mu * (1 + δ)) * ‖e‖) + τ * ‖e‖ * ∑ j ∈ Finset.range (s.iters - 1), ρ ^ j := by
  intro ρ τ
  have hρ : 0 ≤ ρ := div_nonneg (mul_nonneg (Real.sqrt_nonneg _) hδ) (Real.sqrt_nonneg _)
  have hh : Reach c (htpBody phi n mu lstsq y K) (ihtInit phi n mu y K) s ∧ 1 ≤ s.iters ∧
      l2 n (fun i => buildSignal s.I s.x i - a i) ≤
      ρ ^ (s.iters - 1) * (2 * δ * l2 n a + 2 * Real.sqrt (mu * (1 + δ)) * ‖e‖) + τ * ‖e‖ * ∑ j ∈ Finset.range (s.iters - 1), ρ ^ j := by
    refine ⟨hs, ?_⟩
    induction hs with
    | init =>
      refine ⟨le_rfl, ?_⟩
      have := c110_iht_recovery phi n mu hmu K hK δ hδ h a S hS ha e y hy (fun _ => False) _ Reach.init
      have it1 : (ihtInit phi n mu y K : GState 𝕜 E).iters = 1 := rfl
      rw [it1] at this ⊢
      simpa using this
    | step hr hc ih =>
      rename_i s
      obtain ⟨i1, i2⟩ := ih
      have it1 : (htpBody phi n mu lstsq y K s).iters = s.iters + 1 := rfl
      refine ⟨by rw [it1]; omega, ?_⟩
      have h1 := c111_htp_contraction phi n mu hmu K hK δ hδ hδ1 h lstsq a S hS hSn ha e y hy hl c s hr
      refine h1.trans ?_
      have h2 := mul_le_mul_of_nonneg_left i2 hρ
      rw [it1]
      obtain ⟨k, hk⟩ : ∃ k, s.iters = k + 1 := ⟨s.iters - 1, by omega⟩
      rw [hk] at h2 ⊢
      simp only [Nat.add_sub_cancel] at h2 ⊢
      rw [pow_succ ρ k, Finset.sum_range_succ']
      have e3 : ∑ j ∈ Finset.range k, ρ ^ (j + 1) = ρ * ∑ j ∈ Finset.range k, ρ ^ j := by
        rw [Finset.mul_sum]; exact Finset.sum_congr rfl fun j _ => by rw [pow_succ]; ring
      rw [e3, pow_zero]
      have e4 : Real.sqrt 2 * δ / Real.sqrt (1 - δ ^ 2) = ρ := rfl
      have e5 : (Real.sqrt 2 / Real.sqrt (1 - δ ^ 2) + 1 / (1 - δ)) * Real.sqrt (mu * (1 + δ)) = τ := rfl
      rw [e4, e5]
      nlinarith
  exact hh.2

/-- **C111** Exact recovery in finitely many passes: without noise, once `√2 δ |x - a|` is below the smallest non-zero magnitude of `a`, the next
state is the signal itself: its support contains that of `a`, its coefficients are those of `a` and its residual is zero. -/
theorem c111_htp_exact (phi : ℕ → E) (n : ℕ) (mu : ℝ) (hmu : 0 ≤ mu) (K : ℕ) (hK : K ≤ n) (δ : ℝ) (hδ : 0 ≤ δ) (hδ1 : δ < 1)
    (h : Rip 𝕜 phi n mu (3 * K) δ) (lstsq : List ℕ → E → List 𝕜) (a : ℕ → 𝕜) (S : Finset ℕ) (hS : S.card ≤ K) (hSn : ∀ i ∈ S, i < n)
    (ha : SuppIn n S a) (y : E) (hy : y = synth phi n a) (hl : ∀ I, IsLstsq phi I y (lstsq I y))
    (c : GState 𝕜 E → Prop) (s : GState 𝕜 E) (hs : Reach c (htpBody phi n mu lstsq y K) (ihtInit phi n mu y K) s)
    (hclose : ∀ i ∈ S, Real.sqrt 2 * (δ * l2 n (fun i => buildSignal s.I s.x i - a i)) < ‖a i‖) :
    let s' := htpBody phi n mu lstsq y K s
    (∀ i ∈ S, i ∈ s'.I) ∧ (∀ i, i < n → buildSignal s'.I s'.x i = a i) ∧ s'.r = 0 := by
  classical
  intro s'
  obtain ⟨hg, hn, -⟩ := c49_htp_state phi n mu lstsq y K hl hK c s hs
  obtain ⟨h1, h2, h3⟩ := htp_pass hmu hK h hδ lstsq a S hS hSn ha 0 y (by rw [hy, add_zero]) hl s hg hn
  have hs1 : Reach (fun _ => True) (htpBody phi n mu lstsq y K) (ihtInit phi n mu y K) s' :=
    Reach.step (reach_true hs) trivial
  obtain ⟨hg', hn', -⟩ := c49_htp_state phi n mu lstsq y K hl hK _ s' hs1
  simp only [norm_zero, mul_zero, add_zero] at h1 h2
  have hin : ∀ i ∈ S, i ∈ s'.I := fun i hi => by
    by_contra hni
    have h4 : ‖a i‖ ≤ l2 n (restr (S \ s'.I.toFinset) a) := by
      apply l2_le_of_sq_ge
      rw [restr_sq]
      refine Finset.single_le_sum (f := fun i => ‖a i‖ ^ 2) (fun j _ => sq_nonneg _) ?_
      simp only [Finset.mem_filter, Finset.mem_range, Finset.mem_sdiff, List.mem_toFinset]
      exact ⟨hSn i hi, hi, hni⟩
    have := hclose i hi
    linarith
  have hmiss : l2 n (restr (S \ s'.I.toFinset) a) ^ 2 = 0 := by
    rw [restr_sq]
    refine Finset.sum_eq_zero fun i hi => ?_
    simp only [Finset.mem_filter, Finset.mem_sdiff, List.mem_toFinset] at hi
    exact absurd (hin i hi.2.1) hi.2.2
  rw [hmiss, add_zero] at h3
  have hD : l2 n (fun i => buildSignal s'.I s'.x i - a i) = 0 := by
    have := (sq_eq_sq₀ (l2_nonneg _ _) (l2_nonneg _ _)).mp h3
    have h0 := l2_nonneg n (fun i => buildSignal s'.I s'.x i - a i)
    nlinarith
  have heq : ∀ i, i < n → buildSignal s'.I s'.x i = a i := fun i hi => by
    have h5 : ‖buildSignal s'.I s'.x i - a i‖ ^ 2 ≤ l2 n (fun i => buildSignal s'.I s'.x i - a i) ^ 2 := by
      rw [l2_sq]
      exact Finset.single_le_sum (f := fun i => ‖buildSignal s'.I s'.x i - a i‖ ^ 2) (fun j _ => sq_nonneg _) (Finset.mem_range.mpr hi)
    rw [hD] at h5
    have h6 : ‖buildSignal s'.I s'.x i - a i‖ = 0 := by
      have := norm_nonneg (buildSignal s'.I s'.x i - a i)
      nlinarith
    exact sub_eq_zero.mp (norm_eq_zero.mp h6)
  refine ⟨hin, heq, ?_⟩
  rw [hg'.residual, lin_eq_synth phi n _ _ hn' hg'.range hg'.coeff, hy]
  unfold synth
  rw [sub_eq_zero]
  exact Finset.sum_congr rfl fun i hi => by rw [heq i (Finset.mem_range.mp hi)]

/-- **C111** The number of passes HTP needs without noise: a state after `t ≥ 2` iterations is the signal itself as soon as
`√2 δ ρ^(t-2) 2δ |a|` is below the smallest non-zero magnitude of `a`. -/
theorem c111_htp_finite (phi : ℕ → E) (n : ℕ) (mu : ℝ) (hmu : 0 ≤ mu) (K : ℕ) (hK : K ≤ n) (δ : ℝ) (hδ : 0 ≤ δ) (hδ1 : δ < 1)
    (h : Rip 𝕜 phi n mu (3 * K) δ) (lstsq : List ℕ → E → List 𝕜) (a : ℕ → 𝕜) (S : Finset ℕ) (hS : S.card ≤ K) (hSn : ∀ i ∈ S, i < n)
    (ha : SuppIn n S a) (y : E) (hy : y = synth phi n a) (hl : ∀ I, IsLstsq phi I y (lstsq I y))
    (c : GState 𝕜 E → Prop) (s : GState 𝕜 E) (hs : Reach c (htpBody phi n mu lstsq y K) (ihtInit phi n mu y K) s)
    (h2 : 2 ≤ s.iters)
    (hclose : ∀ i ∈ S, Real.sqrt 2 * (δ * ((Real.sqrt 2 * δ / Real.sqrt (1 - δ ^ 2)) ^ (s.iters - 2) * (2 * δ * l2 n a))) < ‖a i‖) :
    (∀ i ∈ S, i ∈ s.I) ∧ (∀ i, i < n → buildSignal s.I s.x i = a i) ∧ s.r = 0 := by
  cases hs with
  | init => exact absurd h2 (by show ¬ 2 ≤ 1; omega)
  | step hr hc =>
    rename_i s
    have it1 : (htpBody phi n mu lstsq y K s).iters = s.iters + 1 := rfl
    obtain ⟨-, hb⟩ := c111_htp_recovery phi n mu hmu K hK δ hδ hδ1 h lstsq a S hS hSn ha 0 y (by rw [hy, add_zero]) hl c s hr
    simp only [norm_zero, mul_zero, zero_mul, add_zero] at hb
    refine c111_htp_exact phi n mu hmu K hK δ hδ hδ1 h lstsq a S hS hSn ha y hy hl c s hr fun i hi => lt_of_le_of_lt ?_ (hclose i hi)
    rw [it1, show s.iters + 1 - 2 = s.iters - 1 by omega]
    exact mul_le_mul_of_nonneg_left (mul_le_mul_of_nonneg_left hb hδ) (Real.sqrt_nonneg _)

/-- An orthonormal dictionary has every restricted isometry constant equal to `|mu - 1|`. -/
theorem rip_orthonormal {phi : ℕ → E} {n : ℕ} (h1 : ∀ i j, i < n → j < n → inner 𝕜 (phi i) (phi j) = if i = j then (1 : 𝕜) else 0)
    (mu : ℝ) (s : ℕ) : Rip 𝕜 phi n mu s |mu - 1| := by
  intro z T _ _
  have hn : ‖synth phi n z‖ ^ 2 = l2 n z ^ 2 := by
    rw [l2_sq, ← inner_self_eq_norm_sq (𝕜 := 𝕜)]
    unfold synth
    rw [sum_inner, map_sum]
    refine Finset.sum_congr rfl fun i hi => ?_
    rw [inner_sum, Finset.sum_eq_single i]
    · rw [inner_smul_left, inner_smul_right, h1 i i (Finset.mem_range.mp hi) (Finset.mem_range.mp hi), if_pos rfl, mul_one, RCLike.conj_mul]
      norm_cast
    · intro j hj hij
      rw [inner_smul_left, inner_smul_right, h1 i j (Finset.mem_range.mp hi) (Finset.mem_range.mp hj), if_neg (Ne.symm hij), mul_zero, mul_zero]
    · intro h; exact absurd hi h
  rw [hn, show mu * l2 n z ^ 2 - l2 n z ^ 2 = (mu - 1) * l2 n z ^ 2 by ring, abs_mul, abs_of_nonneg (sq_nonneg (l2 n z))]

/-- The hypotheses are met by the orthonormal pair `1, i` of the plane with step `9/10` (so `δ = 1/10`), one atom and the signal `(3, 0)`; after two
iterations the closeness test of `c111_htp_finite` holds. -/
theorem ex_case : Rip ℝ (fun i => if i = 0 then (1 : ℂ) else Complex.I) 2 (9 / 10) (3 * 1) (1 / 10) ∧
    SuppIn 2 {0} (fun i => if i = 0 then (3 : ℝ) else 0) ∧ ({0} : Finset ℕ).card ≤ 1 ∧
    ∀ i ∈ ({0} : Finset ℕ), Real.sqrt 2 * (1 / 10 * ((Real.sqrt 2 * (1 / 10) / Real.sqrt (1 - (1 / 10) ^ 2)) ^ (2 - 2) *
      (2 * (1 / 10) * l2 2 (fun i => if i = 0 then (3 : ℝ) else 0)))) < ‖(if i = 0 then (3 : ℝ) else 0)‖ := by
  refine ⟨?_, fun i hi hn => ?_, by simp, ?_⟩
  · have := rip_orthonormal (𝕜 := ℝ) (phi := fun i => if i = 0 then (1 : ℂ) else Complex.I) (n := 2)
      (fun i j hi hj => by interval_cases i <;> interval_cases j <;> simp [Complex.inner]) (9 / 10) (3 * 1)
    rwa [show |(9 / 10 : ℝ) - 1| = 1 / 10 by rw [abs_of_nonpos] <;> norm_num] at this
  · simp at hn; simp [hn]
  · intro i hi
    simp at hi
    subst hi
    have hl : l2 2 (fun i => if i = 0 then (3 : ℝ) else 0) = 3 := by
      unfold l2
      rw [show ∑ i ∈ Finset.range 2, ‖(fun i => if i = 0 then (3 : ℝ) else 0) i‖ ^ 2 = 3 ^ 2 by
        rw [Finset.sum_range_succ, Finset.sum_range_one]; norm_num]
      exact Real.sqrt_sq (by norm_num)
    rw [hl]
    have hs : Real.sqrt 2 ≤ 2 := by
      rw [Real.sqrt_le_left (by norm_num)]; norm_num
    norm_num
    linarith

/-! Instances: the orthonormal pair `1`, `i` with step `9/10` (`delta = 1/10`) and a one-sparse signal. -/

example (e : ℂ) := c110_iht_recovery (𝕜 := ℝ) _ 2 (9 / 10) (by norm_num) 1 (by norm_num) (1 / 10) (by norm_num) ex_case.1 _ {0} ex_case.2.2.1 ex_case.2.1 e _ rfl
  (fun _ => True) _ .init
example (e : ℂ) := c111_htp_contraction (𝕜 := ℝ) _ 2 (9 / 10) (by norm_num) 1 (by norm_num) (1 / 10) (by norm_num) (by norm_num) ex_case.1 (exLst _) _ {0} ex_case.2.2.1 (by simp)
  ex_case.2.1 e _ rfl (fun I => exLst_ok _ I _) (fun _ => True) _ .init
example (e : ℂ) := c111_htp_recovery (𝕜 := ℝ) _ 2 (9 / 10) (by norm_num) 1 (by norm_num) (1 / 10) (by norm_num) (by norm_num) ex_case.1 (exLst _) _ {0} ex_case.2.2.1 (by simp)
  ex_case.2.1 e _ rfl (fun I => exLst_ok _ I _) (fun _ => True) _ .init

/-- The second iterate already holds the signal. -/
example : (htpBody (fun i => if i = 0 then (1 : ℂ) else Complex.I) 2 (9 / 10) (exLst (𝕜 := ℝ) fun i => if i = 0 then (1 : ℂ) else Complex.I)
    (synth (fun i => if i = 0 then (1 : ℂ) else Complex.I) 2 fun i => if i = 0 then (3 : ℝ) else 0) 1
    (ihtInit (fun i => if i = 0 then (1 : ℂ) else Complex.I) 2 (9 / 10) (synth (fun i => if i = 0 then (1 : ℂ) else Complex.I) 2 fun i => if i = 0 then (3 : ℝ) else 0) 1)).r = 0 :=
  (c111_htp_finite (𝕜 := ℝ) _ 2 (9 / 10) (by norm_num) 1 (by norm_num) (1 / 10) (by norm_num) (by norm_num) ex_case.1 (exLst _) _ {0} ex_case.2.2.1 (by simp)
    ex_case.2.1 _ rfl (fun I => exLst_ok _ I _) (fun _ => True) _ (.step .init trivial) le_rfl ex_case.2.2.2).2.2

example (s) (hs : Reach (fun _ => True) (htpBody (fun i => if i = 0 then (1 : ℂ) else Complex.I) 2 (9 / 10) (exLst (𝕜 := ℝ) fun i => if i = 0 then (1 : ℂ) else Complex.I)
    (synth (fun i => if i = 0 then (1 : ℂ) else Complex.I) 2 fun i => if i = 0 then (3 : ℝ) else 0) 1)
    (ihtInit (fun i => if i = 0 then (1 : ℂ) else Complex.I) 2 (9 / 10) (synth (fun i => if i = 0 then (1 : ℂ) else Complex.I) 2 fun i => if i = 0 then (3 : ℝ) else 0) 1) s) :=
  c111_htp_exact (𝕜 := ℝ) _ 2 (9 / 10) (by norm_num) 1 (by norm_num) (1 / 10) (by norm_num) (by norm_num) ex_case.1 (exLst _) _ {0} ex_case.2.2.1 (by simp)
    ex_case.2.1 _ rfl (fun I => exLst_ok _ I _) (fun _ => True) s hs

end Verif.Pursuit
