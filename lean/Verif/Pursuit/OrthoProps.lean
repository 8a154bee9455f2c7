import Verif.Pursuit.SolutionProps
import Verif.Pursuit.SparseMinProps
import Verif.Pursuit.OmpProps
import Verif.Pursuit.MpProps
import Verif.Pursuit.NormalizedProps

set_option autoImplicit false
/-!
# C154: greedy pursuits on an orthonormal dictionary

There the best `K`-term approximation of any data is known: keep the `K` largest correlations.
-/
noncomputable section
namespace Verif.Pursuit
open Verif.Loop

variable {𝕜 : Type*} [RCLike 𝕜] {E : Type*} [NormedAddCommGroup E] [InnerProductSpace 𝕜 E]

/-- The first `n` atoms are orthonormal. -/
def OrthoDict (𝕜 : Type*) [RCLike 𝕜] {E : Type*} [NormedAddCommGroup E] [InnerProductSpace 𝕜 E] (phi : ℕ → E) (n : ℕ) : Prop :=
  ∀ i j, i < n → j < n → inner 𝕜 (phi i) (phi j) = if i = j then (1 : 𝕜) else 0

theorem OrthoDict.inner_synth {phi : ℕ → E} {n : ℕ} (h : OrthoDict 𝕜 phi n) (z : ℕ → 𝕜) {i : ℕ} (hi : i < n) : inner 𝕜 (phi i) (synth phi n z) = z i := by
  rw [synth, inner_sum, Finset.sum_eq_single i]
  · rw [inner_smul_right, h i i hi hi, if_pos rfl, mul_one]
  · intro j hj hij
    rw [inner_smul_right, h i j hi (Finset.mem_range.mp hj), if_neg (Ne.symm hij), mul_zero]
  · intro hn; exact absurd (Finset.mem_range.mpr hi) hn

/-- The squared error of an approximation is a constant plus the squared error of its coefficients. -/
theorem OrthoDict.error {phi : ℕ → E} {n : ℕ} (h : OrthoDict 𝕜 phi n) (y : E) (z : ℕ → 𝕜) :
    ‖y - synth phi n z‖ ^ 2 = ‖y - synth phi n fun i => inner 𝕜 (phi i) y‖ ^ 2 + ∑ i ∈ Finset.range n, ‖inner 𝕜 (phi i) y - z i‖ ^ 2 := by
  set c : ℕ → 𝕜 := fun i => inner 𝕜 (phi i) y with hc
  have e : y - synth phi n z = (y - synth phi n c) + synth phi n (fun i => c i - z i) := by
    simp only [synth, sub_smul, Finset.sum_sub_distrib]; abel
  have ho : inner 𝕜 (y - synth phi n c) (synth phi n (fun i => c i - z i)) = 0 := by
    conv_lhs => rw [synth.eq_def phi n (fun i => c i - z i)]
    rw [inner_sum]
    refine Finset.sum_eq_zero fun i hi => ?_
    have hi' := Finset.mem_range.mp hi
    have : inner 𝕜 (phi i) (y - synth phi n c) = 0 := by rw [inner_sub_right, h.inner_synth c hi', hc, sub_self]
    rw [inner_smul_right, ← inner_conj_symm, this, map_zero, mul_zero]
  have hn : ‖synth phi n (fun i => c i - z i)‖ ^ 2 = ∑ i ∈ Finset.range n, ‖c i - z i‖ ^ 2 := by
    rw [← inner_self_eq_norm_sq (𝕜 := 𝕜)]
    conv_lhs => rw [synth]
    rw [sum_inner, map_sum]
    refine Finset.sum_congr rfl fun i hi => ?_
    rw [inner_smul_left]
    have := h.inner_synth (fun i => c i - z i) (Finset.mem_range.mp hi)
    unfold synth at this
    rw [this, RCLike.conj_mul]
    norm_cast
  rw [e, @norm_add_sq 𝕜 _ _ _ _ (y - synth phi n c), ho, map_zero, mul_zero, add_zero, hn]

/-- Keeping dominating coefficients is a best approximation. -/
theorem OrthoDict.best {phi : ℕ → E} {n : ℕ} (h : OrthoDict 𝕜 phi n) (y : E) (K : ℕ) (S : Finset ℕ) (hS : S ⊆ Finset.range n) (hK : S.card = K) (z : ℕ → 𝕜)
    (hz : ∀ i ∈ S, z i = inner 𝕜 (phi i) y) (hz0 : ∀ i, i ∉ S → z i = 0)
    (hdom : ∀ i ∈ S, ∀ j, j < n → j ∉ S → ‖inner 𝕜 (phi j) y‖ ≤ ‖inner 𝕜 (phi i) y‖) : SparseMin phi n y K z := by
  classical
  refine ⟨⟨S, hS, hK.le, hz0⟩, fun w hw => ?_⟩
  obtain ⟨T, hT, hTK, hw0⟩ := hw
  refine abs_le_of_sq_le_sq' ?_ (norm_nonneg _) |>.2
  rw [h.error y z, h.error y w]
  refine add_le_add le_rfl ?_
  set a : ℕ → ℝ := fun i => ‖inner 𝕜 (phi i) y‖ ^ 2 with ha
  have e1 : ∑ i ∈ Finset.range n, ‖inner 𝕜 (phi i) y - z i‖ ^ 2 = ∑ i ∈ Finset.range n \ S, a i := by
    rw [← Finset.sum_sdiff hS, Finset.sum_eq_zero (s := S) fun i hi => by rw [hz i hi, sub_self, norm_zero]; norm_num, add_zero]
    refine Finset.sum_congr rfl fun i hi => ?_
    rw [hz0 i (Finset.mem_sdiff.mp hi).2, sub_zero]
  have e2 : ∑ i ∈ Finset.range n \ T, a i ≤ ∑ i ∈ Finset.range n, ‖inner 𝕜 (phi i) y - w i‖ ^ 2 := by
    rw [← Finset.sum_sdiff hT]
    refine le_add_of_le_of_nonneg (le_of_eq (Finset.sum_congr rfl fun i hi => ?_)) (Finset.sum_nonneg fun i _ => by positivity)
    rw [hw0 i (Finset.mem_sdiff.mp hi).2, sub_zero]
  rw [e1]
  refine le_trans ?_ e2
  have key : ∑ i ∈ T \ S, a i ≤ ∑ i ∈ S \ T, a i := by
    have hcard : (T \ S).card ≤ (S \ T).card := by
      have h1 := Finset.card_sdiff_add_card_inter T S
      have h2 := Finset.card_sdiff_add_card_inter S T
      rw [Finset.inter_comm] at h2
      omega
    rcases (T \ S).eq_empty_or_nonempty with he | ⟨j0, hj0⟩
    · rw [he, Finset.sum_empty]; exact Finset.sum_nonneg fun i _ => by positivity
    · have hne : (S \ T).Nonempty := Finset.card_pos.1 (lt_of_lt_of_le (Finset.card_pos.2 ⟨j0, hj0⟩) hcard)
      obtain ⟨m, hm, hmin⟩ := Finset.exists_min_image (S \ T) a hne
      have h1 : ∑ i ∈ T \ S, a i ≤ (T \ S).card • a m := Finset.sum_le_card_nsmul _ _ _ fun i hi => by
        obtain ⟨hi1, hi2⟩ := Finset.mem_sdiff.mp hi
        exact pow_le_pow_left₀ (norm_nonneg _) (hdom m (Finset.mem_sdiff.mp hm).1 i (Finset.mem_range.mp (hT hi1)) hi2) 2
      have h2 : (S \ T).card • a m ≤ ∑ i ∈ S \ T, a i := Finset.card_nsmul_le_sum _ _ _ fun i hi => hmin i hi
      refine h1.trans (le_trans ?_ h2)
      rw [nsmul_eq_mul, nsmul_eq_mul]
      exact mul_le_mul_of_nonneg_right (by exact_mod_cast hcard) (by positivity)
  have d1 : ∑ i ∈ Finset.range n \ S, a i = ∑ i ∈ (Finset.range n \ S) \ T, a i + ∑ i ∈ T \ S, a i := by
    have hsub : T \ S ⊆ Finset.range n \ S := Finset.sdiff_subset_sdiff hT le_rfl
    rw [← Finset.sum_sdiff hsub]
    congr 2
    ext i; simp only [Finset.mem_sdiff]; tauto
  have d2 : ∑ i ∈ Finset.range n \ T, a i = ∑ i ∈ (Finset.range n \ S) \ T, a i + ∑ i ∈ S \ T, a i := by
    have hsub : S \ T ⊆ Finset.range n \ T := Finset.sdiff_subset_sdiff hS le_rfl
    rw [← Finset.sum_sdiff hsub]
    congr 2
    ext i; simp only [Finset.mem_sdiff]; tauto
  rw [d1, d2]; linarith

/-- `I` lists `K` distinct positions below `n` at which `c` is largest in magnitude. -/
structure IsTop (n : ℕ) (c : ℕ → 𝕜) (K : ℕ) (I : List ℕ) : Prop where
  nodup : I.Nodup
  range : ∀ i ∈ I, i < n
  size : I.length = K
  dom : ∀ i ∈ I, ∀ j, j < n → j ∉ I → ‖c j‖ ≤ ‖c i‖

theorem IsTop.best {phi : ℕ → E} {n : ℕ} (h : OrthoDict 𝕜 phi n) {y : E} {K : ℕ} {I : List ℕ} (ht : IsTop n (fun i => inner 𝕜 (phi i) y) K I) (z : ℕ → 𝕜)
    (hz : ∀ i, z i = if i ∈ I then inner 𝕜 (phi i) y else 0) : SparseMin phi n y K z := by
  classical
  refine h.best y K I.toFinset (fun i hi => Finset.mem_range.mpr (ht.range i (List.mem_toFinset.mp hi))) (by rw [List.toFinset_card_of_nodup ht.nodup, ht.size]) z
    (fun i hi => ?_) (fun i hi => ?_) fun i hi j hj hjI => ht.dom i (List.mem_toFinset.mp hi) j hj fun hm => hjI (List.mem_toFinset.mpr hm)
  · rw [hz, if_pos (List.mem_toFinset.mp hi)]
  · rw [hz, if_neg fun hm => hi (List.mem_toFinset.mpr hm)]

theorem IsTop.perm {n : ℕ} {c : ℕ → 𝕜} {K : ℕ} {I J : List ℕ} (h : IsTop n c K I) (hp : J.Perm I) : IsTop n c K J :=
  ⟨hp.nodup_iff.mpr h.nodup, fun i hi => h.range i (hp.mem_iff.mp hi), hp.length_eq.trans h.size,
    fun i hi j hj hjJ => h.dom i (hp.mem_iff.mp hi) j hj fun hm => hjJ (hp.mem_iff.mpr hm)⟩

theorem top_largest (c : ℕ → 𝕜) (n K : ℕ) (hK : K ≤ n) (g : List 𝕜) (hg : g.length = n) (a : ℝ) (ha : 0 < a) (hc : ∀ i, i < n → ‖g.getD i 0‖ = a * ‖c i‖) :
    IsTop n c K (largestIndices g K) := by
  obtain ⟨h1, h2, h3, -, h5⟩ := c51_largest_indices g K
  rw [hg] at h2 h3 h5
  refine ⟨h1, h3, by omega, fun i hi j hj hjI => ?_⟩
  have := h5 i hi j hj hjI
  rw [hc j hj, hc i (h3 i hi)] at this
  exact le_of_mul_le_mul_left this ha

/-- Magnifying the entries of a dominating set more than the others keeps it a dominating set. -/
theorem top_step (c : ℕ → 𝕜) (n K : ℕ) (hK : K ≤ n) (I : List ℕ) (hI : IsTop n c K I) (g : List 𝕜) (hg : g.length = n) (a b : ℝ) (ha : 0 < a) (hb : 0 < b) (hab : b ≤ a)
    (hin : ∀ i ∈ I, g.getD i 0 = (a : 𝕜) * c i) (hout : ∀ i, i < n → i ∉ I → g.getD i 0 = (b : 𝕜) * c i) :
    IsTop n c K (largestIndices g K) ∧ ∀ i ∈ largestIndices g K, g.getD i 0 = (a : 𝕜) * c i := by
  classical
  have na : ∀ z : 𝕜, ‖(a : 𝕜) * z‖ = a * ‖z‖ := fun z => by rw [norm_mul, RCLike.norm_ofReal, abs_of_pos ha]
  have nb : ∀ z : 𝕜, ‖(b : 𝕜) * z‖ = b * ‖z‖ := fun z => by rw [norm_mul, RCLike.norm_ofReal, abs_of_pos hb]
  obtain ⟨h1, h2, h3, -, h5⟩ := c51_largest_indices g K
  rw [hg] at h2 h3 h5
  set J := largestIndices g K with hJ
  rcases eq_or_lt_of_le hab with hab | hab
  · subst hab
    have hall : ∀ i, i < n → g.getD i 0 = (b : 𝕜) * c i := fun i hi => by
      by_cases hm : i ∈ I
      · exact hin i hm
      · exact hout i hi hm
    exact ⟨top_largest c n K hK g hg b hb fun i hi => by rw [hall i hi, nb], fun i hi => hall i (h3 i hi)⟩
  · -- an entry that enters the set forces everything outside the old set to vanish
    have hzero : ∀ i ∈ J, i ∉ I → ∀ l, l < n → l ∉ I → c l = 0 := by
      intro i hi hiI l hl hlI
      obtain ⟨j, hj, hjJ⟩ : ∃ j ∈ I, j ∉ J := by
        by_contra hcon
        push Not at hcon
        have hsub : I.toFinset ⊆ J.toFinset.erase i := fun j hj => by
          rw [Finset.mem_erase]
          exact ⟨fun e => hiI (e ▸ List.mem_toFinset.mp hj), List.mem_toFinset.mpr (hcon j (List.mem_toFinset.mp hj))⟩
        have hc := Finset.card_le_card hsub
        rw [Finset.card_erase_of_mem (List.mem_toFinset.mpr hi), List.toFinset_card_of_nodup hI.nodup, List.toFinset_card_of_nodup h1, hI.size] at hc
        have : 0 < J.length := List.length_pos_of_mem hi
        omega
      have e1 := h5 i hi j (hI.range j hj) hjJ
      rw [hin j hj, hout i (h3 i hi) hiI, na, nb] at e1
      have e2 := hI.dom j hj i (h3 i hi) hiI
      have e3 : ‖c j‖ = 0 := by nlinarith [norm_nonneg (c j), norm_nonneg (c i)]
      have e4 := hI.dom j hj l hl hlI
      exact norm_le_zero_iff.1 (e3 ▸ e4)
    refine ⟨⟨h1, h3, by omega, fun i hi l hl hlJ => ?_⟩, fun i hi => ?_⟩
    · by_cases hiI : i ∈ I
      · by_cases hlI : l ∈ I
        · have := h5 i hi l hl hlJ
          rw [hin i hiI, hin l hlI, na, na] at this
          exact le_of_mul_le_mul_left this ha
        · exact hI.dom i hiI l hl hlI
      · have hci := hzero i hi hiI i (h3 i hi) hiI
        by_cases hlI : l ∈ I
        · have := h5 i hi l hl hlJ
          rw [hin l hlI, hout i (h3 i hi) hiI, na, nb, hci, norm_zero, mul_zero] at this
          rw [hci, norm_zero]
          nlinarith [norm_nonneg (c l)]
        · rw [hzero i hi hiI l hl hlI, norm_zero]; exact norm_nonneg _
    · by_cases hiI : i ∈ I
      · exact hin i hiI
      · rw [hout i (h3 i hi) hiI, hzero i hi hiI i (h3 i hi) hiI, mul_zero, mul_zero]

/-! ## Iterative hard thresholding and hard thresholding pursuit -/

/-- What the states of IHT and HTP look like: a dominating set, with coefficients `f` times the correlations. -/
structure OrthoState (phi : ℕ → E) (n : ℕ) (y : E) (K : ℕ) (f : ℝ) (s : GState 𝕜 E) : Prop where
  top : IsTop n (fun i => inner 𝕜 (phi i) y) K s.I
  coeff : ∀ i, s.signal i = if i ∈ s.I then (f : 𝕜) * inner 𝕜 (phi i) y else 0

theorem init_ortho {phi : ℕ → E} {n : ℕ} (mu : ℝ) (hmu : 0 < mu) (y : E) (K : ℕ) (hK : K ≤ n) : OrthoState (𝕜 := 𝕜) phi n y K mu (ihtInit phi n mu y K) := by
  have hg : ∀ i, i < n → (gradStep n [] [] mu (corr 𝕜 phi n y)).getD i 0 = (mu : 𝕜) * inner 𝕜 (phi i) y := fun i hi => by
    rw [gradStep_getD _ _ _ _ _ hi, corr_getD' _ _ _ hi]; simp [buildSignal]
  refine ⟨top_largest _ n K hK _ (gradStep_length ..) mu hmu fun i hi => by rw [hg i hi, norm_mul, RCLike.norm_ofReal, abs_of_pos hmu], fun i => ?_⟩
  show buildSignal (largestIndices (gradStep n [] [] mu (corr 𝕜 phi n y)) K) (gather 0 (gradStep n [] [] mu (corr 𝕜 phi n y)) _) i = _
  rw [buildSignal_gather]
  by_cases hm : i ∈ largestIndices (gradStep n [] [] mu (corr 𝕜 phi n y)) K
  · have hi : i < n := by have := (c51_largest_indices _ _).2.2.1 i hm; rwa [gradStep_length] at this
    rw [if_pos hm, hg i hi]
    exact (if_pos hm).symm
  · rw [if_neg hm]; exact (if_neg hm).symm

/-- The gradient step at such a state. -/
theorem ortho_grad {phi : ℕ → E} {n : ℕ} (h : OrthoDict 𝕜 phi n) (mu : ℝ) (y : E) {K : ℕ} {f : ℝ} {s : GState 𝕜 E} (hs : OrthoState phi n y K f s)
    (hr : s.r = y - synth phi n (buildSignal s.I s.x)) :
    (∀ i ∈ s.I, (gradStep n s.I s.x mu (corr 𝕜 phi n s.r)).getD i 0 = ((1 - (1 - mu) * (1 - f) : ℝ) : 𝕜) * inner 𝕜 (phi i) y) ∧
    ∀ i, i < n → i ∉ s.I → (gradStep n s.I s.x mu (corr 𝕜 phi n s.r)).getD i 0 = (mu : 𝕜) * inner 𝕜 (phi i) y := by
  have hg : ∀ i, i < n → (gradStep n s.I s.x mu (corr 𝕜 phi n s.r)).getD i 0 = s.signal i + (mu : 𝕜) * (inner 𝕜 (phi i) y - s.signal i) := fun i hi => by
    rw [gradStep_getD _ _ _ _ _ hi, corr_getD' _ _ _ hi, hr, inner_sub_right, h.inner_synth _ hi]; rfl
  refine ⟨fun i hi => ?_, fun i hi hm => ?_⟩
  · rw [hg i (hs.top.range i hi), hs.coeff, if_pos hi]; push_cast; ring
  · rw [hg i hi, hs.coeff, if_neg hm]; ring

theorem iht_ortho {phi : ℕ → E} {n : ℕ} (h : OrthoDict 𝕜 phi n) (mu : ℝ) (hmu : 0 < mu) (hmu1 : mu ≤ 1) (y : E) (K : ℕ) (hK : K ≤ n) (c : GState 𝕜 E → Prop)
    (s : GState 𝕜 E) (hs : Reach c (ihtBody phi n mu y K) (ihtInit phi n mu y K) s) : OrthoState phi n y K (1 - (1 - mu) ^ s.iters) s ∧ 1 ≤ s.iters := by
  refine hs.inv' (fun s => OrthoState phi n y K (1 - (1 - mu) ^ s.iters) s ∧ 1 ≤ s.iters) ⟨?_, le_rfl⟩ fun s hr ih _ => ⟨?_, by show 1 ≤ s.iters + 1; omega⟩
  · have e : (1 - (1 - mu) ^ (ihtInit (𝕜 := 𝕜) phi n mu y K).iters) = mu := by show 1 - (1 - mu) ^ 1 = mu; ring
    rw [e]; exact init_ortho mu hmu y K hK
  · obtain ⟨ih, hit⟩ := ih
    have hg := ortho_grad h mu y ih (c50_iht_state phi n mu y K hK c s hr).2.2.1
    have h0 : 0 ≤ 1 - mu := by linarith
    have hp : (1 - mu) ^ s.iters ≤ 1 := pow_le_one₀ h0 (by linarith)
    have hp0 : 0 ≤ (1 - mu) ^ s.iters := pow_nonneg h0 _
    have ef : 1 - (1 - mu) * (1 - (1 - (1 - mu) ^ s.iters)) = 1 - (1 - mu) ^ (s.iters + 1) := by rw [pow_succ]; ring
    rw [ef] at hg
    have hab : mu ≤ 1 - (1 - mu) ^ (s.iters + 1) := by rw [pow_succ]; nlinarith
    obtain ⟨t1, t2⟩ := top_step _ n K hK s.I ih.top _ (gradStep_length ..) _ mu (by linarith) hmu hab hg.1 hg.2
    refine ⟨t1, fun i => ?_⟩
    show buildSignal _ _ i = _
    rw [ihtBody_signal]
    by_cases hm : i ∈ (ihtBody phi n mu y K s).I
    · rw [if_pos hm, if_pos hm, t2 i hm]; rfl
    · rw [if_neg hm, if_neg hm]

/-- **C154** (IHT, `matrix_solve` and `operator_solve`, step in `(0, 1]`; the default step is `0.98`) on an orthonormal dictionary and arbitrary data the result of `t` iterations is
`1 - (1 - mu)ᵗ` times a best `K`-term approximation of the data. -/
theorem c154_iht {phi : ℕ → E} {n : ℕ} (h : OrthoDict 𝕜 phi n) (mu : ℝ) (hmu : 0 < mu) (hmu1 : mu ≤ 1) (y : E) (K : ℕ) (hK : K ≤ n) (maxIters : ℕ) (rtol : ℝ)
    (s : GState 𝕜 E) (hs : IhtSolve phi n mu y K maxIters rtol s) :
    ∃ z : ℕ → 𝕜, SparseMin phi n y K z ∧ (∀ i, s.signal i = ((1 - (1 - mu) ^ s.iters : ℝ) : 𝕜) * z i) ∧
      ‖s.r‖ ^ 2 = ‖y - synth phi n z‖ ^ 2 + ((1 - mu) ^ s.iters) ^ 2 * ∑ i ∈ Finset.range n, ‖z i‖ ^ 2 := by
  classical
  obtain ⟨ht, -⟩ := iht_ortho h mu hmu hmu1 y K hK _ s hs.1
  set z : ℕ → 𝕜 := fun i => if i ∈ s.I then inner 𝕜 (phi i) y else 0 with hz
  have hsig : ∀ i, s.signal i = ((1 - (1 - mu) ^ s.iters : ℝ) : 𝕜) * z i := fun i => by
    rw [ht.coeff, hz]; by_cases hm : i ∈ s.I <;> simp [hm]
  refine ⟨z, ht.top.best h z fun i => rfl, hsig, ?_⟩
  have hr : s.r = y - synth phi n s.signal := (c50_iht_state phi n mu y K hK _ s hs.1).2.2.1
  rw [hr, h.error y s.signal, h.error y z, add_assoc, Finset.mul_sum, ← Finset.sum_add_distrib]
  congr 1
  refine Finset.sum_congr rfl fun i _ => ?_
  rw [hsig]
  by_cases hm : i ∈ s.I
  · have e : z i = inner 𝕜 (phi i) y := if_pos hm
    rw [← e, sub_self, norm_zero, ← mul_pow]
    have : z i - ((1 - (1 - mu) ^ s.iters : ℝ) : 𝕜) * z i = (((1 - mu) ^ s.iters : ℝ) : 𝕜) * z i := by push_cast; ring
    rw [this, norm_mul, RCLike.norm_ofReal, abs_of_nonneg (pow_nonneg (by linarith) _)]; ring
  · have e : z i = 0 := if_neg hm
    rw [e]; simp

/-- **C154** (HTP, both versions, step in `(0, 1]`) from the second iteration on the result is a best `K`-term approximation of the data. -/
theorem c154_htp {phi : ℕ → E} {n : ℕ} (h : OrthoDict 𝕜 phi n) (mu : ℝ) (hmu : 0 < mu) (hmu1 : mu ≤ 1) (lstsq : List ℕ → E → List 𝕜) (y : E)
    (hl : ∀ I, IsLstsq phi I y (lstsq I y)) (K : ℕ) (hK : K ≤ n) (maxIters : ℕ) (rtol : ℝ)
    (s : GState 𝕜 E) (hs : HtpSolve phi n mu lstsq y K maxIters rtol s) (hit : 2 ≤ s.iters) : SparseMin phi n y K s.signal := by
  have key : ∃ f : ℝ, OrthoState phi n y K f s ∧ 0 < f ∧ f ≤ 1 ∧ 1 ≤ s.iters ∧ (2 ≤ s.iters → f = 1) := by
    refine hs.1.inv' (fun s => ∃ f : ℝ, OrthoState phi n y K f s ∧ 0 < f ∧ f ≤ 1 ∧ 1 ≤ s.iters ∧ (2 ≤ s.iters → f = 1))
      ⟨mu, init_ortho mu hmu y K hK, hmu, hmu1, le_rfl, fun h => by simp [ihtInit, mkState] at h⟩ fun s hr ih _ => ?_
    obtain ⟨f, ih, hf0, hf1, hit, -⟩ := ih
    obtain ⟨hgood, hnd, -, -⟩ := c49_htp_state phi n mu lstsq y K hl hK _ s hr
    have hg := ortho_grad h mu y ih (by rw [hgood.residual, lin_eq_synth phi n s.I s.x hnd hgood.range hgood.coeff])
    obtain ⟨t1, -⟩ := top_step _ n K hK s.I ih.top _ (gradStep_length ..) _ mu (by nlinarith) hmu (by nlinarith) hg.1 hg.2
    obtain ⟨hp, -, -⟩ := htp_support phi n mu lstsq y K s
    have ht := t1.perm hp
    refine ⟨1, ⟨ht, fun i => ?_⟩, one_pos, le_rfl, by show 1 ≤ s.iters + 1; omega, fun _ => rfl⟩
    set I' := (htpBody phi n mu lstsq y K s).I with hI'
    have e : (htpBody phi n mu lstsq y K s).signal = buildSignal I' (lstsq I' y) := rfl
    rw [e]
    by_cases hm : i ∈ I'
    · have hn := (hl I').normal i hm
      rw [lin_eq_synth phi n I' _ ht.nodup ht.range (hl I').length, inner_sub_right, h.inner_synth _ (ht.range i hm), sub_eq_zero] at hn
      rw [if_pos hm, ← hn]; simp
    · rw [if_neg hm, buildSignal_not_mem _ _ _ hm]
  obtain ⟨f, ht, -, -, -, hf⟩ := key
  refine ht.top.best h _ fun i => ?_
  rw [ht.coeff, hf hit]; simp

/-! ## Subspace pursuit and CoSaMP -/

theorem coeff_eq_signal : ∀ (J : List ℕ) (x : List 𝕜), J.Nodup → x.length = J.length → x = J.map (buildSignal J x)
  | [], x, _, h => by simpa using h
  | j :: J, [], _, h => by simp at h
  | j :: J, c :: x, hn, h => by
    rw [List.nodup_cons] at hn
    have hl : x.length = J.length := by simpa using h
    have ih := coeff_eq_signal J x hn.2 hl
    have h1 : buildSignal (j :: J) (c :: x) j = c := by
      simp only [buildSignal]
      rw [if_pos ⟨trivial, fun hm => hn.1 (List.mem_of_mem_take hm)⟩]
    have h2 : J.map (buildSignal (j :: J) (c :: x)) = J.map (buildSignal J x) := List.map_congr_left fun i hi => by
      simp only [buildSignal]
      exact if_neg fun hc : j = i ∧ _ => hn.1 (by rw [hc.1]; exact hi)
    rw [List.map_cons, h1, h2, ← ih]

/-- The least squares coefficients on distinct orthonormal atoms are the correlations. -/
theorem lstsq_ortho {phi : ℕ → E} {n : ℕ} (h : OrthoDict 𝕜 phi n) (y : E) (J : List ℕ) (hJ : J.Nodup) (hr : ∀ i ∈ J, i < n) (x : List 𝕜) (hx : IsLstsq phi J y x) :
    x = J.map fun i => inner 𝕜 (phi i) y := by
  have h1 := coeff_eq_signal J x hJ hx.length
  have h2 : J.map (buildSignal J x) = J.map fun i => inner 𝕜 (phi i) y := List.map_congr_left fun i hi => by
    have hn := hx.normal i hi
    rw [lin_eq_synth phi n J _ hJ hr hx.length, inner_sub_right, h.inner_synth _ (hr i hi), sub_eq_zero] at hn
    exact hn.symm
  rw [← h2, ← h1]

/-- Merging a dominating set with the largest of the rest and keeping the largest again gives a dominating set. -/
theorem merge_top {phi : ℕ → E} {n : ℕ} (h : OrthoDict 𝕜 phi n) (y : E) (K M : ℕ) (hKM : K ≤ M) (I : List ℕ) (hI : IsTop n (fun i => inner 𝕜 (phi i) y) K I) (r : E)
    (hr : ∀ i, i < n → i ∉ I → inner 𝕜 (phi i) r = inner 𝕜 (phi i) y)
    (hcount : K + M ≤ ((Finset.range n).filter fun i => inner 𝕜 (phi i) y ≠ 0).card) (x : List 𝕜)
    (hx : IsLstsq phi (I ++ largestIndices (zeroAt (corr 𝕜 phi n r) I) M) y x) :
    let J := I ++ largestIndices (zeroAt (corr 𝕜 phi n r) I) M
    IsTop n (fun i => inner 𝕜 (phi i) y) K (gather 0 J (largestIndices x K)) ∧
      gather 0 x (largestIndices x K) = (gather 0 J (largestIndices x K)).map fun i => inner 𝕜 (phi i) y := by
  classical
  intro J
  set N := largestIndices (zeroAt (corr 𝕜 phi n r) I) M with hN
  obtain ⟨n1, n2, n3, -, n5⟩ := c51_largest_indices (zeroAt (corr 𝕜 phi n r) I) M
  rw [zeroAt_length, corr_length'] at n2 n3 n5
  have hz : ∀ i, i < n → i ∉ I → (zeroAt (corr 𝕜 phi n r) I).getD i 0 = inner 𝕜 (phi i) y := fun i hi hm => by
    rw [zeroAt_getD _ _ (by rwa [corr_length']), if_neg hm, corr_getD' _ _ _ hi, hr i hi hm]
  have hdis : ∀ i ∈ N, i ∉ I := by
    refine largest_disjoint (corr 𝕜 phi n r) I M ?_
    rw [corr_length']
    have hsub : ((Finset.range n).filter fun i => inner 𝕜 (phi i) y ≠ 0) ⊆ I.toFinset ∪ (Finset.range n).filter fun i => i ∉ I ∧ (corr 𝕜 phi n r).getD i 0 ≠ 0 := by
      intro i hi
      rw [Finset.mem_filter, Finset.mem_range] at hi
      by_cases hm : i ∈ I
      · exact Finset.mem_union_left _ (List.mem_toFinset.mpr hm)
      · refine Finset.mem_union_right _ ?_
        rw [Finset.mem_filter, Finset.mem_range, corr_getD' _ _ _ hi.1, hr i hi.1 hm]
        exact ⟨hi.1, hm, hi.2⟩
    have hc := (Finset.card_le_card hsub).trans (Finset.card_union_le _ _)
    rw [List.toFinset_card_of_nodup hI.nodup, hI.size] at hc
    omega
  have hJn : J.Nodup := List.nodup_append.mpr ⟨hI.nodup, n1, fun a ha b hb hab => hdis b hb (hab ▸ ha)⟩
  have hJr : ∀ i ∈ J, i < n := fun i hi => (List.mem_append.mp hi).elim (hI.range i) (n3 i)
  have hxe := lstsq_ortho h y J hJn hJr x hx
  have hxl : x.length = J.length := hx.length
  obtain ⟨a1, a2, a3, -, a5⟩ := c51_largest_indices x K
  set L := largestIndices x K with hL
  rw [hxl] at a2 a3 a5
  have hget : ∀ k, k < J.length → x.getD k 0 = inner 𝕜 (phi (J.getD k 0)) y := fun k hk => by
    rw [hxe, List.getD_eq_getElem?_getD, List.getElem?_map, List.getElem?_eq_getElem hk, List.getD_eq_getElem?_getD, List.getElem?_eq_getElem hk]; rfl
  have hJlen : K ≤ J.length := by rw [List.length_append, hI.size]; omega
  refine ⟨⟨gather_nodup 0 J L a3 hJn a1, fun i hi => hJr i (gather_mem 0 J L a3 i hi), by rw [gather_length, a2]; omega, ?_⟩, ?_⟩
  · intro i hi l hl hlL
    obtain ⟨k, hk, rfl⟩ := List.mem_map.mp hi
    by_cases hlJ : l ∈ J
    · obtain ⟨q, hq, rfl⟩ := List.getElem_of_mem hlJ
      have hqL : q ∉ L := fun hm => hlL (List.mem_map.mpr ⟨q, hm, by rw [List.getD_eq_getElem?_getD, List.getElem?_eq_getElem hq]; rfl⟩)
      have := a5 k hk q hq hqL
      rw [hget k (a3 k hk), hget q hq] at this
      have e : J.getD q 0 = J[q] := by rw [List.getD_eq_getElem?_getD, List.getElem?_eq_getElem hq]; rfl
      rwa [e] at this
    · have hlI : l ∉ I := fun hm => hlJ (List.mem_append_left _ hm)
      have hlN : l ∉ N := fun hm => hlJ (List.mem_append_right _ hm)
      have hkJ : J.getD k 0 ∈ J := gather_mem 0 J L a3 _ hi
      rcases List.mem_append.mp hkJ with hm | hm
      · exact hI.dom _ hm l hl hlI
      · have := n5 _ hm l hl hlN
        rwa [hz l hl hlI, hz _ (n3 _ hm) (hdis _ hm)] at this
  · simp only [gather, List.map_map]
    exact List.map_congr_left fun k hk => hget k (a3 k hk)

theorem inner_lin_off {phi : ℕ → E} {n : ℕ} (h : OrthoDict 𝕜 phi n) {i : ℕ} (hi : i < n) : ∀ (I : List ℕ) (x : List 𝕜), (∀ j ∈ I, j < n) → i ∉ I → inner 𝕜 (phi i) (lin phi I x) = 0
  | [], x, _, _ => by cases x <;> simp [lin]
  | j :: I, [], _, _ => by simp [lin]
  | j :: I, c :: x, hr, hm => by
    rw [List.mem_cons, not_or] at hm
    rw [lin, inner_add_right, inner_smul_right, h i j hi (hr j (by simp)), if_neg hm.1, mul_zero, zero_add]
    exact inner_lin_off h hi I x (fun j hj => hr j (by simp [hj])) hm.2

theorem resid_off {phi : ℕ → E} {n : ℕ} (h : OrthoDict 𝕜 phi n) {y : E} {K : ℕ} {s : GState 𝕜 E} (hg : GoodState phi n y K s) (i : ℕ) (hi : i < n) (hm : i ∉ s.I) :
    inner 𝕜 (phi i) s.r = inner 𝕜 (phi i) y := by
  rw [hg.residual, inner_sub_right, inner_lin_off h hi s.I s.x hg.range hm, sub_zero]

theorem sp_ortho {phi : ℕ → E} {n : ℕ} (h : OrthoDict 𝕜 phi n) (lstsq : List ℕ → E → List 𝕜) (y : E) (hl : ∀ I, IsLstsq phi I y (lstsq I y)) (K : ℕ) (hK : K ≤ n)
    (hcount : 2 * K ≤ ((Finset.range n).filter fun i => inner 𝕜 (phi i) y ≠ 0).card) (c : GState 𝕜 E → Prop) (s : GState 𝕜 E)
    (hs : Reach c (spBody phi n lstsq y K) (spInit phi n lstsq y K) s) :
    IsTop n (fun i => inner 𝕜 (phi i) y) K s.I ∧ s.x = s.I.map fun i => inner 𝕜 (phi i) y := by
  have fin : ∀ I, IsTop n (fun i => inner 𝕜 (phi i) y) K I → lstsq I y = I.map fun i => inner 𝕜 (phi i) y := fun I hI => lstsq_ortho h y I hI.nodup hI.range _ (hl I)
  refine hs.inv' (fun s => IsTop n (fun i => inner 𝕜 (phi i) y) K s.I ∧ s.x = s.I.map fun i => inner 𝕜 (phi i) y) ?_ fun s hr ih _ => ?_
  · have ht : IsTop n (fun i => inner 𝕜 (phi i) y) K (largestIndices (corr 𝕜 phi n y) K) :=
      top_largest _ n K hK _ (corr_length' ..) 1 one_pos fun i hi => by rw [corr_getD' _ _ _ hi, one_mul]
    exact ⟨ht, fin _ ht⟩
  · have hg := (c48_sp_state phi n lstsq y K hl hK c s hr).1
    obtain ⟨t1, -⟩ := merge_top h y K K le_rfl s.I ih.1 s.r (resid_off h hg) (by omega) _ (hl _)
    exact ⟨t1, fin _ t1⟩

/-- **C154** (subspace pursuit, `matrix_solve`) if at least `2K` atoms of an orthonormal dictionary are correlated with the data, the result, after any number of iterations, is a best
`K`-term approximation. -/
theorem c154_sp {phi : ℕ → E} {n : ℕ} (h : OrthoDict 𝕜 phi n) (lstsq : List ℕ → E → List 𝕜) (y : E) (hl : ∀ I, IsLstsq phi I y (lstsq I y)) (K : ℕ) (hK : K ≤ n)
    (hcount : 2 * K ≤ ((Finset.range n).filter fun i => inner 𝕜 (phi i) y ≠ 0).card) (maxIters : ℕ) (rtol : ℝ) (s : GState 𝕜 E)
    (hs : SpMatrixSolve phi n lstsq y K maxIters rtol s) : SparseMin phi n y K s.signal := by
  obtain ⟨t1, t2⟩ := sp_ortho h lstsq y hl K hK hcount _ s hs.1
  refine t1.best h _ fun i => ?_
  rw [GState.signal, t2, buildSignal_map]

theorem SparseMin.scale {phi : ℕ → E} {n : ℕ} {y : E} {K : ℕ} {x : ℕ → 𝕜} (h : SparseMin phi n y K x) (a : 𝕜) (ha : a ≠ 0) : SparseMin phi n (a • y) K fun i => a * x i := by
  have es : ∀ z : ℕ → 𝕜, a • y - synth phi n (fun i => a * z i) = a • (y - synth phi n z) := fun z => by
    simp only [synth, smul_sub, Finset.smul_sum, mul_smul]
  obtain ⟨S, hS, hc, h0⟩ := h.sparse
  refine ⟨⟨S, hS, hc, fun i hi => by show a * x i = 0; rw [h0 i hi, mul_zero]⟩, fun w hw => ?_⟩
  obtain ⟨T, hT, hTc, hw0⟩ := hw
  have := h.least (fun i => a⁻¹ * w i) ⟨T, hT, hTc, fun i hi => by show a⁻¹ * w i = 0; rw [hw0 i hi, mul_zero]⟩
  have e : w = fun i => a * (a⁻¹ * w i) := by funext i; rw [mul_inv_cancel_left₀ ha]
  rw [es]
  conv_rhs => rw [e, es fun i => a⁻¹ * w i]
  rw [norm_smul, norm_smul]
  exact mul_le_mul_of_nonneg_left this (norm_nonneg _)

theorem count_scale (phi : ℕ → E) (n : ℕ) (y : E) (a : 𝕜) (ha : a ≠ 0) :
    ((Finset.range n).filter fun i => inner 𝕜 (phi i) (a • y) ≠ 0) = (Finset.range n).filter fun i => inner 𝕜 (phi i) y ≠ 0 := by
  refine Finset.filter_congr fun i _ => ?_
  rw [inner_smul_right]
  simp [ha]

theorem unit_scale {y : E} (hy : y ≠ 0) : ((1 / ‖y‖ : ℝ) : 𝕜) ≠ 0 ∧ ((‖y‖ : ℝ) : 𝕜) • (((1 / ‖y‖ : ℝ) : 𝕜) • y) = y := by
  have h0 := norm_ne_zero_iff.mpr hy
  refine ⟨by simpa using h0, ?_⟩
  rw [smul_smul, ← RCLike.ofReal_mul, mul_one_div_cancel h0, RCLike.ofReal_one, one_smul]

theorem signal_rescale (a : ℝ) (s : GState 𝕜 E) (hd : s.x = s.I.map (buildSignal s.I s.x)) : (rescale a s).signal = fun i => (a : 𝕜) * s.signal i := by
  funext i
  show buildSignal s.I (s.x.map fun c => (a : 𝕜) * c) i = (a : 𝕜) * buildSignal s.I s.x i
  generalize hf : buildSignal s.I s.x = f at *
  conv_lhs => rw [hd, List.map_map, buildSignal_map]
  rw [← hf]
  by_cases hm : i ∈ s.I
  · rw [if_pos hm, hf]; rfl
  · rw [if_neg hm, buildSignal_not_mem _ _ _ hm, mul_zero]

/-- **C154** (subspace pursuit, `operator_solve`). -/
theorem c154_sp_operator {phi : ℕ → E} {n : ℕ} (h : OrthoDict 𝕜 phi n) (lstsq : List ℕ → E → List 𝕜) (y : E) (hy : y ≠ 0) (hl : ∀ I z, IsLstsq phi I z (lstsq I z)) (K : ℕ) (hK : K ≤ n)
    (hcount : 2 * K ≤ ((Finset.range n).filter fun i => inner 𝕜 (phi i) y ≠ 0).card) (maxIters : ℕ) (rtol : ℝ) (s : GState 𝕜 E)
    (hs : SpOperatorSolve phi n lstsq y K maxIters rtol s) : SparseMin phi n y K s.signal := by
  obtain ⟨t, ht, rfl⟩ := hs
  obtain ⟨u1, u2⟩ := unit_scale (𝕜 := 𝕜) hy
  obtain ⟨t1, t2⟩ := sp_ortho h lstsq _ (fun I => hl I _) K hK (by rw [count_scale phi n y _ u1]; exact hcount) _ t ht.1
  have hb : SparseMin phi n (((1 / ‖y‖ : ℝ) : 𝕜) • y) K t.signal := t1.best h _ fun i => by rw [GState.signal, t2, buildSignal_map]
  have := hb.scale ((‖y‖ : ℝ) : 𝕜) (by simpa using hy)
  rw [u2] at this
  rw [signal_rescale]
  · exact this
  · exact coeff_eq_signal _ _ t1.nodup (by rw [t2, List.length_map])

theorem cosamp_ortho {phi : ℕ → E} {n : ℕ} (h : OrthoDict 𝕜 phi n) (lstsq : List ℕ → E → List 𝕜) (y : E) (hl : ∀ I, IsLstsq phi I y (lstsq I y)) (K : ℕ) (hK : K ≤ n)
    (hcount : 3 * K ≤ ((Finset.range n).filter fun i => inner 𝕜 (phi i) y ≠ 0).card) (c : GState 𝕜 E → Prop) (s : GState 𝕜 E)
    (hs : Reach c (cosampBody phi n lstsq y K) (cosampInit phi n lstsq y K) s) :
    IsTop n (fun i => inner 𝕜 (phi i) y) K s.I ∧ 1 ≤ s.iters ∧ (2 ≤ s.iters → s.x = s.I.map fun i => inner 𝕜 (phi i) y) := by
  refine hs.inv' (fun s => IsTop n (fun i => inner 𝕜 (phi i) y) K s.I ∧ 1 ≤ s.iters ∧ (2 ≤ s.iters → s.x = s.I.map fun i => inner 𝕜 (phi i) y)) ?_ fun s hr ih _ => ?_
  · have h3 : 3 * K ≤ n := hcount.trans ((Finset.card_filter_le _ _).trans (Finset.card_range n).le)
    set J := largestIndices (corr 𝕜 phi n y) (K + 2 * K) with hJ
    have hT : IsTop n (fun i => inner 𝕜 (phi i) y) (K + 2 * K) J :=
      top_largest _ n _ (by omega) _ (corr_length' ..) 1 one_pos fun i hi => by rw [corr_getD' _ _ _ hi, one_mul]
    have hxe := lstsq_ortho h y J hT.nodup hT.range _ (hl J)
    obtain ⟨a1, a2, a3, -, a5⟩ := c51_largest_indices (lstsq J y) K
    set L := largestIndices (lstsq J y) K with hL
    rw [(hl J).length] at a2 a3 a5
    have hget : ∀ k, k < J.length → (lstsq J y).getD k 0 = inner 𝕜 (phi (J.getD k 0)) y := fun k hk => by
      rw [hxe, List.getD_eq_getElem?_getD, List.getElem?_map, List.getElem?_eq_getElem hk, List.getD_eq_getElem?_getD, List.getElem?_eq_getElem hk]; rfl
    have ht : IsTop n (fun i => inner 𝕜 (phi i) y) K (gather 0 J L) := by
      refine ⟨gather_nodup 0 J L a3 hT.nodup a1, fun i hi => hT.range i (gather_mem 0 J L a3 i hi), by rw [gather_length, a2, hT.size]; omega, fun i hi l hln hlL => ?_⟩
      obtain ⟨k, hk, rfl⟩ := List.mem_map.mp hi
      by_cases hlJ : l ∈ J
      · obtain ⟨q, hq, rfl⟩ := List.getElem_of_mem hlJ
        have hqL : q ∉ L := fun hm => hlL (List.mem_map.mpr ⟨q, hm, by rw [List.getD_eq_getElem?_getD, List.getElem?_eq_getElem hq]; rfl⟩)
        have := a5 k hk q hq hqL
        rw [hget k (a3 k hk), hget q hq] at this
        have e : J.getD q 0 = J[q] := by rw [List.getD_eq_getElem?_getD, List.getElem?_eq_getElem hq]; rfl
        rwa [e] at this
      · exact hT.dom _ (gather_mem 0 J L a3 _ hi) l hln hlJ
    exact ⟨ht.perm (List.mergeSort_perm _ _), le_rfl, fun h2 => by simp [cosampInit, mkState] at h2⟩
  · have hg := c47_cosamp_state phi n lstsq y K hl hK c s hr
    obtain ⟨t1, t2⟩ := merge_top h y K (2 * K) (by omega) s.I ih.1 s.r (resid_off h hg) (by omega) _ (hl _)
    exact ⟨t1, by show 1 ≤ s.iters + 1; omega, fun _ => t2⟩

/-- **C154** (CoSaMP, `matrix_solve`) if at least `3K` atoms of an orthonormal dictionary are correlated with the data, the result of two or more iterations is a best `K`-term approximation. -/
theorem c154_cosamp {phi : ℕ → E} {n : ℕ} (h : OrthoDict 𝕜 phi n) (lstsq : List ℕ → E → List 𝕜) (y : E) (hl : ∀ I, IsLstsq phi I y (lstsq I y)) (K : ℕ) (hK : K ≤ n)
    (hcount : 3 * K ≤ ((Finset.range n).filter fun i => inner 𝕜 (phi i) y ≠ 0).card) (maxIters : ℕ) (rtol : ℝ) (s : GState 𝕜 E)
    (hs : CosampMatrixSolve phi n lstsq y K maxIters rtol s) (hit : 2 ≤ s.iters) : SparseMin phi n y K s.signal := by
  obtain ⟨t1, -, t2⟩ := cosamp_ortho h lstsq y hl K hK hcount _ s hs.1
  refine t1.best h _ fun i => ?_
  rw [GState.signal, t2 hit, buildSignal_map]

/-- **C154** (CoSaMP, `operator_solve`). -/
theorem c154_cosamp_operator {phi : ℕ → E} {n : ℕ} (h : OrthoDict 𝕜 phi n) (lstsq : List ℕ → E → List 𝕜) (y : E) (hy : y ≠ 0) (hl : ∀ I z, IsLstsq phi I z (lstsq I z)) (K : ℕ) (hK : K ≤ n)
    (hcount : 3 * K ≤ ((Finset.range n).filter fun i => inner 𝕜 (phi i) y ≠ 0).card) (maxIters : ℕ) (rtol : ℝ) (s : GState 𝕜 E)
    (hs : CosampOperatorSolve phi n lstsq y K maxIters rtol s) (hit : 2 ≤ s.iters) : SparseMin phi n y K s.signal := by
  obtain ⟨t, ht, rfl⟩ := hs
  obtain ⟨u1, u2⟩ := unit_scale (𝕜 := 𝕜) hy
  obtain ⟨t1, -, t2⟩ := cosamp_ortho h lstsq _ (fun I => hl I _) K hK (by rw [count_scale phi n y _ u1]; exact hcount) _ t ht.1
  have t2 := t2 hit
  have hb : SparseMin phi n (((1 / ‖y‖ : ℝ) : 𝕜) • y) K t.signal := t1.best h _ fun i => by rw [GState.signal, t2, buildSignal_map]
  have := hb.scale ((‖y‖ : ℝ) : 𝕜) (by simpa using hy)
  rw [u2] at this
  rw [signal_rescale]
  · exact this
  · exact coeff_eq_signal _ _ t1.nodup (by rw [t2, List.length_map])

/-! ## Orthogonal matching pursuit and matching pursuit -/

section real
open scoped RealInnerProductSpace
variable {H : Type*} [NormedAddCommGroup H] [InnerProductSpace ℝ H]

theorem OrthoDict.unit {phi : ℕ → H} {n : ℕ} (h : OrthoDict ℝ phi n) (i : ℕ) (hi : i < n) : ‖phi i‖ = 1 := by
  have := h i i hi hi
  rw [if_pos rfl, real_inner_self_eq_norm_sq] at this
  nlinarith [norm_nonneg (phi i)]

theorem omp_resid_off {phi : ℕ → H} {n : ℕ} (h : OrthoDict ℝ phi n) {y : H} {s : OmpState H} (hg : OmpGood phi n y s) (i : ℕ) (hi : i < n) (hm : i ∉ (List.range s.k).map s.I) :
    ⟪phi i, s.r⟫ = ⟪phi i, y⟫ := by
  rw [hg.residual, inner_sub_right, inner_sum, Finset.sum_eq_zero, sub_zero]
  intro j hj
  have hj' := Finset.mem_range.mp hj
  rw [inner_smul_right, h i (s.I j) hi (hg.range j hj'), if_neg, mul_zero]
  rintro rfl
  exact hm (List.mem_map.mpr ⟨j, List.mem_range.mpr hj', rfl⟩)

theorem omp_init_top {phi : ℕ → H} {n : ℕ} (hn : 0 < n) (y : H) : IsTop n (fun i => ⟪phi i, y⟫) 1 ((List.range 1).map (ompInit phi n y).I) := by
  have e : (List.range 1).map (ompInit phi n y).I = [absMaxIdx (corr ℝ phi n y)] := rfl
  have hne : corr ℝ phi n y ≠ [] := fun h => by have := congrArg List.length h; rw [corr_length'] at this; simp at this; omega
  obtain ⟨a1, a2, -⟩ := c51_abs_max_idx _ hne
  rw [corr_length'] at a1 a2
  rw [e]
  refine ⟨List.nodup_singleton _, fun i hi => by rw [List.mem_singleton] at hi; rw [hi]; exact a1, rfl, fun i hi j hj _ => ?_⟩
  rw [List.mem_singleton] at hi
  have := a2 j hj
  rwa [corr_getD' _ _ _ hj, corr_getD' _ _ _ a1, ← hi] at this

theorem omp_step_top {phi : ℕ → H} {n : ℕ} (h : OrthoDict ℝ phi n) (y : H) (s : OmpState H) (hs : OmpInv phi n y s) (ht : IsTop n (fun i => ⟪phi i, y⟫) s.k ((List.range s.k).map s.I))
    (hcount : s.k + 1 ≤ ((Finset.range n).filter fun i => ⟪phi i, y⟫ ≠ 0).card) :
    OmpInv phi n y (ompStep phi n y s) ∧ IsTop n (fun i => ⟪phi i, y⟫) (s.k + 1) ((List.range (s.k + 1)).map (ompStep phi n y s).I) := by
  classical
  set J := (List.range s.k).map s.I with hJ
  obtain ⟨i0, hi0, hi0J⟩ : ∃ i ∈ (Finset.range n).filter fun i => ⟪phi i, y⟫ ≠ 0, i ∉ J.toFinset := by
    by_contra hcon
    push Not at hcon
    have := Finset.card_le_card (s := (Finset.range n).filter fun i => ⟪phi i, y⟫ ≠ 0) (t := J.toFinset) hcon
    rw [List.toFinset_card_of_nodup ht.nodup, ht.size] at this
    omega
  rw [Finset.mem_filter, Finset.mem_range] at hi0
  rw [List.mem_toFinset] at hi0J
  have hn : 0 < n := by omega
  have hr0 : ⟪phi i0, s.r⟫ ≠ 0 := by rw [omp_resid_off h hs.toOmpGood i0 hi0.1 hi0J]; exact hi0.2
  refine ⟨ompStep_inv phi hn h.unit y s hs ⟨i0, hi0.1, hr0⟩, ?_⟩
  have hne : corr ℝ phi n s.r ≠ [] := fun h => by have := congrArg List.length h; rw [corr_length'] at this; simp at this; omega
  obtain ⟨a1, a2, -⟩ := c51_abs_max_idx _ hne
  rw [corr_length'] at a1 a2
  set b := absMaxIdx (corr ℝ phi n s.r) with hb
  have hmax : ∀ i, i < n → ‖⟪phi i, s.r⟫‖ ≤ ‖⟪phi b, s.r⟫‖ := fun i hi => by
    have := a2 i hi
    rwa [corr_getD' _ _ _ hi, corr_getD' _ _ _ a1] at this
  have hbJ : b ∉ J := fun hm => by
    obtain ⟨j, hj, hjb⟩ := List.mem_map.mp hm
    have h0 := hs.orth j (List.mem_range.mp hj)
    have := hmax i0 hi0.1
    rw [← hjb, h0, norm_zero] at this
    exact hr0 (norm_le_zero_iff.1 this)
  have e : (List.range (s.k + 1)).map (ompStep phi n y s).I = J ++ [b] := by
    have e0 : (ompStep phi n y s).I = Function.update s.I s.k b := rfl
    rw [e0, List.range_succ, List.map_append, List.map_singleton, Function.update_self, hJ]
    congr 1
    exact List.map_congr_left fun i hi => Function.update_of_ne (by have := List.mem_range.mp hi; omega) _ _
  rw [e]
  refine ⟨List.nodup_append.mpr ⟨ht.nodup, List.nodup_singleton _, fun a ha c hc hac => ?_⟩, fun i hi => ?_, by rw [List.length_append, ht.size]; rfl, fun i hi l hl hlJ => ?_⟩
  · rw [List.mem_singleton] at hc; exact hbJ (hc ▸ hac ▸ ha)
  · rcases List.mem_append.mp hi with hm | hm
    · exact ht.range i hm
    · rw [List.mem_singleton] at hm; rw [hm]; exact a1
  · rw [List.mem_append, not_or] at hlJ
    rcases List.mem_append.mp hi with hm | hm
    · exact ht.dom i hm l hl hlJ.1
    · rw [List.mem_singleton] at hm
      have := hmax l hl
      rwa [omp_resid_off h hs.toOmpGood l hl hlJ.1, omp_resid_off h hs.toOmpGood b a1 hbJ, ← hm] at this

theorem omp_best {phi : ℕ → H} {n : ℕ} (h : OrthoDict ℝ phi n) {y : H} {s : OmpState H} (hs : OmpGood phi n y s) (ht : IsTop n (fun i => ⟪phi i, y⟫) s.k ((List.range s.k).map s.I)) :
    SparseMin phi n y s.k s.signal := by
  refine ht.best h _ fun i => ?_
  by_cases hm : i ∈ (List.range s.k).map s.I
  · rw [if_pos hm]
    have hi := ht.range i hm
    obtain ⟨j, hj, rfl⟩ := List.mem_map.mp hm
    have hx : synth phi n s.signal + s.r = y := hs.explains.residual
    rw [← hx, inner_add_right, h.inner_synth _ hi, hs.orth j (List.mem_range.mp hj), add_zero]
  · rw [if_neg hm]; exact buildSignal_not_mem _ _ _ hm

/-- **C154** (OMP, `matrix_solve`) if at least `K` atoms of an orthonormal dictionary are correlated with the data, the result is a best `K`-term approximation. -/
theorem c154_omp {phi : ℕ → H} {n : ℕ} (h : OrthoDict ℝ phi n) (y : H) (K : ℕ) (hcount : K ≤ ((Finset.range n).filter fun i => ⟪phi i, y⟫ ≠ 0).card)
    (s : OmpState H) (hs : ompMatrixSolve phi n y K = some s) : SparseMin phi n y K s.signal := by
  have hK : 2 ≤ K := by
    by_contra hc
    rw [ompMatrixSolve, if_pos (by omega)] at hs
    exact absurd hs (by simp)
  have hn : 0 < n := by
    have := hcount.trans ((Finset.card_filter_le _ _).trans (Finset.card_range n).le); omega
  rw [ompMatrixSolve, if_neg (by omega), Option.some.injEq] at hs
  have key : ∀ j, j + 1 ≤ K → OmpInv phi n y ((ompStep phi n y)^[j] (ompInit phi n y)) ∧ ((ompStep phi n y)^[j] (ompInit phi n y)).k = j + 1 ∧
      IsTop n (fun i => ⟪phi i, y⟫) (j + 1) ((List.range (j + 1)).map ((ompStep phi n y)^[j] (ompInit phi n y)).I) := by
    intro j
    induction j with
    | zero => exact fun _ => ⟨ompInit_inv phi hn h.unit y, rfl, omp_init_top hn y⟩
    | succ j ih =>
      intro hj
      obtain ⟨i1, i2, i3⟩ := ih (by omega)
      rw [Function.iterate_succ_apply']
      have := omp_step_top h y _ i1 (by rw [i2]; exact i3) (by rw [i2]; omega)
      rw [i2] at this
      exact ⟨this.1, by show _ + 1 = _; rw [i2], this.2⟩
  obtain ⟨k1, k2, k3⟩ := key (K - 1) (by omega)
  rw [hs] at k1 k2 k3
  rw [show K - 1 + 1 = K by omega] at k2 k3
  have := omp_best h k1.toOmpGood (by rw [k2]; exact k3)
  rwa [k2] at this

/-- **C154** (OMP, `operator_solve`) the result with `k` atoms is a best `k`-term approximation. -/
theorem c154_omp_operator {phi : ℕ → H} {n : ℕ} (h : OrthoDict ℝ phi n) (y : H) (hy : y ≠ 0) (K : ℕ) (hK : 1 ≤ K)
    (hcount : K ≤ ((Finset.range n).filter fun i => ⟪phi i, y⟫ ≠ 0).card) (rtol : ℝ) (s : OmpState H) (hs : OmpOperatorSolve phi n y K rtol s) :
    SparseMin phi n y s.k s.signal := by
  have hny : 0 < ‖y‖ := norm_pos_iff.mpr hy
  have hn : 0 < n := by
    have := hcount.trans ((Finset.card_filter_le _ _).trans (Finset.card_range n).le); omega
  obtain ⟨t, ht, rfl⟩ := hs
  set u := (1 / ‖y‖) • y with hu
  have hcu : K ≤ ((Finset.range n).filter fun i => ⟪phi i, u⟫ ≠ 0).card := by
    have := count_scale (𝕜 := ℝ) phi n y (1 / ‖y‖) (by positivity)
    rw [hu, this]; exact hcount
  have key : OmpInv phi n u t ∧ IsTop n (fun i => ⟪phi i, u⟫) t.k ((List.range t.k).map t.I) := by
    refine ht.1.inv (fun t => OmpInv phi n u t ∧ IsTop n (fun i => ⟪phi i, u⟫) t.k ((List.range t.k).map t.I)) ⟨?_, omp_init_top hn u⟩ fun t ih hc => ?_
    · have h0 := ompInit_inv phi hn h.unit u
      exact ⟨⟨h0.range, h0.distinct, h0.indep, h0.residual, h0.orth⟩, h0.atoms, h0.chol⟩
    · exact omp_step_top h u t ih.1 ih.2 (le_trans hc.2 hcu)
  have hb := (omp_best h key.1.toOmpGood key.2).scale ‖y‖ hny.ne'
  have e : ‖y‖ • u = y := by rw [hu, smul_smul, mul_one_div_cancel hny.ne', one_smul]
  rw [e] at hb
  have es : ({ t with x := (fun j => ‖y‖ * t.x j), r := ‖y‖ • t.r, rr := t.rr * ‖y‖ ^ 2 } : OmpState H).signal = fun i => ‖y‖ * t.signal i := by
    funext i
    have hd : (List.range t.k).map t.x = ((List.range t.k).map t.I).map t.signal := coeff_eq_signal _ _ key.2.nodup (by simp)
    show buildSignal ((List.range t.k).map t.I) ((List.range t.k).map fun j => ‖y‖ * t.x j) i = _
    have e2 : ((List.range t.k).map fun j => ‖y‖ * t.x j) = ((List.range t.k).map t.I).map fun i => ‖y‖ * t.signal i := by
      have := congrArg (List.map fun z => ‖y‖ * z) hd
      rw [List.map_map, List.map_map] at this
      exact this
    rw [e2, buildSignal_map]
    by_cases hm : i ∈ (List.range t.k).map t.I
    · rw [if_pos hm]
    · rw [if_neg hm, OmpState.signal, buildSignal_not_mem _ _ _ hm, mul_zero]
  rw [es]
  exact hb

/-- **C154** (matching pursuit) on an orthonormal dictionary the signal after `t` iterations is a best `t`-term approximation of the data. -/
theorem c154_mp {phi : ℕ → H} {n : ℕ} (hn : 0 < n) (h : OrthoDict ℝ phi n) (y : H) (rtol : ℝ) (N : ℕ) (s : MpState H)
    (hs : Reach (mpCond y rtol N) (mpStep phi n y) (mpInit y) s) : SparseMin phi n y s.iters s.x := by
  classical
  have key : ∃ S : Finset ℕ, S ⊆ Finset.range n ∧ (S.card = s.iters ∨ S.card ≤ s.iters ∧ ∀ j, j < n → j ∉ S → ⟪phi j, y⟫ = 0) ∧
      (∀ i ∈ S, s.x i = ⟪phi i, y⟫) ∧ (∀ i, i ∉ S → s.x i = 0) ∧ ∀ i ∈ S, ∀ j, j < n → j ∉ S → ‖⟪phi j, y⟫‖ ≤ ‖⟪phi i, y⟫‖ := by
    refine hs.inv' (fun s => ∃ S : Finset ℕ, S ⊆ Finset.range n ∧ (S.card = s.iters ∨ S.card ≤ s.iters ∧ ∀ j, j < n → j ∉ S → ⟪phi j, y⟫ = 0) ∧
      (∀ i ∈ S, s.x i = ⟪phi i, y⟫) ∧ (∀ i, i ∉ S → s.x i = 0) ∧ ∀ i ∈ S, ∀ j, j < n → j ∉ S → ‖⟪phi j, y⟫‖ ≤ ‖⟪phi i, y⟫‖)
      ⟨∅, by simp, .inl rfl, by simp, fun _ _ => rfl, by simp⟩ fun s hr ih _ => ?_
    obtain ⟨S, hS, hc, hin, hout, hdom⟩ := ih
    have hres : ∀ i, i < n → ⟪phi i, s.r⟫ = ⟪phi i, y⟫ - s.x i := fun i hi => by
      rw [((c44_mp_residual phi n hn y rtol N).1 s hr).1, inner_sub_right, h.inner_synth _ hi]
    have hne : corr ℝ phi n s.r ≠ [] := fun h => by have := congrArg List.length h; rw [corr_length'] at this; simp at this; omega
    obtain ⟨a1, a2, -⟩ := c51_abs_max_idx _ hne
    rw [corr_length'] at a1 a2
    set b := absMaxIdx (corr ℝ phi n s.r) with hb
    have hmax : ∀ i, i < n → ‖⟪phi i, s.r⟫‖ ≤ ‖⟪phi b, s.r⟫‖ := fun i hi => by
      have := a2 i hi
      rwa [corr_getD' _ _ _ hi, corr_getD' _ _ _ a1] at this
    have ex : (mpStep phi n y s).x = Function.update s.x b (s.x b + ⟪phi b, s.r⟫) := by
      show Function.update s.x b (s.x b + (corr ℝ phi n s.r).getD b 0) = _
      rw [corr_getD' _ _ _ a1]
    have eb : s.x b + ⟪phi b, s.r⟫ = ⟪phi b, y⟫ := by rw [hres b a1]; ring
    have ei : (mpStep phi n y s).iters = s.iters + 1 := rfl
    rw [eb] at ex
    by_cases hbS : b ∈ S
    · have hall : ∀ j, j < n → j ∉ S → ⟪phi j, y⟫ = 0 := fun j hj hjS => by
        have := hmax j hj
        rw [hres j hj, hres b a1, hin b hbS, hout j hjS, sub_self, norm_zero, sub_zero] at this
        exact norm_le_zero_iff.1 this
      refine ⟨S, hS, .inr ⟨by rw [ei]; rcases hc with hc | hc <;> omega, hall⟩, fun i hi => ?_, fun i hi => ?_, hdom⟩
      · rw [ex]
        by_cases e : i = b
        · rw [e, Function.update_self]
        · rw [Function.update_of_ne e]; exact hin i hi
      · rw [ex, Function.update_of_ne (show i ≠ b from fun e => hi (by rw [e]; exact hbS))]; exact hout i hi
    · have hsub : insert b S ⊆ Finset.range n := Finset.insert_subset (Finset.mem_range.mpr a1) hS
      refine ⟨insert b S, hsub, ?_, fun i hi => ?_, fun i hi => ?_, fun i hi j hj hjS => ?_⟩
      · rw [Finset.card_insert_of_notMem hbS, ei]
        rcases hc with hc | hc
        · exact .inl (by omega)
        · exact .inr ⟨by omega, fun j hj hjS => hc.2 j hj fun hm => hjS (Finset.mem_insert_of_mem hm)⟩
      · rw [ex]
        by_cases e : i = b
        · rw [e, Function.update_self]
        · rw [Function.update_of_ne e]; exact hin i ((Finset.mem_insert.mp hi).resolve_left e)
      · rw [Finset.mem_insert, not_or] at hi
        rw [ex, Function.update_of_ne hi.1]; exact hout i hi.2
      · rw [Finset.mem_insert, not_or] at hjS
        rcases Finset.mem_insert.mp hi with e | hm
        · have := hmax j hj
          rw [hres j hj, hres b a1, hout j hjS.2, hout b hbS, sub_zero, sub_zero] at this
          rw [e]; exact this
        · exact hdom i hm j hj hjS.2
  obtain ⟨S, hS, hc, hin, hout, hdom⟩ := key
  rcases hc with hc | ⟨hc, hall⟩
  · exact h.best y _ S hS hc _ hin hout hdom
  · refine ⟨⟨S, hS, hc, hout⟩, fun w _ => ?_⟩
    refine abs_le_of_sq_le_sq' ?_ (norm_nonneg _) |>.2
    rw [h.error y s.x, h.error y w]
    refine add_le_add le_rfl ((Finset.sum_eq_zero fun i hi => ?_).le.trans (Finset.sum_nonneg fun i _ => by positivity))
    by_cases hm : i ∈ S
    · rw [hin i hm, sub_self, norm_zero]; norm_num
    · rw [hout i hm, hall i (Finset.mem_range.mp hi) hm, sub_zero, norm_zero]; norm_num

end real

/-! ## The normalised step -/

theorem ortho_step {phi : ℕ → E} {n : ℕ} (h : OrthoDict 𝕜 phi n) (r : E) (I : List ℕ) (hnd : I.Nodup) (hI : ∀ i ∈ I, i < n) (mu : ℝ)
    (hmu : normalizedStep phi (corr 𝕜 phi n r) I = some mu) : mu = 1 := by
  unfold normalizedStep at hmu
  rw [gather_corr phi n r I hI] at hmu
  split at hmu
  · cases hmu
  rename_i hd
  injection hmu with hmu
  set d := lin phi I (I.map fun i => inner 𝕜 (phi i) r) with hdd
  have e : (I.map fun i => inner 𝕜 (phi i) d) = I.map fun i => inner 𝕜 (phi i) r := by
    refine List.map_congr_left fun i hi => ?_
    rw [hdd, lin_eq_synth phi n I _ hnd hI (by simp), h.inner_synth _ (hI i hi), buildSignal_map, if_pos hi]
  have h1 := lin_map_inner (𝕜 := 𝕜) phi d I
  rw [e, ← hdd, inner_self_eq_norm_sq_to_K] at h1
  have h2 : ‖d‖ ^ 2 = ((I.map fun i => inner 𝕜 (phi i) r).map fun c => ‖c‖ ^ 2).sum := by exact_mod_cast h1
  rw [← hmu, ← h2, div_self (by have := norm_pos_iff.mpr hd; positivity)]

/-- The two passes of IHT with the normalised step. -/
theorem niht_ortho {phi : ℕ → E} {n : ℕ} (h : OrthoDict 𝕜 phi n) (y : E) (K : ℕ) (hK : K ≤ n) (c : Option (GState 𝕜 E) → Prop) (o : Option (GState 𝕜 E))
    (hr : Reach c (fun t => t.bind (nihtBody phi n y K)) (nihtInit phi n y K) o) : o = none ∨ o = some (ihtInit phi n 1 y K) := by
  have hin : nihtInit (𝕜 := 𝕜) phi n y K = none ∨ nihtInit (𝕜 := 𝕜) phi n y K = some (ihtInit phi n 1 y K) := by
    unfold nihtInit
    cases hm : normalizedStep phi (corr 𝕜 phi n y) (List.range K) with
    | none => exact .inl rfl
    | some mu =>
      refine .inr ?_
      rw [ortho_step h y _ List.nodup_range (fun i hi => lt_of_lt_of_le (List.mem_range.1 hi) hK) mu hm]; rfl
  refine hr.inv (fun o => o = none ∨ o = some (ihtInit phi n 1 y K)) hin fun o ho _ => ?_
  rcases ho with rfl | rfl
  · exact .inl rfl
  · refine .inl ?_
    have ht := init_ortho (𝕜 := 𝕜) (phi := phi) (n := n) 1 one_pos y K hK
    have hg := ihtInit_good (𝕜 := 𝕜) phi n 1 y K hK
    refine ((c50_niht_undefined phi n y K hK).2 _ ht.top.range).2 fun i hi => ?_
    rw [hg.1.residual, lin_eq_synth phi n _ _ hg.2 hg.1.range hg.1.coeff, inner_sub_right, h.inner_synth _ (ht.top.range i hi)]
    have := ht.coeff i
    rw [if_pos hi] at this
    rw [show buildSignal _ _ i = _ from this]
    simp

/-- **C154, partial** with `normalized=True` a result of IHT that is a number comes from the first pass and is a best `K`-term approximation; the result may not be a number (`c154_niht_fails`). -/
theorem c154_niht_partial {phi : ℕ → E} {n : ℕ} (h : OrthoDict 𝕜 phi n) (y : E) (K : ℕ) (hK : K ≤ n) (maxIters : ℕ) (rtol : ℝ) (s : GState 𝕜 E)
    (hs : NihtSolve phi n y K maxIters rtol (some s)) : s.iters = 1 ∧ SparseMin phi n y K s.signal := by
  rcases niht_ortho h y K hK _ _ hs.1 with h0 | h0
  · cases h0
  · injection h0 with h0
    subst h0
    have ht := init_ortho (𝕜 := 𝕜) (phi := phi) (n := n) 1 one_pos y K hK
    exact ⟨rfl, ht.top.best h _ fun i => by rw [ht.coeff]; simp⟩

/-- **C154 fails** with `normalized=True`: if no `K`-sparse signal meets the tolerance and a second pass is allowed, IHT returns no number, for all data on every orthonormal dictionary. The first
iterate is already the best approximation, its residual is orthogonal to its support, and the step of the second pass is `0/0`. -/
theorem c154_niht_fails {phi : ℕ → E} {n : ℕ} (h : OrthoDict 𝕜 phi n) (y : E) (K : ℕ) (hK : K ≤ n) (maxIters : ℕ) (hm : 2 ≤ maxIters) (rtol : ℝ)
    (hbad : ∀ w : ℕ → 𝕜, SparseOn n K w → ‖y‖ ^ 2 * rtol ^ 2 < ‖y - synth phi n w‖ ^ 2) (o : Option (GState 𝕜 E)) (hs : NihtSolve phi n y K maxIters rtol o) : o = none := by
  cases o with
  | none => rfl
  | some s =>
    exfalso
    obtain ⟨h1, h2⟩ := c154_niht_partial h y K hK maxIters rtol s hs
    obtain ⟨g1, -, -, g4⟩ := c50_niht_state phi n y K hK _ s hs.1
    refine hs.2 ⟨?_, by omega⟩
    rw [g1.normsq, g4]
    exact hbad _ h2.1

/-! ## Instances: the four unit vectors and the data `(1, 1, 1, 1)` -/

theorem exAtoms4_ortho : OrthoDict ℝ exAtoms4 4 := fun i j hi hj => by
  rw [exAtoms4, exAtoms4, dif_pos hi, dif_pos hj, EuclideanSpace.inner_single_left]
  interval_cases i <;> interval_cases j <;> simp

theorem exAtoms4_count : ((Finset.range 4).filter fun i => inner ℝ (exAtoms4 i) (!₂[1, 1, 1, 1] : EuclideanSpace ℝ (Fin 4)) ≠ 0).card = 4 := by
  rw [Finset.filter_true_of_mem, Finset.card_range]
  intro i hi
  have hi' := Finset.mem_range.mp hi
  rw [exAtoms4, dif_pos hi', EuclideanSpace.inner_single_left]
  interval_cases i <;> simp

example : ∃ s : GState ℝ (EuclideanSpace ℝ (Fin 4)), IhtSolve exAtoms4 4 (1 / 2) !₂[1, 1, 1, 1] 2 20 (1e-3) s ∧
    ∃ z : ℕ → ℝ, SparseMin exAtoms4 4 !₂[1, 1, 1, 1] 2 z ∧ ∀ i, s.signal i = (1 - (1 - 1 / 2) ^ s.iters) * z i := by
  obtain ⟨s, hs⟩ := (c50_iht_stop (𝕜 := ℝ) exAtoms4 4 (1 / 2) !₂[1, 1, 1, 1] 2 20 (1e-3) (by norm_num)).1
  obtain ⟨z, hz, h2, -⟩ := c154_iht exAtoms4_ortho (1 / 2) (by norm_num) (by norm_num) _ 2 (by norm_num) 20 (1e-3) s hs
  exact ⟨s, hs, z, hz, h2⟩
example (s : GState ℝ (EuclideanSpace ℝ (Fin 4))) (hs : HtpSolve exAtoms4 4 1 (exLst exAtoms4) !₂[1, 1, 1, 1] 2 20 (1e-3) s) (h2 : 2 ≤ s.iters) :=
  c154_htp exAtoms4_ortho 1 one_pos le_rfl (exLst exAtoms4) _ (fun I => exLst_ok _ I _) 2 (by norm_num) 20 (1e-3) s hs h2
example : ∃ s : GState ℝ (EuclideanSpace ℝ (Fin 4)), SpMatrixSolve exAtoms4 4 (exLst exAtoms4) !₂[1, 1, 1, 1] 2 20 (1e-3) s ∧ SparseMin exAtoms4 4 !₂[1, 1, 1, 1] 2 s.signal := by
  obtain ⟨s, hs⟩ := (c48_sp_matrix_stop (𝕜 := ℝ) exAtoms4 4 (exLst exAtoms4) !₂[1, 1, 1, 1] 2 20 (1e-3) (fun I => exLst_ok _ I _) (by norm_num)).1
  exact ⟨s, hs, c154_sp exAtoms4_ortho _ _ (fun I => exLst_ok _ I _) 2 (by norm_num) (by rw [exAtoms4_count]) 20 (1e-3) s hs⟩
example (s : GState ℝ (EuclideanSpace ℝ (Fin 4))) (hs : SpOperatorSolve exAtoms4 4 (exLst exAtoms4) !₂[1, 1, 1, 1] 2 20 (1e-3) s) :=
  c154_sp_operator exAtoms4_ortho (exLst exAtoms4) _ ex_ones_ne (exLst_ok _) 2 (by norm_num) (by rw [exAtoms4_count]) 20 (1e-3) s hs
example (s : GState ℝ (EuclideanSpace ℝ (Fin 4))) (hs : CosampMatrixSolve exAtoms4 4 (exLst exAtoms4) !₂[1, 1, 1, 1] 1 20 (1e-3) s) (h2 : 2 ≤ s.iters) :=
  c154_cosamp exAtoms4_ortho (exLst exAtoms4) _ (fun I => exLst_ok _ I _) 1 (by norm_num) (by rw [exAtoms4_count]; norm_num) 20 (1e-3) s hs h2
example (s : GState ℝ (EuclideanSpace ℝ (Fin 4))) (hs : CosampOperatorSolve exAtoms4 4 (exLst exAtoms4) !₂[1, 1, 1, 1] 1 20 (1e-3) s) (h2 : 2 ≤ s.iters) :=
  c154_cosamp_operator exAtoms4_ortho (exLst exAtoms4) _ ex_ones_ne (exLst_ok _) 1 (by norm_num) (by rw [exAtoms4_count]; norm_num) 20 (1e-3) s hs h2
example : ∃ s, ompMatrixSolve exAtoms4 4 !₂[1, 1, 1, 1] 3 = some s ∧ SparseMin exAtoms4 4 !₂[1, 1, 1, 1] 3 s.signal :=
  ⟨_, rfl, c154_omp exAtoms4_ortho _ 3 (by rw [exAtoms4_count]; norm_num) _ rfl⟩
example (s) (hs : OmpOperatorSolve exAtoms4 4 !₂[1, 1, 1, 1] 3 (1e-3) s) :=
  c154_omp_operator exAtoms4_ortho _ ex_ones_ne 3 (by norm_num) (by rw [exAtoms4_count]; norm_num) (1e-3) s hs
example (s) (hs : Reach (mpCond (!₂[1, 1, 1, 1] : EuclideanSpace ℝ (Fin 4)) (1e-3) 20) (mpStep exAtoms4 4 !₂[1, 1, 1, 1]) (mpInit !₂[1, 1, 1, 1]) s) :=
  c154_mp (by norm_num) exAtoms4_ortho _ (1e-3) 20 s hs
example (s : GState ℝ (EuclideanSpace ℝ (Fin 4))) (hs : NihtSolve exAtoms4 4 !₂[1, 1, 1, 1] 4 20 (1e-3) (some s)) := c154_niht_partial exAtoms4_ortho _ 4 le_rfl 20 (1e-3) s hs

/-- Two atoms for the data `(1, 1, 1, 1)`: the normalised step gives no number. -/
example : NihtSolve (𝕜 := ℝ) exAtoms4 4 !₂[1, 1, 1, 1] 2 20 (1e-3) none := by
  obtain ⟨o, ho⟩ := (c50_niht_stop (𝕜 := ℝ) exAtoms4 4 !₂[1, 1, 1, 1] 2 20 (1e-3) (by norm_num)).1
  have := c154_niht_fails exAtoms4_ortho _ 2 (by norm_num) 20 (by norm_num) (1e-3) (fun w hw => ?_) o ho
  · rwa [this] at ho
  · obtain ⟨S, hS, hc, h0⟩ := hw
    have hw' : ∃ i ∈ Finset.range 4, i ∉ S := by
      by_contra hcon
      push Not at hcon
      have := Finset.card_le_card (s := Finset.range 4) (t := S) hcon
      rw [Finset.card_range] at this; omega
    obtain ⟨i, hi, hiS⟩ := hw'
    have hz := h0 i hiS
    have hi' := Finset.mem_range.mp hi
    rw [EuclideanSpace.norm_sq_eq, EuclideanSpace.norm_sq_eq]
    simp only [synth, Finset.sum_range_succ, exAtoms4, Fin.sum_univ_four]
    interval_cases i <;> simp [hz] <;> nlinarith [sq_nonneg (1 - w 0), sq_nonneg (1 - w 1), sq_nonneg (1 - w 2), sq_nonneg (1 - w 3)]

end Verif.Pursuit
