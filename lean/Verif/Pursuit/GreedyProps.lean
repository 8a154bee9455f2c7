import Verif.Pursuit.GreedyLemmas

set_option autoImplicit false
/-!
# CoSaMP, subspace pursuit, hard thresholding pursuit, iterative hard thresholding (C47-C50)
-/
noncomputable section
namespace Verif.Pursuit
open Verif.Loop

variable {𝕜 : Type*} [RCLike 𝕜] {E : Type*} [NormedAddCommGroup E] [InnerProductSpace 𝕜 E]

/-- What every state of these algorithms must satisfy: `K` atoms of the dictionary (possibly repeated), one coefficient per atom, the residual is `y` minus the
combination of the atoms with the coefficients, and the reported number is its squared norm. -/
structure GoodState (phi : ℕ → E) (n : ℕ) (y : E) (K : ℕ) (s : GState 𝕜 E) : Prop where
  range : ∀ i ∈ s.I, i < n
  size : s.I.length = K
  coeff : s.x.length = s.I.length
  residual : s.r = y - lin phi s.I s.x
  normsq : s.rr = ‖s.r‖ ^ 2

theorem lin_inner_zero (phi : ℕ → E) (r : E) : ∀ (I : List ℕ) (z : List 𝕜), (∀ i ∈ I, inner 𝕜 (phi i) r = 0) → inner 𝕜 (lin phi I z) r = 0
  | [], z, _ => by cases z <;> simp [lin]
  | i :: I, [], _ => by simp [lin]
  | i :: I, c :: z, h => by
    simp only [lin, inner_add_left, inner_smul_left]
    rw [h i List.mem_cons_self, mul_zero, zero_add]
    exact lin_inner_zero phi r I z fun j hj => h j (List.mem_cons_of_mem _ hj)

/-- A residual orthogonal to the atoms of the support is the smallest residual over that support. -/
theorem least_of_orth (phi : ℕ → E) (y : E) (I : List ℕ) (x z : List 𝕜) (h : ∀ i ∈ I, inner 𝕜 (phi i) (y - lin phi I x) = 0) :
    ‖y - lin phi I x‖ ≤ ‖y - lin phi I z‖ := by
  have e : y - lin phi I z = (y - lin phi I x) + (lin phi I x - lin phi I z) := by abel
  have h0 : inner 𝕜 (y - lin phi I x) (lin phi I x - lin phi I z) = 0 := by
    rw [← inner_conj_symm, inner_sub_left, lin_inner_zero phi _ I x h, lin_inner_zero phi _ I z h]; simp
  refine (pow_le_pow_iff_left₀ (norm_nonneg _) (norm_nonneg _) two_ne_zero).mp ?_
  rw [e, @norm_add_sq 𝕜, h0]
  have := sq_nonneg ‖lin phi I x - lin phi I z‖
  simp only [map_zero]
  linarith

/-! ## Subspace pursuit -/

theorem spInit_good (phi : ℕ → E) (n : ℕ) (lstsq : List ℕ → E → List 𝕜) (y : E) (K : ℕ) (hl : ∀ I, IsLstsq phi I y (lstsq I y)) (hK : K ≤ n) :
    GoodState phi n y K (spInit phi n lstsq y K) ∧ (∀ i ∈ (spInit phi n lstsq y K).I, inner 𝕜 (phi i) (spInit phi n lstsq y K).r = 0) ∧
    (spInit phi n lstsq y K).I.Nodup := by
  obtain ⟨h1, h2, h3, -⟩ := c51_largest_indices (corr 𝕜 phi n y) K
  rw [corr_length'] at h2 h3
  exact ⟨⟨h3, by show (largestIndices _ K).length = K; omega, (hl _).length, rfl, rfl⟩, (hl _).normal, h1⟩

theorem merge_mem (s : List ℕ) (n K K' : ℕ) (h : List 𝕜) (hs : ∀ i ∈ s, i < n) (hn : h.length = n) :
    ∀ i ∈ s ++ largestIndices (zeroAt h s) K', i < n := by
  intro i hi
  rcases List.mem_append.mp hi with h1 | h1
  · exact hs i h1
  · have := (c51_largest_indices (zeroAt h s) K').2.2.1 i h1
    rwa [zeroAt_length, hn] at this

theorem spBody_good (phi : ℕ → E) (n : ℕ) (lstsq : List ℕ → E → List 𝕜) (y : E) (K : ℕ) (hl : ∀ I, IsLstsq phi I y (lstsq I y)) (s : GState 𝕜 E)
    (hs : GoodState phi n y K s) :
    GoodState phi n y K (spBody phi n lstsq y K s) ∧ (∀ i ∈ (spBody phi n lstsq y K s).I, inner 𝕜 (phi i) (spBody phi n lstsq y K s).r = 0) := by
  set J := s.I ++ largestIndices (zeroAt (corr 𝕜 phi n s.r) s.I) K with hJ
  obtain ⟨-, h2, h3, -⟩ := c51_largest_indices (lstsq J y) K
  have hJr : ∀ i ∈ J, i < n := merge_mem s.I n K K _ hs.range (corr_length' _ _ _)
  rw [(hl J).length] at h2 h3
  have hJl : K ≤ J.length := by rw [hJ, List.length_append, hs.size]; omega
  have hI : (spBody phi n lstsq y K s).I = gather 0 J (largestIndices (lstsq J y) K) := rfl
  refine ⟨⟨?_, ?_, (hl _).length, rfl, rfl⟩, (hl _).normal⟩
  · rw [hI]; exact fun i hi => hJr i (gather_mem 0 J _ h3 i hi)
  · rw [hI, gather_length, h2]; omega

theorem spBody_nodup (phi : ℕ → E) (n : ℕ) (lstsq : List ℕ → E → List 𝕜) (y : E) (K : ℕ) (hl : ∀ I, IsLstsq phi I y (lstsq I y)) (s : GState 𝕜 E)
    (hs : s.I.Nodup)
    (hc : K ≤ ((Finset.range n).filter fun i => i ∉ s.I ∧ inner 𝕜 (phi i) s.r ≠ 0).card) : (spBody phi n lstsq y K s).I.Nodup := by
  set J := s.I ++ largestIndices (zeroAt (corr 𝕜 phi n s.r) s.I) K with hJ
  have hI : (spBody phi n lstsq y K s).I = gather 0 J (largestIndices (lstsq J y) K) := rfl
  have hdis := largest_disjoint (corr 𝕜 phi n s.r) s.I K (by
    rw [corr_length']
    refine hc.trans (Finset.card_le_card fun i hi => ?_)
    simp only [Finset.mem_filter, Finset.mem_range] at hi ⊢
    exact ⟨hi.1, hi.2.1, by rw [corr_getD' _ _ _ hi.1]; exact hi.2.2⟩)
  have hJn : J.Nodup := by
    rw [hJ, List.nodup_append]
    refine ⟨hs, (c51_largest_indices _ _).1, fun a ha b hb hab => hdis b hb (hab ▸ ha)⟩
  obtain ⟨h1, -, h3, -⟩ := c51_largest_indices (lstsq J y) K
  rw [(hl J).length] at h3
  rw [hI]
  exact gather_nodup 0 J _ h3 hJn h1

/-- **C48** every state of subspace pursuit (any stop rule `c`): `K` atoms, `r = y - Phi_I x_I`, the reported squared norm, the residual orthogonal to all selected
atoms, and no other coefficients on these atoms give a smaller residual. -/
theorem c48_sp_state (phi : ℕ → E) (n : ℕ) (lstsq : List ℕ → E → List 𝕜) (y : E) (K : ℕ) (hl : ∀ I, IsLstsq phi I y (lstsq I y)) (hK : K ≤ n)
    (c : GState 𝕜 E → Prop) (s : GState 𝕜 E) (h : Reach c (spBody phi n lstsq y K) (spInit phi n lstsq y K) s) :
    GoodState phi n y K s ∧ (∀ i ∈ s.I, inner 𝕜 (phi i) s.r = 0) ∧ ∀ z : List 𝕜, ‖s.r‖ ≤ ‖y - lin phi s.I z‖ := by
  have hh : GoodState phi n y K s ∧ (∀ i ∈ s.I, inner 𝕜 (phi i) s.r = 0) := by
    refine h.inv (fun s => GoodState phi n y K s ∧ (∀ i ∈ s.I, inner 𝕜 (phi i) s.r = 0)) ?_ fun s hs _ => spBody_good phi n lstsq y K hl s hs.1
    exact ⟨(spInit_good phi n lstsq y K hl hK).1, (spInit_good phi n lstsq y K hl hK).2.1⟩
  refine ⟨hh.1, hh.2, fun z => ?_⟩
  rw [hh.1.residual]
  exact least_of_orth phi y s.I s.x z (by rw [← hh.1.residual]; exact hh.2)

/-- **C48** the atoms of a state are pairwise distinct, provided that at each earlier state at least `K` atoms outside the support were correlated with the residual. -/
theorem c48_sp_distinct_partial (phi : ℕ → E) (n : ℕ) (lstsq : List ℕ → E → List 𝕜) (y : E) (K : ℕ) (hl : ∀ I, IsLstsq phi I y (lstsq I y)) (hK : K ≤ n)
    (c : GState 𝕜 E → Prop) (s : GState 𝕜 E) (h : Reach c (spBody phi n lstsq y K) (spInit phi n lstsq y K) s)
    (hc : ∀ t, Reach c (spBody phi n lstsq y K) (spInit phi n lstsq y K) t → c t →
      K ≤ ((Finset.range n).filter fun i => i ∉ t.I ∧ inner 𝕜 (phi i) t.r ≠ 0).card) :
    s.I.Nodup := by
  refine h.inv' (fun s => s.I.Nodup) (spInit_good phi n lstsq y K hl hK).2.2 fun s hr hs hcs => ?_
  exact spBody_nodup phi n lstsq y K hl s hs (hc s hr hcs)

/-- **C48** the stop rule of `sp.matrix_solve`: it returns; the result meets the tolerance or has used the allowed iterations; never more. -/
theorem c48_sp_matrix_stop (phi : ℕ → E) (n : ℕ) (lstsq : List ℕ → E → List 𝕜) (y : E) (K maxIters : ℕ) (rtol : ℝ) (hl : ∀ I, IsLstsq phi I y (lstsq I y)) (hK : K ≤ n) :
    (∃ s, SpMatrixSolve phi n lstsq y K maxIters rtol s) ∧
    ∀ s, SpMatrixSolve phi n lstsq y K maxIters rtol s → (‖s.r‖ ^ 2 ≤ rtol ^ 2 * ‖y‖ ^ 2 ∨ maxIters ≤ s.iters) ∧ s.iters ≤ max maxIters 1 := by
  refine ⟨exists_out (fun s => s.iters) maxIters (fun s h => h.2) fun s => Nat.lt_succ_self _, fun s hs => ⟨?_, ?_⟩⟩
  · have hg := (c48_sp_state phi n lstsq y K hl hK _ s hs.1).1
    by_contra hcon
    push Not at hcon
    exact hs.2 ⟨by rw [hg.normsq]; linarith [hcon.1], hcon.2⟩
  · exact hs.1.cnt_le (fun s => s.iters) maxIters (fun s h => h.2) fun s => rfl

/-- **C48** `sp.operator_solve` for `y ≠ 0`: it returns; `K` atoms, `r = y - Phi_I x_I` in the original scale, residual orthogonal to the selected atoms; the result meets the
tolerance, or has used the allowed iterations, or the support repeated after `min(3K, 20)` iterations. -/
theorem c48_sp_operator (phi : ℕ → E) (n : ℕ) (lstsq : List ℕ → E → List 𝕜) (y : E) (hy : y ≠ 0) (K maxIters : ℕ) (rtol : ℝ)
    (hl : ∀ I z, IsLstsq phi I z (lstsq I z)) (hK : K ≤ n) :
    (∃ s, SpOperatorSolve phi n lstsq y K maxIters rtol s) ∧
    ∀ s, SpOperatorSolve phi n lstsq y K maxIters rtol s → GoodState phi n y K s ∧ (∀ i ∈ s.I, inner 𝕜 (phi i) s.r = 0) ∧ s.iters ≤ max maxIters 1 ∧
      (‖s.r‖ ^ 2 ≤ rtol ^ 2 * ‖y‖ ^ 2 ∨ maxIters ≤ s.iters ∨ (min (3 * K) 20 ≤ s.iters ∧ s.I = s.Iprev)) := by
  set u : E := ((1 / ‖y‖ : ℝ) : 𝕜) • y with hu
  have hny : 0 < ‖y‖ := norm_pos_iff.mpr hy
  constructor
  · obtain ⟨t, ht⟩ : ∃ t, Out (supportCond (𝕜 := 𝕜) (E := E) (rtol ^ 2) maxIters K) (spBody phi n lstsq u K) (spInit phi n lstsq u K) t :=
      exists_out (fun s => s.iters) maxIters (fun s h => h.1.2) fun s => Nat.lt_succ_self _
    exact ⟨_, t, ht, rfl⟩
  rintro s ⟨t, ht, rfl⟩
  obtain ⟨hg, ho, -⟩ := c48_sp_state phi n lstsq u K (fun I => hl I u) hK _ t ht.1
  have hr : (((‖y‖ : ℝ) : 𝕜)) • t.r = y - lin phi t.I (t.x.map fun c => (((‖y‖ : ℝ) : 𝕜)) * c) := by
    rw [hg.residual, lin_smul, smul_sub, hu, smul_smul, ← RCLike.ofReal_mul, mul_one_div_cancel hny.ne', RCLike.ofReal_one, one_smul]
  have hnr : ‖(((‖y‖ : ℝ) : 𝕜)) • t.r‖ ^ 2 = t.rr * ‖y‖ ^ 2 := by
    rw [hg.normsq, norm_smul, RCLike.norm_ofReal, abs_norm]; ring
  refine ⟨⟨hg.range, hg.size, by show (t.x.map _).length = t.I.length; rw [List.length_map]; exact hg.coeff, hr, hnr.symm⟩, fun i hi => ?_,
    ht.1.cnt_le (fun s => s.iters) maxIters (fun s h => h.1.2) fun s => rfl, ?_⟩
  · show inner 𝕜 (phi i) ((((‖y‖ : ℝ) : 𝕜)) • t.r) = 0
    rw [inner_smul_right, ho i hi, mul_zero]
  · show ‖(((‖y‖ : ℝ) : 𝕜)) • t.r‖ ^ 2 ≤ _ ∨ maxIters ≤ t.iters ∨ (min (3 * K) 20 ≤ t.iters ∧ t.I = t.Iprev)
    rw [hnr]
    by_contra hcon
    push Not at hcon
    obtain ⟨a1, a2, a3⟩ := hcon
    refine ht.2 ⟨⟨?_, a2⟩, ?_⟩
    · exact lt_of_mul_lt_mul_right a1 (by positivity)
    · by_cases hmi : t.iters < min (3 * K) 20
      · exact .inl hmi
      · exact .inr (a3 (by omega))

/-! ## CoSaMP -/

theorem cosampBody_good (phi : ℕ → E) (n : ℕ) (lstsq : List ℕ → E → List 𝕜) (y : E) (K : ℕ) (hl : ∀ I, IsLstsq phi I y (lstsq I y)) (s : GState 𝕜 E)
    (hs : GoodState phi n y K s) : GoodState phi n y K (cosampBody phi n lstsq y K s) := by
  set J := s.I ++ largestIndices (zeroAt (corr 𝕜 phi n s.r) s.I) (2 * K) with hJ
  obtain ⟨-, h2, h3, -⟩ := c51_largest_indices (lstsq J y) K
  have hJr : ∀ i ∈ J, i < n := merge_mem s.I n K (2 * K) _ hs.range (corr_length' _ _ _)
  rw [(hl J).length] at h2 h3
  have hJl : K ≤ J.length := by rw [hJ, List.length_append, hs.size]; omega
  have hI : (cosampBody phi n lstsq y K s).I = gather 0 J (largestIndices (lstsq J y) K) := rfl
  have hx : (cosampBody phi n lstsq y K s).x = gather 0 (lstsq J y) (largestIndices (lstsq J y) K) := rfl
  refine ⟨?_, ?_, ?_, rfl, rfl⟩
  · rw [hI]; exact fun i hi => hJr i (gather_mem 0 J _ h3 i hi)
  · rw [hI, gather_length, h2]; omega
  · rw [hI, hx, gather_length, gather_length]

theorem cosampInit_good (phi : ℕ → E) (n : ℕ) (lstsq : List ℕ → E → List 𝕜) (y : E) (K : ℕ) (hl : ∀ I, IsLstsq phi I y (lstsq I y)) (hK : K ≤ n) :
    GoodState phi n y K (cosampInit phi n lstsq y K) ∧ (cosampInit phi n lstsq y K).I.Nodup := by
  set J := largestIndices (corr 𝕜 phi n y) (K + 2 * K) with hJ
  obtain ⟨j1, j2, j3, -⟩ := c51_largest_indices (corr 𝕜 phi n y) (K + 2 * K)
  obtain ⟨h1, h2, h3, -⟩ := c51_largest_indices (lstsq J y) K
  rw [corr_length'] at j2 j3
  rw [(hl J).length] at h2 h3
  have hI : (cosampInit phi n lstsq y K).I = (gather 0 J (largestIndices (lstsq J y) K)).mergeSort := rfl
  have hx : (cosampInit phi n lstsq y K).x = gather 0 (lstsq J y) (largestIndices (lstsq J y) K) := rfl
  have hp : (gather 0 J (largestIndices (lstsq J y) K)).mergeSort.Perm (gather 0 J (largestIndices (lstsq J y) K)) := List.mergeSort_perm _ _
  refine ⟨⟨?_, ?_, ?_, rfl, rfl⟩, ?_⟩
  · rw [hI]; exact fun i hi => j3 i (gather_mem 0 J _ h3 i (hp.mem_iff.mp hi))
  · rw [hI, hp.length_eq, gather_length, h2]; rw [← hJ] at j2; omega
  · rw [hI, hx, hp.length_eq, gather_length, gather_length]
  · rw [hI, hp.nodup_iff]; exact gather_nodup 0 J _ h3 j1 h1

/-- **C47** every state of CoSaMP (any stop rule): `K` atoms with one coefficient each, `r = y - Phi_I x_I` and the reported squared norm. -/
theorem c47_cosamp_state (phi : ℕ → E) (n : ℕ) (lstsq : List ℕ → E → List 𝕜) (y : E) (K : ℕ) (hl : ∀ I, IsLstsq phi I y (lstsq I y)) (hK : K ≤ n)
    (c : GState 𝕜 E → Prop) (s : GState 𝕜 E) (h : Reach c (cosampBody phi n lstsq y K) (cosampInit phi n lstsq y K) s) : GoodState phi n y K s :=
  h.inv (GoodState phi n y K) (cosampInit_good phi n lstsq y K hl hK).1 fun s hs _ => cosampBody_good phi n lstsq y K hl s hs

/-- **C47** the atoms of a state are pairwise distinct, provided that at each earlier state at least `2K` atoms outside the support were correlated with the residual. -/
theorem c47_cosamp_distinct_partial (phi : ℕ → E) (n : ℕ) (lstsq : List ℕ → E → List 𝕜) (y : E) (K : ℕ) (hl : ∀ I, IsLstsq phi I y (lstsq I y)) (hK : K ≤ n)
    (c : GState 𝕜 E → Prop) (s : GState 𝕜 E) (h : Reach c (cosampBody phi n lstsq y K) (cosampInit phi n lstsq y K) s)
    (hc : ∀ t, Reach c (cosampBody phi n lstsq y K) (cosampInit phi n lstsq y K) t → c t →
      2 * K ≤ ((Finset.range n).filter fun i => i ∉ t.I ∧ inner 𝕜 (phi i) t.r ≠ 0).card) :
    s.I.Nodup := by
  refine h.inv' (fun s => s.I.Nodup) (cosampInit_good phi n lstsq y K hl hK).2 fun s hr hs hcs => ?_
  set J := s.I ++ largestIndices (zeroAt (corr 𝕜 phi n s.r) s.I) (2 * K) with hJ
  have hI : (cosampBody phi n lstsq y K s).I = gather 0 J (largestIndices (lstsq J y) K) := rfl
  have hdis := largest_disjoint (corr 𝕜 phi n s.r) s.I (2 * K) (by
    rw [corr_length']
    refine (hc s hr hcs).trans (Finset.card_le_card fun i hi => ?_)
    simp only [Finset.mem_filter, Finset.mem_range] at hi ⊢
    exact ⟨hi.1, hi.2.1, by rw [corr_getD' _ _ _ hi.1]; exact hi.2.2⟩)
  have hJn : J.Nodup := by
    rw [hJ, List.nodup_append]
    refine ⟨hs, (c51_largest_indices _ _).1, fun a ha b hb hab => hdis b hb (hab ▸ ha)⟩
  obtain ⟨h1, -, h3, -⟩ := c51_largest_indices (lstsq J y) K
  rw [(hl J).length] at h3
  rw [hI]
  exact gather_nodup 0 J _ h3 hJn h1

/-- **C47** from the second state on, the coefficients are paired with the right atoms: there is a least-squares fit `z` of `y` on a list `J` of atoms containing the previous support, and the state lists, atom by atom, the `K`
largest of its coefficients with their atoms. -/
theorem c47_cosamp_pairing_partial (phi : ℕ → E) (n : ℕ) (lstsq : List ℕ → E → List 𝕜) (y : E) (K : ℕ) (hl : ∀ I, IsLstsq phi I y (lstsq I y)) (s : GState 𝕜 E) :
    ∃ (J : List ℕ) (z : List 𝕜), s.I <+: J ∧ IsLstsq phi J y z ∧ ∃ P : List ℕ, P.Nodup ∧ (∀ k ∈ P, k < J.length) ∧
      (cosampBody phi n lstsq y K s).I = P.map (fun k => J.getD k 0) ∧ (cosampBody phi n lstsq y K s).x = P.map (fun k => z.getD k 0) ∧
      ∀ k ∈ P, ∀ l, l < J.length → l ∉ P → ‖z.getD l 0‖ ≤ ‖z.getD k 0‖ := by
  set J := s.I ++ largestIndices (zeroAt (corr 𝕜 phi n s.r) s.I) (2 * K) with hJ
  obtain ⟨h1, -, h3, -, h5⟩ := c51_largest_indices (lstsq J y) K
  rw [(hl J).length] at h3 h5
  exact ⟨J, lstsq J y, List.prefix_append _ _, hl J, largestIndices (lstsq J y) K, h1, h3, rfl, rfl, h5⟩

/-- **C47** both versions return; they use at most `max_iters` iterations (at least one); `matrix_solve` meets the tolerance or has used them all. -/
theorem c47_cosamp_stop (phi : ℕ → E) (n : ℕ) (lstsq : List ℕ → E → List 𝕜) (y : E) (hy : y ≠ 0) (K maxIters : ℕ) (rtol : ℝ) (hl : ∀ I z, IsLstsq phi I z (lstsq I z)) (hK : K ≤ n) :
    (∃ s, CosampMatrixSolve phi n lstsq y K maxIters rtol s) ∧ (∃ s, CosampOperatorSolve phi n lstsq y K maxIters rtol s) ∧
    (∀ s, CosampMatrixSolve phi n lstsq y K maxIters rtol s → (‖s.r‖ ^ 2 ≤ rtol ^ 2 * ‖y‖ ^ 2 ∨ maxIters ≤ s.iters) ∧ s.iters ≤ max maxIters 1) ∧
    (∀ s, CosampOperatorSolve phi n lstsq y K maxIters rtol s → s.iters ≤ max maxIters 1) := by
  refine ⟨exists_out (fun s => s.iters) maxIters (fun s h => h.2) fun s => Nat.lt_succ_self _, ?_, fun s hs => ⟨?_, ?_⟩, ?_⟩
  · obtain ⟨t, ht⟩ : ∃ t, Out (supportCond (𝕜 := 𝕜) (E := E) (rtol ^ 2) maxIters K) (cosampBody phi n lstsq (((1 / ‖y‖ : ℝ) : 𝕜) • y) K) (cosampInit phi n lstsq (((1 / ‖y‖ : ℝ) : 𝕜) • y) K) t :=
      exists_out (fun s => s.iters) maxIters (fun s h => h.1.2) fun s => Nat.lt_succ_self _
    exact ⟨_, t, ht, rfl⟩
  · have hg := c47_cosamp_state phi n lstsq y K (fun I => hl I y) hK _ s hs.1
    by_contra hcon
    push Not at hcon
    exact hs.2 ⟨by rw [hg.normsq]; linarith [hcon.1], hcon.2⟩
  · exact hs.1.cnt_le (fun s => s.iters) maxIters (fun s h => h.2) fun s => rfl
  · rintro s ⟨t, ht, rfl⟩
    exact ht.1.cnt_le (fun s => s.iters) maxIters (fun s h => h.1.2) fun s => rfl

/-- **C47** what `operator_solve` of CoSaMP returns, for a non-zero signal: the state refers to the original signal (not to the normalised one), and the loop ended because the residual meets the relative
tolerance, or the allowed iterations are used, or the support repeated after `min(3K, 20)` iterations. -/
theorem c47_cosamp_operator (phi : ℕ → E) (n : ℕ) (lstsq : List ℕ → E → List 𝕜) (y : E) (hy : y ≠ 0) (K maxIters : ℕ) (rtol : ℝ)
    (hl : ∀ I z, IsLstsq phi I z (lstsq I z)) (hK : K ≤ n) (s : GState 𝕜 E) (h : CosampOperatorSolve phi n lstsq y K maxIters rtol s) :
    GoodState phi n y K s ∧ (‖s.r‖ ^ 2 ≤ rtol ^ 2 * ‖y‖ ^ 2 ∨ maxIters ≤ s.iters ∨ (min (3 * K) 20 ≤ s.iters ∧ s.I = s.Iprev)) := by
  set u : E := ((1 / ‖y‖ : ℝ) : 𝕜) • y with hu
  have hny : 0 < ‖y‖ := norm_pos_iff.mpr hy
  obtain ⟨t, ht, rfl⟩ := h
  have hg := c47_cosamp_state phi n lstsq u K (fun I => hl I u) hK _ t ht.1
  have hr : (((‖y‖ : ℝ) : 𝕜)) • t.r = y - lin phi t.I (t.x.map fun c => (((‖y‖ : ℝ) : 𝕜)) * c) := by
    rw [hg.residual, lin_smul, smul_sub, hu, smul_smul, ← RCLike.ofReal_mul, mul_one_div_cancel hny.ne', RCLike.ofReal_one, one_smul]
  have hnr : ‖(((‖y‖ : ℝ) : 𝕜)) • t.r‖ ^ 2 = t.rr * ‖y‖ ^ 2 := by
    rw [hg.normsq, norm_smul, RCLike.norm_ofReal, abs_norm]; ring
  refine ⟨⟨hg.range, hg.size, by show (t.x.map _).length = t.I.length; rw [List.length_map]; exact hg.coeff, hr, hnr.symm⟩, ?_⟩
  show ‖(((‖y‖ : ℝ) : 𝕜)) • t.r‖ ^ 2 ≤ _ ∨ maxIters ≤ t.iters ∨ (min (3 * K) 20 ≤ t.iters ∧ t.I = t.Iprev)
  rw [hnr]
  by_contra hcon
  push Not at hcon
  obtain ⟨a1, a2, a3⟩ := hcon
  refine ht.2 ⟨⟨?_, a2⟩, ?_⟩
  · exact lt_of_mul_lt_mul_right a1 (by positivity)
  · by_cases hmi : t.iters < min (3 * K) 20
    · exact .inl hmi
    · exact .inr (a3 (by omega))

/-! ## Hard thresholding pursuit and iterative hard thresholding -/

theorem gradStep_length (n : ℕ) (I : List ℕ) (x : List 𝕜) (mu : ℝ) (h : List 𝕜) : (gradStep n I x mu h).length = n := by simp [gradStep]

theorem gradStep_getD (n : ℕ) (I : List ℕ) (x : List 𝕜) (mu : ℝ) (h : List 𝕜) {i : ℕ} (hi : i < n) :
    (gradStep n I x mu h).getD i 0 = buildSignal I x i + (mu : 𝕜) * h.getD i 0 := by
  simp [gradStep, List.getD_eq_getElem?_getD, hi]

theorem hardK_good (phi : ℕ → E) (n : ℕ) (y : E) (K : ℕ) (hK : K ≤ n) (g : List 𝕜) (hg : g.length = n) (it : ℕ) (Ip : List ℕ) :
    GoodState phi n y K (mkState phi y (hardThresholdK g K).1 (hardThresholdK g K).2 it Ip) ∧ (hardThresholdK g K).1.Nodup := by
  obtain ⟨h1, h2, h3, -⟩ := c51_largest_indices g K
  rw [hg] at h2 h3
  exact ⟨⟨h3, by show (largestIndices g K).length = K; omega, gather_length _ _ _, rfl, rfl⟩, h1⟩

theorem ihtInit_good (phi : ℕ → E) (n : ℕ) (mu : ℝ) (y : E) (K : ℕ) (hK : K ≤ n) :
    GoodState (𝕜 := 𝕜) phi n y K (ihtInit phi n mu y K) ∧ (ihtInit (𝕜 := 𝕜) phi n mu y K).I.Nodup :=
  hardK_good phi n y K hK _ (gradStep_length ..) 1 _

/-- **C50** every state of IHT: a support of `K` pairwise distinct atoms with one coefficient each and `r = y - Phi x`, where `x` is the full vector
that has these coefficients on the support and zero elsewhere; the squared residual norm is the reported one. -/
theorem c50_iht_state (phi : ℕ → E) (n : ℕ) (mu : ℝ) (y : E) (K : ℕ) (hK : K ≤ n) (c : GState 𝕜 E → Prop) (s : GState 𝕜 E)
    (h : Reach c (ihtBody phi n mu y K) (ihtInit phi n mu y K) s) :
    GoodState phi n y K s ∧ s.I.Nodup ∧ s.r = y - synth phi n (buildSignal s.I s.x) ∧ ∀ i, i ∉ s.I → buildSignal s.I s.x i = 0 := by
  have hh : GoodState phi n y K s ∧ s.I.Nodup := by
    refine h.inv (fun s => GoodState phi n y K s ∧ s.I.Nodup) (ihtInit_good phi n mu y K hK) fun s _ _ => ?_
    exact hardK_good phi n y K hK _ (gradStep_length ..) _ _
  exact ⟨hh.1, hh.2, by rw [hh.1.residual, lin_eq_synth phi n s.I s.x hh.2 hh.1.range hh.1.coeff], fun i hi => buildSignal_not_mem _ _ _ hi⟩

theorem synth_sub (phi : ℕ → E) (n : ℕ) (a b : ℕ → 𝕜) : synth phi n (fun i => a i - b i) = synth phi n a - synth phi n b := by
  simp [synth, sub_smul, Finset.sum_sub_distrib]

theorem re_inner_synth (phi : ℕ → E) (n : ℕ) (r : E) (d : ℕ → 𝕜) :
    RCLike.re (inner 𝕜 r (synth phi n d)) = ∑ i ∈ Finset.range n, RCLike.re (inner 𝕜 (inner 𝕜 (phi i) r) (d i)) := by
  rw [synth, _root_.inner_sum, map_sum]
  refine Finset.sum_congr rfl fun i _ => ?_
  rw [inner_smul_right, RCLike.inner_apply, inner_conj_symm, mul_comm]

/-- **C50** with a fixed step `mu > 0` such that `mu |Phi z|² ≤ |z|²` for all `z` (that is `mu ≤ 1/|Phi|²`), one iteration of IHT never increases the
residual norm, from any state whose support has at most `K` distinct atoms and whose residual is consistent. -/
theorem c50_iht_monotone (phi : ℕ → E) (n : ℕ) (mu : ℝ) (hmu : 0 < mu) (hb : ∀ z : ℕ → 𝕜, mu * ‖synth phi n z‖ ^ 2 ≤ ∑ i ∈ Finset.range n, ‖z i‖ ^ 2)
    (y : E) (K : ℕ) (hK : K ≤ n) (c : GState 𝕜 E → Prop) (s : GState 𝕜 E)
    (h : Reach c (ihtBody phi n mu y K) (ihtInit phi n mu y K) s) :
    ‖(ihtBody phi n mu y K s).r‖ ≤ ‖s.r‖ := by
  obtain ⟨hg, hn, hr, hz⟩ := c50_iht_state phi n mu y K hK c s h
  set g := gradStep n s.I s.x mu (corr 𝕜 phi n s.r) with hgd
  have hgl : g.length = n := gradStep_length ..
  obtain ⟨h1, h2, h3, -⟩ := c51_largest_indices g K
  rw [hgl] at h2 h3
  set x : ℕ → 𝕜 := buildSignal s.I s.x with hx
  set x' : ℕ → 𝕜 := fun i => if i ∈ largestIndices g K then g.getD i 0 else 0 with hx'
  have hr' : (ihtBody phi n mu y K s).r = y - synth phi n x' := by
    show y - lin phi (largestIndices g K) (gather 0 g (largestIndices g K)) = _
    rw [lin_eq_synth phi n _ _ h1 h3 (gather_length _ _ _)]
    congr 2
    funext i
    rw [buildSignal_gather, hx']
  have hbest := c51_best_K_term g K x s.I.toFinset (by rw [List.toFinset_card_of_nodup hn, hg.size]) (fun i _ hi => hz i (by simpa using hi))
  rw [hgl] at hbest
  set d : ℕ → 𝕜 := fun i => x' i - x i with hd
  -- the K-term approximation gives `|d|² ≤ 2 mu Re <h, d>`
  have hkey : ∑ i ∈ Finset.range n, ‖d i‖ ^ 2 ≤ 2 * mu * RCLike.re (inner 𝕜 s.r (synth phi n d)) := by
    rw [re_inner_synth, Finset.mul_sum]
    have e1 : ∀ i ∈ Finset.range n, ‖g.getD i 0 - x' i‖ ^ 2 = ‖(mu : 𝕜) * inner 𝕜 (phi i) s.r‖ ^ 2 - 2 * mu * RCLike.re (inner 𝕜 (inner 𝕜 (phi i) s.r) (d i)) + ‖d i‖ ^ 2 := by
      intro i hi
      have hi' := Finset.mem_range.mp hi
      have : g.getD i 0 - x' i = (mu : 𝕜) * inner 𝕜 (phi i) s.r - d i := by
        rw [hgd, gradStep_getD n _ _ _ _ hi', corr_getD' _ _ _ hi', hd]; ring
      rw [this, @norm_sub_sq 𝕜, ← smul_eq_mul, inner_smul_left, RCLike.conj_ofReal, RCLike.re_ofReal_mul]; ring
    have e2 : ∀ i ∈ Finset.range n, ‖g.getD i 0 - x i‖ ^ 2 = ‖(mu : 𝕜) * inner 𝕜 (phi i) s.r‖ ^ 2 := by
      intro i hi
      have hi' := Finset.mem_range.mp hi
      rw [hgd, gradStep_getD n _ _ _ _ hi', corr_getD' _ _ _ hi', add_sub_cancel_left]
    rw [Finset.sum_congr rfl e1, Finset.sum_congr rfl e2, Finset.sum_add_distrib, Finset.sum_sub_distrib] at hbest
    linarith
  have hbd := hb d
  have hnew : (ihtBody phi n mu y K s).r = s.r - synth phi n d := by
    rw [hr', hr, hd, synth_sub]; abel
  refine (pow_le_pow_iff_left₀ (norm_nonneg _) (norm_nonneg _) two_ne_zero).mp ?_
  rw [hnew, @norm_sub_sq 𝕜]
  have : mu * (‖synth phi n d‖ ^ 2 - 2 * RCLike.re (inner 𝕜 s.r (synth phi n d))) ≤ 0 := by nlinarith
  have h4 : ‖synth phi n d‖ ^ 2 - 2 * RCLike.re (inner 𝕜 s.r (synth phi n d)) ≤ 0 := by
    by_contra hcon
    push Not at hcon
    nlinarith [mul_pos hmu hcon]
  linarith

/-- **C50** IHT returns within `max_iters` iterations, and meets the tolerance or has used them all. -/
theorem c50_iht_stop (phi : ℕ → E) (n : ℕ) (mu : ℝ) (y : E) (K maxIters : ℕ) (rtol : ℝ) (hK : K ≤ n) :
    (∃ s : GState 𝕜 E, IhtSolve phi n mu y K maxIters rtol s) ∧
    ∀ s : GState 𝕜 E, IhtSolve phi n mu y K maxIters rtol s → (‖s.r‖ ^ 2 ≤ rtol ^ 2 * ‖y‖ ^ 2 ∨ maxIters ≤ s.iters) ∧ s.iters ≤ max maxIters 1 := by
  refine ⟨exists_out (fun s => s.iters) maxIters (fun s h => h.2) fun s => Nat.lt_succ_self _, fun s hs => ⟨?_, ?_⟩⟩
  · have hg := (c50_iht_state phi n mu y K hK _ s hs.1).1
    by_contra hcon
    push Not at hcon
    exact hs.2 ⟨by rw [hg.normsq]; linarith [hcon.1], hcon.2⟩
  · exact hs.1.cnt_le (fun s => s.iters) maxIters (fun s h => h.2) fun s => rfl

/-- **C49** every state of HTP has `K` pairwise distinct atoms, one coefficient each, `r = y - Phi_I x_I`; after the first state the residual is orthogonal to all selected atoms and
minimal over the support. -/
theorem c49_htp_state (phi : ℕ → E) (n : ℕ) (mu : ℝ) (lstsq : List ℕ → E → List 𝕜) (y : E) (K : ℕ) (hl : ∀ I, IsLstsq phi I y (lstsq I y)) (hK : K ≤ n)
    (c : GState 𝕜 E → Prop) (s : GState 𝕜 E) (h : Reach c (htpBody phi n mu lstsq y K) (ihtInit phi n mu y K) s) :
    GoodState phi n y K s ∧ s.I.Nodup ∧ 1 ≤ s.iters ∧
      (2 ≤ s.iters → (∀ i ∈ s.I, inner 𝕜 (phi i) s.r = 0) ∧ (∀ z : List 𝕜, ‖s.r‖ ≤ ‖y - lin phi s.I z‖) ∧ s.x = lstsq s.I y) := by
  refine h.inv (fun s => GoodState phi n y K s ∧ s.I.Nodup ∧ 1 ≤ s.iters ∧
      (2 ≤ s.iters → (∀ i ∈ s.I, inner 𝕜 (phi i) s.r = 0) ∧ (∀ z : List 𝕜, ‖s.r‖ ≤ ‖y - lin phi s.I z‖) ∧ s.x = lstsq s.I y)) ?_ fun s _ _ => ?_
  · obtain ⟨h1, h2⟩ := ihtInit_good (𝕜 := 𝕜) phi n mu y K hK
    exact ⟨h1, h2, le_rfl, fun h => by simp [ihtInit, mkState] at h⟩
  · set g := gradStep n s.I s.x mu (corr 𝕜 phi n s.r) with hg
    have hgl : g.length = n := gradStep_length ..
    obtain ⟨h1, h2, h3, -⟩ := c51_largest_indices g K
    rw [hgl] at h2 h3
    have hp := (c51_hard_threshold_sorted g K).1
    have hI : (htpBody phi n mu lstsq y K s).I = (hardThresholdSorted g K).1 := rfl
    refine ⟨⟨?_, ?_, (hl _).length, rfl, rfl⟩, ?_, Nat.le_add_left 1 _, fun _ => ⟨(hl _).normal, fun z => ?_, rfl⟩⟩
    · rw [hI]; exact fun i hi => h3 i (hp.mem_iff.mp hi)
    · rw [hI, hp.length_eq]; show (largestIndices g K).length = K; omega
    · rw [hI, hp.nodup_iff]; exact h1
    · exact least_of_orth phi y _ _ z (hl _).normal

/-- **C49** a fixed point of the support stops HTP: at a state `s` (not the first) whose support is selected again, the next state has the same support, coefficients and residual, so do all later ones, and
once `min(3K, 20)` iterations are done the loop condition is false. -/
theorem c49_htp_support_fixed (phi : ℕ → E) (n : ℕ) (mu : ℝ) (lstsq : List ℕ → E → List 𝕜) (y : E) (K maxIters : ℕ) (tol : ℝ) (hl : ∀ I, IsLstsq phi I y (lstsq I y)) (hK : K ≤ n)
    (c : GState 𝕜 E → Prop) (s : GState 𝕜 E) (h : Reach c (htpBody phi n mu lstsq y K) (ihtInit phi n mu y K) s) (h2 : 2 ≤ s.iters)
    (hfix : (htpBody phi n mu lstsq y K s).I = s.I) (j : ℕ) :
    ((htpBody phi n mu lstsq y K)^[j] s).I = s.I ∧ ((htpBody phi n mu lstsq y K)^[j] s).x = s.x ∧ ((htpBody phi n mu lstsq y K)^[j] s).r = s.r ∧
    (1 ≤ j → min (3 * K) 20 ≤ s.iters + j → ¬ supportCond tol maxIters K ((htpBody phi n mu lstsq y K)^[j] s)) := by
  obtain ⟨hg, -, -, hrest⟩ := c49_htp_state phi n mu lstsq y K hl hK c s h
  have hx := (hrest h2).2.2
  -- the next state depends only on the support, coefficients and residual
  have hdep : ∀ t : GState 𝕜 E, t.I = s.I → t.x = s.x → t.r = s.r →
      (htpBody phi n mu lstsq y K t).I = s.I ∧ (htpBody phi n mu lstsq y K t).x = s.x ∧ (htpBody phi n mu lstsq y K t).r = s.r ∧
      (htpBody phi n mu lstsq y K t).Iprev = s.I ∧ (htpBody phi n mu lstsq y K t).iters = t.iters + 1 := by
    intro t ht1 ht2 ht3
    have e : (htpBody phi n mu lstsq y K t).I = s.I := by
      rw [← hfix]; simp only [htpBody, mkState, ht1, ht2, ht3]
    have ex : (htpBody phi n mu lstsq y K t).x = s.x := by
      rw [hx, ← e]; rfl
    refine ⟨e, ex, ?_, ht1, rfl⟩
    have : (htpBody phi n mu lstsq y K t).r = y - lin phi (htpBody phi n mu lstsq y K t).I (htpBody phi n mu lstsq y K t).x := rfl
    rw [this, e, ex, hg.residual]
  have hall : ∀ j, ((htpBody phi n mu lstsq y K)^[j] s).I = s.I ∧ ((htpBody phi n mu lstsq y K)^[j] s).x = s.x ∧ ((htpBody phi n mu lstsq y K)^[j] s).r = s.r ∧
      ((htpBody phi n mu lstsq y K)^[j] s).iters = s.iters + j ∧ (1 ≤ j → ((htpBody phi n mu lstsq y K)^[j] s).Iprev = s.I) := by
    intro j
    induction j with
    | zero => exact ⟨rfl, rfl, rfl, rfl, fun h => absurd h (by norm_num)⟩
    | succ j ih =>
      obtain ⟨i1, i2, i3, i4, -⟩ := ih
      rw [Function.iterate_succ_apply']
      obtain ⟨d1, d2, d3, d4, d5⟩ := hdep _ i1 i2 i3
      exact ⟨d1, d2, d3, by rw [d5, i4]; omega, fun _ => d4⟩
  obtain ⟨a1, a2, a3, a4, a5⟩ := hall j
  refine ⟨a1, a2, a3, fun hj hm hcond => ?_⟩
  rcases hcond.2 with hlt | hne
  · rw [a4] at hlt; omega
  · exact hne (by rw [a1, a5 hj])

/-- **C49** HTP returns within `max_iters` iterations; the result meets the tolerance, has used them all, or its support was selected twice in a row. -/
theorem c49_htp_stop (phi : ℕ → E) (n : ℕ) (mu : ℝ) (lstsq : List ℕ → E → List 𝕜) (y : E) (K maxIters : ℕ) (rtol : ℝ) (hl : ∀ I, IsLstsq phi I y (lstsq I y)) (hK : K ≤ n) :
    (∃ s, HtpSolve phi n mu lstsq y K maxIters rtol s) ∧
    ∀ s, HtpSolve phi n mu lstsq y K maxIters rtol s → s.iters ≤ max maxIters 1 ∧
      (‖s.r‖ ^ 2 ≤ rtol ^ 2 * ‖y‖ ^ 2 ∨ maxIters ≤ s.iters ∨ (min (3 * K) 20 ≤ s.iters ∧ s.I = s.Iprev)) := by
  refine ⟨exists_out (fun s => s.iters) maxIters (fun s h => h.1.2) fun s => Nat.lt_succ_self _, fun s hs => ⟨?_, ?_⟩⟩
  · exact hs.1.cnt_le (fun s => s.iters) maxIters (fun s h => h.1.2) fun s => rfl
  · have hg := (c49_htp_state phi n mu lstsq y K hl hK _ s hs.1).1
    by_contra hcon
    push Not at hcon
    obtain ⟨a1, a2, a3⟩ := hcon
    refine hs.2 ⟨⟨by rw [hg.normsq]; linarith, a2⟩, ?_⟩
    by_cases hmi : s.iters < min (3 * K) 20
    · exact .inl hmi
    · exact .inr (a3 (by omega))

/-! Instances: four orthonormal atoms, the signal `(1, 1, 1, 1)`, sparsity 1. Every residual keeps three nonzero correlations. -/

/-- The standard basis of `ℝ⁴`. -/
def exAtoms4 (i : ℕ) : EuclideanSpace ℝ (Fin 4) := if h : i < 4 then EuclideanSpace.single ⟨i, h⟩ 1 else 0

section
variable {𝕜 : Type*} [RCLike 𝕜] {E : Type*} [NormedAddCommGroup E] [InnerProductSpace 𝕜 E]

/-- A least squares solver. -/
def exLst (phi : ℕ → E) (I : List ℕ) (y : E) : List 𝕜 := (exists_lstsq phi I y).choose

theorem exLst_ok (phi : ℕ → E) (I : List ℕ) (y : E) : IsLstsq phi I y (exLst (𝕜 := 𝕜) phi I y) := (exists_lstsq phi I y).choose_spec

end

theorem ex_full (s : GState ℝ (EuclideanSpace ℝ (Fin 4))) (h : GoodState exAtoms4 4 !₂[1, 1, 1, 1] 1 s) :
    2 * 1 ≤ ((Finset.range 4).filter fun i => i ∉ s.I ∧ inner ℝ (exAtoms4 i) s.r ≠ 0).card := by
  obtain ⟨i, hi⟩ := List.length_eq_one_iff.1 h.size
  obtain ⟨x, hx⟩ := List.length_eq_one_iff.1 (h.coeff.trans h.size)
  have hi4 : i < 4 := h.range i (by rw [hi]; simp)
  have hr := h.residual
  rw [hi, hx] at hr
  simp only [lin, add_zero] at hr
  have key : (Finset.range 4).erase i ⊆ (Finset.range 4).filter fun j => j ∉ s.I ∧ inner ℝ (exAtoms4 j) s.r ≠ 0 := by
    intro j hj
    simp only [Finset.mem_erase, Finset.mem_range] at hj
    simp only [Finset.mem_filter, Finset.mem_range]
    refine ⟨hj.2, by rw [hi]; simpa using hj.1, ?_⟩
    rw [hr, exAtoms4, exAtoms4, dif_pos hj.2, dif_pos hi4, EuclideanSpace.inner_single_left]
    have hj' := hj.2
    have hne := hj.1
    interval_cases i <;> interval_cases j <;> simp_all
  refine le_trans ?_ (Finset.card_le_card key)
  rw [Finset.card_erase_of_mem (by simpa using hi4)]
  simp

example (c : GState ℝ (EuclideanSpace ℝ (Fin 4)) → Prop) (s)
    (h : Reach c (spBody exAtoms4 4 (exLst exAtoms4) !₂[1, 1, 1, 1] 1) (spInit exAtoms4 4 (exLst exAtoms4) !₂[1, 1, 1, 1] 1) s) :=
  c48_sp_state exAtoms4 4 (exLst exAtoms4) _ 1 (fun I => exLst_ok _ I _) (by norm_num) c s h

example (c : GState ℝ (EuclideanSpace ℝ (Fin 4)) → Prop) (s)
    (h : Reach c (spBody exAtoms4 4 (exLst exAtoms4) !₂[1, 1, 1, 1] 1) (spInit exAtoms4 4 (exLst exAtoms4) !₂[1, 1, 1, 1] 1) s) : s.I.Nodup :=
  c48_sp_distinct_partial exAtoms4 4 (exLst exAtoms4) _ 1 (fun I => exLst_ok _ I _) (by norm_num) c s h fun t ht _ =>
    le_trans (by norm_num) (ex_full t (c48_sp_state exAtoms4 4 (exLst exAtoms4) _ 1 (fun I => exLst_ok _ I _) (by norm_num) c t ht).1)

example := c48_sp_matrix_stop (𝕜 := ℝ) exAtoms4 4 (exLst exAtoms4) !₂[1, 1, 1, 1] 1 20 (1e-3) (fun I => exLst_ok _ I _) (by norm_num)
theorem ex_ones_ne : (!₂[1, 1, 1, 1] : EuclideanSpace ℝ (Fin 4)) ≠ 0 := fun h => by simpa using congrArg (fun v : EuclideanSpace ℝ (Fin 4) => v 0) h
example := c48_sp_operator (𝕜 := ℝ) exAtoms4 4 (exLst exAtoms4) !₂[1, 1, 1, 1] ex_ones_ne 2 20 (1e-3) (exLst_ok _) (by norm_num)

example (c : GState ℝ (EuclideanSpace ℝ (Fin 4)) → Prop) (s)
    (h : Reach c (cosampBody exAtoms4 4 (exLst exAtoms4) !₂[1, 1, 1, 1] 1) (cosampInit exAtoms4 4 (exLst exAtoms4) !₂[1, 1, 1, 1] 1) s) :=
  c47_cosamp_state exAtoms4 4 (exLst exAtoms4) _ 1 (fun I => exLst_ok _ I _) (by norm_num) c s h

example (c : GState ℝ (EuclideanSpace ℝ (Fin 4)) → Prop) (s)
    (h : Reach c (cosampBody exAtoms4 4 (exLst exAtoms4) !₂[1, 1, 1, 1] 1) (cosampInit exAtoms4 4 (exLst exAtoms4) !₂[1, 1, 1, 1] 1) s) : s.I.Nodup :=
  c47_cosamp_distinct_partial exAtoms4 4 (exLst exAtoms4) _ 1 (fun I => exLst_ok _ I _) (by norm_num) c s h fun t ht _ =>
    ex_full t (c47_cosamp_state exAtoms4 4 (exLst exAtoms4) _ 1 (fun I => exLst_ok _ I _) (by norm_num) c t ht)

example (s : GState ℝ (EuclideanSpace ℝ (Fin 4))) := c47_cosamp_pairing_partial (𝕜 := ℝ) exAtoms4 4 (exLst exAtoms4) !₂[1, 1, 1, 1] 1 (fun I => exLst_ok _ I _) s
example := c47_cosamp_stop (𝕜 := ℝ) exAtoms4 4 (exLst exAtoms4) !₂[1, 1, 1, 1] ex_ones_ne 1 20 (1e-3) (exLst_ok _) (by norm_num)
example := c47_cosamp_operator (𝕜 := ℝ) exAtoms4 4 (exLst exAtoms4) !₂[1, 1, 1, 1] ex_ones_ne 1 20 (1e-3) (exLst_ok _) (by norm_num)
example (c : GState ℝ (EuclideanSpace ℝ (Fin 4)) → Prop) := c50_iht_state (𝕜 := ℝ) exAtoms4 4 1 !₂[1, 1, 1, 1] 2 (by norm_num) c _ .init

theorem ex_frame4 (z : ℕ → ℝ) : 1 * ‖synth exAtoms4 4 z‖ ^ 2 ≤ ∑ i ∈ Finset.range 4, ‖z i‖ ^ 2 := by
  rw [EuclideanSpace.norm_sq_eq]
  simp [synth, Finset.sum_range_succ, exAtoms4, Fin.sum_univ_four]

example (c : GState ℝ (EuclideanSpace ℝ (Fin 4)) → Prop) (s) (h : Reach c (ihtBody exAtoms4 4 1 !₂[1, 1, 1, 1] 2) (ihtInit exAtoms4 4 1 !₂[1, 1, 1, 1] 2) s) :=
  c50_iht_monotone (𝕜 := ℝ) exAtoms4 4 1 one_pos ex_frame4 !₂[1, 1, 1, 1] 2 (by norm_num) c s h
example := c50_iht_stop (𝕜 := ℝ) exAtoms4 4 1 !₂[1, 1, 1, 1] 2 20 (1e-3) (by norm_num)
example (c : GState ℝ (EuclideanSpace ℝ (Fin 4)) → Prop) (s) (h : Reach c (htpBody exAtoms4 4 1 (exLst exAtoms4) !₂[1, 1, 1, 1] 2) (ihtInit exAtoms4 4 1 !₂[1, 1, 1, 1] 2) s) :=
  c49_htp_state (𝕜 := ℝ) exAtoms4 4 1 (exLst exAtoms4) !₂[1, 1, 1, 1] 2 (fun I => exLst_ok _ I _) (by norm_num) c s h
example (c : GState ℝ (EuclideanSpace ℝ (Fin 4)) → Prop) (s) (h : Reach c (htpBody exAtoms4 4 1 (exLst exAtoms4) !₂[1, 1, 1, 1] 4) (ihtInit exAtoms4 4 1 !₂[1, 1, 1, 1] 4) s)
    (h2 : 2 ≤ s.iters) (hfix : (htpBody exAtoms4 4 1 (exLst exAtoms4) !₂[1, 1, 1, 1] 4 s).I = s.I) :=
  c49_htp_support_fixed (𝕜 := ℝ) exAtoms4 4 1 (exLst exAtoms4) !₂[1, 1, 1, 1] 4 20 (1e-3) (fun I => exLst_ok _ I _) (by norm_num) c s h h2 hfix
example := c49_htp_stop (𝕜 := ℝ) exAtoms4 4 1 (exLst exAtoms4) !₂[1, 1, 1, 1] 2 20 (1e-3) (fun I => exLst_ok _ I _) (by norm_num)

end Verif.Pursuit
