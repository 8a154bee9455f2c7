import Verif.Pursuit.IhtRecoveryProps
import Mathlib.Data.List.GetD
import Mathlib.Tactic.IntervalCases
import Verif.Pursuit.RipOmpProps

set_option autoImplicit false

/-!
# Recovery of sparse signals by subspace pursuit and CoSaMP (C117, C118)
-/
noncomputable section
namespace Verif.Pursuit
open Verif.Loop

variable {𝕜 : Type*} [RCLike 𝕜] {E : Type*} [NormedAddCommGroup E] [InnerProductSpace 𝕜 E]

/-! ## Helpers -/

/-- The error of coefficients on `I` splits into the error on `I` and the part of the signal missed by `I`. -/
theorem split_error {n : ℕ} (a : ℕ → 𝕜) (S : Finset ℕ) (ha : SuppIn n S a) (I : Finset ℕ) (x : ℕ → 𝕜) (hx : ∀ i, i ∉ I → x i = 0) :
    l2 n (fun i => x i - a i) ^ 2 = l2 n (restr I fun i => x i - a i) ^ 2 + l2 n (restr (S \ I) a) ^ 2 := by
  classical
  rw [restr_split n I]
  congr 1
  rw [restr_sq]
  have e1 : ∑ i ∈ (Finset.range n).filter (· ∉ I), ‖x i - a i‖ ^ 2 = ∑ i ∈ (Finset.range n).filter (· ∉ I), ‖a i‖ ^ 2 := by
    refine Finset.sum_congr rfl fun i hi => ?_
    rw [hx i (Finset.mem_filter.1 hi).2, zero_sub, norm_neg]
  rw [e1]
  symm
  refine Finset.sum_subset (fun i hi => ?_) fun i hi hi' => ?_
  · simp only [Finset.mem_filter, Finset.mem_sdiff] at hi ⊢; exact ⟨hi.1, hi.2.2⟩
  · simp only [Finset.mem_filter, Finset.mem_range, Finset.mem_sdiff, not_and, not_not] at hi hi'
    have : i ∉ S := fun hiS => hi.2 (hi' hi.1 hiS)
    rw [ha i hi.1 this]; simp

/-- The least-squares fit on `J` is as good as the part of the signal that `J` misses. -/
theorem fit_bound {phi : ℕ → E} {n : ℕ} {mu : ℝ} (hmu : 0 ≤ mu) {N : ℕ} {δ : ℝ} (h : Rip 𝕜 phi n mu N δ) (hδ : 0 ≤ δ) (hδ1 : δ < 1)
    (a : ℕ → 𝕜) (S : Finset ℕ) (ha : SuppIn n S a) (e y : E) (hy : y = synth phi n a + e)
    (J : List ℕ) (hJn : J.Nodup) (hJr : ∀ i ∈ J, i < n) (hc : J.length + S.card ≤ N) (z : List 𝕜) (hz : IsLstsq phi J y z) :
    l2 n (fun i => buildSignal J z i - a i) ≤
      l2 n (restr (S \ J.toFinset) a) / Real.sqrt (1 - δ ^ 2) + Real.sqrt (mu * (1 + δ)) * ‖e‖ / (1 - δ) := by
  classical
  have hlin : lin phi J z = synth phi n (buildSignal J z) := lin_eq_synth phi n _ _ hJn hJr hz.length
  have hnot : ∀ i, i ∉ J.toFinset → buildSignal J z i = 0 := fun i hi => buildSignal_not_mem _ _ _ (by simpa using hi)
  have h2 := lstsq_bound hmu h hδ a S ha e J.toFinset (by have := List.toFinset_card_le J; omega) (buildSignal J z)
    (fun i _ hi => hnot i hi) fun i hi _ => by
      rw [← hlin, ← hy]; exact hz.normal i (by simpa using hi)
  have h3 := split_error a S ha J.toFinset (buildSignal J z) hnot
  refine quad_solve hδ hδ1 (by positivity) (l2_nonneg _ _) (l2_nonneg _ _) ?_
  have := pow_le_pow_left₀ (l2_nonneg _ _) h2 2
  linarith

/-- The part of the signal missed by the support together with the atoms most correlated with the residual. -/
theorem identify_bound {phi : ℕ → E} {n : ℕ} {mu : ℝ} (hmu : 0 ≤ mu) {N : ℕ} {δ : ℝ} (h : Rip 𝕜 phi n mu N δ) (hδ : 0 ≤ δ)
    (a : ℕ → 𝕜) (S : Finset ℕ) (hSn : ∀ i ∈ S, i < n) (ha : SuppIn n S a) (e y : E) (hy : y = synth phi n a + e)
    (I : List ℕ) (x : List 𝕜) (J : List ℕ) (L : ℕ) (hL : S.card ≤ L) (hN : I.length + S.card + L ≤ N) (hJ : J.Nodup) (hJl : J.length = min L n) (hJr : ∀ i ∈ J, i < n) (hdis : ∀ i ∈ J, i ∉ I)
    (hdom : ∀ i ∈ J, ∀ j, j < n → j ∉ I → j ∉ J →
      ‖inner 𝕜 (phi j) (y - synth phi n (buildSignal I x))‖ ≤ ‖inner 𝕜 (phi i) (y - synth phi n (buildSignal I x))‖) :
    l2 n (restr (S \ (I ++ J).toFinset) a) ≤
      Real.sqrt 2 * (δ * l2 n (fun i => buildSignal I x i - a i) + Real.sqrt (mu * (1 + δ)) * ‖e‖) := by
  classical
  set r := y - synth phi n (buildSignal I x) with hr
  set b : ℕ → 𝕜 := buildSignal I x with hb
  set v : ℕ → 𝕜 := fun i => b i - a i with hv
  set S' := S \ I.toFinset with hS'
  set a' := restr S' a with ha'
  set g : ℕ → 𝕜 := fun i => if i ∈ I then 0 else (mu : 𝕜) * inner 𝕜 (phi i) r with hg
  have hvs : SuppIn n (I.toFinset ∪ S) v := fun i hi hn => by
    simp only [Finset.mem_union, List.mem_toFinset, not_or] at hn
    simp only [hv, hb]
    rw [buildSignal_not_mem I x i hn.1, ha i hi hn.2, sub_zero]
  have hSc : S'.card ≤ S.card := Finset.card_le_card Finset.sdiff_subset
  have hJc : J.toFinset.card = min L n := by rw [List.toFinset_card_of_nodup hJ, hJl]
  have hSnc : S'.card ≤ n := by
    have := Finset.card_le_card (show S' ⊆ Finset.range n from fun i hi => Finset.mem_range.2 (hSn i (Finset.mem_sdiff.1 hi).1))
    simpa using this
  have hm := missed_bound_of g n J.toFinset (fun i hi => hJr i (by simpa using hi)) a' S' (fun i hi => hSn i (Finset.mem_sdiff.1 hi).1)
    (restr_supp n S' a) (by rw [hJc]; exact le_min (hSc.trans hL) hSnc) fun i hi j hj hjJ => by
      simp only [List.mem_toFinset] at hi hjJ
      simp only [hS', Finset.mem_sdiff, List.mem_toFinset] at hj
      simp only [hg, hj.2, hdis i hi, if_false, norm_mul]
      exact mul_le_mul_of_nonneg_left (hdom i hi j (hSn j hj.1) hj.2 hjJ) (norm_nonneg _)
  have e0 : l2 n (restr (S \ (I ++ J).toFinset) a) = l2 n (restr (S' \ J.toFinset) a') := by
    apply l2_congr
    intro i _
    simp only [restr, ha', hS', Finset.mem_sdiff, List.mem_toFinset, List.mem_append]
    by_cases h1 : i ∈ S <;> by_cases h2 : i ∈ I <;> by_cases h3 : i ∈ J <;> simp [h1, h2, h3]
  rw [e0]
  refine hm.trans (mul_le_mul_of_nonneg_left ?_ (Real.sqrt_nonneg _))
  have hIc := List.toFinset_card_le I
  have hTU : ((J.toFinset ∪ S') ∪ (I.toFinset ∪ S)).card ≤ N := by
    have e1 : (J.toFinset ∪ S') ∪ (I.toFinset ∪ S) = J.toFinset ∪ (S ∪ I.toFinset) := by
      ext i; simp only [Finset.mem_union, hS', Finset.mem_sdiff]; tauto
    rw [e1]
    have := Finset.card_union_le J.toFinset (S ∪ I.toFinset)
    have := Finset.card_union_le S I.toFinset
    omega
  have hTS : (J.toFinset ∪ S').card ≤ N := by have := Finset.card_union_le J.toFinset S'; omega
  have h1 := h.grad_bound (J.toFinset ∪ S') (I.toFinset ∪ S) hTU v hvs
  have h2 := h.noise_bound hmu hδ (J.toFinset ∪ S') hTS e
  refine le_trans (le_of_eq ?_) ((l2_add_le n _ _).trans (add_le_add h1 h2))
  apply l2_congr
  intro i hi
  by_cases hiT : i ∈ J.toFinset ∪ S'
  · have hiI : i ∉ I := by
      rcases Finset.mem_union.1 hiT with h3 | h3
      · exact hdis i (by simpa using h3)
      · exact fun h4 => (Finset.mem_sdiff.1 h3).2 (by simpa using h4)
    have hbi : b i = 0 := buildSignal_not_mem I x i hiI
    have hai : a' i = a i := by
      by_cases h3 : i ∈ S'
      · simp [ha', restr, h3]
      · have : i ∉ S := fun h4 => h3 (by simp [hS', h4, hiI])
        simp [ha', restr, h3, ha i hi this]
    simp only [restr, hiT, if_true, hg, hiI, if_false, hai]
    have er : r = e - synth phi n v := by
      rw [hr, hy, hv, synth_sub]; abel
    rw [er, inner_sub_right]
    simp only [hv, hbi]; ring
  · simp only [restr, hiT, if_false, add_zero]

theorem buildSignal_gather_map (J : List ℕ) (z : List 𝕜) (hJ : J.Nodup) (hz : z.length = J.length) : ∀ (P : List ℕ), (∀ k ∈ P, k < J.length) →
    ∀ j, buildSignal (gather 0 J P) (gather 0 z P) j = if j ∈ gather 0 J P then buildSignal J z j else 0
  | [], _, j => by simp [gather, buildSignal]
  | p :: P, hP, j => by
    have e1 : gather 0 J (p :: P) = J.getD p 0 :: gather 0 J P := rfl
    have e2 : gather 0 z (p :: P) = z.getD p 0 :: gather 0 z P := rfl
    have ih := buildSignal_gather_map J z hJ hz P (fun k hk => hP k (List.mem_cons_of_mem _ hk)) j
    rw [e1, e2]
    simp only [buildSignal]
    rw [ih, gather_length, List.take_of_length_le (by rw [gather_length])]
    by_cases h1 : J.getD p 0 = j
    · by_cases h2 : j ∈ gather 0 J P
      · simp [h1, h2]
      · have hp := hP p List.mem_cons_self
        have : buildSignal J z j = z.getD p 0 := by
          rw [← h1]
          clear ih h1 h2 e1 e2 hP
          induction J generalizing z p with
          | nil => simp at hp
          | cons a J ihJ =>
            cases z with
            | nil => simp at hz
            | cons c z =>
              rw [List.nodup_cons] at hJ
              simp only [List.length_cons, Nat.add_right_cancel_iff] at hz
              cases p with
              | zero =>
                simp only [List.getD_cons_zero, buildSignal]
                rw [if_pos ⟨trivial, fun h => hJ.1 (List.mem_of_mem_take h)⟩]
              | succ p =>
                simp only [List.length_cons, Nat.add_lt_add_iff_right] at hp
                simp only [List.getD_cons_succ, buildSignal]
                rw [if_neg, ihJ z hJ.2 hz p hp]
                rintro ⟨h1, -⟩
                refine hJ.1 ?_
                rw [h1, List.getD_eq_getElem _ _ hp]
                exact List.getElem_mem _
        rw [if_pos ⟨h1, h2⟩, if_pos (by rw [h1]; exact List.mem_cons_self), this]
    · rw [if_neg fun h => h1 h.1]
      have : j ≠ J.getD p 0 := fun h => h1 h.symm
      simp only [List.mem_cons, this, false_or]

theorem buildSignal_getD (J : List ℕ) (z : List 𝕜) (hJ : J.Nodup) (hz : z.length = J.length) (p : ℕ) (hp : p < J.length) :
    buildSignal J z (J.getD p 0) = z.getD p 0 := by
  have := buildSignal_gather_map J z hJ hz [p] (by simpa using hp) (J.getD p 0)
  simp [gather, buildSignal] at this
  simpa using this.symm

/-- Pruning a fit on `J` to its `K` largest coefficients misses little more of the signal. -/
theorem prune_bound {n K : ℕ} (a : ℕ → 𝕜) (S : Finset ℕ) (hS : S.card ≤ K) (hSn : ∀ i ∈ S, i < n) (ha : SuppIn n S a) (J : List ℕ) (hJn : J.Nodup) (hJr : ∀ i ∈ J, i < n)
    (hK : K ≤ J.length) (z : List 𝕜) (hz : z.length = J.length) :
    l2 n (restr (S \ (gather 0 J (largestIndices z K)).toFinset) a) ≤ Real.sqrt 2 * l2 n (fun i => buildSignal J z i - a i) := by
  classical
  obtain ⟨h1, h2, h3, -, h5⟩ := c51_largest_indices z K
  rw [hz] at h2 h3 h5
  set P := largestIndices z K with hP
  have hTn : (gather 0 J P).Nodup := gather_nodup 0 J P h3 hJn h1
  have hTm : ∀ i ∈ gather 0 J P, i ∈ J := gather_mem 0 J P h3
  have hTc : (gather 0 J P).toFinset.card = K := by rw [List.toFinset_card_of_nodup hTn, gather_length, h2]; omega
  refine (missed_bound_of (buildSignal J z) n (gather 0 J P).toFinset (fun i hi => hJr i (hTm i (by simpa using hi))) a S hSn ha (by rw [hTc]; exact hS)
    fun i hi j hj hjT => ?_).trans (mul_le_mul_of_nonneg_left ?_ (Real.sqrt_nonneg _))
  · simp only [List.mem_toFinset] at hi hjT
    obtain ⟨p, hp, rfl⟩ := List.mem_map.1 hi
    rw [buildSignal_getD J z hJn hz p (h3 p hp)]
    by_cases hjJ : j ∈ J
    · obtain ⟨q, hq, rfl⟩ := List.getElem_of_mem hjJ
      have : J[q] = J.getD q 0 := (List.getD_eq_getElem _ _ hq).symm
      rw [this] at hjT ⊢
      rw [buildSignal_getD J z hJn hz q hq]
      exact h5 p hp q hq fun hqP => hjT (List.mem_map.2 ⟨q, hqP, rfl⟩)
    · rw [buildSignal_not_mem J z j hjJ, norm_zero]; exact norm_nonneg _
  · apply l2_le_of_sq
    rw [restr_split n ((gather 0 J P).toFinset ∪ S) fun i => buildSignal J z i - a i]
    have := Finset.sum_nonneg (s := (Finset.range n).filter (· ∉ (gather 0 J P).toFinset ∪ S)) (f := fun i => ‖buildSignal J z i - a i‖ ^ 2) fun _ _ => sq_nonneg _
    linarith

/-- The atoms added by a pass, with `L` of them, when at least `L` atoms outside the support are correlated with the residual. -/
theorem added_atoms (phi : ℕ → E) (n : ℕ) (y : E) (K L : ℕ) (s : GState 𝕜 E) (hg : GoodState phi n y K s) (hn : s.I.Nodup)
    (hc : L ≤ ((Finset.range n).filter fun i => i ∉ s.I ∧ inner 𝕜 (phi i) s.r ≠ 0).card) :
    let J := largestIndices (zeroAt (corr 𝕜 phi n s.r) s.I) L
    J.Nodup ∧ J.length = min L n ∧ (∀ i ∈ J, i < n) ∧ (∀ i ∈ J, i ∉ s.I) ∧ (s.I ++ J).Nodup ∧ (∀ i ∈ s.I ++ J, i < n) ∧
    ∀ i ∈ J, ∀ j, j < n → j ∉ s.I → j ∉ J →
      ‖inner 𝕜 (phi j) (y - synth phi n (buildSignal s.I s.x))‖ ≤ ‖inner 𝕜 (phi i) (y - synth phi n (buildSignal s.I s.x))‖ := by
  intro J
  obtain ⟨h1, h2, h3, -, h5⟩ := c51_largest_indices (zeroAt (corr 𝕜 phi n s.r) s.I) L
  rw [zeroAt_length, corr_length'] at h2 h3 h5
  have hdis := largest_disjoint (corr 𝕜 phi n s.r) s.I L (by
    rw [corr_length']
    refine hc.trans (Finset.card_le_card fun i hi => ?_)
    simp only [Finset.mem_filter, Finset.mem_range] at hi ⊢
    exact ⟨hi.1, hi.2.1, by rw [corr_getD' _ _ _ hi.1]; exact hi.2.2⟩)
  refine ⟨h1, h2, h3, hdis, ?_, ?_, fun i hi j hj hjI hjJ => ?_⟩
  · rw [List.nodup_append]
    exact ⟨hn, h1, fun a ha b hb hab => hdis b hb (hab ▸ ha)⟩
  · intro i hi
    rcases List.mem_append.1 hi with h | h
    · exact hg.range i h
    · exact h3 i h
  · have hr : s.r = y - synth phi n (buildSignal s.I s.x) := by rw [hg.residual, lin_eq_synth phi n s.I s.x hn hg.range hg.coeff]
    rw [← hr]
    have := h5 i hi j hj hjJ
    rwa [zeroAt_getD _ _ (by rw [corr_length']; exact hj), zeroAt_getD _ _ (by rw [corr_length']; exact h3 i hi), if_neg hjI, if_neg (hdis i hi),
      corr_getD' _ _ _ hj, corr_getD' _ _ _ (h3 i hi)] at this

theorem eq_of_l2_zero {n : ℕ} {x a : ℕ → 𝕜} (h : l2 n (fun i => x i - a i) = 0) : ∀ i, i < n → x i = a i := fun i hi => by
  have h5 : ‖x i - a i‖ ^ 2 ≤ l2 n (fun i => x i - a i) ^ 2 := by
    rw [l2_sq]
    exact Finset.single_le_sum (f := fun i => ‖x i - a i‖ ^ 2) (fun j _ => sq_nonneg _) (Finset.mem_range.mpr hi)
  rw [h] at h5
  have h6 : ‖x i - a i‖ = 0 := by
    have := norm_nonneg (x i - a i)
    nlinarith
  exact sub_eq_zero.mp (norm_eq_zero.mp h6)

/-- If less than every non-zero magnitude of `a` is missed, nothing is missed. -/
theorem nothing_missed {n : ℕ} {a : ℕ → 𝕜} {S I : Finset ℕ} (hSn : ∀ i ∈ S, i < n) (h : ∀ i ∈ S, l2 n (restr (S \ I) a) < ‖a i‖) :
    (∀ i ∈ S, i ∈ I) ∧ l2 n (restr (S \ I) a) = 0 := by
  classical
  have hin : ∀ i ∈ S, i ∈ I := fun i hi => by
    by_contra hni
    have h4 : ‖a i‖ ≤ l2 n (restr (S \ I) a) := by
      apply l2_le_of_sq_ge
      rw [restr_sq]
      refine Finset.single_le_sum (f := fun i => ‖a i‖ ^ 2) (fun j _ => sq_nonneg _) ?_
      simp only [Finset.mem_filter, Finset.mem_range, Finset.mem_sdiff]
      exact ⟨hSn i hi, hi, hni⟩
    have := h i hi
    linarith
  refine ⟨hin, ?_⟩
  have : l2 n (restr (S \ I) a) ^ 2 = 0 := by
    rw [restr_sq]
    refine Finset.sum_eq_zero fun i hi => ?_
    simp only [Finset.mem_filter, Finset.mem_sdiff] at hi
    exact absurd (hin i hi.2.1) hi.2.2
  exact pow_eq_zero_iff two_ne_zero |>.1 this

/-- One pass of a method that merges `L` atoms into the support, fits, and keeps the `K` largest coefficients: what the fit and the kept support miss. -/
theorem merge_pass {phi : ℕ → E} {n : ℕ} {mu : ℝ} (hmu : 0 ≤ mu) {K L N : ℕ} (hKL : K ≤ L) (hN : 2 * K + L ≤ N) {δ : ℝ} (h : Rip 𝕜 phi n mu N δ) (hδ : 0 ≤ δ) (hδ1 : δ < 1)
    (lstsq : List ℕ → E → List 𝕜) (a : ℕ → 𝕜) (S : Finset ℕ) (hS : S.card ≤ K) (hSn : ∀ i ∈ S, i < n) (ha : SuppIn n S a) (e y : E)
    (hy : y = synth phi n a + e) (hl : ∀ I, IsLstsq phi I y (lstsq I y)) (s : GState 𝕜 E) (hg : GoodState phi n y K s) (hn : s.I.Nodup)
    (hc : L ≤ ((Finset.range n).filter fun i => i ∉ s.I ∧ inner 𝕜 (phi i) s.r ≠ 0).card) :
    let J := s.I ++ largestIndices (zeroAt (corr 𝕜 phi n s.r) s.I) L
    let t := Real.sqrt (mu * (1 + δ)) * ‖e‖
    let D := Real.sqrt 2 * (δ * l2 n (fun i => buildSignal s.I s.x i - a i) + t) / Real.sqrt (1 - δ ^ 2) + t / (1 - δ)
    J.Nodup ∧ (∀ i ∈ J, i < n) ∧ K ≤ J.length ∧ J.length ≤ K + L ∧
    l2 n (fun i => buildSignal J (lstsq J y) i - a i) ≤ D ∧
    l2 n (restr (S \ (gather 0 J (largestIndices (lstsq J y) K)).toFinset) a) ≤ Real.sqrt 2 * D := by
  intro J t D
  obtain ⟨h1, h2, h3, h4, h5, h6, h7⟩ := added_atoms phi n y K L s hg hn hc
  have hJl : J.length ≤ K + L := by rw [List.length_append, hg.size, h2]; omega
  have hJK : K ≤ J.length := by rw [List.length_append, hg.size]; omega
  have b1 := identify_bound hmu h hδ a S hSn ha e y hy s.I s.x _ L (hS.trans hKL) (by rw [hg.size]; omega) h1 h2 h3 h4 h7
  have b2 := fit_bound hmu h hδ hδ1 a S ha e y hy J h5 h6 (by omega) (lstsq J y) (hl J)
  have hD : l2 n (fun i => buildSignal J (lstsq J y) i - a i) ≤ D :=
    b2.trans (add_le_add (div_le_div_of_nonneg_right b1 (Real.sqrt_nonneg _)) le_rfl)
  refine ⟨h5, h6, hJK, hJl, hD, ?_⟩
  exact (prune_bound a S hS hSn ha J h5 h6 hJK (lstsq J y) (hl J).length).trans (mul_le_mul_of_nonneg_left hD (Real.sqrt_nonneg _))

theorem sp_kept (phi : ℕ → E) (n : ℕ) (mu : ℝ) (hmu : 0 ≤ mu) (K : ℕ) (δ : ℝ) (hδ : 0 ≤ δ) (hδ1 : δ < 1)
    (h : Rip 𝕜 phi n mu (3 * K) δ) (lstsq : List ℕ → E → List 𝕜) (a : ℕ → 𝕜) (S : Finset ℕ) (hS : S.card ≤ K) (hSn : ∀ i ∈ S, i < n)
    (ha : SuppIn n S a) (e y : E) (hy : y = synth phi n a + e) (hl : ∀ I, IsLstsq phi I y (lstsq I y))
    (s : GState 𝕜 E) (hg : GoodState phi n y K s) (hn : s.I.Nodup)
    (hc : K ≤ ((Finset.range n).filter fun i => i ∉ s.I ∧ inner 𝕜 (phi i) s.r ≠ 0).card) :
    let s' := spBody phi n lstsq y K s
    let t := Real.sqrt (mu * (1 + δ)) * ‖e‖
    let q := Real.sqrt 2 * (Real.sqrt 2 * (δ * l2 n (fun i => buildSignal s.I s.x i - a i) + t) / Real.sqrt (1 - δ ^ 2) + t / (1 - δ))
    l2 n (restr (S \ s'.I.toFinset) a) ≤ q ∧
    l2 n (fun i => buildSignal s'.I s'.x i - a i) ≤ l2 n (restr (S \ s'.I.toFinset) a) / Real.sqrt (1 - δ ^ 2) + t / (1 - δ) := by
  intro s' t q
  obtain ⟨-, -, -, -, -, b⟩ := merge_pass hmu le_rfl (by omega : 2 * K + K ≤ 3 * K) h hδ hδ1 lstsq a S hS hSn ha e y hy hl s hg hn hc
  have hn' : s'.I.Nodup := spBody_nodup phi n lstsq y K hl s hn hc
  have hg' := (spBody_good phi n lstsq y K hl s hg).1
  exact ⟨b, fit_bound hmu h hδ hδ1 a S ha e y hy s'.I hn' hg'.range (by have : s'.I.length = K := hg'.size; omega) s'.x (hl _)⟩

/-- The three unit vectors of `ℝ³` as atoms. -/
def unitAtoms (i : ℕ) : EuclideanSpace ℝ (Fin 3) := EuclideanSpace.basisFun (Fin 3) ℝ (Fin.ofNat 3 i)

theorem unitAtoms_inner (i j : ℕ) (hi : i < 3) (hj : j < 3) : inner ℝ (unitAtoms i) (unitAtoms j) = if i = j then (1 : ℝ) else 0 := by
  unfold unitAtoms
  rw [orthonormal_iff_ite.1 (EuclideanSpace.basisFun (Fin 3) ℝ).orthonormal]
  have : Fin.ofNat 3 i = Fin.ofNat 3 j ↔ i = j := by interval_cases i <;> interval_cases j <;> decide
  simp only [this]

theorem unitAtoms_ne (i : ℕ) (hi : i < 3) : unitAtoms i ≠ 0 := fun h => by
  have := unitAtoms_inner i i hi hi
  rw [h] at this
  simp at this

/-- The hypotheses of the theorems below are met: unit vectors with a wrong scale, a one-sparse signal, noise on the other two atoms, and the state with the right
atom. -/
theorem noisy_case : Rip ℝ unitAtoms 3 (9 / 10) 4 (1 / 10) ∧ SuppIn 3 {0} (fun i => if i = 0 then (3 : ℝ) else 0) ∧
    (∃ lstsq : List ℕ → EuclideanSpace ℝ (Fin 3) → List ℝ, ∀ I y, IsLstsq unitAtoms I y (lstsq I y)) ∧
    let e := unitAtoms 1 + unitAtoms 2
    let y := synth unitAtoms 3 (fun i => if i = 0 then (3 : ℝ) else 0) + e
    let s : GState ℝ (EuclideanSpace ℝ (Fin 3)) := mkState unitAtoms y [0] [3] 1 [0]
    GoodState unitAtoms 3 y 1 s ∧ s.I.Nodup ∧ 2 ≤ ((Finset.range 3).filter fun i => i ∉ s.I ∧ inner ℝ (unitAtoms i) s.r ≠ 0).card := by
  refine ⟨?_, fun i hi hn => by simp at hn; simp [hn], ⟨fun I y => (exists_lstsq unitAtoms I y).choose, fun I y => (exists_lstsq unitAtoms I y).choose_spec⟩, ?_⟩
  · have := rip_orthonormal (𝕜 := ℝ) (phi := unitAtoms) (n := 3) unitAtoms_inner (9 / 10) 4
    rwa [show |(9 / 10 : ℝ) - 1| = 1 / 10 by rw [abs_of_nonpos] <;> norm_num] at this
  · intro e y s
    refine ⟨⟨by simp [s, mkState], by simp [s, mkState], by simp [s, mkState], rfl, rfl⟩, by simp [s, mkState], ?_⟩
    have hr : s.r = e := by
      simp [s, mkState, y, lin, synth, Finset.sum_range_succ]
    have : ({1, 2} : Finset ℕ) ⊆ (Finset.range 3).filter fun i => i ∉ s.I ∧ inner ℝ (unitAtoms i) s.r ≠ 0 := by
      intro i hi
      rw [hr]
      simp only [Finset.mem_insert, Finset.mem_singleton] at hi
      rcases hi with rfl | rfl <;> simp [s, mkState, e, inner_add_right, unitAtoms_inner, unitAtoms_ne]
    exact (Finset.card_le_card this)

/-! ## Subspace pursuit -/

/-- **C117** One pass of subspace pursuit on noisy measurements `y = Phi a + e` of a `K`-sparse signal, under the restricted isometry property of
order `3K` with constant `δ < 1`: the error `|x - a|` becomes at most `ρ |x - a| + τ |e|` with `ρ = 2δ / (1 - δ²)`, less than one for
`δ < √2 - 1`. At least `K` atoms outside the support must be correlated with the residual (otherwise atoms are repeated, see
`c48_distinct_fails`). -/
theorem c117_sp_contraction_partial (phi : ℕ → E) (n : ℕ) (mu : ℝ) (hmu : 0 ≤ mu) (K : ℕ) (δ : ℝ) (hδ : 0 ≤ δ) (hδ1 : δ < 1)
    (h : Rip 𝕜 phi n mu (3 * K) δ) (lstsq : List ℕ → E → List 𝕜) (a : ℕ → 𝕜) (S : Finset ℕ) (hS : S.card ≤ K) (hSn : ∀ i ∈ S, i < n)
    (ha : SuppIn n S a) (e y : E) (hy : y = synth phi n a + e) (hl : ∀ I, IsLstsq phi I y (lstsq I y))
    (s : GState 𝕜 E) (hg : GoodState phi n y K s) (hn : s.I.Nodup)
    (hc : K ≤ ((Finset.range n).filter fun i => i ∉ s.I ∧ inner 𝕜 (phi i) s.r ≠ 0).card) :
    let s' := spBody phi n lstsq y K s
    l2 n (fun i => buildSignal s'.I s'.x i - a i) ≤
      2 * δ / (1 - δ ^ 2) * l2 n (fun i => buildSignal s.I s.x i - a i) +
      (2 / (1 - δ ^ 2) + Real.sqrt 2 / (Real.sqrt (1 - δ ^ 2) * (1 - δ)) + 1 / (1 - δ)) * Real.sqrt (mu * (1 + δ)) * ‖e‖ := by
  intro s'
  obtain ⟨h1, h2⟩ := sp_kept phi n mu hmu K δ hδ hδ1 h lstsq a S hS hSn ha e y hy hl s hg hn hc
  refine h2.trans ((add_le_add (div_le_div_of_nonneg_right h1 (Real.sqrt_nonneg _)) le_rfl).trans_eq ?_)
  have hp : 0 < 1 - δ ^ 2 := by nlinarith
  have hs : Real.sqrt (1 - δ ^ 2) ^ 2 = 1 - δ ^ 2 := Real.sq_sqrt hp.le
  have hs0 : Real.sqrt (1 - δ ^ 2) ≠ 0 := (Real.sqrt_pos.2 hp).ne'
  have hw : Real.sqrt 2 ^ 2 = 2 := Real.sq_sqrt (by norm_num)
  clear h1 h2
  generalize Real.sqrt (1 - δ ^ 2) = σ at *
  rw [← hs]
  generalize Real.sqrt 2 = w at *
  generalize Real.sqrt (mu * (1 + δ)) = m
  generalize l2 n (fun i => buildSignal s.I s.x i - a i) = d
  rw [← div_div w]
  linear_combination (δ * d + m * ‖e‖) / σ ^ 2 * hw

example : ∃ (lstsq : List ℕ → EuclideanSpace ℝ (Fin 3) → List ℝ) (s : GState ℝ (EuclideanSpace ℝ (Fin 3))),
    let a : ℕ → ℝ := fun i => if i = 0 then 3 else 0
    let s' := spBody unitAtoms 3 lstsq (synth unitAtoms 3 a + (unitAtoms 1 + unitAtoms 2)) 1 s
    l2 3 (fun i => buildSignal s'.I s'.x i - a i) ≤
      2 * (1 / 10) / (1 - (1 / 10) ^ 2) * l2 3 (fun i => buildSignal s.I s.x i - a i) +
      (2 / (1 - (1 / 10) ^ 2) + Real.sqrt 2 / (Real.sqrt (1 - (1 / 10) ^ 2) * (1 - 1 / 10)) + 1 / (1 - 1 / 10)) * Real.sqrt (9 / 10 * (1 + 1 / 10)) *
        ‖unitAtoms 1 + unitAtoms 2‖ := by
  obtain ⟨h, ha, ⟨lstsq, hl⟩, hg, hn, hc⟩ := noisy_case
  exact ⟨lstsq, _, c117_sp_contraction_partial unitAtoms 3 (9 / 10) (by norm_num) 1 (1 / 10) (by norm_num) (by norm_num) (fun z T hT hz => h z T (by omega) hz) lstsq _ {0} (by simp) (by simp) ha _ _ rfl
    (fun I => hl I _) _ hg hn (le_trans (by norm_num) hc)⟩

/-- The error of the first state of subspace pursuit. -/
theorem sp_first (phi : ℕ → E) (n : ℕ) (mu : ℝ) (hmu : 0 ≤ mu) (K : ℕ) (hK : K ≤ n) (δ : ℝ) (hδ : 0 ≤ δ) (hδ1 : δ < 1)
    (h : Rip 𝕜 phi n mu (3 * K) δ) (lstsq : List ℕ → E → List 𝕜) (a : ℕ → 𝕜) (S : Finset ℕ) (hS : S.card ≤ K) (hSn : ∀ i ∈ S, i < n)
    (ha : SuppIn n S a) (e y : E) (hy : y = synth phi n a + e) (hl : ∀ I, IsLstsq phi I y (lstsq I y)) :
    let s := spInit phi n lstsq y K
    l2 n (fun i => buildSignal s.I s.x i - a i) ≤
      Real.sqrt 2 * (δ * l2 n a + Real.sqrt (mu * (1 + δ)) * ‖e‖) / Real.sqrt (1 - δ ^ 2) + Real.sqrt (mu * (1 + δ)) * ‖e‖ / (1 - δ) := by
  intro s
  obtain ⟨hg, -, hn⟩ := spInit_good phi n lstsq y K hl hK
  obtain ⟨h1, h2, h3, -, h5⟩ := c51_largest_indices (corr 𝕜 phi n y) K
  rw [corr_length'] at h2 h3 h5
  have hz : synth phi n (buildSignal [] ([] : List 𝕜)) = 0 := by simp [synth, buildSignal]
  have b1 := identify_bound hmu h hδ a S hSn ha e y hy [] [] s.I K hS (by simp; omega) h1 h2 h3 (by simp) fun i hi j hj _ hjJ => by
    rw [hz, sub_zero]
    have := h5 i hi j hj hjJ
    rwa [corr_getD' _ _ _ hj, corr_getD' _ _ _ (h3 i hi)] at this
  have e1 : l2 n (fun i => buildSignal [] ([] : List 𝕜) i - a i) = l2 n a := by
    unfold l2; simp [buildSignal]
  rw [e1, List.nil_append] at b1
  have b2 := fit_bound hmu h hδ hδ1 a S ha e y hy s.I hn hg.range (by have : s.I.length = K := hg.size; omega) s.x (hl _)
  exact b2.trans (add_le_add (div_le_div_of_nonneg_right b1 (Real.sqrt_nonneg _)) le_rfl)

/-- **C117** The error of every state of a run of subspace pursuit (any stop rule `c`) with iteration count `k`, for `ρ = 2δ / (1 - δ²)`: at most
`ρ^(k-1)` times the bound of the first state plus the accumulated noise, as long as `K` atoms outside the support were correlated with the
residual whenever the run went on. -/
theorem c117_sp_recovery_partial (phi : ℕ → E) (n : ℕ) (mu : ℝ) (hmu : 0 ≤ mu) (K : ℕ) (hK : K ≤ n) (δ : ℝ) (hδ : 0 ≤ δ) (hδ1 : δ < 1)
    (h : Rip 𝕜 phi n mu (3 * K) δ) (lstsq : List ℕ → E → List 𝕜) (a : ℕ → 𝕜) (S : Finset ℕ) (hS : S.card ≤ K) (hSn : ∀ i ∈ S, i < n)
    (ha : SuppIn n S a) (e y : E) (hy : y = synth phi n a + e) (hl : ∀ I, IsLstsq phi I y (lstsq I y))
    (c : GState 𝕜 E → Prop)
    (hc : ∀ t, Reach c (spBody phi n lstsq y K) (spInit phi n lstsq y K) t → c t →
      K ≤ ((Finset.range n).filter fun i => i ∉ t.I ∧ inner 𝕜 (phi i) t.r ≠ 0).card)
    (s : GState 𝕜 E) (hs : Reach c (spBody phi n lstsq y K) (spInit phi n lstsq y K) s) :
    let ρ := 2 * δ / (1 - δ ^ 2)
    let m := Real.sqrt (mu * (1 + δ))
    let τ := (2 / (1 - δ ^ 2) + Real.sqrt 2 / (Real.sqrt (1 - δ ^ 2) * (1 - δ)) + 1 / (1 - δ)) * m
    1 ≤ s.iters ∧ l2 n (fun i => buildSignal s.I s.x i - a i) ≤
      ρ ^ (s.iters - 1) * (Real.sqrt 2 * (δ * l2 n a + m * ‖e‖) / Real.sqrt (1 - δ ^ 2) + m * ‖e‖ / (1 - δ)) + τ * ‖e‖ * ∑ j ∈ Finset.range (s.iters - 1), ρ ^ j := by
  intro ρ m τ
  have hρ : 0 ≤ ρ := div_nonneg (by linarith) (by nlinarith)
  induction hs with
  | init =>
    have it1 : (spInit phi n lstsq y K : GState 𝕜 E).iters = 1 := rfl
    refine ⟨le_rfl, ?_⟩
    rw [it1]
    simpa using sp_first phi n mu hmu K hK δ hδ hδ1 h lstsq a S hS hSn ha e y hy hl
  | @step s hr hcs ih =>
    obtain ⟨i1, i2⟩ := ih
    have it1 : (spBody phi n lstsq y K s).iters = s.iters + 1 := rfl
    refine ⟨by rw [it1]; omega, ?_⟩
    have h1 := c117_sp_contraction_partial phi n mu hmu K δ hδ hδ1 h lstsq a S hS hSn ha e y hy hl s
      (c48_sp_state phi n lstsq y K hl hK c s hr).1 (c48_sp_distinct_partial phi n lstsq y K hl hK c s hr hc) (hc s hr hcs)
    refine h1.trans ?_
    have h2 := mul_le_mul_of_nonneg_left i2 hρ
    rw [it1]
    obtain ⟨k, hk⟩ : ∃ k, s.iters = k + 1 := ⟨s.iters - 1, by omega⟩
    rw [hk] at h2 ⊢
    simp only [Nat.add_sub_cancel] at h2 ⊢
    rw [pow_succ ρ k, Finset.sum_range_succ']
    have e3 : ∑ j ∈ Finset.range k, ρ ^ (j + 1) = ρ * ∑ j ∈ Finset.range k, ρ ^ j := by
      rw [Finset.mul_sum]; exact Finset.sum_congr rfl fun j _ => by rw [pow_succ]; ring
    rw [e3, pow_zero]
    change ρ * _ + τ * ‖e‖ ≤ _
    nlinarith

/-- **C117** What the residual says: a state with distinct atoms whose residual is `r` is within `√(mu/(1-δ)) (|r| + |e|)` of the signal. -/
theorem c117_residual_bound (phi : ℕ → E) (n : ℕ) (mu : ℝ) (hmu : 0 ≤ mu) (K : ℕ) (δ : ℝ)
    (h : Rip 𝕜 phi n mu (2 * K) δ) (a : ℕ → 𝕜) (S : Finset ℕ) (hS : S.card ≤ K)
    (ha : SuppIn n S a) (e y : E) (hy : y = synth phi n a + e)
    (s : GState 𝕜 E) (hg : GoodState phi n y K s) (hn : s.I.Nodup) :
    (1 - δ) * l2 n (fun i => buildSignal s.I s.x i - a i) ^ 2 ≤ mu * (‖s.r‖ + ‖e‖) ^ 2 := by
  classical
  set v : ℕ → 𝕜 := fun i => buildSignal s.I s.x i - a i with hv
  have hr : s.r = e - synth phi n v := by
    rw [hg.residual, lin_eq_synth phi n s.I s.x hn hg.range hg.coeff, hy, hv, synth_sub]; abel
  have hvs : SuppIn n (s.I.toFinset ∪ S) v := fun i hi hni => by
    simp only [Finset.mem_union, List.mem_toFinset, not_or] at hni
    simp only [hv]
    rw [buildSignal_not_mem _ _ i hni.1, ha i hi hni.2, sub_zero]
  have hcard : (s.I.toFinset ∪ S).card ≤ 2 * K := by
    have h1 := Finset.card_union_le s.I.toFinset S
    have h2 := List.toFinset_card_le s.I
    have h3 := hg.size
    omega
  have h1 := (abs_le.1 (h v _ hcard hvs)).1
  have h2 : ‖synth phi n v‖ ≤ ‖s.r‖ + ‖e‖ := by
    have : synth phi n v = e - s.r := by rw [hr]; abel
    rw [this]; exact (norm_sub_le _ _).trans_eq (add_comm _ _)
  have h3 := mul_le_mul_of_nonneg_left (pow_le_pow_left₀ (norm_nonneg _) h2 2) hmu
  linarith

/-- **C117** Exact recovery: without noise, once `2δ / √(1-δ²) |x - a|` is below the smallest non-zero magnitude of `a`, the next state is the signal itself:
its support contains that of `a`, its coefficients are those of `a` and its residual is zero. -/
theorem c117_sp_exact_partial (phi : ℕ → E) (n : ℕ) (mu : ℝ) (hmu : 0 ≤ mu) (K : ℕ) (δ : ℝ) (hδ : 0 ≤ δ) (hδ1 : δ < 1)
    (h : Rip 𝕜 phi n mu (3 * K) δ) (lstsq : List ℕ → E → List 𝕜) (a : ℕ → 𝕜) (S : Finset ℕ) (hS : S.card ≤ K) (hSn : ∀ i ∈ S, i < n)
    (ha : SuppIn n S a) (y : E) (hy : y = synth phi n a) (hl : ∀ I, IsLstsq phi I y (lstsq I y))
    (s : GState 𝕜 E) (hg : GoodState phi n y K s) (hn : s.I.Nodup)
    (hc : K ≤ ((Finset.range n).filter fun i => i ∉ s.I ∧ inner 𝕜 (phi i) s.r ≠ 0).card)
    (hclose : ∀ i ∈ S, 2 * δ / Real.sqrt (1 - δ ^ 2) * l2 n (fun i => buildSignal s.I s.x i - a i) < ‖a i‖) :
    let s' := spBody phi n lstsq y K s
    (∀ i ∈ S, i ∈ s'.I) ∧ (∀ i, i < n → buildSignal s'.I s'.x i = a i) ∧ s'.r = 0 := by
  intro s'
  obtain ⟨h1, h2⟩ := sp_kept phi n mu hmu K δ hδ hδ1 h lstsq a S hS hSn ha 0 y (by rw [hy, add_zero]) hl s hg hn hc
  simp only [norm_zero, mul_zero, add_zero, zero_div] at h1 h2
  have e1 : Real.sqrt 2 * (Real.sqrt 2 * (δ * l2 n (fun i => buildSignal s.I s.x i - a i)) / Real.sqrt (1 - δ ^ 2)) =
      2 * δ / Real.sqrt (1 - δ ^ 2) * l2 n (fun i => buildSignal s.I s.x i - a i) := by
    have h2 : Real.sqrt 2 ^ 2 = 2 := Real.sq_sqrt (by norm_num)
    have : ∀ w σ d : ℝ, w * (w * (δ * d) / σ) = w ^ 2 * δ / σ * d := fun w σ d => by ring
    rw [this, h2]
  rw [e1] at h1
  obtain ⟨hin, hm⟩ := nothing_missed hSn fun i hi => h1.trans_lt (hclose i hi)
  rw [hm, zero_div] at h2
  have heq := eq_of_l2_zero (le_antisymm h2 (l2_nonneg _ _))
  refine ⟨fun i hi => by simpa using hin i hi, heq, ?_⟩
  have hn' : s'.I.Nodup := spBody_nodup phi n lstsq y K hl s hn hc
  have hg' := (spBody_good phi n lstsq y K hl s hg).1
  change GoodState phi n y K s' at hg'
  rw [hg'.residual, lin_eq_synth phi n _ _ hn' hg'.range hg'.coeff, hy]
  unfold synth
  rw [sub_eq_zero]
  exact Finset.sum_congr rfl fun i hi => by rw [heq i (Finset.mem_range.mp hi)]

/-- **C117** The number of passes needed without noise: what `sp.matrix_solve` with `rtol = 0` returns is the signal itself, provided `max_iters = t + 2`
is so large that `2δ/√(1-δ²) ρ^t √2 δ/√(1-δ²) |a|` is below the smallest non-zero magnitude of `a`. -/
theorem c117_sp_solve_partial (phi : ℕ → E) (n : ℕ) (mu : ℝ) (hmu : 0 ≤ mu) (K : ℕ) (hK : K ≤ n) (δ : ℝ) (hδ : 0 ≤ δ) (hδ1 : δ < 1)
    (h : Rip 𝕜 phi n mu (3 * K) δ) (lstsq : List ℕ → E → List 𝕜) (a : ℕ → 𝕜) (S : Finset ℕ) (hS : S.card ≤ K) (hSn : ∀ i ∈ S, i < n)
    (ha : SuppIn n S a) (y : E) (hy : y = synth phi n a) (hl : ∀ I, IsLstsq phi I y (lstsq I y)) (t : ℕ)
    (hc : ∀ s, Reach (plainCond (‖y‖ ^ 2 * 0 ^ 2) (t + 2)) (spBody phi n lstsq y K) (spInit phi n lstsq y K) s → s.r ≠ 0 →
      K ≤ ((Finset.range n).filter fun i => i ∉ s.I ∧ inner 𝕜 (phi i) s.r ≠ 0).card)
    (hclose : ∀ i ∈ S, 2 * δ / Real.sqrt (1 - δ ^ 2) * ((2 * δ / (1 - δ ^ 2)) ^ t * (Real.sqrt 2 * (δ * l2 n a) / Real.sqrt (1 - δ ^ 2))) < ‖a i‖)
    (s : GState 𝕜 E) (hs : SpMatrixSolve phi n lstsq y K (t + 2) 0 s) :
    s.r = 0 ∧ ∀ i, i < n → buildSignal s.I s.x i = a i := by
  obtain ⟨hr, hstop⟩ := hs
  set c : GState 𝕜 E → Prop := plainCond (‖y‖ ^ 2 * 0 ^ 2) (t + 2) with hcd
  have hgood := fun s (hs : Reach c (spBody phi n lstsq y K) (spInit phi n lstsq y K) s) => (c48_sp_state phi n lstsq y K hl hK c s hs).1
  have hc' : ∀ s, Reach c (spBody phi n lstsq y K) (spInit phi n lstsq y K) s → c s →
      K ≤ ((Finset.range n).filter fun i => i ∉ s.I ∧ inner 𝕜 (phi i) s.r ≠ 0).card := fun s hs hcs => hc s hs fun h0 => by
    have h1 : s.rr > ‖y‖ ^ 2 * 0 ^ 2 := hcs.1
    rw [(hgood s hs).normsq, h0] at h1
    simp at h1
  have hnd := fun s hs => c48_sp_distinct_partial phi n lstsq y K hl hK c s hs hc'
  have hzero : s.r = 0 := by
    by_contra hne
    have hit : ¬ s.iters < t + 2 := fun hlt => hstop ⟨by rw [(hgood s hr).normsq]; simp [hne], hlt⟩
    cases hr with
    | init => exact hit (by show 1 < t + 2; omega)
    | @step s hr hcs =>
      have it1 : (spBody phi n lstsq y K s).iters = s.iters + 1 := rfl
      have hlt : s.iters < t + 2 := hcs.2
      rw [it1] at hit
      obtain ⟨-, hb⟩ := c117_sp_recovery_partial phi n mu hmu K hK δ hδ hδ1 h lstsq a S hS hSn ha 0 y (by rw [hy, add_zero]) hl c hc' s hr
      simp only [norm_zero, mul_zero, zero_mul, add_zero, zero_div] at hb
      rw [show s.iters - 1 = t by omega] at hb
      refine hne (c117_sp_exact_partial phi n mu hmu K δ hδ hδ1 h lstsq a S hS hSn ha y hy hl s (hgood s hr) (hnd s hr) (hc' s hr hcs) fun i hi => lt_of_le_of_lt ?_ (hclose i hi)).2.2
      exact mul_le_mul_of_nonneg_left hb (div_nonneg (by linarith) (Real.sqrt_nonneg _))
  refine ⟨hzero, eq_of_l2_zero ?_⟩
  have h2K : Rip 𝕜 phi n mu (2 * K) δ := fun z T hT hz => h z T (hT.trans (by omega)) hz
  have := c117_residual_bound phi n mu hmu K δ h2K a S hS ha 0 y (by rw [hy, add_zero]) s (hgood s hr) (hnd s hr)
  rw [hzero, norm_zero] at this
  have h0 := l2_nonneg n fun i => buildSignal s.I s.x i - a i
  have h1 : l2 n (fun i => buildSignal s.I s.x i - a i) ^ 2 ≤ 0 := by nlinarith
  exact pow_eq_zero_iff two_ne_zero |>.1 (le_antisymm h1 (sq_nonneg _))

example (lstsq : List ℕ → EuclideanSpace ℝ (Fin 3) → List ℝ) (hl : ∀ I y, IsLstsq unitAtoms I y (lstsq I y)) (s : GState ℝ (EuclideanSpace ℝ (Fin 3)))
    (hs : SpMatrixSolve unitAtoms 3 lstsq (synth unitAtoms 3 fun i => if i = 0 then (3 : ℝ) else 0) 1 2 0 s) :
    s.r = 0 ∧ ∀ i, i < 3 → buildSignal s.I s.x i = if i = 0 then 3 else 0 := by
  obtain ⟨h, ha, -⟩ := noisy_case
  have hl3 : l2 3 (fun i => if i = 0 then (3 : ℝ) else 0) = 3 := by
    unfold l2
    rw [show ∑ i ∈ Finset.range 3, ‖(fun i => if i = 0 then (3 : ℝ) else 0) i‖ ^ 2 = 3 ^ 2 by
      simp [Finset.sum_range_succ]]
    exact Real.sqrt_sq (by norm_num)
  refine c117_sp_solve_partial unitAtoms 3 (9 / 10) (by norm_num) 1 (by norm_num) (1 / 10) (by norm_num) (by norm_num) (fun z T hT hz => h z T (by omega) hz) lstsq _ {0} (by simp) (by simp) ha _ rfl
    (fun I => hl I _) 0 (fun t ht hne => absurd ?_ hne) ?_ s hs
  · have h1 := rip_orthonormal (𝕜 := ℝ) (phi := unitAtoms) (n := 3) unitAtoms_inner 1 3
    rw [sub_self, abs_zero] at h1
    have hfirst : (spInit unitAtoms 3 lstsq (synth unitAtoms 3 fun i => if i = 0 then (3 : ℝ) else 0) 1).r = 0 := by
      obtain ⟨hg, -, hn⟩ := spInit_good unitAtoms 3 lstsq (synth unitAtoms 3 fun i => if i = 0 then (3 : ℝ) else 0) 1 (fun I => hl I _) (by norm_num)
      have h2 := sp_first unitAtoms 3 1 (by norm_num) 1 (by norm_num) 0 le_rfl (by norm_num) h1 lstsq _ {0} (by simp) (by simp) ha 0 _ (add_zero _).symm fun I => hl I _
      simp only [norm_zero, mul_zero, zero_mul, add_zero, zero_div] at h2
      have heq := eq_of_l2_zero (le_antisymm h2 (l2_nonneg _ _))
      rw [hg.residual, lin_eq_synth unitAtoms 3 _ _ hn hg.range hg.coeff]
      rw [sub_eq_zero]
      exact Finset.sum_congr rfl fun i hi => by rw [heq i (Finset.mem_range.mp hi)]
    have : ∀ t, Reach (plainCond (‖synth unitAtoms 3 fun i => if i = 0 then (3 : ℝ) else 0‖ ^ 2 * 0 ^ 2) (0 + 2))
        (spBody unitAtoms 3 lstsq (synth unitAtoms 3 fun i => if i = 0 then (3 : ℝ) else 0) 1) (spInit unitAtoms 3 lstsq (synth unitAtoms 3 fun i => if i = 0 then (3 : ℝ) else 0) 1) t →
        t = spInit unitAtoms 3 lstsq (synth unitAtoms 3 fun i => if i = 0 then (3 : ℝ) else 0) 1 := fun t ht =>
      ht.inv (fun t => t = _) rfl fun t hI hc => by
        subst hI
        have h3 := hc.1
        have h4 := (spInit_good unitAtoms 3 lstsq (synth unitAtoms 3 fun i => if i = 0 then (3 : ℝ) else 0) 1 (fun I => hl I _) (by norm_num)).1.normsq
        rw [hfirst] at h4
        rw [h4] at h3
        simp at h3
    rw [this t ht]
    exact hfirst
  · intro i hi
    simp only [Finset.mem_singleton] at hi
    subst hi
    rw [hl3]
    have hs : Real.sqrt 2 ≤ 2 := by rw [Real.sqrt_le_left (by norm_num)]; norm_num
    have hq : (9 / 10 : ℝ) ≤ Real.sqrt (1 - (1 / 10) ^ 2) := by apply Real.le_sqrt_of_sq_le; norm_num
    have hq0 : 0 < Real.sqrt (1 - (1 / 10) ^ 2) := by linarith
    simp only [pow_zero, one_mul, if_true]
    rw [div_mul_div_comm, div_lt_iff₀ (by positivity), Real.norm_of_nonneg (by norm_num)]
    nlinarith

/-! ## CoSaMP -/

/-- The pruned least-squares fit of CoSaMP is at most `√3` times as far from the signal as the fit itself. -/
theorem cosamp_pruned {n K : ℕ} (a : ℕ → 𝕜) (S : Finset ℕ) (hS : S.card ≤ K) (hSn : ∀ i ∈ S, i < n) (ha : SuppIn n S a) (J : List ℕ) (hJn : J.Nodup)
    (hJr : ∀ i ∈ J, i < n) (hK : K ≤ J.length) (z : List 𝕜) (hz : z.length = J.length) :
    let P := largestIndices z K
    l2 n (fun i => buildSignal (gather 0 J P) (gather 0 z P) i - a i) ≤ Real.sqrt 3 * l2 n (fun i => buildSignal J z i - a i) := by
  classical
  intro P
  set I := gather 0 J P with hI
  set w := buildSignal J z with hw
  set D := l2 n (fun i => w i - a i) with hD
  have hP : ∀ k ∈ P, k < J.length := by
    have := (c51_largest_indices z K).2.2.1
    rwa [hz] at this
  have b3 := prune_bound a S hS hSn ha J hJn hJr hK z hz
  have hb : ∀ j, buildSignal I (gather 0 z P) j = if j ∈ I then w j else 0 := fun j => buildSignal_gather_map J z hJn hz _ hP j
  have h3 := split_error a S ha I.toFinset (buildSignal I (gather 0 z P)) fun i hi => by rw [hb, if_neg (by simpa using hi)]
  have h4 : l2 n (restr I.toFinset fun i => buildSignal I (gather 0 z P) i - a i) ≤ D := by
    have e1 : l2 n (restr I.toFinset fun i => buildSignal I (gather 0 z P) i - a i) = l2 n (restr I.toFinset fun i => w i - a i) := by
      apply l2_congr
      intro i _
      by_cases hi : i ∈ I
      · simp only [restr, List.mem_toFinset, hi, if_true, hb]
      · simp only [restr, List.mem_toFinset, hi, if_false]
    rw [e1]
    apply l2_le_of_sq
    rw [restr_split n I.toFinset fun i => w i - a i]
    have := Finset.sum_nonneg (s := (Finset.range n).filter (· ∉ I.toFinset)) (f := fun i => ‖w i - a i‖ ^ 2) fun _ _ => sq_nonneg _
    linarith
  have hD0 : 0 ≤ D := l2_nonneg _ _
  refine (abs_le_of_sq_le_sq' ?_ (by positivity)).2
  rw [h3, mul_pow, Real.sq_sqrt (by norm_num)]
  have a1 := pow_le_pow_left₀ (l2_nonneg _ _) h4 2
  have a2 := pow_le_pow_left₀ (l2_nonneg _ _) b3 2
  rw [mul_pow, Real.sq_sqrt (by norm_num)] at a2
  change _ ≤ 2 * D ^ 2 at a2
  linarith

/-- **C118** One pass of CoSaMP on noisy measurements `y = Phi a + e` of a `K`-sparse signal, under the restricted isometry property of order `4K` with
constant `δ < 1`: the error `|x - a|` becomes at most `ρ |x - a| + τ |e|` with `ρ = √6 δ / √(1 - δ²)`, less than one for `δ² < 1/7`. At least `2K` atoms
outside the support must be correlated with the residual. -/
theorem c118_cosamp_contraction_partial (phi : ℕ → E) (n : ℕ) (mu : ℝ) (hmu : 0 ≤ mu) (K : ℕ) (δ : ℝ) (hδ : 0 ≤ δ) (hδ1 : δ < 1)
    (h : Rip 𝕜 phi n mu (4 * K) δ) (lstsq : List ℕ → E → List 𝕜) (a : ℕ → 𝕜) (S : Finset ℕ) (hS : S.card ≤ K) (hSn : ∀ i ∈ S, i < n)
    (ha : SuppIn n S a) (e y : E) (hy : y = synth phi n a + e) (hl : ∀ I, IsLstsq phi I y (lstsq I y))
    (s : GState 𝕜 E) (hg : GoodState phi n y K s) (hn : s.I.Nodup)
    (hc : 2 * K ≤ ((Finset.range n).filter fun i => i ∉ s.I ∧ inner 𝕜 (phi i) s.r ≠ 0).card) :
    let s' := cosampBody phi n lstsq y K s
    l2 n (fun i => buildSignal s'.I s'.x i - a i) ≤
      Real.sqrt 6 * δ / Real.sqrt (1 - δ ^ 2) * l2 n (fun i => buildSignal s.I s.x i - a i) +
      (Real.sqrt 6 / Real.sqrt (1 - δ ^ 2) + Real.sqrt 3 / (1 - δ)) * Real.sqrt (mu * (1 + δ)) * ‖e‖ := by
  intro s'
  obtain ⟨hJn, hJr, hJK, -, b1, -⟩ := merge_pass hmu (by omega : K ≤ 2 * K) (by omega : 2 * K + 2 * K ≤ 4 * K) h hδ hδ1 lstsq a S hS hSn ha e y hy hl s hg hn hc
  have h5 := cosamp_pruned a S hS hSn ha _ hJn hJr hJK _ (hl _).length
  refine h5.trans ((mul_le_mul_of_nonneg_left b1 (Real.sqrt_nonneg _)).trans_eq ?_)
  have h6 : Real.sqrt 6 = Real.sqrt 3 * Real.sqrt 2 := by rw [← Real.sqrt_mul (by norm_num)]; norm_num
  rw [h6]
  ring

example : ∃ (lstsq : List ℕ → EuclideanSpace ℝ (Fin 3) → List ℝ) (s : GState ℝ (EuclideanSpace ℝ (Fin 3))),
    let a : ℕ → ℝ := fun i => if i = 0 then 3 else 0
    let s' := cosampBody unitAtoms 3 lstsq (synth unitAtoms 3 a + (unitAtoms 1 + unitAtoms 2)) 1 s
    l2 3 (fun i => buildSignal s'.I s'.x i - a i) ≤
      Real.sqrt 6 * (1 / 10) / Real.sqrt (1 - (1 / 10) ^ 2) * l2 3 (fun i => buildSignal s.I s.x i - a i) +
      (Real.sqrt 6 / Real.sqrt (1 - (1 / 10) ^ 2) + Real.sqrt 3 / (1 - 1 / 10)) * Real.sqrt (9 / 10 * (1 + 1 / 10)) * ‖unitAtoms 1 + unitAtoms 2‖ := by
  obtain ⟨h, ha, ⟨lstsq, hl⟩, hg, hn, hc⟩ := noisy_case
  exact ⟨lstsq, _, c118_cosamp_contraction_partial unitAtoms 3 (9 / 10) (by norm_num) 1 (1 / 10) (by norm_num) (by norm_num) h lstsq _ {0} (by simp) (by simp) ha _ _ rfl
    (fun I => hl I _) _ hg hn hc⟩

/-- The energy of a signal built from distinct in-range indices is that of its coefficients, whichever index they went to. -/
theorem l2_buildSignal_sq {n : ℕ} : ∀ (I : List ℕ) (x : List 𝕜), I.Nodup → (∀ i ∈ I, i < n) → x.length = I.length →
    l2 n (buildSignal I x) ^ 2 = (x.map fun c => ‖c‖ ^ 2).sum
  | [], [], _, _, _ => by rw [l2_sq]; simp [buildSignal]
  | i :: I, c :: x, hn, hr, hl => by
    obtain ⟨hn1, hn2⟩ := List.nodup_cons.1 hn
    have ih := l2_buildSignal_sq I x hn2 (fun j hj => hr j (List.mem_cons_of_mem _ hj)) (by simpa using hl)
    rw [l2_sq] at ih ⊢
    rw [List.map_cons, List.sum_cons, ← ih]
    have hi := hr i List.mem_cons_self
    rw [← Finset.add_sum_erase _ _ (Finset.mem_range.2 hi), ← Finset.add_sum_erase _ _ (Finset.mem_range.2 hi), buildSignal_not_mem I x i hn1]
    have e1 : buildSignal (i :: I) (c :: x) i = c := by
      simp [buildSignal, buildSignal_not_mem I x i hn1]
      exact fun hh => absurd (List.mem_of_mem_take hh) hn1
    rw [e1, norm_zero]
    have e2 : ∑ j ∈ (Finset.range n).erase i, ‖buildSignal (i :: I) (c :: x) j‖ ^ 2 = ∑ j ∈ (Finset.range n).erase i, ‖buildSignal I x j‖ ^ 2 := by
      refine Finset.sum_congr rfl fun j hj => ?_
      have : j ≠ i := Finset.ne_of_mem_erase hj
      simp [buildSignal, this, this.symm]
    rw [e2]; ring

/-- **C118** The error of the first state of CoSaMP: at most `2 |a|` more than `√3` times that of the least-squares fit. (The support is sorted but the coefficients are not, so
they may be attached to the wrong atoms, see `c47_first_state_fails`.) -/
theorem c118_cosamp_first (phi : ℕ → E) (n : ℕ) (mu : ℝ) (hmu : 0 ≤ mu) (K : ℕ) (hK : K ≤ n) (δ : ℝ) (hδ : 0 ≤ δ) (hδ1 : δ < 1)
    (h : Rip 𝕜 phi n mu (4 * K) δ) (lstsq : List ℕ → E → List 𝕜) (a : ℕ → 𝕜) (S : Finset ℕ) (hS : S.card ≤ K) (hSn : ∀ i ∈ S, i < n)
    (ha : SuppIn n S a) (e y : E) (hy : y = synth phi n a + e) (hl : ∀ I, IsLstsq phi I y (lstsq I y)) :
    let s := cosampInit phi n lstsq y K
    l2 n (fun i => buildSignal s.I s.x i - a i) ≤ 2 * l2 n a +
      Real.sqrt 3 * (Real.sqrt 2 * (δ * l2 n a + Real.sqrt (mu * (1 + δ)) * ‖e‖) / Real.sqrt (1 - δ ^ 2) + Real.sqrt (mu * (1 + δ)) * ‖e‖ / (1 - δ)) := by
  intro s
  set J := largestIndices (corr 𝕜 phi n y) (K + 2 * K) with hJ
  set z := lstsq J y with hz
  set P := largestIndices z K with hP
  obtain ⟨h1, h2, h3, -, h5⟩ := c51_largest_indices (corr 𝕜 phi n y) (K + 2 * K)
  rw [corr_length'] at h2 h3 h5
  rw [← hJ] at h1 h2 h3 h5
  have h0 : synth phi n (buildSignal [] ([] : List 𝕜)) = 0 := by simp [synth, buildSignal]
  have b1 := identify_bound hmu h hδ a S hSn ha e y hy [] [] J (K + 2 * K) (by omega) (by simp; omega) h1 h2 h3 (by simp) fun i hi j hj _ hjJ => by
    rw [h0, sub_zero]
    have := h5 i hi j hj hjJ
    rwa [corr_getD' _ _ _ hj, corr_getD' _ _ _ (h3 i hi)] at this
  have e1 : l2 n (fun i => buildSignal [] ([] : List 𝕜) i - a i) = l2 n a := by
    unfold l2; simp [buildSignal]
  rw [e1, List.nil_append] at b1
  have hJl : J.length + S.card ≤ 4 * K := by rw [h2]; omega
  have hJK : K ≤ J.length := by rw [h2]; omega
  have b2 := fit_bound hmu h hδ hδ1 a S ha e y hy J h1 h3 hJl z (hl _)
  have b3 := cosamp_pruned a S hS hSn ha J h1 h3 hJK z (hl _).length
  have hPr : ∀ k ∈ P, k < J.length := by
    have := (c51_largest_indices z K).2.2.1
    rwa [(hl J).length] at this
  have hIn : (gather 0 J P).Nodup := gather_nodup 0 J P hPr h1 (c51_largest_indices z K).1
  have hIr : ∀ i ∈ gather 0 J P, i < n := fun i hi => h3 i (gather_mem 0 J P hPr i hi)
  have e2 : l2 n (buildSignal s.I s.x) = l2 n (buildSignal (gather 0 J P) (gather 0 z P)) := by
    refine (pow_left_inj₀ (l2_nonneg _ _) (l2_nonneg _ _) two_ne_zero).1 ?_
    have hp := List.mergeSort_perm (gather 0 J P) (fun a b => decide (a ≤ b))
    rw [l2_buildSignal_sq _ _ hIn hIr (by rw [gather_length, gather_length])]
    exact l2_buildSignal_sq s.I s.x (hp.nodup_iff.2 hIn) (fun i hi => hIr i (hp.mem_iff.1 hi)) (by
      rw [show s.I.length = _ from hp.length_eq, gather_length]; exact gather_length _ _ _)
  have t1 : l2 n (fun i => buildSignal s.I s.x i - a i) ≤ l2 n (buildSignal s.I s.x) + l2 n a := l2_sub_le _ _ _
  have t2 : l2 n (buildSignal (gather 0 J P) (gather 0 z P)) ≤ l2 n (fun i => buildSignal (gather 0 J P) (gather 0 z P) i - a i) + l2 n a := by
    have := l2_add_le n (fun i => buildSignal (gather 0 J P) (gather 0 z P) i - a i) a
    simpa using this
  have t3 := mul_le_mul_of_nonneg_left (b2.trans (add_le_add (div_le_div_of_nonneg_right b1 (Real.sqrt_nonneg _)) le_rfl)) (Real.sqrt_nonneg 3)
  linarith

/-- **C118** The error of every state of a run of CoSaMP (any stop rule `c`) with iteration count `k`, for `ρ = √6 δ / √(1 - δ²)`: at most
`ρ^(k-1)` times the error of the first state plus the accumulated noise, as long as `2K` atoms outside the support were correlated with the residual
whenever the run went on. -/
theorem c118_cosamp_recovery_partial (phi : ℕ → E) (n : ℕ) (mu : ℝ) (hmu : 0 ≤ mu) (K : ℕ) (hK : K ≤ n) (δ : ℝ) (hδ : 0 ≤ δ) (hδ1 : δ < 1)
    (h : Rip 𝕜 phi n mu (4 * K) δ) (lstsq : List ℕ → E → List 𝕜) (a : ℕ → 𝕜) (S : Finset ℕ) (hS : S.card ≤ K) (hSn : ∀ i ∈ S, i < n)
    (ha : SuppIn n S a) (e y : E) (hy : y = synth phi n a + e) (hl : ∀ I, IsLstsq phi I y (lstsq I y))
    (c : GState 𝕜 E → Prop)
    (hc : ∀ t, Reach c (cosampBody phi n lstsq y K) (cosampInit phi n lstsq y K) t → c t →
      2 * K ≤ ((Finset.range n).filter fun i => i ∉ t.I ∧ inner 𝕜 (phi i) t.r ≠ 0).card)
    (s : GState 𝕜 E) (hs : Reach c (cosampBody phi n lstsq y K) (cosampInit phi n lstsq y K) s) :
    let ρ := Real.sqrt 6 * δ / Real.sqrt (1 - δ ^ 2)
    let τ := (Real.sqrt 6 / Real.sqrt (1 - δ ^ 2) + Real.sqrt 3 / (1 - δ)) * Real.sqrt (mu * (1 + δ))
    let s1 := cosampInit phi n lstsq y K
    1 ≤ s.iters ∧ l2 n (fun i => buildSignal s.I s.x i - a i) ≤
      ρ ^ (s.iters - 1) * l2 n (fun i => buildSignal s1.I s1.x i - a i) + τ * ‖e‖ * ∑ j ∈ Finset.range (s.iters - 1), ρ ^ j := by
  intro ρ τ s1
  have hρ : 0 ≤ ρ := div_nonneg (mul_nonneg (Real.sqrt_nonneg _) hδ) (Real.sqrt_nonneg _)
  induction hs with
  | init =>
    have it1 : (cosampInit phi n lstsq y K : GState 𝕜 E).iters = 1 := rfl
    refine ⟨le_rfl, ?_⟩
    rw [it1]
    simp [s1]
  | @step s hr hcs ih =>
    obtain ⟨i1, i2⟩ := ih
    have it1 : (cosampBody phi n lstsq y K s).iters = s.iters + 1 := rfl
    refine ⟨by rw [it1]; omega, ?_⟩
    have h1 := c118_cosamp_contraction_partial phi n mu hmu K δ hδ hδ1 h lstsq a S hS hSn ha e y hy hl s
      (c47_cosamp_state phi n lstsq y K hl hK c s hr) (c47_cosamp_distinct_partial phi n lstsq y K hl hK c s hr hc) (hc s hr hcs)
    refine h1.trans ?_
    have h2 := mul_le_mul_of_nonneg_left i2 hρ
    rw [it1]
    obtain ⟨k, hk⟩ : ∃ k, s.iters = k + 1 := ⟨s.iters - 1, by omega⟩
    rw [hk] at h2 ⊢
    simp only [Nat.add_sub_cancel] at h2 ⊢
    rw [pow_succ ρ k, Finset.sum_range_succ']
    have e3 : ∑ j ∈ Finset.range k, ρ ^ (j + 1) = ρ * ∑ j ∈ Finset.range k, ρ ^ j := by
      rw [Finset.mul_sum]; exact Finset.sum_congr rfl fun j _ => by rw [pow_succ]; ring
    rw [e3, pow_zero]
    change ρ * _ + τ * ‖e‖ ≤ _
    nlinarith

/-- **C118** Exact recovery: without noise, once `2δ / √(1-δ²) |x - a|` is below the smallest non-zero magnitude of `a`, the next state is the signal itself. -/
theorem c118_cosamp_exact_partial (phi : ℕ → E) (n : ℕ) (mu : ℝ) (hmu : 0 ≤ mu) (K : ℕ) (δ : ℝ) (hδ : 0 ≤ δ) (hδ1 : δ < 1)
    (h : Rip 𝕜 phi n mu (4 * K) δ) (lstsq : List ℕ → E → List 𝕜) (a : ℕ → 𝕜) (S : Finset ℕ) (hS : S.card ≤ K) (hSn : ∀ i ∈ S, i < n)
    (ha : SuppIn n S a) (y : E) (hy : y = synth phi n a) (hl : ∀ I, IsLstsq phi I y (lstsq I y))
    (s : GState 𝕜 E) (hg : GoodState phi n y K s) (hn : s.I.Nodup)
    (hc : 2 * K ≤ ((Finset.range n).filter fun i => i ∉ s.I ∧ inner 𝕜 (phi i) s.r ≠ 0).card)
    (hclose : ∀ i ∈ S, 2 * δ / Real.sqrt (1 - δ ^ 2) * l2 n (fun i => buildSignal s.I s.x i - a i) < ‖a i‖) :
    let s' := cosampBody phi n lstsq y K s
    (∀ i ∈ S, i ∈ s'.I) ∧ (∀ i, i < n → buildSignal s'.I s'.x i = a i) ∧ s'.r = 0 := by
  intro s'
  have hy' : y = synth phi n a + 0 := by rw [hy, add_zero]
  obtain ⟨hJn, hJr, hJK, hJl, -, h1⟩ := merge_pass hmu (by omega : K ≤ 2 * K) (by omega : 2 * K + 2 * K ≤ 4 * K) h hδ hδ1 lstsq a S hS hSn ha 0 y hy' hl s hg hn hc
  simp only [norm_zero, mul_zero, add_zero, zero_div] at h1
  have e1 : Real.sqrt 2 * (Real.sqrt 2 * (δ * l2 n (fun i => buildSignal s.I s.x i - a i)) / Real.sqrt (1 - δ ^ 2)) =
      2 * δ / Real.sqrt (1 - δ ^ 2) * l2 n (fun i => buildSignal s.I s.x i - a i) := by
    have h2 : Real.sqrt 2 ^ 2 = 2 := Real.sq_sqrt (by norm_num)
    have : ∀ w σ d : ℝ, w * (w * (δ * d) / σ) = w ^ 2 * δ / σ * d := fun w σ d => by ring
    rw [this, h2]
  rw [e1] at h1
  set J := s.I ++ largestIndices (zeroAt (corr 𝕜 phi n s.r) s.I) (2 * K) with hJ
  have hP : ∀ k ∈ largestIndices (lstsq J y) K, k < J.length := by
    have := (c51_largest_indices (lstsq J y) K).2.2.1
    rwa [(hl J).length] at this
  obtain ⟨hin, -⟩ := nothing_missed hSn fun i hi => h1.trans_lt (hclose i hi)
  have hin' : ∀ i ∈ S, i ∈ s'.I := fun i hi => List.mem_toFinset.1 (hin i hi)
  have hSJ : S \ J.toFinset = ∅ := by
    rw [Finset.sdiff_eq_empty_iff_subset]
    exact fun i hi => List.mem_toFinset.2 (gather_mem 0 J _ hP i (hin' i hi))
  have b2 := fit_bound hmu h hδ hδ1 a S ha 0 y hy' J hJn hJr (by omega) (lstsq J y) (hl J)
  have e2 : l2 n (restr (∅ : Finset ℕ) a) = 0 := by unfold l2; simp [restr]
  rw [hSJ, e2] at b2
  simp only [norm_zero, mul_zero, add_zero, zero_div] at b2
  have b3 := cosamp_pruned a S hS hSn ha J hJn hJr hJK (lstsq J y) (hl J).length
  rw [le_antisymm b2 (l2_nonneg _ _), mul_zero] at b3
  have heq : ∀ i, i < n → buildSignal s'.I s'.x i = a i := eq_of_l2_zero (le_antisymm b3 (l2_nonneg _ _))
  refine ⟨hin', heq, ?_⟩
  have hn' : s'.I.Nodup := gather_nodup 0 J _ hP hJn (c51_largest_indices (lstsq J y) K).1
  have hg' := cosampBody_good phi n lstsq y K hl s hg
  change GoodState phi n y K s' at hg'
  rw [hg'.residual, lin_eq_synth phi n _ _ hn' hg'.range hg'.coeff, hy]
  unfold synth
  rw [sub_eq_zero]
  exact Finset.sum_congr rfl fun i hi => by rw [heq i (Finset.mem_range.mp hi)]

/-- **C118** The number of passes needed without noise: what `cosamp.matrix_solve` with `rtol = 0` returns is the signal itself, provided `max_iters = t + 2`
is so large that `2δ/√(1-δ²) ρ^t (2 + √6 δ/√(1-δ²)) |a|` is below the smallest non-zero magnitude of `a`. -/
theorem c118_cosamp_solve_partial (phi : ℕ → E) (n : ℕ) (mu : ℝ) (hmu : 0 ≤ mu) (K : ℕ) (hK : K ≤ n) (δ : ℝ) (hδ : 0 ≤ δ) (hδ1 : δ < 1)
    (h : Rip 𝕜 phi n mu (4 * K) δ) (lstsq : List ℕ → E → List 𝕜) (a : ℕ → 𝕜) (S : Finset ℕ) (hS : S.card ≤ K) (hSn : ∀ i ∈ S, i < n)
    (ha : SuppIn n S a) (y : E) (hy : y = synth phi n a) (hl : ∀ I, IsLstsq phi I y (lstsq I y)) (t : ℕ)
    (hc : ∀ s, Reach (plainCond (‖y‖ ^ 2 * 0 ^ 2) (t + 2)) (cosampBody phi n lstsq y K) (cosampInit phi n lstsq y K) s → s.r ≠ 0 →
      2 * K ≤ ((Finset.range n).filter fun i => i ∉ s.I ∧ inner 𝕜 (phi i) s.r ≠ 0).card)
    (hclose : ∀ i ∈ S, 2 * δ / Real.sqrt (1 - δ ^ 2) * ((Real.sqrt 6 * δ / Real.sqrt (1 - δ ^ 2)) ^ t *
      (2 * l2 n a + Real.sqrt 3 * (Real.sqrt 2 * (δ * l2 n a) / Real.sqrt (1 - δ ^ 2)))) < ‖a i‖)
    (s : GState 𝕜 E) (hs : CosampMatrixSolve phi n lstsq y K (t + 2) 0 s) :
    s.r = 0 ∧ ∀ i, i < n → buildSignal s.I s.x i = a i := by
  obtain ⟨hr, hstop⟩ := hs
  set c : GState 𝕜 E → Prop := plainCond (‖y‖ ^ 2 * 0 ^ 2) (t + 2) with hcd
  have hgood := fun s (hs : Reach c (cosampBody phi n lstsq y K) (cosampInit phi n lstsq y K) s) => c47_cosamp_state phi n lstsq y K hl hK c s hs
  have hc' : ∀ s, Reach c (cosampBody phi n lstsq y K) (cosampInit phi n lstsq y K) s → c s →
      2 * K ≤ ((Finset.range n).filter fun i => i ∉ s.I ∧ inner 𝕜 (phi i) s.r ≠ 0).card := fun s hs hcs => hc s hs fun h0 => by
    have h1 : s.rr > ‖y‖ ^ 2 * 0 ^ 2 := hcs.1
    rw [(hgood s hs).normsq, h0] at h1
    simp at h1
  have hnd := fun s hs => c47_cosamp_distinct_partial phi n lstsq y K hl hK c s hs hc'
  have hy' : y = synth phi n a + 0 := by rw [hy, add_zero]
  have hzero : s.r = 0 := by
    by_contra hne
    have hit : ¬ s.iters < t + 2 := fun hlt => hstop ⟨by rw [(hgood s hr).normsq]; simp [hne], hlt⟩
    cases hr with
    | init => exact hit (by show 1 < t + 2; omega)
    | @step s hr hcs =>
      have it1 : (cosampBody phi n lstsq y K s).iters = s.iters + 1 := rfl
      have hlt : s.iters < t + 2 := hcs.2
      rw [it1] at hit
      obtain ⟨-, hb⟩ := c118_cosamp_recovery_partial phi n mu hmu K hK δ hδ hδ1 h lstsq a S hS hSn ha 0 y hy' hl c hc' s hr
      have h0 := c118_cosamp_first phi n mu hmu K hK δ hδ hδ1 h lstsq a S hS hSn ha 0 y hy' hl
      simp only [norm_zero, mul_zero, zero_mul, add_zero, zero_div] at hb h0
      rw [show s.iters - 1 = t by omega] at hb
      have hρ : 0 ≤ Real.sqrt 6 * δ / Real.sqrt (1 - δ ^ 2) := div_nonneg (mul_nonneg (Real.sqrt_nonneg _) hδ) (Real.sqrt_nonneg _)
      have hb' := hb.trans (mul_le_mul_of_nonneg_left h0 (pow_nonneg hρ t))
      refine hne (c118_cosamp_exact_partial phi n mu hmu K δ hδ hδ1 h lstsq a S hS hSn ha y hy hl s (hgood s hr) (hnd s hr) (hc' s hr hcs) fun i hi => lt_of_le_of_lt ?_ (hclose i hi)).2.2
      exact mul_le_mul_of_nonneg_left hb' (div_nonneg (by linarith) (Real.sqrt_nonneg _))
  refine ⟨hzero, eq_of_l2_zero ?_⟩
  have h2K : Rip 𝕜 phi n mu (2 * K) δ := fun z T hT hz => h z T (hT.trans (by omega)) hz
  have := c117_residual_bound phi n mu hmu K δ h2K a S hS ha 0 y hy' s (hgood s hr) (hnd s hr)
  rw [hzero, norm_zero] at this
  have h0 := l2_nonneg n fun i => buildSignal s.I s.x i - a i
  have h1 : l2 n (fun i => buildSignal s.I s.x i - a i) ^ 2 ≤ 0 := by nlinarith
  exact pow_eq_zero_iff two_ne_zero |>.1 (le_antisymm h1 (sq_nonneg _))

/-! Instances: the case above, `y = 3 e₀ + e₁ + e₂`. Every residual of a one-atom state keeps two nonzero correlations. -/

theorem ex_full3 (s : GState ℝ (EuclideanSpace ℝ (Fin 3)))
    (h : GoodState unitAtoms 3 (synth unitAtoms 3 (fun i => if i = 0 then (3 : ℝ) else 0) + (unitAtoms 1 + unitAtoms 2)) 1 s) :
    2 * 1 ≤ ((Finset.range 3).filter fun i => i ∉ s.I ∧ inner ℝ (unitAtoms i) s.r ≠ 0).card := by
  obtain ⟨i, hi⟩ := List.length_eq_one_iff.1 h.size
  obtain ⟨x, hx⟩ := List.length_eq_one_iff.1 (h.coeff.trans h.size)
  have hi3 : i < 3 := h.range i (by rw [hi]; simp)
  have hr := h.residual
  rw [hi, hx] at hr
  simp only [lin, add_zero] at hr
  have key : (Finset.range 3).erase i ⊆ (Finset.range 3).filter fun j => j ∉ s.I ∧ inner ℝ (unitAtoms j) s.r ≠ 0 := by
    intro j hj
    simp only [Finset.mem_erase, Finset.mem_range] at hj
    simp only [Finset.mem_filter, Finset.mem_range]
    refine ⟨hj.2, by rw [hi]; simpa using hj.1, ?_⟩
    rw [hr]
    have hj' := hj.2
    have hne := hj.1
    have u := unitAtoms_inner
    interval_cases i <;> interval_cases j <;>
      simp_all [synth, Finset.sum_range_succ, inner_sub_right, inner_add_right, inner_smul_right, unitAtoms_ne]
  refine le_trans ?_ (Finset.card_le_card key)
  rw [Finset.card_erase_of_mem (by simpa using hi3)]
  simp

example (c : GState ℝ (EuclideanSpace ℝ (Fin 3)) → Prop) (s) (hs : Reach c _ _ s) :=
  c117_sp_recovery_partial unitAtoms 3 (9 / 10) (by norm_num) 1 (by norm_num) (1 / 10) (by norm_num) (by norm_num) (fun z T hT hz => noisy_case.1 z T (by omega) hz) (exLst unitAtoms) _ {0}
    (by simp) (by simp) noisy_case.2.1 (unitAtoms 1 + unitAtoms 2) _ rfl (fun I => exLst_ok _ I _) c
    (fun t ht _ => le_trans (by norm_num) (ex_full3 t (c48_sp_state unitAtoms 3 (exLst unitAtoms) _ 1 (fun I => exLst_ok _ I _) (by norm_num) c t ht).1)) s hs

example := c117_residual_bound unitAtoms 3 (9 / 10) (by norm_num) 1 (1 / 10) (fun z T hT hz => noisy_case.1 z T (by omega) hz) _ {0} (by simp) noisy_case.2.1
  (unitAtoms 1 + unitAtoms 2) _ rfl _ noisy_case.2.2.2.1 noisy_case.2.2.2.2.1

example := c118_cosamp_first unitAtoms 3 (9 / 10) (by norm_num) 1 (by norm_num) (1 / 10) (by norm_num) (by norm_num) noisy_case.1 (exLst unitAtoms) _ {0}
    (by simp) (by simp) noisy_case.2.1 (unitAtoms 1 + unitAtoms 2) _ rfl (fun I => exLst_ok _ I _)

example (c : GState ℝ (EuclideanSpace ℝ (Fin 3)) → Prop) (s) (hs : Reach c _ _ s) :=
  c118_cosamp_recovery_partial unitAtoms 3 (9 / 10) (by norm_num) 1 (by norm_num) (1 / 10) (by norm_num) (by norm_num) noisy_case.1 (exLst unitAtoms) _ {0}
    (by simp) (by simp) noisy_case.2.1 (unitAtoms 1 + unitAtoms 2) _ rfl (fun I => exLst_ok _ I _) c
    (fun t ht _ => ex_full3 t (c47_cosamp_state unitAtoms 3 (exLst unitAtoms) _ 1 (fun I => exLst_ok _ I _) (by norm_num) c t ht)) s hs

/-- From the wrong atom, one pass of subspace pursuit finds the right one. -/
example : (spBody unitAtoms 3 (exLst unitAtoms) (synth unitAtoms 3 fun i => if i = 0 then (3 : ℝ) else 0) 1
    (mkState unitAtoms (synth unitAtoms 3 fun i => if i = 0 then (3 : ℝ) else 0) [1] [(0 : ℝ)] 1 [0])).r = 0 := by
  have h99 : 9 / 10 ≤ Real.sqrt (1 - (1 / 10) ^ 2) := Real.le_sqrt_of_sq_le (by norm_num)
  refine (c117_sp_exact_partial unitAtoms 3 (9 / 10) (by norm_num) 1 (1 / 10) (by norm_num) (by norm_num) (fun z T hT hz => noisy_case.1 z T (by omega) hz) (exLst unitAtoms) _ {0}
    (by simp) (by simp) noisy_case.2.1 _ rfl (fun I => exLst_ok _ I _) _ ⟨by simp [mkState], by simp [mkState], by simp [mkState], rfl, rfl⟩ (by simp [mkState]) ?_ fun i hi => ?_).2.2
  · have : ({0} : Finset ℕ) ⊆ (Finset.range 3).filter fun i => i ∉ (mkState unitAtoms (synth unitAtoms 3 fun i => if i = 0 then (3 : ℝ) else 0) [1] [(0 : ℝ)] 1 [0]).I ∧
        inner ℝ (unitAtoms i) (mkState unitAtoms (synth unitAtoms 3 fun i => if i = 0 then (3 : ℝ) else 0) [1] [(0 : ℝ)] 1 [0]).r ≠ 0 := by
      intro i hi
      have : i = 0 := by simpa using hi
      subst this
      simp [mkState, lin, synth, Finset.sum_range_succ, inner_smul_right, unitAtoms_inner, unitAtoms_ne]
    exact Finset.card_le_card this
  · have : i = 0 := by simpa using hi
    subst this
    have hl : l2 3 (fun i => buildSignal (mkState unitAtoms (synth unitAtoms 3 fun i => if i = 0 then (3 : ℝ) else 0) [1] [(0 : ℝ)] 1 [0]).I
        (mkState unitAtoms (synth unitAtoms 3 fun i => if i = 0 then (3 : ℝ) else 0) [1] [(0 : ℝ)] 1 [0]).x i - if i = 0 then (3 : ℝ) else 0) = 3 := by
      rw [l2, ← Real.sqrt_sq (show (0 : ℝ) ≤ 3 by norm_num)]
      congr 1
      simp [Finset.sum_range_succ, mkState, buildSignal]
    rw [hl]
    simp only [if_true]
    rw [div_mul_eq_mul_div, div_lt_iff₀ (by linarith)]
    rw [Real.norm_eq_abs, abs_of_nonneg (by norm_num)]
    linarith

/-- The three atoms of `RipOmpProps` have restricted isometry constant `7/25` of every order. -/
theorem threeAtoms_rip (s : ℕ) : Rip ℝ threeAtoms 3 1 s (7 / 25) := by
  intro z T _ _
  have h1 : ‖synth threeAtoms 3 z‖ ^ 2 = z 0 ^ 2 + z 1 ^ 2 + z 2 ^ 2 + 14 / 25 * (z 1 * z 2) := by
    rw [EuclideanSpace.norm_sq_eq]
    simp [synth, Finset.sum_range_succ, Fin.sum_univ_three, threeAtoms]
    ring
  have h2 : l2 3 z ^ 2 = z 0 ^ 2 + z 1 ^ 2 + z 2 ^ 2 := by
    rw [l2, Real.sq_sqrt (Finset.sum_nonneg fun _ _ => sq_nonneg _)]
    simp [Finset.sum_range_succ]
  rw [h1, h2, abs_le]
  constructor <;> nlinarith [sq_nonneg (z 0), sq_nonneg (z 1 + z 2), sq_nonneg (z 1 - z 2)]

/-- From the wrong atom, one pass of CoSaMP finds the right one. -/
example : (cosampBody threeAtoms 3 (exLst threeAtoms) (synth threeAtoms 3 fun i => if i = 2 then (3 : ℝ) else 0) 1
    (mkState threeAtoms (synth threeAtoms 3 fun i => if i = 2 then (3 : ℝ) else 0) [0] [(0 : ℝ)] 1 [0])).r = 0 := by
  have h96 : Real.sqrt (1 - (7 / 25) ^ 2) = 24 / 25 := by
    rw [show (1 : ℝ) - (7 / 25) ^ 2 = (24 / 25) ^ 2 by norm_num, Real.sqrt_sq (by norm_num)]
  refine (c118_cosamp_exact_partial threeAtoms 3 1 (by norm_num) 1 (7 / 25) (by norm_num) (by norm_num) (threeAtoms_rip _) (exLst threeAtoms) _ {2}
    (by simp) (by simp) (fun i _ hi => by simp at hi; simp [hi]) _ rfl (fun I => exLst_ok _ I _) _ ⟨by simp [mkState], by simp [mkState], by simp [mkState], rfl, rfl⟩ (by simp [mkState]) ?_ fun i hi => ?_).2.2
  · have : ({1, 2} : Finset ℕ) ⊆ (Finset.range 3).filter fun i => i ∉ (mkState threeAtoms (synth threeAtoms 3 fun i => if i = 2 then (3 : ℝ) else 0) [0] [(0 : ℝ)] 1 [0]).I ∧
        inner ℝ (threeAtoms i) (mkState threeAtoms (synth threeAtoms 3 fun i => if i = 2 then (3 : ℝ) else 0) [0] [(0 : ℝ)] 1 [0]).r ≠ 0 := by
      intro i hi
      simp only [Finset.mem_insert, Finset.mem_singleton] at hi
      rcases hi with rfl | rfl <;> simp [mkState, lin, synth, Finset.sum_range_succ, inner_smul_right, threeAtoms, PiLp.inner_apply, Fin.sum_univ_three] <;> norm_num
    exact Finset.card_le_card this
  · have : i = 2 := by simpa using hi
    subst this
    have hl : l2 3 (fun i => buildSignal (mkState threeAtoms (synth threeAtoms 3 fun i => if i = 2 then (3 : ℝ) else 0) [0] [(0 : ℝ)] 1 [0]).I
        (mkState threeAtoms (synth threeAtoms 3 fun i => if i = 2 then (3 : ℝ) else 0) [0] [(0 : ℝ)] 1 [0]).x i - if i = 2 then (3 : ℝ) else 0) = 3 := by
      rw [l2, ← Real.sqrt_sq (show (0 : ℝ) ≤ 3 by norm_num)]
      congr 1
      simp [Finset.sum_range_succ, mkState, buildSignal]
    rw [hl, h96]
    simp only [if_true]
    rw [Real.norm_eq_abs, abs_of_nonneg (by norm_num)]
    norm_num

/-- CoSaMP finds `3 phi₂` among the three atoms at once. -/
theorem ex_cosamp_init : (cosampInit (𝕜 := ℝ) threeAtoms 3 (exLst threeAtoms) (synth threeAtoms 3 fun i => if i = 2 then (3 : ℝ) else 0) 1).r = 0 := by
  set y := synth threeAtoms 3 fun i => if i = 2 then (3 : ℝ) else 0 with hy
  set J := largestIndices (corr ℝ threeAtoms 3 y) (1 + 2 * 1) with hJ
  set z : List ℝ := exLst threeAtoms J y with hz
  obtain ⟨h1, h2, h3, -, -⟩ := c51_largest_indices (corr ℝ threeAtoms 3 y) (1 + 2 * 1)
  rw [corr_length' (𝕜 := ℝ)] at h2 h3
  rw [← hJ] at h1 h2 h3
  have hls := exLst_ok (𝕜 := ℝ) threeAtoms J y
  rw [← hz] at hls
  have hmem : 2 ∈ J := by
    have : J.toFinset = Finset.range 3 := Finset.eq_of_subset_of_card_le (fun i hi => Finset.mem_range.2 (h3 i (List.mem_toFinset.1 hi)))
      (by rw [List.toFinset_card_of_nodup h1, h2]; simp)
    exact List.mem_toFinset.1 (this ▸ by simp)
  have hb := fit_bound (zero_le_one' ℝ) (threeAtoms_rip (J.length + 1)) (by norm_num) (by norm_num) (fun i => if i = 2 then (3 : ℝ) else 0) {2}
    (fun i _ hi => by simp at hi; simp [hi]) 0 y (by rw [hy, add_zero]) J h1 h3 (by simp) z hls
  have he : ({2} : Finset ℕ) \ J.toFinset = ∅ := by simpa using hmem
  have e2 : l2 3 (restr (∅ : Finset ℕ) fun i => if i = 2 then (3 : ℝ) else 0) = 0 := by unfold l2; simp [restr]
  rw [he, e2] at hb
  simp only [norm_zero, mul_zero, zero_div, add_zero] at hb
  have hb' := eq_of_l2_zero (le_antisymm hb (l2_nonneg _ _))
  obtain ⟨q, hq, hq2⟩ := List.mem_iff_getElem.1 hmem
  obtain ⟨-, p2, p3, -, p5⟩ := c51_largest_indices z 1
  rw [hls.length] at p2 p3 p5
  obtain ⟨p, hp⟩ := List.length_eq_one_iff.1 (p2.trans (by rw [h2]; simp))
  have hpl : p < J.length := p3 p (by rw [hp]; simp)
  have hzv : ∀ k, k < J.length → z.getD k 0 = if J.getD k 0 = 2 then (3 : ℝ) else 0 := fun k hk => by
    rw [← buildSignal_getD J z h1 hls.length k hk]
    exact hb' _ (h3 _ (by rw [List.getD_eq_getElem _ _ hk]; exact List.getElem_mem hk))
  have hq3 : z.getD q 0 = 3 := by rw [hzv q hq, List.getD_eq_getElem _ _ hq, hq2]; simp
  have hp2 : J.getD p 0 = 2 := by
    by_contra hne
    have hz0 : z.getD p 0 = 0 := by rw [hzv p hpl, if_neg hne]
    have hqp : q ≠ p := fun h => by rw [h, hz0] at hq3; norm_num at hq3
    have := p5 p (by rw [hp]; simp) q hq (by rw [hp]; simpa using hqp)
    rw [hq3, hz0] at this
    norm_num at this
  have hp3 : z.getD p 0 = 3 := by rw [hzv p hpl, if_pos hp2]
  show y - lin threeAtoms (gather 0 J (largestIndices z 1)).mergeSort (gather 0 z (largestIndices z 1)) = 0
  rw [hp]
  have g1 : gather 0 J [p] = [2] := by rw [← hp2]; rfl
  have g2 : gather 0 z [p] = [3] := by rw [← hp3]; rfl
  rw [g1, g2, hy]
  simp [lin, synth, Finset.sum_range_succ]

example (s : GState ℝ (EuclideanSpace ℝ (Fin 3))) (hs : CosampMatrixSolve threeAtoms 3 (exLst threeAtoms) (synth threeAtoms 3 fun i => if i = 2 then (3 : ℝ) else 0) 1 5 0 s) :=
  c118_cosamp_solve_partial threeAtoms 3 1 (by norm_num) 1 (by norm_num) (7 / 25) (by norm_num) (by norm_num) (threeAtoms_rip _) (exLst threeAtoms) (fun i => if i = 2 then (3 : ℝ) else 0) {2}
    (by simp) (by simp) (fun i _ hi => by simp at hi; simp [hi]) _ rfl (fun I => exLst_ok _ I _) 3
    (fun s hs hr => by
      refine absurd (hs.inv (fun s => s.r = 0 ∧ s.rr = 0) ⟨ex_cosamp_init, ?_⟩ fun s h0 hc => ?_).1 hr
      · show ‖(cosampInit (𝕜 := ℝ) threeAtoms 3 (exLst threeAtoms) (synth threeAtoms 3 fun i => if i = 2 then (3 : ℝ) else 0) 1).r‖ ^ 2 = 0
        rw [ex_cosamp_init]; simp
      · have := hc.1
        rw [h0.2] at this
        simp at this)
    (fun i hi => by
      have : i = 2 := by simpa using hi
      subst this
      have h96 : Real.sqrt (1 - (7 / 25) ^ 2) = 24 / 25 := by
        rw [show (1 : ℝ) - (7 / 25) ^ 2 = (24 / 25) ^ 2 by norm_num, Real.sqrt_sq (by norm_num)]
      have hl : l2 3 (fun i => if i = 2 then (3 : ℝ) else 0) = 3 := by
        rw [l2, ← Real.sqrt_sq (show (0 : ℝ) ≤ 3 by norm_num)]
        congr 1
        simp [Finset.sum_range_succ]
      have h6 : Real.sqrt 6 ≤ 5 / 2 := by rw [Real.sqrt_le_iff]; norm_num
      have h3 : Real.sqrt 3 ≤ 7 / 4 := by rw [Real.sqrt_le_iff]; norm_num
      have h2 : Real.sqrt 2 ≤ 3 / 2 := by rw [Real.sqrt_le_iff]; norm_num
      have h60 := Real.sqrt_nonneg 6
      have h30 := Real.sqrt_nonneg 3
      have h20 := Real.sqrt_nonneg 2
      rw [hl, h96]
      simp only [if_true]
      rw [Real.norm_eq_abs, abs_of_nonneg (by norm_num : (0 : ℝ) ≤ 3)]
      calc _ ≤ 2 * (7 / 25 : ℝ) / (24 / 25) * ((5 / 2 * (7 / 25) / (24 / 25)) ^ 3 * (2 * 3 + 7 / 4 * (3 / 2 * (7 / 25 * 3) / (24 / 25)))) := by gcongr
        _ < 3 := by norm_num) s hs

end Verif.Pursuit
