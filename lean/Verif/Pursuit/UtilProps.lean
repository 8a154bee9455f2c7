import Verif.Pursuit.UtilModel
import Mathlib.Algebra.Order.BigOperators.Group.Finset
import Mathlib.Algebra.BigOperators.Ring.Finset

set_option autoImplicit false
/-!
# Index selection (C51)
-/
noncomputable section
namespace Verif.Pursuit

theorem argsort_perm (a : List ℝ) : (argsort a).Perm (List.range a.length) := List.mergeSort_perm _ _

theorem argsort_sorted (a : List ℝ) : (argsort a).Pairwise fun i j => a.getD i 0 ≤ a.getD j 0 := by
  have := List.pairwise_mergeSort (le := fun i j => decide (a.getD i 0 ≤ a.getD j 0)) (by intro x y z; simpa using le_trans)
    (by intro x y; simpa using le_total _ _) (List.range a.length)
  simpa [argsort] using this

theorem argmaxFrom_spec (xs : List ℝ) : ∀ (b : ℕ) (v : ℝ) (k : ℕ),
    (argmaxFrom b v k xs = b ∧ ∀ x ∈ xs, x ≤ v) ∨
    (∃ i, i < xs.length ∧ argmaxFrom b v k xs = k + i ∧ v < xs.getD i 0 ∧ (∀ x ∈ xs, x ≤ xs.getD i 0) ∧ ∀ j, j < i → xs.getD j 0 < xs.getD i 0) := by
  induction xs with
  | nil => intro b v k; left; simp [argmaxFrom]
  | cons x xs ih =>
    intro b v k
    simp only [argmaxFrom]
    split_ifs with h
    · rcases ih k x (k + 1) with ⟨e, hx⟩ | ⟨i, hi, e, hv, hm, hl⟩
      · right; exact ⟨0, by simp, by simp [e], by simpa using h, by simpa using hx, by simp⟩
      · right
        refine ⟨i + 1, by simp; omega, by rw [e]; omega, by simpa using h.trans hv, ?_, ?_⟩
        · intro y hy
          rcases List.mem_cons.mp hy with rfl | hy
          · simpa using hv.le
          · simpa using hm y hy
        · intro j hj
          cases j with
          | zero => simpa using hv
          | succ j => simpa using hl j (by omega)
    · push Not at h
      rcases ih b v (k + 1) with ⟨e, hx⟩ | ⟨i, hi, e, hv, hm, hl⟩
      · left; exact ⟨e, by simpa using ⟨h, hx⟩⟩
      · right
        refine ⟨i + 1, by simp; omega, by rw [e]; omega, by simpa using hv, ?_, ?_⟩
        · intro y hy
          rcases List.mem_cons.mp hy with rfl | hy
          · simpa using h.trans hv.le
          · simpa using hm y hy
        · intro j hj
          cases j with
          | zero => simpa using h.trans_lt hv
          | succ j => simpa using hl j (by omega)

theorem argmax_spec (a : List ℝ) (ha : a ≠ []) :
    argmax a < a.length ∧ (∀ x ∈ a, x ≤ a.getD (argmax a) 0) ∧ ∀ j, j < argmax a → a.getD j 0 < a.getD (argmax a) 0 := by
  cases a with
  | nil => exact absurd rfl ha
  | cons x xs =>
    simp only [argmax]
    rcases argmaxFrom_spec xs 0 x 1 with ⟨e, hx⟩ | ⟨i, hi, e, hv, hm, hl⟩
    · rw [e]; simpa using hx
    · rw [e, Nat.add_comm]
      refine ⟨by simp; omega, ?_, ?_⟩
      · intro y hy
        rcases List.mem_cons.mp hy with rfl | hy
        · simpa using hv.le
        · simpa using hm y hy
      · intro j hj
        cases j with
        | zero => simpa using hv
        | succ j => simpa using hl j (by omega)

variable {𝕜 : Type*} [RCLike 𝕜]

theorem getD_map_norm (h : List 𝕜) (i : ℕ) : (h.map fun x => ‖x‖).getD i 0 = ‖h.getD i 0‖ := by
  simp only [List.getD_eq_getElem?_getD, List.getElem?_map]
  cases h[i]? <;> simp

/-- **C51** `abs_max_idx(h)` is the first position whose magnitude is the largest. -/
theorem c51_abs_max_idx (h : List 𝕜) (hne : h ≠ []) :
    absMaxIdx h < h.length ∧ (∀ i, i < h.length → ‖h.getD i 0‖ ≤ ‖h.getD (absMaxIdx h) 0‖) ∧
      ∀ i, i < absMaxIdx h → ‖h.getD i 0‖ < ‖h.getD (absMaxIdx h) 0‖ := by
  obtain ⟨h1, h2, h3⟩ := argmax_spec (h.map fun x => ‖x‖) (by simpa using hne)
  refine ⟨by simpa [absMaxIdx] using h1, fun i hi => ?_, fun i hi => ?_⟩
  · rw [← getD_map_norm h (absMaxIdx h)]
    refine h2 _ (List.mem_map.mpr ⟨h[i], List.getElem_mem _, ?_⟩)
    simp [List.getD_eq_getElem?_getD, hi]
  · have := h3 i hi
    rwa [getD_map_norm, getD_map_norm] at this

/-- **C51** `largest_indices(h, K)` returns `min(K, n)` distinct positions of the array, ordered by decreasing magnitude, and every position
left out has a magnitude at most that of every position returned. -/
theorem c51_largest_indices (h : List 𝕜) (K : ℕ) :
    (largestIndices h K).Nodup ∧ (largestIndices h K).length = min K h.length ∧ (∀ i ∈ largestIndices h K, i < h.length) ∧
    (largestIndices h K).Pairwise (fun i j => ‖h.getD j 0‖ ≤ ‖h.getD i 0‖) ∧
    (∀ i ∈ largestIndices h K, ∀ j, j < h.length → j ∉ largestIndices h K → ‖h.getD j 0‖ ≤ ‖h.getD i 0‖) := by
  set a := argsort (h.map fun x => ‖x‖) with ha
  have hp : a.Perm (List.range h.length) := by simpa using argsort_perm (h.map fun x => ‖x‖)
  have hs : a.Pairwise fun i j => ‖h.getD i 0‖ ≤ ‖h.getD j 0‖ := by
    have := argsort_sorted (h.map fun x => ‖x‖)
    simpa only [getD_map_norm] using this
  have hrs : a.reverse.Pairwise fun i j => ‖h.getD j 0‖ ≤ ‖h.getD i 0‖ := List.pairwise_reverse.mpr hs
  have hnd : a.reverse.Nodup := List.nodup_reverse.mpr (hp.nodup_iff.mpr List.nodup_range)
  have hlen : a.reverse.length = h.length := by rw [List.length_reverse, hp.length_eq, List.length_range]
  have hmem : ∀ i, i ∈ a.reverse ↔ i < h.length := fun i => by rw [List.mem_reverse, hp.mem_iff, List.mem_range]
  refine ⟨hnd.sublist (List.take_sublist _ _), by rw [largestIndices, List.length_take, ← ha, hlen], fun i hi => (hmem i).mp (List.mem_of_mem_take hi),
    hrs.sublist (List.take_sublist _ _), fun i hi j hj hnj => ?_⟩
  have hj' : j ∈ a.reverse.drop K := by
    have := (hmem j).mpr hj
    rw [← List.take_append_drop K a.reverse, List.mem_append] at this
    exact this.resolve_left hnj
  rw [← List.take_append_drop K a.reverse, List.pairwise_append] at hrs
  exact hrs.2.2 i hi j hj'

/-- Sums over a dominating set of the same or larger size are at least as large. -/
theorem sum_le_of_dominates {a : ℕ → ℝ} (ha : ∀ i, 0 ≤ a i) (S T : Finset ℕ) (hc : S.card ≤ T.card) (hd : ∀ i ∈ T, ∀ j ∈ S, j ∉ T → a j ≤ a i) :
    ∑ i ∈ S, a i ≤ ∑ i ∈ T, a i := by
  classical
  have e1 := Finset.sum_inter_add_sum_sdiff S T a
  have e2 := Finset.sum_inter_add_sum_sdiff T S a
  rw [Finset.inter_comm] at e2
  have hcard : (S \ T).card ≤ (T \ S).card := by
    have h1 := Finset.card_sdiff_add_card_inter S T
    have h2 := Finset.card_sdiff_add_card_inter T S
    rw [Finset.inter_comm] at h2
    omega
  have key : ∑ i ∈ S \ T, a i ≤ ∑ i ∈ T \ S, a i := by
    rcases (S \ T).eq_empty_or_nonempty with he | hne
    · rw [he]; simpa using Finset.sum_nonneg fun i _ => ha i
    · obtain ⟨m, hm, hmax⟩ := Finset.exists_max_image (S \ T) a hne
      rw [Finset.mem_sdiff] at hm
      calc ∑ i ∈ S \ T, a i ≤ (S \ T).card • a m := Finset.sum_le_card_nsmul _ _ _ hmax
        _ ≤ (T \ S).card • a m := nsmul_le_nsmul_left (ha m) hcard
        _ ≤ ∑ i ∈ T \ S, a i := Finset.card_nsmul_le_sum _ _ _ fun i hi => hd i (Finset.mem_sdiff.mp hi).1 m hm.1 hm.2
  linarith

/-- **C51** keeping the entries selected by `largest_indices(h, K)` is a best `K`-term approximation in l2: no array `g` with at most `K` non-zero
entries is closer to `h`. -/
theorem c51_best_K_term (h : List 𝕜) (K : ℕ) (g : ℕ → 𝕜) (S : Finset ℕ) (hS : S.card ≤ K) (hg : ∀ i, i < h.length → i ∉ S → g i = 0) :
    ∑ i ∈ Finset.range h.length, ‖h.getD i 0 - (if i ∈ largestIndices h K then h.getD i 0 else 0)‖ ^ 2 ≤
      ∑ i ∈ Finset.range h.length, ‖h.getD i 0 - g i‖ ^ 2 := by
  classical
  obtain ⟨h1, h2, h3, -, h5⟩ := c51_largest_indices h K
  set n := h.length
  set T := (largestIndices h K).toFinset with hT
  have hTc : T.card = min K n := by rw [hT, List.toFinset_card_of_nodup h1, h2]
  set S' := S ∩ Finset.range n with hS'
  have hSc : S'.card ≤ T.card := by
    rw [hTc]
    refine le_min ((Finset.card_le_card Finset.inter_subset_left).trans hS) ?_
    have := Finset.card_le_card (Finset.inter_subset_right (s₁ := S) (s₂ := Finset.range n))
    simpa using this
  have hdom : ∑ i ∈ S', ‖h.getD i 0‖ ^ 2 ≤ ∑ i ∈ T, ‖h.getD i 0‖ ^ 2 := by
    refine sum_le_of_dominates (fun i => by positivity) S' T hSc fun i hi j hj hjT => ?_
    rw [hT, List.mem_toFinset] at hi hjT
    exact pow_le_pow_left₀ (norm_nonneg _) (h5 i hi j (by simpa using (Finset.mem_inter.mp hj).2) hjT) 2
  have hTsub : T ⊆ Finset.range n := fun i hi => by simpa using h3 i (List.mem_toFinset.mp hi)
  have eL : ∑ i ∈ Finset.range n, ‖h.getD i 0 - (if i ∈ largestIndices h K then h.getD i 0 else 0)‖ ^ 2 =
      ∑ i ∈ Finset.range n, ‖h.getD i 0‖ ^ 2 - ∑ i ∈ T, ‖h.getD i 0‖ ^ 2 := by
    rw [← Finset.sum_sdiff hTsub, ← Finset.sum_sdiff hTsub (f := fun i => ‖h.getD i 0‖ ^ 2), add_sub_cancel_right]
    have z : ∑ x ∈ T, ‖h.getD x 0 - (if x ∈ largestIndices h K then h.getD x 0 else 0)‖ ^ 2 = 0 :=
      Finset.sum_eq_zero fun i hi => by rw [if_pos (List.mem_toFinset.mp hi)]; simp
    rw [z, add_zero]
    exact Finset.sum_congr rfl fun i hi => by
      rw [if_neg fun hm => (Finset.mem_sdiff.mp hi).2 (List.mem_toFinset.mpr hm), sub_zero]
  have eR : ∑ i ∈ Finset.range n, ‖h.getD i 0‖ ^ 2 - ∑ i ∈ S', ‖h.getD i 0‖ ^ 2 ≤ ∑ i ∈ Finset.range n, ‖h.getD i 0 - g i‖ ^ 2 := by
    have hsub : S' ⊆ Finset.range n := Finset.inter_subset_right
    rw [← Finset.sum_sdiff hsub, ← Finset.sum_sdiff hsub (f := fun i => ‖h.getD i 0 - g i‖ ^ 2), add_sub_cancel_right]
    have : ∑ i ∈ Finset.range n \ S', ‖h.getD i 0‖ ^ 2 = ∑ i ∈ Finset.range n \ S', ‖h.getD i 0 - g i‖ ^ 2 :=
      Finset.sum_congr rfl fun i hi => by
        obtain ⟨hi1, hi2⟩ := Finset.mem_sdiff.mp hi
        rw [hg i (by simpa using hi1) fun hm => hi2 (Finset.mem_inter.mpr ⟨hm, hi1⟩), sub_zero]
    rw [this]
    have : 0 ≤ ∑ i ∈ S', ‖h.getD i 0 - g i‖ ^ 2 := Finset.sum_nonneg fun i _ => by positivity
    linarith
  rw [eL]; linarith

/-- A non-trivial case of `c51_best_K_term`: two-term approximations of `[3, -1, 2]`; `g = [3, 1, 0]` has support `{0, 1}`. -/
example : ∃ S : Finset ℕ, S.card ≤ 2 ∧ ∀ i, i < ([3, -1, 2] : List ℝ).length → i ∉ S → ([3, 1, 0] : List ℝ).getD i 0 = 0 :=
  ⟨{0, 1}, by simp, fun i hi hS => by
    have : i = 2 := by simp at hi hS; omega
    subst this; rfl⟩

theorem gather_length {α : Type*} (d : α) (x : List α) (I : List ℕ) : (gather d x I).length = I.length := by simp [gather]

/-- **C51** `hard_threshold` and `hard_threshold_sorted` select the same entries; the sorted variant lists them by position. -/
theorem c51_hard_threshold_sorted (x : List 𝕜) (K : ℕ) :
    (hardThresholdSorted x K).1.Perm (hardThresholdK x K).1 ∧ (hardThresholdSorted x K).1.Pairwise (· < ·) ∧
    (hardThresholdSorted x K).2 = (hardThresholdSorted x K).1.map (fun i => x.getD i 0) := by
  have hp : (hardThresholdSorted x K).1.Perm (largestIndices x K) := List.mergeSort_perm _ _
  refine ⟨hp, ?_, rfl⟩
  have hs := List.pairwise_mergeSort (le := fun a b : ℕ => decide (a ≤ b)) (by intro a b c; simpa using le_trans) (by intro a b; simpa using le_total a b)
    (largestIndices x K)
  have hn : (hardThresholdSorted x K).1.Nodup := hp.nodup_iff.mpr (c51_largest_indices x K).1
  refine (hs.and hn).imp fun {a b} h => ?_
  have := h.1
  simp at this
  exact lt_of_le_of_ne this h.2

example := c51_abs_max_idx ([3, -4, 4] : List ℝ) (by simp)
example := c51_best_K_term ([3, -1, 2] : List ℝ) 2 (fun i => ([3, 1, 0] : List ℝ).getD i 0) {0, 1} (by simp) (fun i hi hS => by
  have : i = 2 := by simp at hi hS; omega
  subst this; rfl)

end Verif.Pursuit
