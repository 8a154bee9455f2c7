import Verif.Cluster.KmeansModel
import Verif.Pursuit.UtilProps

set_option autoImplicit false
/-!
# k-means (C53, C54)
-/
noncomputable section
namespace Verif.Cluster
open Verif.Loop Verif.Pursuit

variable {E : Type*} [NormedAddCommGroup E] [InnerProductSpace ℝ E]

theorem argmin_spec (a : List ℝ) (ha : a ≠ []) :
    argmin a < a.length ∧ (∀ i, i < a.length → a.getD (argmin a) 0 ≤ a.getD i 0) ∧ ∀ j, j < argmin a → a.getD (argmin a) 0 < a.getD j 0 := by
  obtain ⟨h1, h2, h3⟩ := argmax_spec (a.map fun x => -x) (by simpa using ha)
  have e : ∀ i, (a.map fun x => -x).getD i 0 = -(a.getD i 0) := by
    intro i
    simp only [List.getD_eq_getElem?_getD, List.getElem?_map]
    cases a[i]? <;> simp
  refine ⟨by simpa [argmin] using h1, fun i hi => ?_, fun j hj => ?_⟩
  · have := h2 (-(a.getD i 0)) (by
      rw [List.mem_map]
      exact ⟨a.getD i 0, by simp [List.getD_eq_getElem?_getD, hi], rfl⟩)
    rw [e] at this
    show a.getD (argmax _) 0 ≤ _
    linarith
  · have := h3 j hj
    rw [e, e] at this
    show a.getD (argmax _) 0 < _
    linarith

theorem findNearest_spec (cent : ℕ → E) {k : ℕ} (hk : 0 < k) (p : E) :
    findNearest cent k p < k ∧ (∀ j, j < k → ‖cent (findNearest cent k p) - p‖ ≤ ‖cent j - p‖) ∧
    ∀ j, j < findNearest cent k p → ‖cent (findNearest cent k p) - p‖ < ‖cent j - p‖ := by
  have hne : (List.range k).map (fun j => ‖cent j - p‖) ≠ [] := by
    intro h; have := congrArg List.length h; simp at this; omega
  obtain ⟨h1, h2, h3⟩ := argmin_spec _ hne
  have e : ∀ j, j < k → ((List.range k).map fun j => ‖cent j - p‖).getD j 0 = ‖cent j - p‖ := by
    intro j hj; simp [List.getD_eq_getElem?_getD, hj]
  rw [List.length_map, List.length_range] at h1 h2
  refine ⟨h1, fun j hj => ?_, fun j hj => ?_⟩
  · have := h2 j hj
    rwa [e _ h1, e j hj] at this
  · have := h3 j hj
    rwa [e _ h1, e j (lt_trans hj h1)] at this

/-- What is expected of a k-means state: every point is assigned to a centroid at minimal distance (the first such one), and the distortion is the mean of these distances. -/
structure KGood (pts : ℕ → E) (n k : ℕ) (s : KState E) : Prop where
  range : ∀ i, s.asg i < k
  nearest : ∀ i j, j < k → ‖s.cent (s.asg i) - pts i‖ ≤ ‖s.cent j - pts i‖
  first : ∀ i j, j < s.asg i → ‖s.cent (s.asg i) - pts i‖ < ‖s.cent j - pts i‖
  distortion : s.dist = (∑ i ∈ Finset.range n, ‖s.cent (s.asg i) - pts i‖) / n

theorem kInit_good (pts : ℕ → E) (n : ℕ) {k : ℕ} (hk : 0 < k) (indices : ℕ → ℕ) : KGood pts n k (kInit pts n k indices) :=
  ⟨fun i => (findNearest_spec _ hk _).1, fun i => (findNearest_spec _ hk _).2.1, fun i => (findNearest_spec _ hk _).2.2, rfl⟩

theorem kBody_good (pts : ℕ → E) (n : ℕ) {k : ℕ} (hk : 0 < k) (s : KState E) : KGood pts n k (kBody pts n k s) :=
  ⟨fun i => (findNearest_spec _ hk _).1, fun i => (findNearest_spec _ hk _).2.1, fun i => (findNearest_spec _ hk _).2.2, rfl⟩

/-- **C53** in every state of the iteration each point is assigned to a nearest centroid and the distortion is the mean distance. -/
theorem c53_assignment (pts : ℕ → E) (n k : ℕ) (hk : 0 < k) (indices : ℕ → ℕ) (c : KState E → Prop) (s : KState E)
    (h : Reach c (kBody pts n k) (kInit pts n k indices) s) : KGood pts n k s :=
  h.inv (KGood pts n k) (kInit_good pts n hk indices) fun s _ _ => kBody_good pts n hk s

theorem findNewCentroids_eq (a : ℕ → ℕ) (pts : ℕ → E) (n j : ℕ) :
    findNewCentroids a pts n j = (1 / (max 1 ((Finset.range n).filter fun i => a i = j).card : ℕ) : ℝ) • ∑ i ∈ (Finset.range n).filter (fun i => a i = j), pts i := by
  rw [findNewCentroids, Finset.sum_filter]; rfl

/-- **C53** the centroids of the next state: the mean of the points assigned to the cluster when it is not empty, the origin when it is empty. -/
theorem c53_new_centroids (pts : ℕ → E) (n k : ℕ) (s : KState E) (j : ℕ) :
    (((Finset.range n).filter fun i => s.asg i = j).Nonempty →
      ∑ i ∈ (Finset.range n).filter (fun i => s.asg i = j), ((kBody pts n k s).cent j - pts i) = 0 ∧
      (((Finset.range n).filter fun i => s.asg i = j).card : ℝ) • (kBody pts n k s).cent j = ∑ i ∈ (Finset.range n).filter (fun i => s.asg i = j), pts i) ∧
    (((Finset.range n).filter fun i => s.asg i = j) = ∅ → (kBody pts n k s).cent j = 0) := by
  have e : (kBody pts n k s).cent j = findNewCentroids s.asg pts n j := rfl
  rw [e, findNewCentroids_eq]
  set S := (Finset.range n).filter fun i => s.asg i = j with hS
  constructor
  · intro hne
    have hc : 0 < S.card := Finset.card_pos.mpr hne
    have hm : max 1 S.card = S.card := by omega
    have hcR : (S.card : ℝ) ≠ 0 := by exact_mod_cast hc.ne'
    have h2 : (S.card : ℝ) • ((1 / (max 1 S.card : ℕ) : ℝ) • ∑ i ∈ S, pts i) = ∑ i ∈ S, pts i := by
      rw [hm, smul_smul, mul_one_div_cancel hcR, one_smul]
    refine ⟨?_, h2⟩
    rw [Finset.sum_sub_distrib, Finset.sum_const, ← Nat.cast_smul_eq_nsmul ℝ, h2, sub_self]
  · intro h0
    rw [h0]; simp

theorem mean_le {ι : Type*} (S : Finset ι) (p : ι → E) (m c : E) (hm : ∑ i ∈ S, (m - p i) = 0) : ∑ i ∈ S, ‖m - p i‖ ^ 2 ≤ ∑ i ∈ S, ‖c - p i‖ ^ 2 := by
  have e : ∀ i ∈ S, ‖c - p i‖ ^ 2 = ‖c - m‖ ^ 2 + 2 * inner ℝ (c - m) (m - p i) + ‖m - p i‖ ^ 2 := by
    intro i _
    have : c - p i = (c - m) + (m - p i) := by abel
    rw [this, norm_add_sq_real]
  rw [Finset.sum_congr rfl e, Finset.sum_add_distrib, Finset.sum_add_distrib, ← Finset.mul_sum, ← _root_.inner_sum, hm, inner_zero_right]
  have : 0 ≤ ∑ _i ∈ S, ‖c - m‖ ^ 2 := Finset.sum_nonneg fun _ _ => sq_nonneg _
  linarith

/-- The within-cluster sum of squared distances. -/
def wcss (pts : ℕ → E) (n : ℕ) (s : KState E) : ℝ := ∑ i ∈ Finset.range n, ‖s.cent (s.asg i) - pts i‖ ^ 2

/-- **C54** one iteration from any reached state never increases the within-cluster sum of squared distances. -/
theorem c54_wcss_monotone (pts : ℕ → E) (n k : ℕ) (hk : 0 < k) (indices : ℕ → ℕ) (c : KState E → Prop) (s : KState E)
    (h : Reach c (kBody pts n k) (kInit pts n k indices) s) : wcss pts n (kBody pts n k s) ≤ wcss pts n s := by
  have hg := c53_assignment pts n k hk indices c s h
  have hg' := kBody_good pts n hk s
  set t := kBody pts n k s with ht
  -- first the centroids move, then the assignment
  have h1 : wcss pts n t ≤ ∑ i ∈ Finset.range n, ‖t.cent (s.asg i) - pts i‖ ^ 2 :=
    Finset.sum_le_sum fun i _ => pow_le_pow_left₀ (norm_nonneg _) (hg'.nearest i _ (hg.range i)) 2
  refine h1.trans ?_
  have hmaps : ∀ i ∈ Finset.range n, s.asg i ∈ Finset.range k := fun i _ => Finset.mem_range.mpr (hg.range i)
  unfold wcss
  rw [← Finset.sum_fiberwise_of_maps_to hmaps, ← Finset.sum_fiberwise_of_maps_to hmaps]
  refine Finset.sum_le_sum fun j _ => ?_
  have r1 : ∑ i ∈ (Finset.range n).filter (fun i => s.asg i = j), ‖t.cent (s.asg i) - pts i‖ ^ 2 = ∑ i ∈ (Finset.range n).filter (fun i => s.asg i = j), ‖t.cent j - pts i‖ ^ 2 :=
    Finset.sum_congr rfl fun i hi => by rw [(Finset.mem_filter.mp hi).2]
  have r2 : ∑ i ∈ (Finset.range n).filter (fun i => s.asg i = j), ‖s.cent (s.asg i) - pts i‖ ^ 2 = ∑ i ∈ (Finset.range n).filter (fun i => s.asg i = j), ‖s.cent j - pts i‖ ^ 2 :=
    Finset.sum_congr rfl fun i hi => by rw [(Finset.mem_filter.mp hi).2]
  rw [r1, r2]
  rcases Finset.eq_empty_or_nonempty ((Finset.range n).filter fun i => s.asg i = j) with h0 | hne
  · rw [h0]; simp
  · exact mean_le _ pts _ _ ((c53_new_centroids pts n k s j).1 hne).1

/-- **C54** the result of `kmeans_with_seed` has a within-cluster sum of squares no larger than that of the random start. -/
theorem c54_result_below_start (pts : ℕ → E) (n k : ℕ) (hk : 0 < k) (indices : ℕ → ℕ) (thresh : ℝ) (maxIters : ℕ) (s : KState E)
    (h : KmeansWithSeed pts n k indices thresh maxIters s) : wcss pts n s ≤ wcss pts n (kInit pts n k indices) := by
  refine h.1.inv' (fun s => wcss pts n s ≤ wcss pts n (kInit pts n k indices)) le_rfl fun s hr hs _ => ?_
  exact (c54_wcss_monotone pts n k hk indices _ s hr).trans hs

/-- **C54** the loop returns within `max_iters` iterations; it stops because the distortion decreased by no more than `thresh`, or at the cap. -/
theorem c54_terminates (pts : ℕ → E) (n k : ℕ) (indices : ℕ → ℕ) (thresh : ℝ) (maxIters : ℕ) :
    (∃ s, KmeansWithSeed pts n k indices thresh maxIters s) ∧
    ∀ s, KmeansWithSeed pts n k indices thresh maxIters s → s.iters ≤ maxIters ∧ (s.iters = maxIters ∨ ∃ p, s.prev = some p ∧ p - s.dist ≤ thresh) := by
  refine ⟨exists_out (fun s => s.iters) maxIters (fun s h => h.2) fun s => Nat.lt_succ_self _, fun s hs => ?_⟩
  have hle : s.iters ≤ maxIters := by
    have := hs.1.cnt_le (fun s => s.iters) maxIters (fun s h => h.2) fun s => rfl
    simpa [kInit] using this
  refine ⟨hle, ?_⟩
  by_cases hm : s.iters = maxIters
  · exact .inl hm
  · right
    have hc := hs.2
    unfold kCond at hc
    cases hp : s.prev with
    | none => rw [hp] at hc; exact absurd ⟨trivial, by omega⟩ hc
    | some p =>
      rw [hp] at hc
      refine ⟨p, rfl, ?_⟩
      by_contra hcon
      exact hc ⟨not_le.mp hcon, by omega⟩

/-- **C54** `kmeans` returns one of the restarts, with the least distortion of all. -/
theorem c54_kmeans_selects (results : List (KState E)) (hne : results ≠ []) :
    ∃ s, kmeansSelect results = some s ∧ s ∈ results ∧ ∀ t ∈ results, s.dist ≤ t.dist := by
  obtain ⟨h1, h2, -⟩ := argmin_spec (results.map fun s => s.dist) (by simpa using hne)
  rw [List.length_map] at h1 h2
  have e : ∀ i (hi : i < results.length), (results.map fun s => s.dist).getD i 0 = results[i].dist := by
    intro i hi; simp [List.getD_eq_getElem?_getD, hi]
  refine ⟨results[argmin (results.map fun s => s.dist)], by simp [kmeansSelect, h1], List.getElem_mem _, fun t ht => ?_⟩
  obtain ⟨i, hi, rfl⟩ := List.mem_iff_getElem.mp ht
  have := h2 i hi
  rwa [e _ h1, e i hi] at this

/-- The hypotheses are met by a concrete run: two points on the line, two clusters. -/
example : ∃ s, KmeansWithSeed (fun i => (i : ℝ)) 2 2 id 0 10 s ∧ KGood (fun i => (i : ℝ)) 2 2 s := by
  obtain ⟨s, hs⟩ := (c54_terminates (fun i => (i : ℝ)) 2 2 id 0 10).1
  exact ⟨s, hs, c53_assignment _ _ _ two_pos _ _ _ hs.1⟩

/-- One pass from the initial state, and a run, on the points `0, 1, 4, 9, 16, 25`. -/
example := c54_wcss_monotone (fun i => (i : ℝ) ^ 2) 6 3 (by norm_num) id (fun _ => True) _ (.step .init trivial)

example : ∃ s, wcss (fun i => (i : ℝ) ^ 2) 6 s ≤ wcss (fun i => (i : ℝ) ^ 2) 6 (kInit (fun i => (i : ℝ) ^ 2) 6 3 id) := by
  obtain ⟨s, hs⟩ := (c54_terminates (fun i => (i : ℝ) ^ 2) 6 3 id 0 10).1
  exact ⟨s, c54_result_below_start _ 6 3 (by norm_num) id 0 10 s hs⟩

end Verif.Cluster
