import Verif.Cluster.KmeansProps
import Mathlib.Algebra.Order.BigOperators.Group.Finset
import Mathlib.Data.Fintype.BigOperators
import Mathlib.Combinatorics.Pigeonhole
import Mathlib.Tactic.IntervalCases

set_option autoImplicit false
/-!
# Convergence of k-means in finitely many iterations (C54)
-/
noncomputable section
namespace Verif.Cluster
open Verif.Loop Verif.Pursuit

variable {E : Type*} [NormedAddCommGroup E] [InnerProductSpace ℝ E]

/-- The state after `t` iterations, whatever the stop test says. -/
def kSeq (pts : ℕ → E) (n k : ℕ) (indices : ℕ → ℕ) (t : ℕ) : KState E := (kBody pts n k)^[t] (kInit pts n k indices)

theorem kSeq_succ (pts : ℕ → E) (n k : ℕ) (indices : ℕ → ℕ) (t : ℕ) :
    kSeq pts n k indices (t + 1) = kBody pts n k (kSeq pts n k indices t) := Function.iterate_succ_apply' _ _ _

theorem kSeq_reach (pts : ℕ → E) (n k : ℕ) (indices : ℕ → ℕ) (t : ℕ) :
    Reach (fun _ => True) (kBody pts n k) (kInit pts n k indices) (kSeq pts n k indices t) := by
  induction t with
  | zero => exact .init
  | succ t ih => rw [kSeq_succ]; exact .step ih trivial

/-- The centroids depend on the assignment of the points only. -/
theorem newCentroids_congr {a a' : ℕ → ℕ} (pts : ℕ → E) {n : ℕ} (h : ∀ i, i < n → a i = a' i) : findNewCentroids a pts n = findNewCentroids a' pts n := by
  funext j
  rw [findNewCentroids_eq, findNewCentroids_eq]
  have : (Finset.range n).filter (fun i => a i = j) = (Finset.range n).filter (fun i => a' i = j) :=
    Finset.filter_congr fun i hi => by rw [h i (Finset.mem_range.1 hi)]
  rw [this]

theorem kBody_congr (pts : ℕ → E) {n : ℕ} (k : ℕ) {s s' : KState E} (h : ∀ i, i < n → s.asg i = s'.asg i) :
    (kBody pts n k s).cent = (kBody pts n k s').cent ∧ (kBody pts n k s).asg = (kBody pts n k s').asg ∧ (kBody pts n k s).dist = (kBody pts n k s').dist := by
  have e := newCentroids_congr pts h
  simp only [kBody, e, and_self]

/-- When an iteration does not lower the within-cluster sum of squares, no point moves to a centroid of higher index. -/
theorem asg_antitone (pts : ℕ → E) (n k : ℕ) (hk : 0 < k) (indices : ℕ → ℕ) (t : ℕ)
    (hW : wcss pts n (kSeq pts n k indices t) ≤ wcss pts n (kSeq pts n k indices (t + 1))) (i : ℕ) (hi : i < n) :
    (kSeq pts n k indices (t + 1)).asg i ≤ (kSeq pts n k indices t).asg i := by
  have hg := c53_assignment pts n k hk indices _ _ (kSeq_reach pts n k indices t)
  rw [kSeq_succ] at hW ⊢
  set s := kSeq pts n k indices t with hs
  have hg' := kBody_good pts n hk s
  set u := kBody pts n k s with hu
  have hmid : ∑ i ∈ Finset.range n, ‖u.cent (s.asg i) - pts i‖ ^ 2 ≤ wcss pts n s := by
    have hmaps : ∀ i ∈ Finset.range n, s.asg i ∈ Finset.range k := fun i _ => Finset.mem_range.mpr (hg.range i)
    unfold wcss
    rw [← Finset.sum_fiberwise_of_maps_to hmaps, ← Finset.sum_fiberwise_of_maps_to hmaps]
    refine Finset.sum_le_sum fun j _ => ?_
    have r1 : ∑ i ∈ (Finset.range n).filter (fun i => s.asg i = j), ‖u.cent (s.asg i) - pts i‖ ^ 2 = ∑ i ∈ (Finset.range n).filter (fun i => s.asg i = j), ‖u.cent j - pts i‖ ^ 2 :=
      Finset.sum_congr rfl fun i hi => by rw [(Finset.mem_filter.mp hi).2]
    have r2 : ∑ i ∈ (Finset.range n).filter (fun i => s.asg i = j), ‖s.cent (s.asg i) - pts i‖ ^ 2 = ∑ i ∈ (Finset.range n).filter (fun i => s.asg i = j), ‖s.cent j - pts i‖ ^ 2 :=
      Finset.sum_congr rfl fun i hi => by rw [(Finset.mem_filter.mp hi).2]
    rw [r1, r2]
    rcases Finset.eq_empty_or_nonempty ((Finset.range n).filter fun i => s.asg i = j) with h0 | hne
    · rw [h0]; simp
    · exact mean_le _ pts _ _ ((c53_new_centroids pts n k s j).1 hne).1
  have hle : ∀ i ∈ Finset.range n, ‖u.cent (u.asg i) - pts i‖ ^ 2 ≤ ‖u.cent (s.asg i) - pts i‖ ^ 2 := fun i _ =>
    pow_le_pow_left₀ (norm_nonneg _) (hg'.nearest i _ (hg.range i)) 2
  have heq : ∑ i ∈ Finset.range n, ‖u.cent (u.asg i) - pts i‖ ^ 2 = ∑ i ∈ Finset.range n, ‖u.cent (s.asg i) - pts i‖ ^ 2 :=
    le_antisymm (Finset.sum_le_sum hle) (hmid.trans hW)
  have hei := (Finset.sum_eq_sum_iff_of_le hle).1 heq i (Finset.mem_range.2 hi)
  by_contra hcon
  push Not at hcon
  have := hg'.first i _ hcon
  have := pow_lt_pow_left₀ this (norm_nonneg _) two_ne_zero
  linarith

/-- Two equal assignments in the past mean that the iteration is at a fixed point. -/
theorem fixed_of_repeat (pts : ℕ → E) (n k : ℕ) (hk : 0 < k) (indices : ℕ → ℕ) {a b : ℕ} (hab : a < b)
    (h : ∀ i, i < n → (kSeq pts n k indices a).asg i = (kSeq pts n k indices b).asg i) (i : ℕ) (hi : i < n) :
    (kSeq pts n k indices (a + 2)).asg i = (kSeq pts n k indices (a + 1)).asg i := by
  have hc := kBody_congr pts k h
  rw [← kSeq_succ, ← kSeq_succ] at hc
  have hW : wcss pts n (kSeq pts n k indices (a + 1)) = wcss pts n (kSeq pts n k indices (b + 1)) := by
    unfold wcss; rw [hc.1, hc.2.1]
  have hmono : Antitone fun t => wcss pts n (kSeq pts n k indices t) := antitone_nat_of_succ_le fun t => by
    rw [kSeq_succ]
    exact c54_wcss_monotone pts n k hk indices _ _ (kSeq_reach pts n k indices t)
  have hstep : ∀ t, a + 1 ≤ t → t ≤ b → (kSeq pts n k indices (t + 1)).asg i ≤ (kSeq pts n k indices t).asg i := by
    intro t h1 h2
    refine asg_antitone pts n k hk indices t ?_ i hi
    calc wcss pts n (kSeq pts n k indices t) ≤ wcss pts n (kSeq pts n k indices (a + 1)) := hmono h1
      _ = wcss pts n (kSeq pts n k indices (b + 1)) := hW
      _ ≤ _ := hmono (by omega)
  have hchain : ∀ d, a + 2 + d ≤ b + 1 → (kSeq pts n k indices (a + 2 + d)).asg i ≤ (kSeq pts n k indices (a + 2)).asg i := by
    intro d
    induction d with
    | zero => exact fun _ => le_rfl
    | succ d ih => exact fun hd => (hstep (a + 2 + d) (by omega) (by omega)).trans (ih (by omega))
  refine le_antisymm (hstep (a + 1) le_rfl (by omega)) ?_
  have := hchain (b + 1 - (a + 2)) (by omega)
  rw [show a + 2 + (b + 1 - (a + 2)) = b + 1 by omega] at this
  rwa [← hc.2.1] at this

/-- **C54** convergence: after at most `k ^ n` iterations no assignment changes any more, and from the next iteration on no centroid and no distortion;
the state is then a fixed point: every point is assigned to a nearest centroid, and the centroid of every cluster that is not empty is the mean of its points. -/
theorem c54_converges (pts : ℕ → E) (n k : ℕ) (hk : 0 < k) (indices : ℕ → ℕ) :
    ∃ T, T ≤ k ^ n ∧ ∀ t, T < t →
      (∀ i, i < n → (kSeq pts n k indices t).asg i = (kSeq pts n k indices T).asg i) ∧
      (kSeq pts n k indices (t + 1)).cent = (kSeq pts n k indices t).cent ∧ (kSeq pts n k indices (t + 1)).dist = (kSeq pts n k indices t).dist ∧
      ∀ j, ((Finset.range n).filter fun i => (kSeq pts n k indices t).asg i = j).Nonempty →
        ∑ i ∈ (Finset.range n).filter (fun i => (kSeq pts n k indices t).asg i = j), ((kSeq pts n k indices t).cent j - pts i) = 0 := by
  have hrange : ∀ t i, (kSeq pts n k indices t).asg i < k := fun t => (c53_assignment pts n k hk indices _ _ (kSeq_reach pts n k indices t)).range
  -- two of the first assignments are equal
  obtain ⟨x, y, hxy, he⟩ := Fintype.exists_ne_map_eq_of_card_lt
    (fun t : Fin (k ^ n + 1) => fun i : Fin n => (⟨(kSeq pts n k indices t).asg i, hrange t i⟩ : Fin k)) (by simp)
  obtain ⟨a, b, hab, hb, hrep⟩ : ∃ a b, a < b ∧ b ≤ k ^ n ∧ ∀ i, i < n → (kSeq pts n k indices a).asg i = (kSeq pts n k indices b).asg i := by
    have h1 : ∀ i, i < n → (kSeq pts n k indices x).asg i = (kSeq pts n k indices y).asg i := fun i hi => by
      have := congrFun he ⟨i, hi⟩
      exact congrArg Fin.val this
    rcases lt_or_gt_of_ne (fun h => hxy (Fin.ext h) : (x : ℕ) ≠ y) with h | h
    · exact ⟨x, y, h, Nat.lt_succ_iff.1 y.2, h1⟩
    · exact ⟨y, x, h, Nat.lt_succ_iff.1 x.2, fun i hi => (h1 i hi).symm⟩
  have hfix := fixed_of_repeat pts n k hk indices hab hrep
  have hall : ∀ d i, i < n → (kSeq pts n k indices (a + 1 + d)).asg i = (kSeq pts n k indices (a + 1)).asg i := by
    intro d
    induction d with
    | zero => exact fun i _ => rfl
    | succ d ih =>
      intro i hi
      have h1 := (kBody_congr pts k ih).2.1
      rw [← kSeq_succ, ← kSeq_succ] at h1
      show (kSeq pts n k indices (a + 1 + d + 1)).asg i = _
      rw [h1]
      exact hfix i hi
  have hge : ∀ t, a + 1 ≤ t → ∀ i, i < n → (kSeq pts n k indices t).asg i = (kSeq pts n k indices (a + 1)).asg i := by
    intro t ht i hi
    have := hall (t - (a + 1)) i hi
    rwa [show a + 1 + (t - (a + 1)) = t by omega] at this
  have hnext : ∀ t, a + 1 < t → ∀ i, i < n → (kSeq pts n k indices t).asg i = (kSeq pts n k indices (t - 1)).asg i := fun t ht i hi => by
    rw [hge t (by omega) i hi, hge (t - 1) (by omega) i hi]
  have hc : ∀ t, a + 1 < t → (kSeq pts n k indices (t + 1)).cent = (kSeq pts n k indices t).cent ∧
      (kSeq pts n k indices (t + 1)).dist = (kSeq pts n k indices t).dist := by
    intro t ht
    have h1 := kBody_congr pts k (hnext t ht)
    rw [← kSeq_succ, ← kSeq_succ, show t - 1 + 1 = t by omega] at h1
    exact ⟨h1.1, h1.2.2⟩
  refine ⟨a + 1, by omega, fun t ht => ⟨hge t ht.le, (hc t ht).1, (hc t ht).2, fun j hj => ?_⟩⟩
  have h1 := ((c53_new_centroids pts n k (kSeq pts n k indices t) j).1 hj).1
  rw [← kSeq_succ, (hc t ht).1] at h1
  exact h1

theorem kSeq_iters (pts : ℕ → E) (n k : ℕ) (indices : ℕ → ℕ) (t : ℕ) : (kSeq pts n k indices t).iters = t := by
  induction t with
  | zero => rfl
  | succ t ih => rw [kSeq_succ]; show (kSeq pts n k indices t).iters + 1 = t + 1; rw [ih]

theorem kReach_seq (pts : ℕ → E) (n k : ℕ) (indices : ℕ → ℕ) {c : KState E → Prop} {s : KState E}
    (h : Reach c (kBody pts n k) (kInit pts n k indices) s) : s = kSeq pts n k indices s.iters ∧ ∀ t, t < s.iters → c (kSeq pts n k indices t) := by
  induction h with
  | init => exact ⟨rfl, fun t ht => absurd ht (Nat.not_lt_zero t)⟩
  | @step u hr hc ih =>
    have e : (kBody pts n k u).iters = u.iters + 1 := rfl
    refine ⟨?_, fun t ht => ?_⟩
    · rw [e, kSeq_succ, ← ih.1]
    · rw [e] at ht
      rcases Nat.lt_succ_iff_lt_or_eq.1 ht with h1 | h1
      · exact ih.2 t h1
      · rw [h1, ← ih.1]; exact hc

/-- **C54** with a threshold that is not negative, `kmeans_with_seed` returns after at most `k ^ n + 2` iterations, however large `max_iters` is. -/
theorem c54_iterations (pts : ℕ → E) (n k : ℕ) (hk : 0 < k) (indices : ℕ → ℕ) (thresh : ℝ) (hth : 0 ≤ thresh) (maxIters : ℕ) (s : KState E)
    (h : KmeansWithSeed pts n k indices thresh maxIters s) : s.iters ≤ k ^ n + 2 := by
  by_contra hcon
  push Not at hcon
  obtain ⟨T, hT, hall⟩ := c54_converges pts n k hk indices
  have h1 := (kReach_seq pts n k indices h.1).2 (T + 2) (by omega)
  have h2 := (hall (T + 1) (Nat.lt_succ_self T)).2.2.1
  have h3 : (kSeq pts n k indices (T + 2)).prev = some (kSeq pts n k indices (T + 1)).dist := by rw [kSeq_succ]; rfl
  have h4 := h1.1
  rw [h3] at h4
  have h5 : (kSeq pts n k indices (T + 1)).dist - (kSeq pts n k indices (T + 2)).dist > thresh := h4
  rw [h2] at h5
  linarith

/-- The nearest of two centroids. -/
theorem findNearest_two (cent : ℕ → E) (p : E) : findNearest cent 2 p = if ‖cent 1 - p‖ < ‖cent 0 - p‖ then 1 else 0 := by
  obtain ⟨h1, h2, h3⟩ := findNearest_spec cent (k := 2) (by norm_num) p
  generalize findNearest cent 2 p = q at h1 h2 h3
  interval_cases q
  · rw [if_neg (not_lt.2 (h2 1 (by norm_num)))]
  · rw [if_pos (h3 0 (by norm_num))]

/-- Four points on the line. -/
def linePts : ℕ → ℝ
  | 0 => 0
  | 1 => 2
  | 2 => 3
  | _ => 7

/-- **C54** (limit of the claim) the stop test looks at the mean distance, which the iteration may increase although it lowers the sum of squared distances: for
the points 0, 2, 3, 7 and the starting centroids 0 and 3, `kmeans_with_seed` stops after one iteration, for every threshold that is not negative, at a state which
is not a fixed point (the next iteration moves a point, and lowers the sum of squares from 14 to 10). -/
theorem c54_stop_fails (thresh : ℝ) (hth : 0 ≤ thresh) (maxIters : ℕ) (hm : 1 ≤ maxIters) :
    ∃ s, KmeansWithSeed linePts 4 2 (fun j => 2 * j) thresh maxIters s ∧ s.iters = 1 ∧ (kBody linePts 4 2 s).asg 2 ≠ s.asg 2 ∧
      wcss linePts 4 s = 14 ∧ wcss linePts 4 (kBody linePts 4 2 s) = 10 := by
  have a0 : ∀ i, i < 4 → (kInit linePts 4 2 fun j => 2 * j).asg i = if i = 0 then 0 else 1 := by
    intro i hi
    show findNearest (fun j => linePts (2 * j)) 2 (linePts i) = _
    rw [findNearest_two]
    interval_cases i <;> norm_num [linePts, abs_of_nonneg, abs_of_nonpos]
  set s0 := kInit linePts 4 2 (fun j => 2 * j) with hs0
  set s1 := kBody linePts 4 2 s0 with hs1
  have c1 : s1.cent 0 = 0 ∧ s1.cent 1 = 4 := by
    have e : s1.cent = findNewCentroids (fun i => if i = 0 then 0 else 1) linePts 4 := newCentroids_congr linePts a0
    rw [e]
    constructor
    · simp [findNewCentroids, Finset.sum_range_succ, linePts]
    · have : ((Finset.range 4).filter fun i => (if i = 0 then 0 else 1) = 1).card = 3 := by decide
      simp only [findNewCentroids, assignmentCounts, this]
      norm_num [Finset.sum_range_succ, linePts]
  have a1 : ∀ i, i < 4 → s1.asg i = if i < 2 then 0 else 1 := by
    intro i hi
    show findNearest s1.cent 2 _ = _
    rw [findNearest_two, c1.1, c1.2]
    interval_cases i <;> norm_num [linePts, abs_of_nonneg, abs_of_nonpos]
  set s2 := kBody linePts 4 2 s1 with hs2
  have c2 : s2.cent 0 = 1 ∧ s2.cent 1 = 5 := by
    have e : s2.cent = findNewCentroids (fun i => if i < 2 then 0 else 1) linePts 4 := newCentroids_congr linePts a1
    rw [e]
    constructor
    · have : ((Finset.range 4).filter fun i => (if i < 2 then 0 else 1) = 0).card = 2 := by decide
      simp only [findNewCentroids, assignmentCounts, this]
      norm_num [Finset.sum_range_succ, linePts]
    · have : ((Finset.range 4).filter fun i => (if i < 2 then 0 else 1) = 1).card = 2 := by decide
      simp only [findNewCentroids, assignmentCounts, this]
      norm_num [Finset.sum_range_succ, linePts]
  have a2 : ∀ i, i < 4 → s2.asg i = if i < 3 then 0 else 1 := by
    intro i hi
    show findNearest s2.cent 2 _ = _
    rw [findNearest_two, c2.1, c2.2]
    interval_cases i <;> norm_num [linePts, abs_of_nonneg, abs_of_nonpos]
  have d0 : s0.dist = 5 / 4 := by
    show (∑ i ∈ Finset.range 4, ‖s0.cent (s0.asg i) - linePts i‖) / ((4 : ℕ) : ℝ) = _
    have e0 : s0.cent 0 = 0 := rfl
    have e1 : s0.cent 1 = 3 := rfl
    simp only [Finset.sum_range_succ, Finset.sum_range_zero, a0 0 (by norm_num), a0 1 (by norm_num), a0 2 (by norm_num), a0 3 (by norm_num)]
    norm_num [e0, e1, linePts, abs_of_nonneg, abs_of_nonpos]
  have d1 : s1.dist = 6 / 4 := by
    show (∑ i ∈ Finset.range 4, ‖s1.cent (s1.asg i) - linePts i‖) / ((4 : ℕ) : ℝ) = _
    simp only [Finset.sum_range_succ, Finset.sum_range_zero, a1 0 (by norm_num), a1 1 (by norm_num), a1 2 (by norm_num), a1 3 (by norm_num)]
    norm_num [c1.1, c1.2, linePts, abs_of_nonneg, abs_of_nonpos]
  refine ⟨s1, ⟨.step .init ⟨trivial, hm⟩, fun hc => ?_⟩, rfl, ?_, ?_, ?_⟩
  · have h1 : s0.dist - s1.dist > thresh := hc.1
    rw [d0, d1] at h1
    norm_num at h1
    linarith
  · rw [← hs2, a2 2 (by norm_num), a1 2 (by norm_num)]; norm_num
  · unfold wcss
    simp only [Finset.sum_range_succ, Finset.sum_range_zero, a1 0 (by norm_num), a1 1 (by norm_num), a1 2 (by norm_num), a1 3 (by norm_num)]
    norm_num [c1.1, c1.2, linePts]
  · rw [← hs2]
    unfold wcss
    simp only [Finset.sum_range_succ, Finset.sum_range_zero, a2 0 (by norm_num), a2 1 (by norm_num), a2 2 (by norm_num), a2 3 (by norm_num)]
    norm_num [c2.1, c2.2, linePts]

/-- The hypotheses hold, and the iteration on the four points above does move points. -/
example : (0 : ℕ) < 2 ∧ ∃ s, KmeansWithSeed linePts 4 2 (fun j => 2 * j) 0 100 s ∧ s.iters = 1 := by
  obtain ⟨s, h, hi, -⟩ := c54_stop_fails 0 le_rfl 100 (by norm_num)
  exact ⟨by norm_num, s, h, hi⟩

example := c54_converges linePts 4 2 (by norm_num) (fun j => 2 * j)

example (s : KState ℝ) (h : KmeansWithSeed (fun i => (i : ℝ) ^ 2) 6 3 id 0 100 s) := c54_iterations (fun i => (i : ℝ) ^ 2) 6 3 (by norm_num) id 0 le_rfl 100 s h

end Verif.Cluster
