import Verif.Cluster.KmeansProps
import Mathlib.Tactic.IntervalCases

set_option autoImplicit false
/-!
# C170: away from ties k-means depends on the points in a stable way
-/
noncomputable section
namespace Verif.Cluster
open Verif.Loop Verif.Pursuit

variable {E : Type*} [NormedAddCommGroup E] [InnerProductSpace ℝ E]

/-- Specification: every point is nearer to its centroid than to any other one by at least `g`. -/
def Separated (pts : ℕ → E) (n k : ℕ) (g : ℝ) (s : KState E) : Prop :=
  ∀ i, i < n → ∀ j, j < k → j ≠ s.asg i → ‖s.cent (s.asg i) - pts i‖ + g ≤ ‖s.cent j - pts i‖

/-- Specification: two states have the same iteration number and labels, centroids within `d` and distortions within `2 d` (also the previous ones). -/
structure Near (n k : ℕ) (d : ℝ) (s s' : KState E) : Prop where
  asg : ∀ i, i < n → s'.asg i = s.asg i
  cent : ∀ j, j < k → ‖s'.cent j - s.cent j‖ ≤ d
  dist : |s'.dist - s.dist| ≤ 2 * d
  iters : s'.iters = s.iters
  prev : (s.prev = none ∧ s'.prev = none) ∨ ∃ p p', s.prev = some p ∧ s'.prev = some p' ∧ |p' - p| ≤ 2 * d

section
variable {pts pts' : ℕ → E} {n k : ℕ} {d : ℝ}

theorem dist_moves {c c' p p' : E} (hc : ‖c' - c‖ ≤ d) (hp : ‖p' - p‖ ≤ d) : |‖c' - p'‖ - ‖c - p‖| ≤ 2 * d := by
  refine (abs_norm_sub_norm_le _ _).trans ?_
  have e : c' - p' - (c - p) = (c' - c) - (p' - p) := by abel
  rw [e]
  exact (norm_sub_le _ _).trans (by linarith)

theorem label_stays {cent cent' : ℕ → E} {g : ℝ} (hk : 0 < k) {p p' : E} (hd : 4 * d < g) (hc : ∀ j, j < k → ‖cent' j - cent j‖ ≤ d) (hp : ‖p' - p‖ ≤ d)
    (hs : ∀ j, j < k → j ≠ findNearest cent k p → ‖cent (findNearest cent k p) - p‖ + g ≤ ‖cent j - p‖) : findNearest cent' k p' = findNearest cent k p := by
  obtain ⟨a1, -, -⟩ := findNearest_spec cent hk p
  obtain ⟨b1, b2, -⟩ := findNearest_spec cent' hk p'
  by_contra hne
  have h1 := hs _ b1 hne
  have h2 := b2 _ a1
  have m1 := abs_le.1 (dist_moves (hc _ b1) hp)
  have m2 := abs_le.1 (dist_moves (hc _ a1) hp)
  linarith [m1.1, m2.2]

theorem mean_moves {cent cent' : ℕ → E} {asg asg' : ℕ → ℕ} (hd : 0 ≤ d) (hc : ∀ j, j < k → ‖cent' j - cent j‖ ≤ d) (hp : ∀ i, i < n → ‖pts' i - pts i‖ ≤ d)
    (ha : ∀ i, i < n → asg' i = asg i) (hr : ∀ i, asg i < k) : |meanDist pts' n cent' asg' - meanDist pts n cent asg| ≤ 2 * d := by
  unfold meanDist distances
  rcases Nat.eq_zero_or_pos n with rfl | hn
  · simpa using hd
  have hn' : (0 : ℝ) < n := by exact_mod_cast hn
  rw [← sub_div, ← Finset.sum_sub_distrib, abs_div, abs_of_pos hn', div_le_iff₀ hn']
  refine (Finset.abs_sum_le_sum_abs _ _).trans ?_
  calc _ ≤ ∑ _i ∈ Finset.range n, 2 * d := Finset.sum_le_sum fun i hi => by
        have hi' := Finset.mem_range.1 hi
        rw [ha i hi']
        exact dist_moves (hc _ (hr i)) (hp i hi')
    _ = 2 * d * n := by rw [Finset.sum_const, Finset.card_range, nsmul_eq_mul, mul_comm]

theorem centroid_moves {asg asg' : ℕ → ℕ} (hd : 0 ≤ d) (hp : ∀ i, i < n → ‖pts' i - pts i‖ ≤ d) (ha : ∀ i, i < n → asg' i = asg i) (j : ℕ) :
    ‖findNewCentroids asg' pts' n j - findNewCentroids asg pts n j‖ ≤ d := by
  have e : (Finset.range n).filter (fun i => asg' i = j) = (Finset.range n).filter (fun i => asg i = j) :=
    Finset.filter_congr fun i hi => by rw [ha i (Finset.mem_range.1 hi)]
  rw [findNewCentroids_eq, findNewCentroids_eq, e, ← smul_sub, ← Finset.sum_sub_distrib, norm_smul]
  set S := (Finset.range n).filter (fun i => asg i = j)
  have h1 : ‖∑ i ∈ S, (pts' i - pts i)‖ ≤ S.card * d := by
    refine (norm_sum_le _ _).trans ?_
    refine (Finset.sum_le_sum fun i hi => hp i (Finset.mem_range.1 (Finset.mem_filter.1 hi).1)).trans ?_
    rw [Finset.sum_const, nsmul_eq_mul]
  have h2 : (0 : ℝ) < (max 1 S.card : ℕ) := by exact_mod_cast lt_of_lt_of_le one_pos (le_max_left _ _)
  have h3 : (S.card : ℝ) ≤ (max 1 S.card : ℕ) := by exact_mod_cast le_max_right _ _
  rw [Real.norm_eq_abs, abs_of_pos (by positivity), one_div, inv_mul_le_iff₀ h2]
  exact h1.trans (mul_le_mul_of_nonneg_right h3 hd)

theorem near_init (hk : 0 < k) (indices : ℕ → ℕ) (hi : ∀ j, j < k → indices j < n) (hd : 0 ≤ d) (hp : ∀ i, i < n → ‖pts' i - pts i‖ ≤ d) {g : ℝ} (hg : 4 * d < g)
    (hs : Separated pts n k g (kInit pts n k indices)) : Near n k d (kInit pts n k indices) (kInit pts' n k indices) := by
  have hc : ∀ j, j < k → ‖pts' (indices j) - pts (indices j)‖ ≤ d := fun j hj => hp _ (hi j hj)
  have ha : ∀ i, i < n → (kInit pts' n k indices).asg i = (kInit pts n k indices).asg i := fun i hin => label_stays hk hg hc (hp i hin) (hs i hin)
  exact ⟨ha, hc, mean_moves hd hc hp ha (kInit_good pts n hk indices).range, rfl, Or.inl ⟨rfl, rfl⟩⟩

theorem near_body (hk : 0 < k) (hd : 0 ≤ d) (hp : ∀ i, i < n → ‖pts' i - pts i‖ ≤ d) {g : ℝ} (hg : 4 * d < g) {s s' : KState E} (h : Near n k d s s')
    (hs : Separated pts n k g (kBody pts n k s)) : Near n k d (kBody pts n k s) (kBody pts' n k s') := by
  have hc : ∀ j, j < k → ‖findNewCentroids s'.asg pts' n j - findNewCentroids s.asg pts n j‖ ≤ d := fun j _ => centroid_moves hd hp h.asg j
  have ha : ∀ i, i < n → (kBody pts' n k s').asg i = (kBody pts n k s).asg i := fun i hin => label_stays hk hg hc (hp i hin) (hs i hin)
  exact ⟨ha, hc, mean_moves hd hc hp ha (kBody_good pts n hk s).range, congrArg (· + 1) h.iters, Or.inr ⟨_, _, rfl, rfl, h.dist⟩⟩
end

/-- **C170** (every iteration) points moved by at most `d` each, and on the unmoved points every point nearer to its centroid by more than `4 d` than to the others in each of the first `m` iterations: the labels are the
same, the centroids move by at most `d` and the distortion by at most `2 d`. -/
theorem c170_iterations (pts pts' : ℕ → E) (n k : ℕ) (hk : 0 < k) (indices : ℕ → ℕ) (hi : ∀ j, j < k → indices j < n) (d g : ℝ) (hp : ∀ i, i < n → ‖pts' i - pts i‖ ≤ d) (hg : 4 * d < g) (m : ℕ)
    (hs : ∀ j, j ≤ m → Separated pts n k g ((kBody pts n k)^[j] (kInit pts n k indices))) :
    Near n k d ((kBody pts n k)^[m] (kInit pts n k indices)) ((kBody pts' n k)^[m] (kInit pts' n k indices)) := by
  have hd : 0 ≤ d := (norm_nonneg _).trans (hp _ (hi 0 hk))
  induction m with
  | zero => exact near_init hk indices hi hd hp hg (hs 0 le_rfl)
  | succ m ih =>
    have h1 := hs (m + 1) le_rfl
    rw [Function.iterate_succ_apply'] at h1 ⊢
    rw [Function.iterate_succ_apply']
    exact near_body hk hd hp hg (ih fun j hj => hs j (by omega)) h1

/-- **C170** (`kmeans_with_seed`) if moreover no stopping test is decided by `4 d` or less, the run on the moved points stops in the same iteration: same labels, centroids within `d`, distortion within `2 d`. -/
theorem c170_result (pts pts' : ℕ → E) (n k : ℕ) (hk : 0 < k) (indices : ℕ → ℕ) (hi : ∀ j, j < k → indices j < n) (d g : ℝ) (hp : ∀ i, i < n → ‖pts' i - pts i‖ ≤ d) (hg : 4 * d < g)
    (thresh : ℝ) (maxIters : ℕ) (s s' : KState E) (h : KmeansWithSeed pts n k indices thresh maxIters s) (h' : KmeansWithSeed pts' n k indices thresh maxIters s')
    (hs : ∀ t, Reach (kCond thresh maxIters) (kBody pts n k) (kInit pts n k indices) t → Separated pts n k g t)
    (hstop : ∀ t, Reach (kCond thresh maxIters) (kBody pts n k) (kInit pts n k indices) t → ∀ p, t.prev = some p → 4 * d < |p - t.dist - thresh|) :
    s'.iters = s.iters ∧ (∀ i, i < n → s'.asg i = s.asg i) ∧ (∀ j, j < k → ‖s'.cent j - s.cent j‖ ≤ d) ∧ |s'.dist - s.dist| ≤ 2 * d := by
  have hd : 0 ≤ d := (norm_nonneg _).trans (hp _ (hi 0 hk))
  have hcond : ∀ t t' : KState E, Near n k d t t' → (∀ p, t.prev = some p → 4 * d < |p - t.dist - thresh|) → (kCond thresh maxIters t' ↔ kCond thresh maxIters t) := by
    intro t t' hn hst
    unfold kCond
    rw [hn.iters]
    rcases hn.prev with ⟨a, b⟩ | ⟨p, p', a, b, hpp⟩
    · rw [a, b]
    · rw [a, b]
      have h1 := hst p a
      have h2 := abs_le.1 hn.dist
      have h3 := abs_le.1 hpp
      refine and_congr_left fun _ => ?_
      show p' - t'.dist > thresh ↔ p - t.dist > thresh
      rcases lt_abs.1 h1 with h4 | h4
      · exact ⟨fun _ => by linarith, fun _ => by linarith [h2.1, h2.2, h3.1, h3.2]⟩
      · exact ⟨fun h5 => by linarith [h2.1, h2.2, h3.1, h3.2], fun h5 => by linarith⟩
  have key : ∀ t, Reach (kCond thresh maxIters) (kBody pts n k) (kInit pts n k indices) t →
      ∃ t', Reach (kCond thresh maxIters) (kBody pts' n k) (kInit pts' n k indices) t' ∧ Near n k d t t' := by
    intro t ht
    induction ht with
    | init => exact ⟨_, .init, near_init hk indices hi hd hp hg (hs _ .init)⟩
    | @step t ht hc ih =>
      obtain ⟨t', ht', hn⟩ := ih
      exact ⟨_, ht'.step ((hcond t t' hn (hstop t ht)).2 hc), near_body hk hd hp hg hn (hs _ (ht.step hc))⟩
  obtain ⟨t', ht', hn⟩ := key s h.1
  have ho : KmeansWithSeed pts' n k indices thresh maxIters t' := ⟨ht', fun hc => h.2 ((hcond s t' hn (hstop s h.1)).1 hc)⟩
  obtain rfl := Out.unique h' ho
  exact ⟨hn.iters, hn.asg, hn.cent, hn.dist⟩

/-! ## A tie -/

/-- The points `0`, `2` and `c` of the line. -/
def tiePts (c : ℝ) : ℕ → ℝ := fun i => if i = 0 then 0 else if i = 1 then 2 else c

theorem near2 {cent : ℕ → ℝ} {p : ℝ} : (|cent 0 - p| ≤ |cent 1 - p| → findNearest cent 2 p = 0) ∧ (|cent 1 - p| < |cent 0 - p| → findNearest cent 2 p = 1) := by
  obtain ⟨a1, a2, a3⟩ := findNearest_spec cent (k := 2) (by norm_num) p
  refine ⟨fun h => ?_, fun h => ?_⟩
  · by_contra hne
    have h1 : findNearest cent 2 p = 1 := by omega
    have := a3 0 (by omega)
    rw [h1, Real.norm_eq_abs, Real.norm_eq_abs] at this
    linarith
  · by_contra hne
    have h1 : findNearest cent 2 p = 0 := by omega
    have := a2 1 (by norm_num)
    rw [h1, Real.norm_eq_abs, Real.norm_eq_abs] at this
    linarith

theorem line_zero (s : KState ℝ) (h : s.asg 0 = 0 ∧ s.asg 1 = 1 ∧ s.asg 2 = 0) :
    (kBody (tiePts 1) 3 2 s).asg 0 = 0 ∧ (kBody (tiePts 1) 3 2 s).asg 1 = 1 ∧ (kBody (tiePts 1) 3 2 s).asg 2 = 0 := by
  obtain ⟨h0, h1, h2⟩ := h
  have c0 : findNewCentroids s.asg (tiePts 1) 3 0 = 1 / 2 := by
    rw [findNewCentroids, assignmentCounts]
    simp [Finset.sum_range_succ, Finset.range_add_one, Finset.filter_insert, Finset.filter_singleton, h0, h1, h2, tiePts]
  have c1 : findNewCentroids s.asg (tiePts 1) 3 1 = 2 := by
    rw [findNewCentroids, assignmentCounts]
    simp [Finset.sum_range_succ, Finset.range_add_one, Finset.filter_insert, Finset.filter_singleton, h0, h1, h2, tiePts]
  refine ⟨near2.1 ?_, near2.2 ?_, near2.1 ?_⟩ <;> rw [c0, c1] <;> norm_num [tiePts, abs_le, abs_lt]

theorem line_one {e : ℝ} (he : 0 < e) (h1 : e < 1) (s : KState ℝ) (h : s.asg 0 = 0 ∧ s.asg 1 = 1 ∧ s.asg 2 = 1) :
    (kBody (tiePts (1 + e)) 3 2 s).asg 0 = 0 ∧ (kBody (tiePts (1 + e)) 3 2 s).asg 1 = 1 ∧ (kBody (tiePts (1 + e)) 3 2 s).asg 2 = 1 := by
  obtain ⟨a0, a1, a2⟩ := h
  have c0 : findNewCentroids s.asg (tiePts (1 + e)) 3 0 = 0 := by
    rw [findNewCentroids, assignmentCounts]
    simp [Finset.sum_range_succ, Finset.range_add_one, Finset.filter_insert, Finset.filter_singleton, a0, a1, a2, tiePts]
  have c1 : findNewCentroids s.asg (tiePts (1 + e)) 3 1 = (3 + e) / 2 := by
    rw [findNewCentroids, assignmentCounts]
    simp [Finset.sum_range_succ, Finset.range_add_one, Finset.filter_insert, Finset.filter_singleton, a0, a1, a2, tiePts]
    ring
  refine ⟨near2.1 ?_, near2.2 ?_, near2.2 ?_⟩ <;> rw [c0, c1]
  · show |0 - (0 : ℝ)| ≤ |(3 + e) / 2 - 0|
    rw [sub_self, abs_zero]; exact abs_nonneg _
  · show |(3 + e) / 2 - 2| < |0 - (2 : ℝ)|
    rw [zero_sub, abs_neg, abs_two, abs_lt]; constructor <;> linarith
  · show |(3 + e) / 2 - (1 + e)| < |0 - (1 + e)|
    rw [zero_sub, abs_neg, abs_of_pos (by linarith : 0 < 1 + e), abs_lt]; constructor <;> linarith

/-- **C170** (a tie) the margin is needed: the points `0, 2, 1` with the first two as initial centroids. The third point ends in the first cluster, and after a move by any `0 < e < 1` in the second one, whatever the
threshold and the iteration limit. -/
theorem c170_tie_fails (e : ℝ) (he : 0 < e) (h1 : e < 1) (thresh : ℝ) (maxIters : ℕ) (s s' : KState ℝ) (h : KmeansWithSeed (tiePts 1) 3 2 id thresh maxIters s)
    (h' : KmeansWithSeed (tiePts (1 + e)) 3 2 id thresh maxIters s') : (∀ i, |tiePts (1 + e) i - tiePts 1 i| ≤ e) ∧ s.asg 2 = 0 ∧ s'.asg 2 = 1 := by
  refine ⟨fun i => ?_, ?_, ?_⟩
  · unfold tiePts
    split_ifs <;> simp [abs_of_pos he, he.le]
  · refine (h.1.inv (fun s => s.asg 0 = 0 ∧ s.asg 1 = 1 ∧ s.asg 2 = 0) ⟨near2.1 ?_, near2.2 ?_, near2.1 ?_⟩ fun s hs _ => line_zero s hs).2.2 <;>
      norm_num [tiePts, kInit, abs_le, abs_lt]
  · refine (h'.1.inv (fun s => s.asg 0 = 0 ∧ s.asg 1 = 1 ∧ s.asg 2 = 1) ⟨near2.1 ?_, near2.2 ?_, near2.2 ?_⟩ fun s hs _ => line_one he h1 s hs).2.2
    · show |(0 : ℝ) - 0| ≤ |(2 : ℝ) - 0|; norm_num
    · show |(2 : ℝ) - 2| < |(0 : ℝ) - 2|; norm_num
    · show |(2 : ℝ) - (1 + e)| < |(0 : ℝ) - (1 + e)|
      rw [zero_sub, abs_neg, abs_of_pos (by linarith : 0 < 1 + e), abs_lt]; constructor <;> linarith

/-! The points `0, 10, 1` of the line: the margin is 8 throughout, and the only stopping test compares 0 with the threshold. -/

def farPts : ℕ → ℝ := fun i => if i = 0 then 0 else if i = 1 then 10 else 1

theorem far_sep {s : KState ℝ} (ha : s.asg 0 = 0 ∧ s.asg 1 = 1 ∧ s.asg 2 = 0) (hc : (s.cent 0 = 0 ∨ s.cent 0 = 1 / 2) ∧ s.cent 1 = 10) : Separated farPts 3 2 8 s := by
  obtain ⟨a0, a1, a2⟩ := ha
  obtain ⟨c0, c1⟩ := hc
  intro i hi j hj hne
  rcases c0 with c0 | c0 <;> interval_cases i <;> interval_cases j <;> simp_all [farPts] <;> norm_num [abs_of_pos, abs_of_neg]

theorem far_inv (thresh : ℝ) (maxIters : ℕ) (t : KState ℝ) (ht : Reach (kCond thresh maxIters) (kBody farPts 3 2) (kInit farPts 3 2 id) t) :
    (t.asg 0 = 0 ∧ t.asg 1 = 1 ∧ t.asg 2 = 0) ∧ ((t.cent 0 = 0 ∨ t.cent 0 = 1 / 2) ∧ t.cent 1 = 10) ∧ t.dist = 1 / 3 ∧ ∀ p, t.prev = some p → p = 1 / 3 := by
  refine ht.inv (fun t => (t.asg 0 = 0 ∧ t.asg 1 = 1 ∧ t.asg 2 = 0) ∧ ((t.cent 0 = 0 ∨ t.cent 0 = 1 / 2) ∧ t.cent 1 = 10) ∧ t.dist = 1 / 3 ∧ ∀ p, t.prev = some p → p = 1 / 3) ?_ ?_
  · have ha : (kInit farPts 3 2 id).asg 0 = 0 ∧ (kInit farPts 3 2 id).asg 1 = 1 ∧ (kInit farPts 3 2 id).asg 2 = 0 := by
      refine ⟨near2.1 ?_, near2.2 ?_, near2.1 ?_⟩ <;> norm_num [farPts, kInit, abs_le, abs_lt]
    refine ⟨ha, ⟨Or.inl rfl, rfl⟩, ?_, fun p hp => by simp [kInit] at hp⟩
    show meanDist farPts 3 (fun j => farPts (id j)) (kInit farPts 3 2 id).asg = 1 / 3
    simp [meanDist, distances, Finset.sum_range_succ, ha, farPts]
  · rintro t ⟨⟨a0, a1, a2⟩, -, hd, -⟩ -
    have c0 : findNewCentroids t.asg farPts 3 0 = 1 / 2 := by
      rw [findNewCentroids, assignmentCounts]
      simp [Finset.sum_range_succ, Finset.range_add_one, Finset.filter_insert, Finset.filter_singleton, a0, a1, a2, farPts]
    have c1 : findNewCentroids t.asg farPts 3 1 = 10 := by
      rw [findNewCentroids, assignmentCounts]
      simp [Finset.sum_range_succ, Finset.range_add_one, Finset.filter_insert, Finset.filter_singleton, a0, a1, a2, farPts]
    have ha : (kBody farPts 3 2 t).asg 0 = 0 ∧ (kBody farPts 3 2 t).asg 1 = 1 ∧ (kBody farPts 3 2 t).asg 2 = 0 := by
      refine ⟨near2.1 ?_, near2.2 ?_, near2.1 ?_⟩ <;> rw [c0, c1] <;> norm_num [farPts, abs_le, abs_lt]
    refine ⟨ha, ⟨Or.inr c0, c1⟩, ?_, fun p hp => by rw [← hd]; exact (Option.some.inj hp).symm⟩
    show meanDist farPts 3 (findNewCentroids t.asg farPts 3) (kBody farPts 3 2 t).asg = 1 / 3
    simp [meanDist, distances, Finset.sum_range_succ, ha, farPts, c0, c1]
    norm_num [abs_of_pos, abs_of_neg]

/-- All three points moved by at most `1/10`: the labels do not change and the centroids move by at most `1/10`. -/
example (pts' : ℕ → ℝ) (hp : ∀ i, i < 3 → ‖pts' i - farPts i‖ ≤ 1 / 10) (s s' : KState ℝ) (h : KmeansWithSeed farPts 3 2 id (1 / 2) 100 s) (h' : KmeansWithSeed pts' 3 2 id (1 / 2) 100 s') :=
  c170_result farPts pts' 3 2 (by norm_num) id (fun j hj => show j < 3 by omega) (1 / 10) 8 hp (by norm_num) (1 / 2) 100 s s' h h'
    (fun t ht => far_sep (far_inv _ _ t ht).1 (far_inv _ _ t ht).2.1)
    (fun t ht p hpp => by rw [(far_inv _ _ t ht).2.2.1, (far_inv _ _ t ht).2.2.2 p hpp]; norm_num [abs_of_neg])

/-- Both runs return (C54). -/
example (pts' : ℕ → ℝ) : (∃ s, KmeansWithSeed farPts 3 2 id (1 / 2) 100 s) ∧ ∃ s', KmeansWithSeed pts' 3 2 id (1 / 2) 100 s' :=
  ⟨(c54_terminates farPts 3 2 id (1 / 2) 100).1, (c54_terminates pts' 3 2 id (1 / 2) 100).1⟩

end Verif.Cluster
