import Verif.Cluster.KmeansConv
import Verif.Cluster.SscOmpProps
import Verif.Pursuit.SimilarityProps

set_option autoImplicit false
/-!
# C159: rigid motions, units and orderings of the data in k-means and SSC-OMP
-/
noncomputable section
namespace Verif.Cluster
open Verif.Loop Verif.Pursuit

variable {E F : Type*} [NormedAddCommGroup E] [InnerProductSpace ℝ E] [NormedAddCommGroup F] [InnerProductSpace ℝ F]

/-! ## Rotations, reflections and units -/

theorem argmin_scale {a : ℝ} (ha : 0 < a) (l : List ℝ) : argmin (l.map fun x => a * x) = argmin l := by
  unfold argmin
  rw [← argmax_scale' ha (l.map fun x => -x), List.map_map, List.map_map]
  congr 1
  exact List.map_congr_left fun x _ => by simp [Function.comp_def]

/-- The state that corresponds to `s` when the points are mapped by the isometry `U` and multiplied by `c`: same assignment and iteration count. -/
def KState.sim (U : E →ₗᵢ[ℝ] F) (c : ℝ) (s : KState E) : KState F :=
  { cent := fun j => c • U (s.cent j), asg := s.asg, dist := |c| * s.dist, prev := s.prev.map fun p => |c| * p, iters := s.iters }

theorem norm_sim (U : E →ₗᵢ[ℝ] F) (c : ℝ) (x y : E) : ‖c • U x - c • U y‖ = |c| * ‖x - y‖ := by
  rw [← smul_sub, ← map_sub, norm_smul, U.norm_map, Real.norm_eq_abs]

theorem findNearest_sim (U : E →ₗᵢ[ℝ] F) {c : ℝ} (hc : c ≠ 0) (cent : ℕ → E) (k : ℕ) (p : E) : findNearest (fun j => c • U (cent j)) k (c • U p) = findNearest cent k p := by
  unfold findNearest
  rw [← argmin_scale (abs_pos.2 hc) ((List.range k).map fun j => ‖cent j - p‖), List.map_map]
  congr 1
  exact List.map_congr_left fun j _ => norm_sim U c _ _

theorem findAssignment_sim (U : E →ₗᵢ[ℝ] F) {c : ℝ} (hc : c ≠ 0) (pts cent : ℕ → E) (k : ℕ) :
    findAssignment (fun i => c • U (pts i)) (fun j => c • U (cent j)) k = findAssignment pts cent k := funext fun i => findNearest_sim U hc cent k (pts i)

theorem meanDist_sim (U : E →ₗᵢ[ℝ] F) (c : ℝ) (pts : ℕ → E) (n : ℕ) (cent : ℕ → E) (a : ℕ → ℕ) :
    meanDist (fun i => c • U (pts i)) n (fun j => c • U (cent j)) a = |c| * meanDist pts n cent a := by
  simp only [meanDist, distances, norm_sim]
  rw [← Finset.mul_sum, mul_div_assoc]

theorem findNewCentroids_sim (U : E →ₗᵢ[ℝ] F) (c : ℝ) (a : ℕ → ℕ) (pts : ℕ → E) (n : ℕ) :
    findNewCentroids a (fun i => c • U (pts i)) n = fun j => c • U (findNewCentroids a pts n j) := by
  funext j
  have e : (∑ i ∈ Finset.range n, if a i = j then c • U (pts i) else 0) = c • U (∑ i ∈ Finset.range n, if a i = j then pts i else 0) := by
    rw [map_sum, Finset.smul_sum]
    refine Finset.sum_congr rfl fun i _ => ?_
    split_ifs <;> simp
  simp only [findNewCentroids, e, map_smul]
  rw [smul_comm]

theorem kInit_sim (U : E →ₗᵢ[ℝ] F) {c : ℝ} (hc : c ≠ 0) (pts : ℕ → E) (n k : ℕ) (indices : ℕ → ℕ) :
    kInit (fun i => c • U (pts i)) n k indices = (kInit pts n k indices).sim U c := by
  simp only [kInit, KState.sim, Option.map_none]
  rw [findAssignment_sim U hc pts (fun j => pts (indices j)), meanDist_sim U c pts n (fun j => pts (indices j))]

theorem kBody_sim (U : E →ₗᵢ[ℝ] F) {c : ℝ} (hc : c ≠ 0) (pts : ℕ → E) (n k : ℕ) (s : KState E) :
    kBody (fun i => c • U (pts i)) n k (s.sim U c) = (kBody pts n k s).sim U c := by
  simp only [kBody, KState.sim, Option.map_some, findNewCentroids_sim]
  rw [findAssignment_sim U hc pts, meanDist_sim U c pts n]

theorem kCond_sim (U : E →ₗᵢ[ℝ] F) {c : ℝ} (hc : c ≠ 0) (thresh : ℝ) (maxIters : ℕ) (s : KState E) : kCond (|c| * thresh) maxIters (s.sim U c) ↔ kCond thresh maxIters s := by
  unfold kCond KState.sim
  refine and_congr ?_ Iff.rfl
  cases s.prev with
  | none => exact Iff.rfl
  | some p =>
    show |c| * p - |c| * s.dist > |c| * thresh ↔ p - s.dist > thresh
    rw [← mul_sub, gt_iff_lt, mul_lt_mul_iff_right₀ (abs_pos.2 hc)]

/-- **C159** rotating or reflecting the points and multiplying them by `c ≠ 0`, with the threshold multiplied by `|c|`, leaves every label and the number of iterations of `kmeans_with_seed` as they are and transforms the centroids and distortions likewise. -/
theorem c159_kmeans_similarity (U : E →ₗᵢ[ℝ] F) (c : ℝ) (hc : c ≠ 0) (pts : ℕ → E) (n k : ℕ) (indices : ℕ → ℕ) (thresh : ℝ) (maxIters : ℕ) (s : KState E)
    (h : KmeansWithSeed pts n k indices thresh maxIters s) (t : KState F) :
    KmeansWithSeed (fun i => c • U (pts i)) n k indices (|c| * thresh) maxIters t ↔
      t = { cent := fun j => c • U (s.cent j), asg := s.asg, dist := |c| * s.dist, prev := s.prev.map fun p => |c| * p, iters := s.iters } := by
  unfold KmeansWithSeed
  rw [kInit_sim U hc]
  exact Out.map (KState.sim U c) (fun s _ => kCond_sim U hc thresh maxIters s) (fun s _ _ => kBody_sim U hc pts n k s) h t

/-- **C159** and `kmeans` then selects the same restart. -/
theorem c159_kmeans_select (U : E →ₗᵢ[ℝ] F) (c : ℝ) (hc : c ≠ 0) (results : List (KState E)) :
    kmeansSelect (results.map fun s => ({ cent := fun j => c • U (s.cent j), asg := s.asg, dist := |c| * s.dist, prev := s.prev.map fun p => |c| * p, iters := s.iters } : KState F)) =
      (kmeansSelect results).map fun s => { cent := fun j => c • U (s.cent j), asg := s.asg, dist := |c| * s.dist, prev := s.prev.map fun p => |c| * p, iters := s.iters } := by
  unfold kmeansSelect
  rw [List.getElem?_map, List.map_map]
  have e : ((fun s : KState F => s.dist) ∘ fun s : KState E => ({ cent := fun j => c • U (s.cent j), asg := s.asg, dist := |c| * s.dist, prev := s.prev.map fun p => |c| * p, iters := s.iters } : KState F)) =
      (fun x => |c| * x) ∘ fun s : KState E => s.dist := rfl
  rw [e, ← List.map_map, argmin_scale (abs_pos.2 hc)]

/-! ## Order of the points -/

theorem sum_perm {A : Type*} [AddCommMonoid A] (σ : Equiv.Perm ℕ) {n : ℕ} (hσ : ∀ i, σ i < n ↔ i < n) (f : ℕ → A) :
    ∑ i ∈ Finset.range n, f (σ i) = ∑ i ∈ Finset.range n, f i :=
  Finset.sum_equiv σ (fun i => by rw [Finset.mem_range, Finset.mem_range, hσ]) fun i _ => rfl

/-- The state with the labels in the order `σ`. -/
def KState.perm (σ : Equiv.Perm ℕ) (s : KState E) : KState E := { s with asg := fun i => s.asg (σ i) }

/-- **C159** the order of the points does not matter: if they are listed in the order `σ` and the same points are drawn as first centroids, the run has the same centroids, distortions and iterations, and the labels follow the points. -/
theorem c159_kmeans_order (σ : Equiv.Perm ℕ) (pts : ℕ → E) (n k : ℕ) (hσ : ∀ i, σ i < n ↔ i < n) (indices : ℕ → ℕ) (thresh : ℝ) (maxIters : ℕ) (s : KState E)
    (h : KmeansWithSeed pts n k indices thresh maxIters s) (t : KState E) :
    KmeansWithSeed (fun i => pts (σ i)) n k (fun j => σ.symm (indices j)) thresh maxIters t ↔ t = { s with asg := fun i => s.asg (σ i) } := by
  have hmean : ∀ (cent : ℕ → E) (a : ℕ → ℕ), meanDist (fun i => pts (σ i)) n cent (fun i => a (σ i)) = meanDist pts n cent a := fun cent a => by
    unfold meanDist
    rw [← sum_perm σ hσ (distances pts cent a)]
    rfl
  have hcent : ∀ a : ℕ → ℕ, findNewCentroids (fun i => a (σ i)) (fun i => pts (σ i)) n = findNewCentroids a pts n := fun a => by
    funext j
    have hc : assignmentCounts (fun i => a (σ i)) n j = assignmentCounts a n j := by
      unfold assignmentCounts
      rw [Finset.card_filter, Finset.card_filter, ← sum_perm σ hσ fun i => if a i = j then 1 else 0]
    unfold findNewCentroids
    rw [hc, ← sum_perm σ hσ fun i => if a i = j then pts i else 0]
  have e0 : kInit (fun i => pts (σ i)) n k (fun j => σ.symm (indices j)) = (kInit pts n k indices).perm σ := by
    simp only [kInit, KState.perm, Equiv.apply_symm_apply]
    congr 1
    exact hmean _ (findAssignment pts (fun j => pts (indices j)) k)
  unfold KmeansWithSeed
  rw [e0]
  refine Out.map (c := kCond thresh maxIters) (f := kBody pts n k) (KState.perm σ) (fun s _ => Iff.rfl) (fun s _ _ => ?_) h t
  simp only [kBody, KState.perm, hcent]
  congr 1
  exact hmean _ (findAssignment pts (findNewCentroids s.asg pts n) k)

/-! ## Translations -/

theorem findNearest_congr {cent cent' : ℕ → E} {k : ℕ} (p : E) (v : E) (h : ∀ j < k, cent' j = cent j + v) : findNearest cent' k (p + v) = findNearest cent k p := by
  unfold findNearest
  congr 1
  refine List.map_congr_left fun j hj => ?_
  rw [h j (List.mem_range.1 hj), add_sub_add_right_eq_sub]

/-- Two states that differ by a translation. -/
structure KShift (k n : ℕ) (v : E) (s t : KState E) : Prop where
  cent : ∀ j < k, t.cent j = s.cent j + v
  asg : t.asg = s.asg
  dist : t.dist = s.dist
  prev : t.prev = s.prev
  iters : t.iters = s.iters

theorem shift_of_cent (pts : ℕ → E) (n : ℕ) {k : ℕ} (hk : 0 < k) (v : E) (cent cent' : ℕ → E) (h : ∀ j < k, cent' j = cent j + v) :
    findAssignment (fun i => pts i + v) cent' k = findAssignment pts cent k ∧
    meanDist (fun i => pts i + v) n cent' (findAssignment pts cent k) = meanDist pts n cent (findAssignment pts cent k) := by
  refine ⟨funext fun i => findNearest_congr _ _ h, ?_⟩
  unfold meanDist distances
  congr 1
  refine Finset.sum_congr rfl fun i _ => ?_
  rw [h (findAssignment pts cent k i) (findNearest_spec cent hk (pts i)).1, add_sub_add_right_eq_sub]

theorem kInit_shift (pts : ℕ → E) (n : ℕ) {k : ℕ} (hk : 0 < k) (indices : ℕ → ℕ) (v : E) : KShift k n v (kInit pts n k indices) (kInit (fun i => pts i + v) n k indices) := by
  obtain ⟨h1, h2⟩ := shift_of_cent pts n hk v (fun j => pts (indices j)) (fun j => pts (indices j) + v) fun j _ => rfl
  refine ⟨fun j _ => rfl, h1, ?_, rfl, rfl⟩
  simp only [kInit, h1, h2]

theorem findNewCentroids_shift (a : ℕ → ℕ) (pts : ℕ → E) (n j : ℕ) (v : E) (h : ∃ i < n, a i = j) : findNewCentroids a (fun i => pts i + v) n j = findNewCentroids a pts n j + v := by
  obtain ⟨i, hi, hj⟩ := h
  have hpos : 0 < ((Finset.range n).filter fun i => a i = j).card := Finset.card_pos.2 ⟨i, Finset.mem_filter.2 ⟨Finset.mem_range.2 hi, hj⟩⟩
  unfold findNewCentroids assignmentCounts
  rw [max_eq_right hpos]
  rw [← Finset.sum_filter, ← Finset.sum_filter, Finset.sum_add_distrib, Finset.sum_const, smul_add]
  congr 1
  rw [← Nat.cast_smul_eq_nsmul ℝ, smul_smul, one_div, inv_mul_cancel₀ (Nat.cast_ne_zero.2 hpos.ne'), one_smul]

theorem kBody_shift (pts : ℕ → E) (n : ℕ) {k : ℕ} (hk : 0 < k) (v : E) {s t : KState E} (h : KShift k n v s t) (hne : ∀ j < k, ∃ i < n, s.asg i = j) :
    KShift k n v (kBody pts n k s) (kBody (fun i => pts i + v) n k t) := by
  have hc : ∀ j < k, findNewCentroids t.asg (fun i => pts i + v) n j = findNewCentroids s.asg pts n j + v := fun j hj => by
    rw [h.asg]; exact findNewCentroids_shift _ _ _ _ _ (hne j hj)
  obtain ⟨h1, h2⟩ := shift_of_cent pts n hk v _ _ hc
  refine ⟨hc, h1, ?_, ?_, ?_⟩
  · simp only [kBody, h1, h2]
  · simp only [kBody, h.dist]
  · simp only [kBody, h.iters]

/-- **C159** translating the points translates the centroids and changes no label, distortion or iteration count, as long as no cluster becomes empty. -/
theorem c159_kmeans_translation_partial (v : E) (pts : ℕ → E) (n k : ℕ) (hk : 0 < k) (indices : ℕ → ℕ) (thresh : ℝ) (maxIters : ℕ)
    (hne : ∀ s, Reach (kCond thresh maxIters) (kBody pts n k) (kInit pts n k indices) s → ∀ j < k, ∃ i < n, s.asg i = j)
    (s : KState E) (h : KmeansWithSeed pts n k indices thresh maxIters s) (t : KState E) (ht : KmeansWithSeed (fun i => pts i + v) n k indices thresh maxIters t) :
    (∀ j < k, t.cent j = s.cent j + v) ∧ t.asg = s.asg ∧ t.dist = s.dist ∧ t.iters = s.iters := by
  have hcond : ∀ {a b : KState E}, KShift k n v a b → (kCond thresh maxIters b ↔ kCond thresh maxIters a) := fun hab => by
    unfold kCond; rw [hab.prev, hab.dist, hab.iters]
  have key : ∀ s, Reach (kCond thresh maxIters) (kBody pts n k) (kInit pts n k indices) s →
      ∃ t, Reach (kCond thresh maxIters) (kBody (fun i => pts i + v) n k) (kInit (fun i => pts i + v) n k indices) t ∧ KShift k n v s t := by
    intro s hs
    induction hs with
    | init => exact ⟨_, .init, kInit_shift pts n hk indices v⟩
    | step hr hc ih =>
      obtain ⟨t, ht, hst⟩ := ih
      exact ⟨_, .step ht ((hcond hst).2 hc), kBody_shift pts n hk v hst (hne _ hr)⟩
  obtain ⟨t', ht', hst⟩ := key s h.1
  have : t = t' := Out.unique ht ⟨ht', fun hc => h.2 ((hcond hst).1 hc)⟩
  subst this
  exact ⟨hst.cent, hst.asg, hst.dist, hst.iters⟩

/-- Three points on the line, two of which are equal. -/
def dupPts : ℕ → ℝ
  | 0 => 0
  | 1 => 0
  | _ => 1

theorem dup_s0 (i : ℕ) (hi : i < 3) : (kInit dupPts 3 2 id).asg i = 0 := by
  show findNearest (fun j => dupPts (id j)) 2 (dupPts i) = _
  rw [findNearest_two]
  interval_cases i <;> norm_num [dupPts]

theorem dup_s1 : (kBody dupPts 3 2 (kInit dupPts 3 2 id)).cent 0 = 1 / 3 ∧ (kBody dupPts 3 2 (kInit dupPts 3 2 id)).cent 1 = 0 := by
  have e : (kBody dupPts 3 2 (kInit dupPts 3 2 id)).cent = findNewCentroids (fun _ => 0) dupPts 3 := newCentroids_congr dupPts dup_s0
  rw [e]
  constructor
  · simp [findNewCentroids, assignmentCounts, Finset.sum_range_succ, dupPts]
  · simp [findNewCentroids]

theorem dup_a1 (i : ℕ) (hi : i < 3) : (kBody dupPts 3 2 (kInit dupPts 3 2 id)).asg i = if i < 2 then 1 else 0 := by
  show findNearest (kBody dupPts 3 2 (kInit dupPts 3 2 id)).cent 2 _ = _
  rw [findNearest_two, dup_s1.1, dup_s1.2]
  interval_cases i <;> norm_num [dupPts, abs_of_nonneg, abs_of_nonpos]

theorem dup_next (s : KState ℝ) (hs : ∀ i < 3, s.asg i = if i < 2 then 1 else 0) : ∀ i < 3, (kBody dupPts 3 2 s).asg i = if i < 2 then 1 else 0 := by
  have e : (kBody dupPts 3 2 s).cent = findNewCentroids (fun i => if i < 2 then 1 else 0) dupPts 3 := newCentroids_congr dupPts hs
  have c0 : (kBody dupPts 3 2 s).cent 0 = 1 := by
    rw [e]
    have : ((Finset.range 3).filter fun i => (if i < 2 then 1 else 0) = 0).card = 1 := by decide
    simp only [findNewCentroids, assignmentCounts, this]
    norm_num [Finset.sum_range_succ, dupPts]
  have c1 : (kBody dupPts 3 2 s).cent 1 = 0 := by
    rw [e]
    simp only [findNewCentroids]
    norm_num [Finset.sum_range_succ, dupPts]
  intro i hi
  show findNearest (kBody dupPts 3 2 s).cent 2 _ = _
  rw [findNearest_two, c0, c1]
  interval_cases i <;> norm_num [dupPts]

/-- **C159** an empty cluster gets the origin as its centroid, so the position of the origin matters: of the points 0, 0, 1, with the first two as starting centroids, the third is separated from the others; of the points 5, 5, 6 it is not. -/
theorem c159_kmeans_translation_fails (thresh : ℝ) (maxIters : ℕ) (hm : 1 ≤ maxIters) (s t : KState ℝ)
    (hs : KmeansWithSeed dupPts 3 2 id thresh maxIters s) (ht : KmeansWithSeed (fun i => dupPts i + 5) 3 2 id thresh maxIters t) :
    s.asg 2 ≠ s.asg 0 ∧ t.asg 2 = t.asg 0 := by
  constructor
  · have : s = kInit dupPts 3 2 id ∨ ∀ i < 3, s.asg i = if i < 2 then 1 else 0 := by
      refine hs.1.inv (fun s => s = kInit dupPts 3 2 id ∨ ∀ i < 3, s.asg i = if i < 2 then 1 else 0) (Or.inl rfl) ?_
      rintro s (rfl | h) -
      · exact Or.inr dup_a1
      · exact Or.inr (dup_next s h)
    rcases this with rfl | h
    · exact absurd ⟨trivial, hm⟩ hs.2
    · rw [h 2 (by norm_num), h 0 (by norm_num)]; norm_num
  · have : ∀ i < 3, t.asg i = 0 := by
      refine ht.1.inv (fun t => ∀ i < 3, t.asg i = 0) ?_ ?_
      · intro i hi
        show findNearest (fun j => dupPts (id j) + 5) 2 (dupPts i + 5) = _
        rw [findNearest_two]
        interval_cases i <;> norm_num [dupPts]
      · intro t h _
        have e : (kBody (fun i => dupPts i + 5) 3 2 t).cent = findNewCentroids (fun _ => 0) (fun i => dupPts i + 5) 3 := newCentroids_congr _ h
        have c0 : (kBody (fun i => dupPts i + 5) 3 2 t).cent 0 = 16 / 3 := by
          rw [e]
          norm_num [findNewCentroids, assignmentCounts, Finset.sum_range_succ, dupPts]
        have c1 : (kBody (fun i => dupPts i + 5) 3 2 t).cent 1 = 0 := by rw [e]; simp [findNewCentroids]
        intro i hi
        show findNearest (kBody (fun i => dupPts i + 5) 3 2 t).cent 2 _ = _
        rw [findNearest_two, c0, c1]
        interval_cases i <;> norm_num [dupPts, abs_of_nonneg, abs_of_nonpos]
    rw [this 2 (by norm_num), this 0 (by norm_num)]

/-! ## The default threshold is absolute -/

theorem meanDist_nonneg (pts : ℕ → E) (n : ℕ) (cent : ℕ → E) (a : ℕ → ℕ) : 0 ≤ meanDist pts n cent a :=
  div_nonneg (Finset.sum_nonneg fun i _ => norm_nonneg _) (Nat.cast_nonneg n)

/-- **C159** with an unchanged threshold units matter: whatever the points, in large enough units of length (small enough numbers) `kmeans_with_seed` stops after its first iteration. -/
theorem c159_kmeans_units_fails (pts : ℕ → E) (n k : ℕ) (indices : ℕ → ℕ) (thresh : ℝ) (hth : 0 < thresh) (maxIters : ℕ) :
    ∃ c0 : ℝ, 0 < c0 ∧ ∀ c, 0 < c → c ≤ c0 → ∀ s, KmeansWithSeed (fun i => c • pts i) n k indices thresh maxIters s → s.iters ≤ 1 := by
  set D := (kInit pts n k indices).dist with hD
  have hD0 : 0 ≤ D := meanDist_nonneg _ _ _ _
  refine ⟨thresh / (D + 1), by positivity, fun c hc hle s hs => ?_⟩
  have hcD : c * D ≤ thresh := by
    rw [le_div_iff₀ (by positivity)] at hle
    nlinarith
  have e0 : (kInit (fun i => c • pts i) n k indices).dist = c * D := by
    have := congrArg KState.dist (kInit_sim (LinearIsometry.id (R := ℝ) (E := E)) hc.ne' pts n k indices)
    simp only [LinearIsometry.id_apply] at this
    rw [this]
    show |c| * _ = _
    rw [abs_of_pos hc]
  have : s = kInit (fun i => c • pts i) n k indices ∨ s = kBody (fun i => c • pts i) n k (kInit (fun i => c • pts i) n k indices) := by
    refine hs.1.inv' (fun s => s = kInit (fun i => c • pts i) n k indices ∨ s = kBody (fun i => c • pts i) n k (kInit (fun i => c • pts i) n k indices)) (Or.inl rfl) ?_
    rintro s _ (rfl | rfl) hcs
    · exact Or.inr rfl
    · exfalso
      have h1 : (kInit (fun i => c • pts i) n k indices).dist - (kBody (fun i => c • pts i) n k (kInit (fun i => c • pts i) n k indices)).dist > thresh := hcs.1
      have h2 : 0 ≤ (kBody (fun i => c • pts i) n k (kInit (fun i => c • pts i) n k indices)).dist := meanDist_nonneg _ _ _ _
      rw [e0] at h1
      linarith
  rcases this with rfl | rfl
  · exact Nat.zero_le _
  · exact le_rfl

/-- **C159** (a run which is longer in its own units) the points 0, 0, 1 take at least two iterations with the default parameters. -/
theorem c159_kmeans_units_witness (s : KState ℝ) (hs : KmeansWithSeed dupPts 3 2 id 1e-5 100 s) : 2 ≤ s.iters := by
  have d0 : (kInit dupPts 3 2 id).dist = 1 / 3 := by
    show meanDist dupPts 3 (fun j => dupPts (id j)) (kInit dupPts 3 2 id).asg = _
    unfold meanDist distances
    rw [Finset.sum_congr rfl fun i hi => by rw [dup_s0 i (Finset.mem_range.1 hi)]]
    norm_num [Finset.sum_range_succ, dupPts]
  have d1 : (kBody dupPts 3 2 (kInit dupPts 3 2 id)).dist = 2 / 9 := by
    show meanDist dupPts 3 (kBody dupPts 3 2 (kInit dupPts 3 2 id)).cent (kBody dupPts 3 2 (kInit dupPts 3 2 id)).asg = _
    unfold meanDist distances
    rw [Finset.sum_congr rfl fun i hi => by rw [dup_a1 i (Finset.mem_range.1 hi)]]
    norm_num [Finset.sum_range_succ, dupPts, dup_s1, abs_of_nonpos]
  have : s = kInit dupPts 3 2 id ∨ s = kBody dupPts 3 2 (kInit dupPts 3 2 id) ∨ 2 ≤ s.iters := by
    refine hs.1.inv (fun s => s = kInit dupPts 3 2 id ∨ s = kBody dupPts 3 2 (kInit dupPts 3 2 id) ∨ 2 ≤ s.iters) (Or.inl rfl) ?_
    rintro s (rfl | rfl | h) -
    · exact Or.inr (Or.inl rfl)
    · exact Or.inr (Or.inr le_rfl)
    · exact Or.inr (Or.inr (h.trans (Nat.le_succ _)))
  rcases this with rfl | rfl | h
  · exact absurd ⟨trivial, by norm_num [kInit]⟩ hs.2
  · refine absurd ⟨?_, by norm_num [kInit, kBody]⟩ hs.2
    show (kInit dupPts 3 2 id).dist - (kBody dupPts 3 2 (kInit dupPts 3 2 id)).dist > 1e-5
    rw [d0, d1]; norm_num
  · exact h

/-! ## SSC-OMP -/

theorem normalizeCw_sim (U : E →ₗᵢ[ℝ] F) (c : ℕ → ℝ) (hc : ∀ i, 0 < c i) (X : ℕ → E) : normalizeCw (fun i => c i • U (X i)) = fun i => U (normalizeCw X i) := by
  funext i
  unfold normalizeCw
  rw [norm_smul, U.norm_map, map_smul, smul_smul, Real.norm_of_nonneg (hc i).le, mul_inv, mul_comm, ← mul_assoc, mul_inv_cancel₀ (hc i).ne', one_mul]

theorem sscStep_sim (U : E →ₗᵢ[ℝ] F) (phi : ℕ → E) (N : ℕ) {lstsq : List ℕ → E → List ℝ} {lstsq' : List ℕ → F → List ℝ}
    (hl : ∀ I y, IsLstsq phi I y (lstsq I y)) (hl' : ∀ I y, IsLstsq (fun i => U (phi i)) I y (lstsq' I y)) (self : ℕ) (y : E) {c a : ℝ} (hc : c ≠ 0) (ha : a ≠ 0)
    (s : SscState E) (s' : SscState F) (hI : s'.I = s.I) (hr : s'.r = a • U s.r) :
    sscStep (fun i => U (phi i)) N lstsq' self (c • U y) s' =
      { I := (sscStep phi N lstsq self y s).I, z := (sscStep phi N lstsq self y s).z.map fun v => c * v, r := c • U (sscStep phi N lstsq self y s).r } := by
  have hi : absMaxIdx (zeroAt (corr ℝ (fun i => U (phi i)) N s'.r) [self]) = absMaxIdx (zeroAt (corr ℝ phi N s.r) [self]) := by
    rw [hr, corr_sim, zeroAt_scale, absMaxIdx_scale ha]
  simp only [sscStep, hI, hi, lstsq_agree U hc phi hl hl', lin_smul, lin_map, map_sub, smul_sub]

/-- **C159** rotating the data and multiplying each point by its own positive factor leaves the points chosen by `build_representation_omp` as they are, and multiplies the coefficients and the residual of a point by the factor of that point. -/
theorem c159_ssc_similarity (U : E →ₗᵢ[ℝ] F) (c : ℕ → ℝ) (hc : ∀ i, 0 < c i) (X : ℕ → E) (N : ℕ) (lstsq : List ℕ → E → List ℝ) (lstsq' : List ℕ → F → List ℝ)
    (hl : ∀ I y, IsLstsq (normalizeCw X) I y (lstsq I y)) (hl' : ∀ I y, IsLstsq (normalizeCw fun i => c i • U (X i)) I y (lstsq' I y)) (K : ℕ) (hK : 1 ≤ K) (j : ℕ) :
    let s := buildRepresentationOmp X N lstsq K j
    buildRepresentationOmp (fun i => c i • U (X i)) N lstsq' K j = { I := s.I, z := s.z.map fun v => c j * v, r := c j • U s.r } := by
  rw [normalizeCw_sim U c hc] at hl'
  obtain ⟨k, rfl⟩ : ∃ k, K = k + 1 := ⟨K - 1, by omega⟩
  unfold buildRepresentationOmp
  rw [normalizeCw_sim U c hc]
  induction k with
  | zero =>
    exact sscStep_sim U (normalizeCw X) N hl hl' j (X j) (hc j).ne' one_ne_zero _ _ rfl (by rw [one_smul])
  | succ k ih =>
    have ih := ih (by omega)
    simp only [Function.iterate_succ_apply' _ (k + 1)] at ih ⊢
    rw [ih]
    exact sscStep_sim U (normalizeCw X) N hl hl' j (X j) (hc j).ne' (hc j).ne' _ _ rfl rfl

/-! ## Instances -/

/-- The reflection of the line, in other units. -/
example (s : KState ℝ) (hs : KmeansWithSeed linePts 4 2 (fun j => 2 * j) 1 10 s) := (c159_kmeans_similarity (LinearIsometryEquiv.neg ℝ (E := ℝ)).toLinearIsometry 3 (by norm_num) linePts 4 2 _ 1 10 s hs _).2 rfl

example := c159_kmeans_select (LinearIsometry.id (R := ℝ) (E := ℝ)) 2 (by norm_num) [kInit dupPts 3 2 id]

example (s : KState ℝ) (hs : KmeansWithSeed linePts 4 2 (fun j => 2 * j) 1 10 s) := (c159_kmeans_order (Equiv.swap 0 3) linePts 4 2 (fun i => by
  by_cases h0 : i = 0
  · subst h0; simp
  · by_cases h3 : i = 3
    · subst h3; simp
    · rw [Equiv.swap_apply_of_ne_of_ne h0 h3]) _ 1 10 s hs _).2 rfl

/-- Translation of two different points, each its own cluster. -/
example (s t : KState ℝ) (hs : KmeansWithSeed (fun i => (i : ℝ)) 2 2 id 0 10 s) (ht : KmeansWithSeed (fun i => (i : ℝ) + 5) 2 2 id 0 10 t) :=
  c159_kmeans_translation_partial (5 : ℝ) (fun i => (i : ℝ)) 2 2 (by norm_num) id 0 10 (by
    intro s hs
    have : ∀ i < 2, s.asg i = i := by
      refine hs.inv (fun s => ∀ i < 2, s.asg i = i) ?_ ?_
      · intro i hi
        show findNearest (fun j => ((id j : ℕ) : ℝ)) 2 (i : ℝ) = i
        rw [findNearest_two]
        interval_cases i <;> norm_num
      · intro s h _ i hi
        have e : (kBody (fun i => (i : ℝ)) 2 2 s).cent = findNewCentroids id (fun i => (i : ℝ)) 2 := newCentroids_congr _ h
        show findNearest (kBody (fun i => (i : ℝ)) 2 2 s).cent 2 (i : ℝ) = i
        have c0 : findNewCentroids id (fun i => (i : ℝ)) 2 0 = 0 := by simp [findNewCentroids, Finset.sum_range_succ]
        have c1 : findNewCentroids id (fun i => (i : ℝ)) 2 1 = 1 := by
          have : ((Finset.range 2).filter fun i => id i = 1).card = 1 := by decide
          simp only [findNewCentroids, assignmentCounts, this]
          norm_num [Finset.sum_range_succ]
        rw [findNearest_two, e, c0, c1]
        interval_cases i <;> norm_num
    exact fun j hj => ⟨j, hj, this j hj⟩) s hs t ht

example := c159_kmeans_units_fails dupPts 3 2 id 1e-5 (by norm_num) 100

example : ∃ s, KmeansWithSeed dupPts 3 2 id 1e-5 100 s ∧ 2 ≤ s.iters := by
  obtain ⟨s, hs⟩ := (c54_terminates dupPts 3 2 id 1e-5 100).1
  exact ⟨s, hs, c159_kmeans_units_witness s hs⟩

example : ∃ s t, KmeansWithSeed dupPts 3 2 id 1e-5 100 s ∧ KmeansWithSeed (fun i => dupPts i + 5) 3 2 id 1e-5 100 t ∧ s.asg 2 ≠ s.asg 0 ∧ t.asg 2 = t.asg 0 := by
  obtain ⟨s, hs⟩ := (c54_terminates dupPts 3 2 id 1e-5 100).1
  obtain ⟨t, ht⟩ := (c54_terminates (fun i => dupPts i + 5) 3 2 id 1e-5 100).1
  exact ⟨s, t, hs, ht, c159_kmeans_translation_fails 1e-5 100 (by norm_num) s t hs ht⟩

/-- Such least squares routines exist for all data. -/
example (X : ℕ → E) : ∃ (lstsq : List ℕ → E → List ℝ) (lstsq' : List ℕ → E → List ℝ), buildRepresentationOmp (fun i => ((i : ℝ) + 1) • X i) 5 lstsq' 2 3 =
    { I := (buildRepresentationOmp X 5 lstsq 2 3).I, z := (buildRepresentationOmp X 5 lstsq 2 3).z.map fun v => (3 + 1) * v, r := (3 + 1 : ℝ) • (buildRepresentationOmp X 5 lstsq 2 3).r } :=
  ⟨fun I y => Classical.choose (exists_lstsq (normalizeCw X) I y), fun I y => Classical.choose (exists_lstsq (normalizeCw fun i => ((i : ℝ) + 1) • X i) I y),
    by simpa using c159_ssc_similarity (LinearIsometry.id (R := ℝ) (E := E)) (fun i => (i : ℝ) + 1) (fun i => by positivity) X 5 _ _
          (fun I y => Classical.choose_spec (exists_lstsq (normalizeCw X) I y)) (fun I y => Classical.choose_spec (exists_lstsq (normalizeCw fun i => ((i : ℝ) + 1) • X i) I y)) 2 (by norm_num) 3⟩

end Verif.Cluster
