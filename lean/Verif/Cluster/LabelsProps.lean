import Verif.Cluster.LabelsModel
import Mathlib.Tactic.Ring
import Mathlib.Tactic.Linarith
import Mathlib.Tactic.FieldSimp
import Mathlib.Data.Finset.Sort
import Mathlib.Data.Set.Function
import Mathlib.Algebra.Order.Field.Rat
import Mathlib.Algebra.Order.Field.Basic
import Mathlib.Tactic.Positivity
import Mathlib.Tactic.IntervalCases
import Mathlib.Tactic.GCongr

set_option autoImplicit false
/-!
# Cluster labels and relabelling (C55, C57)
-/
namespace Verif.Cluster

/-! ## C55 -/

theorem labelsFrom_ge : ∀ (c : ℕ) (ss : List ℕ), ∀ l ∈ labelsFrom c ss, c ≤ l ∧ l < c + ss.length
  | c, [] => by simp [labelsFrom]
  | c, s :: ss => by
    intro l hl
    simp only [labelsFrom, List.mem_append, List.mem_replicate] at hl
    rcases hl with ⟨-, rfl⟩ | hl
    · simp
    · have := labelsFrom_ge (c + 1) ss l hl
      simp only [List.length_cons]; omega

theorem labelsFrom_count : ∀ (c : ℕ) (ss : List ℕ) (j : ℕ), (labelsFrom c ss).countP (fun l => l == c + j) = ss.getD j 0
  | c, [], j => by simp [labelsFrom]
  | c, s :: ss, j => by
    simp only [labelsFrom, List.countP_append, List.countP_replicate]
    cases j with
    | zero =>
      have : (labelsFrom (c + 1) ss).countP (fun l => l == c + 0) = 0 := by
        rw [List.countP_eq_zero]
        intro l hl
        have := labelsFrom_ge (c + 1) ss l hl
        simp; omega
      rw [this]; simp
    | succ j =>
      have e : c + (j + 1) = c + 1 + j := by omega
      rw [e, labelsFrom_count (c + 1) ss j]
      have : ¬ (c = c + 1 + j) := by omega
      simp [this]

theorem map_getD_range (s : List ℕ) : (List.range s.length).map (fun c => s.getD c 0) = s := by
  apply List.ext_getElem (by simp)
  intro i h1 h2
  simp [List.getD_eq_getElem?_getD, h2]

/-- **C55** `sizes_from_labels(labels_from_sizes(s), len(s)) = s` for every non-empty list of sizes (zero sizes included); an empty list is rejected. -/
theorem c55_round_trip (s : List ℕ) : (s ≠ [] → ∃ l, labelsFromSizes s = some l ∧ sizesFromLabels l s.length = s ∧ l.length = s.sum) ∧ labelsFromSizes [] = none := by
  refine ⟨fun hne => ⟨labelsFrom 0 s, by simp [labelsFromSizes, hne], ?_, ?_⟩, rfl⟩
  · rw [sizesFromLabels]
    conv_rhs => rw [← map_getD_range s]
    refine List.map_congr_left fun c _ => ?_
    have := labelsFrom_count 0 s c
    simpa using this
  · have : ∀ (c : ℕ) (ss : List ℕ), (labelsFrom c ss).length = ss.sum := by
      intro c ss
      induction ss generalizing c with
      | nil => rfl
      | cons s ss ih => simp [labelsFrom, ih]
    exact this 0 s

theorem count_split (labels : List ℕ) (k : ℕ) : (sizesFromLabels labels k).sum = labels.countP fun l => decide (l < k) := by
  induction k with
  | zero => simp [sizesFromLabels]
  | succ k ih =>
    have e : (sizesFromLabels labels (k + 1)).sum = (sizesFromLabels labels k).sum + labels.countP fun l => l == k := by
      simp [sizesFromLabels, List.range_succ]
    rw [e, ih]
    clear ih e
    induction labels with
    | nil => rfl
    | cons a t ih =>
      simp only [List.countP_cons]
      rcases lt_trichotomy a k with h | rfl | h
      · have h1 : a < k + 1 := by omega
        have h2 : a ≠ k := by omega
        simp only [h, h1, h2, decide_true, if_true, beq_iff_eq, if_false]
        omega
      · simp; omega
      · have h1 : ¬ a < k + 1 := by omega
        have h2 : ¬ a < k := by omega
        have h3 : a ≠ k := by omega
        simp only [h1, h2, h3, decide_false, beq_iff_eq, if_false, Bool.false_eq_true]
        omega

/-- **C55** the sizes sum to the number of points when every label is below `k`; each size is the number of points with that label. -/
theorem c55_sizes (labels : List ℕ) (k : ℕ) :
    (sizesFromLabels labels k).length = k ∧ (∀ c, c < k → (sizesFromLabels labels k).getD c 0 = labels.count c) ∧
    ((∀ l ∈ labels, l < k) → (sizesFromLabels labels k).sum = labels.length) := by
  refine ⟨by simp [sizesFromLabels], fun c hc => by simp [sizesFromLabels, List.getD_eq_getElem?_getD, hc, List.count], fun h => ?_⟩
  rw [count_split, List.countP_eq_length]
  intro l hl; simpa using h l hl

theorem cumsum_getD : ∀ (acc : ℕ) (ss : List ℕ) (j : ℕ), j < ss.length → (cumsum acc ss).getD j 0 = acc + (ss.take (j + 1)).sum
  | acc, [], j, h => by simp at h
  | acc, s :: ss, 0, _ => by simp [cumsum]
  | acc, s :: ss, j + 1, h => by
    simp only [cumsum, List.getD_cons_succ]
    rw [cumsum_getD (acc + s) ss j (by simpa using h)]
    simp; omega

theorem cumsum_length : ∀ (acc : ℕ) (ss : List ℕ), (cumsum acc ss).length = ss.length
  | acc, [] => rfl
  | acc, s :: ss => by simp [cumsum, cumsum_length]

theorem start_getD (ss : List ℕ) (j : ℕ) (hj : j < ss.length) : (startEndIndices ss).1.getD j 0 = (ss.take j).sum := by
  have hl := cumsum_length 0 ss
  simp only [startEndIndices, shiftRight, List.getD_eq_getElem?_getD, List.getElem?_take, hl, if_pos hj]
  cases j with
  | zero => simp
  | succ j =>
    have := cumsum_getD 0 ss j (by omega)
    simp only [List.getD_eq_getElem?_getD] at this
    simpa using this

theorem start_length (ss : List ℕ) : (startEndIndices ss).1.length = ss.length := by
  simp [startEndIndices, shiftRight, cumsum_length]

theorem end_getD (ss : List ℕ) (j : ℕ) (hj : j < ss.length) : (startEndIndices ss).2.getD j 0 = (ss.take (j + 1)).sum := by
  have h1 := start_getD ss j hj
  have h2 := start_length ss
  have e : (startEndIndices ss).2 = List.zipWith (· + ·) (startEndIndices ss).1 ss := rfl
  rw [e]
  have hj2 : j < (startEndIndices ss).1.length := by omega
  simp only [List.getD_eq_getElem?_getD, List.getElem?_eq_getElem hj2, Option.getD_some] at h1
  simp only [List.getD_eq_getElem?_getD, List.getElem?_zipWith, List.getElem?_eq_getElem hj2, List.getElem?_eq_getElem hj, Option.map_some, Option.getD_some]
  rw [h1, List.take_succ_eq_append_getElem hj, List.sum_append, List.sum_singleton]

theorem labelsFrom_getElem : ∀ (c : ℕ) (ss : List ℕ) (j i : ℕ), j < ss.length →
    ((labelsFrom c ss)[i]? = some (c + j) ↔ (ss.take j).sum ≤ i ∧ i < (ss.take (j + 1)).sum)
  | c, [], j, i, h => by simp at h
  | c, s :: ss, j, i, h => by
    simp only [labelsFrom]
    by_cases hi : i < s
    · rw [List.getElem?_append_left (by simpa using hi), List.getElem?_replicate, if_pos hi]
      cases j with
      | zero => simp [hi]
      | succ j => simp; omega
    · rw [List.getElem?_append_right (by simpa using Nat.le_of_not_lt hi), List.length_replicate]
      cases j with
      | zero =>
        simp only [Nat.add_zero, List.take_zero, List.sum_nil, Nat.zero_le, true_and, Nat.zero_add, List.take_succ_cons, List.sum_cons, Nat.add_zero]
        constructor
        · intro hh
          have := labelsFrom_ge (c + 1) ss c (List.mem_of_getElem? hh)
          omega
        · intro hh; exact absurd hh hi
      | succ j =>
        have e : c + (j + 1) = c + 1 + j := by omega
        rw [e, labelsFrom_getElem (c + 1) ss j (i - s) (by simpa using h)]
        simp only [List.take_succ_cons, List.sum_cons]
        omega

/-- **C55** the start and end indices delimit exactly the run of each label: point `i` has label `j` iff `start[j] ≤ i < end[j]`. -/
theorem c55_start_end (s l : List ℕ) (h : labelsFromSizes s = some l) (j : ℕ) (hj : j < s.length) (i : ℕ) :
    l[i]? = some j ↔ (startEndIndices s).1.getD j 0 ≤ i ∧ i < (startEndIndices s).2.getD j 0 := by
  rw [start_getD s j hj, end_getD s j hj]
  have hl : l = labelsFrom 0 s := by
    unfold labelsFromSizes at h
    split at h
    · cases h
    · exact (Option.some.inj h).symm
  rw [hl]
  have := labelsFrom_getElem 0 s j i hj
  simpa using this

example : labelsFromSizes [2, 0, 3] = some [0, 0, 2, 2, 2] ∧ startEndIndices [2, 0, 3] = ([0, 2, 2], [2, 2, 5]) ∧ sizesFromLabels [0, 0, 2, 2, 2] 3 = [2, 0, 3] := by
  decide

/-! ## C57 -/

theorem remap_eq {k : ℕ} (cols : Fin k → Fin k) (hinj : Function.Injective cols) (q : Fin k) : ∀ (l : List (Fin k)) (cur i : Fin k), l.Nodup → i ∈ l → cols i = q →
    remap cols q l cur = i
  | [], cur, i, _, hi, _ => by simp at hi
  | a :: l, cur, i, hn, hi, hc => by
    simp only [remap]
    rw [List.nodup_cons] at hn
    rcases List.mem_cons.mp hi with rfl | hi
    · rw [if_pos hc.symm]
      have : ∀ (l : List (Fin k)) , i ∉ l → remap cols q l i = i := by
        intro l
        induction l with
        | nil => intro _; rfl
        | cons b l ih =>
          intro hb
          rw [List.mem_cons, not_or] at hb
          simp only [remap]
          rw [if_neg (fun h => hb.1 (hinj (hc.trans h)))]
          exact ih hb.2
      exact this l hn.1
    · exact remap_eq cols hinj q l _ i hn.2 hi hc

/-- **C57** `best_map_k` applies the inverse of the assignment: the mapped label of a point with predicted label `cols[i]` is `i`. -/
theorem c57_best_map_k_relabels {n k : ℕ} [NeZero k] (cols : Equiv.Perm (Fin k)) (p : Fin n → Fin k) (i : Fin n) : bestMapK cols p i = cols.symm (p i) :=
  remap_eq cols cols.injective (p i) _ _ _ (List.nodup_finRange k) (List.mem_finRange _) (cols.apply_symm_apply _)

/-- The number of points on which a relabelling `σ` of the predicted labels agrees with the true labels. -/
def agreement {n k : ℕ} (t p : Fin n → Fin k) (σ : Equiv.Perm (Fin k)) : ℕ := (Finset.univ.filter fun i => t i = σ (p i)).card

theorem agreement_eq {n k : ℕ} (t p : Fin n → Fin k) (σ : Equiv.Perm (Fin k)) : agreement t p σ = ∑ a, confusion t p a (σ.symm a) := by
  classical
  unfold agreement confusion
  rw [Finset.card_eq_sum_card_fiberwise (f := t) (t := Finset.univ) (fun _ _ => Finset.mem_univ _)]
  refine Finset.sum_congr rfl fun a _ => ?_
  congr 1
  ext i
  simp only [Finset.mem_filter, Finset.mem_univ, true_and]
  constructor
  · rintro ⟨h1, rfl⟩; exact ⟨rfl, by rw [h1, Equiv.symm_apply_apply]⟩
  · rintro ⟨rfl, h2⟩; exact ⟨by rw [h2, Equiv.apply_symm_apply], rfl⟩

/-- **C57** the relabelling of `best_map_k` agrees with the true labels on at least as many points as any other relabelling of the predicted clusters. -/
theorem c57_best_map_k_optimal {n k : ℕ} [NeZero k] (t p : Fin n → Fin k) (cols : Equiv.Perm (Fin k)) (h : IsAssignment (confusion t p) cols) (σ : Equiv.Perm (Fin k)) :
    (Finset.univ.filter fun i => t i = σ (p i)).card ≤ (Finset.univ.filter fun i => t i = bestMapK cols p i).card := by
  have e : (Finset.univ.filter fun i => t i = bestMapK cols p i).card = agreement t p cols.symm := by
    simp only [c57_best_map_k_relabels]; rfl
  rw [e]
  show agreement t p σ ≤ _
  rw [agreement_eq, agreement_eq]
  exact h σ.symm

theorem numMissed_eq {n k : ℕ} [NeZero k] (t p : Fin n → Fin k) (cols : Equiv.Perm (Fin k)) :
    numMissedK cols t p = n - agreement t p cols.symm ∧ agreement t p cols.symm ≤ n := by
  have h := Finset.card_filter_add_card_filter_not (s := (Finset.univ : Finset (Fin n))) (fun i => t i = bestMapK cols p i)
  rw [Finset.card_univ, Fintype.card_fin] at h
  have e : (Finset.univ.filter fun i => t i = bestMapK cols p i).card = agreement t p cols.symm := by
    simp only [c57_best_map_k_relabels]; rfl
  have e2 : (Finset.univ.filter fun i => ¬ t i = bestMapK cols p i).card = numMissedK cols t p := rfl
  rw [e, e2] at h
  omega

/-- **C57** the clustering error is between 0 and 1, and it is the smallest fraction of disagreements over all relabellings. -/
theorem c57_error_range {n k : ℕ} [NeZero k] (hn : 0 < n) (t p : Fin n → Fin k) (cols : Equiv.Perm (Fin k)) (h : IsAssignment (confusion t p) cols) :
    0 ≤ errorK cols t p ∧ errorK cols t p ≤ 1 ∧ (∀ σ : Equiv.Perm (Fin k), errorK cols t p ≤ ((Finset.univ.filter fun i => t i ≠ σ (p i)).card : ℚ) / n) ∧
    (errorK cols t p = 0 ↔ ∃ σ : Equiv.Perm (Fin k), ∀ i, t i = σ (p i)) := by
  have hnq : (0 : ℚ) < n := by exact_mod_cast hn
  obtain ⟨h1, h2⟩ := numMissed_eq t p cols
  have hmin : ∀ σ : Equiv.Perm (Fin k), numMissedK cols t p ≤ (Finset.univ.filter fun i => t i ≠ σ (p i)).card := by
    intro σ
    have h3 := c57_best_map_k_optimal t p cols h σ
    have h4 := Finset.card_filter_add_card_filter_not (s := (Finset.univ : Finset (Fin n))) (fun i => t i = σ (p i))
    have h5 := Finset.card_filter_add_card_filter_not (s := (Finset.univ : Finset (Fin n))) (fun i => t i = bestMapK cols p i)
    have e2 : (Finset.univ.filter fun i => ¬ t i = bestMapK cols p i).card = numMissedK cols t p := rfl
    rw [e2] at h5
    show _ ≤ (Finset.univ.filter fun i => ¬ t i = σ (p i)).card
    omega
  refine ⟨by unfold errorK; positivity, ?_, fun σ => ?_, ?_⟩
  · unfold errorK
    rw [div_le_one hnq]
    exact_mod_cast (by omega : numMissedK cols t p ≤ n)
  · unfold errorK
    gcongr
    exact_mod_cast hmin σ
  · constructor
    · intro h0
      have : numMissedK cols t p = 0 := by
        unfold errorK at h0
        rcases div_eq_zero_iff.mp h0 with h | h
        · exact_mod_cast h
        · exact absurd h hnq.ne'
      refine ⟨cols.symm, fun i => ?_⟩
      unfold numMissedK at this
      rw [Finset.card_eq_zero, Finset.filter_eq_empty_iff] at this
      have := this (Finset.mem_univ i)
      push Not at this
      rw [this, c57_best_map_k_relabels]
    · rintro ⟨σ, hσ⟩
      have := hmin σ
      have e : (Finset.univ.filter fun i => t i ≠ σ (p i)).card = 0 := by
        rw [Finset.card_eq_zero, Finset.filter_eq_empty_iff]
        intro i _; simpa using hσ i
      rw [e] at this
      have : numMissedK cols t p = 0 := by omega
      simp [errorK, this]

/-- **C57** renaming the predicted clusters (or the true ones) does not change the clustering error. -/
theorem c57_error_invariant {n k : ℕ} [NeZero k] (hn : 0 < n) (t p : Fin n → Fin k) (τ ρ : Equiv.Perm (Fin k)) (cols cols' : Equiv.Perm (Fin k))
    (h : IsAssignment (confusion t p) cols) (h' : IsAssignment (confusion (fun i => ρ (t i)) (fun i => τ (p i))) cols') :
    errorK cols' (fun i => ρ (t i)) (fun i => τ (p i)) = errorK cols t p := by
  have a := (c57_error_range hn t p cols h).2.2.1
  have b := (c57_error_range hn _ _ cols' h').2.2.1
  have e : ∀ (cols : Equiv.Perm (Fin k)) (t p : Fin n → Fin k), errorK cols t p = ((Finset.univ.filter fun i => t i ≠ cols.symm (p i)).card : ℚ) / n := by
    intro cols t p
    simp only [errorK, numMissedK, c57_best_map_k_relabels]
  apply le_antisymm
  · refine (b (τ.symm.trans (cols.symm.trans ρ))).trans ?_
    rw [e cols t p]
    simp
  · refine (a (τ.trans (cols'.symm.trans ρ.symm))).trans ?_
    rw [e cols' _ _]
    refine le_of_eq ?_
    have hs : (Finset.univ.filter fun i => t i ≠ (τ.trans (cols'.symm.trans ρ.symm)) (p i)) = Finset.univ.filter fun i => ρ (t i) ≠ cols'.symm (τ (p i)) := by
      refine Finset.filter_congr fun i _ => ?_
      simp only [Equiv.trans_apply, ne_eq, Equiv.eq_symm_apply]
    rw [hs]

/-- `linear_sum_assignment` always has a solution. -/
theorem exists_assignment {k : ℕ} (G : Fin k → Fin k → ℕ) : ∃ cols : Equiv.Perm (Fin k), IsAssignment G cols := by
  obtain ⟨c, -, hc⟩ := Finset.exists_max_image (Finset.univ : Finset (Equiv.Perm (Fin k))) (fun σ => ∑ i, G i (σ i)) ⟨1, Finset.mem_univ _⟩
  exact ⟨c, fun σ => hc σ (Finset.mem_univ _)⟩

theorem unique_nodup (l : List ℕ) : (uniqueLabels l).Nodup := (List.mergeSort_perm _ _).nodup_iff.mpr (List.nodup_dedup l)

theorem mem_unique (l : List ℕ) (a : ℕ) : a ∈ uniqueLabels l ↔ a ∈ l := by
  rw [uniqueLabels, (List.mergeSort_perm _ _).mem_iff, List.mem_dedup]

theorem getD_inj {l : List ℕ} (h : l.Nodup) {i j : ℕ} (hi : i < l.length) (hj : j < l.length) (e : l.getD i 0 = l.getD j 0) : i = j := by
  simp only [List.getD_eq_getElem?_getD, List.getElem?_eq_getElem hi, List.getElem?_eq_getElem hj, Option.getD_some] at e
  exact (List.Nodup.getElem_inj_iff h).mp e

/-- Points matched by a renaming `f` that sends the predicted label number `σ i` to the true label number `i`. -/
theorem match_count (u1 u2 : List ℕ) (m : ℕ) (h2 : u2.length = m) (n2 : u2.Nodup) (σ f : ℕ → ℕ) (hσ : Set.BijOn σ (Set.Iio m) (Set.Iio m))
    (hf : ∀ i, i < m → f (u2.getD (σ i) 0) = u1.getD i 0) : ∀ L : List (ℕ × ℕ), (∀ ab ∈ L, ab.2 ∈ u2) →
    L.countP (fun ab => ab.1 == f ab.2) = ∑ i ∈ Finset.range m, L.countP fun ab => ab.1 == u1.getD i 0 && ab.2 == u2.getD (σ i) 0
  | [], _ => by simp
  | (a, b) :: L, h => by
    simp only [List.countP_cons, Finset.sum_add_distrib]
    rw [match_count u1 u2 m h2 n2 σ f hσ hf L fun ab hab => h ab (List.mem_cons_of_mem _ hab)]
    congr 1
    obtain ⟨j, hj, hjb⟩ := List.mem_iff_getElem.mp (h (a, b) List.mem_cons_self)
    have hjb' : u2.getD j 0 = b := by simp [List.getD_eq_getElem?_getD, hj, hjb]
    obtain ⟨i0, hi0, hij⟩ := hσ.2.2 (show j ∈ Set.Iio m by simpa [h2] using hj)
    have hi0' : i0 < m := hi0
    rw [Finset.sum_eq_single i0]
    · have e := hf i0 hi0'
      rw [hij, hjb'] at e
      simp only [hij, hjb', beq_self_eq_true, Bool.and_true, e]
    · intro i hi hne
      have hi' : i < m := Finset.mem_range.mp hi
      have hsi : σ i < m := hσ.1 (show i ∈ Set.Iio m from hi')
      have : b ≠ u2.getD (σ i) 0 := by
        intro hb
        rw [← hjb', ← hij] at hb
        have := getD_inj n2 (by rw [h2, hij, ← h2]; exact hj) (by rw [h2]; exact hsi) hb
        exact hne (hσ.2.1 hi0 (show i ∈ Set.Iio m from hi') this).symm
      have hb : (b == u2.getD (σ i) 0) = false := by simpa only [beq_eq_false_iff_ne] using this
      simp only [hb, Bool.and_false, Bool.false_eq_true, if_false]
    · intro hn; exact absurd (Finset.mem_range.mpr hi0') hn

theorem bestMapOne_eq (u1 u2 : List ℕ) (m : ℕ) (h1 : u1.length = m) (h2 : u2.length = m) (n2 : u2.Nodup) (cols : ℕ → ℕ) (hc : Set.BijOn cols (Set.Iio m) (Set.Iio m)) (i : ℕ) (hi : i < m) :
    ∀ (l : List ℕ) (cur : ℕ), (∀ a ∈ l, a < m) → (i ∈ l ∨ cur = u1.getD i 0) → bestMapOne u1 u2 cols (u2.getD (cols i) 0) l cur = u1.getD i 0
  | [], cur, _, h => by
    rcases h with h | h
    · simp at h
    · exact h
  | a :: l, cur, hl, h => by
    simp only [bestMapOne]
    have ha : a < m := hl a List.mem_cons_self
    have hca : cols a < m := hc.1 (show a ∈ Set.Iio m from ha)
    have hci : cols i < m := hc.1 (show i ∈ Set.Iio m from hi)
    have e1 : clampGet u2 (cols a) = u2.getD (cols a) 0 := by unfold clampGet; rw [h2, Nat.min_eq_left (by omega)]
    have e2 : clampGet u1 a = u1.getD a 0 := by unfold clampGet; rw [h1, Nat.min_eq_left (by omega)]
    rw [e1, e2]
    by_cases hai : a = i
    · rw [hai, if_pos rfl]
      exact bestMapOne_eq u1 u2 m h1 h2 n2 cols hc i hi l _ (fun b hb => hl b (List.mem_cons_of_mem _ hb)) (.inr rfl)
    · have hne : ¬ u2.getD (cols i) 0 = u2.getD (cols a) 0 := fun hh =>
        hai (hc.2.1 (show i ∈ Set.Iio m from hi) (show a ∈ Set.Iio m from ha) (getD_inj n2 (by omega) (by omega) hh)).symm
      rw [if_neg hne]
      refine bestMapOne_eq u1 u2 m h1 h2 n2 cols hc i hi l _ (fun b hb => hl b (List.mem_cons_of_mem _ hb)) ?_
      rcases h with h | h
      · exact .inl ((List.mem_cons.mp h).resolve_left fun e => hai e.symm)
      · exact .inr h

/-- **C57** `best_map` when both labellings use the same number `m` of labels: the predicted label number `cols[i]` becomes the true label number `i`, and no other one-to-one renaming (`f`, pairing the label
positions by `σ`) agrees with the true labels on more points. -/
theorem c57_best_map_partial (t p : List ℕ) (hlen : t.length = p.length) (m : ℕ) (h1 : (uniqueLabels t).length = m) (h2 : (uniqueLabels p).length = m) (cols : ℕ → ℕ)
    (hc : IsAssignmentN m (bestMapG t p) cols) (σ f : ℕ → ℕ) (hσ : Set.BijOn σ (Set.Iio m) (Set.Iio m))
    (hf : ∀ i, i < m → f ((uniqueLabels p).getD (σ i) 0) = (uniqueLabels t).getD i 0) :
    (t.zip (p.map f)).countP (fun ab => ab.1 == ab.2) ≤ (t.zip (bestMap t p cols)).countP (fun ab => ab.1 == ab.2) := by
  have hmem : ∀ ab ∈ t.zip p, ab.2 ∈ uniqueLabels p := by
    intro ab hab
    rw [mem_unique]
    exact (List.of_mem_zip (show (ab.1, ab.2) ∈ t.zip p from hab)).2
  set g : ℕ → ℕ := fun q => bestMapOne (uniqueLabels t) (uniqueLabels p) cols q (List.range (uniqueLabels p).length) 0 with hg
  have hgf : ∀ i, i < m → g ((uniqueLabels p).getD (cols i) 0) = (uniqueLabels t).getD i 0 := by
    intro i hi
    exact bestMapOne_eq _ _ m h1 h2 (unique_nodup p) cols hc.1 i hi _ _ (fun a ha => by rw [h2] at ha; simpa using ha) (.inl (by rw [h2]; simpa using hi))
  have hcount : ∀ f : ℕ → ℕ, (t.zip (p.map f)).countP (fun ab => ab.1 == ab.2) = (t.zip p).countP fun ab => ab.1 == f ab.2 := by
    intro f
    rw [List.zip_map_right, List.countP_map]
    rfl
  have hG : ∀ (τ : ℕ → ℕ), Set.BijOn τ (Set.Iio m) (Set.Iio m) → ∑ i ∈ Finset.range m, bestMapG t p i (τ i) =
      ∑ i ∈ Finset.range m, (t.zip p).countP fun ab => ab.1 == (uniqueLabels t).getD i 0 && ab.2 == (uniqueLabels p).getD (τ i) 0 := by
    intro τ hτ
    refine Finset.sum_congr rfl fun i hi => ?_
    have hi' := Finset.mem_range.mp hi
    have : τ i < m := hτ.1 (show i ∈ Set.Iio m from hi')
    rw [bestMapG, if_pos ⟨by omega, by omega⟩]
  have hb : bestMap t p cols = p.map g := rfl
  rw [hb, hcount, hcount, match_count (uniqueLabels t) (uniqueLabels p) m h2 (unique_nodup p) σ f hσ hf _ hmem,
    match_count (uniqueLabels t) (uniqueLabels p) m h2 (unique_nodup p) cols g hc.1 hgf _ hmem, ← hG σ hσ, ← hG cols hc.1]
  exact hc.2 σ hσ

/-- **C57 fails** for `best_map` when the numbers of labels differ: for true labels `[0,0,1,2]` and predicted labels `[1,1,0,0]` the last row of the
assignment is never used and an index beyond the last predicted label is clamped. With the optimal assignment `0 ↦ 1, 1 ↦ 2, 2 ↦ 0` (which matches 3 points) the mapped labels are `[1,1,0,0]`, which agree with the
truth nowhere. -/
theorem c57_best_map_fails :
    IsAssignmentN 3 (bestMapG [0, 0, 1, 2] [1, 1, 0, 0]) (fun i => if i = 0 then 1 else if i = 1 then 2 else 0) ∧
    (∑ i ∈ Finset.range 3, bestMapG [0, 0, 1, 2] [1, 1, 0, 0] i (if i = 0 then 1 else if i = 1 then 2 else 0)) = 3 ∧
    bestMap [0, 0, 1, 2] [1, 1, 0, 0] (fun i => if i = 0 then 1 else if i = 1 then 2 else 0) = [1, 1, 0, 0] := by
  have u1 : uniqueLabels [0, 0, 1, 2] = [0, 1, 2] := by simp [uniqueLabels, List.mergeSort, List.MergeSort.Internal.splitInTwo]
  have u2 : uniqueLabels [1, 1, 0, 0] = [0, 1] := by simp [uniqueLabels, List.mergeSort, List.MergeSort.Internal.splitInTwo]
  have hm : bestMap [0, 0, 1, 2] [1, 1, 0, 0] (fun i => if i = 0 then 1 else if i = 1 then 2 else 0) = [1, 1, 0, 0] := by
    simp [bestMap, u1, u2, List.range_succ, bestMapOne, clampGet]
  refine ⟨⟨?_, ?_⟩, ?_, hm⟩
  · refine ⟨fun i hi => ?_, fun i hi j hj => ?_, fun i hi => ?_⟩
    · simp at hi ⊢; split_ifs <;> omega
    · simp only [Set.mem_Iio] at hi hj
      interval_cases i <;> interval_cases j <;> simp
    · simp at hi
      have : i = 0 ∨ i = 1 ∨ i = 2 := by omega
      rcases this with rfl | rfl | rfl
      · exact ⟨2, by simp, by simp⟩
      · exact ⟨0, by simp, by simp⟩
      · exact ⟨1, by simp, by simp⟩
  · intro σ hσ
    have m0 : σ 0 < 3 := hσ.1 (by simp : (0 : ℕ) ∈ Set.Iio 3)
    have m1 : σ 1 < 3 := hσ.1 (by simp : (1 : ℕ) ∈ Set.Iio 3)
    have m2 : σ 2 < 3 := hσ.1 (by simp : (2 : ℕ) ∈ Set.Iio 3)
    have i01 : σ 0 ≠ σ 1 := fun h => absurd (hσ.2.1 (by simp : (0 : ℕ) ∈ Set.Iio 3) (by simp : (1 : ℕ) ∈ Set.Iio 3) h) (by norm_num)
    have i02 : σ 0 ≠ σ 2 := fun h => absurd (hσ.2.1 (by simp : (0 : ℕ) ∈ Set.Iio 3) (by simp : (2 : ℕ) ∈ Set.Iio 3) h) (by norm_num)
    have i12 : σ 1 ≠ σ 2 := fun h => absurd (hσ.2.1 (by simp : (1 : ℕ) ∈ Set.Iio 3) (by simp : (2 : ℕ) ∈ Set.Iio 3) h) (by norm_num)
    simp only [Finset.sum_range_succ, Finset.sum_range_zero, bestMapG, u1, u2]
    generalize σ 0 = a at *
    generalize σ 1 = b at *
    generalize σ 2 = c at *
    interval_cases a <;> interval_cases b <;> interval_cases c <;> simp_all
  · simp [Finset.sum_range_succ, bestMapG, u1, u2]

example := c55_start_end [2, 0, 3] [0, 0, 2, 2, 2] rfl 2 (by decide) 3

example := c57_best_map_k_relabels (k := 3) (Equiv.swap 0 2) ![0, 0, 1, 2] 3

/-- The swap of 0 and 1 is an optimal assignment for the labellings `0 0 1 2` and `1 1 0 2`. -/
theorem ex_assignment : IsAssignment (confusion (k := 3) ![0, 0, 1, 2] ![1, 1, 0, 2]) (Equiv.swap 0 1) := by
  unfold IsAssignment
  decide

example (σ : Equiv.Perm (Fin 3)) := c57_best_map_k_optimal _ _ _ ex_assignment σ

example := c57_error_range (by norm_num) _ _ _ ex_assignment

example := c57_error_invariant (by norm_num) ![0, 0, 1, 2] ![1, 1, 0, 2] (Equiv.swap 0 1) 1 _ 1 ex_assignment (by
  unfold IsAssignment
  decide)

/-- `best_map` on the labels `5 5 7` and `0 0 1`. -/
example (σ f : ℕ → ℕ) (hσ : Set.BijOn σ (Set.Iio 2) (Set.Iio 2)) (hf : ∀ i, i < 2 → f ((uniqueLabels [0, 0, 1]).getD (σ i) 0) = (uniqueLabels [5, 5, 7]).getD i 0) := by
  have ht : uniqueLabels [5, 5, 7] = [5, 7] := by
    rw [uniqueLabels, List.mergeSort_of_pairwise] <;> decide
  have hp : uniqueLabels [0, 0, 1] = [0, 1] := by
    rw [uniqueLabels, List.mergeSort_of_pairwise] <;> decide
  refine c57_best_map_partial [5, 5, 7] [0, 0, 1] rfl 2 (by rw [ht]; rfl) (by rw [hp]; rfl) id ⟨Set.bijOn_id _, fun σ hσ => ?_⟩ σ f hσ hf
  have h0 : σ 0 < 2 := hσ.1 (show (0 : ℕ) ∈ Set.Iio 2 by simp)
  have h1 : σ 1 < 2 := hσ.1 (show (1 : ℕ) ∈ Set.Iio 2 by simp)
  simp only [bestMapG, ht, hp, Finset.sum_range_succ, Finset.range_zero, Finset.sum_empty, id]
  generalize σ 0 = a at h0 ⊢
  generalize σ 1 = b at h1 ⊢
  revert a b
  decide

end Verif.Cluster
