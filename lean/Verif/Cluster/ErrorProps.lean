import Verif.Cluster.LabelsProps
import Mathlib.Algebra.Order.Field.Rat
import Mathlib.Data.List.GetD
import Mathlib.Order.Nat
import Mathlib.Order.ConditionallyCompleteLattice.Basic
import Mathlib.Order.Lattice.Nat

set_option autoImplicit false

/-!
# C150: `clustering_error`

`cluster/util.py:142-152`.
-/
namespace Verif.Cluster

/-- `num_missed` of `clustering_error(true_labels, pred_labels)` (cluster/util.py:142-152); `cols` is the assignment of `best_map`. -/
def numMissed (t p : List ℕ) (cols : ℕ → ℕ) : ℕ := (t.zip (bestMap t p cols)).countP fun ab => ab.1 != ab.2

/-- `error` of `clustering_error(true_labels, pred_labels)` (cluster/util.py:142-152). -/
def clusteringError (t p : List ℕ) (cols : ℕ → ℕ) : ℚ := (numMissed t p cols : ℚ) / t.length

/-- `error_perc` of `clustering_error(true_labels, pred_labels)` (cluster/util.py:142-152). -/
def clusteringErrorPerc (t p : List ℕ) (cols : ℕ → ℕ) : ℚ := clusteringError t p cols * 100

/-- `f` renames the labels of `p` one-to-one as the labels of `t`. -/
def Renames (t p : List ℕ) (f : ℕ → ℕ) : Prop := Set.BijOn f {q | q ∈ p} {a | a ∈ t}

/-- The fraction of points at which `t` and `q` differ. -/
def disagreement (t q : List ℕ) : ℚ := ((t.zip q).countP fun ab => ab.1 != ab.2 : ℕ) / (t.length : ℚ)

/-- Two points have the same label in `t` exactly when they have the same label in `p`. -/
def SamePartition (t p : List ℕ) : Prop := ∀ i j, i < t.length → j < t.length → (t.getD i 0 = t.getD j 0 ↔ p.getD i 0 = p.getD j 0)

theorem getD_mem {l : List ℕ} {i : ℕ} (h : i < l.length) : l.getD i 0 ∈ l := by
  rw [List.getD_eq_getElem _ _ h]; exact List.getElem_mem h

theorem mem_getD {l : List ℕ} {a : ℕ} (h : a ∈ l) : ∃ i, i < l.length ∧ l.getD i 0 = a := by
  obtain ⟨i, hi, e⟩ := List.mem_iff_getElem.mp h
  exact ⟨i, hi, by rw [List.getD_eq_getElem _ _ hi]; exact e⟩

/-- A renaming pairs the positions of the sorted labels. -/
theorem renames_sigma (t p : List ℕ) (m : ℕ) (h1 : (uniqueLabels t).length = m) (h2 : (uniqueLabels p).length = m) (f : ℕ → ℕ) (hf : Renames t p f) :
    ∃ σ : ℕ → ℕ, Set.BijOn σ (Set.Iio m) (Set.Iio m) ∧ ∀ i, i < m → f ((uniqueLabels p).getD (σ i) 0) = (uniqueLabels t).getD i 0 := by
  have hex : ∀ i, ∃ j, i < m → j < m ∧ f ((uniqueLabels p).getD j 0) = (uniqueLabels t).getD i 0 := by
    intro i
    by_cases hi : i < m
    · have hmem : (uniqueLabels t).getD i 0 ∈ t := (mem_unique t _).mp (getD_mem (by omega))
      obtain ⟨q, hq, hqf⟩ := hf.2.2 hmem
      obtain ⟨j, hj, hjq⟩ := mem_getD ((mem_unique p q).mpr hq)
      exact ⟨j, fun _ => ⟨by omega, by rw [hjq]; exact hqf⟩⟩
    · exact ⟨0, fun h => absurd h hi⟩
  choose σ hσ using hex
  have hmaps : Set.MapsTo σ (Set.Iio m) (Set.Iio m) := fun i hi => (hσ i hi).1
  have hinj : Set.InjOn σ (Set.Iio m) := by
    intro i hi j hj e
    have a := (hσ i hi).2
    have b := (hσ j hj).2
    rw [e, b] at a
    have hi' : i < m := hi
    have hj' : j < m := hj
    exact (getD_inj (unique_nodup t) (by omega) (by omega) a).symm
  refine ⟨σ, ⟨hmaps, hinj, ?_⟩, fun i hi => (hσ i hi).2⟩
  have := Finset.surjOn_of_injOn_of_card_le (s := Finset.range m) (t := Finset.range m) σ (fun i hi => by simpa using hmaps (by simpa using hi))
    (by simpa using hinj) le_rfl
  simpa using this

/-- Conversely a pairing of positions is a renaming. -/
theorem sigma_renames (t p : List ℕ) (m : ℕ) (h1 : (uniqueLabels t).length = m) (h2 : (uniqueLabels p).length = m) (f σ : ℕ → ℕ)
    (hσ : Set.BijOn σ (Set.Iio m) (Set.Iio m)) (hf : ∀ i, i < m → f ((uniqueLabels p).getD (σ i) 0) = (uniqueLabels t).getD i 0) : Renames t p f := by
  have key : ∀ q, q ∈ p → ∃ i, i < m ∧ (uniqueLabels p).getD (σ i) 0 = q := by
    intro q hq
    obtain ⟨j, hj, e⟩ := mem_getD ((mem_unique p q).mpr hq)
    obtain ⟨i, hi, ei⟩ := hσ.2.2 (show j ∈ Set.Iio m by show j < m; omega)
    exact ⟨i, hi, by rw [ei, e]⟩
  refine ⟨fun q hq => ?_, fun q hq r hr e => ?_, fun a ha => ?_⟩
  · obtain ⟨i, hi, rfl⟩ := key q hq
    rw [hf i hi]
    exact (mem_unique t _).mp (getD_mem (by omega))
  · obtain ⟨i, hi, rfl⟩ := key q hq
    obtain ⟨j, hj, rfl⟩ := key r hr
    rw [hf i hi, hf j hj] at e
    rw [getD_inj (unique_nodup t) (by omega) (by omega) e]
  · obtain ⟨i, hi, e⟩ := mem_getD ((mem_unique t a).mpr ha)
    have hi' : i < m := by omega
    refine ⟨(uniqueLabels p).getD (σ i) 0, (mem_unique p _).mp (getD_mem ?_), by rw [hf i hi', e]⟩
    have : σ i < m := hσ.1 hi'
    omega

theorem unique_length (l : List ℕ) : (uniqueLabels l).length = l.toFinset.card := by
  rw [uniqueLabels, List.length_mergeSort, List.card_toFinset]

theorem missed_add (t q : List ℕ) (h : t.length = q.length) :
    (t.zip q).countP (fun ab => ab.1 != ab.2) + (t.zip q).countP (fun ab => ab.1 == ab.2) = t.length := by
  have := List.length_eq_countP_add_countP (l := t.zip q) (fun ab => ab.1 == ab.2)
  rw [List.length_zip, ← h, min_self] at this
  have e : (t.zip q).countP (fun ab => ab.1 != ab.2) = (t.zip q).countP (fun ab => decide ¬ ((ab.1 == ab.2) = true)) := by
    congr 1; funext ab; by_cases h : ab.1 = ab.2 <;> simp [h]
  omega

theorem countP_zip_ne_zero (t q : List ℕ) (h : t.length = q.length) : (t.zip q).countP (fun ab => ab.1 != ab.2) = 0 ↔ t = q := by
  induction t generalizing q with
  | nil => cases q <;> simp_all
  | cons a t ih =>
    cases q with
    | nil => simp at h
    | cons b q =>
      have h' : t.length = q.length := by simpa using h
      simp only [List.zip_cons_cons, List.countP_cons]
      by_cases hab : a = b
      · simp [hab, ih q h']
      · simp [hab]

/-- **C150** (part) When both labellings use the same number of labels: `error` lies between 0 and 1, no one-to-one renaming of the predicted labels as
the true labels disagrees with the truth on a smaller fraction of the points, and some renaming disagrees on exactly that fraction. So it does not
depend on which optimal assignment was found. It is zero exactly if both labellings divide the points into the same groups. Missing: labellings
with different numbers of labels, see `c150_error_fails`. -/
theorem c150_error_partial (t p : List ℕ) (hlen : t.length = p.length) (hne : t ≠ []) (hcard : t.toFinset.card = p.toFinset.card) (cols : ℕ → ℕ)
    (hc : IsAssignmentN t.toFinset.card (bestMapG t p) cols) :
    (0 ≤ clusteringError t p cols ∧ clusteringError t p cols ≤ 1) ∧
    (∀ f, Renames t p f → clusteringError t p cols ≤ disagreement t (p.map f)) ∧
    (∃ f, Renames t p f ∧ clusteringError t p cols = disagreement t (p.map f)) ∧
    (clusteringError t p cols = 0 ↔ SamePartition t p) := by
  set m := t.toFinset.card with hm
  have h1 : (uniqueLabels t).length = m := unique_length t
  have h2 : (uniqueLabels p).length = m := by rw [unique_length, hcard]
  have hpos : (0 : ℚ) < t.length := by exact_mod_cast List.length_pos_of_ne_nil hne
  have hbl : t.length = (bestMap t p cols).length := by rw [bestMap, List.length_map]; exact hlen
  have hsum := missed_add t (bestMap t p cols) hbl
  have hopt : ∀ f, Renames t p f → numMissed t p cols ≤ (t.zip (p.map f)).countP fun ab => ab.1 != ab.2 := by
    intro f hf
    obtain ⟨σ, hσ, hfσ⟩ := renames_sigma t p m h1 h2 f hf
    have a := c57_best_map_partial t p hlen m h1 h2 cols hc σ f hσ hfσ
    have b := missed_add t (p.map f) (by rw [List.length_map]; exact hlen)
    unfold numMissed
    omega
  have hopt' : ∀ f, Renames t p f → clusteringError t p cols ≤ disagreement t (p.map f) := by
    intro f hf
    unfold clusteringError disagreement
    exact div_le_div_of_nonneg_right (by exact_mod_cast hopt f hf) hpos.le
  set g : ℕ → ℕ := fun q => bestMapOne (uniqueLabels t) (uniqueLabels p) cols q (List.range (uniqueLabels p).length) 0 with hg
  have hgr : Renames t p g := by
    refine sigma_renames t p m h1 h2 g cols hc.1 fun i hi => ?_
    exact bestMapOne_eq _ _ m h1 h2 (unique_nodup p) cols hc.1 i hi _ _ (fun a ha => by rw [h2] at ha; simpa using ha) (.inl (by rw [h2]; simpa using hi))
  have hge : clusteringError t p cols = disagreement t (p.map g) := rfl
  refine ⟨⟨by unfold clusteringError; positivity, ?_⟩, hopt', ⟨g, hgr, hge⟩, ?_⟩
  · unfold clusteringError
    rw [div_le_one hpos]
    have : numMissed t p cols ≤ t.length := by unfold numMissed; omega
    exact_mod_cast this
  have hzero : clusteringError t p cols = 0 ↔ numMissed t p cols = 0 := by
    unfold clusteringError
    rw [div_eq_zero_iff]
    constructor
    · rintro (h | h)
      · exact_mod_cast h
      · exact absurd h hpos.ne'
    · intro h; left; exact_mod_cast h
  have hpm : ∀ (f : ℕ → ℕ) i, i < t.length → (p.map f).getD i 0 = f (p.getD i 0) := by
    intro f i hi
    have hi' : i < p.length := by omega
    simp [List.getD_eq_getElem?_getD, hi']
  rw [hzero]
  constructor
  · intro h0 i j hi hj
    have e : t = p.map g := (countP_zip_ne_zero t _ hbl).mp h0
    have ei : t.getD i 0 = g (p.getD i 0) := by conv_lhs => rw [e]
                                                exact hpm g i hi
    have ej : t.getD j 0 = g (p.getD j 0) := by conv_lhs => rw [e]
                                                exact hpm g j hj
    rw [ei, ej]
    exact ⟨fun h => hgr.2.1 (getD_mem (by omega)) (getD_mem (by omega)) h, fun h => by rw [h]⟩
  · intro hs
    have hex : ∀ q, ∃ a, ∀ i, i < t.length → p.getD i 0 = q → t.getD i 0 = a := by
      intro q
      by_cases hq : ∃ i, i < t.length ∧ p.getD i 0 = q
      · obtain ⟨i, hi, e⟩ := hq
        exact ⟨t.getD i 0, fun j hj ej => (hs j i hj hi).mpr (by rw [ej, e])⟩
      · exact ⟨0, fun i hi e => absurd ⟨i, hi, e⟩ hq⟩
    choose f hf using hex
    have hfi : ∀ i, i < t.length → f (p.getD i 0) = t.getD i 0 := fun i hi => (hf _ i hi rfl).symm
    have htp : t = p.map f := by
      apply List.ext_getElem (by rw [List.length_map]; exact hlen)
      intro i hi hi'
      have hi2 : i < p.length := by omega
      have := hfi i hi
      rw [List.getD_eq_getElem _ _ hi, List.getD_eq_getElem _ _ hi2] at this
      rw [List.getElem_map]; exact this.symm
    have hr : Renames t p f := by
      refine ⟨fun q hq => ?_, fun q hq r hr e => ?_, fun a ha => ?_⟩
      · obtain ⟨i, hi, rfl⟩ := mem_getD hq
        rw [hfi i (by omega)]; exact getD_mem (by omega)
      · obtain ⟨i, hi, rfl⟩ := mem_getD hq
        obtain ⟨j, hj, rfl⟩ := mem_getD hr
        rw [hfi i (by omega), hfi j (by omega)] at e
        exact (hs i j (by omega) (by omega)).mp e
      · obtain ⟨i, hi, rfl⟩ := mem_getD ha
        exact ⟨p.getD i 0, getD_mem (by omega), hfi i hi⟩
    have := hopt f hr
    rw [(countP_zip_ne_zero t (p.map f) (by rw [List.length_map]; exact hlen)).mpr htp] at this
    omega

/-- **C150** Always: the error is between 0 and 1 and the percentage between 0 and 100. -/
theorem c150_range (t p : List ℕ) (hlen : t.length = p.length) (hne : t ≠ []) (cols : ℕ → ℕ) :
    0 ≤ clusteringError t p cols ∧ clusteringError t p cols ≤ 1 ∧ clusteringErrorPerc t p cols = 100 * clusteringError t p cols := by
  have hpos : (0 : ℚ) < t.length := by exact_mod_cast List.length_pos_of_ne_nil hne
  have hsum := missed_add t (bestMap t p cols) (by rw [bestMap, List.length_map]; exact hlen)
  refine ⟨by unfold clusteringError; positivity, ?_, mul_comm _ _⟩
  unfold clusteringError
  rw [div_le_one hpos]
  have : numMissed t p cols ≤ t.length := by unfold numMissed; omega
  exact_mod_cast this

/-- **C150 fails** when the numbers of labels differ: for the true labels `0 0 1 2` and the predicted labels `1 1 0 0` the optimal assignment matches three of
the four points, but the reported error is 1. -/
theorem c150_error_fails : ∃ (t p : List ℕ) (cols : ℕ → ℕ), t.length = p.length ∧ t.length = 4 ∧ IsAssignmentN 3 (bestMapG t p) cols ∧
    (∑ i ∈ Finset.range 3, bestMapG t p i (cols i)) = 3 ∧ clusteringError t p cols = 1 := by
  obtain ⟨h1, h2, h3⟩ := c57_best_map_fails
  refine ⟨[0, 0, 1, 2], [1, 1, 0, 0], _, rfl, rfl, h1, h2, ?_⟩
  rw [clusteringError, numMissed, h3]
  norm_num

/-- The assignment problem of a square matrix has a solution, so the hypothesis of `c150_error_partial` can always be met. -/
theorem exists_assignmentN (m : ℕ) (G : ℕ → ℕ → ℕ) : ∃ cols, IsAssignmentN m G cols := by
  let S : Set ℕ := {v | ∃ σ : ℕ → ℕ, Set.BijOn σ (Set.Iio m) (Set.Iio m) ∧ ∑ i ∈ Finset.range m, G i (σ i) = v}
  have hb : BddAbove S := by
    refine ⟨∑ i ∈ Finset.range m, ∑ j ∈ Finset.range m, G i j, ?_⟩
    rintro v ⟨σ, hσ, rfl⟩
    refine Finset.sum_le_sum fun i hi => ?_
    have : σ i < m := hσ.1 (show i ∈ Set.Iio m from Finset.mem_range.mp hi)
    exact Finset.single_le_sum (f := fun j => G i j) (fun _ _ => Nat.zero_le _) (Finset.mem_range.mpr this)
  obtain ⟨cols, hc, e⟩ := Nat.sSup_mem (s := S) ⟨_, id, Set.bijOn_id _, rfl⟩ hb
  exact ⟨cols, hc, fun σ hσ => by rw [e]; exact le_csSup hb ⟨σ, hσ, rfl⟩⟩

example : ∃ cols, clusteringError [5, 5, 7, 9] [0, 0, 1, 2] cols = 0 := by
  obtain ⟨cols, hc⟩ := exists_assignmentN ([5, 5, 7, 9] : List ℕ).toFinset.card (bestMapG [5, 5, 7, 9] [0, 0, 1, 2])
  refine ⟨cols, (c150_error_partial [5, 5, 7, 9] [0, 0, 1, 2] rfl (by simp) (by decide) cols hc).2.2.2.mpr ?_⟩
  intro i j hi hj
  have hi' : i < 4 := hi
  have hj' : j < 4 := hj
  interval_cases i <;> interval_cases j <;> decide

example := c150_range [0, 0, 1, 2] [1, 1, 0, 0] rfl (by simp) id

end Verif.Cluster
