import Verif.Cluster.AnglesModel
import Verif.Cluster.LabelsProps
import Verif.Pursuit.UtilProps
import Mathlib.Geometry.Euclidean.Angle.Unoriented.Basic
import Mathlib.Data.List.GetD

set_option autoImplicit false
/-!
# Angles between points, and nearest neighbours inside and outside clusters (C92)
-/
noncomputable section
namespace Verif.Cluster
open Verif.Pursuit
open scoped RealInnerProductSpace

variable {E : Type*} [NormedAddCommGroup E] [InnerProductSpace ℝ E]

/-- **C92** (angles): for nonzero points the entries are the angles between the points in degrees: symmetric, zero on the diagonal, in `[0, 180]`. -/
theorem c92_angles (X : ℕ → E) (i j : ℕ) (hi : X i ≠ 0) (_hj : X j ≠ 0) :
    anglesBetweenPoints X i j = InnerProductGeometry.angle (X i) (X j) * 180 / Real.pi ∧
    anglesBetweenPoints X i j = anglesBetweenPoints X j i ∧ 0 ≤ anglesBetweenPoints X i j ∧ anglesBetweenPoints X i j ≤ 180 ∧
    anglesBetweenPoints X i i = 0 := by
  have hn : ∀ i j, ⟪normalizeCw X i, normalizeCw X j⟫ = ⟪X i, X j⟫ / (‖X i‖ * ‖X j‖) := by
    intro i j
    rw [normalizeCw, normalizeCw, real_inner_smul_left, real_inner_smul_right]
    rw [div_eq_mul_inv, mul_inv]; ring
  have hm : ∀ i j, min ⟪normalizeCw X i, normalizeCw X j⟫ 1 = ⟪X i, X j⟫ / (‖X i‖ * ‖X j‖) := by
    intro i j
    rw [hn]
    exact min_eq_left (abs_le.mp (abs_real_inner_div_norm_mul_norm_le_one _ _)).2
  have hp := Real.pi_pos
  have ha : ∀ i j, anglesBetweenPoints X i j = InnerProductGeometry.angle (X i) (X j) * 180 / Real.pi := by
    intro i j
    rw [anglesBetweenPoints, hm, InnerProductGeometry.angle]; ring
  refine ⟨ha i j, ?_, ?_, ?_, ?_⟩
  · rw [ha, ha, InnerProductGeometry.angle_comm]
  · rw [ha]
    exact div_nonneg (mul_nonneg (InnerProductGeometry.angle_nonneg _ _) (by norm_num)) hp.le
  · rw [ha, div_le_iff₀ hp]
    nlinarith [InnerProductGeometry.angle_le_pi (X i) (X j)]
  · rw [ha, InnerProductGeometry.angle_self hi]; simp

/-! ## Lemmas -/

theorem listMin_spec (l : List ℝ) (hl : l ≠ []) : listMin l ∈ l ∧ ∀ x ∈ l, listMin l ≤ x := by
  cases l with
  | nil => exact absurd rfl hl
  | cons a l =>
    have key : ∀ (l : List ℝ) (a : ℝ), (l.foldl min a = a ∨ l.foldl min a ∈ l) ∧ l.foldl min a ≤ a ∧ ∀ x ∈ l, l.foldl min a ≤ x := by
      intro l
      induction l with
      | nil => intro a; simp
      | cons b l ih =>
        intro a
        obtain ⟨h1, h2, h3⟩ := ih (min a b)
        simp only [List.foldl_cons]
        refine ⟨?_, h2.trans (min_le_left _ _), ?_⟩
        · rcases h1 with h1 | h1
          · rcases min_choice a b with h | h
            · left; rw [h1, h]
            · right; rw [h1, h]; simp
          · right; simp [h1]
        · intro x hx
          rcases List.mem_cons.mp hx with rfl | hx
          · exact h2.trans (min_le_right _ _)
          · exact h3 x hx
    obtain ⟨h1, h2, h3⟩ := key l a
    refine ⟨?_, ?_⟩
    · show l.foldl min a ∈ a :: l
      rcases h1 with h1 | h1
      · rw [h1]; simp
      · simp [h1]
    · intro x hx
      show l.foldl min a ≤ x
      rcases List.mem_cons.mp hx with rfl | hx
      · exact h2
      · exact h3 x hx

theorem argminL_spec (l : List ℝ) (hl : l ≠ []) : argminL l < l.length ∧ ∀ i < l.length, l.getD (argminL l) 0 ≤ l.getD i 0 := by
  obtain ⟨h1, h2, -⟩ := argmax_spec (l.map fun x => -x) (by simpa using hl)
  rw [List.length_map] at h1
  change argminL l < l.length at h1
  refine ⟨h1, fun i hi => ?_⟩
  have h3 := h2 (-(l.getD i 0)) (by
    rw [List.getD_eq_getElem _ _ hi]
    exact List.mem_map.mpr ⟨_, List.getElem_mem hi, rfl⟩)
  have e : (l.map fun x => -x).getD (argminL l) 0 = -(l.getD (argminL l) 0) := by
    rw [List.getD_eq_getElem _ _ (by rw [List.length_map]; exact h1), List.getD_eq_getElem _ _ h1]; simp
  have e' : (l.map fun x => -x).getD (argmax (l.map fun x => -x)) 0 = -(l.getD (argminL l) 0) := e
  rw [e'] at h3
  linarith

theorem flatten_getElem {α : Type*} : ∀ (L : List (List α)) (sizes : List ℕ), L.map List.length = sizes →
    ∀ k r, r < sizes.getD k 0 → L.flatten[(sizes.take k).sum + r]? = (L.getD k [])[r]?
  | [], sizes, h, k, r, hr => by
    simp at h; subst h; simp at hr
  | l :: L, sizes, h, k, r, hr => by
    cases sizes with
    | nil => simp at h
    | cons s ss =>
      simp only [List.map_cons, List.cons.injEq] at h
      cases k with
      | zero =>
        simp only [List.getD_cons_zero] at hr
        simp only [List.take_zero, List.sum_nil, zero_add, List.flatten_cons, List.getD_cons_zero]
        rw [List.getElem?_append_left (by omega)]
      | succ k =>
        simp only [List.getD_cons_succ] at hr
        have ih := flatten_getElem L ss h.2 k r hr
        simp only [List.take_succ_cons, List.sum_cons, List.flatten_cons, List.getD_cons_succ]
        rw [List.getElem?_append_right (by omega), ← ih]
        congr 1
        omega

theorem take_succ_sum (ss : List ℕ) (k : ℕ) : (ss.take (k + 1)).sum = (ss.take k).sum + ss.getD k 0 := by
  induction ss generalizing k with
  | nil => simp
  | cons s ss ih =>
    cases k with
    | zero => simp
    | succ k => simp only [List.take_succ_cons, List.sum_cons, List.getD_cons_succ]; rw [ih]; omega

/-- The entry of a `perCluster` array for a point of cluster `k`. -/
theorem perCluster_getElem {α : Type*} (sizes : List ℕ) (f : ℕ → ℕ → List α) (hf : ∀ s e, (f s e).length = e - s) {l : List ℕ}
    (hl : labelsFromSizes sizes = some l) {p k : ℕ} (hp : l[p]? = some k) :
    ∃ s e, s ≤ p ∧ p < e ∧ (∀ q, (s ≤ q ∧ q < e) ↔ l[q]? = some k) ∧ e ≤ l.length ∧ (perCluster sizes f)[p]? = (f s e)[p - s]? := by
  have hl0 : l = labelsFrom 0 sizes := by
    unfold labelsFromSizes at hl
    split at hl
    · cases hl
    · exact (Option.some.inj hl).symm
  have hk : k < sizes.length := by
    have hm : k ∈ labelsFrom 0 sizes := by
      rw [← hl0]
      exact List.mem_of_getElem? hp
    simpa using (labelsFrom_ge 0 sizes k hm).2
  have hse := c55_start_end sizes l hl k hk
  refine ⟨(startEndIndices sizes).1.getD k 0, (startEndIndices sizes).2.getD k 0, ((hse p).mp hp).1, ((hse p).mp hp).2, fun q => (hse q).symm, ?_, ?_⟩
  · by_contra hgt
    push Not at hgt
    have h1 := ((hse p).mp hp)
    have h2 := (hse l.length).mpr ⟨by
      have : p < l.length := (List.getElem?_eq_some_iff.mp hp).1
      omega, hgt⟩
    simp at h2
  · have hlen : ((List.range sizes.length).map fun k => f ((startEndIndices sizes).1.getD k 0) ((startEndIndices sizes).2.getD k 0)).map List.length = sizes := by
      conv_rhs => rw [← map_getD_range sizes]
      rw [List.map_map]
      refine List.map_congr_left fun c hc => ?_
      have hc := List.mem_range.mp hc
      simp only [Function.comp_apply, hf]
      rw [start_getD sizes c hc, end_getD sizes c hc, take_succ_sum]
      omega
    have hs := start_getD sizes k hk
    have he := end_getD sizes k hk
    have h1 := ((hse p).mp hp)
    rw [take_succ_sum] at he
    have := flatten_getElem _ sizes hlen k (p - (startEndIndices sizes).1.getD k 0) (by omega)
    rw [← hs, Nat.add_sub_cancel' h1.1] at this
    rw [perCluster, this]
    congr 1
    rw [List.getD_eq_getElem _ _ (by simpa using hk)]
    simp

/-! ## The theorems -/

section
variable (angles : ℕ → ℕ → ℝ) (sizes l : List ℕ) (hl : labelsFromSizes sizes = some l)
include hl

/-- **C92** (`min_angles_inside_cluster`, `nearest_neighbors_inside_cluster`): for every point `p` the reported value is the smallest angle between `p` and the other points of its cluster, and the reported index is such a
point at that angle; for a point alone in its cluster they are 10000 and `p`. -/
theorem c92_inside (hb : ∀ i j, angles i j < 10000) (p k : ℕ) (hp : l[p]? = some k) :
    ∃ v n, (minAnglesInside angles sizes)[p]? = some v ∧ (nearestInside angles sizes)[p]? = some n ∧ l[n]? = some k ∧
      (∀ q, q ≠ p → l[q]? = some k → v ≤ angles q p) ∧
      ((∃ q, q ≠ p ∧ l[q]? = some k) → n ≠ p ∧ v = angles n p) ∧ ((∀ q, l[q]? = some k → q = p) → v = 10000 ∧ n = p) := by
  obtain ⟨s, e, h1, h2, h3, h4, h5⟩ := perCluster_getElem sizes
    (fun s e => (List.range (e - s)).map fun c => listMin ((List.range (e - s)).map fun r => setDiagonal angles 10000 (s + r) (s + c))) (by simp) hl hp
  obtain ⟨s', e', h1', h2', h3', h4', h5'⟩ := perCluster_getElem sizes
    (fun s e => (List.range (e - s)).map fun c => argminL ((List.range (e - s)).map fun r => setDiagonal angles 10000 (s + r) (s + c)) + s) (by simp) hl hp
  obtain ⟨rfl, rfl⟩ : s' = s ∧ e' = e := by
    have a1 := (h3' s).mpr ((h3 s).mp ⟨le_rfl, by omega⟩)
    have a2 := (h3 s').mpr ((h3' s').mp ⟨le_rfl, by omega⟩)
    have a3 := (h3' (e - 1)).mpr ((h3 (e - 1)).mp ⟨by omega, by omega⟩)
    have a4 := (h3 (e' - 1)).mpr ((h3' (e' - 1)).mp ⟨by omega, by omega⟩)
    constructor <;> omega
  set L := (List.range (e' - s')).map fun r => setDiagonal angles 10000 (s' + r) p with hL
  have hLne : L ≠ [] := by
    intro h
    have := congrArg List.length h
    simp [hL] at this; omega
  have hlen : L.length = e' - s' := by simp [hL]
  have hg : ∀ r < e' - s', L.getD r 0 = setDiagonal angles 10000 (s' + r) p := by
    intro r hr
    rw [List.getD_eq_getElem _ _ (by omega)]; simp [hL]
  have hps : s' + (p - s') = p := by omega
  obtain ⟨m1, m2⟩ := listMin_spec L hLne
  obtain ⟨n1, n2⟩ := argminL_spec L hLne
  rw [hlen] at n1 n2
  -- the value is the entry at the index
  have hv : listMin L = L.getD (argminL L) 0 := by
    apply le_antisymm
    · refine m2 _ ?_
      rw [List.getD_eq_getElem _ _ (by omega)]
      exact List.getElem_mem _
    · obtain ⟨i, hi, hi2⟩ := List.mem_iff_getElem.mp m1
      have := n2 i (by omega)
      rw [List.getD_eq_getElem L _ hi, hi2] at this
      exact this
  refine ⟨listMin L, argminL L + s', ?_, ?_, ?_, ?_, ?_, ?_⟩
  · rw [minAnglesInside, h5]
    simp only [List.getElem?_map, List.getElem?_range (show p - s' < e' - s' by omega), Option.map_some, hps]
    rfl
  · rw [nearestInside, h5']
    simp only [List.getElem?_map, List.getElem?_range (show p - s' < e' - s' by omega), Option.map_some, hps]
    rfl
  · exact (h3 _).mp ⟨by omega, by omega⟩
  · intro q hq hqk
    obtain ⟨q1, q2⟩ := (h3 q).mpr hqk
    have := m2 (L.getD (q - s') 0) (by
      rw [List.getD_eq_getElem _ _ (by omega)]; exact List.getElem_mem _)
    rw [hg _ (by omega), Nat.add_sub_cancel' q1, setDiagonal, if_neg hq] at this
    exact this
  · rintro ⟨q, hq, hqk⟩
    obtain ⟨q1, q2⟩ := (h3 q).mpr hqk
    have hle := n2 (q - s') (by omega)
    rw [hg _ n1, hg _ (by omega), Nat.add_sub_cancel' q1] at hle
    have hlt : setDiagonal angles 10000 q p < 10000 := by rw [setDiagonal, if_neg hq]; exact hb q p
    have hne : s' + argminL L ≠ p := by
      intro h
      rw [h, setDiagonal, if_pos rfl] at hle
      linarith
    refine ⟨by omega, ?_⟩
    rw [hv, hg _ n1, setDiagonal, if_neg hne, add_comm]
  · intro hall
    have hn : argminL L + s' = p := hall _ ((h3 _).mp ⟨by omega, by omega⟩)
    refine ⟨?_, hn⟩
    rw [hv, hg _ n1, setDiagonal, if_pos (by omega)]

/-- **C92** (`min_angles_outside_cluster`, `nearest_neighbors_outside_cluster`): for every point `p` the reported value is the smallest angle between `p` and the points of the other clusters, and the reported index is
such a point at that angle (when there is another cluster). -/
theorem c92_outside (hb : ∀ i j, angles i j < 10000) (p k : ℕ) (hp : l[p]? = some k) (hex : ∃ q < l.length, l[q]? ≠ some k) :
    ∃ v n, (minAnglesOutside angles l.length sizes)[p]? = some v ∧ (nearestOutside angles l.length sizes)[p]? = some n ∧
      n < l.length ∧ l[n]? ≠ some k ∧ v = angles p n ∧ ∀ q < l.length, l[q]? ≠ some k → v ≤ angles p q := by
  obtain ⟨s, e, h1, h2, h3, h4, h5⟩ := perCluster_getElem sizes
    (fun s e => (List.range (e - s)).map fun r => listMin (outsideRow angles l.length s e r)) (by simp) hl hp
  obtain ⟨s', e', h1', h2', h3', h4', h5'⟩ := perCluster_getElem sizes
    (fun s e => (List.range (e - s)).map fun r => argminL (outsideRow angles l.length s e r)) (by simp) hl hp
  obtain ⟨rfl, rfl⟩ : s' = s ∧ e' = e := by
    have a1 := (h3' s).mpr ((h3 s).mp ⟨le_rfl, by omega⟩)
    have a2 := (h3 s').mpr ((h3' s').mp ⟨le_rfl, by omega⟩)
    have a3 := (h3' (e - 1)).mpr ((h3 (e - 1)).mp ⟨by omega, by omega⟩)
    have a4 := (h3 (e' - 1)).mpr ((h3' (e' - 1)).mp ⟨by omega, by omega⟩)
    constructor <;> omega
  set L := outsideRow angles l.length s' e' (p - s') with hL
  have hlen : L.length = l.length := by simp [hL, outsideRow]
  obtain ⟨q0, hq0, hq0k⟩ := hex
  have hLne : L ≠ [] := by
    intro h
    rw [h] at hlen; simp at hlen; omega
  have hps : s' + (p - s') = p := by omega
  have hg : ∀ q < l.length, L.getD q 0 = if l[q]? = some k then 10000 else angles p q := by
    intro q hq
    rw [List.getD_eq_getElem _ _ (by omega)]
    simp only [hL, outsideRow, List.getElem_map, List.getElem_range, hps]
    simp only [h3 q]
  obtain ⟨m1, m2⟩ := listMin_spec L hLne
  obtain ⟨n1, n2⟩ := argminL_spec L hLne
  rw [hlen] at n1 n2
  have hv : listMin L = L.getD (argminL L) 0 := by
    apply le_antisymm
    · refine m2 _ ?_
      rw [List.getD_eq_getElem _ _ (by omega)]
      exact List.getElem_mem _
    · obtain ⟨i, hi, hi2⟩ := List.mem_iff_getElem.mp m1
      have := n2 i (by omega)
      rw [List.getD_eq_getElem L _ hi, hi2] at this
      exact this
  have hnk : l[argminL L]? ≠ some k := by
    intro h
    have hle := n2 q0 hq0
    rw [hg _ n1, hg _ hq0, if_pos h, if_neg hq0k] at hle
    linarith [hb p q0]
  refine ⟨listMin L, argminL L, ?_, ?_, n1, hnk, ?_, ?_⟩
  · rw [minAnglesOutside, h5]
    simp only [List.getElem?_map, List.getElem?_range (show p - s' < e' - s' by omega), Option.map_some]
    rfl
  · rw [nearestOutside, h5']
    simp only [List.getElem?_map, List.getElem?_range (show p - s' < e' - s' by omega), Option.map_some]
    rfl
  · rw [hv, hg _ n1, if_neg hnk]
  · intro q hq hqk
    have := n2 q hq
    rw [← hv, hg q hq, if_neg hqk] at this
    exact this
end

/-- **C92** (`sorted_neighbors`): if every other point is at a larger angle than the point itself, row `s` lists the other points, each once, by increasing angle.  What is missing from the full statement: it fails for
repeated points (`c92_sorted_fails`). -/
theorem c92_sorted_partial (angles : ℕ → ℕ → ℝ) (N s : ℕ) (hs : s < N) (h : ∀ q < N, q ≠ s → angles s s < angles s q) :
    (sortedNeighbors angles N s).Perm ((List.range N).erase s) ∧ (sortedNeighbors angles N s).Pairwise (fun a b => angles s a ≤ angles s b) := by
  set row := (List.range N).map fun q => angles s q with hrow
  have hlen : row.length = N := by simp [hrow]
  have hperm := argsort_perm row
  have hsort := argsort_sorted row
  rw [hlen] at hperm
  have hg : ∀ q < N, row.getD q 0 = angles s q := by
    intro q hq
    rw [List.getD_eq_getElem _ _ (by omega)]; simp [hrow]
  have hsN : s ∈ argsort row := hperm.mem_iff.mpr (List.mem_range.mpr hs)
  cases hA : argsort row with
  | nil => rw [hA] at hsN; simp at hsN
  | cons a L =>
    rw [hA] at hperm hsort hsN
    have haN : a < N := List.mem_range.mp (hperm.mem_iff.mp (by simp))
    have has : a = s := by
      by_contra hne
      have hsL : s ∈ L := by
        rcases List.mem_cons.mp hsN with h' | h'
        · exact absurd h'.symm hne
        · exact h'
      have := (List.pairwise_cons.mp hsort).1 s hsL
      rw [hg a haN, hg s hs] at this
      linarith [h a haN hne]
    subst has
    have e : sortedNeighbors angles N a = L := by
      rw [sortedNeighbors, ← hrow, hA]; rfl
    rw [e]
    refine ⟨?_, ?_⟩
    · have := hperm.erase a
      simpa using this
    · refine ((List.pairwise_cons.mp hsort).2).imp_of_mem ?_
      intro x y hx hy hxy
      have hx' : x < N := List.mem_range.mp (hperm.mem_iff.mp (by simp [hx]))
      have hy' : y < N := List.mem_range.mp (hperm.mem_iff.mp (by simp [hy]))
      rwa [hg x hx', hg y hy'] at hxy

/-- **C92** (`inn_positions`): the position is that of the first neighbour with the label of the point, if there is one. -/
theorem c92_inn_position (labels : ℕ → ℕ) (nl : List ℕ) (s : ℕ) (h : labels s ∈ nl) :
    nl[innPosition labels nl s]? = some (labels s) ∧ ∀ i < innPosition labels nl s, nl[i]? ≠ some (labels s) := by
  set L : List ℝ := nl.map fun l => if l = labels s then 1 else 0 with hL
  have hne : L ≠ [] := by
    intro h'
    rw [hL, List.map_eq_nil_iff] at h'
    rw [h'] at h; simp at h
  obtain ⟨h1, h2, h3⟩ := argmax_spec L hne
  have hlen : L.length = nl.length := by simp [hL]
  have hg : ∀ i (hi : i < nl.length), L.getD i 0 = if nl[i] = labels s then 1 else 0 := by
    intro i hi
    rw [List.getD_eq_getElem _ _ (by omega)]; simp [hL]
  obtain ⟨i0, hi0, he⟩ := List.mem_iff_getElem.mp h
  have hmax : (1 : ℝ) ≤ L.getD (argmax L) 0 := by
    refine h2 1 ?_
    rw [hL]
    exact List.mem_map.mpr ⟨labels s, h, by simp⟩
  have h1' : argmax L < nl.length := by omega
  rw [hg _ h1'] at hmax h3
  have hat : nl[argmax L] = labels s := by
    by_contra hc
    rw [if_neg hc] at hmax
    linarith
  rw [if_pos hat] at h3
  refine ⟨?_, fun i hi hc => ?_⟩
  · show nl[argmax L]? = _
    rw [List.getElem?_eq_getElem h1', hat]
  · have hi' : i < argmax L := hi
    have hi2 : i < nl.length := by omega
    have := h3 i hi'
    rw [List.getElem?_eq_getElem hi2] at hc
    rw [hg i hi2, if_pos (Option.some.inj hc)] at this
    exact lt_irrefl _ this

/-- **C92** is violated for repeated points: with two equal points the list of neighbours of the second one is the point itself. -/
theorem c92_sorted_fails : sortedNeighbors (anglesBetweenPoints fun _ : ℕ => (1 : ℝ)) 2 1 = [1] := by
  have h : ∀ i j, anglesBetweenPoints (fun _ : ℕ => (1 : ℝ)) i j = 0 := by
    intro i j; simp [anglesBetweenPoints, normalizeCw]
  simp only [sortedNeighbors, h]
  simp [argsort, List.range_succ, List.mergeSort, List.merge]

/-- **C92** is violated for a point without another point of its cluster: the reported position 0 is that of a point of another cluster. -/
theorem c92_inn_position_fails : innPosition (fun s => s) [1, 2] 0 = 0 ∧ [1, 2][innPosition (fun s => s) [1, 2] 0]? = some 1 := by
  have : innPosition (fun s => s) [1, 2] 0 = 0 := by simp [innPosition, argmax, argmaxFrom]
  exact ⟨this, by rw [this]; rfl⟩

/-- Three clusters of sizes 2, 1, 2: the hypotheses on the labels hold. -/
example : labelsFromSizes [2, 1, 2] = some [0, 0, 1, 2, 2] := rfl

example : ∃ v n, (minAnglesInside (fun i j => ((i + j : ℕ) : ℝ) / (i + j + 1)) [2, 1, 2])[0]? = some v ∧ (nearestInside (fun i j => ((i + j : ℕ) : ℝ) / (i + j + 1)) [2, 1, 2])[0]? = some n ∧ n ≠ 0 ∧ v = ((n + 0 : ℕ) : ℝ) / (n + 0 + 1) := by
  have hb : ∀ i j : ℕ, ((i + j : ℕ) : ℝ) / (i + j + 1) < 10000 := by
    intro i j
    have : (0 : ℝ) < i + j + 1 := by positivity
    rw [div_lt_iff₀ this]; push_cast; nlinarith [Nat.cast_nonneg (α := ℝ) i, Nat.cast_nonneg (α := ℝ) j]
  obtain ⟨v, n, h1, h2, -, -, h5, -⟩ := c92_inside (fun i j => ((i + j : ℕ) : ℝ) / (i + j + 1)) [2, 1, 2] [0, 0, 1, 2, 2] rfl hb 0 0 rfl
  obtain ⟨a, b⟩ := h5 ⟨1, by norm_num, rfl⟩
  exact ⟨v, n, h1, h2, a, by simpa using b⟩

example := c92_angles (fun i => (i : ℝ) - 2) 0 5 (by norm_num) (by norm_num)

/-- Three clusters of sizes 2, 1, 2. -/
example := c92_outside (fun i j => ((i + j : ℕ) : ℝ) / (i + j + 1)) [2, 1, 2] [0, 0, 1, 2, 2] rfl (fun i j => by
    have : (0 : ℝ) < i + j + 1 := by positivity
    rw [div_lt_iff₀ this]; push_cast; nlinarith [Nat.cast_nonneg (α := ℝ) i, Nat.cast_nonneg (α := ℝ) j]) 3 2 rfl ⟨0, by norm_num, by simp⟩

example := c92_sorted_partial (fun i j => |(i : ℝ) - j|) 5 2 (by norm_num) (fun q _ hq => by
  have : ((2 : ℕ) : ℝ) - q ≠ 0 := sub_ne_zero.mpr fun h => hq (by exact_mod_cast h.symm)
  simpa using this)

example := c92_inn_position (fun i => i / 2) [1, 0, 2, 1] 4 (by decide)

end Verif.Cluster
