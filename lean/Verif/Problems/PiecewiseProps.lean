import Verif.Problems.PiecewiseModel
import Verif.Dict.GrassProps
import Verif.Pursuit.UtilProps
import Mathlib.Data.List.GetD
import Mathlib.Data.List.Sort
import Mathlib.Tactic.FieldSimp
import Mathlib.Tactic.Linarith
import Mathlib.Tactic.Ring

set_option autoImplicit false

/-!
# C119: the piecewise polynomial signal; C120: the overlap of supports reported by `analyze_solution`
-/
noncomputable section
namespace Verif.Problems
open Verif.Dict Verif.Pursuit

/-! ## Helpers -/

/-- Rounding moves a number by at most one half. -/
theorem pyRound_dist (x : ℝ) : |(pyRound x : ℝ) - x| ≤ 1 / 2 := by
  unfold pyRound
  have h0 := Int.fract_add_floor x
  split_ifs with h1 h2
  · rw [abs_sub_comm, ← Int.self_sub_floor] at *
    rw [h1]; norm_num
  · push_cast
    have : (⌊x⌋ : ℝ) = x - 1 / 2 := by linarith
    rw [this, abs_le]; constructor <;> linarith
  · rw [abs_sub_comm]; exact abs_sub_round x

theorem pyRound_mono {x y : ℝ} (h : x ≤ y) : pyRound x ≤ pyRound y := by
  rcases h.eq_or_lt with rfl | h
  · exact le_rfl
  by_contra hc
  have hc : pyRound y + 1 ≤ pyRound x := by omega
  have h1 := (abs_le.1 (pyRound_dist x)).2
  have h2 := (abs_le.1 (pyRound_dist y)).1
  have h3 : (pyRound y : ℝ) + 1 ≤ pyRound x := by exact_mod_cast hc
  linarith

theorem linspace_length (a b : ℝ) (k : ℕ) : (linspace a b k).length = k := by simp [linspace]

/-- The value of the polynomial of piece `k` at position `i`: `c0 + c1 x + c2 x² + c3 x³` at the grid point `x` of the piece from `a` to `b`. -/
def pieceValue (z : ℕ → ℕ → ℝ) (k a b i : ℕ) : ℝ :=
  let x : ℝ := if b - a = 1 then -3 else -3 + ((i - a : ℕ) : ℝ) * (6 / (((b - a : ℕ) : ℝ) - 1))
  pieceCoeff (z k 0) + pieceCoeff (z k 1) * x + pieceCoeff (z k 2) * x ^ 2 + pieceCoeff (z k 3) * x ^ 3

theorem setPiece_spec (idx : List ℕ) (z : ℕ → ℕ → ℝ) (s : List ℝ) (k : ℕ) (hab : idx.getD k 0 ≤ idx.getD (k + 1) 0) (hb : idx.getD (k + 1) 0 ≤ s.length) :
    (setPiece idx z s k).length = s.length ∧
    (∀ i, i < idx.getD k 0 → (setPiece idx z s k).getD i 0 = s.getD i 0) ∧
    (∀ i, idx.getD k 0 ≤ i → i < idx.getD (k + 1) 0 → (setPiece idx z s k).getD i 0 = pieceValue z k (idx.getD k 0) (idx.getD (k + 1) 0) i) := by
  unfold setPiece
  simp only []
  generalize idx.getD k 0 = a at *
  generalize idx.getD (k + 1) 0 = b at *
  set f : ℝ → ℝ := fun x => pieceCoeff (z k 0) + pieceCoeff (z k 1) * x + pieceCoeff (z k 2) * x ^ 2 + pieceCoeff (z k 3) * x ^ 3 with hf
  have hl : (s.take a).length = a := by rw [List.length_take]; omega
  have hy : ((linspace (-3) 3 (b - a)).map f).length = b - a := by rw [List.length_map, linspace_length]
  refine ⟨?_, fun i hi => ?_, fun i h1 h2 => ?_⟩
  · rw [List.length_append, List.length_append, hl, hy, List.length_drop]; omega
  · rw [List.getD_append _ _ _ _ (by rw [List.length_append, hl]; omega), List.getD_append _ _ _ _ (by omega)]
    rw [List.getD_eq_getElem _ _ (by omega), List.getD_eq_getElem _ _ (by omega), List.getElem_take]
  · rw [List.getD_append _ _ _ _ (by rw [List.length_append, hl, hy]; omega), List.getD_append_right _ _ _ _ (by omega), hl]
    rw [List.getD_eq_getElem _ _ (by omega), List.getElem_map]
    unfold pieceValue linspace
    rw [List.getElem_map, List.getElem_range]
    norm_num [hf]

theorem pieceBounds_length (n : ℕ) (u : List ℝ) : (pieceBounds n u).length = u.length + 2 := by
  unfold pieceBounds
  rw [List.length_map, List.length_mergeSort]; simp

theorem breaks_sorted (u : List ℝ) : (((0 :: u) ++ [1]).mergeSort (fun x y : ℝ => decide (x ≤ y))).Pairwise (· ≤ ·) := by
  have := List.pairwise_mergeSort (le := fun a b : ℝ => decide (a ≤ b)) (by simpa using fun a b c => le_trans) (by simpa using le_total) ((0 :: u) ++ [1])
  simpa using this

theorem pieceBounds_sorted (n : ℕ) (u : List ℝ) : (pieceBounds n u).Pairwise (· ≤ ·) := by
  unfold pieceBounds
  rw [List.pairwise_map]
  refine (breaks_sorted u).imp fun {a b} h => ?_
  exact Int.toNat_le_toNat (pyRound_mono (mul_le_mul_of_nonneg_right h (Nat.cast_nonneg n)))

theorem pieceBounds_first (n : ℕ) (u : List ℝ) (hu : ∀ t ∈ u, 0 ≤ t ∧ t < 1) : (pieceBounds n u).getD 0 0 = 0 := by
  set l := ((0 :: u) ++ [1]).mergeSort (fun x y : ℝ => decide (x ≤ y)) with hl
  have hp : l.Perm ((0 :: u) ++ [1]) := List.mergeSort_perm _ _
  have hs : l.Pairwise (· ≤ ·) := breaks_sorted u
  have hlen : l.length = u.length + 2 := by rw [hp.length_eq]; simp
  have h0 : (0 : ℝ) ∈ l := hp.mem_iff.2 (by simp)
  obtain ⟨k, hk, e⟩ := List.getElem_of_mem h0
  have h1 : l[0]'(by omega) ≤ 0 := by
    rcases Nat.eq_zero_or_pos k with rfl | hpos
    · exact e.le
    · rw [← e]; exact List.pairwise_iff_getElem.1 hs 0 k _ hk hpos
  have h2 : (0 : ℝ) ≤ l[0]'(by omega) := by
    have : l[0]'(by omega) ∈ (0 :: u) ++ [1] := hp.mem_iff.1 (List.getElem_mem _)
    simp only [List.cons_append, List.mem_cons, List.mem_append, List.mem_singleton, List.not_mem_nil, or_false] at this
    rcases this with h | h | h
    · exact h.ge
    · exact (hu _ h).1
    · rw [h]; norm_num
  have h3 : l[0]'(by omega) = 0 := le_antisymm h1 h2
  change (l.map fun t => (pyRound (t * n)).toNat).getD 0 0 = 0
  rw [List.getD_eq_getElem _ _ (by rw [List.length_map]; omega), List.getElem_map, h3, zero_mul]
  have := pyRound_int 0
  simp only [Int.cast_zero] at this
  rw [this]; rfl

theorem pieceBounds_last (n : ℕ) (u : List ℝ) (hu : ∀ t ∈ u, 0 ≤ t ∧ t < 1) : (pieceBounds n u).getD (u.length + 1) 0 = n := by
  set l := ((0 :: u) ++ [1]).mergeSort (fun x y : ℝ => decide (x ≤ y)) with hl
  have hp : l.Perm ((0 :: u) ++ [1]) := List.mergeSort_perm _ _
  have hs : l.Pairwise (· ≤ ·) := breaks_sorted u
  have hlen : l.length = u.length + 2 := by rw [hp.length_eq]; simp
  have h0 : (1 : ℝ) ∈ l := hp.mem_iff.2 (by simp)
  obtain ⟨k, hk, e⟩ := List.getElem_of_mem h0
  have h1 : 1 ≤ l[u.length + 1]'(by omega) := by
    rcases Nat.lt_or_ge k (u.length + 1) with hpos | hge
    · rw [← e]; exact List.pairwise_iff_getElem.1 hs k _ hk (by omega) hpos
    · have : k = u.length + 1 := by omega
      subst this; exact e.ge
  have h2 : l[u.length + 1]'(by omega) ≤ 1 := by
    have : l[u.length + 1]'(by omega) ∈ (0 :: u) ++ [1] := hp.mem_iff.1 (List.getElem_mem _)
    simp only [List.cons_append, List.mem_cons, List.mem_append, List.mem_singleton, List.not_mem_nil, or_false] at this
    rcases this with h | h | h
    · rw [h]; norm_num
    · exact (hu _ h).2.le
    · exact h.le
  have h3 : l[u.length + 1]'(by omega) = 1 := le_antisymm h2 h1
  change (l.map fun t => (pyRound (t * n)).toNat).getD (u.length + 1) 0 = n
  rw [List.getD_eq_getElem _ _ (by rw [List.length_map]; omega), List.getElem_map, h3, one_mul]
  have := pyRound_int n
  simp only [Int.cast_natCast] at this
  rw [this]; rfl

theorem pieceBounds_mono (n : ℕ) (u : List ℝ) {i j : ℕ} (hij : i ≤ j) (hj : j ≤ u.length + 1) : (pieceBounds n u).getD i 0 ≤ (pieceBounds n u).getD j 0 := by
  have hl := pieceBounds_length n u
  rcases hij.eq_or_lt with rfl | h
  · exact le_rfl
  · rw [List.getD_eq_getElem _ _ (by omega), List.getD_eq_getElem _ _ (by omega)]
    exact List.pairwise_iff_getElem.1 (pieceBounds_sorted n u) i j _ _ h

/-! ## C119 -/

/-- **C119** The signal has length `n`. The boundaries of the pieces rise from `0` to `n`. On the piece from `a` to `b` the signal is the cubic polynomial with the coefficients of the
piece, on the grid of `b - a` equally spaced points from -3 to 3. -/
theorem c119_signal (n : ℕ) (u : List ℝ) (z : ℕ → ℕ → ℝ) (hu : ∀ t ∈ u, 0 ≤ t ∧ t < 1) :
    let idx := fun k => (pieceBounds n u).getD k 0
    let s := piecewisePolynomial n u z
    s.length = n ∧ idx 0 = 0 ∧ idx (u.length + 1) = n ∧ (∀ i j, i ≤ j → j ≤ u.length + 1 → idx i ≤ idx j) ∧
    ∀ k ≤ u.length, ∀ i, idx k ≤ i → i < idx (k + 1) →
      let x : ℝ := if idx (k + 1) - idx k = 1 then -3 else -3 + ((i - idx k : ℕ) : ℝ) * (6 / (((idx (k + 1) - idx k : ℕ) : ℝ) - 1))
      s.getD i 0 = pieceCoeff (z k 0) + pieceCoeff (z k 1) * x + pieceCoeff (z k 2) * x ^ 2 + pieceCoeff (z k 3) * x ^ 3 := by
  intro idx s
  have hmono : ∀ i j, i ≤ j → j ≤ u.length + 1 → idx i ≤ idx j := fun i j h1 h2 => pieceBounds_mono n u h1 h2
  have hlast : idx (u.length + 1) = n := pieceBounds_last n u hu
  have key : ∀ p ≤ u.length + 1, ((List.range p).foldl (setPiece (pieceBounds n u) z) (List.replicate n 0)).length = n ∧
      ∀ k < p, ∀ i, idx k ≤ i → i < idx (k + 1) →
        ((List.range p).foldl (setPiece (pieceBounds n u) z) (List.replicate n 0)).getD i 0 = pieceValue z k (idx k) (idx (k + 1)) i := by
    intro p
    induction p with
    | zero => exact fun _ => ⟨by simp, by simp⟩
    | succ p ih =>
      intro hp
      obtain ⟨h1, h2⟩ := ih (by omega)
      rw [List.range_succ, List.foldl_append]
      obtain ⟨s1, s2, s3⟩ := setPiece_spec (pieceBounds n u) z ((List.range p).foldl (setPiece (pieceBounds n u) z) (List.replicate n 0)) p (hmono p (p + 1) (by omega) hp)
        ((hmono (p + 1) _ hp le_rfl).trans_eq (hlast.trans h1.symm))
      refine ⟨s1.trans h1, fun k hk i ha hb => ?_⟩
      rcases Nat.lt_succ_iff_lt_or_eq.mp hk with hk | rfl
      · exact (s2 i (hb.trans_le (hmono (k + 1) p hk (by omega)))).trans (h2 k hk i ha hb)
      · exact s3 i ha hb
  obtain ⟨h1, h2⟩ := key (u.length + 1) le_rfl
  exact ⟨h1, pieceBounds_first n u hu, hlast, hmono, fun k hk i ha hb => h2 k (by omega) i ha hb⟩

/-- **C119** Every position lies in exactly one piece. -/
theorem c119_partition (n : ℕ) (u : List ℝ) (hu : ∀ t ∈ u, 0 ≤ t ∧ t < 1) (i : ℕ) (hi : i < n) :
    ∃! k, k ≤ u.length ∧ (pieceBounds n u).getD k 0 ≤ i ∧ i < (pieceBounds n u).getD (k + 1) 0 := by
  have h0 := pieceBounds_first n u hu
  have h1 := pieceBounds_last n u hu
  classical
  have hex : ∃ k, i < (pieceBounds n u).getD (k + 1) 0 := ⟨u.length, by omega⟩
  refine ⟨Nat.find hex, ⟨Nat.find_le (by omega), ?_, Nat.find_spec hex⟩, fun k ⟨hk, ha, hb⟩ => ?_⟩
  · rcases Nat.eq_zero_or_pos (Nat.find hex) with h | h
    · rw [h, h0]; exact Nat.zero_le _
    · have := Nat.find_min hex (m := Nat.find hex - 1) (by omega)
      rw [Nat.sub_add_cancel h] at this
      exact not_lt.1 this
  · refine le_antisymm ?_ (Nat.find_le hb)
    by_contra hc
    have hc : Nat.find hex + 1 ≤ k := by omega
    have := pieceBounds_mono n u hc (by omega)
    have := Nat.find_spec hex
    omega

/-- **C119** Inside a piece the signal is a cubic polynomial of the position: fourth differences vanish, whatever the draws. -/
theorem c119_fourth_difference (n : ℕ) (u : List ℝ) (z : ℕ → ℕ → ℝ) (hu : ∀ t ∈ u, 0 ≤ t ∧ t < 1) (k : ℕ) (hk : k ≤ u.length) (i : ℕ)
    (ha : (pieceBounds n u).getD k 0 ≤ i) (hb : i + 4 < (pieceBounds n u).getD (k + 1) 0) :
    let s := fun j => (piecewisePolynomial n u z).getD j 0
    s (i + 4) - 4 * s (i + 3) + 6 * s (i + 2) - 4 * s (i + 1) + s i = 0 := by
  intro s
  have h := (c119_signal n u z hu).2.2.2.2 k hk
  simp only [] at h
  simp only [s]
  rw [h (i + 4) (by omega) (by omega), h (i + 3) (by omega) (by omega), h (i + 2) (by omega) (by omega), h (i + 1) (by omega) (by omega), h i (by omega) (by omega)]
  simp only [if_neg (show ¬ (pieceBounds n u).getD (k + 1) 0 - (pieceBounds n u).getD k 0 = 1 by omega)]
  have c : ∀ d, ((i + d - (pieceBounds n u).getD k 0 : ℕ) : ℝ) = ((i - (pieceBounds n u).getD k 0 : ℕ) : ℝ) + d := fun d => by
    rw [← Nat.cast_add]; congr 1; omega
  rw [c 4, c 3, c 2, c 1]
  generalize ((i - (pieceBounds n u).getD k 0 : ℕ) : ℝ) = t
  generalize (6 : ℝ) / (((((pieceBounds n u).getD (k + 1) 0 - (pieceBounds n u).getD k 0 : ℕ)) : ℝ) - 1) = w
  push_cast
  ring

/-- **C119** The coefficients are the draws to two decimals. -/
theorem c119_coefficients (z : ℝ) : (∃ m : ℤ, pieceCoeff z = m / 100) ∧ |pieceCoeff z - z| ≤ 1 / 200 := by
  refine ⟨⟨_, rfl⟩, ?_⟩
  have h := pyRound_dist (z * 100)
  have : pieceCoeff z - z = ((pyRound (z * 100) : ℝ) - z * 100) / 100 := by unfold pieceCoeff; field_simp
  rw [this, abs_div, abs_of_pos (by norm_num : (0 : ℝ) < 100)]
  linarith

/-- Two pieces of a signal of length 12, of five and seven positions. -/
theorem ex_bounds : (∀ t ∈ [(2 / 5 : ℝ)], 0 ≤ t ∧ t < 1) ∧ (pieceBounds 12 [2 / 5]).getD 1 0 = 5 := by
  refine ⟨by simp; norm_num, ?_⟩
  have h : (((0 : ℝ) :: [2 / 5]) ++ [1]).mergeSort (fun x y => decide (x ≤ y)) = [0, 2 / 5, 1] := by
    simp [List.mergeSort, List.MergeSort.Internal.splitInTwo, List.merge]
    norm_num
  unfold pieceBounds
  rw [h]
  have e : pyRound (2 / 5 * ((12 : ℕ) : ℝ)) = 5 := by
    unfold pyRound
    have hfl : ⌊(2 / 5 * ((12 : ℕ) : ℝ))⌋ = 4 := by rw [Int.floor_eq_iff]; norm_num
    rw [if_neg]
    · rw [round_eq, Int.floor_eq_iff]; norm_num
    · rw [← Int.self_sub_floor, hfl]; norm_num
  simp only [List.map_cons, List.map_nil, List.getD_cons_succ, List.getD_cons_zero, e]
  rfl

/-! ## C120 -/

section Overlap
variable {𝕜 : Type*} [RCLike 𝕜]

/-- **C120** The reported overlap is at most the smaller support and the ratio lies between 0 and 1. It is 1 exactly when the supports have the same size and the same indices, and
then no index is missed or added. -/
theorem c120_overlap (x0 x : List 𝕜) (k1 k2 : ℕ) (h1 : k1 ≤ x0.length) (h2 : k2 ≤ x.length) (hk : 0 < max k1 k2) :
    ∃ ratio, (supportOverlap x0 x k1 k2).2 = some ratio ∧ (supportOverlap x0 x k1 k2).1 ≤ min k1 k2 ∧ 0 ≤ ratio ∧ ratio ≤ 1 ∧
    (ratio = 1 ↔ k1 = k2 ∧ ∀ i, i ∈ largestIndices x0 k1 ↔ i ∈ largestIndices x k2) := by
  obtain ⟨n1, l1, -⟩ := c51_largest_indices x0 k1
  obtain ⟨n2, l2, -⟩ := c51_largest_indices x k2
  rw [min_eq_left h1] at l1
  rw [min_eq_left h2] at l2
  set A := (largestIndices x0 k1).toFinset with hA
  set B := (largestIndices x k2).toFinset with hB
  have cA : A.card = k1 := by rw [hA, List.toFinset_card_of_nodup n1, l1]
  have cB : B.card = k2 := by rw [hB, List.toFinset_card_of_nodup n2, l2]
  have i1 : (A ∩ B).card ≤ k1 := cA ▸ Finset.card_le_card Finset.inter_subset_left
  have i2 : (A ∩ B).card ≤ k2 := cB ▸ Finset.card_le_card Finset.inter_subset_right
  have hm : (0 : ℝ) < (max k1 k2 : ℕ) := by exact_mod_cast hk
  refine ⟨((A ∩ B).card : ℝ) / (max k1 k2 : ℕ), ?_, le_min i1 i2, by positivity, ?_, ?_⟩
  · simp only [supportOverlap]; rw [if_neg (by omega)]
  · rw [div_le_one hm]; exact_mod_cast i1.trans (le_max_left _ _)
  · rw [div_eq_one_iff_eq hm.ne', Nat.cast_inj]
    constructor
    · intro e
      have e1 : (A ∩ B).card = k1 := by omega
      have e2 : (A ∩ B).card = k2 := by omega
      refine ⟨by omega, fun i => ?_⟩
      have a1 : A ∩ B = A := Finset.eq_of_subset_of_card_le Finset.inter_subset_left (by omega)
      have a2 : A ∩ B = B := Finset.eq_of_subset_of_card_le Finset.inter_subset_right (by omega)
      rw [← List.mem_toFinset, ← List.mem_toFinset, ← hA, ← hB, ← a1, a2]
    · rintro ⟨e, h⟩
      have : A = B := by ext i; rw [hA, hB, List.mem_toFinset, List.mem_toFinset]; exact h i
      rw [this, Finset.inter_self, cB]; omega

/-- **C120** A perfect reconstruction is reported with ratio 1. -/
theorem c120_perfect (x0 : List 𝕜) (k : ℕ) (h : k ≤ x0.length) (hk : 0 < k) : supportOverlap x0 x0 k k = (k, some 1) := by
  obtain ⟨n1, l1, -⟩ := c51_largest_indices x0 k
  rw [min_eq_left h] at l1
  have c : ((largestIndices x0 k).toFinset ∩ (largestIndices x0 k).toFinset).card = k := by
    rw [Finset.inter_self, List.toFinset_card_of_nodup n1, l1]
  have hk' : (k : ℝ) ≠ 0 := by exact_mod_cast hk.ne'
  unfold supportOverlap
  simp only [c, max_self]
  rw [if_neg hk.ne', div_self hk']

example : supportOverlap [(3 : ℝ), 0, 1] [3, 0, 1] 2 2 = (2, some 1) := c120_perfect _ 2 (by simp) (by norm_num)

end Overlap

example := c119_signal 12 [2 / 5] (fun k d => k + d) (by simp; norm_num)
example := c119_partition 12 [2 / 5] (by simp; norm_num) 7 (by norm_num)
/-- The second piece of the example above is `[5, 12)`: the fourth difference at 6 vanishes. -/
example := c119_fourth_difference 12 [2 / 5] (fun k d => k + d) (by simp; norm_num) 1 (by simp) 6 (by rw [ex_bounds.2]; norm_num)
  (lt_of_lt_of_eq (by norm_num : 6 + 4 < 12) (c119_signal 12 [2 / 5] (fun k d => k + d) (by simp; norm_num)).2.2.1.symm)
example := c120_overlap [(3 : ℝ), 0, 1] [0, 5, 4] 2 1 (by simp) (by simp) (by norm_num)

end Verif.Problems
