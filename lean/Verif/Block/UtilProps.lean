import Verif.Block.UtilModel
import Mathlib.Algebra.Order.Ring.Int
import Mathlib.Tactic.Linarith
import Mathlib.Tactic.Ring

set_option autoImplicit false
/-!
# Block partitions (C74)
-/
namespace Verif.Block

/-- **C74** for `b > 0` dividing `n`: the blocks `[start, end]` are consecutive, have length `b`, and every index below `n` lies in exactly one of them. -/
theorem c74_tiles (n b : ℕ) (hb : 0 < b) (hdvd : b ∣ n) :
    ∃ s e, startLocations n b = some s ∧ endLocations n b = some e ∧ s.length = n / b ∧ e.length = n / b ∧
      (∀ k < n / b, e.getD k 0 + 1 = s.getD k 0 + b) ∧ (∀ k, k + 1 < n / b → s.getD (k + 1) 0 = e.getD k 0 + 1) ∧ (0 < n → s.getD 0 0 = 0 ∧ e.getD (n / b - 1) 0 + 1 = n) ∧
      ∀ i < n, ∃! k, k < n / b ∧ s.getD k 0 ≤ i ∧ i ≤ e.getD k 0 := by
  obtain ⟨c, rfl⟩ := hdvd
  have hc : b * c / b = c := Nat.mul_div_cancel_left c hb
  have hs : startLocations (b * c) b = some ((List.range c).map fun i => i * b) := by rw [startLocations, if_neg hb.ne', hc]
  have he : endLocations (b * c) b = some (((List.range c).map fun i => i * b).map fun x => x + b - 1) := by rw [endLocations, hs, Option.map_some]
  have gs : ∀ k < c, ((List.range c).map fun i => i * b).getD k 0 = k * b := fun k hk => by simp [List.getD, hk]
  have ge : ∀ k < c, (((List.range c).map fun i => i * b).map fun x => x + b - 1).getD k 0 = k * b + b - 1 := fun k hk => by simp [List.getD, hk]
  refine ⟨_, _, hs, he, by simp [hc], by simp [hc], ?_, ?_, ?_, ?_⟩
  · intro k hk
    rw [hc] at hk
    rw [gs k hk, ge k hk]; omega
  · intro k hk
    rw [hc] at hk
    rw [gs _ hk, ge k (by omega), Nat.succ_mul]; omega
  · intro hn
    have hcp : 0 < c := Nat.pos_of_mul_pos_left hn
    rw [hc, gs 0 hcp, ge (c - 1) (by omega)]
    refine ⟨by omega, ?_⟩
    have : (c - 1) * b + b = b * c := by
      obtain ⟨d, rfl⟩ : ∃ d, c = d + 1 := ⟨c - 1, by omega⟩
      rw [Nat.add_sub_cancel]; ring
    omega
  · intro i hi
    have hq : i / b < c := (Nat.div_lt_iff_lt_mul hb).mpr (by rwa [mul_comm])
    have h1 : i / b * b ≤ i := Nat.div_mul_le_self i b
    have h2 : i < i / b * b + b := Nat.lt_div_mul_add hb
    refine ⟨i / b, ⟨by rwa [hc], by rw [gs _ hq]; exact h1, by rw [ge _ hq]; omega⟩, ?_⟩
    rintro k ⟨hk, hk1, hk2⟩
    rw [hc] at hk
    rw [gs k hk] at hk1
    rw [ge k hk] at hk2
    have a1 : k ≤ i / b := (Nat.le_div_iff_mul_le hb).mpr hk1
    have a2 : i / b < k + 1 := (Nat.div_lt_iff_lt_mul hb).mpr (by rw [Nat.succ_mul]; omega)
    omega

theorem diff_length : ∀ l : List ℤ, (diff l).length = l.length - 1
  | [] => rfl
  | [_] => rfl
  | x :: y :: l => by simp [diff, diff_length (y :: l)]

theorem diff_sum : ∀ (x : ℤ) (l : List ℤ) (h : x :: l ≠ []), (diff (x :: l)).sum = (x :: l).getLast h - x
  | x, [], _ => by simp [diff]
  | x, y :: l, _ => by
    have hl : (x :: y :: l).getLast (by simp) = (y :: l).getLast (by simp) := List.getLast_cons (by simp)
    rw [diff, List.sum_cons, diff_sum y l (by simp), hl]
    ring

theorem diff_pos : ∀ l : List ℤ, l.Pairwise (· < ·) → ∀ d ∈ diff l, 0 < d
  | [], _, d, h => by simp [diff] at h
  | [_], _, d, h => by simp [diff] at h
  | x :: y :: l, hs, d, h => by
    rw [diff, List.mem_cons] at h
    rcases h with rfl | h
    · have := (List.pairwise_cons.mp hs).1 y (by simp); linarith
    · exact diff_pos (y :: l) (List.pairwise_cons.mp hs).2 d h

/-- The position where block `k` starts is the first start plus the lengths of the blocks before it. -/
theorem diff_prefix : ∀ (x : ℤ) (l : List ℤ) (k : ℕ), k < (x :: l).length → (x :: l).getD k 0 = x + ((diff (x :: l)).take k).sum
  | x, l, 0, _ => by simp
  | x, [], k + 1, h => by simp at h
  | x, y :: l, k + 1, h => by
    have := diff_prefix y l k (by simpa using h)
    rw [List.getD_cons_succ, this, diff, List.take_succ_cons, List.sum_cons]
    ring

/-- **C74** `block_lens_from_start_locs` inverts the start locations: for increasing starts beginning at zero, all below `n`, there is one length per block, all lengths are positive, they sum to `n`, and block `k` starts where
the lengths of the previous blocks end. -/
theorem c74_block_lens (starts : List ℤ) (n : ℤ) (hs : starts.Pairwise (· < ·)) (h0 : starts.head? = some 0) (hn : ∀ s ∈ starts, s < n) :
    ∃ lens, blockLens starts n = some lens ∧ lens.length = starts.length ∧ (∀ d ∈ lens, 0 < d) ∧ lens.sum = n ∧
      ∀ k < starts.length, starts.getD k 0 = (lens.take k).sum := by
  cases starts with
  | nil => simp at h0
  | cons x l =>
    have hx : x = 0 := by simpa using h0
    have hne : x :: l ≠ [] := by simp
    have hlast : (x :: l).getLast? = some ((x :: l).getLast hne) := List.getLast?_eq_some_getLast hne
    refine ⟨diff (x :: l) ++ [n - (x :: l).getLast hne], by rw [blockLens, hlast], ?_, ?_, ?_, ?_⟩
    · simp [diff_length]
    · intro d hd
      rcases List.mem_append.mp hd with hd | hd
      · exact diff_pos _ hs d hd
      · rw [List.mem_singleton] at hd
        have := hn _ (List.getLast_mem hne)
        linarith
    · rw [List.sum_append, diff_sum x l hne]; simp [hx]
    · intro k hk
      have hp := diff_prefix x l k hk
      rw [List.take_append_of_le_length (by rw [diff_length]; simp at hk ⊢; omega), hp]
      linarith

/-- **C74** composed: for `b` dividing `n > 0`, the lengths computed from the start locations are all `b`. -/
theorem c74_round_trip (n b : ℕ) (hb : 0 < b) (hdvd : b ∣ n) (hn : 0 < n) :
    ∃ s, startLocations n b = some s ∧ blockLens (s.map fun (x : ℕ) => (x : ℤ)) n = some (List.replicate (n / b) (b : ℤ)) := by
  obtain ⟨c, rfl⟩ := hdvd
  have hc : b * c / b = c := Nat.mul_div_cancel_left c hb
  have hcp : 0 < c := Nat.pos_of_mul_pos_left hn
  refine ⟨_, by rw [startLocations, if_neg hb.ne', hc], ?_⟩
  rw [hc]
  obtain ⟨d, rfl⟩ : ∃ d, c = d + 1 := ⟨c - 1, by omega⟩
  have hdiff : ∀ (m : ℕ) (x : ℕ), diff ((List.range' x (m + 1)).map fun i => ((i * b : ℕ) : ℤ)) = List.replicate m (b : ℤ) := by
    intro m
    induction m with
    | zero => intro x; simp [diff]
    | succ m ih =>
      intro x
      have := ih (x + 1)
      rw [List.range'_succ, List.map_cons]
      rw [List.range'_succ, List.map_cons] at this ⊢
      rw [diff, this, List.replicate_succ]
      congr 1
      push_cast; ring
  have hmap : ((List.range (d + 1)).map fun i => i * b).map (fun (x : ℕ) => (x : ℤ)) = (List.range' 0 (d + 1)).map fun i => ((i * b : ℕ) : ℤ) := by
    rw [List.map_map, List.range_eq_range']; rfl
  have hlast : ((List.range' 0 (d + 1)).map fun i => ((i * b : ℕ) : ℤ)).getLast? = some ((d * b : ℕ) : ℤ) := by
    rw [← List.range_eq_range', List.range_succ, List.map_append]; simp
  rw [hmap, blockLens, hlast]
  simp only [hdiff d 0]
  rw [List.replicate_succ', Option.some_inj]
  congr 2
  push_cast; ring

/-- When `b` does not divide `n` the last indices belong to no block of `start_locations`/`end_locations`. -/
theorem c74_remainder_uncovered : startLocations 5 2 = some [0, 2] ∧ endLocations 5 2 = some [1, 3] := by decide

example : startLocations 6 2 = some [0, 2, 4] ∧ blockLens [0, 2, 4] 6 = some [2, 2, 2] := by decide

example := c74_tiles 12 4 (by norm_num) (by norm_num)

example := c74_block_lens [0, 3, 4, 9] 11 (by decide) rfl (by decide)

example := c74_round_trip 12 4 (by norm_num) (by norm_num) (by norm_num)

end Verif.Block
