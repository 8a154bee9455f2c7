import Verif.Tools.PerfModel
import Verif.Pursuit.UtilProps
import Verif.Pursuit.GreedyLemmas
import Mathlib.Analysis.SpecialFunctions.Pow.Real
import Mathlib.Data.List.GetD
import Mathlib.Tactic.NormNum

set_option autoImplicit false
/-!
# Recovery performance (C76)
-/
noncomputable section
namespace Verif.Tools
open Verif.Pursuit

theorem mem_T0 (x : List ℝ) (i : ℕ) : i ∈ suppT0 x ↔ i < x.length ∧ x.getD i 0 ≠ 0 := by simp [suppT0]

theorem T0_sorted (x : List ℝ) : (suppT0 x).Pairwise (· < ·) := List.pairwise_lt_range.filter _

theorem perfH_length (x xhat : List ℝ) : (perfH x xhat).length = x.length := by simp [perfH]

theorem perfH_getD (x xhat : List ℝ) {i : ℕ} (hi : i < x.length) : (perfH x xhat).getD i 0 = x.getD i 0 - xhat.getD i 0 := by
  simp [perfH, List.getD_eq_getElem?_getD, hi]

theorem K_le (x : List ℝ) : perfK x ≤ x.length := by
  unfold perfK suppT0
  exact (List.length_filter_le _ _).trans (by simp)

/-- **C76** `T0` lists the non-zero positions of `x` in ascending order, `T0C` the zero ones, and every index is in exactly one of them; `TRest` consists of the indices in neither `T0` nor `T1`; `T1` has `K` distinct indices below `N`. -/
theorem c76_sets (x xhat : List ℝ) :
    (∀ i, i ∈ suppT0 x ↔ i < x.length ∧ x.getD i 0 ≠ 0) ∧ (suppT0 x).Pairwise (· < ·) ∧
    (∀ i, i ∈ suppT0C x ↔ i < x.length ∧ x.getD i 0 = 0) ∧ (suppT0C x).Pairwise (· < ·) ∧
    (∀ i, i ∈ suppTRest x xhat ↔ i < x.length ∧ i ∉ suppT0 x ∧ i ∉ suppT1 x xhat) ∧
    (suppT1 x xhat).Nodup ∧ (suppT1 x xhat).length = perfK x ∧ (∀ i ∈ suppT1 x xhat, i < x.length) := by
  obtain ⟨h1, h2, h3, -⟩ := c51_largest_indices (zeroAt (perfH x xhat) (suppT0 x)) (perfK x)
  rw [zeroAt_length, perfH_length] at h2 h3
  refine ⟨mem_T0 x, T0_sorted x, fun i => ?_, List.pairwise_lt_range.filter _, fun i => ?_, h1, h2.trans (min_eq_left (K_le x)), h3⟩
  · simp only [suppT0C, List.mem_filter, List.mem_range, decide_eq_true_eq, mem_T0, not_and, not_not]
    exact ⟨fun ⟨a, b⟩ => ⟨a, b a⟩, fun ⟨a, b⟩ => ⟨a, fun _ => b⟩⟩
  · simp only [suppTRest, suppT0C, List.mem_filter, List.mem_range, decide_eq_true_eq, and_assoc]

/-- **C76** `T1` collects the largest errors outside `T0`: an index outside both has an error at most that of every index of `T1` outside `T0`. -/
theorem c76_T1_largest (x xhat : List ℝ) : ∀ i ∈ suppT1 x xhat, i ∉ suppT0 x → ∀ j ∈ suppTRest x xhat, |x.getD j 0 - xhat.getD j 0| ≤ |x.getD i 0 - xhat.getD i 0| := by
  intro i hi hi0 j hj
  obtain ⟨-, -, h3, -, h5⟩ := c51_largest_indices (zeroAt (perfH x xhat) (suppT0 x)) (perfK x)
  obtain ⟨hj1, hj2, hj3⟩ := ((c76_sets x xhat).2.2.2.2.1 j).mp hj
  rw [zeroAt_length, perfH_length] at h3 h5
  have := h5 i hi j hj1 hj3
  have hi' := h3 i hi
  rw [zeroAt_getD _ _ (by rw [perfH_length]; exact hj1), zeroAt_getD _ _ (by rw [perfH_length]; exact hi'), if_neg hi0, if_neg hj2, perfH_getD _ _ hj1, perfH_getD _ _ hi'] at this
  simpa using this

/-- **C76** `T0`, `T1`, `TRest` partition the index set when the estimate is wrong in at least `K` places outside the support of `x`. -/
theorem c76_partition_partial (x xhat : List ℝ) (hc : perfK x ≤ ((Finset.range x.length).filter fun i => x.getD i 0 = 0 ∧ xhat.getD i 0 ≠ 0).card) :
    (suppT0 x ++ suppT1 x xhat ++ suppTRest x xhat).Perm (List.range x.length) := by
  obtain ⟨h1, h2, h3, h4, h5, h6, h7, h8⟩ := c76_sets x xhat
  have hdis : ∀ i ∈ suppT1 x xhat, i ∉ suppT0 x := by
    refine largest_disjoint (perfH x xhat) (suppT0 x) (perfK x) (hc.trans (Finset.card_le_card ?_))
    intro i hi
    rw [Finset.mem_filter, Finset.mem_range] at hi ⊢
    obtain ⟨a, b, c⟩ := hi
    refine ⟨by rwa [perfH_length], ?_, ?_⟩
    · rw [mem_T0]; exact fun hh => hh.2 b
    · rw [perfH_getD _ _ a, b, zero_sub]; exact neg_ne_zero.mpr c
  refine (List.perm_ext_iff_of_nodup ?_ List.nodup_range).mpr ?_
  · rw [List.append_assoc, List.nodup_append]
    refine ⟨h2.imp (fun h => ne_of_lt h), ?_, ?_⟩
    · rw [List.nodup_append]
      refine ⟨h6, (h4.imp (fun h => ne_of_lt h)).filter _, ?_⟩
      intro a ha b hb hab
      exact ((h5 b).mp hb).2.2 (hab ▸ ha)
    · intro a ha b hb hab
      rcases List.mem_append.mp hb with hb | hb
      · exact hdis b hb (hab ▸ ha)
      · exact ((h5 b).mp hb).2.1 (hab ▸ ha)
  · intro i
    simp only [List.mem_append, List.mem_range]
    constructor
    · rintro ((h | h) | h)
      · exact ((h1 i).mp h).1
      · exact h8 i h
      · exact ((h5 i).mp h).1
    · intro h
      by_cases a : i ∈ suppT0 x
      · exact Or.inl (Or.inl a)
      · by_cases b : i ∈ suppT1 x xhat
        · exact Or.inl (Or.inr b)
        · exact Or.inr ((h5 i).mpr ⟨h, a, b⟩)

/-- **C76** without that condition the three sets need not be disjoint: for the exact estimate `x = x_hat = (1)` the sets `T0` and `T1` coincide. -/
theorem c76_partition_fails : ¬ ∀ x xhat : List ℝ, x.length = xhat.length → (suppT0 x ++ suppT1 x xhat ++ suppTRest x xhat).Perm (List.range x.length) := by
  intro h
  have hp := h [1] [1] rfl
  have hl := hp.length_eq
  have hK : perfK [1] = 1 := by simp [perfK, suppT0]
  have h7 := (c76_sets [1] [1]).2.2.2.2.2.2.1
  rw [hK] at h7
  have h0 : (suppT0 [1]).length = 1 := hK
  simp only [List.length_append, h7, h0] at hl
  simp at hl
  omega

theorem R0_perm (x xhat : List ℝ) : (suppR0 x xhat).Perm (largestIndices xhat (perfK x)) := List.mergeSort_perm _ _

/-- **C76** the overlap is the set of indices both in the support of `x` and among the `K` largest entries of the estimate; its size lies between 0 and `K`. -/
theorem c76_overlap (x xhat : List ℝ) :
    (∀ i, i ∈ perfOverlap x xhat ↔ (i < x.length ∧ x.getD i 0 ≠ 0) ∧ i ∈ largestIndices xhat (perfK x)) ∧ (perfOverlap x xhat).Nodup ∧
    numCorrect x xhat = (perfOverlap x xhat).length ∧ numCorrect x xhat ≤ perfK x := by
  refine ⟨fun i => ?_, ((T0_sorted x).imp (fun h => ne_of_lt h)).filter _, rfl, List.length_filter_le _ _⟩
  simp only [perfOverlap, List.mem_filter, decide_eq_true_eq, mem_T0, (R0_perm x xhat).mem_iff]

/-- **C76** perfect support recovery is reported exactly when the `K` largest entries of the estimate are the support of `x`. -/
theorem c76_perfect (x xhat : List ℝ) (hl : xhat.length = x.length) :
    (perfectRecovery x xhat ↔ ∀ i, i ∈ largestIndices xhat (perfK x) ↔ i < x.length ∧ x.getD i 0 ≠ 0) ∧
    (perfectRecovery x xhat ↔ numCorrect x xhat = perfK x) := by
  have hle := (c76_overlap x xhat).2.2.2
  have hiff : perfectRecovery x xhat ↔ numCorrect x xhat = perfK x := by
    unfold perfectRecovery; omega
  refine ⟨?_, hiff⟩
  rw [hiff]
  obtain ⟨h1, h2, h3, -⟩ := c51_largest_indices xhat (perfK x)
  have h2' : (largestIndices xhat (perfK x)).length = perfK x := by
    rw [h2, hl]; exact min_eq_left (K_le x)
  have hTn : (suppT0 x).Nodup := (T0_sorted x).imp (fun h => ne_of_lt h)
  constructor
  · intro he
    have hsub : suppT0 x ⊆ largestIndices xhat (perfK x) := by
      intro i hi
      have : perfOverlap x xhat = suppT0 x := List.Sublist.eq_of_length (List.filter_sublist) he
      rw [← this] at hi
      exact (((c76_overlap x xhat).1 i).mp hi).2
    have hperm : (suppT0 x).Perm (largestIndices xhat (perfK x)) :=
      (List.subperm_of_subset hTn hsub).perm_of_length_le (by rw [h2']; exact le_rfl)
    intro i
    rw [← mem_T0, hperm.mem_iff]
  · intro hall
    have : perfOverlap x xhat = suppT0 x := by
      refine List.filter_eq_self.mpr fun i hi => ?_
      rw [decide_eq_true_eq, (R0_perm x xhat).mem_iff, hall]
      exact (mem_T0 x i).mp hi
    show (perfOverlap x xhat).length = _
    rw [this]; rfl

/-- **C76** an exact estimate has perfect support recovery. -/
theorem c76_exact (x : List ℝ) : perfectRecovery x x ∧ ∀ i, i < x.length → (perfH x x).getD i 0 = 0 := by
  refine ⟨(c76_perfect x x rfl).1.mpr fun i => ?_, fun i hi => by rw [perfH_getD _ _ hi, sub_self]⟩
  obtain ⟨h1, h2, h3, h4, h5⟩ := c51_largest_indices x (perfK x)
  have hTn : (suppT0 x).Nodup := (T0_sorted x).imp (fun h => ne_of_lt h)
  have hlen : (largestIndices x (perfK x)).length = perfK x := h2.trans (min_eq_left (K_le x))
  -- every non-zero position is selected
  have hsub : suppT0 x ⊆ largestIndices x (perfK x) := by
    intro j hj
    by_contra hno
    obtain ⟨hj1, hj2⟩ := (mem_T0 x j).mp hj
    have hall : ∀ i ∈ largestIndices x (perfK x), i ∈ suppT0 x := by
      intro i hi
      refine (mem_T0 x i).mpr ⟨h3 i hi, fun h0 => ?_⟩
      have := h5 i hi j hj1 hno
      rw [h0, norm_zero] at this
      exact hj2 (norm_le_zero_iff.mp this)
    have hperm : (largestIndices x (perfK x)).Perm (suppT0 x) :=
      (List.subperm_of_subset h1 hall).perm_of_length_le (by rw [hlen]; exact le_rfl)
    exact hno (hperm.mem_iff.mpr hj)
  have hperm : (suppT0 x).Perm (largestIndices x (perfK x)) :=
    (List.subperm_of_subset hTn hsub).perm_of_length_le (by rw [hlen]; exact le_rfl)
  rw [← hperm.mem_iff, mem_T0]

theorem listNorm_nonneg (x : List ℝ) : 0 ≤ listNorm x := Real.sqrt_nonneg _

theorem listNorm_pos (x : List ℝ) (h : perfK x ≠ 0) : 0 < listNorm x := by
  obtain ⟨i, hi⟩ := List.exists_mem_of_length_pos (Nat.pos_of_ne_zero h)
  obtain ⟨hi1, hi2⟩ := (mem_T0 x i).mp hi
  refine Real.sqrt_pos.mpr ?_
  have hmem : x.getD i 0 ∈ x := by
    rw [List.getD_eq_getElem?_getD, List.getElem?_eq_getElem hi1]; exact List.getElem_mem hi1
  have h1 : (x.getD i 0) ^ 2 ∈ x.map fun c => c ^ 2 := List.mem_map.mpr ⟨_, hmem, rfl⟩
  have h2 := List.single_le_sum (l := x.map fun c : ℝ => c ^ 2) (by intro a ha; obtain ⟨c, _, rfl⟩ := List.mem_map.mp ha; positivity) _ h1
  have : 0 < (x.getD i 0) ^ 2 := by positivity
  linarith

/-- **C76** `success` is defined exactly for non-zero signals; it says that more than three quarters of the support are among the `K` largest entries of the estimate and that the error is more than `10^(3/2)` times (30 dB) smaller than the signal. -/
theorem c76_success (x xhat : List ℝ) :
    (perfSuccess x xhat = none ↔ ∀ i, i < x.length → x.getD i 0 = 0) ∧
    ∀ b, perfSuccess x xhat = some b → (b ↔ 3 * perfK x < 4 * numCorrect x xhat ∧ listNorm (perfH x xhat) * (10 : ℝ) ^ (3 / 2 : ℝ) < listNorm x) := by
  have hK : perfK x = 0 ↔ ∀ i, i < x.length → x.getD i 0 = 0 := by
    unfold perfK
    rw [List.length_eq_zero_iff, List.eq_nil_iff_forall_not_mem]
    refine forall_congr' fun i => ?_
    rw [mem_T0]
    tauto
  constructor
  · rw [← hK]
    unfold perfSuccess recoveryRatio
    split_ifs with h <;> simp [h]
  · intro b hb
    unfold perfSuccess recoveryRatio at hb
    split_ifs at hb with h
    · cases hb
    · simp only [Option.map_some, Option.some_inj] at hb
      rw [← hb]
      have hKpos : (0 : ℝ) < perfK x := by exact_mod_cast Nat.pos_of_ne_zero h
      have hx := listNorm_pos x h
      refine and_congr ?_ ?_
      · rw [gt_iff_lt, lt_div_iff₀ hKpos]
        constructor
        · intro hh
          have : (3 * perfK x : ℝ) < 4 * numCorrect x xhat := by linarith
          exact_mod_cast this
        · intro hh
          have : (3 * perfK x : ℝ) < 4 * numCorrect x xhat := by exact_mod_cast hh
          linarith
      · unfold recoverySnr
        split_ifs with h0
        · rw [h0, zero_mul]
          exact ⟨fun _ => hx, fun _ => WithTop.coe_lt_top _⟩
        · have hh : 0 < listNorm (perfH x xhat) := lt_of_le_of_ne (listNorm_nonneg _) (Ne.symm h0)
          rw [gt_iff_lt, WithTop.coe_lt_coe]
          have e1 : (30 : ℝ) < 20 * Real.logb 10 (listNorm x / listNorm (perfH x xhat)) ↔ (3 / 2 : ℝ) < Real.logb 10 (listNorm x / listNorm (perfH x xhat)) := by
            constructor <;> intro hh <;> linarith
          rw [e1, Real.lt_logb_iff_rpow_lt (by norm_num) (div_pos hx hh), lt_div_iff₀ hh, mul_comm]

/-- A signal with two non-zero entries among five; the estimate is wrong at two further places. -/
theorem ex_perfK : perfK [1, 0, 2, 0, 0] ≤ ((Finset.range 5).filter fun i => ([1, 0, 2, 0, 0] : List ℝ).getD i 0 = 0 ∧ ([1, 3, 0, 4, 0] : List ℝ).getD i 0 ≠ 0).card := by
  have h1 : perfK [1, 0, 2, 0, 0] = 2 := by simp [perfK, suppT0, List.range_succ, List.filter_cons]
  rw [h1]
  have : ({1, 3} : Finset ℕ) ⊆ (Finset.range 5).filter fun i => ([1, 0, 2, 0, 0] : List ℝ).getD i 0 = 0 ∧ ([1, 3, 0, 4, 0] : List ℝ).getD i 0 ≠ 0 := by
    intro i hi
    simp only [Finset.mem_insert, Finset.mem_singleton] at hi
    rcases hi with rfl | rfl <;> simp
  exact (by decide : 2 ≤ ({1, 3} : Finset ℕ).card).trans (Finset.card_le_card this)

/-- **C76** the estimate of a result with support `I` and coefficients `x_I` has the coefficient `x_I[k]` at the index `I[k]` and zeros elsewhere.
Missing: a result which only holds the full vector `x` (`c76_solution_fails`). -/
theorem c76_solution_partial (N : ℕ) (sol : PySol) (I : List ℕ) (v : List ℝ) (hs : ∀ s, PyValue.str s ∉ sol.values)
    (hI : sol.attr "I" = some (.indices I)) (hv : sol.attr "x_I" = some (.array v)) (hl : I.length = v.length) (hnd : I.Nodup) :
    ∃ xh, solEstimate N sol = some xh ∧ xh.length = N ∧ (∀ k, k < I.length → I.getD k 0 < N → xh.getD (I.getD k 0) 0 = v.getD k 0) ∧
      ∀ i, i ∉ I → xh.getD i 0 = 0 := by
  have h0 : sol.hasStr "x" = false := by
    rw [PySol.hasStr, List.any_eq_false]
    intro w hw
    cases w with
    | str s => exact absurd hw (hs s)
    | _ => simp
  refine ⟨(List.range N).map (buildSignal I v), by simp [solEstimate, h0, hI, hv], by simp, ?_, ?_⟩
  · intro k hk hN
    rw [List.getD_eq_getElem _ _ (by simpa using hN), List.getElem_map, List.getElem_range]
    clear hI hN hv
    induction I generalizing v k with
    | nil => simp at hk
    | cons a I ih =>
      cases v with
      | nil => simp at hl
      | cons w v =>
        have hl' : I.length = v.length := by simpa using hl
        have ha := (List.nodup_cons.mp hnd).1
        cases k with
        | zero => simp [buildSignal, ← hl', ha]
        | succ k =>
          have hk' : k < I.length := by simpa using hk
          have hm : I.getD k 0 ∈ I := by rw [List.getD_eq_getElem _ _ hk']; exact List.getElem_mem _
          have hne : a ≠ I.getD k 0 := fun e => ha (e ▸ hm)
          simp only [List.getD_cons_succ, buildSignal]
          rw [if_neg (fun hh => hne hh.1)]
          exact ih v hl' (List.nodup_cons.mp hnd).2 k hk'
  · intro i hi
    by_cases hN : i < N
    · rw [List.getD_eq_getElem _ _ (by simpa using hN), List.getElem_map, List.getElem_range]
      clear hI hl hnd hv
      induction I generalizing v with
      | nil => cases v <;> rfl
      | cons a I ih =>
        cases v with
        | nil => rfl
        | cons w v =>
          have h1 : i ≠ a ∧ i ∉ I := by simpa using hi
          simp only [buildSignal]
          rw [if_neg (fun hh => h1.1 hh.1.symm)]
          exact ih v h1.2
    · rw [List.getD_eq_default _ _ (by simpa using hN)]

/-- **C76, refutation** `'x' in sol` looks for the string among the values of the result, so the full vector `x` of a result is never used: when
there is no `I` the construction raises. -/
theorem c76_solution_fails (N : ℕ) (sol : PySol) (hs : ∀ s, PyValue.str s ∉ sol.values) (hI : sol.attr "I" = none) : solEstimate N sol = none := by
  have h0 : sol.hasStr "x" = false := by
    rw [PySol.hasStr, List.any_eq_false]
    intro w hw
    cases w with
    | str s => exact absurd hw (hs s)
    | _ => simp
  simp [solEstimate, h0, hI]

/-- A result with the vector `x = (3, 4)` only, such as the one of `lsqr` or `yall1`. -/
example : solEstimate 2 { values := [.array [3, 4]], attr := fun s => if s = "x" then some (.array [3, 4]) else none } = none :=
  c76_solution_fails 2 _ (by simp) (by simp)

/-- A greedy result with support `{2, 0}`. -/
example : solEstimate 3 { values := [.indices [2, 0], .array [5, 7]], attr := fun s => if s = "I" then some (.indices [2, 0]) else if s = "x_I" then some (.array [5, 7]) else none } = some [7, 0, 5] := by
  simp [solEstimate, PySol.hasStr, List.range_succ, buildSignal]

example := c76_partition_partial [1, 0, 2, 0, 0] [1, 3, 0, 4, 0] ex_perfK
example := c76_perfect [1, 0, 2, 0, 0] [1, 3, 0, 4, 0] rfl
example := c76_T1_largest [1, 0, 2, 0, 0] [1, 3, 0, 4, 0] 3
example := c76_solution_partial 3 { values := [.indices [2, 0], .array [5, 7]], attr := fun s => if s = "I" then some (.indices [2, 0]) else if s = "x_I" then some (.array [5, 7]) else none }
  [2, 0] [5, 7] (by simp) (by simp) (by simp) rfl (by simp)

end Verif.Tools
