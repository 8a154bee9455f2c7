import Verif.Data.RandomModel
import Verif.Pursuit.GreedyLemmas
import Mathlib.Tactic.NormNum
import Mathlib.Tactic.Linarith

set_option autoImplicit false
/-!
# Synthetic sparse signals (C71)
-/
noncomputable section
namespace Verif.Data
open Verif.Pursuit

theorem buildSignal_at : ∀ (I : List ℕ) (x : List ℝ) (k : ℕ) (hk : k < I.length), I.Nodup → x.length = I.length → buildSignal I x I[k] = x.getD k 0
  | [], _, k, hk, _, _ => by simp at hk
  | i :: I, [], k, _, _, hl => by simp at hl
  | i :: I, v :: x, 0, _, hn, hl => by
    rw [List.nodup_cons] at hn
    have : i ∉ I.take x.length := fun h => hn.1 (List.mem_of_mem_take h)
    simp [buildSignal, this]
  | i :: I, v :: x, k + 1, hk, hn, hl => by
    rw [List.nodup_cons] at hn
    have hk' : k < I.length := by simpa using hk
    have hne : i ≠ I[k] := fun h => hn.1 (h ▸ List.getElem_mem hk')
    simp only [List.getElem_cons_succ, buildSignal]
    rw [if_neg (fun h => hne h.1), buildSignal_at I x k hk' hn.2 (by simpa using hl)]
    simp [List.getD_eq_getElem?_getD]

theorem setRows_at (rows : List ℕ) (values : ℕ → ℕ → ℝ) (k s : ℕ) (hk : k < rows.length) (hn : rows.Nodup) : setRows rows values rows[k] s = values k s := by
  unfold setRows
  rw [buildSignal_at rows _ k hk hn (by simp)]
  simp [List.getD_eq_getElem?_getD, hk]

theorem setRows_off (rows : List ℕ) (values : ℕ → ℕ → ℝ) (i s : ℕ) (hi : i ∉ rows) : setRows rows values i s = 0 := by
  unfold setRows
  exact buildSignal_not_mem (𝕜 := ℝ) rows _ i hi

/-- What a user expects of the returned index set: `K` positions below `D`, strictly increasing. -/
structure IsSupport (D K : ℕ) (omega : List ℕ) : Prop where
  len : omega.length = K
  sorted : omega.Pairwise (· < ·)
  range : ∀ i ∈ omega, i < D

theorem sorted_of_nodup (l : List ℕ) (h : l.Nodup) : l.mergeSort.Pairwise (· < ·) := by
  have h1 : l.mergeSort.Pairwise (· ≤ ·) := by
    have := List.pairwise_mergeSort (le := fun a b : ℕ => decide (a ≤ b)) (by intro x y z; simpa using le_trans) (by intro x y; simpa using le_total _ _) l
    simpa using this
  have h2 : l.mergeSort.Nodup := (List.mergeSort_perm l _).nodup_iff.mpr h
  exact (h1.and h2).imp fun h => lt_of_le_of_ne h.1 h.2

theorem omega_support (D K : ℕ) (hK : K ≤ D) (perm : List ℕ) (hp : perm.Perm (List.range D)) : IsSupport D K (omegaOf perm K) := by
  have hm : (omegaOf perm K).Perm (perm.take K) := List.mergeSort_perm _ _
  have hn : (perm.take K).Nodup := (hp.nodup_iff.mpr List.nodup_range).sublist (List.take_sublist _ _)
  refine ⟨?_, sorted_of_nodup _ hn, ?_⟩
  · rw [hm.length_eq, List.length_take, hp.length_eq, List.length_range]; omega
  · intro i hi
    have := (hp.mem_iff).mp (List.mem_of_mem_take (hm.mem_iff.mp hi))
    simpa using this

/-- **C71** `sparse_normal_representations`: whatever the draws, the index set has `K` increasing positions, the signals carry the drawn values there and are zero elsewhere. -/
theorem c71_normal (D K : ℕ) (hK : K ≤ D) (perm : List ℕ) (hp : perm.Perm (List.range D)) (normals : ℕ → ℕ → ℝ) :
    let r := sparseNormalRepresentations perm K normals
    IsSupport D K r.2 ∧ (∀ k s (hk : k < r.2.length), r.1 r.2[k] s = normals k s) ∧ ∀ i s, i ∉ r.2 → r.1 i s = 0 := by
  have h := omega_support D K hK perm hp
  exact ⟨h, fun k s hk => setRows_at _ _ k s hk (h.sorted.imp fun h => ne_of_lt h), fun i s hi => setRows_off _ _ i s hi⟩

/-- **C71** `sparse_biuniform_representations`: the non-zero entries have magnitudes between `a` and `b`; this needs the normal draws behind the signs to be non-zero (an event of probability one). -/
theorem c71_biuniform_partial (a b : ℝ) (ha : 0 ≤ a) (hab : a ≤ b) (D K : ℕ) (hK : K ≤ D) (perm : List ℕ) (hp : perm.Perm (List.range D)) (uniforms normals : ℕ → ℕ → ℝ)
    (hu : ∀ k s, 0 ≤ uniforms k s ∧ uniforms k s < 1) (hn : ∀ k s, normals k s ≠ 0) :
    let r := sparseBiuniformRepresentations a b perm K uniforms normals
    IsSupport D K r.2 ∧ (∀ i ∈ r.2, ∀ s, a ≤ |r.1 i s| ∧ |r.1 i s| ≤ b) ∧ ∀ i s, i ∉ r.2 → r.1 i s = 0 := by
  have h := omega_support D K hK perm hp
  refine ⟨h, fun i hi s => ?_, fun i s hi => setRows_off (omegaOf perm K) (fun k s => Real.sign (normals k s) * (a + (b - a) * uniforms k s)) i s hi⟩
  obtain ⟨k, hk, rfl⟩ := List.mem_iff_getElem.mp hi
  have e : (sparseBiuniformRepresentations a b perm K uniforms normals).1 (omegaOf perm K)[k] s = Real.sign (normals k s) * (a + (b - a) * uniforms k s) :=
    setRows_at (omegaOf perm K) (fun k s => Real.sign (normals k s) * (a + (b - a) * uniforms k s)) k s hk (h.sorted.imp fun h => ne_of_lt h)
  have e' : (sparseBiuniformRepresentations a b perm K uniforms normals).1 (sparseBiuniformRepresentations a b perm K uniforms normals).2[k] s = _ := e
  rw [e', abs_mul]
  have hs : |Real.sign (normals k s)| = 1 := by
    rcases Real.sign_apply_eq_of_ne_zero _ (hn k s) with h | h <;> rw [h] <;> simp
  obtain ⟨u0, u1⟩ := hu k s
  have h1 : 0 ≤ (b - a) * uniforms k s := mul_nonneg (by linarith) u0
  have h2 : (b - a) * uniforms k s ≤ b - a := by nlinarith
  rw [hs, one_mul, abs_of_nonneg (by linarith)]
  exact ⟨by linarith, by linarith⟩

/-- **C71** a zero normal draw gives a zero in place of an entry with magnitude at least `a`. -/
theorem c71_biuniform_fails : ¬ ∀ (perm : List ℕ) (uniforms normals : ℕ → ℕ → ℝ), perm.Perm (List.range 1) → (∀ k s, 0 ≤ uniforms k s ∧ uniforms k s < 1) →
    ∀ i ∈ (sparseBiuniformRepresentations 1 2 perm 1 uniforms normals).2, ∀ s, 1 ≤ |(sparseBiuniformRepresentations 1 2 perm 1 uniforms normals).1 i s| := by
  intro h
  have h0 := h [0] (fun _ _ => 0) (fun _ _ => 0) (by decide) (by intros; norm_num) 0 (by simp [sparseBiuniformRepresentations, omegaOf]) 0
  have e : (sparseBiuniformRepresentations 1 2 [0] 1 (fun _ _ => 0) (fun _ _ => 0)).1 0 0 = 0 := by
    simp [sparseBiuniformRepresentations, setRows, omegaOf, buildSignal]
  rw [e] at h0
  norm_num at h0

/-- **C71** `sparse_spikes`: every entry on the index set is `+1` or `-1` when its normal draw is non-zero, and `0` when the draw is zero. -/
theorem c71_spikes_partial (N K : ℕ) (hK : K ≤ N) (perm : List ℕ) (hp : perm.Perm (List.range N)) (normals : ℕ → ℕ → ℝ) :
    let r := sparseSpikes perm K normals
    IsSupport N K r.2 ∧ (∀ k s (hk : k < r.2.length), (normals k s ≠ 0 → r.1 r.2[k] s = 1 ∨ r.1 r.2[k] s = -1) ∧ (normals k s = 0 → r.1 r.2[k] s = 0)) ∧ ∀ i s, i ∉ r.2 → r.1 i s = 0 := by
  have h := omega_support N K hK perm hp
  refine ⟨h, fun k s hk => ?_, fun i s hi => setRows_off (omegaOf perm K) (fun k s => Real.sign (normals k s)) i s hi⟩
  have e : (sparseSpikes perm K normals).1 (omegaOf perm K)[k] s = Real.sign (normals k s) := setRows_at (omegaOf perm K) (fun k s => Real.sign (normals k s)) k s hk (h.sorted.imp fun h => ne_of_lt h)
  have e' : (sparseSpikes perm K normals).1 (sparseSpikes perm K normals).2[k] s = Real.sign (normals k s) := e
  rw [e']
  refine ⟨fun h0 => (Real.sign_apply_eq_of_ne_zero _ h0).symm, fun h0 => by rw [h0, Real.sign_zero]⟩

/-- **C71** `index_sets`: each index set has `K` distinct positions below `N`. -/
theorem c71_index_sets (N K : ℕ) (hK : K ≤ N) (perms : ℕ → List ℕ) (hp : ∀ s, (perms s).Perm (List.range N)) (s : ℕ) :
    (indexSets perms K s).length = K ∧ (indexSets perms K s).Nodup ∧ ∀ i ∈ indexSets perms K s, i < N := by
  refine ⟨?_, ((hp s).nodup_iff.mpr List.nodup_range).sublist (List.take_sublist _ _), fun i hi => ?_⟩
  · unfold indexSets; rw [List.length_take, (hp s).length_eq, List.length_range]; omega
  · simpa using ((hp s).mem_iff).mp (List.mem_of_mem_take hi)

/-- **C71** `points_orthogonal_to`: for `x ≠ 0` every point is orthogonal to `x`, and differs from its draw by a multiple of `x`; it is an error exactly for `x = 0`. -/
theorem c71_orthogonal {E : Type*} [NormedAddCommGroup E] [InnerProductSpace ℝ E] (x g : E) :
    (pointOrthogonalTo x g = none ↔ x = 0) ∧ ∀ z, pointOrthogonalTo x g = some z → inner ℝ z x = 0 ∧ ∃ c : ℝ, g - z = c • x := by
  unfold pointOrthogonalTo
  constructor
  · split_ifs with h
    · simpa using h
    · simpa using h
  · intro z hz
    split_ifs at hz with h
    simp only [Option.some_inj] at hz
    subst hz
    refine ⟨?_, inner ℝ g (‖x‖⁻¹ • x) * ‖x‖⁻¹, ?_⟩
    · rw [inner_sub_left, inner_smul_left, inner_smul_left, inner_smul_right, real_inner_self_eq_norm_sq]
      simp only [conj_trivial]
      field_simp
      ring
    · rw [sub_sub_cancel, smul_smul]

theorem getElem_flatMap_map (B : ℕ) (blocks : List ℕ) : ∀ (k b : ℕ) (hk : k < blocks.length), b < B → (blockIndices B blocks)[k * B + b]? = some (b + B * blocks[k]) := by
  induction blocks with
  | nil => intro k b hk; simp at hk
  | cons q blocks ih =>
    intro k b hk hb
    unfold blockIndices
    rw [List.flatMap_cons]
    cases k with
    | zero => 
      rw [List.getElem?_append_left (by simp; omega)]
      simp [hb]
    | succ k =>
      rw [List.getElem?_append_right (by simp; nlinarith)]
      have : (k + 1) * B + b - ((List.range B).map fun b => b + B * q).length = k * B + b := by
        simp only [List.length_map, List.length_range]
        have : (k + 1) * B = k * B + B := by ring
        omega
      rw [this]
      exact ih k b (by simpa using hk) hb

theorem mem_blockIndices (B : ℕ) (hB : 0 < B) (blocks : List ℕ) (i : ℕ) : i ∈ blockIndices B blocks ↔ i / B ∈ blocks := by
  simp only [blockIndices, List.mem_flatMap, List.mem_map, List.mem_range]
  constructor
  · rintro ⟨k, hk, b, hb, rfl⟩
    rw [Nat.add_mul_div_left _ _ hB, Nat.div_eq_of_lt hb, zero_add]; exact hk
  · intro h
    exact ⟨i / B, h, i % B, Nat.mod_lt _ hB, Nat.mod_add_div i B⟩

theorem blockIndices_sorted (B : ℕ) (blocks : List ℕ) (hs : blocks.Pairwise (· < ·)) : (blockIndices B blocks).Pairwise (· < ·) := by
  unfold blockIndices
  rw [List.pairwise_flatMap]
  refine ⟨fun k _ => ?_, hs.imp fun {k k'} hkk => ?_⟩
  · rw [List.pairwise_map]
    exact List.pairwise_lt_range.imp fun h => Nat.add_lt_add_right h _
  · intro x hx y hy
    obtain ⟨b, hb, rfl⟩ := List.mem_map.mp hx
    obtain ⟨b', _, rfl⟩ := List.mem_map.mp hy
    rw [List.mem_range] at hb
    have : B * (k + 1) ≤ B * k' := Nat.mul_le_mul_left B hkk
    rw [mul_add, mul_one] at this
    omega

theorem blockIndices_length (B : ℕ) (blocks : List ℕ) : (blockIndices B blocks).length = blocks.length * B := by
  simp [blockIndices, List.length_flatMap]

theorem arRow_zero (v : ℕ → ℝ) : ∀ i, arRow 0 1 v i = v i
  | 0 => rfl
  | i + 1 => by simp [arRow]

/-- **C71** `sparse_normal_blocks`: it succeeds exactly when the block length is positive and divides `D` and `|cor| ≤ 1`; the block numbers are `K` increasing numbers below `D/B`, the index set is the union of the blocks in
increasing order, the signals are zero outside and carry, in block `k` of signal `s`, the values of one generated block. -/
theorem c71_blocks (D K B : ℕ) (cor : ℝ) (nrm : Bool) (choice : List ℕ) (hc : choice.Nodup) (hl : choice.length = K) (hr : ∀ k ∈ choice, k < D / B) (normals : ℕ → ℕ → ℝ) :
    ((∃ r, sparseNormalBlocks D K B cor nrm choice normals = some r) ↔ 0 < B ∧ B ∣ D ∧ |cor| ≤ 1) ∧
    ∀ x blocks indices, sparseNormalBlocks D K B cor nrm choice normals = some (x, blocks, indices) →
      IsSupport (D / B) K blocks ∧ blocks.Perm choice ∧ IsSupport D (K * B) indices ∧ (∀ i, i ∈ indices ↔ i / B ∈ blocks) ∧
      (∀ i s, i / B ∉ blocks → x i s = 0) ∧
      ∀ k (hk : k < blocks.length) b s, b < B → x (B * blocks[k] + b) s = blockValues B cor nrm normals (s * K + k) b := by
  constructor
  · unfold sparseNormalBlocks
    constructor
    · rintro ⟨r, h⟩
      split_ifs at h with h0
      rw [not_or, not_or, not_not, not_lt] at h0
      exact ⟨Nat.pos_of_ne_zero h0.1, ⟨D / B, by rw [mul_comm]; exact h0.2.1⟩, h0.2.2⟩
    · rintro ⟨hB, hd, hcor⟩
      rw [if_neg]
      · exact ⟨_, rfl⟩
      · rw [not_or, not_or, not_not, not_lt]
        exact ⟨hB.ne', (Nat.div_mul_cancel hd).symm, hcor⟩
  · intro x blocks indices h
    unfold sparseNormalBlocks at h
    split_ifs at h with h0
    rw [not_or, not_or, not_not, not_lt] at h0
    obtain ⟨hB0, hD, _⟩ := h0
    have hB : 0 < B := Nat.pos_of_ne_zero hB0
    simp only [Option.some_inj, Prod.mk.injEq] at h
    obtain ⟨rfl, rfl, rfl⟩ := h
    have hp : choice.mergeSort.Perm choice := List.mergeSort_perm _ _
    have hsort := sorted_of_nodup choice hc
    have hlen : choice.mergeSort.length = K := hp.length_eq.trans hl
    have hisort := blockIndices_sorted B _ hsort
    refine ⟨⟨hlen, hsort, fun i hi => hr i (hp.mem_iff.mp hi)⟩, hp, ⟨by rw [blockIndices_length, hlen], hisort, ?_⟩, mem_blockIndices B hB _, ?_, ?_⟩
    · intro i hi
      have h1 := hr _ (hp.mem_iff.mp ((mem_blockIndices B hB _ i).mp hi))
      have h2 : i < (i / B + 1) * B := by
        have := Nat.div_add_mod i B; have := Nat.mod_lt i hB; nlinarith
      have h3 : (i / B + 1) * B ≤ D / B * B := Nat.mul_le_mul_right B h1
      omega
    · intro i s hi
      exact setRows_off _ _ i s fun h => hi ((mem_blockIndices B hB _ i).mp h)
    · intro k hk b s hb
      have hq := getElem_flatMap_map B choice.mergeSort k b hk hb
      obtain ⟨hlt, he⟩ := List.getElem?_eq_some_iff.mp hq
      have hnd : (blockIndices B choice.mergeSort).Nodup := hisort.imp fun h => ne_of_lt h
      have := setRows_at (blockIndices B choice.mergeSort) (reshapeValues K B (blockValues B cor nrm normals)) (k * B + b) s hlt hnd
      rw [he] at this
      rw [add_comm (B * _) b, this]
      unfold reshapeValues
      have e1 : s * (K * B) + (k * B + b) = b + B * (s * K + k) := by ring
      rw [e1, Nat.add_mul_div_left _ _ hB, Nat.div_eq_of_lt hb, zero_add, Nat.add_mul_mod_self_left, Nat.mod_eq_of_lt hb]

/-- **C71** with `normalize_blocks` every generated block whose values are not all zero has unit norm. -/
theorem c71_blocks_unit (B : ℕ) (cor : ℝ) (normals : ℕ → ℕ → ℝ) (q : ℕ) (hne : ∃ b < B, blockValues B cor false normals q b ≠ 0) :
    ∑ b ∈ Finset.range B, blockValues B cor true normals q b ^ 2 = 1 := by
  obtain ⟨b, hb, h0⟩ := hne
  set v := fun c => if cor = 0 then normals q c else arRow cor (Real.sqrt (1 - cor ^ 2)) (normals q) c with hv
  have e1 : ∀ c, blockValues B cor false normals q c = v c := by intro c; simp [blockValues, hv]
  have e2 : ∀ c, blockValues B cor true normals q c = v c / Real.sqrt (∑ c ∈ Finset.range B, v c ^ 2) := by intro c; simp [blockValues, hv]
  rw [e1] at h0
  have hpos : 0 < ∑ c ∈ Finset.range B, v c ^ 2 := Finset.sum_pos' (fun _ _ => sq_nonneg _) ⟨b, Finset.mem_range.mpr hb, by positivity⟩
  simp only [e2, div_pow, Real.sq_sqrt hpos.le]
  rw [← Finset.sum_div, div_self hpos.ne']

/-- **C71** the intra-block model: consecutive entries of a generated block satisfy the AR-1 recursion with parameter `cor` (also for `cor = 0`). -/
theorem c71_blocks_ar (B : ℕ) (cor : ℝ) (normals : ℕ → ℕ → ℝ) (q b : ℕ) :
    blockValues B cor false normals q 0 = normals q 0 ∧
    blockValues B cor false normals q (b + 1) = cor * blockValues B cor false normals q b + Real.sqrt (1 - cor ^ 2) * normals q (b + 1) := by
  unfold blockValues
  by_cases h : cor = 0
  · simp [h]
  · simp [h, arRow]

example : ∃ r, sparseNormalBlocks 6 2 2 0.5 true [2, 0] (fun q b => q + b) = some r :=
  (c71_blocks 6 2 2 0.5 true [2, 0] (by decide) rfl (by decide) _).1.mpr ⟨by norm_num, by norm_num, by rw [abs_of_nonneg] <;> norm_num⟩

example : [2, 0, 1].Perm (List.range 3) := by decide

/-- A permutation of `0, 1, 2`, two nonzeros. -/
example (normals : ℕ → ℕ → ℝ) := c71_normal 3 2 (by norm_num) [2, 0, 1] (by decide) normals

example := c71_biuniform_partial 1 2 (by norm_num) (by norm_num) 3 2 (by norm_num) [2, 0, 1] (by decide) (fun _ _ => 1 / 4) (fun k _ => -(k + 1)) (fun _ _ => by norm_num)
  (fun k _ => by
    have : (0 : ℝ) < k + 1 := by positivity
    linarith)

example (normals : ℕ → ℕ → ℝ) := c71_spikes_partial 3 2 (by norm_num) [2, 0, 1] (by decide) normals

example := c71_index_sets 3 2 (by norm_num) (fun _ => [2, 0, 1]) (fun _ => by decide)

example := c71_blocks_unit 2 0.5 (fun q b => q + b + 1) 1 ⟨0, by norm_num, by norm_num [blockValues, arRow]⟩

end Verif.Data
