import Verif.Cluster.SscModel
import Verif.Pursuit.GreedyLemmas
import Mathlib.Tactic.FieldSimp

set_option autoImplicit false
/-!
# Sparse subspace clustering (C58, C59, C60)
-/
noncomputable section
namespace Verif.Cluster
open Verif.Pursuit

/-! ## C58 -/

theorem buildSignal_sum (F : ℕ → ℝ → ℝ) (hF : ∀ j, F j 0 = 0) (n : ℕ) : ∀ (I : List ℕ) (z : List ℝ), I.Nodup → (∀ i ∈ I, i < n) → z.length = I.length →
    ∑ j ∈ Finset.range n, F j (buildSignal I z j) = (List.zipWith F I z).sum
  | [], z, _, _, _ => by simp [buildSignal, hF]
  | i :: I, [], _, _, h => by simp at h
  | i :: I, c :: z, hn, hr, hl => by
    have ih := buildSignal_sum F hF n I z hn.of_cons (fun j hj => hr j (List.mem_cons_of_mem _ hj)) (by simpa using hl)
    have hi : i ∉ I := (List.nodup_cons.mp hn).1
    have hin : i ∈ Finset.range n := Finset.mem_range.mpr (hr i (List.mem_cons_self ..))
    have e : ∀ j, buildSignal (i :: I) (c :: z) j = if j = i then c else buildSignal I z j := by
      intro j
      simp only [buildSignal]
      by_cases h : j = i
      · subst h; rw [if_pos ⟨rfl, fun hh => hi (List.mem_of_mem_take hh)⟩, if_pos rfl]
      · rw [if_neg (fun hh => h hh.1.symm), if_neg h]
    have e0 : buildSignal I z i = 0 := buildSignal_not_mem I z i hi
    rw [List.zipWith_cons_cons, List.sum_cons, ← ih, ← Finset.add_sum_erase _ _ hin, ← Finset.add_sum_erase (Finset.range n) (fun j => F j (buildSignal I z j)) hin, e i, if_pos rfl, e0, hF, zero_add]
    congr 1
    refine Finset.sum_congr rfl fun j hj => ?_
    rw [e j, if_neg (Finset.ne_of_mem_erase hj)]

theorem column_length {α : Type*} (k : ℕ) (X : ℕ → ℕ → α) (j : ℕ) : (column k X j).length = k := by simp [column]

theorem buildSignal_get : ∀ (I : List ℕ) (z : List ℝ), I.Nodup → z.length = I.length → ∀ r (h : r < I.length), buildSignal I z I[r] = z.getD r 0
  | [], _, _, _, r, h => by simp at h
  | i :: I, [], _, h, _, _ => by simp at h
  | i :: I, c :: z, hn, hl, r, h => by
    have hi : i ∉ I := (List.nodup_cons.mp hn).1
    cases r with
    | zero =>
      show (if i = i ∧ i ∉ I.take z.length then c else buildSignal I z i) = c
      rw [if_pos ⟨rfl, fun hh => hi (List.mem_of_mem_take hh)⟩]
    | succ r =>
      simp only [buildSignal, List.getElem_cons_succ]
      rw [if_neg]
      · exact buildSignal_get I z hn.of_cons (by simpa using hl) r (by simpa using h)
      · rintro ⟨h1, _⟩; exact hi (h1 ▸ List.getElem_mem _)

/-- The stored indices of every column are distinct and in range. -/
def ValidRep (k n : ℕ) (I : ℕ → ℕ → ℕ) : Prop := ∀ j < n, (∀ r < k, I r j < n) ∧ ∀ r < k, ∀ s < k, I r j = I s j → r = s

theorem ValidRep.nodup {k n : ℕ} {I : ℕ → ℕ → ℕ} (h : ValidRep k n I) {j : ℕ} (hj : j < n) : (column k I j).Nodup := by
  rw [column]
  refine (List.nodup_map_iff_inj_on List.nodup_range).mpr ?_
  intro r hr s hs e
  exact (h j hj).2 r (List.mem_range.mp hr) s (List.mem_range.mp hs) e

/-- **C58** `sparse_to_full_rep` puts coefficient `X[r, j]` at row `I[r, j]` of column `j` and zero everywhere else. -/
theorem c58_full_rep (k n : ℕ) (X : ℕ → ℕ → ℝ) (I : ℕ → ℕ → ℕ) (hI : ValidRep k n I) (j : ℕ) (hj : j < n) :
    (∀ r < k, sparseToFullRep k X I (I r j) j = X r j) ∧ ∀ i, (∀ r < k, I r j ≠ i) → sparseToFullRep k X I i j = 0 := by
  constructor
  · intro r hr
    have := buildSignal_get (column k I j) (column k X j) (hI.nodup hj) (by simp [column_length]) r (by simpa [column_length] using hr)
    simpa [column, sparseToFullRep, hr] using this
  · intro i hi
    refine buildSignal_not_mem _ _ _ ?_
    simp only [column, List.mem_map, List.mem_range, not_exists, not_and]
    exact hi

theorem flatten_getD {α : Type*} (d : α) (k n : ℕ) (X : ℕ → ℕ → α) {r c : ℕ} (hr : r < k) (hc : c < n) : (flatten k n X).getD (r * n + c) d = X r c := by
  have hq : r * n + c < k * n := by
    calc r * n + c < r * n + n := by omega
      _ = (r + 1) * n := by ring
      _ ≤ k * n := Nat.mul_le_mul_right n hr
  have h1 : (r * n + c) / n = r := by
    rw [mul_comm, Nat.mul_add_div (by omega), Nat.div_eq_of_lt hc, add_zero]
  have h2 : (r * n + c) % n = c := by rw [mul_comm, Nat.mul_add_mod, Nat.mod_eq_of_lt hc]
  simp [flatten, List.getD, hq, h1, h2]

/-- **C58** `bcoo_to_sparse` undoes `sparse_to_bcoo`: the number of columns, all values and all indices come back. -/
theorem c58_round_trip (k n : ℕ) (hk : 0 < k) (X : ℕ → ℕ → ℝ) (I : ℕ → ℕ → ℕ) :
    (bcooToSparse (sparseToBcoo k n X I) k).1 = n ∧
    ∀ r < k, ∀ c < n, (bcooToSparse (sparseToBcoo k n X I) k).2.1 r c = X r c ∧ (bcooToSparse (sparseToBcoo k n X I) k).2.2 r c = I r c := by
  have hn : (sparseToBcoo k n X I).data.length / k = n := by simp [sparseToBcoo, flatten, Nat.mul_div_cancel_left n hk]
  refine ⟨hn, fun r hr c hc => ?_⟩
  simp only [bcooToSparse, hn, unflatten]
  exact ⟨flatten_getD 0 k n X hr hc, flatten_getD 0 k n I hr hc⟩

theorem list_range_sum (m : ℕ) (f : ℕ → ℝ) : ((List.range m).map f).sum = ∑ q ∈ Finset.range m, f q := by
  induction m with
  | zero => simp
  | succ m ih => rw [List.range_succ, List.map_append, List.sum_append, ih, Finset.sum_range_succ]; simp

theorem sum_range_mul (k n : ℕ) (f : ℕ → ℝ) : ((List.range (k * n)).map f).sum = ∑ r ∈ Finset.range k, ∑ c ∈ Finset.range n, f (r * n + c) := by
  rw [list_range_sum]
  induction k with
  | zero => simp
  | succ k ih =>
    rw [Finset.sum_range_succ, ← ih, Nat.succ_mul, Finset.sum_range_add]

/-- **C58** the two sparse formats denote the same matrix: the dense form of the `BCOO` matrix is the full representation. -/
theorem c58_bcoo_dense (k n : ℕ) (X : ℕ → ℕ → ℝ) (I : ℕ → ℕ → ℕ) (hI : ValidRep k n I) (i j : ℕ) (hj : j < n) :
    (sparseToBcoo k n X I).dense i j = sparseToFullRep k X I i j := by
  have hlen : (sparseToBcoo k n X I).data.length = k * n := by simp [sparseToBcoo, flatten]
  rw [Bcoo.dense, hlen, sum_range_mul]
  have e : ∀ r ∈ Finset.range k, ∑ c ∈ Finset.range n, (if (sparseToBcoo k n X I).rows.getD (r * n + c) 0 = i ∧ (sparseToBcoo k n X I).cols.getD (r * n + c) 0 = j then (sparseToBcoo k n X I).data.getD (r * n + c) 0 else 0)
      = if I r j = i then X r j else 0 := by
    intro r hr
    have hr := Finset.mem_range.mp hr
    have e2 : ∀ c ∈ Finset.range n, (if (sparseToBcoo k n X I).rows.getD (r * n + c) 0 = i ∧ (sparseToBcoo k n X I).cols.getD (r * n + c) 0 = j then (sparseToBcoo k n X I).data.getD (r * n + c) 0 else 0) = if c = j then (if I r j = i then X r j else 0) else 0 := by
      intro c hc
      have hc := Finset.mem_range.mp hc
      have a1 : (sparseToBcoo k n X I).rows.getD (r * n + c) 0 = I r c := flatten_getD 0 k n I hr hc
      have a2 : (sparseToBcoo k n X I).cols.getD (r * n + c) 0 = c := flatten_getD 0 k n (fun _ c => c) hr hc
      have a3 : (sparseToBcoo k n X I).data.getD (r * n + c) 0 = X r c := flatten_getD 0 k n X hr hc
      simp only [a1, a2, a3]
      by_cases h : c = j
      · subst h; simp
      · simp [h]
    rw [Finset.sum_congr rfl e2, Finset.sum_ite_eq' (Finset.range n) j, if_pos (Finset.mem_range.mpr hj)]
  rw [Finset.sum_congr rfl e]
  by_cases h : ∃ r < k, I r j = i
  · obtain ⟨r, hr, rfl⟩ := h
    rw [(c58_full_rep k n X I hI j hj).1 r hr, Finset.sum_eq_single r, if_pos rfl]
    · intro s hs hne
      rw [if_neg]
      intro hh; exact hne ((hI j hj).2 s (Finset.mem_range.mp hs) r hr hh)
    · intro hh; exact absurd (Finset.mem_range.mpr hr) hh
  · push Not at h
    rw [(c58_full_rep k n X I hI j hj).2 i h]
    exact Finset.sum_eq_zero fun r hr => if_neg (h r (Finset.mem_range.mp hr))

/-- **C58** the affinity is symmetric and non-negative, and zero exactly where neither point uses the other. -/
theorem c58_affinity (Z : ℕ → ℕ → ℝ) (i j : ℕ) :
    repToAffinity Z i j = repToAffinity Z j i ∧ 0 ≤ repToAffinity Z i j ∧ (repToAffinity Z i j = 0 ↔ Z i j = 0 ∧ Z j i = 0) := by
  refine ⟨add_comm _ _, add_nonneg (abs_nonneg _) (abs_nonneg _), ?_⟩
  rw [repToAffinity, add_eq_zero_iff_of_nonneg (abs_nonneg _) (abs_nonneg _), abs_eq_zero, abs_eq_zero]

/-- With a repeated index the two formats differ: the full representation keeps the last value, the `BCOO` matrix the sum. -/
theorem c58_repeated_index_fails : sparseToFullRep 2 (fun r _ => if r = 0 then 1 else 2) (fun _ _ => 0) 0 0 = 2 ∧
    (sparseToBcoo 2 1 (fun r _ => if r = 0 then 1 else 2) (fun _ _ => 0)).dense 0 0 = 3 := by
  constructor
  · simp [sparseToFullRep, column, List.range_succ, buildSignal]
  · simp [Bcoo.dense, sparseToBcoo, flatten, List.range_succ]; norm_num

/-- A valid representation with two coefficients per column: each point of three uses the two others. -/
example : ValidRep 2 3 fun r j => (j + r + 1) % 3 := by
  intro j hj
  refine ⟨fun r _ => Nat.mod_lt _ (by norm_num), fun r hr s hs h => ?_⟩
  dsimp only at h
  interval_cases j <;> interval_cases r <;> interval_cases s <;> simp_all

/-! ## C60 -/

/-- **C60** dense statistics of a non-zero column: the error is the fraction of the l1 norm outside the column's own cluster, lies in `[0, 1]`, is zero exactly when no coefficient is outside, and the flag holds exactly when every
outside coefficient is below `1e-3`. For the zero column the error is undefined. -/
theorem c60_dense (n : ℕ) (C : ℕ → ℕ → ℝ) (labels : ℕ → ℕ) (i : ℕ) :
    (∀ h : ∑ j ∈ Finset.range n, |C j i| ≠ 0, ∃ e, denseError n C labels i = some e ∧
      e = (∑ j ∈ (Finset.range n).filter (fun j => labels j ≠ labels i), |C j i|) / ∑ j ∈ Finset.range n, |C j i| ∧ 0 ≤ e ∧ e ≤ 1 ∧
      (e = 0 ↔ ∀ j < n, labels j ≠ labels i → C j i = 0)) ∧
    (denseError n C labels i = none ↔ ∀ j < n, C j i = 0) ∧
    (denseFlag n C labels i ↔ ∀ j < n, labels j ≠ labels i → |C j i| < 1 / 1000) := by
  have hnn : ∀ s : Finset ℕ, 0 ≤ ∑ j ∈ s, |C j i| := fun s => Finset.sum_nonneg fun j _ => abs_nonneg _
  refine ⟨fun h => ?_, ?_, ?_⟩
  · have hsplit := Finset.sum_filter_add_sum_filter_not (Finset.range n) (fun j => labels j = labels i) fun j => |C j i|
    have hT : 0 < ∑ j ∈ Finset.range n, |C j i| := lt_of_le_of_ne (hnn _) (Ne.symm h)
    refine ⟨(∑ j ∈ (Finset.range n).filter (fun j => labels j ≠ labels i), |C j i|) / ∑ j ∈ Finset.range n, |C j i|, ?_, rfl, div_nonneg (hnn _) (hnn _), ?_, ?_⟩
    · rw [denseError, fdiv, if_neg h, Option.map_some, Option.some_inj, ← Finset.sum_filter, eq_div_iff h, sub_mul, div_mul_cancel₀ _ h, one_mul, ← hsplit]
      ring
    · rw [div_le_one hT, ← hsplit]; linarith [hnn ((Finset.range n).filter fun j => labels j = labels i)]
    · rw [div_eq_zero_iff, or_iff_left h, Finset.sum_eq_zero_iff_of_nonneg fun j _ => abs_nonneg _]
      simp only [Finset.mem_filter, Finset.mem_range, abs_eq_zero, and_imp]
  · rw [denseError, fdiv]
    by_cases h : ∑ j ∈ Finset.range n, |C j i| = 0
    · rw [if_pos h]
      rw [Finset.sum_eq_zero_iff_of_nonneg fun j _ => abs_nonneg _] at h
      simpa using h
    · rw [if_neg h]
      rw [Finset.sum_eq_zero_iff_of_nonneg fun j _ => abs_nonneg _] at h
      simpa using h
  · unfold denseFlag
    refine forall_congr' fun j => imp_congr Iff.rfl ?_
    by_cases hc : |C j i| ≥ 1 / 1000
    · rw [if_pos hc]
      constructor
      · intro h hne; exact absurd h hne
      · intro h; by_contra hne; exact absurd (h hne) (not_lt.mpr hc)
    · rw [if_neg hc]; exact ⟨fun _ _ => not_le.mp hc, fun _ => rfl⟩

/-- **C60** an error of zero sets the flag; the flag bounds the outside mass by `1e-3` per coefficient. -/
theorem c60_flag_error (n : ℕ) (C : ℕ → ℕ → ℝ) (labels : ℕ → ℕ) (i : ℕ) :
    (denseError n C labels i = some 0 → denseFlag n C labels i) ∧
    (denseFlag n C labels i → ∑ j ∈ (Finset.range n).filter (fun j => labels j ≠ labels i), |C j i| ≤ n / 1000) := by
  obtain ⟨h1, h2, h3⟩ := c60_dense n C labels i
  constructor
  · intro h
    have hne : ∑ j ∈ Finset.range n, |C j i| ≠ 0 := by
      intro h0; rw [denseError, fdiv, if_pos h0] at h; simp at h
    obtain ⟨e, he, _, _, _, hz⟩ := h1 hne
    rw [h] at he
    refine h3.mpr fun j hj hl => ?_
    rw [hz.mp (Option.some_inj.mp he).symm j hj hl, abs_zero]; norm_num
  · intro h
    have := Finset.sum_le_card_nsmul ((Finset.range n).filter fun j => labels j ≠ labels i) (fun j => |C j i|) (1 / 1000) fun j hj => by
      rw [Finset.mem_filter, Finset.mem_range] at hj
      exact (h3.mp h j hj.1 hj.2).le
    refine this.trans ?_
    rw [nsmul_eq_mul, mul_one_div]
    have hc : ((Finset.range n).filter fun j => labels j ≠ labels i).card ≤ n := (Finset.card_filter_le _ _).trans (by simp)
    have : (((Finset.range n).filter fun j => labels j ≠ labels i).card : ℝ) ≤ n := by exact_mod_cast hc
    linarith

/-- The flag does not mean that the error is numerically zero: a column whose only coefficient is small and in the wrong cluster has flag true and error 1. -/
theorem c60_flag_fails : denseFlag 2 (fun j i => if j = 1 ∧ i = 0 then 1 / 2000 else 0) id 0 ∧ denseError 2 (fun j i => if j = 1 ∧ i = 0 then 1 / 2000 else 0) id 0 = some 1 := by
  constructor
  · rw [(c60_dense _ _ _ _).2.2]
    intro j _ _
    split_ifs <;> norm_num
  · rw [denseError, fdiv, if_neg]
    · simp [Finset.sum_range_succ]
    · simp [Finset.sum_range_succ]

theorem zipWith_column (F : ℕ → ℝ → ℝ) (k : ℕ) (I : ℕ → ℕ → ℕ) (X : ℕ → ℕ → ℝ) (j : ℕ) :
    (List.zipWith F (column k I j) (column k X j)).sum = ∑ r ∈ Finset.range k, F (I r j) (X r j) := by
  rw [column, column, List.zipWith_map, List.zipWith_self, list_range_sum]

/-- **C60** the sparse statistics agree with the dense statistics of the full representation: the flags always, the errors when every stored coefficient outside the cluster is zero or at least `1e-3`. -/
theorem c60_sparse_agrees_partial (d n : ℕ) (Z : ℕ → ℕ → ℝ) (I : ℕ → ℕ → ℕ) (hI : ValidRep d n I) (labels : ℕ → ℕ) (i : ℕ) (hi : i < n) :
    (sparseFlag d Z I labels i ↔ denseFlag n (sparseToFullRep d Z I) labels i) ∧
    ((∀ r < d, labels (I r i) ≠ labels i → Z r i = 0 ∨ 1 / 1000 ≤ |Z r i|) → sparseError d Z I labels i = denseError n (sparseToFullRep d Z I) labels i) := by
  have hsum : ∀ F : ℕ → ℝ → ℝ, (∀ j, F j 0 = 0) → ∑ j ∈ Finset.range n, F j (sparseToFullRep d Z I j i) = ∑ r ∈ Finset.range d, F (I r i) (Z r i) := by
    intro F hF
    rw [← zipWith_column]
    refine buildSignal_sum F hF n _ _ (hI.nodup hi) ?_ (by simp [column_length])
    intro a ha
    simp only [column, List.mem_map, List.mem_range] at ha
    obtain ⟨r, hr, rfl⟩ := ha
    exact (hI i hi).1 r hr
  constructor
  · rw [(c60_dense _ _ _ _).2.2]
    unfold sparseFlag storedLabel
    constructor
    · intro h j hj hl
      by_cases he : ∃ r < d, I r i = j
      · obtain ⟨r, hr, rfl⟩ := he
        rw [(c58_full_rep d n Z I hI i hi).1 r hr]
        by_contra hc
        have := h r hr
        rw [if_neg hc] at this
        exact hl this
      · push Not at he
        rw [(c58_full_rep d n Z I hI i hi).2 j he, abs_zero]; norm_num
    · intro h r hr
      by_cases hc : |Z r i| < 1 / 1000
      · rw [if_pos hc]
      · rw [if_neg hc]
        by_contra hl
        have := h (I r i) ((hI i hi).1 r hr) hl
        rw [(c58_full_rep d n Z I hI i hi).1 r hr] at this
        exact hc this
  · intro hsmall
    rw [sparseError, denseError, hsum (fun _ v => |v|) (fun _ => abs_zero), hsum (fun j v => if labels j = labels i then |v| else 0) (fun j => by simp)]
    congr 2
    refine Finset.sum_congr rfl fun r hr => ?_
    have hr := Finset.mem_range.mp hr
    by_cases hl : labels (I r i) = labels i
    · rw [if_pos hl, if_pos]; unfold storedLabel; split_ifs; exacts [rfl, hl]
    · rw [if_neg hl]
      rcases hsmall r hr hl with h0 | h0
      · rw [h0, abs_zero]; simp
      · rw [if_neg]; unfold storedLabel; rw [if_neg (not_lt.mpr h0)]; exact hl

/-- The errors of the two versions differ when a small coefficient lies outside the cluster: the sparse version counts it as inside. -/
theorem c60_sparse_fails :
    sparseError 2 (fun r _ => if r = 0 then 1 else 1 / 2000) (fun r j => (j + r + 1) % 3) (fun j => if j = 2 then 1 else 0) 0 = some 0 ∧
    denseError 3 (sparseToFullRep 2 (fun r _ => if r = 0 then 1 else 1 / 2000) (fun r j => (j + r + 1) % 3)) (fun j => if j = 2 then 1 else 0) 0 = some (1 / 2001) := by
  constructor
  · rw [sparseError, fdiv, if_neg]
    · simp [Finset.sum_range_succ, storedLabel]; norm_num
    · simp [Finset.sum_range_succ]; norm_num
  · have e : ∀ j < 3, sparseToFullRep 2 (fun r _ => if r = 0 then (1:ℝ) else 1 / 2000) (fun r j => (j + r + 1) % 3) j 0 = if j = 1 then 1 else if j = 2 then 1 / 2000 else 0 := by
      intro j hj
      simp only [sparseToFullRep, column, List.range_succ, List.range_zero, List.nil_append, List.map_append, List.map_cons, List.map_nil, List.cons_append, buildSignal]
      interval_cases j <;> simp
    rw [denseError, fdiv, Finset.sum_range_succ, Finset.sum_range_succ, Finset.sum_range_succ, Finset.sum_range_succ, Finset.sum_range_succ, Finset.sum_range_succ,
      e 0 (by norm_num), e 1 (by norm_num), e 2 (by norm_num)]
    norm_num

/-! ## C59 -/

theorem lin_avg {E : Type*} [NormedAddCommGroup E] [InnerProductSpace ℝ E] (phi : ℕ → E) : ∀ (I : List ℕ) (x z : List ℝ), x.length = I.length → z.length = I.length →
    lin phi I (List.zipWith (fun a b => (a + b) / 2) x z) = (1 / 2 : ℝ) • (lin phi I x + lin phi I z)
  | [], [], [], _, _ => by simp [lin]
  | i :: I, a :: x, b :: z, hx, hz => by
    simp only [List.zipWith_cons_cons, lin, lin_avg phi I x z (by simpa using hx) (by simpa using hz)]
    module

theorem sq_avg : ∀ (x z : List ℝ), x.length = z.length →
    ((List.zipWith (fun a b => (a + b) / 2) x z).map fun c => ‖c‖ ^ 2).sum + (List.zipWith (fun a b => ((a - b) / 2) ^ 2) x z).sum = ((x.map fun c => ‖c‖ ^ 2).sum + (z.map fun c => ‖c‖ ^ 2).sum) / 2
  | [], [], _ => by simp
  | a :: x, b :: z, h => by
    have := sq_avg x z (by simpa using h)
    simp only [List.zipWith_cons_cons, List.map_cons, List.sum_cons, Real.norm_eq_abs, sq_abs] at this ⊢
    linarith [sq_abs a]

theorem zip_sq_zero : ∀ (x z : List ℝ), x.length = z.length → (List.zipWith (fun a b => ((a - b) / 2) ^ 2) x z).sum ≤ 0 → x = z
  | [], [], _, _ => rfl
  | a :: x, b :: z, h, hs => by
    have hnn : 0 ≤ (List.zipWith (fun a b : ℝ => ((a - b) / 2) ^ 2) x z).sum := by
      refine List.sum_nonneg fun q hq => ?_
      rw [← List.map_uncurry_zip_eq_zipWith, List.mem_map] at hq
      obtain ⟨p, _, rfl⟩ := hq
      exact sq_nonneg _
    simp only [List.zipWith_cons_cons, List.sum_cons] at hs
    have h0 : ((a - b) / 2) ^ 2 = 0 := le_antisymm (by linarith) (sq_nonneg _)
    have hab : a = b := by have := pow_eq_zero_iff two_ne_zero |>.mp h0; linarith
    rw [hab, zip_sq_zero x z (by simpa using h) (by linarith [sq_nonneg ((a - b) / 2)])]

variable {E : Type*} [NormedAddCommGroup E] [InnerProductSpace ℝ E]

/-- The minimum-norm least squares solution is unique. -/
theorem lstsq_unique (phi : ℕ → E) (I : List ℕ) (y : E) (x z : List ℝ) (hx : IsLstsq phi I y x) (hz : IsLstsq phi I y z) : x = z := by
  have hl : x.length = z.length := hx.length.trans hz.length.symm
  have hn : (x.map fun c => ‖c‖ ^ 2).sum = (z.map fun c => ‖c‖ ^ 2).sum := le_antisymm (hx.minNorm z hz.length hz.normal) (hz.minNorm x hx.length hx.normal)
  have hm := hx.minNorm (List.zipWith (fun a b => (a + b) / 2) x z) (by simp [hx.length, hz.length]) (fun i hi => by
    rw [lin_avg phi I x z hx.length hz.length]
    have e : y - (1 / 2 : ℝ) • (lin phi I x + lin phi I z) = (1 / 2 : ℝ) • (y - lin phi I x) + (1 / 2 : ℝ) • (y - lin phi I z) := by module
    rw [e, inner_add_right, inner_smul_right, inner_smul_right, hx.normal i hi, hz.normal i hi]; simp)
  have := sq_avg x z hl
  exact zip_sq_zero x z hl (by linarith)

/-- Least squares scales with the right-hand side. -/
theorem lstsq_scale (phi : ℕ → E) (I : List ℕ) (y : E) (x : List ℝ) (a : ℝ) (ha : a ≠ 0) (hx : IsLstsq phi I y x) : IsLstsq phi I (a • y) (x.map fun c => a * c) := by
  refine ⟨by simp [hx.length], fun i hi => ?_, fun z hz hzn => ?_⟩
  · rw [lin_smul, ← smul_sub, inner_smul_right, hx.normal i hi, mul_zero]
  · have h1 := hx.minNorm (z.map fun c => a⁻¹ * c) (by simp [hz]) (fun i hi => by
      rw [lin_smul]
      have e : y - a⁻¹ • lin phi I z = a⁻¹ • (a • y - lin phi I z) := by rw [smul_sub, smul_smul, inv_mul_cancel₀ ha, one_smul]
      rw [e, inner_smul_right, hzn i hi, mul_zero])
    have sc : ∀ (b : ℝ) (l : List ℝ), ((l.map fun c => b * c).map fun c => ‖c‖ ^ 2).sum = b ^ 2 * (l.map fun c => ‖c‖ ^ 2).sum := by
      intro b l
      induction l with
      | nil => simp
      | cons q l ih => rw [List.map_cons, List.map_cons, List.sum_cons, ih, List.map_cons, List.sum_cons, norm_mul, mul_pow, mul_add, Real.norm_eq_abs, sq_abs]
    rw [sc] at h1 ⊢
    have : a ^ 2 * (a⁻¹ ^ 2 * (z.map fun c => ‖c‖ ^ 2).sum) = (z.map fun c => ‖c‖ ^ 2).sum := by field_simp
    rw [← this]
    exact mul_le_mul_of_nonneg_left h1 (sq_nonneg a)

theorem argmaxFrom_scale (a : ℝ) (ha : 0 < a) : ∀ (l : List ℝ) (b : ℕ) (v : ℝ) (k : ℕ), argmaxFrom b (a * v) k (l.map fun c => a * c) = argmaxFrom b v k l
  | [], _, _, _ => rfl
  | x :: l, b, v, k => by
    simp only [List.map_cons, argmaxFrom, mul_lt_mul_iff_right₀ ha]
    split_ifs
    · exact argmaxFrom_scale a ha l k x (k + 1)
    · exact argmaxFrom_scale a ha l b v (k + 1)

theorem argmax_scale (a : ℝ) (ha : 0 < a) (l : List ℝ) : argmax (l.map fun c => a * c) = argmax l := by
  cases l with
  | nil => rfl
  | cons x l => exact argmaxFrom_scale a ha l 0 x 1

/-- The index chosen does not change when the residual is multiplied by a positive number. -/
theorem chosen_scale (phi : ℕ → E) (N j : ℕ) (r : E) (a : ℝ) (ha : 0 < a) : absMaxIdx (zeroAt (corr ℝ phi N (a • r)) [j]) = absMaxIdx (zeroAt (corr ℝ phi N r) [j]) := by
  rw [absMaxIdx, absMaxIdx, ← argmax_scale a ha ((zeroAt (corr ℝ phi N r) [j]).map fun x => ‖x‖)]
  congr 1
  rw [List.map_map]
  refine List.ext_getElem (by simp [zeroAt, corr]) fun i h1 h2 => ?_
  have hi : i < N := by simpa [zeroAt, corr] using h1
  simp only [zeroAt, List.getElem_map, Function.comp, List.getElem_range, List.length_map, corr, List.length_range]
  by_cases hij : i ∈ [j]
  · simp [hij]
  · simp [hij, List.getD, hi, inner_smul_right, abs_mul, abs_of_pos ha]

/-- Two states that differ by a positive factor in coefficients and residual. -/
def Scaled (a : ℝ) (s t : SscState E) : Prop := s.I = t.I ∧ s.z = (t.z.map fun c => a * c) ∧ s.r = a • t.r

theorem sscStep_scaled (phi : ℕ → E) (N : ℕ) (lstsq : List ℕ → E → List ℝ) (hl : ∀ I y, IsLstsq phi I y (lstsq I y)) (j : ℕ) (y : E) (a b : ℝ) (ha : 0 < a) (hb : 0 < b) (s t : SscState E)
    (hI : s.I = t.I) (hr : s.r = b • t.r) : Scaled a (sscStep phi N lstsq j (a • y) s) (sscStep phi N lstsq j y t) := by
  have hidx : absMaxIdx (zeroAt (corr ℝ phi N s.r) [j]) = absMaxIdx (zeroAt (corr ℝ phi N t.r) [j]) := by rw [hr, chosen_scale phi N j t.r b hb]
  have hz : ∀ I, lstsq I (a • y) = (lstsq I y).map fun c => a * c := fun I => lstsq_unique phi I (a • y) _ _ (hl I _) (lstsq_scale phi I y _ a ha.ne' (hl I y))
  refine ⟨?_, ?_, ?_⟩
  · simp only [sscStep, hidx, hI]
  · simp only [sscStep, hidx, hI, hz]
  · simp only [sscStep, hidx, hI, hz, lin_smul, smul_sub]

/-- **C59** (indices) batched and unbatched SSC-OMP choose the same indices for every batch size; the coefficients and the residual of the unbatched version are those of the batched version times the norm of the data
column. What is missing from the full statement: equality of coefficients and residuals needs unit-norm data (`c59_batch_equal_normalised`), and fails otherwise (`c59_batch_fails`). -/
theorem c59_batch_partial (X : ℕ → E) (N : ℕ) (lstsq : List ℕ → E → List ℝ) (hl : ∀ I y, IsLstsq (normalizeCw X) I y (lstsq I y)) (K bs j : ℕ) (hK : 0 < K) (hbs : 0 < bs) (hj : j < N)
    (hX : ∀ i < N, X i ≠ 0) :
    ∃ t, batchBuildRepresentationOmp X N lstsq K bs j = some t ∧ (buildRepresentationOmp X N lstsq K j).I = t.I ∧
      (buildRepresentationOmp X N lstsq K j).z = (t.z.map fun c => ‖X j‖ * c) ∧ (buildRepresentationOmp X N lstsq K j).r = ‖X j‖ • t.r := by
  have hstart : batchStart bs (j / bs) ≤ j := Nat.div_mul_le_self j bs
  have hlt : j < batchStart bs (j / bs) + bs := by
    have := Nat.lt_div_mul_add hbs (a := j); simpa [batchStart] using this
  have hnb : j / bs < nBatches N bs := by
    rw [nBatches, Nat.div_lt_iff_lt_mul hbs]
    have h1 : N ≤ (N + bs - 1) / bs * bs := by
      have := Nat.div_add_mod (N + bs - 1) bs
      have h2 := Nat.mod_lt (N + bs - 1) hbs
      rw [mul_comm] at this
      omega
    omega
  have hfold : ∀ m ≤ nBatches N bs, (List.range m).foldl
      (fun res b => if batchStart bs b ≤ j ∧ j < batchEnd N bs b then some (batchColumn X N lstsq K (batchStart bs b) (j - batchStart bs b)) else res) none =
        if j / bs < m then some (batchColumn X N lstsq K (batchStart bs (j / bs)) (j - batchStart bs (j / bs))) else none := by
    intro m
    induction m with
    | zero => simp
    | succ m ih =>
      intro hm
      rw [List.range_succ, List.foldl_append, ih (by omega)]
      simp only [List.foldl_cons, List.foldl_nil]
      by_cases hmb : m = j / bs
      · subst hmb
        have hend : j < batchEnd N bs (j / bs) := by unfold batchEnd; split_ifs; exacts [hj, hlt]
        rw [if_pos ⟨hstart, hend⟩, if_pos (by omega)]
      · have hno : ¬ (batchStart bs m ≤ j ∧ j < batchEnd N bs m) := by
          rintro ⟨h1, h2⟩
          have h3 : m ≤ j / bs := (Nat.le_div_iff_mul_le hbs).mpr h1
          unfold batchEnd at h2
          split_ifs at h2 with h4
          · omega
          · have h5 : j < (m + 1) * bs := by rw [Nat.succ_mul]; exact h2
            have h6 : j / bs < m + 1 := (Nat.div_lt_iff_lt_mul hbs).mpr h5
            omega
        rw [if_neg hno]
        by_cases h : j / bs < m
        · rw [if_pos h, if_pos (by omega)]
        · rw [if_neg h, if_neg (by omega)]
  refine ⟨_, by rw [batchBuildRepresentationOmp, hfold _ le_rfl, if_pos hnb], ?_⟩
  have e : batchStart bs (j / bs) + (j - batchStart bs (j / bs)) = j := by omega
  have hp : 0 < ‖X j‖ := norm_pos_iff.mpr (hX j hj)
  have hy : X j = ‖X j‖ • normalizeCw X j := by rw [normalizeCw, smul_smul, mul_inv_cancel₀ hp.ne', one_smul]
  have key : ∀ k, Scaled ‖X j‖ ((sscStep (normalizeCw X) N lstsq j (X j))^[k + 1] { I := [], z := [], r := normalizeCw X j })
      ((sscStep (normalizeCw X) N lstsq j (normalizeCw X j))^[k + 1] { I := [], z := [], r := normalizeCw X j }) := by
    intro k
    induction k with
    | zero =>
      rw [Function.iterate_one, Function.iterate_one]
      conv in sscStep _ _ _ _ (X j) _ => rw [hy]
      exact sscStep_scaled _ N lstsq hl j _ _ 1 hp one_pos _ _ rfl (by rw [one_smul])
    | succ k ih =>
      rw [Function.iterate_succ_apply', Function.iterate_succ_apply' (sscStep (normalizeCw X) N lstsq j (normalizeCw X j))]
      generalize (sscStep (normalizeCw X) N lstsq j (X j))^[k + 1] { I := [], z := [], r := normalizeCw X j } = s at ih ⊢
      generalize (sscStep (normalizeCw X) N lstsq j (normalizeCw X j))^[k + 1] { I := [], z := [], r := normalizeCw X j } = t at ih ⊢
      have := sscStep_scaled (normalizeCw X) N lstsq hl j (normalizeCw X j) _ _ hp hp s t ih.1 ih.2.2
      rwa [← hy] at this
  obtain ⟨k, rfl⟩ : ∃ k, K = k + 1 := ⟨K - 1, by omega⟩
  have e' : (j - batchStart bs (j / bs)) + batchStart bs (j / bs) = j := by omega
  rw [batchColumn, e, e']
  exact key k

/-- **C59** for data with unit-norm columns the batched version returns exactly the unbatched representation, for every batch size. -/
theorem c59_batch_equal_normalised (X : ℕ → E) (N : ℕ) (lstsq : List ℕ → E → List ℝ) (hl : ∀ I y, IsLstsq (normalizeCw X) I y (lstsq I y)) (K bs j : ℕ) (hK : 0 < K) (hbs : 0 < bs) (hj : j < N)
    (hX : ∀ i < N, ‖X i‖ = 1) :
    batchBuildRepresentationOmp X N lstsq K bs j = some (buildRepresentationOmp X N lstsq K j) := by
  obtain ⟨t, ht, h1, h2, h3⟩ := c59_batch_partial X N lstsq hl K bs j hK hbs hj (by intro i hi h; have := hX i hi; rw [h, norm_zero] at this; exact zero_ne_one this)
  rw [ht]
  rw [hX j hj] at h2 h3
  simp only [one_mul, List.map_id'] at h2
  rw [one_smul] at h3
  congr 1
  cases t
  cases hb : buildRepresentationOmp X N lstsq K j
  rw [hb] at h1 h2 h3
  simp only at h1 h2 h3
  rw [h1, h2, h3]

/-- **C59** the batched representation does not depend on the batch size. -/
theorem c59_batch_size_irrelevant (X : ℕ → E) (N : ℕ) (lstsq : List ℕ → E → List ℝ) (hl : ∀ I y, IsLstsq (normalizeCw X) I y (lstsq I y)) (K b1 b2 j : ℕ) (hK : 0 < K) (h1 : 0 < b1) (h2 : 0 < b2) (hj : j < N)
    (hX : ∀ i < N, X i ≠ 0) :
    batchBuildRepresentationOmp X N lstsq K b1 j = batchBuildRepresentationOmp X N lstsq K b2 j := by
  obtain ⟨t, ht, a1, a2, a3⟩ := c59_batch_partial X N lstsq hl K b1 j hK h1 hj hX
  obtain ⟨u, hu, c1, c2, c3⟩ := c59_batch_partial X N lstsq hl K b2 j hK h2 hj hX
  have hp : ‖X j‖ ≠ 0 := norm_ne_zero_iff.mpr (hX j hj)
  rw [ht, hu]
  congr 1
  have e2 : t.z = u.z := by
    have : (t.z.map fun c => ‖X j‖ * c) = u.z.map fun c => ‖X j‖ * c := a2.symm.trans c2
    exact List.map_injective_iff.mpr (mul_right_injective₀ hp) this
  have e3 : t.r = u.r := smul_right_injective E hp (a3.symm.trans c3)
  cases t; cases u
  simp only at a1 c1 e2 e3
  simp only [SscState.mk.injEq]
  exact ⟨a1.symm.trans c1, e2, e3⟩

/-- The data of the counterexample: two equal numbers `2` as points of the line. -/
theorem c59_batch_fails (lstsq : List ℕ → ℝ → List ℝ) (hl : ∀ I y, IsLstsq (normalizeCw fun _ : ℕ => (2 : ℝ)) I y (lstsq I y)) :
    (buildRepresentationOmp (fun _ => (2 : ℝ)) 2 lstsq 1 0).z = [2] ∧ ∃ t, batchBuildRepresentationOmp (fun _ => (2 : ℝ)) 2 lstsq 1 1 0 = some t ∧ t.z = [1] := by
  have hphi : normalizeCw (fun _ : ℕ => (2 : ℝ)) = fun _ => 1 := by funext j; simp [normalizeCw]
  obtain ⟨t, ht, h1, h2, h3⟩ := c59_batch_partial (fun _ => (2 : ℝ)) 2 lstsq hl 1 1 0 one_pos one_pos two_pos (fun _ _ => two_ne_zero)
  have hz : ∀ I : List ℕ, I.length = 1 → lstsq I 2 = [2] := by
    intro I hI
    obtain ⟨i, rfl⟩ := List.length_eq_one_iff.mp hI
    have h := hl [i] 2
    obtain ⟨c, hc⟩ := List.length_eq_one_iff.mp h.length
    have hn := h.normal i (by simp)
    rw [hc, hphi] at hn
    simp [lin] at hn
    rw [hc]
    congr 1; linarith
  have hz2 : (buildRepresentationOmp (fun _ => (2 : ℝ)) 2 lstsq 1 0).z = [2] := by
    simp only [buildRepresentationOmp, Function.iterate_one, sscStep, List.nil_append]
    exact hz _ (by simp)
  refine ⟨hz2, t, ht, ?_⟩
  rw [hz2] at h2
  have hlen : t.z.length = 1 := by have := congrArg List.length h2; simpa using this.symm
  obtain ⟨c, hc⟩ := List.length_eq_one_iff.mp hlen
  rw [hc] at h2 ⊢
  simp at h2
  rw [h2]

/-- A least squares routine as assumed exists for every data set. -/
example (X : ℕ → E) : ∃ lstsq : List ℕ → E → List ℝ, ∀ I y, IsLstsq (normalizeCw X) I y (lstsq I y) :=
  ⟨fun I y => (exists_lstsq (normalizeCw X) I y).choose, fun I y => (exists_lstsq (normalizeCw X) I y).choose_spec⟩

/-- A representation with two non-zero entries in each of three columns. -/
theorem ex_validRep : ValidRep 2 3 fun r j => (j + r + 1) % 3 := by
  intro j hj
  refine ⟨fun r _ => Nat.mod_lt _ (by norm_num), fun r hr s hs h => ?_⟩
  dsimp only at h
  interval_cases j <;> interval_cases r <;> interval_cases s <;> simp_all

example (X : ℕ → ℕ → ℝ) := c58_full_rep 2 3 X _ ex_validRep 1 (by norm_num)

example := c58_round_trip 2 3 (by norm_num) (fun r c => (r : ℝ) + 10 * c) fun r j => (j + r + 1) % 3

example (X : ℕ → ℕ → ℝ) := c58_bcoo_dense 2 3 X _ ex_validRep 2 1 (by norm_num)

example (Z : ℕ → ℕ → ℝ) := c60_sparse_agrees_partial 2 3 Z _ ex_validRep (fun i => i / 2) 1 (by norm_num)

/-- The points `1, 2, 3, …` and a least squares solver for them; there is one by `exists_lstsq`. -/
example (lstsq : List ℕ → ℝ → List ℝ) (hl : ∀ I y, IsLstsq (normalizeCw fun i : ℕ => (i : ℝ) + 1) I y (lstsq I y)) :=
  c59_batch_partial (fun i : ℕ => (i : ℝ) + 1) 7 lstsq hl 2 3 5 (by norm_num) (by norm_num) (by norm_num) fun i _ => by positivity

example (lstsq : List ℕ → ℝ → List ℝ) (hl : ∀ I y, IsLstsq (normalizeCw fun i : ℕ => (-1 : ℝ) ^ i) I y (lstsq I y)) :=
  c59_batch_equal_normalised (fun i : ℕ => (-1 : ℝ) ^ i) 7 lstsq hl 2 3 5 (by norm_num) (by norm_num) (by norm_num) fun i _ => by simp

example (lstsq : List ℕ → ℝ → List ℝ) (hl : ∀ I y, IsLstsq (normalizeCw fun i : ℕ => (i : ℝ) + 1) I y (lstsq I y)) :=
  c59_batch_size_irrelevant (fun i : ℕ => (i : ℝ) + 1) 7 lstsq hl 2 3 7 5 (by norm_num) (by norm_num) (by norm_num) (by norm_num) fun i _ => by positivity

example : ∃ lstsq : List ℕ → ℝ → List ℝ, (buildRepresentationOmp (fun _ => (2 : ℝ)) 2 lstsq 1 0).z = [2] :=
  ⟨_, (c59_batch_fails (fun I y => (exists_lstsq (normalizeCw fun _ : ℕ => (2 : ℝ)) I y).choose) fun I y => (exists_lstsq (normalizeCw fun _ : ℕ => (2 : ℝ)) I y).choose_spec).1⟩

end Verif.Cluster
