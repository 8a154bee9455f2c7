import Verif.Dict.SimpleModel
import Verif.Pursuit.UtilProps
import Mathlib.Data.List.GetD
import Mathlib.LinearAlgebra.Matrix.Block
import Mathlib.LinearAlgebra.Matrix.ToLinearEquiv

set_option autoImplicit false
/-!
# Hadamard and random sensing matrices (C69, C70)
-/
noncomputable section
namespace Verif.Dict
open Verif.Pursuit

/-! ## C69 -/

theorem hadamardRows_length (k : ℕ) : (hadamardRows k).length = 2 ^ k ∧ ∀ r ∈ hadamardRows k, r.length = 2 ^ k := by
  induction k with
  | zero => simp [hadamardRows]
  | succ k ih =>
    refine ⟨by simp [hadamardRows, ih.1, pow_succ, mul_two], ?_⟩
    intro r hr
    rw [hadamardRows, List.mem_append, List.mem_map, List.mem_map] at hr
    rcases hr with ⟨s, hs, rfl⟩ | ⟨s, hs, rfl⟩ <;> simp [ih.2 s hs, pow_succ, mul_two]

theorem row_length (k i : ℕ) (hi : i < 2 ^ k) : ((hadamardRows k).getD i []).length = 2 ^ k := by
  have hl := (hadamardRows_length k).1
  rw [← List.getElem_eq_getD (h := by omega)]
  exact (hadamardRows_length k).2 _ (List.getElem_mem _)

theorem getD_map_list {α β : Type*} (f : α → β) (l : List α) (d : α) (e : β) (i : ℕ) (h : i < l.length) : (l.map f).getD i e = f (l.getD i d) := by
  simp [List.getD, h]

/-- The four quadrants of the doubled matrix. -/
theorem entry_succ (k i j : ℕ) (hi : i < 2 ^ k) (hj : j < 2 ^ k) :
    entry (hadamardRows (k + 1)) i j = entry (hadamardRows k) i j ∧ entry (hadamardRows (k + 1)) i (2 ^ k + j) = entry (hadamardRows k) i j ∧
    entry (hadamardRows (k + 1)) (2 ^ k + i) j = entry (hadamardRows k) i j ∧ entry (hadamardRows (k + 1)) (2 ^ k + i) (2 ^ k + j) = - entry (hadamardRows k) i j := by
  have hl := (hadamardRows_length k).1
  have hr := row_length k i hi
  have e1 : (hadamardRows (k + 1)).getD i [] = (hadamardRows k).getD i [] ++ (hadamardRows k).getD i [] := by
    rw [hadamardRows, List.getD_append _ _ _ _ (by simpa [hl] using hi), getD_map_list _ _ [] _ _ (by omega)]
  have e2 : (hadamardRows (k + 1)).getD (2 ^ k + i) [] = (hadamardRows k).getD i [] ++ ((hadamardRows k).getD i []).map fun x => -x := by
    rw [hadamardRows, List.getD_append_right _ _ _ _ (by simp [hl]), List.length_map, hl, Nat.add_sub_cancel_left, getD_map_list _ _ [] _ _ (by omega)]
  refine ⟨?_, ?_, ?_, ?_⟩
  · rw [entry, e1, List.getD_append _ _ _ _ (by omega)]; rfl
  · rw [entry, e1, List.getD_append_right _ _ _ _ (by omega), hr, Nat.add_sub_cancel_left]; rfl
  · rw [entry, e2, List.getD_append _ _ _ _ (by omega)]; rfl
  · rw [entry, e2, List.getD_append_right _ _ _ _ (by omega), hr, Nat.add_sub_cancel_left, getD_map_list _ _ 0 _ _ (by omega)]; rfl

/-- Every index below `2^(k+1)` lies in the lower or the upper half. -/
theorem half (k i : ℕ) (hi : i < 2 ^ (k + 1)) : i < 2 ^ k ∨ ∃ i', i' < 2 ^ k ∧ i = 2 ^ k + i' := by
  by_cases h : i < 2 ^ k
  · exact Or.inl h
  · exact Or.inr ⟨i - 2 ^ k, by rw [pow_succ] at hi; omega, by omega⟩

theorem entry_pm (k : ℕ) : ∀ i < 2 ^ k, ∀ j < 2 ^ k, entry (hadamardRows k) i j = 1 ∨ entry (hadamardRows k) i j = -1 := by
  induction k with
  | zero => intro i hi j hj; simp at hi hj; subst hi; subst hj; left; rfl
  | succ k ih =>
    intro i hi j hj
    rcases half k i hi with hi' | ⟨i, hi', rfl⟩ <;> rcases half k j hj with hj' | ⟨j, hj', rfl⟩
    · rw [(entry_succ k i j hi' hj').1]; exact ih i hi' j hj'
    · rw [(entry_succ k i j hi' hj').2.1]; exact ih i hi' j hj'
    · rw [(entry_succ k i j hi' hj').2.2.1]; exact ih i hi' j hj'
    · rw [(entry_succ k i j hi' hj').2.2.2]; rcases ih i hi' j hj' with h | h <;> simp [h]

theorem entry_symm (k : ℕ) : ∀ i < 2 ^ k, ∀ j < 2 ^ k, entry (hadamardRows k) i j = entry (hadamardRows k) j i := by
  induction k with
  | zero => intro i hi j hj; simp at hi hj; subst hi; subst hj; rfl
  | succ k ih =>
    intro i hi j hj
    rcases half k i hi with hi' | ⟨i, hi', rfl⟩ <;> rcases half k j hj with hj' | ⟨j, hj', rfl⟩
    · rw [(entry_succ k i j hi' hj').1, (entry_succ k j i hj' hi').1]; exact ih i hi' j hj'
    · rw [(entry_succ k i j hi' hj').2.1, (entry_succ k j i hj' hi').2.2.1]; exact ih i hi' j hj'
    · rw [(entry_succ k i j hi' hj').2.2.1, (entry_succ k j i hj' hi').2.1]; exact ih i hi' j hj'
    · rw [(entry_succ k i j hi' hj').2.2.2, (entry_succ k j i hj' hi').2.2.2, ih i hi' j hj']

theorem entry_orth (k : ℕ) : ∀ i < 2 ^ k, ∀ j < 2 ^ k, ∑ q ∈ Finset.range (2 ^ k), entry (hadamardRows k) i q * entry (hadamardRows k) j q = if i = j then 2 ^ k else 0 := by
  induction k with
  | zero => intro i hi j hj; simp at hi hj; subst hi; subst hj; simp [entry, hadamardRows]
  | succ k ih =>
    intro i hi j hj
    have h2 : 2 ^ (k + 1) = 2 ^ k + 2 ^ k := by ring
    rw [h2, Finset.sum_range_add]
    rcases half k i hi with hi' | ⟨i, hi', rfl⟩ <;> rcases half k j hj with hj' | ⟨j, hj', rfl⟩
    · have e1 : ∀ q ∈ Finset.range (2 ^ k), entry (hadamardRows (k + 1)) i q * entry (hadamardRows (k + 1)) j q = entry (hadamardRows k) i q * entry (hadamardRows k) j q := fun q hq => by
        have hq := Finset.mem_range.mp hq
        rw [(entry_succ k i q hi' hq).1, (entry_succ k j q hj' hq).1]
      have e2 : ∀ q ∈ Finset.range (2 ^ k), entry (hadamardRows (k + 1)) i (2 ^ k + q) * entry (hadamardRows (k + 1)) j (2 ^ k + q) = entry (hadamardRows k) i q * entry (hadamardRows k) j q := fun q hq => by
        have hq := Finset.mem_range.mp hq
        rw [(entry_succ k i q hi' hq).2.1, (entry_succ k j q hj' hq).2.1]
      rw [Finset.sum_congr rfl e1, Finset.sum_congr rfl e2, ih i hi' j hj']
      split_ifs <;> ring
    · have e1 : ∀ q ∈ Finset.range (2 ^ k), entry (hadamardRows (k + 1)) i q * entry (hadamardRows (k + 1)) (2 ^ k + j) q = entry (hadamardRows k) i q * entry (hadamardRows k) j q := fun q hq => by
        have hq := Finset.mem_range.mp hq
        rw [(entry_succ k i q hi' hq).1, (entry_succ k j q hj' hq).2.2.1]
      have e2 : ∀ q ∈ Finset.range (2 ^ k), entry (hadamardRows (k + 1)) i (2 ^ k + q) * entry (hadamardRows (k + 1)) (2 ^ k + j) (2 ^ k + q) = - (entry (hadamardRows k) i q * entry (hadamardRows k) j q) := fun q hq => by
        have hq := Finset.mem_range.mp hq
        rw [(entry_succ k i q hi' hq).2.1, (entry_succ k j q hj' hq).2.2.2]; ring
      rw [Finset.sum_congr rfl e1, Finset.sum_congr rfl e2, Finset.sum_neg_distrib, if_neg (by omega)]
      ring
    · have e1 : ∀ q ∈ Finset.range (2 ^ k), entry (hadamardRows (k + 1)) (2 ^ k + i) q * entry (hadamardRows (k + 1)) j q = entry (hadamardRows k) i q * entry (hadamardRows k) j q := fun q hq => by
        have hq := Finset.mem_range.mp hq
        rw [(entry_succ k i q hi' hq).2.2.1, (entry_succ k j q hj' hq).1]
      have e2 : ∀ q ∈ Finset.range (2 ^ k), entry (hadamardRows (k + 1)) (2 ^ k + i) (2 ^ k + q) * entry (hadamardRows (k + 1)) j (2 ^ k + q) = - (entry (hadamardRows k) i q * entry (hadamardRows k) j q) := fun q hq => by
        have hq := Finset.mem_range.mp hq
        rw [(entry_succ k i q hi' hq).2.2.2, (entry_succ k j q hj' hq).2.1]; ring
      rw [Finset.sum_congr rfl e1, Finset.sum_congr rfl e2, Finset.sum_neg_distrib, if_neg (by omega)]
      ring
    · have e1 : ∀ q ∈ Finset.range (2 ^ k), entry (hadamardRows (k + 1)) (2 ^ k + i) q * entry (hadamardRows (k + 1)) (2 ^ k + j) q = entry (hadamardRows k) i q * entry (hadamardRows k) j q := fun q hq => by
        have hq := Finset.mem_range.mp hq
        rw [(entry_succ k i q hi' hq).2.2.1, (entry_succ k j q hj' hq).2.2.1]
      have e2 : ∀ q ∈ Finset.range (2 ^ k), entry (hadamardRows (k + 1)) (2 ^ k + i) (2 ^ k + q) * entry (hadamardRows (k + 1)) (2 ^ k + j) (2 ^ k + q) = entry (hadamardRows k) i q * entry (hadamardRows k) j q := fun q hq => by
        have hq := Finset.mem_range.mp hq
        rw [(entry_succ k i q hi' hq).2.2.2, (entry_succ k j q hj' hq).2.2.2]; ring
      rw [Finset.sum_congr rfl e1, Finset.sum_congr rfl e2, ih i hi' j hj']
      by_cases h : i = j
      · subst h; simp; ring
      · rw [if_neg h, if_neg (by omega)]; ring

/-- **C69** `hadamard(n)` succeeds exactly for the powers of two. -/
theorem c69_domain (n : ℕ) : (∃ H, hadamard n = some H) ↔ ∃ k, n = 2 ^ k := by
  unfold hadamard
  constructor
  · rintro ⟨H, h⟩
    split_ifs at h with hn
    exact ⟨_, hn.symm⟩
  · rintro ⟨k, rfl⟩
    rw [Nat.log_pow (by norm_num), if_pos rfl]
    exact ⟨_, rfl⟩

/-- **C69** a Hadamard matrix is `n × n`, symmetric, with entries `±1` and `H Hᵀ = n I`. -/
theorem c69_hadamard (n : ℕ) (H : List (List ℤ)) (h : hadamard n = some H) :
    H.length = n ∧ (∀ r ∈ H, r.length = n) ∧ ∀ i < n, ∀ j < n, (entry H i j = 1 ∨ entry H i j = -1) ∧ entry H i j = entry H j i ∧
      ∑ q ∈ Finset.range n, entry H i q * entry H j q = if i = j then (n : ℤ) else 0 := by
  obtain ⟨k, rfl⟩ := (c69_domain n).mp ⟨H, h⟩
  rw [hadamard, Nat.log_pow (by norm_num), if_pos rfl, Option.some_inj] at h
  subst h
  refine ⟨(hadamardRows_length k).1, (hadamardRows_length k).2, fun i hi j hj => ⟨entry_pm k i hi j hj, entry_symm k i hi j hj, ?_⟩⟩
  have := entry_orth k i hi j hj
  push_cast at this ⊢
  exact this

/-- **C69** the Hadamard basis is orthonormal, and every atom of the Dirac-Hadamard dictionary's first half has inner product `±1/√n` with every atom of the second half. -/
theorem c69_basis (n : ℕ) (B : ℕ → ℕ → ℝ) (h : hadamardBasis n = some B) :
    (∀ i < n, ∀ j < n, ∑ q ∈ Finset.range n, B q i * B q j = if i = j then 1 else 0) ∧ (∀ i < n, ∀ j < n, |B i j| = 1 / Real.sqrt n) ∧
    ∃ D, diracHadamardBasis n = some D ∧ (∀ i < n, ∀ j < n, D i j = if i = j then 1 else 0) ∧ (∀ i < n, ∀ j < n, D i (n + j) = B i j) ∧
      ∀ i < n, ∀ j < n, |∑ q ∈ Finset.range n, D q i * D q (n + j)| = 1 / Real.sqrt n := by
  obtain ⟨H, hH, rfl⟩ : ∃ H, hadamard n = some H ∧ (fun i j => (entry H i j : ℝ) / Real.sqrt n) = B := by
    simpa [hadamardBasis, Option.map_eq_some_iff] using h
  obtain ⟨k, hk⟩ := (c69_domain n).mp ⟨H, hH⟩
  have hn : (0 : ℝ) < n := by rw [hk]; positivity
  have hs : 0 < Real.sqrt n := Real.sqrt_pos.mpr hn
  obtain ⟨_, _, hall⟩ := c69_hadamard n H hH
  have habs : ∀ i < n, ∀ j < n, |(entry H i j : ℝ) / Real.sqrt n| = 1 / Real.sqrt n := by
    intro i hi j hj
    rw [abs_div, abs_of_pos hs]
    rcases (hall i hi j hj).1 with e | e <;> simp [e]
  refine ⟨fun i hi j hj => ?_, habs, ?_⟩
  · have e : ∀ q ∈ Finset.range n, (entry H q i : ℝ) / Real.sqrt n * ((entry H q j : ℝ) / Real.sqrt n) = ((entry H i q * entry H j q : ℤ) : ℝ) / n := by
      intro q hq
      have hq := Finset.mem_range.mp hq
      rw [(hall q hq i hi).2.1, (hall q hq j hj).2.1, div_mul_div_comm, Real.mul_self_sqrt hn.le]
      push_cast; rfl
    rw [Finset.sum_congr rfl e, ← Finset.sum_div, ← Int.cast_sum, (hall i hi j hj).2.2]
    by_cases hij : i = j
    · rw [if_pos hij, if_pos hij]; push_cast; exact div_self hn.ne'
    · rw [if_neg hij, if_neg hij]; simp
  · refine ⟨_, by rw [diracHadamardBasis, h, Option.map_some], fun i hi j hj => by simp [hj], fun i hi j hj => by simp, fun i hi j hj => ?_⟩
    rw [Finset.sum_eq_single i]
    · simpa [hi] using habs i hi j hj
    · intro q hq hne; simp [hi, hne]
    · intro hh; exact absurd (Finset.mem_range.mpr hi) hh

example : ∃ B, hadamardBasis 8 = some B := by
  obtain ⟨H, hH⟩ := (c69_domain 8).mpr ⟨3, rfl⟩
  exact ⟨_, by rw [hadamardBasis, hH, Option.map_some]⟩

/-! ## C70 -/

/-- **C70** whatever the non-zero draws, the normalised Gaussian matrix has unit-norm columns. -/
theorem c70_gaussian {N D : ℕ} (g : Fin D → EuclideanSpace ℝ (Fin N)) (j : Fin D) (hg : g j ≠ 0) : ‖gaussianMtx g j‖ = 1 := by
  rw [gaussianMtx, norm_smul, norm_inv, norm_norm, inv_mul_cancel₀ (norm_ne_zero_iff.mpr hg)]

/-- **C70** whatever the draws, every entry of the Rademacher matrix is `±1/√M` and every column has unit norm. -/
theorem c70_rademacher (M : ℕ) (hM : 0 < M) (bits : ℕ → ℕ → Bool) (j : ℕ) :
    (∀ i, rademacherMtx M bits i j = 1 / Real.sqrt M ∨ rademacherMtx M bits i j = -(1 / Real.sqrt M)) ∧ ∑ i ∈ Finset.range M, rademacherMtx M bits i j ^ 2 = 1 := by
  have hMR : (0 : ℝ) < M := by exact_mod_cast hM
  have hpm : ∀ i, rademacherMtx M bits i j = 1 / Real.sqrt M ∨ rademacherMtx M bits i j = -(1 / Real.sqrt M) := by
    intro i
    unfold rademacherMtx
    cases bits i j
    · right; simp; ring
    · left; norm_num
  refine ⟨hpm, ?_⟩
  have : ∀ i ∈ Finset.range M, rademacherMtx M bits i j ^ 2 = 1 / M := by
    intro i _
    have hsq : (1 / Real.sqrt M) ^ 2 = 1 / M := by rw [div_pow, Real.sq_sqrt hMR.le, one_pow]
    rcases hpm i with h | h
    · rw [h, hsq]
    · rw [h, neg_sq, hsq]
  rw [Finset.sum_congr rfl this, Finset.sum_const, Finset.card_range, nsmul_eq_mul, mul_one_div, div_self hMR.ne']

theorem buildSignal_ones : ∀ (I : List ℕ), I.Nodup → ∀ i, buildSignal I (List.replicate I.length (1 : ℝ)) i = if i ∈ I then 1 else 0
  | [], _, i => by simp [buildSignal]
  | k :: I, h, i => by
    have ih := buildSignal_ones I h.of_cons i
    have hk := (List.nodup_cons.mp h).1
    rw [List.length_cons, List.replicate_succ]
    show (if k = i ∧ i ∉ I.take (List.replicate I.length (1 : ℝ)).length then (1 : ℝ) else buildSignal I (List.replicate I.length 1) i) = _
    rw [List.length_replicate, List.take_length, ih]
    by_cases hki : k = i
    · subst hki; simp [hk]
    · have hik : i ≠ k := fun hh => hki hh.symm
      simp [hki, hik]

/-- **C70** whatever the `d` distinct positions drawn, column `j` of the sparse binary matrix has exactly `d` non-zero entries, all equal to `1/√d`, at the drawn positions, and unit norm. -/
theorem c70_sparse_binary (M d : ℕ) (hd : 0 < d) (idx : ℕ → List ℕ) (j : ℕ) (hn : (idx j).Nodup) (hl : (idx j).length = d) (hr : ∀ i ∈ idx j, i < M) :
    (∀ i, sparseBinaryMtx d idx i j = if i ∈ idx j then 1 / Real.sqrt d else 0) ∧ ((Finset.range M).filter fun i => sparseBinaryMtx d idx i j ≠ 0).card = d ∧
    ∑ i ∈ Finset.range M, sparseBinaryMtx d idx i j ^ 2 = 1 := by
  have hdR : (0 : ℝ) < d := by exact_mod_cast hd
  have hs : 0 < Real.sqrt d := Real.sqrt_pos.mpr hdR
  have hp : (idx j).mergeSort.Perm (idx j) := List.mergeSort_perm _ _
  have he : ∀ i, sparseBinaryMtx d idx i j = if i ∈ idx j then 1 / Real.sqrt d else 0 := by
    intro i
    have hl' : (idx j).mergeSort.length = d := by rw [hp.length_eq, hl]
    rw [sparseBinaryMtx, ← hl', buildSignal_ones _ (hp.nodup_iff.mpr hn), hl']
    have : i ∈ (idx j).mergeSort ↔ i ∈ idx j := hp.mem_iff
    by_cases h : i ∈ idx j
    · rw [if_pos (this.mpr h), if_pos h]
    · rw [if_neg (fun hh => h (this.mp hh)), if_neg h, zero_div]
  have hset : (Finset.range M).filter (fun i => i ∈ idx j) = (idx j).toFinset := by
    ext i; simp only [Finset.mem_filter, Finset.mem_range, List.mem_toFinset]; exact ⟨fun h => h.2, fun h => ⟨hr i h, h⟩⟩
  have hcard : ((idx j).toFinset).card = d := by rw [List.toFinset_card_of_nodup hn, hl]
  refine ⟨he, ?_, ?_⟩
  · refine Eq.trans ?_ hcard
    rw [← hset]
    congr 1
    refine Finset.filter_congr fun i _ => ?_
    rw [he i]
    by_cases h : i ∈ idx j
    · simp [h, hs.ne', hd.ne']
    · simp [h]
  · have : ∀ i ∈ Finset.range M, sparseBinaryMtx d idx i j ^ 2 = if i ∈ idx j then 1 / (d : ℝ) else 0 := by
      intro i _
      rw [he i]
      split_ifs
      · rw [div_pow, Real.sq_sqrt hdR.le, one_pow]
      · simp
    rw [Finset.sum_congr rfl this, ← Finset.sum_filter, hset, Finset.sum_const, hcard, nsmul_eq_mul, mul_one_div, div_self hdR.ne']

/-- **C70** for every drawn matrix with linearly independent columns (and whatever factors `qr` returns), `random_orthonormal_rows` has orthonormal rows and `random_onb` orthonormal columns. -/
theorem c70_orthonormal_partial {n m : ℕ} (A Q : Matrix (Fin n) (Fin m) ℝ) (R : Matrix (Fin m) (Fin m) ℝ) (h : IsQR A Q R) (hA : ∀ x, A.mulVec x = 0 → x = 0) :
    (signFixed Q R).transpose * signFixed Q R = 1 ∧ randomOrthonormalRows Q R * (randomOrthonormalRows Q R).transpose = 1 ∧ ∀ j, 0 < Real.sign (R j j) * R j j := by
  have hdet : R.det ≠ 0 := by
    intro h0
    obtain ⟨x, hx, hRx⟩ := Matrix.exists_mulVec_eq_zero_iff.mpr h0
    refine hx (hA x ?_)
    rw [← h.prod, ← Matrix.mulVec_mulVec, hRx, Matrix.mulVec_zero]
  have hd : ∀ j, R j j ≠ 0 := by
    rw [Matrix.det_of_upperTriangular (fun i j hij => h.upper i j hij)] at hdet
    intro j h0
    exact hdet (Finset.prod_eq_zero (Finset.mem_univ j) h0)
  have hsq : ∀ j, Real.sign (R j j) * Real.sign (R j j) = 1 := by
    intro j
    rcases lt_or_gt_of_ne (hd j) with hj | hj
    · rw [Real.sign_of_neg hj]; norm_num
    · rw [Real.sign_of_pos hj]; norm_num
  have hmain : (signFixed Q R).transpose * signFixed Q R = 1 := by
    ext i j
    have hij : (Q.transpose * Q) i j = (1 : Matrix (Fin m) (Fin m) ℝ) i j := by rw [h.orth]
    rw [Matrix.mul_apply] at hij ⊢
    simp only [Matrix.transpose_apply, signFixed] at hij ⊢
    have e : ∀ k, Q k i * Real.sign (R i i) * (Q k j * Real.sign (R j j)) = (Q k i * Q k j) * (Real.sign (R i i) * Real.sign (R j j)) := fun k => by ring
    simp only [e, ← Finset.sum_mul, hij]
    by_cases hh : i = j
    · subst hh; rw [hsq, mul_one]
    · rw [Matrix.one_apply_ne hh, zero_mul]
  refine ⟨hmain, by simpa [randomOrthonormalRows] using hmain, fun j => ?_⟩
  rcases lt_or_gt_of_ne (hd j) with hj | hj
  · rw [Real.sign_of_neg hj]; linarith
  · rw [Real.sign_of_pos hj]; linarith

/-- Without linear independence the guarantee fails: for the zero draw the sign of the diagonal of `R` is zero and so is the result. -/
theorem c70_orthonormal_fails : IsQR (0 : Matrix (Fin 1) (Fin 1) ℝ) 1 0 ∧ signFixed (1 : Matrix (Fin 1) (Fin 1) ℝ) 0 = 0 := by
  refine ⟨⟨by simp, by simp, fun i j hij => rfl⟩, ?_⟩
  ext i j; simp [signFixed]

/-- The hypotheses of `c70_orthonormal_partial` are met by the identity. -/
theorem ex_qr : IsQR (1 : Matrix (Fin 3) (Fin 3) ℝ) 1 1 ∧ ∀ x, (1 : Matrix (Fin 3) (Fin 3) ℝ).mulVec x = 0 → x = 0 :=
  ⟨⟨by simp, by simp, fun i j hij => Matrix.one_apply_ne hij.ne'⟩, fun x h => by simpa using h⟩

/-- The hypotheses of `c70_sparse_binary` are met. -/
example : ([4, 1, 2] : List ℕ).Nodup ∧ ∀ i ∈ ([4, 1, 2] : List ℕ), i < 5 := by decide

example : ∃ H, hadamard 8 = some H ∧ H.length = 8 := by
  obtain ⟨H, hH⟩ := (c69_domain 8).mpr ⟨3, rfl⟩
  exact ⟨H, hH, (c69_hadamard 8 H hH).1⟩

example : ∃ B, hadamardBasis 8 = some B ∧ ∀ i < 8, ∀ j < 8, |B i j| = 1 / Real.sqrt (8 : ℕ) := by
  obtain ⟨H, hH⟩ := (c69_domain 8).mpr ⟨3, rfl⟩
  have h : ∃ B, hadamardBasis 8 = some B := ⟨_, by rw [hadamardBasis, hH, Option.map_some]⟩
  obtain ⟨B, hB⟩ := h
  exact ⟨B, hB, (c69_basis 8 B hB).2.1⟩

example := c70_gaussian (N := 2) (D := 3) (fun j => EuclideanSpace.single 0 ((j : ℝ) + 1)) 1 (by simp)

example (bits : ℕ → ℕ → Bool) := c70_rademacher 4 (by norm_num) bits 7

example := c70_sparse_binary 5 3 (by norm_num) (fun _ => [4, 1, 2]) 0 (by decide) rfl (by decide)

example := c70_orthonormal_partial _ _ _ ex_qr.1 ex_qr.2

end Verif.Dict
