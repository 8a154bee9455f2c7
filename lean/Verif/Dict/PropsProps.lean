import Verif.Dict.PropsModel
import Verif.Pursuit.UtilProps
import Mathlib.Analysis.InnerProductSpace.PiL2
import Mathlib.Algebra.Order.Chebyshev
import Mathlib.Tactic.FieldSimp

set_option autoImplicit false
/-!
# Coherence, babel function, Welch bound, matching atoms (C66, C67, C68, C80)
-/
noncomputable section
namespace Verif.Dict
open Verif.Pursuit

/-! ## C66 -/

theorem ravel_getD (n p : ℕ) (G : ℕ → ℕ → ℝ) {q : ℕ} (h : q < n * p) : (ravel n p G).getD q 0 = G (q / p) (q % p) := by
  simp [ravel, List.getD, h]

theorem argmax2_spec (n p : ℕ) (hn : 0 < n) (hp : 0 < p) (G : ℕ → ℕ → ℝ) :
    (argmax2 n p G).1 < n ∧ (argmax2 n p G).2 < p ∧ ∀ i < n, ∀ j < p, G i j ≤ G (argmax2 n p G).1 (argmax2 n p G).2 := by
  have hne : ravel n p G ≠ [] := by
    intro h; have := congrArg List.length h; simp [ravel] at this; omega
  obtain ⟨h1, h2, _⟩ := argmax_spec (ravel n p G) hne
  have hlen : (ravel n p G).length = n * p := by simp [ravel]
  rw [hlen] at h1
  refine ⟨?_, Nat.mod_lt _ hp, fun i hi j hj => ?_⟩
  · exact (Nat.div_lt_iff_lt_mul hp).mpr h1
  · have hq : i * p + j < n * p := by
      calc i * p + j < i * p + p := by omega
        _ = (i + 1) * p := by ring
        _ ≤ n * p := Nat.mul_le_mul_right p hi
    have e1 : (i * p + j) / p = i := by rw [mul_comm, Nat.mul_add_div hp, Nat.div_eq_of_lt hj, add_zero]
    have e2 : (i * p + j) % p = j := by rw [mul_comm, Nat.mul_add_mod, Nat.mod_eq_of_lt hj]
    have := h2 (G i j) (List.mem_map.mpr ⟨i * p + j, List.mem_range.mpr hq, by rw [e1, e2]⟩)
    rwa [ravel_getD n p G h1] at this

/-- **C66** for real dictionaries with at least two atoms the coherence is the largest absolute inner product of two distinct atoms; when it is positive the returned indices are a pair of distinct atoms attaining it. (For a
dictionary of mutually orthogonal atoms the returned pair is `(0, 0)`, see `c66_index_fails`.) -/
theorem c66_coherence_real_partial {E : Type*} [NormedAddCommGroup E] [InnerProductSpace ℝ E] (a : ℕ → E) (n : ℕ) (hn : 2 ≤ n) :
    IsGreatest {c : ℝ | ∃ i < n, ∃ j < n, i ≠ j ∧ c = |inner ℝ (a i) (a j)|} (coherence ℝ a n) ∧
    (0 < coherence ℝ a n → ∃ i < n, ∃ j < n, i ≠ j ∧ (coherenceWithIndex ℝ a n).2 = (i, j) ∧ coherence ℝ a n = |inner ℝ (a i) (a j)|) := by
  have hg : ∀ i j, gram ℝ a i j = inner ℝ (a i) (a j) := fun i j => rfl
  obtain ⟨h1, h2, h3⟩ := argmax2_spec n n (by omega) (by omega) fun i j => if i = j then 0 else |gram ℝ a i j|
  set ix := argmax2 n n fun i j => if i = j then 0 else |gram ℝ a i j| with hix
  have hc : coherence ℝ a n = if ix.1 = ix.2 then 0 else |gram ℝ a ix.1 ix.2| := rfl
  have hi : (coherenceWithIndex ℝ a n).2 = ix := rfl
  rw [← hc] at h3
  refine ⟨⟨?_, ?_⟩, ?_⟩
  · by_cases h : ix.1 = ix.2
    · rw [if_pos h] at hc
      have h01 := h3 0 (by omega) 1 (by omega)
      rw [if_neg (by norm_num), hc] at h01
      exact ⟨0, by omega, 1, by omega, by norm_num, by rw [hc]; exact (le_antisymm h01 (abs_nonneg _)).symm⟩
    · rw [if_neg h] at hc
      exact ⟨ix.1, h1, ix.2, h2, h, by rw [hc, hg]⟩
  · rintro c ⟨i, hi, j, hj, hij, rfl⟩
    have := h3 i hi j hj
    rwa [if_neg hij] at this
  · intro hpos
    by_cases h : ix.1 = ix.2
    · rw [if_pos h] at hc; exact absurd hc hpos.ne'
    · rw [if_neg h] at hc
      exact ⟨ix.1, h1, ix.2, h2, h, hi, by rw [hc, hg]⟩

/-- For an orthogonal dictionary the reported pair is the first atom with itself. -/
theorem c66_index_fails : (coherenceWithIndex ℝ (fun i : ℕ => (EuclideanSpace.single (if i = 0 then 0 else 1) 1 : EuclideanSpace ℝ (Fin 2))) 2) = (0, (0, 0)) := by
  have h1 : inner ℝ (EuclideanSpace.single 0 1 : EuclideanSpace ℝ (Fin 2)) (EuclideanSpace.single 1 1) = 0 := by simp [EuclideanSpace.inner_single_left]
  have h2 : inner ℝ (EuclideanSpace.single 1 1 : EuclideanSpace ℝ (Fin 2)) (EuclideanSpace.single 0 1) = 0 := by simp [EuclideanSpace.inner_single_left]
  simp [coherenceWithIndex, argmax2, ravel, List.range_succ, argmax, argmaxFrom, gram, h1, h2]

/-- For complex dictionaries `coherence` is wrong: the two parallel atoms `1` and `i` of the complex line have coherence one, the function gives zero. -/
theorem c66_complex_fails : coherence ℂ (fun k : ℕ => if k = 0 then (1 : ℂ) else Complex.I) 2 = 0 ∧ ‖(inner ℂ (1 : ℂ) Complex.I : ℂ)‖ = 1 := by
  constructor
  · simp [coherence, coherenceWithIndex, argmax2, ravel, List.range_succ, argmax, argmaxFrom, gram]
  · simp

/-- **C66** `mutual_coherence_with_index` is right for real and complex dictionaries: the largest absolute inner product of an atom of `A` with an atom of `B`, with a pair attaining it. -/
theorem c66_mutual_coherence {𝕜 : Type*} [RCLike 𝕜] {E : Type*} [NormedAddCommGroup E] [InnerProductSpace 𝕜 E] (a b : ℕ → E) (n p : ℕ) (hn : 0 < n) (hp : 0 < p) :
    (mutualCoherenceWithIndex 𝕜 a b n p).2.1 < n ∧ (mutualCoherenceWithIndex 𝕜 a b n p).2.2 < p ∧
    (mutualCoherenceWithIndex 𝕜 a b n p).1 = ‖inner 𝕜 (a (mutualCoherenceWithIndex 𝕜 a b n p).2.1) (b (mutualCoherenceWithIndex 𝕜 a b n p).2.2)‖ ∧
    ∀ i < n, ∀ j < p, ‖inner 𝕜 (a i) (b j)‖ ≤ (mutualCoherenceWithIndex 𝕜 a b n p).1 := by
  obtain ⟨h1, h2, h3⟩ := argmax2_spec n p hn hp fun i j => ‖inner 𝕜 (a i) (b j)‖
  exact ⟨h1, h2, rfl, h3⟩

/-! ## C67 -/

/-- The sum of the first `k` entries of the descending rearrangement of the values of `f` on `L` is the largest sum of `f` over `k` members of `L`. -/
theorem top_k_sum (f : ℕ → ℝ) (hf : ∀ i, 0 ≤ f i) (L : List ℕ) (hL : L.Nodup) (t : List ℝ) (ht : t.Perm (L.map f)) (hs : t.Pairwise fun x y => y ≤ x) (k : ℕ) (hk : k ≤ L.length) :
    IsGreatest {c : ℝ | ∃ S : Finset ℕ, (∀ i ∈ S, i ∈ L) ∧ S.card = k ∧ c = ∑ i ∈ S, f i} (t.take k).sum := by
  set J := L.mergeSort fun i j => decide (f j ≤ f i) with hJ
  have hJp : J.Perm L := List.mergeSort_perm _ _
  have hJs : J.Pairwise fun i j => f j ≤ f i := by
    have := List.pairwise_mergeSort (le := fun i j => decide (f j ≤ f i)) (by intro a b c; simp only [decide_eq_true_eq]; intro h1 h2; exact h2.trans h1)
      (by intro a b; simp only [Bool.or_eq_true, decide_eq_true_eq]; exact le_total _ _) L
    simpa using this
  have hJn : J.Nodup := hJp.nodup_iff.mpr hL
  have htJ : t = J.map f := by
    refine List.Perm.eq_of_pairwise (le := fun x y : ℝ => y ≤ x) (fun x y _ _ h1 h2 => le_antisymm h2 h1) hs ?_ (ht.trans (hJp.symm.map f))
    exact List.pairwise_map.mpr hJs
  have hJl : J.length = L.length := hJp.length_eq
  have hTn : (J.take k).Nodup := hJn.sublist (List.take_sublist _ _)
  have hsum : (t.take k).sum = ∑ i ∈ (J.take k).toFinset, f i := by
    rw [htJ, ← List.map_take, List.sum_toFinset f hTn]
  have hcard : (J.take k).toFinset.card = k := by rw [List.toFinset_card_of_nodup hTn, List.length_take, hJl, min_eq_left hk]
  refine ⟨⟨(J.take k).toFinset, fun i hi => hJp.mem_iff.mp (List.mem_of_mem_take (List.mem_toFinset.mp hi)), hcard, hsum⟩, ?_⟩
  rintro c ⟨S, hS, hSk, rfl⟩
  rw [hsum]
  refine sum_le_of_dominates hf S _ (by rw [hcard, hSk]) ?_
  intro i hi j hj hjn
  have hjJ : j ∈ J := hJp.mem_iff.mpr (hS j hj)
  rw [← List.take_append_drop k J] at hjJ hJs
  have hjd : j ∈ J.drop k := (List.mem_append.mp hjJ).resolve_left fun h => hjn (List.mem_toFinset.mpr h)
  exact (List.pairwise_append.mp hJs).2.2 i (List.mem_toFinset.mp hi) j hjd

theorem list_max_spec (f : ℕ → ℝ) (n : ℕ) (hn : 0 < n) :
    IsGreatest {c : ℝ | ∃ i < n, c = f i} (((List.range n).map f).getD (argmax ((List.range n).map f)) 0) := by
  have hne : (List.range n).map f ≠ [] := by intro h; have := congrArg List.length h; simp at this; omega
  obtain ⟨h1, h2, _⟩ := argmax_spec _ hne
  rw [List.length_map, List.length_range] at h1
  refine ⟨⟨argmax ((List.range n).map f), h1, ?_⟩, ?_⟩
  · simp [List.getD, h1]
  · rintro c ⟨i, hi, rfl⟩
    exact h2 _ (List.mem_map.mpr ⟨i, List.mem_range.mpr hi, rfl⟩)

variable {E : Type*} [NormedAddCommGroup E] [InnerProductSpace ℝ E]

theorem babelRow_perm (a : ℕ → E) (n : ℕ) (ha : ∀ i < n, ‖a i‖ = 1) (i : ℕ) (hi : i < n) :
    (babelRow ℝ a n i).Perm (((List.range n).erase i).map fun j => |inner ℝ (a i) (a j)|) ∧ (babelRow ℝ a n i).Pairwise fun x y => y ≤ x := by
  set f : ℕ → ℝ := fun j => |inner ℝ (a i) (a j)| with hf
  set M := ((List.range n).map f).mergeSort with hM
  have hrow : babelRow ℝ a n i = (M.take (n - 1)).reverse := rfl
  have hMp : M.Perm ((List.range n).map f) := List.mergeSort_perm _ _
  have hMs : M.Pairwise fun x y => x ≤ y := by
    have := List.pairwise_mergeSort (le := fun x y : ℝ => decide (x ≤ y)) (by intro a b c; simp only [decide_eq_true_eq]; exact le_trans) (by intro a b; simp only [Bool.or_eq_true, decide_eq_true_eq]; exact le_total _ _) ((List.range n).map f)
    simpa using this
  have hMl : M.length = n := by rw [hMp.length_eq]; simp
  refine ⟨?_, ?_⟩
  swap
  · rw [hrow, List.pairwise_reverse]
    exact hMs.sublist (List.take_sublist _ _)
  · have hne : M ≠ [] := by intro h; rw [h] at hMl; simp at hMl; omega
    have hsplit : M = M.take (n - 1) ++ [M.getLast hne] := by
      conv_lhs => rw [← List.dropLast_append_getLast hne]
      rw [List.dropLast_eq_take, hMl]
    have hfi : f i = 1 := by simp only [hf, real_inner_self_eq_norm_sq, ha i hi]; norm_num
    have hle1 : ∀ j < n, f j ≤ 1 := by
      intro j hj
      have := abs_real_inner_le_norm (a i) (a j)
      rw [ha i hi, ha j hj, mul_one] at this
      exact this
    have hlast : M.getLast hne = 1 := by
      have hmem : M.getLast hne ∈ (List.range n).map f := hMp.mem_iff.mp (List.getLast_mem hne)
      obtain ⟨j, hj, hje⟩ := List.mem_map.mp hmem
      refine le_antisymm (hje ▸ hle1 j (List.mem_range.mp hj)) ?_
      have h1 : (1 : ℝ) ∈ M := hMp.mem_iff.mpr (List.mem_map.mpr ⟨i, List.mem_range.mpr hi, hfi⟩)
      rw [hsplit] at h1 hMs
      rcases List.mem_append.mp h1 with h | h
      · exact (List.pairwise_append.mp hMs).2.2 1 h _ (by simp)
      · have := List.mem_singleton.mp h
        exact this.le
    have hp1 : M.Perm (1 :: (M.take (n - 1)).reverse) := by
      conv_lhs => rw [hsplit, hlast]
      exact (List.perm_append_singleton 1 (M.take (n - 1))).trans ((List.reverse_perm _).symm.cons 1)
    have hp2 : ((List.range n).map f).Perm (1 :: ((List.range n).erase i).map f) := by
      have := (List.perm_cons_erase (List.mem_range.mpr hi)).map f
      rwa [List.map_cons, hfi] at this
    rw [hrow]
    exact List.Perm.cons_inv (hp1.symm.trans (hMp.trans hp2))

/-- **C67** for unit-norm atoms, entry `k-1` of `babel` is the largest, over all atoms `i` and all sets `S` of `k` other atoms, of `∑_{j ∈ S} |⟨a_i, a_j⟩|`. -/
theorem c67_babel (a : ℕ → E) (n : ℕ) (ha : ∀ i < n, ‖a i‖ = 1) (k : ℕ) (hk : 1 ≤ k) (hkn : k < n) :
    IsGreatest {c : ℝ | ∃ i < n, ∃ S : Finset ℕ, (∀ j ∈ S, j < n ∧ j ≠ i) ∧ S.card = k ∧ c = ∑ j ∈ S, |inner ℝ (a i) (a j)|} (babel ℝ a n (k - 1)) := by
  have hb : babel ℝ a n (k - 1) = ((List.range n).map fun i => ((babelRow ℝ a n i).take k).sum).getD (argmax ((List.range n).map fun i => ((babelRow ℝ a n i).take k).sum)) 0 := by
    rw [babel, Nat.sub_add_cancel hk]
  have hmax := list_max_spec (fun i => ((babelRow ℝ a n i).take k).sum) n (by omega)
  rw [← hb] at hmax
  have hmem : ∀ i j, j ∈ (List.range n).erase i ↔ j < n ∧ j ≠ i := by
    intro i j
    rw [List.Nodup.mem_erase_iff List.nodup_range, List.mem_range, and_comm]
  have hrow : ∀ i < n, IsGreatest {c : ℝ | ∃ S : Finset ℕ, (∀ j ∈ S, j ∈ (List.range n).erase i) ∧ S.card = k ∧ c = ∑ j ∈ S, |inner ℝ (a i) (a j)|} ((babelRow ℝ a n i).take k).sum := by
    intro i hi
    obtain ⟨h1, h2⟩ := babelRow_perm a n ha i hi
    exact top_k_sum (fun j => |inner ℝ (a i) (a j)|) (fun j => abs_nonneg _) _ (List.nodup_range.erase i) _ h1 h2 k (by
      rw [List.length_erase_of_mem (List.mem_range.mpr hi), List.length_range]; omega)
  constructor
  · obtain ⟨i, hi, he⟩ := hmax.1
    obtain ⟨S, hS, hc, hsum⟩ := (hrow i hi).1
    exact ⟨i, hi, S, fun j hj => (hmem i j).mp (hS j hj), hc, he.trans hsum⟩
  · rintro c ⟨i, hi, S, hS, hc, rfl⟩
    exact ((hrow i hi).2 ⟨S, fun j hj => (hmem i j).mpr (hS j hj), hc, rfl⟩).trans (hmax.2 ⟨i, hi, rfl⟩)

/-- **C67** the babel function is non-decreasing, at most `k` times the coherence, and its first entry is the coherence. -/
theorem c67_babel_bounds (a : ℕ → E) (n : ℕ) (ha : ∀ i < n, ‖a i‖ = 1) (k : ℕ) (hk : 1 ≤ k) (hkn : k < n) :
    babel ℝ a n (k - 1) ≤ k * coherence ℝ a n ∧ (k + 1 < n → babel ℝ a n (k - 1) ≤ babel ℝ a n k) ∧ babel ℝ a n 0 = coherence ℝ a n := by
  have hcoh := (c66_coherence_real_partial a n (by omega)).1
  refine ⟨?_, fun hk1 => ?_, ?_⟩
  · obtain ⟨i, hi, S, hS, hc, he⟩ := (c67_babel a n ha k hk hkn).1
    rw [he]
    have := Finset.sum_le_card_nsmul S (fun j => |inner ℝ (a i) (a j)|) (coherence ℝ a n) fun j hj => hcoh.2 ⟨i, hi, j, (hS j hj).1, (hS j hj).2.symm, rfl⟩
    rwa [hc, nsmul_eq_mul] at this
  · obtain ⟨i, hi, S, hS, hc, he⟩ := (c67_babel a n ha k hk hkn).1
    have hex : ∃ j ∈ Finset.range n, j ∉ insert i S := by
      by_contra hno
      push Not at hno
      have hsub : Finset.range n ⊆ insert i S := hno
      have := Finset.card_le_card hsub
      have h2 := Finset.card_insert_le i S
      rw [Finset.card_range] at this
      omega
    obtain ⟨j, hj, hjn⟩ := hex
    rw [Finset.mem_insert, not_or] at hjn
    have hup := (c67_babel a n ha (k + 1) (by omega) hk1).2
    rw [Nat.add_sub_cancel] at hup
    have := hup ⟨i, hi, insert j S, fun q hq => by
      rcases Finset.mem_insert.mp hq with rfl | hq
      · exact ⟨Finset.mem_range.mp hj, hjn.1⟩
      · exact hS q hq, by rw [Finset.card_insert_of_notMem hjn.2, hc], rfl⟩
    rw [Finset.sum_insert hjn.2] at this
    rw [he]
    linarith [abs_nonneg (inner ℝ (a i) (a j))]
  · have hb := c67_babel a n ha 1 le_rfl (by omega)
    rw [Nat.sub_self] at hb
    refine le_antisymm ?_ ?_
    · obtain ⟨i, hi, S, hS, hc, he⟩ := hb.1
      obtain ⟨j, rfl⟩ := Finset.card_eq_one.mp hc
      rw [Finset.sum_singleton] at he
      rw [he]
      have hj := hS j (by simp)
      exact hcoh.2 ⟨i, hi, j, hj.1, hj.2.symm, rfl⟩
    · obtain ⟨i, hi, j, hj, hij, he⟩ := hcoh.1
      rw [he]
      exact hb.2 ⟨i, hi, {j}, by simpa using ⟨hj, hij.symm⟩, by simp, by simp⟩

/-- The hypotheses are met by a frame of three distinct unit vectors in the plane. -/
theorem ex_unit : ∃ a : ℕ → EuclideanSpace ℝ (Fin 2), (∀ i < 3, ‖a i‖ = 1) ∧ a 0 ≠ a 1 := by
  refine ⟨fun i => if i = 0 then EuclideanSpace.single 0 1 else EuclideanSpace.single 1 1, fun i _ => ?_, ?_⟩
  · dsimp only; split_ifs <;> simp
  · intro h
    have := congrFun (congrArg WithLp.ofLp h) 0
    simp at this

/-! ## C68 -/

theorem frame_potential {𝕜 : Type*} [RCLike 𝕜] {m n : ℕ} (A : Fin m → Fin n → 𝕜) :
    ∑ i, ∑ j, ‖∑ k, star (A k i) * A k j‖ ^ 2 = ∑ k, ∑ l, ‖∑ i, A k i * star (A l i)‖ ^ 2 := by
  have key : (∑ i, ∑ j, (∑ k, star (A k i) * A k j) * star (∑ k, star (A k i) * A k j)) = ∑ k, ∑ l, (∑ i, A k i * star (A l i)) * star (∑ i, A k i * star (A l i)) := by
    simp only [star_sum, star_mul', star_star, Finset.sum_mul_sum]
    calc ∑ i, ∑ j, ∑ k, ∑ l, star (A k i) * A k j * (A l i * star (A l j))
        = ∑ i, ∑ k, ∑ l, ∑ j, star (A k i) * A k j * (A l i * star (A l j)) := by
          refine Finset.sum_congr rfl fun i _ => ?_
          rw [Finset.sum_comm]
          refine Finset.sum_congr rfl fun k _ => ?_
          rw [Finset.sum_comm]
      _ = ∑ k, ∑ l, ∑ i, ∑ j, star (A k i) * A k j * (A l i * star (A l j)) := by
          rw [Finset.sum_comm]
          refine Finset.sum_congr rfl fun k _ => ?_
          rw [Finset.sum_comm]
      _ = ∑ k, ∑ l, ∑ i, ∑ j, A k i * star (A l i) * (star (A k j) * A l j) := by
          refine Finset.sum_congr rfl fun k _ => Finset.sum_congr rfl fun l _ => ?_
          rw [Finset.sum_comm]
          exact Finset.sum_congr rfl fun i _ => Finset.sum_congr rfl fun j _ => by ring
  have conv : ∀ z : 𝕜, z * star z = ((‖z‖ ^ 2 : ℝ) : 𝕜) := by
    intro z; rw [RCLike.star_def, RCLike.mul_conj]; push_cast; rfl
  simp only [conv] at key
  exact_mod_cast key

/-- **C68** (Welch bound) whatever the `n` unit-norm atoms in `m` dimensions, real or complex, some two of them have an inner product of absolute value at least `minimum_coherence(m, n)`. -/
theorem c68_welch {𝕜 : Type*} [RCLike 𝕜] (m n : ℕ) (hm : 0 < m) (hn : 2 ≤ n) (a : Fin n → EuclideanSpace 𝕜 (Fin m)) (ha : ∀ i, ‖a i‖ = 1) (mu : ℝ) (hmu : ∀ i j, i ≠ j → ‖inner 𝕜 (a i) (a j)‖ ≤ mu)
    (c : ℝ) (hc : minimumCoherence m n = some c) : c ≤ mu := by
  have hin : ∀ i j, inner 𝕜 (a i) (a j) = ∑ k, star (a i k) * a j k := by
    intro i j
    rw [PiLp.inner_apply]
    exact Finset.sum_congr rfl fun k _ => by rw [RCLike.inner_apply', RCLike.star_def]
  have hfp := frame_potential (𝕜 := 𝕜) fun (k : Fin m) (i : Fin n) => a i k
  simp only [← hin] at hfp
  have hdiag : ∀ k : Fin m, ‖∑ i, a i k * star (a i k)‖ = ∑ i, ‖a i k‖ ^ 2 := by
    intro k
    have : ∑ i, a i k * star (a i k) = ((∑ i, ‖a i k‖ ^ 2 : ℝ) : 𝕜) := by
      push_cast
      exact Finset.sum_congr rfl fun i _ => by rw [RCLike.star_def, RCLike.mul_conj]
    rw [this, RCLike.norm_ofReal, abs_of_nonneg (Finset.sum_nonneg fun i _ => sq_nonneg _)]
  have htr : ∑ k : Fin m, ∑ i, ‖a i k‖ ^ 2 = n := by
    rw [Finset.sum_comm]
    have : ∀ i, ∑ k : Fin m, ‖a i k‖ ^ 2 = 1 := fun i => by rw [← EuclideanSpace.norm_sq_eq, ha i, one_pow]
    simp [this]
  have hcs : (n : ℝ) ^ 2 ≤ m * ∑ k : Fin m, (∑ i, ‖a i k‖ ^ 2) ^ 2 := by
    have := sq_sum_le_card_mul_sum_sq (s := (Finset.univ : Finset (Fin m))) (f := fun k => ∑ i, ‖a i k‖ ^ 2)
    rwa [htr, Finset.card_univ, Fintype.card_fin] at this
  have hlow : ∑ k : Fin m, (∑ i, ‖a i k‖ ^ 2) ^ 2 ≤ ∑ k : Fin m, ∑ l : Fin m, ‖∑ i, a i k * star (a i l)‖ ^ 2 := by
    refine Finset.sum_le_sum fun k _ => ?_
    rw [← hdiag k]
    exact Finset.single_le_sum (f := fun l => ‖∑ i, a i k * star (a i l)‖ ^ 2) (fun l _ => sq_nonneg _) (Finset.mem_univ k)
  have hmu0 : 0 ≤ mu := (norm_nonneg _).trans (hmu ⟨0, by omega⟩ ⟨1, by omega⟩ (by simp [Fin.ext_iff]))
  have hup : ∑ i, ∑ j, ‖inner 𝕜 (a i) (a j)‖ ^ 2 ≤ n + n * (n - 1) * mu ^ 2 := by
    have hrow : ∀ i, ∑ j, ‖inner 𝕜 (a i) (a j)‖ ^ 2 ≤ 1 + (n - 1) * mu ^ 2 := by
      intro i
      rw [← Finset.add_sum_erase _ _ (Finset.mem_univ i)]
      have h1 : ‖inner 𝕜 (a i) (a i)‖ ^ 2 = 1 := by rw [inner_self_eq_norm_sq_to_K, ha i]; simp
      have h2 := Finset.sum_le_card_nsmul (Finset.univ.erase i) (fun j => ‖inner 𝕜 (a i) (a j)‖ ^ 2) (mu ^ 2) fun j hj =>
        pow_le_pow_left₀ (norm_nonneg _) (hmu i j (Finset.ne_of_mem_erase hj).symm) 2
      rw [Finset.card_erase_of_mem (Finset.mem_univ i), Finset.card_univ, Fintype.card_fin, nsmul_eq_mul, Nat.cast_sub (by omega), Nat.cast_one] at h2
      rw [h1]; linarith
    have := Finset.sum_le_card_nsmul Finset.univ (fun i => ∑ j, ‖inner 𝕜 (a i) (a j)‖ ^ 2) (1 + (n - 1) * mu ^ 2) fun i _ => hrow i
    rw [Finset.card_univ, Fintype.card_fin, nsmul_eq_mul] at this
    linarith
  have hmR : (0 : ℝ) < m := by exact_mod_cast hm
  have hnR : (2 : ℝ) ≤ n := by exact_mod_cast hn
  have hfinal : (n : ℝ) ^ 2 ≤ m * (n + n * (n - 1) * mu ^ 2) := by
    refine hcs.trans (mul_le_mul_of_nonneg_left ?_ hmR.le)
    rw [hfp] at hup
    exact hlow.trans hup
  have hcv : c = Real.sqrt (((n : ℝ) - m) / (m * ((n : ℝ) - 1))) := by
    simp only [minimumCoherence] at hc
    split at hc
    · exact absurd hc (by simp)
    · exact (Option.some.inj hc).symm
  rw [hcv]
  refine Real.sqrt_le_iff.mpr ⟨hmu0, ?_⟩
  rw [div_le_iff₀ (by have : (0:ℝ) < n - 1 := by linarith
                      positivity)]
  have hdiv : (n : ℝ) * n ≤ n * (m * (1 + (n - 1) * mu ^ 2)) := by nlinarith
  have := le_of_mul_le_mul_left hdiv (by linarith)
  linarith

/-- **C68** in particular no real dictionary with unit-norm atoms has a `coherence` below `minimum_coherence(m, n)`. -/
theorem c68_coherence_bound (m n : ℕ) (hm : 0 < m) (hn : 2 ≤ n) (a : ℕ → EuclideanSpace ℝ (Fin m)) (ha : ∀ i < n, ‖a i‖ = 1)
    (c : ℝ) (hc : minimumCoherence m n = some c) : c ≤ coherence ℝ a n := by
  refine c68_welch (𝕜 := ℝ) m n hm hn (fun i => a i) (fun i => ha i i.isLt) _ (fun i j hij => ?_) c hc
  exact (c66_coherence_real_partial a n hn).1.2 ⟨i, i.isLt, j, j.isLt, fun h => hij (Fin.ext h), rfl⟩

/-- **C68** For at least one row and at least two atoms the function returns a value exactly when there are not fewer atoms than rows; the value is the Welch bound, which lies in `[0, 1]`
and is zero exactly for square dictionaries. -/
theorem c68_domain (m n : ℕ) (hm : 0 < m) (hn : 2 ≤ n) :
    ((∃ c, minimumCoherence m n = some c) ↔ m ≤ n) ∧
    ∀ c, minimumCoherence m n = some c → 0 ≤ c ∧ c ≤ 1 ∧ c ^ 2 * (m * (n - 1)) = n - m ∧ (c = 0 ↔ m = n) := by
  have hmR : (1 : ℝ) ≤ m := by exact_mod_cast hm
  have hnR : (2 : ℝ) ≤ n := by exact_mod_cast hn
  have hd : (0 : ℝ) < m * ((n : ℝ) - 1) := mul_pos (by linarith) (by linarith)
  have hneg : ((n : ℝ) - m) / (m * ((n : ℝ) - 1)) < 0 ↔ n < m := by
    rw [div_neg_iff]
    constructor
    · rintro (⟨_, h⟩ | ⟨h, _⟩)
      · linarith
      · have : (n : ℝ) < m := by linarith
        exact_mod_cast this
    · intro h
      have : (n : ℝ) < m := by exact_mod_cast h
      exact Or.inr ⟨by linarith, hd⟩
  refine ⟨⟨?_, fun h => ?_⟩, ?_⟩
  · rintro ⟨c, hc⟩
    by_contra hlt
    simp only [minimumCoherence, if_pos (Or.inr (hneg.mpr (by omega)) : (m : ℝ) * ((n : ℝ) - 1) = 0 ∨ _)] at hc
    exact absurd hc (by simp)
  · refine ⟨Real.sqrt (((n : ℝ) - m) / (m * ((n : ℝ) - 1))), ?_⟩
    simp only [minimumCoherence]
    rw [if_neg]
    rintro (h0 | h0)
    · linarith
    · have := hneg.mp h0
      omega
  · intro c hc
    simp only [minimumCoherence] at hc
    split at hc
    · exact absurd hc (by simp)
    · rename_i hno
      push Not at hno
      obtain rfl := Option.some.inj hc
      have hmn : m ≤ n := by
        by_contra hlt
        have := hneg.mpr (by omega)
        linarith [hno.2]
      have hmn' : (m : ℝ) ≤ n := by exact_mod_cast hmn
      refine ⟨Real.sqrt_nonneg _, ?_, ?_, ?_⟩
      · rw [Real.sqrt_le_left zero_le_one, one_pow, div_le_one hd]
        nlinarith
      · rw [Real.sq_sqrt hno.2, div_mul_cancel₀ _ hd.ne']
      · rw [Real.sqrt_eq_zero hno.2, div_eq_zero_iff]
        constructor
        · rintro (h | h)
          · have : (m : ℝ) = n := by linarith
            exact_mod_cast this
          · exact absurd h hd.ne'
        · rintro rfl
          left; ring

/-! ## C80 -/

/-- **C80** the ratio is the number of atoms of `A` that have an atom of `B` with absolute inner product above `1 - threshold`, divided by the number of atoms of `A`; it lies in `[0, 1]`. -/
theorem c80_ratio (a b : ℕ → E) (n p : ℕ) (hn : 0 < n) (hp : 0 < p) (thr : ℝ) :
    matchingAtomsRatio a b n p thr = ({i ∈ Finset.range n | ∃ j < p, 1 - thr < |inner ℝ (a i) (b j)|}.card : ℝ) / n ∧
    0 ≤ matchingAtomsRatio a b n p thr ∧ matchingAtomsRatio a b n p thr ≤ 1 := by
  classical
  have hnR : (0 : ℝ) < n := by exact_mod_cast hn
  have hmax : ∀ i, (1 - (((List.range p).map fun j => |inner ℝ (a i) (b j)|).getD (argmax ((List.range p).map fun j => |inner ℝ (a i) (b j)|)) 0) < thr) ↔ ∃ j < p, 1 - thr < |inner ℝ (a i) (b j)| := by
    intro i
    have hm := list_max_spec (fun j => |inner ℝ (a i) (b j)|) p hp
    constructor
    · intro h
      obtain ⟨j, hj, he⟩ := hm.1
      exact ⟨j, hj, by rw [he] at h; linarith⟩
    · rintro ⟨j, hj, h⟩
      have := hm.2 ⟨j, hj, rfl⟩
      linarith
  have hcount : ((List.range n).countP fun i => decide (1 - (((List.range p).map fun j => |inner ℝ (a i) (b j)|).getD (argmax ((List.range p).map fun j => |inner ℝ (a i) (b j)|)) 0) < thr))
      = {i ∈ Finset.range n | ∃ j < p, 1 - thr < |inner ℝ (a i) (b j)|}.card := by
    rw [List.countP_eq_length_filter, ← List.toFinset_card_of_nodup (List.nodup_range.filter _), List.toFinset_filter, List.toFinset_range]
    congr 1
    refine Finset.filter_congr fun i _ => ?_
    rw [decide_eq_true_eq]
    exact hmax i
  have he : matchingAtomsRatio a b n p thr = ({i ∈ Finset.range n | ∃ j < p, 1 - thr < |inner ℝ (a i) (b j)|}.card : ℝ) / n := by
    exact congrArg (fun c : ℕ => (c : ℝ) / n) hcount
  refine ⟨he, by rw [he]; positivity, ?_⟩
  rw [he, div_le_one hnR]
  have := Finset.card_filter_le (Finset.range n) fun i => ∃ j < p, 1 - thr < |inner ℝ (a i) (b j)|
  rw [Finset.card_range] at this
  exact_mod_cast this

/-- **C80** for unit-norm atoms and a positive threshold the ratio is one whenever every atom of `A` occurs in `B` up to sign, in particular for signed permutations. -/
theorem c80_signed_permutation (a b : ℕ → E) (n : ℕ) (hn : 0 < n) (ha : ∀ i < n, ‖a i‖ = 1) (pi : ℕ → ℕ) (hpi : ∀ i < n, pi i < n) (hb : ∀ i < n, b (pi i) = a i ∨ b (pi i) = - a i) (thr : ℝ) (hthr : 0 < thr) :
    matchingAtomsRatio a b n n thr = 1 := by
  rw [(c80_ratio a b n n hn hn thr).1]
  have : {i ∈ Finset.range n | ∃ j < n, 1 - thr < |inner ℝ (a i) (b j)|} = Finset.range n := by
    refine Finset.filter_true_of_mem fun i hi => ⟨pi i, hpi i (Finset.mem_range.mp hi), ?_⟩
    have hi := Finset.mem_range.mp hi
    have h1 : |inner ℝ (a i) (b (pi i))| = 1 := by
      rcases hb i hi with h | h
      · rw [h, real_inner_self_eq_norm_sq, ha i hi]; norm_num
      · rw [h, inner_neg_right, real_inner_self_eq_norm_sq, ha i hi]; norm_num
    rw [h1]; linarith
  rw [this, Finset.card_range, div_self (by exact_mod_cast hn.ne')]

/-- The hypotheses are met by the dictionaries `(1, 1)` and `(-1, -1)` of the line. -/
example : (∀ i : ℕ, i < 2 → ‖(1 : ℝ)‖ = 1) ∧ ∀ i : ℕ, i < 2 → ((-1 : ℝ) = 1 ∨ (-1 : ℝ) = -1) := by simp

section
variable {E : Type*} [NormedAddCommGroup E] [InnerProductSpace ℝ E]

example (a : ℕ → E) := c66_coherence_real_partial a 3 (by norm_num)

example (a b : ℕ → E) := c66_mutual_coherence (𝕜 := ℝ) a b 2 3 (by norm_num) (by norm_num)

example : ∃ a : ℕ → EuclideanSpace ℝ (Fin 2), babel ℝ a 3 (2 - 1) ≤ (2 : ℕ) * coherence ℝ a 3 ∧
    IsGreatest {c : ℝ | ∃ i < 3, ∃ S : Finset ℕ, (∀ j ∈ S, j < 3 ∧ j ≠ i) ∧ S.card = 2 ∧ c = ∑ j ∈ S, |inner ℝ (a i) (a j)|} (babel ℝ a 3 (2 - 1)) := by
  obtain ⟨a, ha, _⟩ := ex_unit
  exact ⟨a, (c67_babel_bounds a 3 ha 2 (by norm_num) (by norm_num)).1, c67_babel a 3 ha 2 (by norm_num) (by norm_num)⟩

/-- Three unit vectors of the plane; the bound is `1/2`. -/
example : ∃ a : ℕ → EuclideanSpace ℝ (Fin 2), ∃ c, minimumCoherence 2 3 = some c ∧ c ≤ coherence ℝ a 3 := by
  obtain ⟨a, ha, _⟩ := ex_unit
  obtain ⟨c, hc⟩ := (c68_domain 2 3 (by norm_num) (by norm_num)).1.2 (by norm_num)
  exact ⟨a, c, hc, c68_coherence_bound 2 3 (by norm_num) (by norm_num) a ha c hc⟩

example (c : ℝ) (hc : minimumCoherence 1 3 = some c) := c68_welch (𝕜 := ℝ) 1 3 (by norm_num) (by norm_num) (fun _ => EuclideanSpace.single 0 1) (by simp) 1 (by simp) c hc

example (a b : ℕ → E) := c80_ratio a b 2 3 (by norm_num) (by norm_num) 0.01

/-- Atoms exchanged, the second one with the opposite sign. -/
example (a : ℕ → E) (ha : ∀ i < 2, ‖a i‖ = 1) := c80_signed_permutation a (fun i => if i = 0 then -a 1 else a 0) 2 (by norm_num) ha (fun i => 1 - i) (fun i hi => by omega)
  (fun i hi => by interval_cases i <;> simp) 0.01 (by norm_num)
end

end Verif.Dict
