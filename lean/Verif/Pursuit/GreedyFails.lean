import Verif.Pursuit.GreedyProps

set_option autoImplicit false
/-!
# Counterexamples for CoSaMP, SP and IHT, and non-vacuity examples (C47-C50)
-/
noncomputable section
namespace Verif.Pursuit
open Verif.Loop
open scoped RealInnerProductSpace

/-- The contract assumed of `lstsq` in C47-C49 can be met, for every dictionary. -/
example (𝕜 : Type*) [RCLike 𝕜] (E : Type*) [NormedAddCommGroup E] [InnerProductSpace 𝕜 E] (phi : ℕ → E) :
    ∃ lstsq : List ℕ → E → List 𝕜, ∀ I y, IsLstsq phi I y (lstsq I y) :=
  ⟨fun I y => (exists_lstsq phi I y).choose, fun I y => (exists_lstsq phi I y).choose_spec⟩

theorem pair_cases (L : List ℕ) (h1 : L.Nodup) (h2 : L.length = 2) (h3 : ∀ i ∈ L, i < 2) : L = [0, 1] ∨ L = [1, 0] := by
  match L, h2 with
  | [a, b], _ =>
    have ha := h3 a (by simp)
    have hb := h3 b (by simp)
    simp at h1
    have : (a = 0 ∧ b = 1) ∨ (a = 1 ∧ b = 0) := by omega
    rcases this with ⟨rfl, rfl⟩ | ⟨rfl, rfl⟩ <;> simp

theorem largest_two_cases {𝕜 : Type*} [RCLike 𝕜] (a b : 𝕜) (K : ℕ) (hK : 2 ≤ K) : largestIndices [a, b] K = [0, 1] ∨ largestIndices [a, b] K = [1, 0] := by
  obtain ⟨h1, h2, h3, -⟩ := c51_largest_indices [a, b] K
  exact pair_cases _ h1 (by rw [h2]; simp; omega) h3

theorem largest_two_gt {𝕜 : Type*} [RCLike 𝕜] (a b : 𝕜) (hab : ‖b‖ < ‖a‖) (K : ℕ) (hK : 2 ≤ K) : largestIndices [a, b] K = [0, 1] := by
  rcases largest_two_cases a b K hK with h | h
  · exact h
  · have := (c51_largest_indices [a, b] K).2.2.2.1
    rw [h] at this
    simp at this
    linarith

theorem largest_two_lt {𝕜 : Type*} [RCLike 𝕜] (a b : 𝕜) (hab : ‖a‖ < ‖b‖) (K : ℕ) (hK : 2 ≤ K) : largestIndices [a, b] K = [1, 0] := by
  rcases largest_two_cases a b K hK with h | h
  · have := (c51_largest_indices [a, b] K).2.2.2.1
    rw [h] at this
    simp at this
    linarith
  · exact h

/-- Two orthonormal atoms `1, i` in the plane. -/
def planeAtoms (i : ℕ) : ℂ := if i = 0 then 1 else Complex.I

theorem plane0 (z : ℂ) : inner ℝ (planeAtoms 0) z = z.re := by simp [planeAtoms, Complex.inner]

theorem plane1 (z : ℂ) : inner ℝ (planeAtoms 1) z = z.im := by simp [planeAtoms, Complex.inner]

/-- **C47 fails** for the first state: with atoms `e0, e1`, `y = e0 + 2 e1` and `K = 2` the first state of CoSaMP assigns the coefficient `2` to `e0` and `1` to `e1` (the support is sorted but the
coefficients are not), so the residual is not zero although `y` is a combination of the two selected atoms. With `max_iters = 1` this is what `matrix_solve` returns. -/
theorem c47_first_state_fails (lstsq : List ℕ → ℂ → List ℝ) (hl : ∀ I y, IsLstsq planeAtoms I y (lstsq I y)) :
    ∃ s, CosampMatrixSolve planeAtoms 2 lstsq ⟨1, 2⟩ 2 1 0 s ∧ s.I = [0, 1] ∧ s.x = [2, 1] ∧ s.r = ⟨-1, 1⟩ ∧
      (⟨1, 2⟩ : ℂ) - lin planeAtoms [0, 1] [(1 : ℝ), 2] = 0 := by
  have hc : corr ℝ planeAtoms 2 (⟨1, 2⟩ : ℂ) = [1, 2] := by
    simp only [corr, List.range_succ, List.range_zero, List.nil_append, List.cons_append, List.map_cons, List.map_nil, plane0, plane1]
  have hJ : largestIndices (corr ℝ planeAtoms 2 (⟨1, 2⟩ : ℂ)) (2 + 2 * 2) = [1, 0] := by
    rw [hc]; exact largest_two_lt 1 2 (by norm_num) _ (by norm_num)
  have hx : lstsq [1, 0] ⟨1, 2⟩ = [2, 1] := by
    have h := hl [1, 0] ⟨1, 2⟩
    have hlen := h.length
    match hz : lstsq [1, 0] ⟨1, 2⟩, hlen with
    | [a, b], _ =>
      rw [hz] at h
      have n0 := h.normal 0 (by simp)
      have n1 := h.normal 1 (by simp)
      rw [plane0] at n0
      rw [plane1] at n1
      simp [lin, planeAtoms] at n0 n1
      have : a = 2 := by linarith
      have : b = 1 := by linarith
      subst a; subst b; rfl
  have hIa : largestIndices [(2 : ℝ), 1] 2 = [0, 1] := largest_two_gt 2 1 (by norm_num) 2 le_rfl
  have hs : cosampInit planeAtoms 2 lstsq ⟨1, 2⟩ 2 = mkState planeAtoms ⟨1, 2⟩ [0, 1] [(2 : ℝ), 1] 1 (List.range 2) := by
    simp only [cosampInit, hJ, hx, hIa, gather]
    congr 1
    simp [List.mergeSort, List.MergeSort.Internal.splitInTwo]
  refine ⟨cosampInit planeAtoms 2 lstsq ⟨1, 2⟩ 2, ⟨.init, fun h => ?_⟩, ?_, ?_, ?_, ?_⟩
  · have := h.2
    rw [hs] at this
    simp [mkState] at this
  · rw [hs]; rfl
  · rw [hs]; rfl
  · rw [hs]; apply Complex.ext <;> simp [mkState, lin, planeAtoms] <;> norm_num
  · apply Complex.ext <;> simp [lin, planeAtoms]

/-- Two orthonormal atoms in three-dimensional space. -/
def spaceAtoms (i : ℕ) : EuclideanSpace ℝ (Fin 3) := if i = 0 then !₂[1, 0, 0] else !₂[0, 1, 0]

theorem space0 (z : EuclideanSpace ℝ (Fin 3)) : inner ℝ (spaceAtoms 0) z = z 0 := by
  simp [spaceAtoms, PiLp.inner_apply, Fin.sum_univ_three]

theorem space1 (z : EuclideanSpace ℝ (Fin 3)) : inner ℝ (spaceAtoms 1) z = z 1 := by
  simp [spaceAtoms, PiLp.inner_apply, Fin.sum_univ_three]

/-- **C48 fails** without the correlation hypothesis: with atoms `e0, e1` in three-dimensional space, `y = 2 e0 + e1 + e2` and `K = 2`, the second state of subspace pursuit selects `e0` twice (whatever the
least-squares routine that meets its contract, with the minimum norm solution), and its residual is larger than that of the first state. -/
theorem c48_distinct_fails (lstsq : List ℕ → EuclideanSpace ℝ (Fin 3) → List ℝ) (hl : ∀ I y, IsLstsq spaceAtoms I y (lstsq I y)) :
    ∃ s, SpMatrixSolve spaceAtoms 2 lstsq !₂[2, 1, 1] 2 2 (1 / 10) s ∧ s.I = [0, 0] ∧ s.rr = 2 ∧ (spInit spaceAtoms 2 lstsq !₂[2, 1, 1] 2).rr = 1 := by
  set y : EuclideanSpace ℝ (Fin 3) := !₂[2, 1, 1] with hy
  have hyn : ‖y‖ ^ 2 = 6 := by rw [EuclideanSpace.norm_sq_eq]; simp [hy, Fin.sum_univ_three]; norm_num
  have hc : corr ℝ spaceAtoms 2 y = [2, 1] := by simp [corr, List.range_succ, space0, space1, hy]
  have hJ : largestIndices (corr ℝ spaceAtoms 2 y) 2 = [0, 1] := by rw [hc]; exact largest_two_gt 2 1 (by norm_num) _ le_rfl
  have hx : lstsq [0, 1] y = [2, 1] := by
    have h := hl [0, 1] y
    have hlen := h.length
    match hz : lstsq [0, 1] y, hlen with
    | [a, b], _ =>
      rw [hz] at h
      have n0 := h.normal 0 (by simp)
      have n1 := h.normal 1 (by simp)
      rw [space0] at n0
      rw [space1] at n1
      simp [lin, spaceAtoms, hy] at n0 n1
      have : a = 2 := by linarith
      have : b = 1 := by linarith
      subst a; subst b; rfl
  have hr1 : y - lin spaceAtoms [0, 1] [(2 : ℝ), 1] = !₂[0, 0, 1] := by
    ext i; fin_cases i <;> simp [lin, spaceAtoms, hy]
  have hs : spInit spaceAtoms 2 lstsq y 2 = mkState spaceAtoms y [0, 1] [(2 : ℝ), 1] 1 (List.range 2) := by
    simp only [spInit, hJ, hx]
  have hrr1 : (spInit spaceAtoms 2 lstsq y 2).rr = 1 := by
    rw [hs]; simp only [mkState]; rw [hr1, EuclideanSpace.norm_sq_eq]; simp [Fin.sum_univ_three]
  have hcz : zeroAt (corr ℝ spaceAtoms 2 (spInit spaceAtoms 2 lstsq y 2).r) (spInit spaceAtoms 2 lstsq y 2).I = [0, 0] := by
    rw [hs]; simp [zeroAt, mkState, corr, List.range_succ]
  -- the doubled support and its minimum norm coefficients
  have hdup : ∀ N : List ℕ, N = [0, 1] ∨ N = [1, 0] → gather 0 ([0, 1] ++ N) (largestIndices (lstsq ([0, 1] ++ N) y) 2) = [0, 0] := by
    intro N hN
    have h := hl ([0, 1] ++ N) y
    have key : ∀ p q : ℕ, p < 4 → q < 4 → p ≠ q → (∀ k, k < 4 → k ≠ p → k ≠ q → ‖(lstsq ([0, 1] ++ N) y).getD k 0‖ < ‖(lstsq ([0, 1] ++ N) y).getD p 0‖ ∧
        ‖(lstsq ([0, 1] ++ N) y).getD k 0‖ < ‖(lstsq ([0, 1] ++ N) y).getD q 0‖) → (lstsq ([0, 1] ++ N) y).length = 4 →
        ∀ k ∈ largestIndices (lstsq ([0, 1] ++ N) y) 2, k = p ∨ k = q := by
      intro p q hp hq hpq hlt hlen k hk
      obtain ⟨l1, l2, l3, -, l5⟩ := c51_largest_indices (lstsq ([0, 1] ++ N) y) 2
      rw [hlen] at l2 l3 l5
      by_contra hkk
      push Not at hkk
      have hk4 := l3 k hk
      have mp : p ∈ largestIndices (lstsq ([0, 1] ++ N) y) 2 := by
        by_contra hm
        exact absurd (l5 k hk p hp hm) (not_le.mpr (hlt k hk4 hkk.1 hkk.2).1)
      have mq : q ∈ largestIndices (lstsq ([0, 1] ++ N) y) 2 := by
        by_contra hm
        exact absurd (l5 k hk q hq hm) (not_le.mpr (hlt k hk4 hkk.1 hkk.2).2)
      have hsub : ({k, p, q} : Finset ℕ) ⊆ (largestIndices (lstsq ([0, 1] ++ N) y) 2).toFinset := by
        intro t ht
        simp only [Finset.mem_insert, Finset.mem_singleton] at ht
        rw [List.mem_toFinset]
        rcases ht with rfl | rfl | rfl <;> assumption
      have hcard := Finset.card_le_card hsub
      rw [List.toFinset_card_of_nodup l1, l2, Finset.card_eq_three.mpr ⟨k, p, q, hkk.1, hkk.2, hpq, rfl⟩] at hcard
      norm_num at hcard
    have hlen2 : (largestIndices (lstsq ([0, 1] ++ N) y) 2).length = 2 := by
      have := (c51_largest_indices (lstsq ([0, 1] ++ N) y) 2).2.1
      rw [h.length] at this
      rcases hN with rfl | rfl <;> simpa using this
    rcases hN with rfl | rfl
    · -- atoms 0, 1, 0, 1
      have hlen := h.length
      match hz : lstsq ([0, 1] ++ [0, 1]) y, hlen with
      | [a, b, c, d], _ =>
        rw [hz] at h
        have n0 := h.normal 0 (by simp)
        have n1 := h.normal 1 (by simp)
        rw [space0] at n0
        rw [space1] at n1
        simp [lin, spaceAtoms, hy] at n0 n1
        have hm := h.minNorm [1, 1 / 2, 1, 1 / 2] rfl (by
          intro i hi
          have : i = 0 ∨ i = 1 := by
            simp at hi; omega
          rcases this with rfl | rfl
          · rw [space0]; simp [lin, spaceAtoms, hy]; norm_num
          · rw [space1]; simp [lin, spaceAtoms, hy]; norm_num)
        simp at hm
        have h1 : (a - c) ^ 2 + (b - d) ^ 2 ≤ 0 := by nlinarith
        have hac : a = c := by nlinarith [sq_nonneg (a - c), sq_nonneg (b - d)]
        have hbd : b = d := by nlinarith [sq_nonneg (a - c), sq_nonneg (b - d)]
        have ha : a = 1 := by linarith
        have hb : b = 1 / 2 := by linarith
        subst hac hbd; subst ha hb
        rw [hz] at key hlen2
        have := key 0 2 (by norm_num) (by norm_num) (by norm_num) (by
          intro k hk h0 h2
          have : k = 1 ∨ k = 3 := by omega
          rcases this with rfl | rfl <;> norm_num) rfl
        refine (List.eq_replicate_iff (a := 0) (n := 2)).mpr ⟨by rw [gather_length]; exact hlen2, fun i hi => ?_⟩
        simp only [gather, List.mem_map] at hi
        obtain ⟨k, hk, rfl⟩ := hi
        rcases this k hk with rfl | rfl <;> rfl
    · -- atoms 0, 1, 1, 0
      have hlen := h.length
      match hz : lstsq ([0, 1] ++ [1, 0]) y, hlen with
      | [a, b, c, d], _ =>
        rw [hz] at h
        have n0 := h.normal 0 (by simp)
        have n1 := h.normal 1 (by simp)
        rw [space0] at n0
        rw [space1] at n1
        simp [lin, spaceAtoms, hy] at n0 n1
        have hm := h.minNorm [1, 1 / 2, 1 / 2, 1] rfl (by
          intro i hi
          have : i = 0 ∨ i = 1 := by
            simp at hi; omega
          rcases this with rfl | rfl
          · rw [space0]; simp [lin, spaceAtoms, hy]; norm_num
          · rw [space1]; simp [lin, spaceAtoms, hy]; norm_num)
        simp at hm
        have h1 : (a - d) ^ 2 + (b - c) ^ 2 ≤ 0 := by nlinarith
        have hac : a = d := by nlinarith [sq_nonneg (a - d), sq_nonneg (b - c)]
        have hbd : b = c := by nlinarith [sq_nonneg (a - d), sq_nonneg (b - c)]
        have ha : a = 1 := by linarith
        have hb : b = 1 / 2 := by linarith
        subst hac hbd; subst ha hb
        rw [hz] at key hlen2
        have := key 0 3 (by norm_num) (by norm_num) (by norm_num) (by
          intro k hk h0 h2
          have : k = 1 ∨ k = 2 := by omega
          rcases this with rfl | rfl <;> norm_num) rfl
        refine (List.eq_replicate_iff (a := 0) (n := 2)).mpr ⟨by rw [gather_length]; exact hlen2, fun i hi => ?_⟩
        simp only [gather, List.mem_map] at hi
        obtain ⟨k, hk, rfl⟩ := hi
        rcases this k hk with rfl | rfl <;> rfl
  have hI2 : (spBody spaceAtoms 2 lstsq y 2 (spInit spaceAtoms 2 lstsq y 2)).I = [0, 0] := by
    have e : (spInit spaceAtoms 2 lstsq y 2).I = [0, 1] := by rw [hs]; rfl
    show gather 0 ((spInit spaceAtoms 2 lstsq y 2).I ++ largestIndices (zeroAt (corr ℝ spaceAtoms 2 (spInit spaceAtoms 2 lstsq y 2).r) (spInit spaceAtoms 2 lstsq y 2).I) 2) _ = _
    rw [hcz, e]
    exact hdup _ (largest_two_cases 0 0 2 le_rfl)
  have hrr2 : (spBody spaceAtoms 2 lstsq y 2 (spInit spaceAtoms 2 lstsq y 2)).rr = 2 := by
    have e : (spBody spaceAtoms 2 lstsq y 2 (spInit spaceAtoms 2 lstsq y 2)).rr =
        ‖y - lin spaceAtoms (spBody spaceAtoms 2 lstsq y 2 (spInit spaceAtoms 2 lstsq y 2)).I (lstsq (spBody spaceAtoms 2 lstsq y 2 (spInit spaceAtoms 2 lstsq y 2)).I y)‖ ^ 2 := rfl
    rw [e, hI2]
    have h := hl [0, 0] y
    have hlen := h.length
    match hz : lstsq [0, 0] y, hlen with
    | [a, b], _ =>
      rw [hz] at h
      have n0 := h.normal 0 (by simp)
      rw [space0] at n0
      simp [lin, spaceAtoms, hy] at n0
      have hv : y - lin spaceAtoms [0, 0] [a, b] = !₂[0, 1, 1] := by
        ext i; fin_cases i
        · simp [lin, spaceAtoms, hy]; linarith
        · simp [lin, spaceAtoms, hy]
        · simp [lin, spaceAtoms, hy]
      rw [hv, EuclideanSpace.norm_sq_eq]; simp [Fin.sum_univ_three]; norm_num
  refine ⟨_, ⟨.step .init ⟨?_, ?_⟩, fun h => ?_⟩, hI2, hrr2, hrr1⟩
  · rw [hrr1, hyn]; norm_num
  · show 1 < 2; norm_num
  · have : 1 + 1 < 2 := h.2
    omega

/-- **C50 fails** for the default step: for the `1 × 1` dictionary `[3]` (largest singular value 3) the default step `0.98/3` makes the residual of `y = 1` grow in the first iteration. -/
theorem c50_default_step_fails :
    ‖(ihtInit (𝕜 := ℝ) (fun _ => (3 : ℝ)) 1 (defaultStep 3) (1 : ℝ) 1).r‖ <
      ‖(ihtBody (𝕜 := ℝ) (fun _ => (3 : ℝ)) 1 (defaultStep 3) (1 : ℝ) 1 (ihtInit (fun _ => (3 : ℝ)) 1 (defaultStep 3) (1 : ℝ) 1)).r‖ := by
  have hone : ∀ g : ℝ, largestIndices [g] 1 = [0] := by
    intro g
    obtain ⟨-, h2, h3, -⟩ := c51_largest_indices [g] 1
    match hz : largestIndices [g] 1, h2 with
    | [a], _ =>
      have := h3 a (by rw [hz]; simp)
      simp at this
      rw [this]
  have hi : ihtInit (𝕜 := ℝ) (fun _ => (3 : ℝ)) 1 (defaultStep 3) (1 : ℝ) 1 = mkState (fun _ => (3 : ℝ)) 1 [0] [(0.98 : ℝ)] 1 (List.range 1) := by
    simp only [ihtInit, corr, gradStep, defaultStep, hardThresholdK]
    simp only [List.range_one, List.map_cons, List.map_nil, hone]
    congr 1
    simp [gather, buildSignal]
  rw [hi]
  simp only [ihtBody, mkState, corr, gradStep, defaultStep, hardThresholdK, List.range_one, List.map_cons, List.map_nil, hone]
  simp [gather, buildSignal, lin]
  norm_num [abs_lt, abs_of_neg, abs_of_pos]

/-- The step hypothesis of `c50_iht_monotone` holds for the two orthonormal atoms of the plane with `mu = 1`. -/
example (z : ℕ → ℝ) : 1 * ‖synth planeAtoms 2 z‖ ^ 2 ≤ ∑ i ∈ Finset.range 2, ‖z i‖ ^ 2 := by
  have : synth planeAtoms 2 z = ⟨z 0, z 1⟩ := by
    apply Complex.ext <;> simp [synth, Finset.sum_range_succ, planeAtoms]
  rw [this, Complex.sq_norm, Complex.normSq_mk]
  simp [Finset.sum_range_succ, sq_abs]
  nlinarith

example := c47_first_state_fails (fun I y => (exists_lstsq planeAtoms I y).choose) fun I y => (exists_lstsq planeAtoms I y).choose_spec
example := c48_distinct_fails (fun I y => (exists_lstsq spaceAtoms I y).choose) fun I y => (exists_lstsq spaceAtoms I y).choose_spec

end Verif.Pursuit
