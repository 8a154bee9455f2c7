import Verif.Pursuit.GreedyFails
import Verif.Pursuit.SpRecoveryProps

set_option autoImplicit false

/-!
# Subspace pursuit and CoSaMP are not stable for measurements with noise the atoms do not see (C117, C118)

The two atoms of `spaceAtoms` are orthonormal, so the dictionary satisfies the restricted isometry property with `δ = 0` for every order.
-/
noncomputable section
namespace Verif.Pursuit
open Verif.Loop
open scoped RealInnerProductSpace

/-- The signal `(2, 1)`. -/
def twoOne (i : ℕ) : ℝ := if i = 0 then 2 else if i = 1 then 1 else 0

/-- The signal `(2, 0)`. -/
def twoZero (i : ℕ) : ℝ := if i = 0 then 2 else 0

/-- Orthonormal atoms have the restricted isometry property with constant zero. -/
theorem spaceAtoms_rip (s : ℕ) : Rip ℝ spaceAtoms 2 1 s 0 := by
  intro z T _ _
  have h : synth spaceAtoms 2 z = !₂[z 0, z 1, 0] := by
    ext i; fin_cases i <;> simp [synth, Finset.sum_range_succ, spaceAtoms]
  rw [h, EuclideanSpace.norm_sq_eq, l2, Real.sq_sqrt (Finset.sum_nonneg fun i _ => sq_nonneg _)]
  simp [Fin.sum_univ_three, Finset.sum_range_succ]

/-- **C117 fails** without the correlation hypothesis: the orthonormal atoms `e0, e1` in three-dimensional space, the signal `(2, 1)` and the noise `ε e2`.
However small the noise is, `sp.matrix_solve` with `K = 2`, `max_iters = 2` and a tolerance below the noise level returns a signal whose error is at least one. -/
theorem c117_stability_fails (lstsq : List ℕ → EuclideanSpace ℝ (Fin 3) → List ℝ) (hl : ∀ I y, IsLstsq spaceAtoms I y (lstsq I y))
    (ε : ℝ) (hε : 0 < ε) (hε1 : ε ≤ 1) :
    ‖(!₂[0, 0, ε] : EuclideanSpace ℝ (Fin 3))‖ = ε ∧ synth spaceAtoms 2 twoOne + !₂[0, 0, ε] = !₂[2, 1, ε] ∧ Rip ℝ spaceAtoms 2 1 (3 * 2) 0 ∧
    ∃ s, SpMatrixSolve spaceAtoms 2 lstsq !₂[2, 1, ε] 2 2 (ε / 10) s ∧ s.I = [0, 0] ∧ 1 ≤ l2 2 (fun i => buildSignal s.I s.x i - twoOne i) := by
  refine ⟨?_, ?_, spaceAtoms_rip _, ?_⟩
  · rw [EuclideanSpace.norm_eq]; simp [Fin.sum_univ_three, Real.sqrt_sq hε.le]
  · ext i; fin_cases i <;> simp [synth, Finset.sum_range_succ, spaceAtoms, twoOne]
  set y : EuclideanSpace ℝ (Fin 3) := !₂[2, 1, ε] with hy
  have hyn : ‖y‖ ^ 2 = 5 + ε ^ 2 := by rw [EuclideanSpace.norm_sq_eq]; simp [hy, Fin.sum_univ_three]; norm_num
  have hc : corr ℝ spaceAtoms 2 y = [2, 1] := by simp [corr, List.range_succ, space0, space1, hy]
  have hJ : largestIndices (corr ℝ spaceAtoms 2 y) 2 = [0, 1] := by rw [hc]; exact largest_two_gt 2 1 (by norm_num) _ le_rfl
  have hx : lstsq [0, 1] y = [2, 1] := by
    have h := hl [0, 1] y
    have hlen := h.length
    match hz : lstsq [0, 1] y, hlen with
    | [a, b], _ =>
      rw [hz] at h
      have n0 := h.normal 0 (by simp)
      have n1 := h.normal 1 (by simp)
      rw [space0] at n0
      rw [space1] at n1
      simp [lin, spaceAtoms, hy] at n0 n1
      have : a = 2 := by linarith
      have : b = 1 := by linarith
      subst a; subst b; rfl
  have hr1 : y - lin spaceAtoms [0, 1] [(2 : ℝ), 1] = !₂[0, 0, ε] := by
    ext i; fin_cases i <;> simp [lin, spaceAtoms, hy]
  have hs : spInit spaceAtoms 2 lstsq y 2 = mkState spaceAtoms y [0, 1] [(2 : ℝ), 1] 1 (List.range 2) := by
    simp only [spInit, hJ, hx]
  have hrr1 : (spInit spaceAtoms 2 lstsq y 2).rr = ε ^ 2 := by
    rw [hs]; simp only [mkState]; rw [hr1, EuclideanSpace.norm_sq_eq]; simp [Fin.sum_univ_three]
  have hcz : zeroAt (corr ℝ spaceAtoms 2 (spInit spaceAtoms 2 lstsq y 2).r) (spInit spaceAtoms 2 lstsq y 2).I = [0, 0] := by
    rw [hs]; simp [zeroAt, mkState, corr, List.range_succ]
  -- the doubled support and its minimum norm coefficients
  have hdup : ∀ N : List ℕ, N = [0, 1] ∨ N = [1, 0] → gather 0 ([0, 1] ++ N) (largestIndices (lstsq ([0, 1] ++ N) y) 2) = [0, 0] := by
    intro N hN
    have h := hl ([0, 1] ++ N) y
    have key : ∀ p q : ℕ, p < 4 → q < 4 → p ≠ q → (∀ k, k < 4 → k ≠ p → k ≠ q → ‖(lstsq ([0, 1] ++ N) y).getD k 0‖ < ‖(lstsq ([0, 1] ++ N) y).getD p 0‖ ∧
        ‖(lstsq ([0, 1] ++ N) y).getD k 0‖ < ‖(lstsq ([0, 1] ++ N) y).getD q 0‖) → (lstsq ([0, 1] ++ N) y).length = 4 →
        ∀ k ∈ largestIndices (lstsq ([0, 1] ++ N) y) 2, k = p ∨ k = q := by
      intro p q hp hq hpq hlt hlen k hk
      obtain ⟨l1, l2, l3, -, l5⟩ := c51_largest_indices (lstsq ([0, 1] ++ N) y) 2
      rw [hlen] at l2 l3 l5
      by_contra hkk
      push Not at hkk
      have hk4 := l3 k hk
      have mp : p ∈ largestIndices (lstsq ([0, 1] ++ N) y) 2 := by
        by_contra hm
        exact absurd (l5 k hk p hp hm) (not_le.mpr (hlt k hk4 hkk.1 hkk.2).1)
      have mq : q ∈ largestIndices (lstsq ([0, 1] ++ N) y) 2 := by
        by_contra hm
        exact absurd (l5 k hk q hq hm) (not_le.mpr (hlt k hk4 hkk.1 hkk.2).2)
      have hsub : ({k, p, q} : Finset ℕ) ⊆ (largestIndices (lstsq ([0, 1] ++ N) y) 2).toFinset := by
        intro t ht
        simp only [Finset.mem_insert, Finset.mem_singleton] at ht
        rw [List.mem_toFinset]
        rcases ht with rfl | rfl | rfl <;> assumption
      have hcard := Finset.card_le_card hsub
      rw [List.toFinset_card_of_nodup l1, l2, Finset.card_eq_three.mpr ⟨k, p, q, hkk.1, hkk.2, hpq, rfl⟩] at hcard
      norm_num at hcard
    have hlen2 : (largestIndices (lstsq ([0, 1] ++ N) y) 2).length = 2 := by
      have := (c51_largest_indices (lstsq ([0, 1] ++ N) y) 2).2.1
      rw [h.length] at this
      rcases hN with rfl | rfl <;> simpa using this
    rcases hN with rfl | rfl
    · -- atoms 0, 1, 0, 1
      have hlen := h.length
      match hz : lstsq ([0, 1] ++ [0, 1]) y, hlen with
      | [a, b, c, d], _ =>
        rw [hz] at h
        have n0 := h.normal 0 (by simp)
        have n1 := h.normal 1 (by simp)
        rw [space0] at n0
        rw [space1] at n1
        simp [lin, spaceAtoms, hy] at n0 n1
        have hm := h.minNorm [1, 1 / 2, 1, 1 / 2] rfl (by
          intro i hi
          have : i = 0 ∨ i = 1 := by
            simp at hi; omega
          rcases this with rfl | rfl
          · rw [space0]; simp [lin, spaceAtoms, hy]; norm_num
          · rw [space1]; simp [lin, spaceAtoms, hy]; norm_num)
        simp at hm
        have h1 : (a - c) ^ 2 + (b - d) ^ 2 ≤ 0 := by nlinarith
        have hac : a = c := by nlinarith [sq_nonneg (a - c), sq_nonneg (b - d)]
        have hbd : b = d := by nlinarith [sq_nonneg (a - c), sq_nonneg (b - d)]
        have ha : a = 1 := by linarith
        have hb : b = 1 / 2 := by linarith
        subst hac hbd; subst ha hb
        rw [hz] at key hlen2
        have := key 0 2 (by norm_num) (by norm_num) (by norm_num) (by
          intro k hk h0 h2
          have : k = 1 ∨ k = 3 := by omega
          rcases this with rfl | rfl <;> norm_num) rfl
        refine (List.eq_replicate_iff (a := 0) (n := 2)).mpr ⟨by rw [gather_length]; exact hlen2, fun i hi => ?_⟩
        simp only [gather, List.mem_map] at hi
        obtain ⟨k, hk, rfl⟩ := hi
        rcases this k hk with rfl | rfl <;> rfl
    · -- atoms 0, 1, 1, 0
      have hlen := h.length
      match hz : lstsq ([0, 1] ++ [1, 0]) y, hlen with
      | [a, b, c, d], _ =>
        rw [hz] at h
        have n0 := h.normal 0 (by simp)
        have n1 := h.normal 1 (by simp)
        rw [space0] at n0
        rw [space1] at n1
        simp [lin, spaceAtoms, hy] at n0 n1
        have hm := h.minNorm [1, 1 / 2, 1 / 2, 1] rfl (by
          intro i hi
          have : i = 0 ∨ i = 1 := by
            simp at hi; omega
          rcases this with rfl | rfl
          · rw [space0]; simp [lin, spaceAtoms, hy]; norm_num
          · rw [space1]; simp [lin, spaceAtoms, hy]; norm_num)
        simp at hm
        have h1 : (a - d) ^ 2 + (b - c) ^ 2 ≤ 0 := by nlinarith
        have hac : a = d := by nlinarith [sq_nonneg (a - d), sq_nonneg (b - c)]
        have hbd : b = c := by nlinarith [sq_nonneg (a - d), sq_nonneg (b - c)]
        have ha : a = 1 := by linarith
        have hb : b = 1 / 2 := by linarith
        subst hac hbd; subst ha hb
        rw [hz] at key hlen2
        have := key 0 3 (by norm_num) (by norm_num) (by norm_num) (by
          intro k hk h0 h2
          have : k = 1 ∨ k = 2 := by omega
          rcases this with rfl | rfl <;> norm_num) rfl
        refine (List.eq_replicate_iff (a := 0) (n := 2)).mpr ⟨by rw [gather_length]; exact hlen2, fun i hi => ?_⟩
        simp only [gather, List.mem_map] at hi
        obtain ⟨k, hk, rfl⟩ := hi
        rcases this k hk with rfl | rfl <;> rfl
  have hI2 : (spBody spaceAtoms 2 lstsq y 2 (spInit spaceAtoms 2 lstsq y 2)).I = [0, 0] := by
    have e : (spInit spaceAtoms 2 lstsq y 2).I = [0, 1] := by rw [hs]; rfl
    show gather 0 ((spInit spaceAtoms 2 lstsq y 2).I ++ largestIndices (zeroAt (corr ℝ spaceAtoms 2 (spInit spaceAtoms 2 lstsq y 2).r) (spInit spaceAtoms 2 lstsq y 2).I) 2) _ = _
    rw [hcz, e]
    exact hdup _ (largest_two_cases 0 0 2 le_rfl)
  have hx2 : ∃ u v, lstsq [0, 0] y = [u, v] := by
    have hlen := (hl [0, 0] y).length
    match hz : lstsq [0, 0] y, hlen with
    | [u, v], _ => exact ⟨u, v, rfl⟩
  refine ⟨_, ⟨.step .init ⟨?_, ?_⟩, fun h => ?_⟩, hI2, ?_⟩
  · rw [hrr1, hyn]; nlinarith [sq_nonneg ε, mul_pos hε hε, mul_le_mul hε1 hε1 hε.le zero_le_one]
  · show 1 < 2; norm_num
  · have : 1 + 1 < 2 := h.2
    omega
  · have e : (spBody spaceAtoms 2 lstsq y 2 (spInit spaceAtoms 2 lstsq y 2)).x =
        lstsq (spBody spaceAtoms 2 lstsq y 2 (spInit spaceAtoms 2 lstsq y 2)).I y := rfl
    rw [e, hI2]
    obtain ⟨u, v, huv⟩ := hx2
    rw [huv]
    apply Real.le_sqrt_of_sq_le
    rw [Finset.sum_range_succ, Finset.sum_range_one]
    have h1 : buildSignal [0, 0] [u, v] 1 = 0 := by simp [buildSignal]
    simp only [h1]
    have : ‖(0 : ℝ) - twoOne 1‖ ^ 2 = 1 := by norm_num [twoOne]
    rw [this]
    nlinarith [sq_nonneg ‖buildSignal [0, 0] [u, v] 0 - twoOne 0‖]

/-- **C118 fails** without the correlation hypothesis: the orthonormal atoms `e0, e1` in three-dimensional space, the signal `(2, 0)` and the noise `ε e2`.
However small the noise is, `cosamp.matrix_solve` with `K = 1`, `max_iters = 2` and a tolerance below the noise level returns the signal `(1, 0)`: the atom
`e0` enters the least squares fit twice and each copy gets half of its coefficient. -/
theorem c118_stability_fails (lstsq : List ℕ → EuclideanSpace ℝ (Fin 3) → List ℝ) (hl : ∀ I y, IsLstsq spaceAtoms I y (lstsq I y))
    (ε : ℝ) (hε : 0 < ε) (hε1 : ε ≤ 1) :
    ‖(!₂[0, 0, ε] : EuclideanSpace ℝ (Fin 3))‖ = ε ∧ synth spaceAtoms 2 twoZero + !₂[0, 0, ε] = !₂[2, 0, ε] ∧ Rip ℝ spaceAtoms 2 1 (4 * 1) 0 ∧
    ∃ s, CosampMatrixSolve spaceAtoms 2 lstsq !₂[2, 0, ε] 1 2 (ε / 10) s ∧ s.I = [0] ∧ s.x = [1] ∧
      l2 2 (fun i => buildSignal s.I s.x i - twoZero i) = 1 := by
  refine ⟨?_, ?_, spaceAtoms_rip _, ?_⟩
  · rw [EuclideanSpace.norm_eq]; simp [Fin.sum_univ_three, Real.sqrt_sq hε.le]
  · ext i; fin_cases i <;> simp [synth, Finset.sum_range_succ, spaceAtoms, twoZero]
  set y : EuclideanSpace ℝ (Fin 3) := !₂[2, 0, ε] with hy
  have hyn : ‖y‖ ^ 2 = 4 + ε ^ 2 := by rw [EuclideanSpace.norm_sq_eq]; simp [hy, Fin.sum_univ_three]; norm_num
  have hc : corr ℝ spaceAtoms 2 y = [2, 0] := by simp [corr, List.range_succ, space0, space1, hy]
  have hJ : largestIndices (corr ℝ spaceAtoms 2 y) (1 + 2 * 1) = [0, 1] := by rw [hc]; exact largest_two_gt 2 0 (by norm_num) _ (by norm_num)
  have hx : lstsq [0, 1] y = [2, 0] := by
    have h := hl [0, 1] y
    have hlen := h.length
    match hz : lstsq [0, 1] y, hlen with
    | [a, b], _ =>
      rw [hz] at h
      have n0 := h.normal 0 (by simp)
      have n1 := h.normal 1 (by simp)
      rw [space0] at n0
      rw [space1] at n1
      simp [lin, spaceAtoms, hy] at n0 n1
      have : a = 2 := by linarith
      subst a; subst b; rfl
  have hone : ∀ (L : List ℝ) (P : ℕ → Prop), 0 < L.length → (∀ p, p < L.length → ¬ P p → ∃ q, q < L.length ∧ P q ∧ ‖L.getD p 0‖ < ‖L.getD q 0‖) →
      ∃ p, P p ∧ p < L.length ∧ largestIndices L 1 = [p] := by
    intro L P hpos hlt
    obtain ⟨-, l2, l3, -, l5⟩ := c51_largest_indices L 1
    match hz : largestIndices L 1, l2 with
    | [p], _ =>
      have hp := l3 p (by rw [hz]; simp)
      refine ⟨p, ?_, hp, rfl⟩
      by_contra hP
      obtain ⟨q, hq, hPq, hlt⟩ := hlt p hp hP
      refine absurd (l5 p (by rw [hz]; simp) q hq fun hm => hP ?_) (not_le.mpr hlt)
      rw [hz, List.mem_singleton] at hm
      exact hm ▸ hPq
    | [], h => simp at h; omega
    | _ :: _ :: _, h => simp at h; omega
  have hIa : largestIndices [(2 : ℝ), 0] 1 = [0] := by
    obtain ⟨p, hp, -, h⟩ := hone [2, 0] (· = 0) (by simp) (by
      intro p hp hP
      have : p = 1 := by simp at hp; omega
      subst this
      exact ⟨0, by simp, rfl, by norm_num⟩)
    rw [h, hp]
  have hs : cosampInit spaceAtoms 2 lstsq y 1 = mkState spaceAtoms y [0] [(2 : ℝ)] 1 (List.range 1) := by
    simp only [cosampInit, hJ, hx, hIa, gather]
    congr 1
    simp
  have hr1 : y - lin spaceAtoms [0] [(2 : ℝ)] = !₂[0, 0, ε] := by
    ext i; fin_cases i <;> simp [lin, spaceAtoms, hy]
  have hrr1 : (cosampInit spaceAtoms 2 lstsq y 1).rr = ε ^ 2 := by
    rw [hs]; simp only [mkState]; rw [hr1, EuclideanSpace.norm_sq_eq]; simp [Fin.sum_univ_three]
  have hcz : zeroAt (corr ℝ spaceAtoms 2 (cosampInit spaceAtoms 2 lstsq y 1).r) (cosampInit spaceAtoms 2 lstsq y 1).I = [0, 0] := by
    rw [hs]; simp only [mkState]; rw [hr1]; simp [zeroAt, corr, List.range_succ, space1]
  have hdup : ∀ N : List ℕ, N = [0, 1] ∨ N = [1, 0] → gather 0 ([0] ++ N) (largestIndices (lstsq ([0] ++ N) y) 1) = [0] ∧
      gather 0 (lstsq ([0] ++ N) y) (largestIndices (lstsq ([0] ++ N) y) 1) = [1] := by
    intro N hN
    have h := hl ([0] ++ N) y
    rcases hN with rfl | rfl
    · have hlen := h.length
      match hz : lstsq ([0] ++ [0, 1]) y, hlen with
      | [a, b, c], _ =>
        rw [hz] at h
        have n0 := h.normal 0 (by simp)
        have n1 := h.normal 1 (by simp)
        rw [space0] at n0
        rw [space1] at n1
        simp [lin, spaceAtoms, hy] at n0 n1
        have hm := h.minNorm [1, 1, 0] rfl (by
          intro i hi
          have : i = 0 ∨ i = 1 := by
            simp at hi; omega
          rcases this with rfl | rfl
          · rw [space0]; simp [lin, spaceAtoms, hy]; norm_num
          · rw [space1]; simp [lin, spaceAtoms, hy])
        simp at hm
        have hab : a = b := by nlinarith [sq_nonneg (a - b), sq_nonneg c]
        have ha : a = 1 := by linarith
        subst hab; subst ha; subst c
        obtain ⟨p, hp, -, h⟩ := hone [1, 1, 0] (fun p => p = 0 ∨ p = 1) (by simp) (by
          intro p hp hP
          have : p = 2 := by simp at hp; omega
          subst this
          exact ⟨0, by simp, by simp, by norm_num⟩)
        rw [h]
        rcases hp with rfl | rfl <;> simp [gather]
    · have hlen := h.length
      match hz : lstsq ([0] ++ [1, 0]) y, hlen with
      | [a, c, b], _ =>
        rw [hz] at h
        have n0 := h.normal 0 (by simp)
        have n1 := h.normal 1 (by simp)
        rw [space0] at n0
        rw [space1] at n1
        simp [lin, spaceAtoms, hy] at n0 n1
        have hm := h.minNorm [1, 0, 1] rfl (by
          intro i hi
          have : i = 0 ∨ i = 1 := by
            simp at hi; omega
          rcases this with rfl | rfl
          · rw [space0]; simp [lin, spaceAtoms, hy]; norm_num
          · rw [space1]; simp [lin, spaceAtoms, hy])
        simp at hm
        have hab : a = b := by nlinarith [sq_nonneg (a - b), sq_nonneg c]
        have ha : a = 1 := by linarith
        subst hab; subst ha; subst c
        obtain ⟨p, hp, -, h⟩ := hone [1, 0, 1] (fun p => p = 0 ∨ p = 2) (by simp) (by
          intro p hp hP
          have : p = 1 := by simp at hp; omega
          subst this
          exact ⟨0, by simp, by simp, by norm_num⟩)
        rw [h]
        rcases hp with rfl | rfl <;> simp [gather]
  have e : (cosampInit spaceAtoms 2 lstsq y 1).I = [0] := by rw [hs]; rfl
  have hd := hdup _ (largest_two_cases (0 : ℝ) 0 2 le_rfl)
  have hI2 : (cosampBody spaceAtoms 2 lstsq y 1 (cosampInit spaceAtoms 2 lstsq y 1)).I = [0] := by
    show gather 0 ((cosampInit spaceAtoms 2 lstsq y 1).I ++ largestIndices (zeroAt (corr ℝ spaceAtoms 2 (cosampInit spaceAtoms 2 lstsq y 1).r) (cosampInit spaceAtoms 2 lstsq y 1).I) 2) _ = _
    rw [hcz, e]; exact hd.1
  have hx2 : (cosampBody spaceAtoms 2 lstsq y 1 (cosampInit spaceAtoms 2 lstsq y 1)).x = [1] := by
    show gather 0 (lstsq ((cosampInit spaceAtoms 2 lstsq y 1).I ++ largestIndices (zeroAt (corr ℝ spaceAtoms 2 (cosampInit spaceAtoms 2 lstsq y 1).r) (cosampInit spaceAtoms 2 lstsq y 1).I) 2) y) _ = _
    rw [hcz, e]; exact hd.2
  refine ⟨_, ⟨.step .init ⟨?_, ?_⟩, fun h => ?_⟩, hI2, hx2, ?_⟩
  · rw [hrr1, hyn]; nlinarith [sq_nonneg ε, mul_pos hε hε, mul_le_mul hε1 hε1 hε.le zero_le_one]
  · show 1 < 2; norm_num
  · have : 1 + 1 < 2 := h.2
    omega
  · rw [hI2, hx2, l2, Finset.sum_range_succ, Finset.sum_range_one]
    norm_num [buildSignal, twoZero]

example : ∃ (lstsq : List ℕ → EuclideanSpace ℝ (Fin 3) → List ℝ) (s : GState ℝ (EuclideanSpace ℝ (Fin 3))),
    SpMatrixSolve spaceAtoms 2 lstsq !₂[2, 1, 1 / 100] 2 2 (1 / 100 / 10) s ∧ 1 ≤ l2 2 (fun i => buildSignal s.I s.x i - twoOne i) := by
  obtain ⟨-, -, -, s, h1, -, h2⟩ := c117_stability_fails (fun I y => (exists_lstsq spaceAtoms I y).choose) (fun I y => (exists_lstsq spaceAtoms I y).choose_spec)
    (1 / 100) (by norm_num) (by norm_num)
  exact ⟨_, s, h1, h2⟩

example : ∃ (lstsq : List ℕ → EuclideanSpace ℝ (Fin 3) → List ℝ) (s : GState ℝ (EuclideanSpace ℝ (Fin 3))),
    CosampMatrixSolve spaceAtoms 2 lstsq !₂[2, 0, 1 / 100] 1 2 (1 / 100 / 10) s ∧ s.x = [1] := by
  obtain ⟨-, -, -, s, h1, -, h2, -⟩ := c118_stability_fails (fun I y => (exists_lstsq spaceAtoms I y).choose) (fun I y => (exists_lstsq spaceAtoms I y).choose_spec)
    (1 / 100) (by norm_num) (by norm_num)
  exact ⟨_, s, h1, h2⟩

end Verif.Pursuit
