import Verif.Cs1bit.Props
import Verif.Pursuit.SimilarityProps
import Mathlib.Tactic.FieldSimp
import Mathlib.Algebra.Order.BigOperators.Ring.Finset

set_option autoImplicit false
/-!
# C158: BIHT as a subgradient method, the role of its step size, and the unrestricted case
-/
noncomputable section
namespace Verif.Cs1bit
open Verif.Loop Verif.Pursuit

variable {M : ℕ}

/-! ## Specification -/

/-- The amount by which the signal `x` violates the bits `y`: the sum over the measurements of the size of those with the wrong sign. -/
def bitLoss (phi : ℕ → Meas M) (n : ℕ) (y : Meas M) (x : ℕ → ℝ) : ℝ := ∑ i, max 0 (-(y i * ∑ j ∈ Finset.range n, x j * phi j i))

/-- Every entry of `y` is a bit. -/
def IsBits (y : Meas M) : Prop := ∀ i, y i = 1 ∨ y i = -1

/-- The signal `a` fits the bits `y` with the margin `γ`. -/
def Margin (phi : ℕ → Meas M) (n : ℕ) (y : Meas M) (a : ℕ → ℝ) (γ : ℝ) : Prop := ∀ i, γ ≤ y i * ∑ j ∈ Finset.range n, a j * phi j i

/-! ## Lemmas -/

theorem applyPhi_apply (phi : ℕ → Meas M) (n : ℕ) (x : ℕ → ℝ) (i : Fin M) : applyPhi phi n x i = ∑ j ∈ Finset.range n, x j * phi j i := by simp [applyPhi]

theorem inner_coord (u v : Meas M) : inner ℝ u v = ∑ i, u i * v i := by
  rw [PiLp.inner_apply]
  exact Finset.sum_congr rfl fun i _ => by simp [mul_comm]

theorem sum_inner_applyPhi (phi : ℕ → Meas M) (n : ℕ) (x : ℕ → ℝ) (r : Meas M) :
    ∑ j ∈ Finset.range n, x j * inner ℝ (phi j) r = ∑ i, (∑ j ∈ Finset.range n, x j * phi j i) * r i := by
  have : ∑ i, (∑ j ∈ Finset.range n, x j * phi j i) * r i = inner ℝ (applyPhi phi n x) r := by
    rw [inner_coord]
    exact Finset.sum_congr rfl fun i _ => by rw [applyPhi_apply]
  rw [this]
  simp [applyPhi, sum_inner, real_inner_smul_left]

/-- The residual of one bit against one linear measurement. -/
theorem bit_residual {b : ℝ} (hb : b = 1 ∨ b = -1) (a : ℝ) :
    let ρ := b * (b - Real.sign a)
    b - Real.sign a = ρ * b ∧ 0 ≤ ρ ∧ ρ ≤ 2 ∧ ρ * (b * a) ≤ 0 ∧ (b - Real.sign a ≠ 0 → 1 ≤ ρ) := by
  rcases hb with rfl | rfl <;> rcases lt_trichotomy a 0 with h | h | h
  · rw [Real.sign_of_neg h]; norm_num; linarith
  · rw [h]; norm_num
  · rw [Real.sign_of_pos h]; norm_num
  · rw [Real.sign_of_neg h]; norm_num
  · rw [h]; norm_num
  · rw [Real.sign_of_pos h]; norm_num; linarith

/-- A subgradient of the positive part, at the bit. -/
theorem bit_subgradient {b : ℝ} (hb : b = 1 ∨ b = -1) (a c : ℝ) :
    max 0 (-(b * a)) + (c - a) * (-(b - Real.sign a) / 2) ≤ max 0 (-(b * c)) := by
  rcases hb with rfl | rfl <;> rcases lt_trichotomy a 0 with h | h | h
  · rw [Real.sign_of_neg h, max_eq_right (by linarith)]; have := le_max_right 0 (-(1 * c)); linarith
  · subst h; rw [Real.sign_zero, mul_zero, neg_zero, max_self]; have h1 := le_max_right 0 (-(1 * c)); have h2 := le_max_left 0 (-(1 * c)); linarith
  · rw [Real.sign_of_pos h, max_eq_left (by linarith)]; have := le_max_left 0 (-(1 * c)); linarith
  · rw [Real.sign_of_neg h, max_eq_left (by linarith)]; have := le_max_left 0 (-(-1 * c)); linarith
  · subst h; rw [Real.sign_zero, mul_zero, neg_zero, max_self]; have h1 := le_max_right 0 (-(-1 * c)); have h2 := le_max_left 0 (-(-1 * c)); linarith
  · rw [Real.sign_of_pos h, max_eq_right (by linarith)]; have := le_max_right 0 (-(-1 * c)); linarith

theorem measure1bit_apply (phi : ℕ → Meas M) (n : ℕ) (x : ℕ → ℝ) (i : Fin M) : measure1bit phi n x i = Real.sign (∑ j ∈ Finset.range n, x j * phi j i) := by
  rw [← applyPhi_apply]; rfl

/-! ## The step is a subgradient step -/

/-- **C158** the direction of a BIHT step is a subgradient step on the violation: minus half of `Phiᵀ r` is a subgradient at the current signal. So the step that keeps everything (before thresholding) is `x - tau g` with `g` such a subgradient. -/
theorem c158_subgradient (phi : ℕ → Meas M) (n : ℕ) (y : Meas M) (hy : IsBits y) (K : ℕ) (hK : K ≤ n) (tau : ℝ) (maxIters : ℕ) (s : BState M)
    (h : Reach (bihtCond maxIters) (bihtBody phi n y K tau) (bihtInit phi y K) s) :
    let x := buildSignal s.I s.x
    let t := bihtBody phi n y K tau s
    ∃ g : ℕ → ℝ, (∀ z : ℕ → ℝ, bitLoss phi n y x + ∑ j ∈ Finset.range n, g j * (z j - x j) ≤ bitLoss phi n y z) ∧
      (∀ i < n, buildSignal t.I t.x i = if i ∈ t.I then x i - tau * g i else 0) ∧ ∀ i ∈ t.I, ∀ j < n, j ∉ t.I → |x j - tau * g j| ≤ |x i - tau * g i| := by
  intro x t
  have hg := c77_biht_state phi n y K hK tau maxIters s h
  obtain ⟨h1, h2, -⟩ := c77_biht_step phi n y K tau s
  have e : ∀ i, x i - tau * (-(inner ℝ (phi i) s.r) / 2) = x i + tau / 2 * inner ℝ (phi i) s.r := fun i => by ring
  refine ⟨fun j => -(inner ℝ (phi j) s.r) / 2, fun z => ?_, fun i hi => ?_, fun i hi j hj hn => ?_⟩
  · have : ∑ j ∈ Finset.range n, -(inner ℝ (phi j) s.r) / 2 * (z j - x j) = ∑ i, (∑ j ∈ Finset.range n, z j * phi j i - ∑ j ∈ Finset.range n, x j * phi j i) * (-(s.r i) / 2) := by
      have := sum_inner_applyPhi phi n (fun j => z j - x j) s.r
      have e1 : ∑ j ∈ Finset.range n, -(inner ℝ (phi j) s.r) / 2 * (z j - x j) = -(1 / 2) * ∑ j ∈ Finset.range n, (z j - x j) * inner ℝ (phi j) s.r := by
        rw [Finset.mul_sum]; exact Finset.sum_congr rfl fun j _ => by ring
      rw [e1, this, Finset.mul_sum]
      refine Finset.sum_congr rfl fun i _ => ?_
      simp only [sub_mul, Finset.sum_sub_distrib]
      ring
    rw [this, bitLoss, bitLoss, ← Finset.sum_add_distrib]
    refine Finset.sum_le_sum fun i _ => ?_
    have hr : s.r i = y i - Real.sign (∑ j ∈ Finset.range n, x j * phi j i) := by
      rw [hg.res, ← measure1bit_apply]; rfl
    rw [hr]
    exact bit_subgradient (hy i) _ _
  · rw [h1 i hi]; simp only [e, x]; rfl
  · simp only [e]; exact h2 i hi j hj hn

/-- **C158** the violation is never negative; a signal none of whose measurements is zero has no violation exactly when its one-bit measurements are the given bits. -/
theorem c158_violation (phi : ℕ → Meas M) (n : ℕ) (y : Meas M) (hy : IsBits y) (x : ℕ → ℝ) :
    0 ≤ bitLoss phi n y x ∧ (measure1bit phi n x = y → bitLoss phi n y x = 0) ∧
    ((∀ i, ∑ j ∈ Finset.range n, x j * phi j i ≠ 0) → bitLoss phi n y x = 0 → measure1bit phi n x = y) := by
  have h0 : 0 ≤ bitLoss phi n y x := Finset.sum_nonneg fun i _ => le_max_left _ _
  refine ⟨h0, fun h => ?_, fun hne h => ?_⟩
  · refine Finset.sum_eq_zero fun i _ => max_eq_left ?_
    have := congrArg (fun v : Meas M => v i) h
    simp only [measure1bit_apply] at this
    rw [← this]
    generalize ∑ j ∈ Finset.range n, x j * phi j i = a
    rcases lt_trichotomy a 0 with h | h | h
    · rw [Real.sign_of_neg h]; linarith
    · rw [h]; simp
    · rw [Real.sign_of_pos h]; linarith
  · ext i
    have := (Finset.sum_eq_zero_iff_of_nonneg fun i _ => le_max_left 0 _).1 h i (Finset.mem_univ i)
    rw [measure1bit_apply]
    have hn := hne i
    have hle := le_max_right 0 (-(y i * ∑ j ∈ Finset.range n, x j * phi j i))
    rw [this] at hle
    generalize ∑ j ∈ Finset.range n, x j * phi j i = a at hle hn
    rcases hy i with e | e <;> rw [e] at hle ⊢ <;> rcases lt_or_gt_of_ne hn with h | h
    · linarith
    · exact Real.sign_of_pos h
    · exact Real.sign_of_neg h
    · linarith

/-! ## The step size only scales the result -/

/-- The same state with the coefficients multiplied by `c`. -/
def BState.scale (c : ℝ) (s : BState M) : BState M := { s with x := s.x.map fun v => c * v }

theorem lin_scaleB (phi : ℕ → Meas M) (c : ℝ) : ∀ (I : List ℕ) (x : List ℝ), lin phi I (x.map fun v => c * v) = c • lin phi I x
  | [], _ => by simp [lin]
  | _ :: _, [] => by simp [lin]
  | i :: I, a :: x => by simp only [List.map_cons, lin, lin_scaleB phi c I x, smul_add, smul_smul]

theorem signV_scale {c : ℝ} (hc : 0 < c) (v : Meas M) : signV (c • v) = signV v := by
  ext i
  rw [signV_apply, signV_apply]
  exact sign_mul_pos c _ hc

theorem mkB_scale {c : ℝ} (hc : 0 < c) (phi : ℕ → Meas M) (y : Meas M) (I : List ℕ) (x : List ℝ) (it : ℕ) :
    mkB phi y I (x.map fun v => c * v) it = (mkB phi y I x it).scale c := by
  simp only [mkB, BState.scale, lin_scaleB, signV_scale hc]

theorem bihtBody_scale {c : ℝ} (hc : 0 < c) (phi : ℕ → Meas M) (n : ℕ) (y : Meas M) (K : ℕ) (tau : ℝ) (s : BState M) :
    bihtBody phi n y K (c * tau) (s.scale c) = (bihtBody phi n y K tau s).scale c := by
  have e : ((List.range n).map fun i => buildSignal s.I (s.x.map fun v => c * v) i + c * tau / 2 * (corr ℝ phi n s.r).getD i 0) =
      ((List.range n).map fun i => buildSignal s.I s.x i + tau / 2 * (corr ℝ phi n s.r).getD i 0).map fun v => c * v := by
    rw [List.map_map]
    refine List.map_congr_left fun i _ => ?_
    simp only [Function.comp_def, buildSignal_scale]
    ring
  simp only [bihtBody, BState.scale, hardThresholdK]
  rw [e, largestIndices_scale hc.ne', gather_scale, mkB_scale hc]
  rfl

/-- **C158** the step size of BIHT only sets the scale of the result: multiplying `tau` by `c > 0` multiplies the coefficients by `c` and changes nothing else, neither the selected atoms, nor the bits, nor the number of iterations. -/
theorem c158_step_size (phi : ℕ → Meas M) (n : ℕ) (y : Meas M) (K : ℕ) (tau c : ℝ) (hc : 0 < c) (maxIters : ℕ) (s : BState M) (h : Biht phi n y K tau maxIters s) (t : BState M) :
    Biht phi n y K (c * tau) maxIters t ↔ t = { s with x := s.x.map fun v => c * v } := by
  have e0 : (bihtInit phi y K).scale c = bihtInit phi y K := by
    unfold bihtInit
    rw [← mkB_scale hc]
    simp
  have := Out.map (c := bihtCond maxIters) (f := bihtBody phi n y K tau) (c' := bihtCond maxIters) (f' := bihtBody phi n y K (c * tau)) (BState.scale c)
    (fun s _ => Iff.rfl) (fun s _ _ => bihtBody_scale hc phi n y K tau s) h t
  rw [e0] at this
  exact this

/-! ## Without a sparsity constraint -/

/-- Every state of an unrestricted run, from a signal with margin `γ`. -/
structure PInv (n : ℕ) (a : ℕ → ℝ) (γ B tau : ℝ) (s : BState M) : Prop where
  main : ∃ S : ℝ, (s.iters : ℝ) ≤ S ∧ ∑ j ∈ Finset.range n, buildSignal s.I s.x j ^ 2 ≤ tau ^ 2 * B * S / 2 ∧
    tau * γ * S / 2 ≤ ∑ j ∈ Finset.range n, buildSignal s.I s.x j * a j

theorem buildSignal_replicate (I : List ℕ) : ∀ (K : ℕ) (j : ℕ), buildSignal I (List.replicate K (0 : ℝ)) j = 0 := by
  intro K j
  have := buildSignal_scale (𝕜 := ℝ) 0 I (List.replicate K 0) j
  simpa using this

theorem full_mem {I : List ℕ} {n : ℕ} (h1 : I.Nodup) (h2 : I.length = n) (h3 : ∀ i ∈ I, i < n) : ∀ i < n, i ∈ I := by
  intro i hi
  have hs : I.toFinset ⊆ Finset.range n := fun j hj => Finset.mem_range.2 (h3 j (List.mem_toFinset.1 hj))
  have := Finset.eq_of_subset_of_card_le hs (by rw [Finset.card_range, List.toFinset_card_of_nodup h1, h2])
  exact List.mem_toFinset.1 (this ▸ Finset.mem_range.2 hi)

theorem pinv (phi : ℕ → Meas M) (n : ℕ) (y : Meas M) (hy : IsBits y) (a : ℕ → ℝ) (γ : ℝ) (hγ : 0 < γ) (ha : Margin phi n y a γ)
    (B : ℝ) (hB : ∀ v : Meas M, ∑ j ∈ Finset.range n, inner ℝ (phi j) v ^ 2 ≤ B * ‖v‖ ^ 2) (hB0 : 0 ≤ B) (tau : ℝ) (ht : 0 < tau) (maxIters : ℕ) (s : BState M)
    (h : Reach (bihtCond maxIters) (bihtBody phi n y n tau) (bihtInit phi y n) s) : PInv n a γ B tau s := by
  refine h.inv' (PInv n a γ B tau) ?_ ?_
  · refine ⟨0, by simp [bihtInit, mkB], ?_, ?_⟩ <;> simp [bihtInit, mkB, buildSignal_replicate]
  · rintro s hr ⟨S, hS1, hS2, hS3⟩ hc
    have hg := c77_biht_state phi n y n le_rfl tau maxIters s hr
    have hg' := c77_biht_state phi n y n le_rfl tau maxIters _ (hr.step hc)
    obtain ⟨hst, -, hit⟩ := c77_biht_step phi n y n tau s
    set t := bihtBody phi n y n tau s with htdef
    set x := buildSignal s.I s.x with hx
    have hfull := full_mem hg'.nodup hg'.len hg'.range
    have hX : ∀ j ∈ Finset.range n, buildSignal t.I t.x j = x j + tau / 2 * inner ℝ (phi j) s.r := by
      intro j hj
      rw [hst j (Finset.mem_range.1 hj), if_pos (hfull j (Finset.mem_range.1 hj))]
    set m := fun i : Fin M => ∑ j ∈ Finset.range n, x j * phi j i with hm
    have hres : ∀ i, s.r i = y i - Real.sign (m i) := fun i => by
      rw [hg.res]
      show y i - measure1bit phi n (buildSignal s.I s.x) i = _
      rw [measure1bit_apply]
    set ρ := fun i => y i * (y i - Real.sign (m i)) with hρ
    have hb := fun i => bit_residual (hy i) (m i)
    have hρ0 : ∀ i, 0 ≤ ρ i := fun i => (hb i).2.1
    have hρ1 : 1 ≤ ∑ i, ρ i := by
      have hpos : 0 < s.mismatched := hc.1
      rw [hg.mis, Finset.card_pos] at hpos
      obtain ⟨i, hi⟩ := hpos
      rw [Finset.mem_filter] at hi
      have h1 : 1 ≤ ρ i := (hb i).2.2.2.2 (by rw [hm]; simp only; rw [← measure1bit_apply]; exact sub_ne_zero.2 hi.2)
      exact h1.trans (Finset.single_le_sum (fun i _ => hρ0 i) (Finset.mem_univ i))
    have hin : ∑ j ∈ Finset.range n, x j * inner ℝ (phi j) s.r ≤ 0 := by
      rw [sum_inner_applyPhi]
      refine Finset.sum_nonpos fun i _ => ?_
      rw [hres, (hb i).1]
      have := (hb i).2.2.2.1
      simp only [hm] at this ⊢
      linarith
    have hia : γ * ∑ i, ρ i ≤ ∑ j ∈ Finset.range n, a j * inner ℝ (phi j) s.r := by
      rw [sum_inner_applyPhi, Finset.mul_sum]
      refine Finset.sum_le_sum fun i _ => ?_
      rw [hres, (hb i).1]
      have := mul_le_mul_of_nonneg_left (ha i) (hρ0 i)
      simp only [hρ] at this ⊢
      linarith
    have hnr : ‖s.r‖ ^ 2 ≤ 2 * ∑ i, ρ i := by
      rw [EuclideanSpace.norm_sq_eq, Finset.mul_sum]
      refine Finset.sum_le_sum fun i _ => ?_
      rw [Real.norm_eq_abs, sq_abs, hres, (hb i).1]
      have hy2 : y i * y i = 1 := by rcases hy i with e | e <;> rw [e] <;> norm_num
      have h2 := (hb i).2.2.1
      have h0 := hρ0 i
      have : (ρ i * y i) ^ 2 = ρ i ^ 2 := by rw [mul_pow, sq (y i), hy2, mul_one]
      show (ρ i * y i) ^ 2 ≤ 2 * ρ i
      rw [this]
      have : ρ i ≤ 2 := h2
      nlinarith
    refine ⟨S + ∑ i, ρ i, ?_, ?_, ?_⟩
    · rw [hit]; push_cast; linarith
    · have e0 : ∑ j ∈ Finset.range n, buildSignal t.I t.x j ^ 2 = ∑ j ∈ Finset.range n, (x j + tau / 2 * inner ℝ (phi j) s.r) ^ 2 :=
        Finset.sum_congr rfl fun j hj => by rw [hX j hj]
      rw [e0]
      have e : ∑ j ∈ Finset.range n, (x j + tau / 2 * inner ℝ (phi j) s.r) ^ 2 =
          ∑ j ∈ Finset.range n, x j ^ 2 + tau * ∑ j ∈ Finset.range n, x j * inner ℝ (phi j) s.r + tau ^ 2 / 4 * ∑ j ∈ Finset.range n, inner ℝ (phi j) s.r ^ 2 := by
        rw [Finset.mul_sum, Finset.mul_sum, ← Finset.sum_add_distrib, ← Finset.sum_add_distrib]
        exact Finset.sum_congr rfl fun j _ => by ring
      rw [e]
      have h1 : tau * ∑ j ∈ Finset.range n, x j * inner ℝ (phi j) s.r ≤ 0 := mul_nonpos_of_nonneg_of_nonpos ht.le hin
      have h2 : tau ^ 2 / 4 * ∑ j ∈ Finset.range n, inner ℝ (phi j) s.r ^ 2 ≤ tau ^ 2 / 4 * (B * (2 * ∑ i, ρ i)) :=
        mul_le_mul_of_nonneg_left ((hB s.r).trans (mul_le_mul_of_nonneg_left hnr hB0)) (by positivity)
      linarith
    · have e0 : ∑ j ∈ Finset.range n, buildSignal t.I t.x j * a j = ∑ j ∈ Finset.range n, (x j + tau / 2 * inner ℝ (phi j) s.r) * a j :=
        Finset.sum_congr rfl fun j hj => by rw [hX j hj]
      rw [e0]
      have e : ∑ j ∈ Finset.range n, (x j + tau / 2 * inner ℝ (phi j) s.r) * a j =
          ∑ j ∈ Finset.range n, x j * a j + tau / 2 * ∑ j ∈ Finset.range n, a j * inner ℝ (phi j) s.r := by
        rw [Finset.mul_sum, ← Finset.sum_add_distrib]
        exact Finset.sum_congr rfl fun j _ => by ring
      rw [e]
      have := mul_le_mul_of_nonneg_left hia (show 0 ≤ tau / 2 by positivity)
      linarith

/-- **C158** BIHT asked to keep every coefficient (`K = n`) is the batch perceptron. If some signal `a` fits the bits with margin `γ > 0`, and `B` bounds the squared norm of the sensing matrix, then for every step size the run stops with a signal whose one-bit measurements are exactly the given bits, after at most `2 B ‖a‖² / γ²` iterations, provided `max_iters` allows more than that many. -/
theorem c158_consistent_partial (phi : ℕ → Meas M) (n : ℕ) (y : Meas M) (hy : IsBits y) (a : ℕ → ℝ) (γ : ℝ) (hγ : 0 < γ) (ha : Margin phi n y a γ)
    (B : ℝ) (hB0 : 0 ≤ B) (hB : ∀ v : Meas M, ∑ j ∈ Finset.range n, inner ℝ (phi j) v ^ 2 ≤ B * ‖v‖ ^ 2) (tau : ℝ) (ht : 0 < tau) (maxIters : ℕ) (s : BState M)
    (h : Biht phi n y n tau maxIters s) :
    (s.iters : ℝ) ≤ 2 * B * (∑ j ∈ Finset.range n, a j ^ 2) / γ ^ 2 ∧
    (2 * B * (∑ j ∈ Finset.range n, a j ^ 2) / γ ^ 2 < maxIters → measure1bit phi n (buildSignal s.I s.x) = y) := by
  obtain ⟨S, hS1, hS2, hS3⟩ := pinv phi n y hy a γ hγ ha B hB hB0 tau ht maxIters s h.1
  have hle : (s.iters : ℝ) ≤ 2 * B * (∑ j ∈ Finset.range n, a j ^ 2) / γ ^ 2 := by
    refine hS1.trans ?_
    rw [le_div_iff₀ (by positivity)]
    set A := ∑ j ∈ Finset.range n, a j ^ 2 with hA
    have hA0 : 0 ≤ A := Finset.sum_nonneg fun j _ => sq_nonneg _
    have hS0 : 0 ≤ S := (Nat.cast_nonneg _).trans hS1
    have hcs := Finset.sum_mul_sq_le_sq_mul_sq (Finset.range n) (fun j => buildSignal s.I s.x j) a
    have h1 : (tau * γ * S / 2) ^ 2 ≤ (∑ j ∈ Finset.range n, buildSignal s.I s.x j * a j) ^ 2 := pow_le_pow_left₀ (by positivity) hS3 2
    have h2 : (∑ j ∈ Finset.range n, buildSignal s.I s.x j ^ 2) * A ≤ tau ^ 2 * B * S / 2 * A := mul_le_mul_of_nonneg_right hS2 hA0
    have h3 : (tau * γ * S / 2) ^ 2 ≤ tau ^ 2 * B * S / 2 * A := h1.trans (hcs.trans h2)
    rcases hS0.eq_or_lt with h0 | h0
    · rw [← h0, zero_mul]; positivity
    · have h4 : tau ^ 2 * S / 4 * (S * γ ^ 2) ≤ tau ^ 2 * S / 4 * (2 * B * A) := by nlinarith [h3]
      exact le_of_mul_le_mul_left h4 (by positivity)
  refine ⟨hle, fun hm => ((c77_biht_stop phi n y n le_rfl tau maxIters).2 s h).2.1 ?_⟩
  exact_mod_cast hle.trans_lt hm

/-- A crude bound on the squared norm of the sensing matrix. -/
theorem frame_bound (phi : ℕ → Meas M) (n : ℕ) (v : Meas M) : ∑ j ∈ Finset.range n, inner ℝ (phi j) v ^ 2 ≤ (∑ j ∈ Finset.range n, ‖phi j‖ ^ 2) * ‖v‖ ^ 2 := by
  rw [Finset.sum_mul]
  refine Finset.sum_le_sum fun j _ => ?_
  rw [← mul_pow]
  exact sq_le_sq' (by linarith [neg_abs_le (inner ℝ (phi j) v), abs_real_inner_le_norm (phi j) v]) ((le_abs_self _).trans (abs_real_inner_le_norm _ _))

/-- **C158** so for the bits of any signal none of whose measurements is zero there is a number of iterations, the same for every step size, after which BIHT with `K = n` has found a signal with exactly these bits. -/
theorem c158_unrestricted (phi : ℕ → Meas M) (n : ℕ) (a : ℕ → ℝ) (ha : ∀ i, ∑ j ∈ Finset.range n, a j * phi j i ≠ 0) :
    ∃ T : ℕ, ∀ tau, 0 < tau → ∀ maxIters, T ≤ maxIters → ∀ s, Biht phi n (measure1bit phi n a) n tau maxIters s →
      s.iters ≤ T ∧ measure1bit phi n (buildSignal s.I s.x) = measure1bit phi n a := by
  have hy : IsBits (measure1bit phi n a) := fun i => by
    rw [measure1bit_apply]
    rcases lt_or_gt_of_ne (ha i) with h | h
    · exact Or.inr (Real.sign_of_neg h)
    · exact Or.inl (Real.sign_of_pos h)
  have hγ : ∃ γ, 0 < γ ∧ Margin phi n (measure1bit phi n a) a γ := by
    have he : ∀ i, 0 < measure1bit phi n a i * ∑ j ∈ Finset.range n, a j * phi j i := fun i => by
      rw [measure1bit_apply]
      rcases lt_or_gt_of_ne (ha i) with h | h
      · rw [Real.sign_of_neg h]; linarith
      · rw [Real.sign_of_pos h]; linarith
    rcases isEmpty_or_nonempty (Fin M) with h | h
    · exact ⟨1, one_pos, fun i => h.elim i⟩
    · obtain ⟨i0, -, hi0⟩ := Finset.exists_min_image Finset.univ (fun i => measure1bit phi n a i * ∑ j ∈ Finset.range n, a j * phi j i) Finset.univ_nonempty
      exact ⟨_, he i0, fun i => hi0 i (Finset.mem_univ i)⟩
  obtain ⟨γ, hγ0, hm⟩ := hγ
  set Q := 2 * (∑ j ∈ Finset.range n, ‖phi j‖ ^ 2) * (∑ j ∈ Finset.range n, a j ^ 2) / γ ^ 2 with hQ
  refine ⟨⌊Q⌋₊ + 1, fun tau ht maxIters hT s hs => ?_⟩
  obtain ⟨h1, h2⟩ := c158_consistent_partial phi n _ hy a γ hγ0 hm (∑ j ∈ Finset.range n, ‖phi j‖ ^ 2) (Finset.sum_nonneg fun j _ => sq_nonneg _) (frame_bound phi n) tau ht maxIters s hs
  refine ⟨?_, h2 ?_⟩
  · exact (Nat.le_floor h1).trans (Nat.le_succ _)
  · exact (Nat.lt_floor_add_one Q).trans_le (by exact_mod_cast hT)

/-! ## With a sparsity constraint -/

/-- Two atoms of two measurements: `(1, 1)` and `(9, -6)`. -/
def cyclePhi : ℕ → Meas 2 := fun j => if j = 0 then WithLp.toLp 2 ![1, 1] else WithLp.toLp 2 ![9, -6]

/-- Both bits are `1`. -/
def cycleBits : Meas 2 := WithLp.toLp 2 ![1, 1]

theorem cycle_sum (x : ℕ → ℝ) : (∑ j ∈ Finset.range 2, x j * cyclePhi j 0 = x 0 + 9 * x 1) ∧ ∑ j ∈ Finset.range 2, x j * cyclePhi j 1 = x 0 - 6 * x 1 := by
  constructor <;> simp [Finset.sum_range_succ, cyclePhi] <;> ring

theorem cycle_z (x : ℕ → ℝ) (r : Meas 2) (hr : r = cycleBits - measure1bit cyclePhi 2 x) (h0 : x 0 = 0) :
    (x 1 = 0 → x 0 + 1 / 2 * inner ℝ (cyclePhi 0) r = 1 ∧ x 1 + 1 / 2 * inner ℝ (cyclePhi 1) r = 3 / 2) ∧
    (0 < x 1 → x 0 + 1 / 2 * inner ℝ (cyclePhi 0) r = 1 ∧ x 1 + 1 / 2 * inner ℝ (cyclePhi 1) r = x 1 - 6) ∧
    (x 1 < 0 → x 0 + 1 / 2 * inner ℝ (cyclePhi 0) r = 1 ∧ x 1 + 1 / 2 * inner ℝ (cyclePhi 1) r = x 1 + 9) := by
  obtain ⟨e0, e1⟩ := cycle_sum x
  rw [h0, zero_add] at e0
  rw [h0, zero_sub] at e1
  have r0 : r 0 = 1 - Real.sign (9 * x 1) := by rw [hr, ← e0, ← measure1bit_apply]; rfl
  have r1 : r 1 = 1 - Real.sign (-(6 * x 1)) := by rw [hr, ← e1, ← measure1bit_apply]; rfl
  have i0 : inner ℝ (cyclePhi 0) r = r 0 + r 1 := by rw [inner_coord, Fin.sum_univ_two]; simp [cyclePhi]
  have i1 : inner ℝ (cyclePhi 1) r = 9 * r 0 - 6 * r 1 := by rw [inner_coord, Fin.sum_univ_two]; simp [cyclePhi]; ring
  rw [i0, i1, r0, r1, h0]
  refine ⟨fun h => ?_, fun h => ?_, fun h => ?_⟩
  · rw [h]; norm_num
  · rw [Real.sign_of_pos (by linarith), Real.sign_of_neg (by linarith)]; constructor <;> ring
  · rw [Real.sign_of_neg (by linarith), Real.sign_of_pos (by linarith)]; constructor <;> ring

/-- **C158** with `K < n` a sparse signal that fits the bits, even with a margin, does not ensure that BIHT finds one: here the first atom alone gives both bits, yet for no number of iterations does the run with `K = 1` return a signal with these bits; it cycles through five multiples of the second atom. -/
theorem c158_consistent_fails :
    Margin cyclePhi 2 cycleBits (fun j => if j = 0 then 1 else 0) 1 ∧ ∀ maxIters s, Biht cyclePhi 2 cycleBits 1 1 maxIters s → measure1bit cyclePhi 2 (buildSignal s.I s.x) ≠ cycleBits := by
  refine ⟨fun i => ?_, fun maxIters s hs => ?_⟩
  · fin_cases i
    · show (1 : ℝ) ≤ cycleBits 0 * ∑ j ∈ Finset.range 2, (if j = 0 then 1 else 0) * cyclePhi j 0
      rw [(cycle_sum _).1]; simp [cycleBits]
    · show (1 : ℝ) ≤ cycleBits 1 * ∑ j ∈ Finset.range 2, (if j = 0 then 1 else 0) * cyclePhi j 1
      rw [(cycle_sum _).2]; simp [cycleBits]
  · have hinv : buildSignal s.I s.x 0 = 0 ∧ (buildSignal s.I s.x 1 = 0 ∨ buildSignal s.I s.x 1 = 3 / 2 ∨ buildSignal s.I s.x 1 = -9 / 2 ∨ buildSignal s.I s.x 1 = 9 / 2 ∨ buildSignal s.I s.x 1 = -3 / 2 ∨ buildSignal s.I s.x 1 = 15 / 2) := by
      refine hs.1.inv' (fun s => buildSignal s.I s.x 0 = 0 ∧ (buildSignal s.I s.x 1 = 0 ∨ buildSignal s.I s.x 1 = 3 / 2 ∨ buildSignal s.I s.x 1 = -9 / 2 ∨ buildSignal s.I s.x 1 = 9 / 2 ∨ buildSignal s.I s.x 1 = -3 / 2 ∨ buildSignal s.I s.x 1 = 15 / 2)) ?_ ?_
      · exact ⟨buildSignal_replicate _ 1 0, Or.inl (buildSignal_replicate _ 1 1)⟩
      · rintro s hr ⟨h0, h1⟩ hc
        have hg := c77_biht_state cyclePhi 2 cycleBits 1 (by norm_num) 1 maxIters s hr
        have hg' := c77_biht_state cyclePhi 2 cycleBits 1 (by norm_num) 1 maxIters _ (hr.step hc)
        obtain ⟨hs1, hs2, -⟩ := c77_biht_step cyclePhi 2 cycleBits 1 1 s
        set t := bihtBody cyclePhi 2 cycleBits 1 1 s with ht
        obtain ⟨z1, z2, z3⟩ := cycle_z (buildSignal s.I s.x) s.r hg.res h0
        obtain ⟨i, hi⟩ := List.length_eq_one_iff.1 hg'.len
        have hz : ∃ w : ℝ, buildSignal s.I s.x 0 + 1 / 2 * inner ℝ (cyclePhi 0) s.r = 1 ∧ buildSignal s.I s.x 1 + 1 / 2 * inner ℝ (cyclePhi 1) s.r = w ∧
            1 < |w| ∧ (w = 0 ∨ w = 3 / 2 ∨ w = -9 / 2 ∨ w = 9 / 2 ∨ w = -3 / 2 ∨ w = 15 / 2) := by
          rcases h1 with h | h | h | h | h | h
          · obtain ⟨p, q⟩ := z1 h
            exact ⟨_, p, q, by norm_num, by norm_num⟩
          · obtain ⟨p, q⟩ := z2 (by rw [h]; norm_num)
            rw [h] at q ⊢
            exact ⟨_, p, q, by norm_num [abs_of_neg], by norm_num⟩
          · obtain ⟨p, q⟩ := z3 (by rw [h]; norm_num)
            rw [h] at q ⊢
            exact ⟨_, p, q, by norm_num [abs_of_pos], by norm_num⟩
          · obtain ⟨p, q⟩ := z2 (by rw [h]; norm_num)
            rw [h] at q ⊢
            exact ⟨_, p, q, by norm_num [abs_of_neg], by norm_num⟩
          · obtain ⟨p, q⟩ := z3 (by rw [h]; norm_num)
            rw [h] at q ⊢
            exact ⟨_, p, q, by norm_num [abs_of_pos], by norm_num⟩
          · obtain ⟨p, q⟩ := z2 (by rw [h]; norm_num)
            rw [h] at q ⊢
            exact ⟨_, p, q, by norm_num [abs_of_pos], by norm_num⟩
        obtain ⟨w, p, q, hw, hw'⟩ := hz
        have hi1 : t.I = [1] := by
          have hlt := hg'.range i (by rw [hi]; simp)
          interval_cases i
          · have := hs2 0 (by rw [hi]; simp) 1 (by norm_num) (by rw [hi]; simp)
            simp only [p, q] at this
            rw [abs_one] at this
            linarith
          · exact hi
        refine ⟨?_, ?_⟩
        · show buildSignal t.I t.x 0 = 0
          rw [hs1 0 (by norm_num), if_neg (by rw [hi1]; simp)]
        · have e : buildSignal t.I t.x 1 = w := by rw [hs1 1 (by norm_num), if_pos (by rw [hi1]; simp)]; exact q
          rw [e]
          exact hw'
    intro he
    obtain ⟨h0, h1⟩ := hinv
    have a0 := congrArg (fun v : Meas 2 => v 0) he
    have a1 := congrArg (fun v : Meas 2 => v 1) he
    simp only [measure1bit_apply, (cycle_sum _).1, (cycle_sum _).2, h0] at a0 a1
    rw [zero_add] at a0
    rw [zero_sub] at a1
    rcases lt_trichotomy (buildSignal s.I s.x 1) 0 with h | h | h
    · rw [Real.sign_of_neg (by linarith)] at a0; norm_num [cycleBits] at a0
    · rw [h] at a0; norm_num [cycleBits] at a0
    · rw [Real.sign_of_neg (by linarith)] at a1; norm_num [cycleBits] at a1

/-! ## Instances -/

theorem cycleBits_isBits : IsBits cycleBits := fun i => by fin_cases i <;> simp [cycleBits]

example := c158_subgradient cyclePhi 2 cycleBits cycleBits_isBits 1 (by norm_num) 1 5 _ Reach.init

example := c158_violation cyclePhi 2 cycleBits cycleBits_isBits fun j => (j : ℝ) + 1

example (s : BState 2) (h : Biht cyclePhi 2 cycleBits 1 1 7 s) := (c158_step_size cyclePhi 2 cycleBits 1 1 3 (by norm_num) 7 s h _).2 rfl

/-- With both atoms allowed the same bits are found. -/
example (s : BState 2) (h : Biht cyclePhi 2 cycleBits 2 1 1000 s) := c158_consistent_partial cyclePhi 2 cycleBits cycleBits_isBits _ 1 one_pos c158_consistent_fails.1
  _ (Finset.sum_nonneg fun j _ => sq_nonneg _) (frame_bound cyclePhi 2) 1 one_pos 1000 s h

example := c158_unrestricted cyclePhi 2 (fun j => if j = 0 then 1 else 0) fun i => by
  fin_cases i
  · show ∑ j ∈ Finset.range 2, (if j = 0 then 1 else 0) * cyclePhi j 0 ≠ 0
    rw [(cycle_sum _).1]; simp
  · show ∑ j ∈ Finset.range 2, (if j = 0 then 1 else 0) * cyclePhi j 1 ≠ 0
    rw [(cycle_sum _).2]; simp

end Verif.Cs1bit
