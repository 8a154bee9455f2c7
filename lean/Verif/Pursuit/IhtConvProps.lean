import Verif.Pursuit.GreedyProps
import Verif.Cvx.FocussConv
import Mathlib.Analysis.SpecificLimits.Basic
import Mathlib.Topology.Algebra.InfiniteSum.Order
import Mathlib.Data.Set.Finite.Lattice

set_option autoImplicit false
/-!
# C147: IHT and HTP on arbitrary data with a step below `1/|Phi|²`

`mu |Phi z|² ≤ ρ |z|²` with `ρ < 1`. No assumption on the measurements: `y` need not be close to a sparse combination of the atoms.
-/
noncomputable section
namespace Verif.Pursuit
open Verif.Loop Filter Topology

variable {𝕜 : Type*} [RCLike 𝕜] {E : Type*} [NormedAddCommGroup E] [InnerProductSpace 𝕜 E]

/-! ## Specification -/

/-- At most `K` of the first `n` entries are non-zero, and none of the others. -/
def SparseOn (n K : ℕ) (z : ℕ → 𝕜) : Prop := ∃ S : Finset ℕ, S ⊆ Finset.range n ∧ S.card ≤ K ∧ ∀ i, i ∉ S → z i = 0

/-- `x` is a best `K`-term approximation of its own gradient step `x + mu Phi^H (y - Phi x)`. -/
structure HardFixed (phi : ℕ → E) (n : ℕ) (mu : ℝ) (y : E) (K : ℕ) (x : ℕ → 𝕜) : Prop where
  sparse : SparseOn n K x
  best : ∀ z : ℕ → 𝕜, SparseOn n K z → ∑ i ∈ Finset.range n, ‖(mu : 𝕜) * inner 𝕜 (phi i) (y - synth phi n x)‖ ^ 2 ≤
    ∑ i ∈ Finset.range n, ‖x i + (mu : 𝕜) * inner 𝕜 (phi i) (y - synth phi n x) - z i‖ ^ 2

/-! ## One hard thresholded gradient step -/

/-- The `K`-term approximation of the gradient step gives `|d|² ≤ 2 mu Re <r, Phi d>` for the change `d`. -/
theorem grad_key (phi : ℕ → E) (n : ℕ) (mu : ℝ) (K : ℕ) (I : List ℕ) (x : List 𝕜) (hn : I.Nodup) (hI : I.length ≤ K) (r : E) :
    let g := gradStep n I x mu (corr 𝕜 phi n r)
    let d : ℕ → 𝕜 := fun i => (if i ∈ largestIndices g K then g.getD i 0 else 0) - buildSignal I x i
    ∑ i ∈ Finset.range n, ‖d i‖ ^ 2 ≤ 2 * mu * RCLike.re (inner 𝕜 r (synth phi n d)) := by
  intro g d
  have hgl : g.length = n := gradStep_length ..
  have hbest := c51_best_K_term g K (buildSignal I x) I.toFinset (by rw [List.toFinset_card_of_nodup hn]; exact hI)
    (fun i _ hi => buildSignal_not_mem _ _ _ (by simpa using hi))
  rw [hgl] at hbest
  rw [re_inner_synth, Finset.mul_sum]
  have e1 : ∀ i ∈ Finset.range n, ‖g.getD i 0 - (if i ∈ largestIndices g K then g.getD i 0 else 0)‖ ^ 2 =
      ‖(mu : 𝕜) * inner 𝕜 (phi i) r‖ ^ 2 - 2 * mu * RCLike.re (inner 𝕜 (inner 𝕜 (phi i) r) (d i)) + ‖d i‖ ^ 2 := by
    intro i hi
    have hi' := Finset.mem_range.mp hi
    have : g.getD i 0 - (if i ∈ largestIndices g K then g.getD i 0 else 0) = (mu : 𝕜) * inner 𝕜 (phi i) r - d i := by
      have e : g.getD i 0 = buildSignal I x i + (mu : 𝕜) * inner 𝕜 (phi i) r := by
        show (gradStep n I x mu (corr 𝕜 phi n r)).getD i 0 = _
        rw [gradStep_getD n _ _ _ _ hi', corr_getD' _ _ _ hi']
      show _ = _ - ((if i ∈ largestIndices g K then g.getD i 0 else 0) - buildSignal I x i)
      generalize (if i ∈ largestIndices g K then g.getD i 0 else 0) = q
      rw [e]; ring
    rw [this, @norm_sub_sq 𝕜, ← smul_eq_mul, inner_smul_left, RCLike.conj_ofReal, RCLike.re_ofReal_mul]; ring
  have e2 : ∀ i ∈ Finset.range n, ‖g.getD i 0 - buildSignal I x i‖ ^ 2 = ‖(mu : 𝕜) * inner 𝕜 (phi i) r‖ ^ 2 := by
    intro i hi
    have hi' := Finset.mem_range.mp hi
    show ‖(gradStep n I x mu (corr 𝕜 phi n r)).getD i 0 - _‖ ^ 2 = _
    rw [gradStep_getD n _ _ _ _ hi', corr_getD' _ _ _ hi', add_sub_cancel_left]
  rw [Finset.sum_congr rfl e1, Finset.sum_congr rfl e2, Finset.sum_add_distrib, Finset.sum_sub_distrib] at hbest
  linarith

theorem grad_descent (phi : ℕ → E) (n : ℕ) (mu ρ : ℝ) (hmu : 0 < mu) (hb : ∀ z : ℕ → 𝕜, mu * ‖synth phi n z‖ ^ 2 ≤ ρ * ∑ i ∈ Finset.range n, ‖z i‖ ^ 2)
    (r : E) (d : ℕ → 𝕜) (hd : ∑ i ∈ Finset.range n, ‖d i‖ ^ 2 ≤ 2 * mu * RCLike.re (inner 𝕜 r (synth phi n d))) :
    ‖r - synth phi n d‖ ^ 2 + (1 - ρ) / mu * ∑ i ∈ Finset.range n, ‖d i‖ ^ 2 ≤ ‖r‖ ^ 2 := by
  have hbd := hb d
  rw [@norm_sub_sq 𝕜]
  set D := ∑ i ∈ Finset.range n, ‖d i‖ ^ 2
  have h1 : (1 - ρ) / mu * D = (D - ρ * D) / mu := by ring
  have h2 : (D - ρ * D) / mu ≤ 2 * RCLike.re (inner 𝕜 r (synth phi n d)) - ‖synth phi n d‖ ^ 2 := by
    rw [div_le_iff₀ hmu]; nlinarith
  rw [h1]; linarith

/-- The state assembled from the hard thresholding of an array. -/
theorem hard_residual (phi : ℕ → E) (n K : ℕ) (g : List 𝕜) (hg : g.length = n) :
    lin phi (largestIndices g K) (gather 0 g (largestIndices g K)) = synth phi n (fun i => if i ∈ largestIndices g K then g.getD i 0 else 0) := by
  obtain ⟨h1, -, h3, -⟩ := c51_largest_indices g K
  rw [hg] at h3
  rw [lin_eq_synth phi n _ _ h1 h3 (gather_length _ _ _)]
  congr 1
  funext i
  rw [buildSignal_gather]

theorem ihtBody_signal (phi : ℕ → E) (n : ℕ) (mu : ℝ) (y : E) (K : ℕ) (s : GState 𝕜 E) (i : ℕ) :
    buildSignal (ihtBody phi n mu y K s).I (ihtBody phi n mu y K s).x i =
      if i ∈ (ihtBody phi n mu y K s).I then (gradStep n s.I s.x mu (corr 𝕜 phi n s.r)).getD i 0 else 0 :=
  buildSignal_gather _ _ i

/-- **C147** one iteration of IHT lowers the squared residual norm by at least `(1-ρ)/mu` times the squared length of the step. -/
theorem c147_iht_descent (phi : ℕ → E) (n : ℕ) (mu ρ : ℝ) (hmu : 0 < mu) (hb : ∀ z : ℕ → 𝕜, mu * ‖synth phi n z‖ ^ 2 ≤ ρ * ∑ i ∈ Finset.range n, ‖z i‖ ^ 2)
    (y : E) (K : ℕ) (hK : K ≤ n) (c : GState 𝕜 E → Prop) (s : GState 𝕜 E) (h : Reach c (ihtBody phi n mu y K) (ihtInit phi n mu y K) s) :
    ‖(ihtBody phi n mu y K s).r‖ ^ 2 + (1 - ρ) / mu * ∑ i ∈ Finset.range n,
      ‖buildSignal (ihtBody phi n mu y K s).I (ihtBody phi n mu y K s).x i - buildSignal s.I s.x i‖ ^ 2 ≤ ‖s.r‖ ^ 2 := by
  obtain ⟨hg, hn, hr, -⟩ := c50_iht_state phi n mu y K hK c s h
  have hk := grad_key phi n mu K s.I s.x hn hg.size.le s.r
  have := grad_descent phi n mu ρ hmu hb s.r _ hk
  have e : (ihtBody phi n mu y K s).r = s.r - synth phi n (fun i => (if i ∈ largestIndices (gradStep n s.I s.x mu (corr 𝕜 phi n s.r)) K then
      (gradStep n s.I s.x mu (corr 𝕜 phi n s.r)).getD i 0 else 0) - buildSignal s.I s.x i) := by
    rw [synth_sub]
    show y - lin phi (largestIndices (gradStep n s.I s.x mu (corr 𝕜 phi n s.r)) K) (gather 0 (gradStep n s.I s.x mu (corr 𝕜 phi n s.r)) (largestIndices (gradStep n s.I s.x mu (corr 𝕜 phi n s.r)) K)) = _
    rw [hard_residual phi n K _ (gradStep_length ..)]
    generalize synth phi n (fun i => if i ∈ largestIndices (gradStep n s.I s.x mu (corr 𝕜 phi n s.r)) K then
      (gradStep n s.I s.x mu (corr 𝕜 phi n s.r)).getD i 0 else 0) = A
    rw [hr]
    abel
  rw [e]
  simp only [ihtBody_signal]
  exact this

/-- **C147** the step of IHT measures stationarity: on the new support the change of the coefficients is `mu` times the correlation with the residual, and off it
the gradient step has entries no larger than the coefficients kept. -/
theorem c147_iht_step (phi : ℕ → E) (n : ℕ) (mu : ℝ) (y : E) (K : ℕ) (s : GState 𝕜 E) :
    (∀ i ∈ (ihtBody phi n mu y K s).I, i < n ∧
      buildSignal (ihtBody phi n mu y K s).I (ihtBody phi n mu y K s).x i - buildSignal s.I s.x i = (mu : 𝕜) * inner 𝕜 (phi i) s.r) ∧
    ∀ i ∈ (ihtBody phi n mu y K s).I, ∀ j, j < n → j ∉ (ihtBody phi n mu y K s).I →
      ‖buildSignal s.I s.x j + (mu : 𝕜) * inner 𝕜 (phi j) s.r‖ ≤ ‖buildSignal (ihtBody phi n mu y K s).I (ihtBody phi n mu y K s).x i‖ := by
  have hgl : (gradStep n s.I s.x mu (corr 𝕜 phi n s.r)).length = n := gradStep_length ..
  obtain ⟨h1, h2, h3, h4, h5⟩ := c51_largest_indices (gradStep n s.I s.x mu (corr 𝕜 phi n s.r)) K
  rw [hgl] at h2 h3 h5
  refine ⟨fun i hi => ⟨h3 i hi, ?_⟩, fun i hi j hj hjn => ?_⟩
  · rw [ihtBody_signal, if_pos hi, gradStep_getD n _ _ _ _ (h3 i hi), corr_getD' _ _ _ (h3 i hi), add_sub_cancel_left]
  · have := h5 i hi j hj hjn
    rw [gradStep_getD n _ _ _ _ hj, corr_getD' _ _ _ hj] at this
    rw [ihtBody_signal, if_pos hi]
    exact this

/-! ## The sequence of IHT -/

/-- The states of IHT without a stopping rule (the loop of pursuit/iht.py:79-115). -/
def ihtSeq (phi : ℕ → E) (n : ℕ) (mu : ℝ) (y : E) (K k : ℕ) : GState 𝕜 E := (ihtBody phi n mu y K)^[k] (ihtInit phi n mu y K)

/-- The signal of the `k`-th state of IHT. -/
def ihtSig (phi : ℕ → E) (n : ℕ) (mu : ℝ) (y : E) (K k : ℕ) : ℕ → 𝕜 := buildSignal (ihtSeq (𝕜 := 𝕜) phi n mu y K k).I (ihtSeq phi n mu y K k).x

theorem ihtSeq_reach (phi : ℕ → E) (n : ℕ) (mu : ℝ) (y : E) (K k : ℕ) :
    Reach (fun _ : GState 𝕜 E => True) (ihtBody phi n mu y K) (ihtInit phi n mu y K) (ihtSeq phi n mu y K k) :=
  reach_of_iterate fun _ _ => trivial

theorem ihtSeq_succ (phi : ℕ → E) (n : ℕ) (mu : ℝ) (y : E) (K k : ℕ) :
    ihtSeq (𝕜 := 𝕜) phi n mu y K (k + 1) = ihtBody phi n mu y K (ihtSeq phi n mu y K k) :=
  Function.iterate_succ_apply' _ _ _

theorem ihtSeq_iters (phi : ℕ → E) (n : ℕ) (mu : ℝ) (y : E) (K k : ℕ) : (ihtSeq (𝕜 := 𝕜) phi n mu y K k).iters = k + 1 := by
  induction k with
  | zero => rfl
  | succ k ih => rw [ihtSeq_succ]; show _ + 1 = _; rw [ih]

/-- The states of the solver are those of the sequence. -/
theorem ihtSolve_seq (phi : ℕ → E) (n : ℕ) (mu : ℝ) (y : E) (K maxIters : ℕ) (rtol : ℝ) (s : GState 𝕜 E) (h : IhtSolve phi n mu y K maxIters rtol s) :
    s = ihtSeq phi n mu y K (s.iters - 1) := by
  obtain ⟨k, hk, -⟩ := h.1.iterate
  have e : s = ihtSeq phi n mu y K k := hk
  rw [e, ihtSeq_iters]; rfl

theorem ihtInit_le (phi : ℕ → E) (n : ℕ) (mu ρ : ℝ) (hmu : 0 < mu) (hρ : ρ ≤ 1) (hb : ∀ z : ℕ → 𝕜, mu * ‖synth phi n z‖ ^ 2 ≤ ρ * ∑ i ∈ Finset.range n, ‖z i‖ ^ 2)
    (y : E) (K : ℕ) : ‖(ihtInit (𝕜 := 𝕜) phi n mu y K).r‖ ≤ ‖y‖ := by
  have hk := grad_key (𝕜 := 𝕜) phi n mu K [] [] List.nodup_nil (Nat.zero_le _) y
  have hd := grad_descent phi n mu ρ hmu hb y _ hk
  have e : (ihtInit (𝕜 := 𝕜) phi n mu y K).r = y - synth phi n (fun i => (if i ∈ largestIndices (gradStep n [] [] mu (corr 𝕜 phi n y)) K then
      (gradStep n [] [] mu (corr 𝕜 phi n y)).getD i 0 else 0) - buildSignal ([] : List ℕ) ([] : List 𝕜) i) := by
    rw [synth_sub]
    show y - lin phi (largestIndices (gradStep n [] [] mu (corr 𝕜 phi n y)) K) (gather 0 (gradStep n [] [] mu (corr 𝕜 phi n y)) (largestIndices (gradStep n [] [] mu (corr 𝕜 phi n y)) K)) = _
    rw [hard_residual phi n K _ (gradStep_length ..)]
    have : synth phi n (buildSignal ([] : List ℕ) ([] : List 𝕜)) = 0 := by simp [synth, buildSignal]
    rw [this, sub_zero]
  refine (pow_le_pow_iff_left₀ (norm_nonneg _) (norm_nonneg _) two_ne_zero).mp ?_
  rw [e]
  have h0 : 0 ≤ (1 - ρ) / mu * ∑ i ∈ Finset.range n, ‖(if i ∈ largestIndices (gradStep n [] [] mu (corr 𝕜 phi n y)) K then
      (gradStep n [] [] mu (corr 𝕜 phi n y)).getD i 0 else 0) - buildSignal ([] : List ℕ) ([] : List 𝕜) i‖ ^ 2 :=
    mul_nonneg (div_nonneg (by linarith) hmu.le) (Finset.sum_nonneg fun i _ => by positivity)
  exact le_trans (le_add_of_nonneg_right h0) hd

/-- The squared step lengths sum up to at most `mu |y|² / (1-ρ)`. -/
theorem iht_steps_sum (phi : ℕ → E) (n : ℕ) (mu ρ : ℝ) (hmu : 0 < mu) (hρ : ρ < 1) (hb : ∀ z : ℕ → 𝕜, mu * ‖synth phi n z‖ ^ 2 ≤ ρ * ∑ i ∈ Finset.range n, ‖z i‖ ^ 2)
    (y : E) (K : ℕ) (hK : K ≤ n) (N : ℕ) :
    ‖(ihtSeq (𝕜 := 𝕜) phi n mu y K N).r‖ ^ 2 +
      (1 - ρ) / mu * ∑ k ∈ Finset.range N, ∑ i ∈ Finset.range n, ‖ihtSig (𝕜 := 𝕜) phi n mu y K (k + 1) i - ihtSig phi n mu y K k i‖ ^ 2 ≤ ‖y‖ ^ 2 := by
  induction N with
  | zero =>
    simp only [Finset.range_zero, Finset.sum_empty, mul_zero, add_zero]
    exact pow_le_pow_left₀ (norm_nonneg _) (ihtInit_le phi n mu ρ hmu hρ.le hb y K) 2
  | succ N ih =>
    have h := c147_iht_descent phi n mu ρ hmu hb y K hK _ _ (ihtSeq_reach (𝕜 := 𝕜) phi n mu y K N)
    rw [← ihtSeq_succ] at h
    rw [Finset.sum_range_succ, mul_add]
    have e : (1 - ρ) / mu * ∑ i ∈ Finset.range n, ‖ihtSig (𝕜 := 𝕜) phi n mu y K (N + 1) i - ihtSig phi n mu y K N i‖ ^ 2 =
      (1 - ρ) / mu * ∑ i ∈ Finset.range n, ‖buildSignal (ihtSeq (𝕜 := 𝕜) phi n mu y K (N + 1)).I (ihtSeq phi n mu y K (N + 1)).x i -
        buildSignal (ihtSeq (𝕜 := 𝕜) phi n mu y K N).I (ihtSeq phi n mu y K N).x i‖ ^ 2 := rfl
    linarith

/-- **C147** among the first `N` iterations of IHT one has a squared step length of at most `mu |y|² / ((1-ρ) N)`, and no residual exceeds the data. -/
theorem c147_iht_rate (phi : ℕ → E) (n : ℕ) (mu ρ : ℝ) (hmu : 0 < mu) (hρ : ρ < 1) (hb : ∀ z : ℕ → 𝕜, mu * ‖synth phi n z‖ ^ 2 ≤ ρ * ∑ i ∈ Finset.range n, ‖z i‖ ^ 2)
    (y : E) (K : ℕ) (hK : K ≤ n) (N : ℕ) (hN : 0 < N) :
    ‖(ihtSeq (𝕜 := 𝕜) phi n mu y K N).r‖ ≤ ‖y‖ ∧
    ∃ k, k < N ∧ ∑ i ∈ Finset.range n, ‖ihtSig (𝕜 := 𝕜) phi n mu y K (k + 1) i - ihtSig phi n mu y K k i‖ ^ 2 ≤ mu * ‖y‖ ^ 2 / ((1 - ρ) * N) := by
  have h := iht_steps_sum (𝕜 := 𝕜) phi n mu ρ hmu hρ hb y K hK N
  have hc : 0 < (1 - ρ) / mu := div_pos (by linarith) hmu
  have hnn : 0 ≤ ∑ k ∈ Finset.range N, ∑ i ∈ Finset.range n, ‖ihtSig (𝕜 := 𝕜) phi n mu y K (k + 1) i - ihtSig phi n mu y K k i‖ ^ 2 :=
    Finset.sum_nonneg fun k _ => Finset.sum_nonneg fun i _ => by positivity
  refine ⟨(pow_le_pow_iff_left₀ (norm_nonneg _) (norm_nonneg _) two_ne_zero).mp (by nlinarith [mul_nonneg hc.le hnn]), ?_⟩
  by_contra hno
  push Not at hno
  have hNp : (0 : ℝ) < N := by exact_mod_cast hN
  have h2 : (N : ℝ) * (mu * ‖y‖ ^ 2 / ((1 - ρ) * N)) <
      ∑ k ∈ Finset.range N, ∑ i ∈ Finset.range n, ‖ihtSig (𝕜 := 𝕜) phi n mu y K (k + 1) i - ihtSig phi n mu y K k i‖ ^ 2 := by
    have := Finset.sum_lt_sum_of_nonempty (s := Finset.range N) (Finset.nonempty_range_iff.mpr hN.ne') fun k hk => hno k (Finset.mem_range.mp hk)
    simpa using this
  have e : (N : ℝ) * (mu * ‖y‖ ^ 2 / ((1 - ρ) * N)) = mu / (1 - ρ) * ‖y‖ ^ 2 := by
    have : 1 - ρ ≠ 0 := by linarith
    field_simp
  rw [e] at h2
  have h3 := mul_lt_mul_of_pos_left h2 hc
  have e2 : (1 - ρ) / mu * (mu / (1 - ρ) * ‖y‖ ^ 2) = ‖y‖ ^ 2 := by
    have : 1 - ρ ≠ 0 := by linarith
    field_simp
  rw [e2] at h3
  nlinarith [sq_nonneg ‖(ihtSeq (𝕜 := 𝕜) phi n mu y K N).r‖]

theorem iht_step_tendsto (phi : ℕ → E) (n : ℕ) (mu ρ : ℝ) (hmu : 0 < mu) (hρ : ρ < 1) (hb : ∀ z : ℕ → 𝕜, mu * ‖synth phi n z‖ ^ 2 ≤ ρ * ∑ i ∈ Finset.range n, ‖z i‖ ^ 2)
    (y : E) (K : ℕ) (hK : K ≤ n) :
    Tendsto (fun k => ∑ i ∈ Finset.range n, ‖ihtSig (𝕜 := 𝕜) phi n mu y K (k + 1) i - ihtSig phi n mu y K k i‖ ^ 2) atTop (𝓝 0) := by
  have hc : 0 < (1 - ρ) / mu := div_pos (by linarith) hmu
  refine (summable_of_sum_range_le (c := ‖y‖ ^ 2 / ((1 - ρ) / mu)) (fun k => Finset.sum_nonneg fun i _ => by positivity) fun N => ?_).tendsto_atTop_zero
  rw [le_div_iff₀ hc]
  nlinarith [iht_steps_sum (𝕜 := 𝕜) phi n mu ρ hmu hρ hb y K hK N, sq_nonneg ‖(ihtSeq (𝕜 := 𝕜) phi n mu y K N).r‖]

theorem iht_residual_le (phi : ℕ → E) (n : ℕ) (mu ρ : ℝ) (hmu : 0 < mu) (hρ : ρ < 1) (hb : ∀ z : ℕ → 𝕜, mu * ‖synth phi n z‖ ^ 2 ≤ ρ * ∑ i ∈ Finset.range n, ‖z i‖ ^ 2)
    (y : E) (K : ℕ) (hK : K ≤ n) (N : ℕ) : ‖(ihtSeq (𝕜 := 𝕜) phi n mu y K N).r‖ ≤ ‖y‖ := by
  rcases Nat.eq_zero_or_pos N with rfl | hN
  · exact ihtInit_le phi n mu ρ hmu hρ.le hb y K
  · exact (c147_iht_rate phi n mu ρ hmu hρ hb y K hK N hN).1

/-! ## Convergence -/

/-- `Phi v` for an array of `n` coefficients. -/
def synthF (phi : ℕ → E) (n : ℕ) (v : Fin n → 𝕜) : E := ∑ i : Fin n, v i • phi i

theorem synthF_eq (phi : ℕ → E) (n : ℕ) (z : ℕ → 𝕜) : synthF phi n (fun i : Fin n => z i) = synth phi n z := by
  rw [synthF, synth, Finset.sum_range]

theorem synthF_continuous (phi : ℕ → E) (n : ℕ) : Continuous (synthF (𝕜 := 𝕜) phi n) := by
  unfold synthF
  exact continuous_finset_sum _ fun i _ => (continuous_apply i).smul continuous_const

theorem synthF_sub (phi : ℕ → E) (n : ℕ) (u v : Fin n → 𝕜) : synthF phi n (u - v) = synthF phi n u - synthF phi n v := by
  simp [synthF, sub_smul, Finset.sum_sub_distrib]

theorem synthF_smul (phi : ℕ → E) (n : ℕ) (a : 𝕜) (v : Fin n → 𝕜) : synthF phi n (a • v) = a • synthF phi n v := by
  simp [synthF, Finset.smul_sum, mul_smul]

/-- Any `K` of the first `n` atoms are linearly independent: no non-zero `K`-sparse vector is mapped to zero. -/
def SparkGt (𝕜 : Type*) [RCLike 𝕜] {E : Type*} [NormedAddCommGroup E] [InnerProductSpace 𝕜 E] (phi : ℕ → E) (n K : ℕ) : Prop :=
  ∀ z : ℕ → 𝕜, SparseOn n K z → synth phi n z = 0 → ∀ i, z i = 0

theorem spark_fin (phi : ℕ → E) (n K : ℕ) (h : SparkGt 𝕜 phi n K) (v : Fin n → 𝕜) (S : Finset (Fin n)) (hS : S.card ≤ K) (hv : ∀ i, i ∉ S → v i = 0)
    (h0 : synthF phi n v = 0) : v = 0 := by
  classical
  let z : ℕ → 𝕜 := fun i => if hi : i < n then v ⟨i, hi⟩ else 0
  have hz : (fun i : Fin n => z i) = v := by funext i; simp [z]
  have := h z ⟨S.map Fin.valEmbedding, ?_, by rwa [Finset.card_map], ?_⟩ (by rw [← synthF_eq, hz, h0])
  · funext i
    have := this i
    simpa [z] using this
  · intro i hi
    simp only [Finset.mem_map, Fin.valEmbedding_apply] at hi
    obtain ⟨a, -, rfl⟩ := hi
    simp
  · intro i hi
    by_cases hin : i < n
    · simp only [z, hin, dif_pos]
      refine hv _ fun hm => hi ?_
      simp only [Finset.mem_map, Fin.valEmbedding_apply]
      exact ⟨_, hm, rfl⟩
    · simp [z, hin]

/-- The set of arrays with at most `K` non-zero entries. -/
theorem sparse_closed (n K : ℕ) : IsClosed {v : Fin n → 𝕜 | ∃ S : Finset (Fin n), S.card ≤ K ∧ ∀ i, i ∉ S → v i = 0} := by
  have : {v : Fin n → 𝕜 | ∃ S : Finset (Fin n), S.card ≤ K ∧ ∀ i, i ∉ S → v i = 0} =
      ⋃ S : {S : Finset (Fin n) // S.card ≤ K}, {v | ∀ i, i ∉ S.1 → v i = 0} := by
    ext v; simp
  rw [this]
  refine isClosed_iUnion_of_finite fun S => ?_
  simp only [Set.setOf_forall]
  exact isClosed_iInter fun i => isClosed_iInter fun _ => isClosed_eq (continuous_apply i) continuous_const

theorem sparse_lower (phi : ℕ → E) (n K : ℕ) (h : SparkGt 𝕜 phi n K) :
    ∃ m > 0, ∀ (v : Fin n → 𝕜) (S : Finset (Fin n)), S.card ≤ K → (∀ i, i ∉ S → v i = 0) → m * ‖v‖ ≤ ‖synthF phi n v‖ := by
  set A := Metric.sphere (0 : Fin n → 𝕜) 1 ∩ {v : Fin n → 𝕜 | ∃ S : Finset (Fin n), S.card ≤ K ∧ ∀ i, i ∉ S → v i = 0}
  have hA : IsCompact A := (isCompact_sphere _ _).inter_right (sparse_closed n K)
  have key : ∀ m : ℝ, (∀ v ∈ A, m ≤ ‖synthF phi n v‖) → ∀ (v : Fin n → 𝕜) (S : Finset (Fin n)), S.card ≤ K → (∀ i, i ∉ S → v i = 0) → m * ‖v‖ ≤ ‖synthF phi n v‖ := by
    intro m hm v S hS hv
    by_cases h0 : v = 0
    · subst h0; simp
    have hn : 0 < ‖v‖ := norm_pos_iff.mpr h0
    have hmem : ((‖v‖⁻¹ : ℝ) : 𝕜) • v ∈ A := by
      refine ⟨by simp [norm_smul, hn.ne'], S, hS, fun i hi => by simp [hv i hi]⟩
    have := hm _ hmem
    rw [synthF_smul, norm_smul, RCLike.norm_ofReal, abs_of_pos (inv_pos.mpr hn), inv_mul_eq_div, le_div_iff₀ hn] at this
    exact this
  by_cases hne : A.Nonempty
  · obtain ⟨v, hv, hmin⟩ := hA.exists_isMinOn hne (synthF_continuous phi n).norm.continuousOn
    obtain ⟨hv1, S, hS, hvS⟩ := hv
    refine ⟨‖synthF phi n v‖, norm_pos_iff.mpr fun h0 => ?_, key _ fun w hw => hmin hw⟩
    have := spark_fin phi n K h v S hS hvS h0
    rw [this] at hv1
    simp at hv1
  · exact ⟨1, one_pos, key 1 fun v hv => absurd ⟨v, hv⟩ hne⟩

/-- The candidates for limits: least squares solutions on a support of at most `K` atoms. -/
def lsPoints (phi : ℕ → E) (n K : ℕ) (y : E) : Set (Fin n → 𝕜) :=
  {v | ∃ S : Finset (Fin n), S.card ≤ K ∧ (∀ i, i ∉ S → v i = 0) ∧ ∀ i ∈ S, inner 𝕜 (phi i) (y - synthF phi n v) = 0}

theorem lsPoints_finite (phi : ℕ → E) (n K : ℕ) (h : SparkGt 𝕜 phi n K) (y : E) : (lsPoints (𝕜 := 𝕜) phi n K y).Finite := by
  have : lsPoints (𝕜 := 𝕜) phi n K y ⊆ ⋃ S : {S : Finset (Fin n) // S.card ≤ K},
      {v | (∀ i, i ∉ S.1 → v i = 0) ∧ ∀ i ∈ S.1, inner 𝕜 (phi i) (y - synthF phi n v) = 0} := by
    rintro v ⟨S, hS, h1, h2⟩
    exact Set.mem_iUnion.mpr ⟨⟨S, hS⟩, h1, h2⟩
  refine (Set.finite_iUnion fun S => Set.Subsingleton.finite ?_).subset this
  rintro u ⟨hu1, hu2⟩ v ⟨hv1, hv2⟩
  have hz : ∀ i, i ∉ S.1 → (u - v) i = 0 := fun i hi => by simp [hu1 i hi, hv1 i hi]
  have h0 : synthF phi n (u - v) = 0 := by
    rw [← inner_self_eq_zero (𝕜 := 𝕜)]
    conv_lhs => rw [synthF]
    rw [sum_inner]
    refine Finset.sum_eq_zero fun i _ => ?_
    rw [inner_smul_left]
    by_cases hi : i ∈ S.1
    · have e : synthF phi n (u - v) = (y - synthF phi n v) - (y - synthF phi n u) := by rw [synthF_sub]; abel
      rw [← synthF, e, inner_sub_right, hv2 i hi, hu2 i hi, sub_zero, mul_zero]
    · rw [hz i hi]; simp
  exact sub_eq_zero.mp (spark_fin phi n K h _ S.1 S.2 hz h0)

theorem norm_le_sqrt_sum (n : ℕ) (v : Fin n → 𝕜) : ‖v‖ ≤ Real.sqrt (∑ i : Fin n, ‖v i‖ ^ 2) := by
  refine (pi_norm_le_iff_of_nonneg (Real.sqrt_nonneg _)).mpr fun i => ?_
  refine Real.le_sqrt_of_sq_le ?_
  exact Finset.single_le_sum (f := fun i => ‖v i‖ ^ 2) (fun i _ => by positivity) (Finset.mem_univ i)

/-- **C147** if any `K` atoms are linearly independent, the signals of IHT converge entry by entry, whatever the data, and the limit is a best `K`-term approximation of its own gradient step. -/
theorem c147_iht_converges (phi : ℕ → E) (n : ℕ) (mu ρ : ℝ) (hmu : 0 < mu) (hρ : ρ < 1) (hb : ∀ z : ℕ → 𝕜, mu * ‖synth phi n z‖ ^ 2 ≤ ρ * ∑ i ∈ Finset.range n, ‖z i‖ ^ 2)
    (y : E) (K : ℕ) (hK : K ≤ n) (hsp : SparkGt 𝕜 phi n K) :
    ∃ x : ℕ → 𝕜, HardFixed phi n mu y K x ∧ (∀ i, Tendsto (fun k => ihtSig phi n mu y K k i) atTop (𝓝 (x i))) ∧
      Tendsto (fun k => ‖(ihtSeq (𝕜 := 𝕜) phi n mu y K k).r‖) atTop (𝓝 ‖y - synth phi n x‖) := by
  classical
  set X : ℕ → ℕ → 𝕜 := ihtSig phi n mu y K with hX
  set u : ℕ → Fin n → 𝕜 := fun k i => X k i with hu
  have hstate := fun k => c50_iht_state phi n mu y K hK _ _ (ihtSeq_reach (𝕜 := 𝕜) phi n mu y K k)
  have hsyn : ∀ k, synthF phi n (u k) = synth phi n (X k) := fun k => synthF_eq phi n (X k)
  have hres : ∀ k, (ihtSeq (𝕜 := 𝕜) phi n mu y K k).r = y - synthF phi n (u k) := fun k => by rw [hsyn]; exact (hstate k).2.2.1
  -- the supports
  set S : ℕ → Finset (Fin n) := fun k => Finset.univ.filter fun i => (i : ℕ) ∈ (ihtSeq (𝕜 := 𝕜) phi n mu y K k).I with hSdef
  have hScard : ∀ k, (S k).card ≤ K := by
    intro k
    have : ((S k).map Fin.valEmbedding) ⊆ (ihtSeq (𝕜 := 𝕜) phi n mu y K k).I.toFinset := by
      intro i hi
      simp only [hSdef, Finset.mem_map, Finset.mem_filter, Finset.mem_univ, true_and, Fin.valEmbedding_apply] at hi
      obtain ⟨a, ha, rfl⟩ := hi
      simpa using ha
    have h2 := Finset.card_le_card this
    rw [Finset.card_map, List.toFinset_card_of_nodup (hstate k).2.1, (hstate k).1.size] at h2
    exact h2
  have hSz : ∀ k i, i ∉ S k → u k i = 0 := by
    intro k i hi
    exact (hstate k).2.2.2 i fun hm => hi (by simp [hSdef, hm])
  -- the steps vanish
  have hstep : Tendsto (fun k => dist (u (k + 1)) (u k)) atTop (𝓝 0) := by
    have h0 := iht_step_tendsto (𝕜 := 𝕜) phi n mu ρ hmu hρ hb y K hK
    have h1 := (Real.continuous_sqrt.tendsto 0).comp h0
    rw [Real.sqrt_zero] at h1
    refine squeeze_zero (fun k => dist_nonneg) (fun k => ?_) h1
    rw [dist_eq_norm]
    refine (norm_le_sqrt_sum n _).trans (le_of_eq ?_)
    show _ = Real.sqrt (∑ i ∈ Finset.range n, ‖ihtSig (𝕜 := 𝕜) phi n mu y K (k + 1) i - ihtSig phi n mu y K k i‖ ^ 2)
    rw [Finset.sum_range]; rfl
  -- bounded
  obtain ⟨m, hm, hlow⟩ := sparse_lower phi n K hsp
  have hbdd : Bornology.IsBounded (Set.range u) := by
    refine (Metric.isBounded_closedBall (x := (0 : Fin n → 𝕜)) (r := 2 * ‖y‖ / m)).subset ?_
    rintro _ ⟨k, rfl⟩
    rw [mem_closedBall_zero_iff, le_div_iff₀ hm]
    have h1 := hlow (u k) (S k) (hScard k) (hSz k)
    have h2 := iht_residual_le (𝕜 := 𝕜) phi n mu ρ hmu hρ hb y K hK k
    rw [hres] at h2
    have h3 : ‖synthF phi n (u k)‖ ≤ ‖y‖ + ‖y - synthF phi n (u k)‖ := by
      have : synthF phi n (u k) = y - (y - synthF phi n (u k)) := by abel
      rw [this]
      simpa using norm_sub_le y (y - synthF phi n (u k))
    linarith
  have hgrad : ∀ k, ∀ i ∈ S (k + 1), u (k + 1) i - u k i = (mu : 𝕜) * inner 𝕜 (phi i) (y - synthF phi n (u k)) := by
    intro k i hi
    have hi' : (i : ℕ) ∈ (ihtSeq (𝕜 := 𝕜) phi n mu y K (k + 1)).I := by simpa [hSdef] using hi
    have := (c147_iht_step phi n mu y K (ihtSeq (𝕜 := 𝕜) phi n mu y K k)).1
    rw [← ihtSeq_succ] at this
    rw [← hres]
    exact (this i hi').2
  -- limit points
  have hcl : ∀ l, Cvx.ClusterSeq u l → l ∈ lsPoints phi n K y := by
    rintro l ⟨φ, hφ, hlim⟩
    obtain ⟨T, hT⟩ := Finite.exists_infinite_fiber (fun k => S (φ k + 1))
    have hfr : ∃ᶠ k in atTop, S (φ k + 1) = T := by
      rw [Nat.frequently_atTop_iff_infinite]
      exact Set.infinite_coe_iff.mp hT
    obtain ⟨ψ, hψ, hψT⟩ := extraction_of_frequently_atTop hfr
    have l1 : Tendsto (fun k => u (φ (ψ k))) atTop (𝓝 l) := hlim.comp hψ.tendsto_atTop
    have l0 : Tendsto (fun k => dist (u (φ (ψ k) + 1)) (u (φ (ψ k)))) atTop (𝓝 0) := hstep.comp (hφ.comp hψ).tendsto_atTop
    have l2 : Tendsto (fun k => u (φ (ψ k) + 1)) atTop (𝓝 l) := by
      rw [tendsto_iff_dist_tendsto_zero]
      have := l0.add (tendsto_iff_dist_tendsto_zero.mp l1)
      rw [add_zero] at this
      exact squeeze_zero (fun k => dist_nonneg) (fun k => dist_triangle _ _ _) this
    refine ⟨T, hψT 0 ▸ hScard _, fun i hi => ?_, fun i hi => ?_⟩
    · refine tendsto_nhds_unique (((continuous_apply i).tendsto l).comp l2) ?_
      refine tendsto_const_nhds.congr fun k => ?_
      exact (hSz _ i (by rw [hψT k]; exact hi)).symm
    · have c1 : Continuous fun v : Fin n → 𝕜 => (mu : 𝕜) * inner 𝕜 (phi i) (y - synthF phi n v) :=
        continuous_const.mul (continuous_const.inner (continuous_const.sub (synthF_continuous phi n)))
      have t1 : Tendsto (fun k => (mu : 𝕜) * inner 𝕜 (phi i) (y - synthF phi n (u (φ (ψ k))))) atTop (𝓝 ((mu : 𝕜) * inner 𝕜 (phi i) (y - synthF phi n l))) :=
        (c1.tendsto l).comp l1
      have t2 : Tendsto (fun k => u (φ (ψ k) + 1) i - u (φ (ψ k)) i) atTop (𝓝 (l i - l i)) :=
        (((continuous_apply i).tendsto l).comp l2).sub (((continuous_apply i).tendsto l).comp l1)
      have e := tendsto_nhds_unique t1 (t2.congr fun k => hgrad _ i (by rw [hψT k]; exact hi))
      rw [sub_self, mul_eq_zero] at e
      exact e.resolve_left (by exact_mod_cast hmu.ne')
  obtain ⟨l, hl, hlim⟩ := Cvx.converge_finite hbdd hstep _ (lsPoints_finite phi n K hsp y) hcl
  let x : ℕ → 𝕜 := fun i => if hi : i < n then l ⟨i, hi⟩ else 0
  have hx : (fun i : Fin n => x i) = l := by funext i; simp [x]
  have hxs : synth phi n x = synthF phi n l := by rw [← synthF_eq, hx]
  have hxlim : ∀ i, Tendsto (fun k => X k i) atTop (𝓝 (x i)) := by
    intro i
    by_cases hi : i < n
    · have := ((continuous_apply (⟨i, hi⟩ : Fin n)).tendsto l).comp hlim
      simp only [x, hi, dif_pos]
      exact this
    · simp only [x, hi, dif_neg, not_false_eq_true]
      refine tendsto_const_nhds.congr fun k => ?_
      exact ((hstate k).2.2.2 i fun hm => hi ((hstate k).1.range i hm)).symm
  have hrlim : Tendsto (fun k => y - synthF phi n (u k)) atTop (𝓝 (y - synth phi n x)) := by
    rw [hxs]
    exact tendsto_const_nhds.sub (((synthF_continuous phi n).tendsto l).comp hlim)
  refine ⟨x, ⟨?_, fun z hz => ?_⟩, hxlim, ?_⟩
  · obtain ⟨T, hT, hT2, -⟩ := hcl l hl
    refine ⟨T.map Fin.valEmbedding, ?_, by rwa [Finset.card_map], ?_⟩
    · intro i hi
      simp only [Finset.mem_map, Fin.valEmbedding_apply] at hi
      obtain ⟨a, -, rfl⟩ := hi
      simp
    · intro i hi
      by_cases hin : i < n
      · simp only [x, hin, dif_pos]
        refine hT2 _ fun hm => hi ?_
        simp only [Finset.mem_map, Fin.valEmbedding_apply]
        exact ⟨_, hm, rfl⟩
      · simp [x, hin]
  · obtain ⟨Z, hZn, hZ, hZ0⟩ := hz
    have hineq : ∀ k, ∑ i ∈ Finset.range n, ‖X k i + (mu : 𝕜) * inner 𝕜 (phi i) (y - synthF phi n (u k)) - X (k + 1) i‖ ^ 2 ≤
        ∑ i ∈ Finset.range n, ‖X k i + (mu : 𝕜) * inner 𝕜 (phi i) (y - synthF phi n (u k)) - z i‖ ^ 2 := by
      intro k
      set s := ihtSeq (𝕜 := 𝕜) phi n mu y K k with hs
      have hb := c51_best_K_term (gradStep n s.I s.x mu (corr 𝕜 phi n s.r)) K z Z hZ fun i _ hi => hZ0 i hi
      rw [gradStep_length] at hb
      refine le_of_eq_of_le ?_ (hb.trans (le_of_eq ?_))
      · refine Finset.sum_congr rfl fun i hi => ?_
        have hi' := Finset.mem_range.mp hi
        have e1 : X (k + 1) i = if i ∈ largestIndices (gradStep n s.I s.x mu (corr 𝕜 phi n s.r)) K then (gradStep n s.I s.x mu (corr 𝕜 phi n s.r)).getD i 0 else 0 := by
          rw [hX, ihtSig, ihtSeq_succ]
          exact ihtBody_signal phi n mu y K s i
        rw [e1]
        generalize (if i ∈ largestIndices (gradStep n s.I s.x mu (corr 𝕜 phi n s.r)) K then (gradStep n s.I s.x mu (corr 𝕜 phi n s.r)).getD i 0 else 0) = q
        rw [gradStep_getD n _ _ _ _ hi', corr_getD' _ _ _ hi', hs, hres]; rfl
      · refine Finset.sum_congr rfl fun i hi => ?_
        have hi' := Finset.mem_range.mp hi
        rw [gradStep_getD n _ _ _ _ hi', corr_getD' _ _ _ hi', hs, hres]; rfl
    have hterm : ∀ i, Tendsto (fun k => X k i + (mu : 𝕜) * inner 𝕜 (phi i) (y - synthF phi n (u k))) atTop (𝓝 (x i + (mu : 𝕜) * inner 𝕜 (phi i) (y - synth phi n x))) :=
      fun i => (hxlim i).add (tendsto_const_nhds.mul (tendsto_const_nhds.inner hrlim))
    have t1 := tendsto_finset_sum (Finset.range n) fun i _ => ((((hterm i).sub ((hxlim i).comp (tendsto_add_atTop_nat 1))).norm).pow 2)
    have t2 := tendsto_finset_sum (Finset.range n) fun i _ => ((((hterm i).sub (tendsto_const_nhds (x := z i))).norm).pow 2)
    have := le_of_tendsto_of_tendsto' t1 t2 hineq
    simpa only [add_sub_cancel_left] using this
  · exact hrlim.norm.congr fun k => by rw [← hres]

/-- **C147** what a limit satisfies: the residual is orthogonal to the atoms in use; no unused atom has a correlation above the smallest coefficient divided by `mu`; if fewer than `K` atoms are in use,
the residual is orthogonal to all atoms, so the fit is the best possible with the whole dictionary. -/
theorem c147_fixed_optimality (phi : ℕ → E) (n : ℕ) (mu : ℝ) (hmu : 0 < mu) (y : E) (K : ℕ) (x : ℕ → 𝕜) (h : HardFixed phi n mu y K x) :
    (∀ i, x i ≠ 0 → inner 𝕜 (phi i) (y - synth phi n x) = 0) ∧
    (∀ i j, j < n → x i ≠ 0 → x j = 0 → mu * ‖inner 𝕜 (phi j) (y - synth phi n x)‖ ≤ ‖x i‖) ∧
    (((Finset.range n).filter fun i => x i ≠ 0).card < K → (∀ j, j < n → inner 𝕜 (phi j) (y - synth phi n x) = 0) ∧ ∀ z : ℕ → 𝕜, ‖y - synth phi n x‖ ≤ ‖y - synth phi n z‖) := by
  classical
  obtain ⟨⟨S, hSn, hS, hS0⟩, hbest⟩ := h
  set c : ℕ → 𝕜 := fun i => (mu : 𝕜) * inner 𝕜 (phi i) (y - synth phi n x) with hc
  have hmem : ∀ i, x i ≠ 0 → i ∈ S := fun i hi => by by_contra hn; exact hi (hS0 i hn)
  have hmu' : (mu : 𝕜) ≠ 0 := by exact_mod_cast hmu.ne'
  have hcz : ∀ i, c i = 0 → inner 𝕜 (phi i) (y - synth phi n x) = 0 := fun i hi => (mul_eq_zero.mp hi).resolve_left hmu'
  -- replacing the entry `i` by that of the gradient step
  have hrep : ∀ i, i < n → SparseOn n K (Function.update x i (x i + c i)) → c i = 0 := by
    intro i hi hsp
    have hb := hbest _ hsp
    rw [← Finset.add_sum_erase _ _ (Finset.mem_range.mpr hi), ← Finset.add_sum_erase _ (fun j => ‖x j + c j - Function.update x i (x i + c i) j‖ ^ 2) (Finset.mem_range.mpr hi)] at hb
    have e : ∑ j ∈ (Finset.range n).erase i, ‖x j + c j - Function.update x i (x i + c i) j‖ ^ 2 = ∑ j ∈ (Finset.range n).erase i, ‖c j‖ ^ 2 := by
      refine Finset.sum_congr rfl fun j hj => ?_
      rw [Function.update_of_ne (Finset.ne_of_mem_erase hj), add_sub_cancel_left]
    rw [e, Function.update_self, sub_self, norm_zero] at hb
    have : ‖c i‖ ^ 2 ≤ 0 := by
      have h2 : ‖c i‖ ^ 2 + ∑ j ∈ (Finset.range n).erase i, ‖c j‖ ^ 2 ≤ 0 ^ 2 + ∑ j ∈ (Finset.range n).erase i, ‖c j‖ ^ 2 := hb
      linarith
    have h3 : ‖c i‖ = 0 := by nlinarith [norm_nonneg (c i)]
    exact norm_eq_zero.mp h3
  have h1 : ∀ i, x i ≠ 0 → c i = 0 := by
    intro i hi
    refine hrep i (Finset.mem_range.mp (hSn (hmem i hi))) ⟨S, hSn, hS, fun j hj => ?_⟩
    rw [Function.update_of_ne (fun e : j = i => hj (by rw [e]; exact hmem i hi)), hS0 j hj]
  refine ⟨fun i hi => hcz i (h1 i hi), fun i j hj hi hj0 => ?_, fun hcard => ?_⟩
  · have hij : i ≠ j := fun e => hi (e ▸ hj0)
    have hin := Finset.mem_range.mp (hSn (hmem i hi))
    set z := Function.update (Function.update x i 0) j (c j) with hz
    have hsp : SparseOn n K z := by
      refine ⟨insert j (((Finset.range n).filter fun k => x k ≠ 0).erase i), ?_, ?_, fun k hk => ?_⟩
      · intro k hk
        rcases Finset.mem_insert.mp hk with rfl | hk
        · exact Finset.mem_range.mpr hj
        · exact (Finset.mem_filter.mp (Finset.mem_of_mem_erase hk)).1
      · have hle : ((Finset.range n).filter fun k => x k ≠ 0).card ≤ K :=
          (Finset.card_le_card fun k hk => hmem k (Finset.mem_filter.mp hk).2).trans hS
        have himem : i ∈ (Finset.range n).filter fun k => x k ≠ 0 := Finset.mem_filter.mpr ⟨Finset.mem_range.mpr hin, hi⟩
        have := Finset.card_insert_le j (((Finset.range n).filter fun k => x k ≠ 0).erase i)
        rw [Finset.card_erase_of_mem himem] at this
        have : 0 < ((Finset.range n).filter fun k => x k ≠ 0).card := Finset.card_pos.mpr ⟨i, himem⟩
        omega
      · simp only [Finset.mem_insert, Finset.mem_erase, Finset.mem_filter, Finset.mem_range, not_or, not_and] at hk
        rw [hz, Function.update_of_ne hk.1]
        by_cases hki : k = i
        · subst hki; simp
        · rw [Function.update_of_ne hki]
          by_contra hne
          exact hk.2 hki (Finset.mem_range.mp (hSn (hmem k hne))) hne
    have hb := hbest z hsp
    have hi2 : i ∈ (Finset.range n).erase j := Finset.mem_erase.mpr ⟨hij, Finset.mem_range.mpr hin⟩
    rw [← Finset.add_sum_erase _ _ (Finset.mem_range.mpr hj), ← Finset.add_sum_erase _ (fun j => ‖x j + c j - z j‖ ^ 2) (Finset.mem_range.mpr hj),
      ← Finset.add_sum_erase _ _ hi2, ← Finset.add_sum_erase _ (fun j => ‖x j + c j - z j‖ ^ 2) hi2] at hb
    have e : ∑ k ∈ ((Finset.range n).erase j).erase i, ‖x k + c k - z k‖ ^ 2 = ∑ k ∈ ((Finset.range n).erase j).erase i, ‖c k‖ ^ 2 := by
      refine Finset.sum_congr rfl fun k hk => ?_
      rw [hz, Function.update_of_ne (Finset.ne_of_mem_erase (Finset.mem_of_mem_erase hk)), Function.update_of_ne (Finset.ne_of_mem_erase hk), add_sub_cancel_left]
    have ej : ‖x j + c j - z j‖ ^ 2 = 0 := by rw [hz, Function.update_self, hj0]; simp
    have ei : ‖x i + c i - z i‖ ^ 2 = ‖x i‖ ^ 2 := by rw [hz, Function.update_of_ne hij, Function.update_self, h1 i hi]; simp
    rw [e, ej, ei] at hb
    have h2 : ‖c j‖ ^ 2 + (‖c i‖ ^ 2 + ∑ k ∈ ((Finset.range n).erase j).erase i, ‖c k‖ ^ 2) ≤ 0 + (‖x i‖ ^ 2 + ∑ k ∈ ((Finset.range n).erase j).erase i, ‖c k‖ ^ 2) := hb
    rw [h1 i hi, norm_zero] at h2
    have h3 : ‖c j‖ ^ 2 ≤ ‖x i‖ ^ 2 := by linarith
    have h4 := (pow_le_pow_iff_left₀ (norm_nonneg _) (norm_nonneg _) two_ne_zero).mp h3
    rwa [hc, norm_mul, RCLike.norm_ofReal, abs_of_pos hmu] at h4
  · have hall : ∀ j, j < n → inner 𝕜 (phi j) (y - synth phi n x) = 0 := by
      intro j hj
      refine hcz j (hrep j hj ⟨insert j ((Finset.range n).filter fun k => x k ≠ 0), ?_, ?_, fun k hk => ?_⟩)
      · intro k hk
        rcases Finset.mem_insert.mp hk with rfl | hk
        · exact Finset.mem_range.mpr hj
        · exact (Finset.mem_filter.mp hk).1
      · exact (Finset.card_insert_le _ _).trans hcard
      · simp only [Finset.mem_insert, Finset.mem_filter, Finset.mem_range, not_or, not_and] at hk
        rw [Function.update_of_ne hk.1]
        by_contra hne
        exact hk.2 (Finset.mem_range.mp (hSn (hmem k hne))) hne
    refine ⟨hall, fun z => ?_⟩
    have e : y - synth phi n z = (y - synth phi n x) - synth phi n (fun i => z i - x i) := by rw [synth_sub]; abel
    refine (pow_le_pow_iff_left₀ (norm_nonneg _) (norm_nonneg _) two_ne_zero).mp ?_
    have h0 : inner 𝕜 (y - synth phi n x) (synth phi n (fun i => z i - x i)) = 0 := by
      conv_lhs => arg 3; rw [synth]
      rw [_root_.inner_sum]
      refine Finset.sum_eq_zero fun i hi => ?_
      rw [inner_smul_right, ← inner_conj_symm, hall i (Finset.mem_range.mp hi)]; simp
    rw [e, @norm_sub_sq 𝕜 _ _ _ _ (y - synth phi n x) (synth phi n fun i => z i - x i), h0]
    simp

/-! ## HTP -/

theorem lin_mid (phi : ℕ → E) : ∀ (I : List ℕ) (x z : List 𝕜), x.length = I.length → z.length = I.length →
    lin phi I (List.zipWith (fun a b => (a + b) / 2) x z) = (2⁻¹ : 𝕜) • (lin phi I x + lin phi I z)
  | [], [], [], _, _ => by simp [lin]
  | i :: I, a :: x, b :: z, h1, h2 => by
    simp only [List.length_cons, Nat.add_right_cancel_iff] at h1 h2
    simp only [List.zipWith_cons_cons, lin, lin_mid phi I x z h1 h2]
    have e : (a + b) / 2 = (2⁻¹ : 𝕜) * a + (2⁻¹ : 𝕜) * b := by ring
    rw [e, add_smul, mul_smul, mul_smul]
    simp only [smul_add]
    abel

theorem mid_norm : ∀ (x z : List 𝕜), x.length = z.length → ((List.zipWith (fun a b => (a + b) / 2) x z).map fun c => ‖c‖ ^ 2).sum + 4⁻¹ * (List.zipWith (fun a b => ‖a - b‖ ^ 2) x z).sum =
    2⁻¹ * ((x.map fun c => ‖c‖ ^ 2).sum + (z.map fun c => ‖c‖ ^ 2).sum)
  | [], [], _ => by simp
  | a :: x, b :: z, h => by
    simp only [List.length_cons, Nat.add_right_cancel_iff] at h
    have ih := mid_norm x z h
    simp only [List.zipWith_cons_cons, List.map_cons, List.sum_cons]
    have e1 : ‖(a + b) / 2‖ ^ 2 = ‖a + b‖ ^ 2 / 4 := by rw [norm_div, div_pow]; simp; norm_num
    have e2 := parallelogram_law_with_norm 𝕜 a b
    rw [e1]
    nlinarith

theorem zip_sq_zero : ∀ (x z : List 𝕜), x.length = z.length → (List.zipWith (fun a b => ‖a - b‖ ^ 2) x z).sum ≤ 0 → x = z
  | [], [], _, _ => rfl
  | a :: x, b :: z, h, h0 => by
    simp only [List.length_cons, Nat.add_right_cancel_iff] at h
    simp only [List.zipWith_cons_cons, List.sum_cons] at h0
    have hnn : 0 ≤ (List.zipWith (fun a b => ‖a - b‖ ^ 2) x z).sum := by
      refine List.sum_nonneg fun c hc => ?_
      obtain ⟨k, hk, rfl⟩ := List.mem_iff_getElem.mp hc
      rw [List.getElem_zipWith]; positivity
    have h1 : ‖a - b‖ = 0 := by nlinarith [sq_nonneg ‖a - b‖]
    rw [sub_eq_zero.mp (norm_eq_zero.mp h1), zip_sq_zero x z h (by nlinarith [sq_nonneg ‖a - b‖])]

/-- The least squares solution of smallest norm is unique. -/
theorem lstsq_unique (phi : ℕ → E) (I : List ℕ) (y : E) (x z : List 𝕜) (hx : IsLstsq phi I y x) (hz : z.length = I.length)
    (hn : ∀ i ∈ I, inner 𝕜 (phi i) (y - lin phi I z) = 0) (hle : (z.map fun c => ‖c‖ ^ 2).sum ≤ (x.map fun c => ‖c‖ ^ 2).sum) : x = z := by
  have hlen : x.length = z.length := hx.length.trans hz.symm
  have hm := hx.minNorm (List.zipWith (fun a b => (a + b) / 2) x z) (by simp [hx.length, hz]) fun i hi => by
    rw [lin_mid phi I x z hx.length hz]
    have e : y - (2⁻¹ : 𝕜) • (lin phi I x + lin phi I z) = (2⁻¹ : 𝕜) • (y - lin phi I x) + (2⁻¹ : 𝕜) • (y - lin phi I z) := by
      have : y = (2⁻¹ : 𝕜) • y + (2⁻¹ : 𝕜) • y := by rw [← add_smul]; norm_num
      simp only [smul_sub, smul_add]
      nth_rewrite 1 [this]
      abel
    rw [e, inner_add_right, inner_smul_right, inner_smul_right, hx.normal i hi, hn i hi]
    simp
  have e := mid_norm x z hlen
  exact zip_sq_zero x z hlen (by linarith)

/-- The states of HTP without a stopping rule (the loop of pursuit/htp.py:82-126). -/
def htpSeq (phi : ℕ → E) (n : ℕ) (mu : ℝ) (lstsq : List ℕ → E → List 𝕜) (y : E) (K k : ℕ) : GState 𝕜 E := (htpBody phi n mu lstsq y K)^[k] (ihtInit phi n mu y K)

theorem htpSeq_reach (phi : ℕ → E) (n : ℕ) (mu : ℝ) (lstsq : List ℕ → E → List 𝕜) (y : E) (K k : ℕ) :
    Reach (fun _ : GState 𝕜 E => True) (htpBody phi n mu lstsq y K) (ihtInit phi n mu y K) (htpSeq phi n mu lstsq y K k) :=
  reach_of_iterate fun _ _ => trivial

theorem htpSeq_succ (phi : ℕ → E) (n : ℕ) (mu : ℝ) (lstsq : List ℕ → E → List 𝕜) (y : E) (K k : ℕ) :
    htpSeq phi n mu lstsq y K (k + 1) = htpBody phi n mu lstsq y K (htpSeq phi n mu lstsq y K k) :=
  Function.iterate_succ_apply' _ _ _

theorem htpSeq_iters (phi : ℕ → E) (n : ℕ) (mu : ℝ) (lstsq : List ℕ → E → List 𝕜) (y : E) (K k : ℕ) : (htpSeq phi n mu lstsq y K k).iters = k + 1 := by
  induction k with
  | zero => rfl
  | succ k ih => rw [htpSeq_succ]; show _ + 1 = _; rw [ih]

/-- The thresholded gradient step HTP takes the support of. -/
theorem htp_support (phi : ℕ → E) (n : ℕ) (mu : ℝ) (lstsq : List ℕ → E → List 𝕜) (y : E) (K : ℕ) (s : GState 𝕜 E) :
    (htpBody phi n mu lstsq y K s).I.Perm (largestIndices (gradStep n s.I s.x mu (corr 𝕜 phi n s.r)) K) ∧ (htpBody phi n mu lstsq y K s).I.Pairwise (· < ·) ∧
    (∀ i ∈ (htpBody phi n mu lstsq y K s).I, i < n) := by
  have h := c51_hard_threshold_sorted (gradStep n s.I s.x mu (corr 𝕜 phi n s.r)) K
  refine ⟨h.1, h.2.1, fun i hi => ?_⟩
  have := (c51_largest_indices (gradStep n s.I s.x mu (corr 𝕜 phi n s.r)) K).2.2.1 i (h.1.mem_iff.mp hi)
  rwa [gradStep_length] at this

/-- **C147** one iteration of HTP lowers the squared residual norm by at least `(1-ρ)/mu` times the squared length of the thresholded gradient step it starts with. -/
theorem c147_htp_descent (phi : ℕ → E) (n : ℕ) (mu ρ : ℝ) (hmu : 0 < mu) (hb : ∀ z : ℕ → 𝕜, mu * ‖synth phi n z‖ ^ 2 ≤ ρ * ∑ i ∈ Finset.range n, ‖z i‖ ^ 2)
    (lstsq : List ℕ → E → List 𝕜) (y : E) (K : ℕ) (hl : ∀ I, IsLstsq phi I y (lstsq I y)) (hK : K ≤ n)
    (c : GState 𝕜 E → Prop) (s : GState 𝕜 E) (h : Reach c (htpBody phi n mu lstsq y K) (ihtInit phi n mu y K) s) :
    ‖(htpBody phi n mu lstsq y K s).r‖ ^ 2 + (1 - ρ) / mu * ∑ i ∈ Finset.range n,
      ‖(if i ∈ (htpBody phi n mu lstsq y K s).I then buildSignal s.I s.x i + (mu : 𝕜) * inner 𝕜 (phi i) s.r else 0) - buildSignal s.I s.x i‖ ^ 2 ≤ ‖s.r‖ ^ 2 := by
  obtain ⟨hg, hn, -, -⟩ := c49_htp_state phi n mu lstsq y K hl hK c s h
  have hr : s.r = y - synth phi n (buildSignal s.I s.x) := by rw [hg.residual, lin_eq_synth phi n s.I s.x hn hg.range hg.coeff]
  have hk := grad_key phi n mu K s.I s.x hn hg.size.le s.r
  have hd := grad_descent phi n mu ρ hmu hb s.r _ hk
  set g := gradStep n s.I s.x mu (corr 𝕜 phi n s.r) with hgd
  obtain ⟨hp, -, hrange⟩ := htp_support phi n mu lstsq y K s
  rw [← hgd] at hp
  have hnd : (htpBody phi n mu lstsq y K s).I.Nodup := hp.nodup_iff.mpr (c51_largest_indices g K).1
  have hle : ‖(htpBody phi n mu lstsq y K s).r‖ ≤ ‖y - synth phi n (fun i => if i ∈ largestIndices g K then g.getD i 0 else 0)‖ := by
    have h1 := least_of_orth phi y (htpBody phi n mu lstsq y K s).I (lstsq (htpBody phi n mu lstsq y K s).I y) (gather 0 g (htpBody phi n mu lstsq y K s).I) (hl _).normal
    rw [lin_eq_synth phi n (htpBody phi n mu lstsq y K s).I (gather 0 g (htpBody phi n mu lstsq y K s).I) hnd hrange (gather_length _ _ _)] at h1
    have e : (buildSignal (htpBody phi n mu lstsq y K s).I (gather 0 g (htpBody phi n mu lstsq y K s).I)) = fun i => if i ∈ largestIndices g K then g.getD i 0 else 0 := by
      funext i
      rw [buildSignal_gather]
      by_cases hi : i ∈ largestIndices g K
      · rw [if_pos hi, if_pos (hp.mem_iff.mpr hi)]
      · rw [if_neg hi, if_neg fun hh => hi (hp.mem_iff.mp hh)]
    rw [e] at h1
    exact h1
  have e2 : s.r - synth phi n (fun i => (if i ∈ largestIndices g K then g.getD i 0 else 0) - buildSignal s.I s.x i) = y - synth phi n (fun i => if i ∈ largestIndices g K then g.getD i 0 else 0) := by
    rw [synth_sub]
    generalize synth phi n (fun i => if i ∈ largestIndices g K then g.getD i 0 else 0) = A
    rw [hr]; abel
  have e3 : ∑ i ∈ Finset.range n, ‖(if i ∈ (htpBody phi n mu lstsq y K s).I then buildSignal s.I s.x i + (mu : 𝕜) * inner 𝕜 (phi i) s.r else 0) - buildSignal s.I s.x i‖ ^ 2 =
      ∑ i ∈ Finset.range n, ‖(if i ∈ largestIndices g K then g.getD i 0 else 0) - buildSignal s.I s.x i‖ ^ 2 := by
    refine Finset.sum_congr rfl fun i hi => ?_
    have hi' := Finset.mem_range.mp hi
    by_cases him : i ∈ largestIndices g K
    · rw [if_pos him, if_pos (hp.mem_iff.mpr him), hgd, gradStep_getD n _ _ _ _ hi', corr_getD' _ _ _ hi']
    · rw [if_neg him, if_neg fun hh => him (hp.mem_iff.mp hh)]
  rw [e3]
  have h5 : ‖y - synth phi n (fun i => if i ∈ largestIndices g K then g.getD i 0 else 0)‖ ^ 2 + (1 - ρ) / mu *
      ∑ i ∈ Finset.range n, ‖(if i ∈ largestIndices g K then g.getD i 0 else 0) - buildSignal s.I s.x i‖ ^ 2 ≤ ‖s.r‖ ^ 2 := by
    rw [← e2]; exact hd
  exact le_trans (add_le_add (pow_le_pow_left₀ (norm_nonneg _) hle 2) le_rfl) h5

theorem sum_sq_signal (n : ℕ) : ∀ (I : List ℕ) (x : List 𝕜), I.Nodup → (∀ i ∈ I, i < n) → x.length = I.length →
    (x.map fun c => ‖c‖ ^ 2).sum = ∑ i ∈ Finset.range n, ‖buildSignal I x i‖ ^ 2
  | [], [], _, _, _ => by simp [buildSignal]
  | i :: I, c :: x, hn, hr, hl => by
    rw [List.nodup_cons] at hn
    simp only [List.length_cons, Nat.add_right_cancel_iff] at hl
    have ih := sum_sq_signal n I x hn.2 (fun j hj => hr j (List.mem_cons_of_mem _ hj)) hl
    have hi : i ∈ Finset.range n := Finset.mem_range.mpr (hr i List.mem_cons_self)
    simp only [List.map_cons, List.sum_cons, ih]
    rw [← Finset.add_sum_erase _ _ hi, ← Finset.add_sum_erase _ (fun j => ‖buildSignal (i :: I) (c :: x) j‖ ^ 2) hi]
    have e1 : buildSignal (i :: I) (c :: x) i = c := by
      have : i ∉ I.take x.length := fun h => hn.1 (List.mem_of_mem_take h)
      simp [buildSignal, this]
    have e2 : buildSignal I x i = 0 := buildSignal_not_mem I x i hn.1
    rw [e1, e2, norm_zero, zero_pow two_ne_zero, zero_add]
    congr 1
    refine Finset.sum_congr rfl fun j hj => ?_
    have : i ≠ j := fun h => (Finset.mem_erase.mp hj).1 h.symm
    simp only [buildSignal]; rw [if_neg fun h => this h.1]

theorem buildSignal_map (f : ℕ → 𝕜) : ∀ (I : List ℕ) (j : ℕ), buildSignal I (I.map f) j = if j ∈ I then f j else 0
  | [], j => by simp [buildSignal]
  | i :: I, j => by
    simp only [List.map_cons, buildSignal]
    rw [buildSignal_map f I j, List.length_map, List.take_length]
    by_cases h1 : i = j
    · subst h1
      by_cases h2 : i ∈ I <;> simp [h2]
    · have : j ≠ i := fun h => h1 h.symm
      simp [h1, this]

/-- Progress of HTP: the residual drops, or stays while the coefficients get smaller, or the support of the next state is selected again. -/
theorem htp_progress (phi : ℕ → E) (n : ℕ) (mu ρ : ℝ) (hmu : 0 < mu) (hρ : ρ < 1) (hb : ∀ z : ℕ → 𝕜, mu * ‖synth phi n z‖ ^ 2 ≤ ρ * ∑ i ∈ Finset.range n, ‖z i‖ ^ 2)
    (lstsq : List ℕ → E → List 𝕜) (y : E) (K : ℕ) (hl : ∀ I, IsLstsq phi I y (lstsq I y)) (hK : K ≤ n)
    (c : GState 𝕜 E → Prop) (s : GState 𝕜 E) (h : Reach c (htpBody phi n mu lstsq y K) (ihtInit phi n mu y K) s) :
    ‖(htpBody phi n mu lstsq y K s).r‖ < ‖s.r‖ ∨
    (‖(htpBody phi n mu lstsq y K s).r‖ = ‖s.r‖ ∧ ((htpBody phi n mu lstsq y K s).x.map fun c => ‖c‖ ^ 2).sum < (s.x.map fun c => ‖c‖ ^ 2).sum) ∨
    (htpBody phi n mu lstsq y K (htpBody phi n mu lstsq y K s)).I = (htpBody phi n mu lstsq y K s).I := by
  obtain ⟨hg, hn, -, -⟩ := c49_htp_state phi n mu lstsq y K hl hK c s h
  have hr : s.r = y - synth phi n (buildSignal s.I s.x) := by rw [hg.residual, lin_eq_synth phi n s.I s.x hn hg.range hg.coeff]
  have hd := c147_htp_descent phi n mu ρ hmu hb lstsq y K hl hK c s h
  obtain ⟨hp, hsort, hrange⟩ := htp_support phi n mu lstsq y K s
  set t := htpBody phi n mu lstsq y K s with ht
  have hnd : t.I.Nodup := hp.nodup_iff.mpr (c51_largest_indices _ K).1
  have hc : 0 < (1 - ρ) / mu := div_pos (by linarith) hmu
  set X := buildSignal s.I s.x with hX
  have hnn : 0 ≤ ∑ i ∈ Finset.range n, ‖(if i ∈ t.I then X i + (mu : 𝕜) * inner 𝕜 (phi i) s.r else 0) - X i‖ ^ 2 := Finset.sum_nonneg fun i _ => by positivity
  by_cases hlt : ‖t.r‖ < ‖s.r‖
  · exact Or.inl hlt
  push Not at hlt
  have hsq : ‖s.r‖ ^ 2 ≤ ‖t.r‖ ^ 2 := pow_le_pow_left₀ (norm_nonneg _) hlt 2
  have hzero : ∑ i ∈ Finset.range n, ‖(if i ∈ t.I then X i + (mu : 𝕜) * inner 𝕜 (phi i) s.r else 0) - X i‖ ^ 2 = 0 := by
    have : (1 - ρ) / mu * ∑ i ∈ Finset.range n, ‖(if i ∈ t.I then X i + (mu : 𝕜) * inner 𝕜 (phi i) s.r else 0) - X i‖ ^ 2 ≤ 0 := by linarith
    nlinarith
  have heqr : ‖t.r‖ = ‖s.r‖ := by
    refine le_antisymm ?_ hlt
    refine (pow_le_pow_iff_left₀ (norm_nonneg _) (norm_nonneg _) two_ne_zero).mp ?_
    rw [hzero] at hd; linarith
  have hz : ∀ i, i < n → (if i ∈ t.I then X i + (mu : 𝕜) * inner 𝕜 (phi i) s.r else 0) = X i := by
    intro i hi
    have := (Finset.sum_eq_zero_iff_of_nonneg fun i _ => by positivity).mp hzero i (Finset.mem_range.mpr hi)
    exact sub_eq_zero.mp (norm_eq_zero.mp (pow_eq_zero_iff two_ne_zero |>.mp this))
  have hon : ∀ i ∈ t.I, inner 𝕜 (phi i) s.r = 0 := by
    intro i hi
    have := hz i (hrange i hi)
    rw [if_pos hi] at this
    have h0 : (mu : 𝕜) * inner 𝕜 (phi i) s.r = 0 := by simpa using this
    exact (mul_eq_zero.mp h0).resolve_left (by exact_mod_cast hmu.ne')
  have hoff : ∀ i, i ∉ t.I → X i = 0 := by
    intro i hi
    by_cases hin : i < n
    · have := hz i hin
      rw [if_neg hi] at this
      exact this.symm
    · exact buildSignal_not_mem _ _ _ fun hm => hin (hg.range i hm)
  have hmapX : buildSignal t.I (t.I.map X) = X := by
    funext i
    rw [buildSignal_map]
    by_cases hi : i ∈ t.I
    · rw [if_pos hi]
    · rw [if_neg hi, hoff i hi]
  have hlin : lin phi t.I (t.I.map X) = synth phi n X := by
    rw [lin_eq_synth phi n t.I _ hnd hrange (by simp), hmapX]
  have hnorm : ∀ i ∈ t.I, inner 𝕜 (phi i) (y - lin phi t.I (t.I.map X)) = 0 := by
    intro i hi
    rw [hlin, ← hr, hon i hi]
  have hsum : ((t.I.map X).map fun c => ‖c‖ ^ 2).sum = (s.x.map fun c => ‖c‖ ^ 2).sum := by
    rw [sum_sq_signal n t.I _ hnd hrange (by simp), hmapX, sum_sq_signal n s.I s.x hn hg.range hg.coeff]
  by_cases hq : (t.x.map fun c => ‖c‖ ^ 2).sum < (s.x.map fun c => ‖c‖ ^ 2).sum
  · exact Or.inr (Or.inl ⟨heqr, hq⟩)
  push Not at hq
  refine Or.inr (Or.inr ?_)
  have htx : t.x = lstsq t.I y := rfl
  have hx : t.x = t.I.map X := by
    rw [htx]
    exact lstsq_unique phi t.I y _ _ (hl t.I) (by simp) hnorm (by rw [hsum, ← htx]; exact hq)
  have hsig : buildSignal t.I t.x = buildSignal s.I s.x := by rw [hx, hmapX]
  have htr : t.r = s.r := by
    have : t.r = y - lin phi t.I t.x := rfl
    rw [this, hx, hlin, ← hr]
  have hgs : gradStep n t.I t.x mu (corr 𝕜 phi n t.r) = gradStep n s.I s.x mu (corr 𝕜 phi n s.r) := by
    simp only [gradStep, hsig, htr]
  show (hardThresholdSorted (gradStep n t.I t.x mu (corr 𝕜 phi n t.r)) K).1 = (hardThresholdSorted (gradStep n s.I s.x mu (corr 𝕜 phi n s.r)) K).1
  rw [hgs]

/-- **C147** HTP selects a support twice in a row after at most `C(n,K) + 1` iterations, whatever the data and the stopping parameters. -/
theorem c147_htp_repeats (phi : ℕ → E) (n : ℕ) (mu ρ : ℝ) (hmu : 0 < mu) (hρ : ρ < 1) (hb : ∀ z : ℕ → 𝕜, mu * ‖synth phi n z‖ ^ 2 ≤ ρ * ∑ i ∈ Finset.range n, ‖z i‖ ^ 2)
    (lstsq : List ℕ → E → List 𝕜) (y : E) (K : ℕ) (hl : ∀ I, IsLstsq phi I y (lstsq I y)) (hK : K ≤ n) :
    ∃ k, 1 ≤ k ∧ k ≤ n.choose K + 1 ∧ (htpSeq phi n mu lstsq y K (k + 1)).I = (htpSeq phi n mu lstsq y K k).I := by
  classical
  by_contra hno
  push Not at hno
  set v := htpSeq phi n mu lstsq y K with hv
  have hst := fun k => c49_htp_state phi n mu lstsq y K hl hK _ _ (htpSeq_reach phi n mu lstsq y K k)
  -- strict progress
  have hprog : ∀ k, 1 ≤ k → k ≤ n.choose K → ‖(v (k + 1)).r‖ < ‖(v k).r‖ ∨ (‖(v (k + 1)).r‖ = ‖(v k).r‖ ∧ ((v (k + 1)).x.map fun c => ‖c‖ ^ 2).sum < ((v k).x.map fun c => ‖c‖ ^ 2).sum) := by
    intro k h1 h2
    have h := htp_progress phi n mu ρ hmu hρ hb lstsq y K hl hK _ _ (htpSeq_reach phi n mu lstsq y K k)
    rw [← htpSeq_succ, ← htpSeq_succ] at h
    rcases h with h | h | h
    · exact Or.inl h
    · exact Or.inr h
    · exact absurd h (hno (k + 1) (by omega) (by omega))
  have hmono : ∀ a, 1 ≤ a → ∀ d, a + d + 1 ≤ n.choose K + 1 → ‖(v (a + d + 1)).r‖ < ‖(v a).r‖ ∨
      (‖(v (a + d + 1)).r‖ = ‖(v a).r‖ ∧ ((v (a + d + 1)).x.map fun c => ‖c‖ ^ 2).sum < ((v a).x.map fun c => ‖c‖ ^ 2).sum) := by
    intro a ha d
    induction d with
    | zero => intro h; exact hprog a ha (by omega)
    | succ d ih =>
      intro h
      have h1 := ih (by omega)
      have h2 := hprog (a + d + 1) (by omega) (by omega)
      rw [show a + (d + 1) + 1 = a + d + 1 + 1 from rfl]
      rcases h1 with h1 | h1 <;> rcases h2 with h2 | h2
      · exact Or.inl (h2.trans h1)
      · exact Or.inl (by rw [h2.1]; exact h1)
      · exact Or.inl (by rw [← h1.1]; exact h2)
      · exact Or.inr ⟨h2.1.trans h1.1, h2.2.trans h1.2⟩
  have hsorted : ∀ k, 1 ≤ k → (v k).I.Pairwise (· < ·) := by
    intro k hk
    obtain ⟨k', rfl⟩ : ∃ k', k = k' + 1 := ⟨k - 1, by omega⟩
    rw [hv, htpSeq_succ]
    exact (htp_support phi n mu lstsq y K _).2.1
  have hsame : ∀ a b, 1 ≤ a → 1 ≤ b → (v a).I = (v b).I → ‖(v a).r‖ = ‖(v b).r‖ ∧ ((v a).x.map fun c => ‖c‖ ^ 2).sum = ((v b).x.map fun c => ‖c‖ ^ 2).sum := by
    intro a b ha hb' hI
    have xa := ((hst a).2.2.2 (by rw [htpSeq_iters]; omega)).2.2
    have xb := ((hst b).2.2.2 (by rw [htpSeq_iters]; omega)).2.2
    have hx : (v a).x = (v b).x := by
      show (htpSeq phi n mu lstsq y K a).x = (htpSeq phi n mu lstsq y K b).x
      rw [xa, xb]
      show lstsq (v a).I y = lstsq (v b).I y
      rw [hI]
    have hra : (v a).r = y - lin phi (v a).I (v a).x := (hst a).1.residual
    have hrb : (v b).r = y - lin phi (v b).I (v b).x := (hst b).1.residual
    rw [hra, hrb, hx, hI]
    exact ⟨rfl, rfl⟩
  have hinj : Set.InjOn (fun k => (v k).I.toFinset) (Finset.Icc 1 (n.choose K + 1) : Finset ℕ) := by
    have key : ∀ a b, 1 ≤ a → a < b → b ≤ n.choose K + 1 → (v a).I.toFinset ≠ (v b).I.toFinset := by
      intro a b ha hab hbn heq
      have hperm : (v a).I.Perm (v b).I := (List.perm_ext_iff_of_nodup (hst a).2.1 (hst b).2.1).mpr fun i => by
        rw [← List.mem_toFinset, heq, List.mem_toFinset]
      have hI : (v a).I = (v b).I := hperm.eq_of_pairwise' (hsorted a ha) (hsorted b (by omega))
      obtain ⟨e1, e2⟩ := hsame a b ha (by omega) hI
      have := hmono a ha (b - a - 1) (by omega)
      rw [show a + (b - a - 1) + 1 = b by omega] at this
      rcases this with h | h
      · rw [e1] at h; exact lt_irrefl _ h
      · have := h.2; rw [e2] at this; exact lt_irrefl _ this
    intro a ha b hb' heq
    simp only [Finset.coe_Icc, Set.mem_Icc] at ha hb'
    rcases lt_trichotomy a b with h | h | h
    · exact absurd heq (key a b ha.1 h hb'.2)
    · exact h
    · exact absurd heq.symm (key b a hb'.1 h ha.2)
  have hmaps : ∀ k ∈ Finset.Icc 1 (n.choose K + 1), (v k).I.toFinset ∈ (Finset.range n).powersetCard K := by
    intro k _
    rw [Finset.mem_powersetCard]
    refine ⟨fun i hi => Finset.mem_range.mpr ((hst k).1.range i (List.mem_toFinset.mp hi)), ?_⟩
    rw [List.toFinset_card_of_nodup (hst k).2.1]
    exact (hst k).1.size
  have hcard := Finset.card_le_card_of_injOn (fun k => (v k).I.toFinset) hmaps hinj
  rw [Finset.card_powersetCard, Finset.card_range, Nat.card_Icc] at hcard
  omega

/-- A least squares state whose support is selected again is a best `K`-term approximation of its own gradient step. -/
theorem htp_fixed (phi : ℕ → E) (n : ℕ) (mu : ℝ) (lstsq : List ℕ → E → List 𝕜) (y : E) (K : ℕ) (s : GState 𝕜 E) (hg : GoodState phi n y K s) (hn : s.I.Nodup)
    (horth : ∀ i ∈ s.I, inner 𝕜 (phi i) s.r = 0) (hfix : (htpBody phi n mu lstsq y K s).I = s.I) : HardFixed phi n mu y K (buildSignal s.I s.x) := by
  classical
  have hr : s.r = y - synth phi n (buildSignal s.I s.x) := by rw [hg.residual, lin_eq_synth phi n s.I s.x hn hg.range hg.coeff]
  obtain ⟨hp, -, -⟩ := htp_support phi n mu lstsq y K s
  rw [hfix] at hp
  refine ⟨⟨s.I.toFinset, fun i hi => Finset.mem_range.mpr (hg.range i (List.mem_toFinset.mp hi)), by rw [List.toFinset_card_of_nodup hn, hg.size], fun i hi => buildSignal_not_mem _ _ _ (by simpa using hi)⟩, ?_⟩
  rintro z ⟨Z, hZn, hZ, hZ0⟩
  have hb := c51_best_K_term (gradStep n s.I s.x mu (corr 𝕜 phi n s.r)) K z Z hZ fun i _ hi => hZ0 i hi
  rw [gradStep_length] at hb
  rw [← hr]
  refine le_of_eq_of_le ?_ (hb.trans (le_of_eq ?_))
  · refine Finset.sum_congr rfl fun i hi => ?_
    have hi' := Finset.mem_range.mp hi
    by_cases him : i ∈ s.I
    · rw [if_pos (hp.mem_iff.mp him), sub_self, horth i him, mul_zero]
    · rw [if_neg fun hh => him (hp.mem_iff.mpr hh), gradStep_getD n _ _ _ _ hi', corr_getD' _ _ _ hi', buildSignal_not_mem _ _ _ him, zero_add, sub_zero]
  · refine Finset.sum_congr rfl fun i hi => ?_
    have hi' := Finset.mem_range.mp hi
    rw [gradStep_getD n _ _ _ _ hi', corr_getD' _ _ _ hi']

/-- **C147** HTP stops by itself: for every `max_iters` and every tolerance the number of iterations is at most `max(C(n,K) + 3, min(3K, 20))`, and a result that neither met the tolerance nor used up `max_iters` is a
best `K`-term approximation of its own gradient step with a residual orthogonal to the `K` selected atoms. -/
theorem c147_htp_terminates (phi : ℕ → E) (n : ℕ) (mu ρ : ℝ) (hmu : 0 < mu) (hρ : ρ < 1) (hb : ∀ z : ℕ → 𝕜, mu * ‖synth phi n z‖ ^ 2 ≤ ρ * ∑ i ∈ Finset.range n, ‖z i‖ ^ 2)
    (lstsq : List ℕ → E → List 𝕜) (y : E) (K : ℕ) (hl : ∀ I, IsLstsq phi I y (lstsq I y)) (hK : K ≤ n) (hK1 : 1 ≤ K) (maxIters : ℕ) (rtol : ℝ)
    (s : GState 𝕜 E) (h : HtpSolve phi n mu lstsq y K maxIters rtol s) :
    s.iters ≤ max (n.choose K + 3) (min (3 * K) 20) ∧
    (‖s.r‖ ^ 2 ≤ ‖y‖ ^ 2 * rtol ^ 2 ∨ maxIters ≤ s.iters ∨ (HardFixed phi n mu y K (buildSignal s.I s.x) ∧ ∀ i ∈ s.I, inner 𝕜 (phi i) s.r = 0)) := by
  obtain ⟨j, hj, hjc⟩ := h.1.iterate
  have hsj : s = htpSeq phi n mu lstsq y K j := hj
  have hst := fun k => c49_htp_state phi n mu lstsq y K hl hK _ _ (htpSeq_reach phi n mu lstsq y K k)
  have hit : s.iters = j + 1 := by rw [hsj, htpSeq_iters]
  refine ⟨?_, ?_⟩
  · obtain ⟨k, hk1, hk2, hfix⟩ := c147_htp_repeats phi n mu ρ hmu hρ hb lstsq y K hl hK
    rw [htpSeq_succ] at hfix
    by_contra hcon
    push Not at hcon
    rw [max_lt_iff] at hcon
    -- the state before the last one did not satisfy the loop condition
    have hf := c49_htp_support_fixed phi n mu lstsq y K maxIters (‖y‖ ^ 2 * rtol ^ 2) hl hK _ _ (htpSeq_reach phi n mu lstsq y K k) (by rw [htpSeq_iters]; omega) hfix (j - 1 - k)
    have hc := hjc (j - 1) (by omega)
    have e : (htpBody phi n mu lstsq y K)^[j - 1 - k] (htpSeq phi n mu lstsq y K k) = (htpBody phi n mu lstsq y K)^[j - 1] (ihtInit phi n mu y K) := by
      rw [htpSeq, ← Function.iterate_add_apply]
      congr 1
      congr 1
      omega
    rw [e] at hf
    exact hf.2.2.2 (by omega) (by rw [htpSeq_iters]; omega) hc
  · by_cases h1 : ‖s.r‖ ^ 2 ≤ ‖y‖ ^ 2 * rtol ^ 2
    · exact Or.inl h1
    by_cases h2 : maxIters ≤ s.iters
    · exact Or.inr (Or.inl h2)
    refine Or.inr (Or.inr ?_)
    push Not at h1 h2
    have hg := (hst j).1
    rw [← hsj] at hg
    have hnc := h.2
    have h3 : ¬ (s.iters < min (3 * K) 20 ∨ s.I ≠ s.Iprev) := fun hh => hnc ⟨⟨by rw [hg.normsq]; exact h1, h2⟩, hh⟩
    push Not at h3
    obtain ⟨h4, h5⟩ := h3
    have hj2 : 2 ≤ j := by omega
    obtain ⟨i, rfl⟩ : ∃ i, j = i + 1 := ⟨j - 1, by omega⟩
    rw [htpSeq_succ] at hsj
    have hprev : s.Iprev = (htpSeq phi n mu lstsq y K i).I := by rw [hsj]; rfl
    have hfix : (htpBody phi n mu lstsq y K (htpSeq phi n mu lstsq y K i)).I = (htpSeq phi n mu lstsq y K i).I := by
      rw [← hsj, h5, hprev]
    have hf1 := c49_htp_support_fixed phi n mu lstsq y K maxIters (‖y‖ ^ 2 * rtol ^ 2) hl hK _ _ (htpSeq_reach phi n mu lstsq y K i) (by rw [htpSeq_iters]; omega) hfix 1
    have hf2 := c49_htp_support_fixed phi n mu lstsq y K maxIters (‖y‖ ^ 2 * rtol ^ 2) hl hK _ _ (htpSeq_reach phi n mu lstsq y K i) (by rw [htpSeq_iters]; omega) hfix 2
    simp only [Function.iterate_succ, Function.iterate_zero, Function.comp_apply, id_eq] at hf1 hf2
    rw [← hsj] at hf1 hf2
    have hlast := hst (i + 1)
    rw [htpSeq_succ, ← hsj] at hlast
    have horth := (hlast.2.2.2 (by omega)).1
    exact ⟨htp_fixed phi n mu lstsq y K s hlast.1 hlast.2.1 horth (by rw [hf2.1, hf1.1]), horth⟩

/-- **C147** the default step `0.98/σ` qualifies when the largest singular value `σ` is at most one, for example for a dictionary with orthonormal rows: then `ρ = 0.98 σ`. -/
theorem c147_default_step (phi : ℕ → E) (n : ℕ) (σ : ℝ) (hσ : 0 < σ) (hσ1 : σ ≤ 1) (hb : ∀ z : ℕ → 𝕜, ‖synth phi n z‖ ^ 2 ≤ σ ^ 2 * ∑ i ∈ Finset.range n, ‖z i‖ ^ 2) :
    0 < defaultStep σ ∧ 0.98 * σ < 1 ∧ ∀ z : ℕ → 𝕜, defaultStep σ * ‖synth phi n z‖ ^ 2 ≤ 0.98 * σ * ∑ i ∈ Finset.range n, ‖z i‖ ^ 2 := by
  have hpos : 0 < defaultStep σ := by unfold defaultStep; positivity
  refine ⟨hpos, by linarith, fun z => ?_⟩
  have h1 := mul_le_mul_of_nonneg_left (hb z) hpos.le
  refine h1.trans (le_of_eq ?_)
  unfold defaultStep
  field_simp

/-! ## Non-vacuity -/

theorem ex_frame_half (z : ℕ → ℝ) : (1 / 2 : ℝ) * ‖synth exAtoms4 4 z‖ ^ 2 ≤ 1 / 2 * ∑ i ∈ Finset.range 4, ‖z i‖ ^ 2 := by
  have := ex_frame4 z
  linarith

theorem ex_spark4 (K : ℕ) : SparkGt ℝ exAtoms4 4 K := by
  rintro z ⟨S, hSn, -, hz⟩ h i
  by_cases hi : i < 4
  · have h2 : ‖synth exAtoms4 4 z‖ ^ 2 = ∑ i ∈ Finset.range 4, ‖z i‖ ^ 2 := by
      rw [EuclideanSpace.norm_sq_eq]
      simp [synth, Finset.sum_range_succ, exAtoms4, Fin.sum_univ_four]
    rw [h, norm_zero, zero_pow two_ne_zero] at h2
    have := (Finset.sum_eq_zero_iff_of_nonneg fun i _ => by positivity).mp h2.symm i (Finset.mem_range.mpr hi)
    exact norm_eq_zero.mp (pow_eq_zero_iff two_ne_zero |>.mp this)
  · exact hz i fun hm => hi (Finset.mem_range.mp (hSn hm))

example (c : GState ℝ (EuclideanSpace ℝ (Fin 4)) → Prop) (s) (h : Reach c (ihtBody exAtoms4 4 (1 / 2) !₂[1, 1, 1, 1] 2) (ihtInit exAtoms4 4 (1 / 2) !₂[1, 1, 1, 1] 2) s) :=
  c147_iht_descent (𝕜 := ℝ) exAtoms4 4 (1 / 2) (1 / 2) (by norm_num) ex_frame_half !₂[1, 1, 1, 1] 2 (by norm_num) c s h
example (s : GState ℝ (EuclideanSpace ℝ (Fin 4))) := c147_iht_step (𝕜 := ℝ) exAtoms4 4 (1 / 2) !₂[1, 1, 1, 1] 2 s
example := c147_iht_rate (𝕜 := ℝ) exAtoms4 4 (1 / 2) (1 / 2) (by norm_num) (by norm_num) ex_frame_half !₂[1, 1, 1, 1] 2 (by norm_num) 10 (by norm_num)
example := c147_iht_converges (𝕜 := ℝ) exAtoms4 4 (1 / 2) (1 / 2) (by norm_num) (by norm_num) ex_frame_half !₂[1, 1, 1, 1] 2 (by norm_num) (ex_spark4 2)
example (x : ℕ → ℝ) (h : HardFixed exAtoms4 4 (1 / 2) !₂[1, 1, 1, 1] 2 x) := c147_fixed_optimality (𝕜 := ℝ) exAtoms4 4 (1 / 2) (by norm_num) !₂[1, 1, 1, 1] 2 x h
example (c : GState ℝ (EuclideanSpace ℝ (Fin 4)) → Prop) (s) (h : Reach c (htpBody exAtoms4 4 (1 / 2) (exLst exAtoms4) !₂[1, 1, 1, 1] 2) (ihtInit exAtoms4 4 (1 / 2) !₂[1, 1, 1, 1] 2) s) :=
  c147_htp_descent (𝕜 := ℝ) exAtoms4 4 (1 / 2) (1 / 2) (by norm_num) ex_frame_half (exLst exAtoms4) !₂[1, 1, 1, 1] 2 (fun I => exLst_ok _ I _) (by norm_num) c s h
example := c147_htp_repeats (𝕜 := ℝ) exAtoms4 4 (1 / 2) (1 / 2) (by norm_num) (by norm_num) ex_frame_half (exLst exAtoms4) !₂[1, 1, 1, 1] 2 (fun I => exLst_ok _ I _) (by norm_num)
example := c147_htp_terminates (𝕜 := ℝ) exAtoms4 4 (1 / 2) (1 / 2) (by norm_num) (by norm_num) ex_frame_half (exLst exAtoms4) !₂[1, 1, 1, 1] 2 (fun I => exLst_ok _ I _) (by norm_num) (by norm_num) 100 (1e-3)
example := c147_default_step (𝕜 := ℝ) exAtoms4 4 1 one_pos le_rfl fun z => by have := ex_frame4 z; linarith

end Verif.Pursuit
