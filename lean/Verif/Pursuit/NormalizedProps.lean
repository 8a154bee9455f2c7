import Verif.Pursuit.NormalizedModel
import Verif.Pursuit.GreedyProps

set_option autoImplicit false
/-!
# C50, C49: the normalised step size
-/
noncomputable section
namespace Verif.Pursuit
open Verif.Loop

variable {𝕜 : Type*} [RCLike 𝕜] {E : Type*} [NormedAddCommGroup E] [InnerProductSpace 𝕜 E]

theorem gather_corr (phi : ℕ → E) (n : ℕ) (r : E) (I : List ℕ) (hI : ∀ i ∈ I, i < n) : gather 0 (corr 𝕜 phi n r) I = I.map fun i => inner 𝕜 (phi i) r := by
  unfold gather
  exact List.map_congr_left fun i hi => corr_getD' phi n r (hI i hi)

theorem lin_map_inner (phi : ℕ → E) (r : E) : ∀ I : List ℕ,
    inner 𝕜 (lin phi I (I.map fun i => inner 𝕜 (phi i) r)) r = (((I.map fun i => inner 𝕜 (phi i) r).map fun c => ‖c‖ ^ 2).sum : ℝ)
  | [] => by simp [lin]
  | i :: I => by
    simp only [List.map_cons, lin, inner_add_left, inner_smul_left, List.sum_cons, lin_map_inner phi r I]
    rw [RCLike.conj_mul]
    push_cast
    ring

theorem normalizedStep_none_iff (phi : ℕ → E) (n : ℕ) (r : E) (I : List ℕ) (hI : ∀ i ∈ I, i < n) :
    normalizedStep phi (corr 𝕜 phi n r) I = none ↔ ∀ i ∈ I, inner 𝕜 (phi i) r = 0 := by
  unfold normalizedStep
  rw [gather_corr phi n r I hI]
  constructor
  · intro h
    split at h
    · rename_i h0
      have e := lin_map_inner (𝕜 := 𝕜) phi r I
      rw [h0, inner_zero_left] at e
      have e' : ((I.map fun i => inner 𝕜 (phi i) r).map fun c => ‖c‖ ^ 2).sum = 0 := by exact_mod_cast e.symm
      intro i hi
      have hle := List.single_le_sum (l := (I.map fun i => inner 𝕜 (phi i) r).map fun c => ‖c‖ ^ 2) (by simp) (‖inner 𝕜 (phi i) r‖ ^ 2)
        (List.mem_map.2 ⟨_, List.mem_map.2 ⟨i, hi, rfl⟩, rfl⟩)
      rw [e'] at hle
      have : ‖inner 𝕜 (phi i) r‖ ^ 2 = 0 := le_antisymm hle (sq_nonneg _)
      exact norm_eq_zero.1 (pow_eq_zero_iff two_ne_zero |>.1 this)
    · cases h
  · intro h
    rw [if_pos]
    have : (I.map fun i => inner 𝕜 (phi i) r) = I.map fun _ => (0 : 𝕜) := List.map_congr_left fun i hi => h i hi
    rw [this]
    clear this h hI
    induction I with
    | nil => rfl
    | cons i I ih => simp only [List.map_cons, lin, zero_smul, zero_add]; exact ih

theorem norm_sub_smul_sq (r d : E) (S : ℝ) (hS : inner 𝕜 d r = (S : 𝕜)) (t : 𝕜) :
    ‖r - t • d‖ ^ 2 = ‖r‖ ^ 2 - 2 * (RCLike.re t * S) + ‖t‖ ^ 2 * ‖d‖ ^ 2 := by
  have h : inner 𝕜 r d = (S : 𝕜) := by rw [← inner_conj_symm, hS, RCLike.conj_ofReal]
  rw [@norm_sub_sq 𝕜, inner_smul_right, h, norm_smul, mul_pow, RCLike.re_mul_ofReal]

/-- **C50** the normalised step is the exact line search along the part of the negative gradient on the support: with `d` the combination of the atoms of the support with their correlations
with the residual `r`, no other (real or complex) multiple of `d` leaves a smaller residual, and the squared residual drops by `mu` times the sum of the squared correlations. -/
theorem c50_normalized_step (phi : ℕ → E) (n : ℕ) (r : E) (I : List ℕ) (hI : ∀ i ∈ I, i < n) (mu : ℝ) (h : normalizedStep phi (corr 𝕜 phi n r) I = some mu) :
    let d := lin phi I (I.map fun i => inner 𝕜 (phi i) r)
    0 < mu ∧ (∀ t : 𝕜, ‖r - (mu : 𝕜) • d‖ ≤ ‖r - t • d‖) ∧ ‖r - (mu : 𝕜) • d‖ ^ 2 = ‖r‖ ^ 2 - mu * (I.map fun i => ‖inner 𝕜 (phi i) r‖ ^ 2).sum := by
  intro d
  have hnn : ¬ ∀ i ∈ I, inner 𝕜 (phi i) r = 0 := by
    rw [← normalizedStep_none_iff phi n r I hI, h]; simp
  unfold normalizedStep at h
  rw [gather_corr phi n r I hI] at h
  split at h
  · cases h
  rename_i hd
  injection h with h
  have hD : 0 < ‖d‖ ^ 2 := by positivity
  have hin := lin_map_inner (𝕜 := 𝕜) phi r I
  set S : ℝ := ((I.map fun i => inner 𝕜 (phi i) r).map fun c => ‖c‖ ^ 2).sum with hS
  have hS' : (I.map fun i => ‖inner 𝕜 (phi i) r‖ ^ 2).sum = S := by rw [hS, List.map_map]; rfl
  have hS0 : 0 ≤ S := List.sum_nonneg (by simp)
  have hSD : S = mu * ‖d‖ ^ 2 := by rw [← h]; exact (div_mul_cancel₀ S hD.ne').symm
  have hSpos : 0 < S := by
    refine lt_of_le_of_ne hS0 fun h0 => hd ?_
    have h1 : ∀ i ∈ I, inner 𝕜 (phi i) r = 0 := by
      intro i hi
      have hle := List.single_le_sum (l := (I.map fun i => inner 𝕜 (phi i) r).map fun c => ‖c‖ ^ 2) (by simp) (‖inner 𝕜 (phi i) r‖ ^ 2)
        (List.mem_map.2 ⟨_, List.mem_map.2 ⟨i, hi, rfl⟩, rfl⟩)
      rw [← hS, ← h0] at hle
      exact norm_eq_zero.1 (pow_eq_zero_iff two_ne_zero |>.1 (le_antisymm hle (sq_nonneg _)))
    exact absurd h1 hnn
  have key : ∀ t : 𝕜, ‖r - t • d‖ ^ 2 = ‖r‖ ^ 2 - 2 * (RCLike.re t * S) + ‖t‖ ^ 2 * ‖d‖ ^ 2 := norm_sub_smul_sq r d S hin
  have kmu : ‖r - (mu : 𝕜) • d‖ ^ 2 = ‖r‖ ^ 2 - mu * S := by
    rw [key, RCLike.ofReal_re, RCLike.norm_ofReal, sq_abs]
    rw [hSD]; ring
  refine ⟨by rw [← h]; positivity, fun t => ?_, by rw [hS']; exact kmu⟩
  refine (pow_le_pow_iff_left₀ (norm_nonneg _) (norm_nonneg _) two_ne_zero).mp ?_
  rw [kmu, key]
  have h2 : RCLike.re t ^ 2 ≤ ‖t‖ ^ 2 := by
    rw [← sq_abs (RCLike.re t)]
    exact pow_le_pow_left₀ (abs_nonneg _) (RCLike.abs_re_le_norm t) 2
  have h3 : RCLike.re t ^ 2 * ‖d‖ ^ 2 ≤ ‖t‖ ^ 2 * ‖d‖ ^ 2 := mul_le_mul_of_nonneg_right h2 hD.le
  have h4 : 0 ≤ (RCLike.re t - mu) ^ 2 * ‖d‖ ^ 2 := by positivity
  rw [hSD]
  nlinarith

/-- **C50** the states of IHT with the normalised step, as long as the step is a number: the same facts as for a fixed step. -/
theorem c50_niht_state (phi : ℕ → E) (n : ℕ) (y : E) (K : ℕ) (hK : K ≤ n) (c : Option (GState 𝕜 E) → Prop) (s : GState 𝕜 E)
    (h : Reach c (fun t => t.bind (nihtBody phi n y K)) (nihtInit phi n y K) (some s)) :
    GoodState phi n y K s ∧ s.I.Nodup ∧ 1 ≤ s.iters ∧ s.r = y - synth phi n (buildSignal s.I s.x) := by
  have hh : GoodState phi n y K s ∧ s.I.Nodup ∧ 1 ≤ s.iters := by
    refine h.inv (fun o => ∀ s, o = some s → GoodState phi n y K s ∧ s.I.Nodup ∧ 1 ≤ s.iters) ?_ (fun o _ _ => ?_) s rfl
    · intro s hs
      obtain ⟨mu, -, rfl⟩ := Option.map_eq_some_iff.1 hs
      exact ⟨(ihtInit_good phi n mu y K hK).1, (ihtInit_good phi n mu y K hK).2, le_rfl⟩
    · intro s hs
      obtain ⟨t, -, ht⟩ := Option.bind_eq_some_iff.1 hs
      obtain ⟨mu, -, rfl⟩ := Option.map_eq_some_iff.1 ht
      obtain ⟨h1, h2⟩ := hardK_good phi n y K hK _ (gradStep_length n t.I t.x mu (corr 𝕜 phi n t.r)) (t.iters + 1) t.I
      exact ⟨h1, h2, Nat.le_add_left 1 _⟩
  exact ⟨hh.1, hh.2.1, hh.2.2, by rw [hh.1.residual, lin_eq_synth phi n s.I s.x hh.2.1 hh.1.range hh.1.coeff]⟩

/-- The step of a pass from `s`, and what it becomes. -/
theorem nihtBody_some (phi : ℕ → E) (n : ℕ) (y : E) (K : ℕ) (s s' : GState 𝕜 E) (h : nihtBody phi n y K s = some s') :
    ∃ mu, normalizedStep phi (corr 𝕜 phi n s.r) s.I = some mu ∧ s' = ihtBody phi n mu y K s := by
  obtain ⟨mu, h1, h2⟩ := Option.map_eq_some_iff.1 h
  exact ⟨mu, h1, h2.symm⟩

/-- **C50** IHT with the normalised step: a pass that keeps the support lowers the residual, and the squared norm drops by the step times the sum of the squared correlations of the atoms of the
support. -/
theorem c50_niht_decrease (phi : ℕ → E) (n : ℕ) (y : E) (K : ℕ) (hK : K ≤ n) (c : Option (GState 𝕜 E) → Prop) (s s' : GState 𝕜 E)
    (h : Reach c (fun t => t.bind (nihtBody phi n y K)) (nihtInit phi n y K) (some s)) (hs : nihtBody phi n y K s = some s')
    (hsame : ∀ i, i ∈ s'.I ↔ i ∈ s.I) :
    ∃ mu : ℝ, 0 < mu ∧ ‖s'.r‖ ^ 2 = ‖s.r‖ ^ 2 - mu * (s.I.map fun i => ‖inner 𝕜 (phi i) s.r‖ ^ 2).sum ∧ ‖s'.r‖ < ‖s.r‖ := by
  obtain ⟨hg, hn, -, hr⟩ := c50_niht_state phi n y K hK c s h
  obtain ⟨mu, hmu, rfl⟩ := nihtBody_some phi n y K s s' hs
  obtain ⟨h0, -, h2⟩ := c50_normalized_step phi n s.r s.I hg.range mu hmu
  have hnn : ¬ ∀ i ∈ s.I, inner 𝕜 (phi i) s.r = 0 := by
    rw [← normalizedStep_none_iff phi n s.r s.I hg.range, hmu]; simp
  set g := gradStep n s.I s.x mu (corr 𝕜 phi n s.r) with hgd
  have hgl : g.length = n := gradStep_length ..
  obtain ⟨k1, k2, k3, -⟩ := c51_largest_indices g K
  rw [hgl] at k2 k3
  have hr' : (ihtBody phi n mu y K s).r = s.r - (mu : 𝕜) • lin phi s.I (s.I.map fun i => inner 𝕜 (phi i) s.r) := by
    have e1 : (ihtBody phi n mu y K s).r = y - synth phi n (buildSignal (largestIndices g K) (gather 0 g (largestIndices g K))) := by
      rw [← lin_eq_synth phi n _ _ k1 k3 (gather_length _ _ _)]; rfl
    rw [e1, ← gather_corr phi n s.r s.I hg.range, lin_eq_synth phi n s.I _ hn hg.range (gather_length _ _ _)]
    have e2 : ∀ a b d : E, a - b = d → y - a = y - b - d := by rintro a b d rfl; abel
    conv_rhs => enter [1]; rw [hr]
    refine e2 _ _ _ ?_
    rw [sub_eq_iff_eq_add']
    unfold synth
    rw [Finset.smul_sum, ← Finset.sum_add_distrib]
    refine Finset.sum_congr rfl fun i hi => ?_
    have hi' := Finset.mem_range.1 hi
    rw [buildSignal_gather, buildSignal_gather, smul_smul, ← add_smul]
    congr 1
    have hm : i ∈ largestIndices g K ↔ i ∈ s.I := hsame i
    by_cases hi2 : i ∈ s.I
    · rw [if_pos (hm.2 hi2), if_pos hi2, hgd, gradStep_getD n _ _ _ _ hi']
    · rw [if_neg (fun hc => hi2 (hm.1 hc)), if_neg hi2, buildSignal_not_mem _ _ _ hi2]; simp
  have hsum : 0 < (s.I.map fun i => ‖inner 𝕜 (phi i) s.r‖ ^ 2).sum := by
    refine lt_of_le_of_ne (List.sum_nonneg (by simp)) fun hc => hnn fun i hi => ?_
    have hle := List.single_le_sum (l := s.I.map fun i => ‖inner 𝕜 (phi i) s.r‖ ^ 2) (by simp) (‖inner 𝕜 (phi i) s.r‖ ^ 2) (List.mem_map.2 ⟨i, hi, rfl⟩)
    rw [← hc] at hle
    exact norm_eq_zero.1 (pow_eq_zero_iff two_ne_zero |>.1 (le_antisymm hle (sq_nonneg _)))
  refine ⟨mu, h0, by rw [hr', h2], ?_⟩
  refine (pow_lt_pow_iff_left₀ (norm_nonneg _) (norm_nonneg _) two_ne_zero).mp ?_
  rw [hr', h2]
  nlinarith [mul_pos h0 hsum]

/-- **C50** IHT with the normalised step returns; a result that is a number meets the tolerance or has used the iterations. -/
theorem c50_niht_stop (phi : ℕ → E) (n : ℕ) (y : E) (K maxIters : ℕ) (rtol : ℝ) (hK : K ≤ n) :
    (∃ o : Option (GState 𝕜 E), NihtSolve phi n y K maxIters rtol o) ∧
    ∀ s : GState 𝕜 E, NihtSolve phi n y K maxIters rtol (some s) → (‖s.r‖ ^ 2 ≤ rtol ^ 2 * ‖y‖ ^ 2 ∨ maxIters ≤ s.iters) := by
  constructor
  · refine exists_out' (fun o => match o with | some s => s.iters | none => maxIters) maxIters ?_ ?_
    · intro o ho
      cases o with
      | none => exact ho.elim
      | some s => exact ho.2
    · intro o ho
      cases o with
      | none => exact ho.elim
      | some s =>
        show s.iters < _
        simp only [Option.bind_some, nihtBody]
        cases normalizedStep phi (corr 𝕜 phi n s.r) s.I with
        | none => exact ho.2
        | some mu => exact Nat.lt_succ_self _
  · intro s hs
    have hg := (c50_niht_state phi n y K hK _ s hs.1).1
    by_contra hcon
    push Not at hcon
    exact hs.2 ⟨by rw [hg.normsq]; linarith [hcon.1], hcon.2⟩

/-- **C50** when the step is not a number: at the start exactly when the signal is orthogonal to the first `K` atoms of the dictionary, later exactly when the residual is orthogonal to the atoms of the
support. -/
theorem c50_niht_undefined (phi : ℕ → E) (n : ℕ) (y : E) (K : ℕ) (hK : K ≤ n) :
    (nihtInit (𝕜 := 𝕜) phi n y K = none ↔ ∀ i, i < K → inner 𝕜 (phi i) y = 0) ∧
    ∀ s : GState 𝕜 E, (∀ i ∈ s.I, i < n) → (nihtBody phi n y K s = none ↔ ∀ i ∈ s.I, inner 𝕜 (phi i) s.r = 0) := by
  constructor
  · unfold nihtInit
    rw [Option.map_eq_none_iff, normalizedStep_none_iff phi n y _ (fun i hi => lt_of_lt_of_le (List.mem_range.1 hi) hK)]
    simp
  · intro s hs
    unfold nihtBody
    rw [Option.map_eq_none_iff, normalizedStep_none_iff phi n s.r _ hs]

/-- **C50** a signal that is a multiple of the second atom of an orthonormal pair: IHT with `K = 1` and the normalised step returns no number, for every tolerance and iteration limit. -/
theorem c50_niht_fails (phi : ℕ → E) (h0 : inner 𝕜 (phi 0) (phi 1) = 0) (maxIters : ℕ) (rtol : ℝ) (o : Option (GState 𝕜 E))
    (h : NihtSolve phi 2 (phi 1) 1 maxIters rtol o) : o = none := by
  have hi : nihtInit (𝕜 := 𝕜) phi 2 (phi 1) 1 = none := (c50_niht_undefined phi 2 (phi 1) 1 (by norm_num)).1.2 (by
    intro i hi
    obtain rfl : i = 0 := by omega
    exact h0)
  refine h.1.inv (fun o => o = none) hi fun o ho hc => ?_
  rw [ho] at hc
  exact hc.elim

/-- **C49** HTP with the normalised step: after one pass the residual is orthogonal to the support, so the step of the next pass is `0/0`. -/
theorem c49_nhtp_undefined (phi : ℕ → E) (n : ℕ) (lstsq : List ℕ → E → List 𝕜) (y : E) (K : ℕ) (hl : ∀ I, IsLstsq phi I y (lstsq I y)) (hK : K ≤ n)
    (s s' : GState 𝕜 E) (h : nhtpBody phi n lstsq y K s = some s') : nhtpBody phi n lstsq y K s' = none := by
  obtain ⟨mu, -, rfl⟩ := Option.map_eq_some_iff.1 h
  unfold nhtpBody
  rw [Option.map_eq_none_iff]
  have hI : ∀ i ∈ (htpBody phi n mu lstsq y K s).I, i < n := by
    set g := gradStep n s.I s.x mu (corr 𝕜 phi n s.r) with hg
    have hgl : g.length = n := gradStep_length ..
    obtain ⟨-, -, h3, -⟩ := c51_largest_indices g K
    rw [hgl] at h3
    have hp := (c51_hard_threshold_sorted g K).1
    exact fun i hi => h3 i (hp.mem_iff.mp hi)
  rw [normalizedStep_none_iff phi n _ _ hI]
  exact (hl _).normal

/-- Non-vacuous: with one atom `2` in the real line and the signal `1`, the first step is a number. -/
example : (nihtInit (𝕜 := ℝ) (fun _ => (2 : ℝ)) 1 (1 : ℝ) 1) ≠ none := by
  rw [Ne, (c50_niht_undefined (𝕜 := ℝ) (fun _ => (2 : ℝ)) 1 (1 : ℝ) 1 le_rfl).1]
  intro h
  have := h 0 (by norm_num)
  simp at this

/-! Instances. -/

example (r : ℝ) (mu : ℝ) (h : normalizedStep (fun _ => (2 : ℝ)) (corr ℝ (fun _ => (2 : ℝ)) 1 r) [0] = some mu) :=
  c50_normalized_step (𝕜 := ℝ) (fun _ => (2 : ℝ)) 1 r [0] (by simp) mu h
example (c : Option (GState ℝ ℝ) → Prop) (s : GState ℝ ℝ) (h : Reach c (fun t => t.bind (nihtBody (fun _ => (2 : ℝ)) 1 1 1)) (nihtInit (fun _ => (2 : ℝ)) 1 1 1) (some s)) :=
  c50_niht_state (𝕜 := ℝ) (fun _ => (2 : ℝ)) 1 1 1 le_rfl c s h
example (c : Option (GState ℝ ℝ) → Prop) (s s' : GState ℝ ℝ) (h : Reach c (fun t => t.bind (nihtBody (fun _ => (2 : ℝ)) 1 1 1)) (nihtInit (fun _ => (2 : ℝ)) 1 1 1) (some s))
    (hs : nihtBody (fun _ => (2 : ℝ)) 1 1 1 s = some s') :=
  c50_niht_decrease (𝕜 := ℝ) (fun _ => (2 : ℝ)) 1 1 1 le_rfl c s s' h hs
example := c50_niht_stop (𝕜 := ℝ) (fun _ => (2 : ℝ)) 1 1 1 20 (1e-3) le_rfl
example := c50_niht_fails (𝕜 := ℝ) (fun i => if i = 0 then (1 : ℂ) else Complex.I) (by simp [Complex.inner]) 20 (1e-3)
example (s s' : GState ℝ ℝ) (h : nhtpBody (fun _ => (2 : ℝ)) 1 (exLst fun _ => (2 : ℝ)) 1 1 s = some s') :=
  c49_nhtp_undefined (𝕜 := ℝ) (fun _ => (2 : ℝ)) 1 (exLst fun _ => (2 : ℝ)) 1 1 (fun I => exLst_ok _ I _) le_rfl s s' h

end Verif.Pursuit
