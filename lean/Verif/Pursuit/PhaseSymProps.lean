import Verif.Pursuit.SimilarityProps
import Verif.Pursuit.GreedyFails

set_option autoImplicit false
/-! # C161: signs and phases of the atoms, order of the atoms -/
noncomputable section
namespace Verif.Pursuit
open Verif.Loop ComplexConjugate

variable {𝕜 : Type*} [RCLike 𝕜] {E : Type*} [NormedAddCommGroup E] [InnerProductSpace 𝕜 E]

/-! ## Phases -/

/-- Coefficients on the support `I` with the phases `ω` of the atoms taken off. -/
def unphase (ω : ℕ → 𝕜) (I : List ℕ) (x : List 𝕜) : List 𝕜 := List.zipWith (fun i c => conj (ω i) * c) I x

/-- The same for a signal of full length. -/
def unphaseAll (ω : ℕ → 𝕜) (h : List 𝕜) : List 𝕜 := h.mapIdx fun i c => conj (ω i) * c

section phase
variable {ω : ℕ → 𝕜} (hω : ∀ i, ‖ω i‖ = 1)

include hω in
theorem conj_mul_phase (i : ℕ) : conj (ω i) * ω i = 1 := by rw [RCLike.conj_mul, hω]; simp

include hω in
theorem lin_phase (phi : ℕ → E) : ∀ (I : List ℕ) (x : List 𝕜), lin (fun i => ω i • phi i) I (unphase ω I x) = lin phi I x
  | [], _ => by simp [lin, unphase]
  | _ :: _, [] => by simp [lin, unphase]
  | i :: I, c :: x => by
    have := lin_phase phi I x
    rw [unphase] at this ⊢
    rw [List.zipWith_cons_cons, lin, lin, this, smul_smul, mul_right_comm, conj_mul_phase hω, one_mul]

theorem getD_all (ω : ℕ → 𝕜) (h : List 𝕜) (i : ℕ) : (unphaseAll ω h).getD i 0 = conj (ω i) * h.getD i 0 := by
  rw [List.getD_eq_getElem?_getD, List.getD_eq_getElem?_getD, unphaseAll, List.getElem?_mapIdx]
  cases h[i]? <;> simp

theorem all_range (ω : ℕ → 𝕜) (n : ℕ) (f : ℕ → 𝕜) : unphaseAll ω ((List.range n).map f) = (List.range n).map fun i => conj (ω i) * f i := by
  apply List.ext_getElem <;> simp [unphaseAll]

theorem corr_phase (ω : ℕ → 𝕜) (phi : ℕ → E) (n : ℕ) (r : E) : corr 𝕜 (fun i => ω i • phi i) n r = unphaseAll ω (corr 𝕜 phi n r) := by
  rw [corr, corr, all_range]
  exact List.map_congr_left fun i _ => inner_smul_left _ _ _

include hω in
theorem norm_all (h : List 𝕜) : ((unphaseAll ω h).map fun x => ‖x‖) = h.map fun x => ‖x‖ := by
  apply List.ext_getElem <;> simp [unphaseAll, hω]

include hω in
theorem norm_unphase (I : List ℕ) (x : List 𝕜) (hx : x.length = I.length) : ((unphase ω I x).map fun x => ‖x‖) = x.map fun x => ‖x‖ := by
  apply List.ext_getElem <;> simp [unphase, hω, hx]

include hω in
theorem sum_unphase (I : List ℕ) (x : List 𝕜) (hx : x.length = I.length) : ((unphase ω I x).map fun x => ‖x‖ ^ 2).sum = (x.map fun x => ‖x‖ ^ 2).sum := by
  have := congrArg (fun l => (l.map fun v : ℝ => v ^ 2).sum) (norm_unphase hω I x hx)
  simpa [List.map_map, Function.comp_def] using this

include hω in
theorem largest_all (h : List 𝕜) (K : ℕ) : largestIndices (unphaseAll ω h) K = largestIndices h K := by rw [largestIndices, largestIndices, norm_all hω]

include hω in
theorem largest_unphase (I : List ℕ) (x : List 𝕜) (K : ℕ) (hx : x.length = I.length) : largestIndices (unphase ω I x) K = largestIndices x K := by
  rw [largestIndices, largestIndices, norm_unphase hω I x hx]

include hω in
theorem absMaxIdx_all (h : List 𝕜) : absMaxIdx (unphaseAll ω h) = absMaxIdx h := by rw [absMaxIdx, absMaxIdx, norm_all hω]

theorem gather_all (ω : ℕ → 𝕜) (h : List 𝕜) (I : List ℕ) : gather 0 (unphaseAll ω h) I = unphase ω I (gather 0 h I) := by
  rw [gather, gather, unphase]
  induction I with
  | nil => rfl
  | cons i I ih => rw [List.map_cons, List.map_cons, List.zipWith_cons_cons, ih, getD_all]

theorem getD_unphase (ω : ℕ → 𝕜) (I : List ℕ) (x : List 𝕜) (hx : x.length = I.length) (a : ℕ) : (unphase ω I x).getD a 0 = conj (ω (I.getD a 0)) * x.getD a 0 := by
  rw [unphase, List.getD_eq_getElem?_getD, List.getD_eq_getElem?_getD, List.getD_eq_getElem?_getD, List.getElem?_zipWith]
  by_cases h : a < I.length
  · rw [List.getElem?_eq_getElem h, List.getElem?_eq_getElem (hx ▸ h)]
    rfl
  · rw [List.getElem?_eq_none (by omega), List.getElem?_eq_none (by omega)]
    simp

theorem gather_unphase (ω : ℕ → 𝕜) (I : List ℕ) (x : List 𝕜) (hx : x.length = I.length) (A : List ℕ) :
    gather 0 (unphase ω I x) A = unphase ω (gather 0 I A) (gather 0 x A) := by
  rw [gather, gather, gather]
  induction A with
  | nil => rfl
  | cons a A ih => rw [List.map_cons, List.map_cons, List.map_cons, ih, getD_unphase ω I x hx]; rfl

theorem zeroAt_all (ω : ℕ → 𝕜) (h : List 𝕜) (I : List ℕ) : zeroAt (unphaseAll ω h) I = unphaseAll ω (zeroAt h I) := by
  rw [zeroAt, zeroAt, all_range]
  have : (unphaseAll ω h).length = h.length := by simp [unphaseAll]
  rw [this]
  refine List.map_congr_left fun i _ => ?_
  rw [getD_all]
  split_ifs <;> simp

theorem buildSignal_unphase (ω : ℕ → 𝕜) : ∀ (I : List ℕ) (x : List 𝕜) (j : ℕ), buildSignal I (unphase ω I x) j = conj (ω j) * buildSignal I x j
  | [], _, _ => by simp [buildSignal]
  | _ :: _, [], _ => by simp [buildSignal, unphase]
  | i :: I, c :: x, j => by
    have ih := buildSignal_unphase ω I x j
    have hl : I.take (unphase ω I x).length = I.take x.length := by
      rw [unphase, List.length_zipWith]
      rcases le_total I.length x.length with h | h
      · rw [min_eq_left h, List.take_length, List.take_of_length_le h]
      · rw [min_eq_right h]
    show (if i = j ∧ j ∉ I.take (unphase ω I x).length then conj (ω i) * c else buildSignal I (unphase ω I x) j) = conj (ω j) * (if i = j ∧ j ∉ I.take x.length then c else buildSignal I x j)
    rw [hl, ih]
    split_ifs with h
    · rw [h.1]
    · rfl

theorem gradStep_phase (ω : ℕ → 𝕜) (n : ℕ) (I : List ℕ) (x : List 𝕜) (mu : ℝ) (h : List 𝕜) :
    gradStep n I (unphase ω I x) mu (unphaseAll ω h) = unphaseAll ω (gradStep n I x mu h) := by
  rw [gradStep, gradStep, all_range]
  exact List.map_congr_left fun i _ => by rw [buildSignal_unphase, getD_all]; ring

include hω in
theorem lstsq_phase (phi : ℕ → E) (I : List ℕ) (y : E) (x : List 𝕜) (h : IsLstsq phi I y x) : IsLstsq (fun i => ω i • phi i) I y (unphase ω I x) where
  length := by simp [unphase, h.length]
  normal i hi := by rw [lin_phase hω, inner_smul_left, h.normal i hi, mul_zero]
  minNorm z hz hn := by
    have hω' : ∀ i, ‖conj (ω i)‖ = 1 := fun i => by rw [RCLike.norm_conj, hω]
    have e := lin_phase hω' (fun i => ω i • phi i) I z
    have e2 : (fun i => conj (ω i) • ω i • phi i) = phi := by
      funext i
      rw [smul_smul, conj_mul_phase hω, one_smul]
    rw [e2] at e
    rw [sum_unphase hω I x h.length, ← sum_unphase hω' I z hz]
    refine h.minNorm _ (by simp [unphase, hz]) fun i hi => ?_
    rw [e]
    have := hn i hi
    rw [inner_smul_left, mul_eq_zero] at this
    rcases this with h0 | h0
    · have := hω' i
      rw [h0, norm_zero] at this
      exact absurd this zero_ne_one
    · exact h0

/-- The state with the phases `ω` of the atoms taken off the coefficients; everything else as in `s`. -/
def GState.phase (ω : ℕ → 𝕜) (s : GState 𝕜 E) : GState 𝕜 E := { s with x := unphase ω s.I s.x }

include hω in
theorem mkState_phase (phi : ℕ → E) (y : E) (I : List ℕ) (x : List 𝕜) (k : ℕ) (Ip : List ℕ) :
    mkState (fun i => ω i • phi i) y I (unphase ω I x) k Ip = (mkState phi y I x k Ip).phase ω := by
  simp only [mkState, GState.phase, lin_phase hω]

include hω in
theorem normalizedStep_phase (phi : ℕ → E) (h : List 𝕜) (I : List ℕ) : normalizedStep (fun i => ω i • phi i) (unphaseAll ω h) I = normalizedStep phi h I := by
  have e : lin (fun i => ω i • phi i) I (gather 0 (unphaseAll ω h) I) = lin phi I (gather 0 h I) := by rw [gather_all, lin_phase hω]
  by_cases h0 : lin phi I (gather 0 h I) = 0
  · rw [normalizedStep, normalizedStep, if_pos h0, if_pos (e.trans h0)]
  · rw [normalizedStep, normalizedStep, if_neg h0, if_neg (fun h1 => h0 (e.symm.trans h1)), e, gather_all, sum_unphase hω _ _ (by simp [gather])]

section steps
variable (phi : ℕ → E) (n : ℕ) {lstsq lstsq' : List ℕ → E → List 𝕜}
  (hl : ∀ I y, IsLstsq phi I y (lstsq I y)) (hl' : ∀ I y, IsLstsq (fun i => ω i • phi i) I y (lstsq' I y)) (y : E) (K : ℕ)
include hω

theorem ihtInit_phase (mu : ℝ) : ihtInit (fun i => ω i • phi i) n mu y K = (ihtInit phi n mu y K).phase ω := by
  have e : gradStep n [] [] mu (unphaseAll ω (corr 𝕜 phi n y)) = unphaseAll ω (gradStep n [] [] mu (corr 𝕜 phi n y)) := gradStep_phase ω n [] [] mu _
  simp only [ihtInit, hardThresholdK, corr_phase, e, largest_all hω, gather_all]
  exact mkState_phase hω ..

theorem ihtBody_phase (mu : ℝ) (s : GState 𝕜 E) : ihtBody (fun i => ω i • phi i) n mu y K (s.phase ω) = (ihtBody phi n mu y K s).phase ω := by
  have e : gradStep n s.I (unphase ω s.I s.x) mu (unphaseAll ω (corr 𝕜 phi n s.r)) = unphaseAll ω (gradStep n s.I s.x mu (corr 𝕜 phi n s.r)) := gradStep_phase ω n _ _ mu _
  simp only [ihtBody, hardThresholdK, GState.phase, corr_phase, e, largest_all hω, gather_all]
  exact mkState_phase hω ..

include hl hl'

theorem lstsq_agree_phase (I : List ℕ) (y : E) : lstsq' I y = unphase ω I (lstsq I y) := lstsq_unique' _ I _ _ _ (hl' I _) (lstsq_phase hω phi I y _ (hl I y))

theorem htpBody_phase (mu : ℝ) (s : GState 𝕜 E) : htpBody (fun i => ω i • phi i) n mu lstsq' y K (s.phase ω) = (htpBody phi n mu lstsq y K s).phase ω := by
  have e : gradStep n s.I (unphase ω s.I s.x) mu (unphaseAll ω (corr 𝕜 phi n s.r)) = unphaseAll ω (gradStep n s.I s.x mu (corr 𝕜 phi n s.r)) := gradStep_phase ω n _ _ mu _
  simp only [htpBody, hardThresholdSorted, GState.phase, corr_phase, e, largest_all hω, lstsq_agree_phase hω phi hl hl']
  exact mkState_phase hω ..

theorem spInit_phase : spInit (fun i => ω i • phi i) n lstsq' y K = (spInit phi n lstsq y K).phase ω := by
  simp only [spInit, corr_phase, largest_all hω, lstsq_agree_phase hω phi hl hl']
  exact mkState_phase hω ..

theorem spBody_phase (s : GState 𝕜 E) : spBody (fun i => ω i • phi i) n lstsq' y K (s.phase ω) = (spBody phi n lstsq y K s).phase ω := by
  simp only [spBody, GState.phase, corr_phase, zeroAt_all, largest_all hω, lstsq_agree_phase hω phi hl hl', largest_unphase hω _ _ _ (hl _ y).length]
  exact mkState_phase hω ..

theorem cosampBody_phase (s : GState 𝕜 E) : cosampBody (fun i => ω i • phi i) n lstsq' y K (s.phase ω) = (cosampBody phi n lstsq y K s).phase ω := by
  simp only [cosampBody, GState.phase, corr_phase, zeroAt_all, largest_all hω, lstsq_agree_phase hω phi hl hl', largest_unphase hω _ _ _ (hl _ y).length, gather_unphase ω _ _ (hl _ y).length]
  exact mkState_phase hω ..

theorem cosampInit_phase (hs : (gather 0 (largestIndices (corr 𝕜 phi n y) (K + 2 * K)) (largestIndices (lstsq (largestIndices (corr 𝕜 phi n y) (K + 2 * K)) y) K)).Pairwise (· ≤ ·)) :
    cosampInit (fun i => ω i • phi i) n lstsq' y K = (cosampInit phi n lstsq y K).phase ω := by
  simp only [cosampInit, corr_phase, largest_all hω, lstsq_agree_phase hω phi hl hl', largest_unphase hω _ _ _ (hl _ y).length, gather_unphase ω _ _ (hl _ y).length]
  rw [List.mergeSort_of_pairwise (by simpa using hs)]
  exact mkState_phase hω ..

end steps

section solvers
variable (ω) (phi : ℕ → E) (n : ℕ) (lstsq lstsq' : List ℕ → E → List 𝕜)
  (hl : ∀ I y, IsLstsq phi I y (lstsq I y)) (hl' : ∀ I y, IsLstsq (fun i => ω i • phi i) I y (lstsq' I y)) (y : E) (K maxIters : ℕ) (rtol : ℝ)
  (s : GState 𝕜 E)
include hω

theorem phaseIff {c : GState 𝕜 E → Prop} {f f' : GState 𝕜 E → GState 𝕜 E} {s0 s0' s : GState 𝕜 E} (hc : ∀ s, c (s.phase ω) ↔ c s) (hf : ∀ s, f' (s.phase ω) = (f s).phase ω)
    (h0 : s0' = s0.phase ω) (h : Out c f s0 s) (s' : GState 𝕜 E) : Out c f' s0' s' ↔ s' = { s with x := List.zipWith (fun i c => conj (ω i) * c) s.I s.x } := by
  have h' := outMap (GState.phase ω) hc hf h
  rw [← h0] at h'
  exact ⟨fun h1 => Out.unique h1 h', fun e => e ▸ h'⟩

/-- **C161** (iterative hard thresholding, any step) Multiply each atom by its own sign or phase `ω i`. If the solver returns `s` for the original dictionary then for the new one it
returns exactly the same support, residual and number of iterations, and each coefficient multiplied by the conjugate phase of its atom. -/
theorem c161_iht (mu : ℝ) (h : IhtSolve phi n mu y K maxIters rtol s) (s' : GState 𝕜 E) :
    IhtSolve (fun i => ω i • phi i) n mu y K maxIters rtol s' ↔ s' = { s with x := List.zipWith (fun i c => conj (ω i) * c) s.I s.x } :=
  phaseIff ω hω (fun _ => Iff.rfl) (ihtBody_phase hω phi n y K mu) (ihtInit_phase hω phi n y K mu) h s'

/-- **C161** (iterative hard thresholding with normalised step) as `c161_iht`; the result is NaN for one dictionary exactly if it is NaN for the other. -/
theorem c161_niht (s : Option (GState 𝕜 E)) (h : NihtSolve phi n y K maxIters rtol s) (s' : Option (GState 𝕜 E)) :
    NihtSolve (fun i => ω i • phi i) n y K maxIters rtol s' ↔ s' = s.map fun s => { s with x := List.zipWith (fun i c => conj (ω i) * c) s.I s.x } := by
  have h' : NihtSolve (fun i => ω i • phi i) n y K maxIters rtol (s.map (GState.phase ω)) := by
    have e0 : nihtInit (𝕜 := 𝕜) (fun i => ω i • phi i) n y K = (nihtInit phi n y K).map (GState.phase ω) := by
      simp only [nihtInit, corr_phase, normalizedStep_phase hω, ihtInit_phase hω, Option.map_map, Function.comp_def]
    rw [NihtSolve, e0]
    refine outMap (Option.map (GState.phase ω)) (fun s => ?_) (fun s => ?_) h
    · cases s with
      | none => exact Iff.rfl
      | some s => exact Iff.rfl
    · cases s with
      | none => rfl
      | some s =>
        simp only [Option.map_some, Option.bind_some, nihtBody]
        have : corr 𝕜 (fun i => ω i • phi i) n (s.phase ω).r = unphaseAll ω (corr 𝕜 phi n s.r) := corr_phase ω phi n s.r
        rw [this]
        show (normalizedStep (fun i => ω i • phi i) _ s.I).map _ = _
        rw [normalizedStep_phase hω, Option.map_map]
        congr 1
        funext mu
        exact ihtBody_phase hω phi n y K mu s
  exact ⟨fun h1 => Out.unique h1 h', fun e => e ▸ h'⟩

include hl hl'

/-- **C161** (hard thresholding pursuit) as `c161_iht`. -/
theorem c161_htp (mu : ℝ) (h : HtpSolve phi n mu lstsq y K maxIters rtol s) (s' : GState 𝕜 E) :
    HtpSolve (fun i => ω i • phi i) n mu lstsq' y K maxIters rtol s' ↔ s' = { s with x := List.zipWith (fun i c => conj (ω i) * c) s.I s.x } :=
  phaseIff ω hω (fun _ => Iff.rfl) (htpBody_phase hω phi n hl hl' y K mu) (ihtInit_phase hω phi n y K mu) h s'

/-- **C161** (subspace pursuit, `matrix_solve`) as `c161_iht`. -/
theorem c161_sp_matrix (h : SpMatrixSolve phi n lstsq y K maxIters rtol s) (s' : GState 𝕜 E) :
    SpMatrixSolve (fun i => ω i • phi i) n lstsq' y K maxIters rtol s' ↔ s' = { s with x := List.zipWith (fun i c => conj (ω i) * c) s.I s.x } :=
  phaseIff ω hω (fun _ => Iff.rfl) (spBody_phase hω phi n hl hl' y K) (spInit_phase hω phi n hl hl' y K) h s'

omit hl hl' hω in
theorem rescale_phase (a : ℝ) (t : GState 𝕜 E) : rescale a (t.phase ω) = (rescale a t).phase ω := by
  simp only [rescale, GState.phase, unphase]
  congr 1
  rw [List.map_zipWith, List.zipWith_map_right]
  congr 1
  funext i c
  ring

/-- **C161** (subspace pursuit, `operator_solve`) as `c161_iht`. -/
theorem c161_sp_operator (h : SpOperatorSolve phi n lstsq y K maxIters rtol s) (s' : GState 𝕜 E) :
    SpOperatorSolve (fun i => ω i • phi i) n lstsq' y K maxIters rtol s' ↔ s' = { s with x := List.zipWith (fun i c => conj (ω i) * c) s.I s.x } := by
  obtain ⟨t, ht, rfl⟩ := h
  have h' := phaseIff ω hω (fun _ => Iff.rfl) (spBody_phase hω phi n hl hl' _ K) (spInit_phase hω phi n hl hl' _ K) ht
  have e : _ = { rescale ‖y‖ t with x := List.zipWith (fun i c => conj (ω i) * c) (rescale ‖y‖ t).I (rescale ‖y‖ t).x } := rescale_phase ω ‖y‖ t
  exact ⟨fun ⟨t', ht', e'⟩ => by rw [e', (h' t').1 ht']; exact e, fun e' => ⟨_, (h' _).2 rfl, e'.trans e.symm⟩⟩

/-- **C161** (CoSaMP, `matrix_solve`) as `c161_iht`, if the support of the first state comes out in ascending order (always for `K = 1`).
Missing: `init` sorts the support without its coefficients, so in general the property is false (`c161_cosamp_fails`). -/
theorem c161_cosamp_matrix_partial
    (hs : (gather 0 (largestIndices (corr 𝕜 phi n y) (K + 2 * K)) (largestIndices (lstsq (largestIndices (corr 𝕜 phi n y) (K + 2 * K)) y) K)).Pairwise (· ≤ ·))
    (h : CosampMatrixSolve phi n lstsq y K maxIters rtol s) (s' : GState 𝕜 E) :
    CosampMatrixSolve (fun i => ω i • phi i) n lstsq' y K maxIters rtol s' ↔ s' = { s with x := List.zipWith (fun i c => conj (ω i) * c) s.I s.x } :=
  phaseIff ω hω (fun _ => Iff.rfl) (cosampBody_phase hω phi n hl hl' y K) (cosampInit_phase hω phi n hl hl' y K hs) h s'

omit hω hl hl' in
theorem pairwise_one (I : List ℕ) (x : List 𝕜) : (gather 0 I (largestIndices x 1)).Pairwise (· ≤ ·) := by
  rw [gather, largestIndices]
  rcases (argsort (x.map fun x => ‖x‖)).reverse with _ | ⟨a, l⟩
  · simp
  · simp

/-- **C161** (CoSaMP, `operator_solve`, `K = 1`) as `c161_iht`. -/
theorem c161_cosamp_operator_partial (h : CosampOperatorSolve phi n lstsq y 1 maxIters rtol s) (s' : GState 𝕜 E) :
    CosampOperatorSolve (fun i => ω i • phi i) n lstsq' y 1 maxIters rtol s' ↔ s' = { s with x := List.zipWith (fun i c => conj (ω i) * c) s.I s.x } := by
  obtain ⟨t, ht, rfl⟩ := h
  have h' := phaseIff ω hω (fun _ => Iff.rfl) (cosampBody_phase hω phi n hl hl' _ 1) (cosampInit_phase hω phi n hl hl' _ 1 (pairwise_one _ _)) ht
  have e : _ = { rescale ‖y‖ t with x := List.zipWith (fun i c => conj (ω i) * c) (rescale ‖y‖ t).I (rescale ‖y‖ t).x } := rescale_phase ω ‖y‖ t
  exact ⟨fun ⟨t', ht', e'⟩ => by rw [e', (h' t').1 ht']; exact e, fun e' => ⟨_, (h' _).2 rfl, e'.trans e.symm⟩⟩

end solvers
end phase

/-! ## Matching pursuit and orthogonal matching pursuit (real data): signs -/

section real
variable {E : Type*} [NormedAddCommGroup E] [InnerProductSpace ℝ E] {ω : ℕ → ℝ} (hω : ∀ i, ω i = 1 ∨ ω i = -1)

theorem sign_norm {a : ℝ} (h : a = 1 ∨ a = -1) : ‖a‖ = 1 := by rcases h with rfl | rfl <;> simp

theorem sign_mul {a : ℝ} (h : a = 1 ∨ a = -1) : a * a = 1 := by rcases h with rfl | rfl <;> norm_num

theorem getD_allR (ω : ℕ → ℝ) (h : List ℝ) (i : ℕ) : (unphaseAll ω h).getD i 0 = ω i * h.getD i 0 := getD_all ω h i

/-- The state of matching pursuit for the dictionary with the signs `ω`. -/
def MpState.flip (ω : ℕ → ℝ) (s : MpState E) : MpState E := { s with x := fun i => ω i * s.x i }

include hω in
/-- **C161** (matching pursuit) With the signs of the atoms changed, matching pursuit returns the coefficients with the signs changed, and everything else unchanged. -/
theorem c161_mp (phi : ℕ → E) (n : ℕ) (y : E) (rtol : ℝ) (maxIters : ℕ) (s : MpState E)
    (h : Out (mpCond y rtol maxIters) (mpStep phi n y) (mpInit y) s) (s' : MpState E) :
    Out (mpCond y rtol maxIters) (mpStep (fun i => ω i • phi i) n y) (mpInit y) s' ↔ s' = { s with x := fun i => ω i * s.x i } := by
  have e0 : mpInit y = (mpInit y).flip ω := by simp only [mpInit, MpState.flip, mul_zero]
  have h' : Out (mpCond y rtol maxIters) (mpStep (fun i => ω i • phi i) n y) (mpInit y) (s.flip ω) := by
    rw [e0]
    refine outMap (MpState.flip ω) (fun s => Iff.rfl) (fun s => ?_) h
    have hi : ∀ h : List ℝ, argmax ((unphaseAll ω h).map fun x => |x|) = argmax (h.map fun x => |x|) := fun h => absMaxIdx_all (𝕜 := ℝ) (fun i => sign_norm (hω i)) h
    simp only [mpStep, MpState.flip, corr_phase, hi, getD_allR]
    congr 1
    · funext i
      by_cases hb : i = argmax ((corr ℝ phi n s.r).map fun x => |x|)
      · subst hb; simp only [Function.update_self]; ring
      · simp only [Function.update_of_ne hb]
    · rw [smul_smul, mul_right_comm, sign_mul (hω _), one_mul]
  exact ⟨fun h1 => Out.unique h1 h', fun e => e ▸ h'⟩

theorem fwdSub_sign {d : ℕ → ℝ} (hd : ∀ i, d i = 1 ∨ d i = -1) (L : ℕ → ℕ → ℝ) (b : ℕ → ℝ) (i : ℕ) : fwdSub (fun i j => d i * L i j * d j) (fun j => d j * b j) i = d i * fwdSub L b i := by
  induction i using Nat.strong_induction_on with
  | _ i ih =>
    rw [fwdSub.eq_def, fwdSub.eq_def L b i]
    have e : ∑ j : Fin i, d i * L i j * d j * fwdSub (fun i j => d i * L i j * d j) (fun j => d j * b j) j = ∑ j : Fin i, d i * (L i j * fwdSub L b j) :=
      Finset.sum_congr rfl fun j _ => by rw [ih j j.2]; linear_combination (d i * L i j * fwdSub L b j) * sign_mul (hd j)
    rw [e, ← Finset.mul_sum, ← mul_sub, mul_div_assoc]
    congr 2
    linear_combination L i i * sign_mul (hd i)

theorem backSub_sign {d : ℕ → ℝ} (hd : ∀ i, d i = 1 ∨ d i = -1) (L : ℕ → ℕ → ℝ) (k : ℕ) (b : ℕ → ℝ) (i : ℕ) :
    backSub (fun i j => d i * L i j * d j) k (fun j => d j * b j) i = d i * backSub L k b i := by
  induction h : k - i using Nat.strong_induction_on generalizing i with
  | _ m ih =>
    rw [backSub.eq_def, backSub.eq_def L k b i]
    have e : ∑ j : Fin (k - (i + 1)), d (i + 1 + j) * L (i + 1 + j) i * d i * backSub (fun i j => d i * L i j * d j) k (fun j => d j * b j) (i + 1 + j) =
        ∑ j : Fin (k - (i + 1)), d i * (L (i + 1 + j) i * backSub L k b (i + 1 + j)) :=
      Finset.sum_congr rfl fun j _ => by
        rw [ih (k - (i + 1 + j)) (by omega) (i + 1 + j) rfl]
        linear_combination (d i * L (i + 1 + j) i * backSub L k b (i + 1 + j)) * sign_mul (hd (i + 1 + j))
    rw [e, ← Finset.mul_sum, ← mul_sub, mul_div_assoc]
    congr 2
    linear_combination L i i * sign_mul (hd i)

theorem solveSpdChol_sign {d : ℕ → ℝ} (hd : ∀ i, d i = 1 ∨ d i = -1) (L : ℕ → ℕ → ℝ) (k : ℕ) (b : ℕ → ℝ) :
    solveSpdChol (fun i j => d i * L i j * d j) k (fun j => d j * b j) = fun i => d i * solveSpdChol L k b i := by
  funext i
  have : fwdSub (fun i j => d i * L i j * d j) (fun j => d j * b j) = fun i => d i * fwdSub L b i := funext fun i => fwdSub_sign hd L b i
  rw [solveSpdChol, solveSpdChol, this, backSub_sign hd]

/-- The state of orthogonal matching pursuit for the dictionary with the signs `ω`. -/
def OmpState.flip (ω : ℕ → ℝ) (s : OmpState E) : OmpState E :=
  { s with phiI := fun j => ω (s.I j) • s.phiI j, x := fun j => ω (s.I j) * s.x j, L := fun a b => ω (s.I a) * s.L a b * ω (s.I b) }

include hω

theorem gramCholUpdate_sign (L : ℕ → ℕ → ℝ) (k : ℕ) (v : ℕ → ℝ) (I : ℕ → ℕ) (i : ℕ) :
    gramCholUpdate (fun a b => ω (I a) * L a b * ω (I b)) k (fun j => ω (I j) * ω i * v j) =
      fun a b => ω (Function.update I k i a) * gramCholUpdate L k v a b * ω (Function.update I k i b) := by
  have hw : fwdSub (fun a b => ω (I a) * L a b * ω (I b)) (fun j => ω (I j) * ω i * v j) = fun j => ω (I j) * (ω i * fwdSub L v j) := by
    funext j
    have := fwdSub_sign (d := fun j => ω (I j)) (fun j => hω _) L (fun j => ω i * v j) j
    simp only [← mul_assoc] at this ⊢
    rw [this, fwdSub_scale]
    ring
  have hs : ∀ j, ω (I j) * (ω i * fwdSub L v j) * (ω (I j) * (ω i * fwdSub L v j)) = fwdSub L v j * fwdSub L v j := fun j => by
    linear_combination (ω i * ω i * fwdSub L v j * fwdSub L v j) * sign_mul (hω (I j)) + (fwdSub L v j * fwdSub L v j) * sign_mul (hω i)
  funext a b
  simp only [gramCholUpdate, hw, hs]
  rcases lt_trichotomy a k with ha | rfl | ha
  · rw [if_pos ha, if_pos ha, Function.update_of_ne ha.ne]
    split_ifs with hb
    · rw [Function.update_of_ne hb.ne]
    · simp
  · rw [if_neg (lt_irrefl _), if_pos rfl, if_neg (lt_irrefl _), if_pos rfl, Function.update_self]
    rcases lt_trichotomy b a with hb | rfl | hb
    · rw [if_pos hb, if_pos hb, Function.update_of_ne hb.ne]; ring
    · simp only [lt_irrefl, if_false, if_true, Function.update_self]
      linear_combination (-(√(1 - ∑ j ∈ Finset.range b, fwdSub L v j * fwdSub L v j))) * sign_mul (hω i)
    · simp only [hb.not_gt, hb.ne', if_false]; ring
  · rw [if_neg ha.not_gt, if_neg ha.ne', if_neg ha.not_gt, if_neg ha.ne']; ring

theorem ompInit_flip (phi : ℕ → E) (n : ℕ) (y : E) : ompInit (fun i => ω i • phi i) n y = (ompInit phi n y).flip ω := by
  have e : ∀ i (a : ℝ), (ω i * a) • ω i • phi i = a • phi i := fun i a => by rw [smul_smul, mul_right_comm, sign_mul (hω i), one_mul]
  simp only [ompInit, OmpState.flip, corr_phase, absMaxIdx_all (𝕜 := ℝ) (fun i => sign_norm (hω i)), getD_allR, e, mul_one, sign_mul (hω _)]

theorem ompStep_flip (phi : ℕ → E) (n : ℕ) (y : E) (s : OmpState E) : ompStep (fun i => ω i • phi i) n y (s.flip ω) = (ompStep phi n y s).flip ω := by
  set i := absMaxIdx (corr ℝ phi n s.r) with hi
  have hP : Function.update (fun j => ω (s.I j) • s.phiI j) s.k (ω i • phi i) = fun j => ω (Function.update s.I s.k i j) • Function.update s.phiI s.k (phi i) j := by
    funext j
    by_cases hj : j = s.k
    · subst hj; simp
    · simp [Function.update_of_ne hj]
  have hv : (fun j => inner ℝ (ω (s.I j) • s.phiI j) (ω i • phi i)) = fun j => ω (s.I j) * ω i * inner ℝ (s.phiI j) (phi i) := by
    funext j
    rw [real_inner_smul_left, real_inner_smul_right, mul_assoc]
  have e : ∀ i (a : ℝ) (v : E), (ω i * a) • ω i • v = a • v := fun i a v => by rw [smul_smul, mul_right_comm, sign_mul (hω i), one_mul]
  simp only [ompStep, OmpState.flip, corr_phase, absMaxIdx_all (𝕜 := ℝ) (fun i => sign_norm (hω i)), getD_allR, ← hi, hv, hP, gramCholUpdate_sign hω]
  have hx := solveSpdChol_sign (d := fun j => ω (Function.update s.I s.k i j)) (fun j => hω _) (gramCholUpdate s.L s.k fun j => inner ℝ (s.phiI j) (phi i)) (s.k + 1)
    fun j => (corr ℝ phi n y).getD (Function.update s.I s.k i j) 0
  simp only [hx, e]

/-- **C161** (OMP, `matrix_solve`) With the signs of the atoms changed, OMP chooses the same atoms in the same order and returns the same residual; the coefficients (and rows and columns of
the Cholesky factor) change signs accordingly. -/
theorem c161_omp_matrix (phi : ℕ → E) (n : ℕ) (y : E) (K : ℕ) :
    ompMatrixSolve (fun i => ω i • phi i) n y K =
      (ompMatrixSolve phi n y K).map fun s => { s with phiI := fun j => ω (s.I j) • s.phiI j, x := fun j => ω (s.I j) * s.x j, L := fun a b => ω (s.I a) * s.L a b * ω (s.I b) } := by
  have : ∀ j, (ompStep (fun i => ω i • phi i) n y)^[j] (ompInit (fun i => ω i • phi i) n y) = ((ompStep phi n y)^[j] (ompInit phi n y)).flip ω := by
    intro j
    induction j with
    | zero => exact ompInit_flip hω phi n y
    | succ j ih => rw [Function.iterate_succ_apply', Function.iterate_succ_apply', ih, ompStep_flip hω]
  rw [ompMatrixSolve, ompMatrixSolve]
  split_ifs
  · rfl
  · rw [this, Option.map_some]; rfl

/-- **C161** (OMP, `operator_solve`) as `c161_omp_matrix`. -/
theorem c161_omp_operator (phi : ℕ → E) (n : ℕ) (y : E) (K : ℕ) (rtol : ℝ) (s : OmpState E) (h : OmpOperatorSolve phi n y K rtol s) (s' : OmpState E) :
    OmpOperatorSolve (fun i => ω i • phi i) n y K rtol s' ↔
      s' = { s with phiI := fun j => ω (s.I j) • s.phiI j, x := fun j => ω (s.I j) * s.x j, L := fun a b => ω (s.I a) * s.L a b * ω (s.I b) } := by
  obtain ⟨t, ht, rfl⟩ := h
  have h' : Out (ompCond K rtol) (ompStep (fun i => ω i • phi i) n ((1 / ‖y‖) • y)) (ompOpInit (fun i => ω i • phi i) n ((1 / ‖y‖) • y)) (t.flip ω) := by
    have ei : ompOpInit (fun i => ω i • phi i) n ((1 / ‖y‖) • y) = (ompOpInit phi n ((1 / ‖y‖) • y)).flip ω := by
      rw [ompOpInit, ompInit_flip hω, ompOpInit]
      rfl
    rw [ei]
    exact outMap (OmpState.flip ω) (fun s => Iff.rfl) (ompStep_flip hω phi n _) ht
  have hx : (fun j => ‖y‖ * (ω (t.I j) * t.x j)) = fun j => ω (t.I j) * (‖y‖ * t.x j) := funext fun j => mul_left_comm _ _ _
  constructor
  · rintro ⟨t', ht', rfl⟩
    rw [Out.unique ht' h']
    simp only [OmpState.flip, hx]
  · rintro rfl
    refine ⟨_, h', ?_⟩
    simp only [OmpState.flip, hx]

end real

/-! ## Order of the atoms -/

section order
variable {E : Type*} [NormedAddCommGroup E] [InnerProductSpace ℝ E]

/-- One of the first `n` atoms is more correlated with `r` than all the others. -/
def NoTie (phi : ℕ → E) (n : ℕ) (r : E) : Prop := ∃ i, i < n ∧ ∀ j, j < n → j ≠ i → |inner ℝ (phi j) r| < |inner ℝ (phi i) r|

theorem corr_getD_in (phi : ℕ → E) {n : ℕ} (r : E) {i : ℕ} (hi : i < n) : (corr ℝ phi n r).getD i 0 = inner ℝ (phi i) r := by simp [corr, hi]

theorem corr_getD_out (phi : ℕ → E) {n : ℕ} (r : E) {i : ℕ} (hi : n ≤ i) : (corr ℝ phi n r).getD i 0 = 0 := by simp [corr, hi]

theorem absMaxIdx_eq {phi : ℕ → E} {n : ℕ} {r : E} {i : ℕ} (hi : i < n) (h : ∀ j, j < n → j ≠ i → |inner ℝ (phi j) r| < |inner ℝ (phi i) r|) : absMaxIdx (corr ℝ phi n r) = i := by
  have hlen : (corr ℝ phi n r).length = n := by simp [corr]
  obtain ⟨h1, h2, -⟩ := c51_abs_max_idx (corr ℝ phi n r) (by
    intro h0
    rw [h0] at hlen
    simp at hlen
    omega)
  rw [hlen] at h1 h2
  by_contra hne
  have := h2 i hi
  rw [corr_getD_in phi r h1, corr_getD_in phi r hi] at this
  exact absurd (h _ h1 hne) (not_lt.2 this)

variable {π : Equiv.Perm ℕ} {n : ℕ} (hπ : ∀ i, π i < n ↔ i < n)
include hπ

theorem absMaxIdx_perm {phi : ℕ → E} {r : E} (h : NoTie phi n r) : absMaxIdx (corr ℝ (fun i => phi (π i)) n r) = π.symm (absMaxIdx (corr ℝ phi n r)) := by
  obtain ⟨i, hi, h⟩ := h
  rw [absMaxIdx_eq hi h]
  refine absMaxIdx_eq ((hπ _).1 (by rwa [Equiv.apply_symm_apply])) fun j hj hne => ?_
  rw [Equiv.apply_symm_apply]
  exact h _ ((hπ j).2 hj) fun e => hne (by rw [← e, Equiv.symm_apply_apply])

theorem corr_perm_getD (phi : ℕ → E) (r : E) (a : ℕ) : (corr ℝ (fun i => phi (π i)) n r).getD (π.symm a) 0 = (corr ℝ phi n r).getD a 0 := by
  have e := hπ (π.symm a)
  rw [Equiv.apply_symm_apply] at e
  by_cases ha : a < n
  · rw [corr_getD_in phi r ha, corr_getD_in _ r (e.1 ha), Equiv.apply_symm_apply]
  · rw [corr_getD_out phi r (not_lt.1 ha), corr_getD_out _ r (not_lt.1 fun h => ha (e.2 h))]

omit hπ in
/-- The state of matching pursuit for the reordered dictionary. -/
def MpState.perm (π : Equiv.Perm ℕ) (s : MpState E) : MpState E := { s with x := fun i => s.x (π i) }

/-- **C161** (matching pursuit) Listing the atoms in another order only reorders the coefficients, if in every iteration one atom is more correlated with the residual than the others. -/
theorem c161_mp_order (phi : ℕ → E) (y : E) (rtol : ℝ) (maxIters : ℕ) (s : MpState E)
    (hu : ∀ s, Reach (mpCond y rtol maxIters) (mpStep phi n y) (mpInit y) s → mpCond y rtol maxIters s → NoTie phi n s.r)
    (h : Out (mpCond y rtol maxIters) (mpStep phi n y) (mpInit y) s) (s' : MpState E) :
    Out (mpCond y rtol maxIters) (mpStep (fun i => phi (π i)) n y) (mpInit y) s' ↔ s' = { s with x := fun i => s.x (π i) } := by
  refine Out.map (c := mpCond y rtol maxIters) (f := mpStep phi n y) (s0 := mpInit y) (MpState.perm π) (fun s _ => Iff.rfl) (fun s hr hc => ?_) h s'
  have hi : argmax ((corr ℝ (fun i => phi (π i)) n s.r).map fun x => |x|) = π.symm (argmax ((corr ℝ phi n s.r).map fun x => |x|)) := absMaxIdx_perm hπ (hu s hr hc)
  simp only [mpStep, MpState.perm, hi, corr_perm_getD hπ, Equiv.apply_symm_apply]
  congr 1
  funext i
  by_cases hb : i = π.symm (argmax ((corr ℝ phi n s.r).map fun x => |x|))
  · subst hb; simp only [Function.update_self, Equiv.apply_symm_apply]
  · rw [Function.update_of_ne hb, Function.update_of_ne fun e => hb (by rw [← e, Equiv.symm_apply_apply])]

omit hπ in
/-- The state of orthogonal matching pursuit for the reordered dictionary. -/
def OmpState.perm (π : Equiv.Perm ℕ) (s : OmpState E) : OmpState E := { s with I := fun j => π.symm (s.I j) }

theorem ompInit_perm (phi : ℕ → E) (y : E) (h : NoTie phi n y) : ompInit (fun i => phi (π i)) n y = (ompInit phi n y).perm π := by
  simp only [ompInit, OmpState.perm, absMaxIdx_perm hπ h, corr_perm_getD hπ, Equiv.apply_symm_apply]

theorem ompStep_perm (phi : ℕ → E) (y : E) (s : OmpState E) (h : NoTie phi n s.r) : ompStep (fun i => phi (π i)) n y (s.perm π) = (ompStep phi n y s).perm π := by
  have hI : ∀ i, Function.update (fun j => π.symm (s.I j)) s.k (π.symm i) = fun j => π.symm (Function.update s.I s.k i j) := by
    intro i
    funext j
    by_cases hj : j = s.k
    · subst hj; simp
    · simp [Function.update_of_ne hj]
  simp only [ompStep, OmpState.perm, absMaxIdx_perm hπ h, Equiv.apply_symm_apply, hI, corr_perm_getD hπ]

/-- **C161** (OMP, `matrix_solve`) Listing the atoms in another order only renames the chosen atoms, if in every iteration one atom is more correlated with the residual than the others. -/
theorem c161_omp_matrix_order (phi : ℕ → E) (y : E) (K : ℕ) (h0 : NoTie phi n y) (hu : ∀ j, j + 1 < K → NoTie phi n ((ompStep phi n y)^[j] (ompInit phi n y)).r) :
    ompMatrixSolve (fun i => phi (π i)) n y K = (ompMatrixSolve phi n y K).map fun s => { s with I := fun j => π.symm (s.I j) } := by
  have : ∀ j, j < K → (ompStep (fun i => phi (π i)) n y)^[j] (ompInit (fun i => phi (π i)) n y) = ((ompStep phi n y)^[j] (ompInit phi n y)).perm π := by
    intro j
    induction j with
    | zero => exact fun _ => ompInit_perm hπ phi y h0
    | succ j ih =>
      intro hj
      rw [Function.iterate_succ_apply', Function.iterate_succ_apply', ih (by omega), ompStep_perm hπ phi y _ (hu j hj)]
  rw [ompMatrixSolve, ompMatrixSolve]
  split_ifs with hK
  · rfl
  · rw [this _ (by omega), Option.map_some]; rfl

/-- **C161** (OMP, `operator_solve`) as `c161_omp_matrix_order`. -/
theorem c161_omp_operator_order (phi : ℕ → E) (y : E) (K : ℕ) (rtol : ℝ) (s : OmpState E) (h0 : NoTie phi n ((1 / ‖y‖) • y))
    (hu : ∀ s, Reach (ompCond K rtol) (ompStep phi n ((1 / ‖y‖) • y)) (ompOpInit phi n ((1 / ‖y‖) • y)) s → ompCond K rtol s → NoTie phi n s.r)
    (h : OmpOperatorSolve phi n y K rtol s) (s' : OmpState E) :
    OmpOperatorSolve (fun i => phi (π i)) n y K rtol s' ↔ s' = { s with I := fun j => π.symm (s.I j) } := by
  obtain ⟨t, ht, rfl⟩ := h
  have h' : ∀ t', Out (ompCond K rtol) (ompStep (fun i => phi (π i)) n ((1 / ‖y‖) • y)) (ompOpInit (fun i => phi (π i)) n ((1 / ‖y‖) • y)) t' ↔ t' = t.perm π := by
    have ei : ompOpInit (fun i => phi (π i)) n ((1 / ‖y‖) • y) = (ompOpInit phi n ((1 / ‖y‖) • y)).perm π := by
      rw [ompOpInit, ompInit_perm hπ phi _ h0, ompOpInit]
      rfl
    rw [ei]
    exact Out.map (c := ompCond K rtol) (f := ompStep phi n ((1 / ‖y‖) • y)) (s0 := ompOpInit phi n ((1 / ‖y‖) • y)) (OmpState.perm π) (fun s _ => Iff.rfl)
      (fun s hr hc => ompStep_perm hπ phi _ s (hu s hr hc)) ht
  constructor
  · rintro ⟨t', ht', rfl⟩
    rw [(h' t').1 ht']
    rfl
  · rintro rfl
    exact ⟨_, (h' _).2 rfl, rfl⟩

end order

/-- **C161** with ties the order of the atoms matters: of two equal atoms OMP uses the one listed first. -/
theorem c161_order_fails (rtol : ℝ) : ∃ s, OmpOperatorSolve (fun _ => (1 : ℝ)) 2 1 1 rtol s ∧ s.I 0 = 0 ∧
    ¬ OmpOperatorSolve (fun i => (fun _ => (1 : ℝ)) (Equiv.swap 0 1 i)) 2 1 1 rtol { s with I := fun j => (Equiv.swap 0 1).symm (s.I j) } := by
  have hi : ∀ y : ℝ, absMaxIdx (corr ℝ (fun _ : ℕ => (1 : ℝ)) 2 y) = 0 := fun y => by simp [absMaxIdx, argmax, argmaxFrom, corr, List.range_succ]
  have hr : Out (ompCond 1 rtol) (ompStep (fun _ => (1 : ℝ)) 2 ((1 / ‖(1 : ℝ)‖) • 1)) (ompOpInit (fun _ => (1 : ℝ)) 2 ((1 / ‖(1 : ℝ)‖) • 1)) (ompOpInit (fun _ => (1 : ℝ)) 2 ((1 / ‖(1 : ℝ)‖) • 1)) :=
    ⟨.init, fun h => absurd h.2 (by simp [ompOpInit, ompInit])⟩
  have h0 : (ompOpInit (fun _ => (1 : ℝ)) 2 ((1 / ‖(1 : ℝ)‖) • 1)).I 0 = 0 := hi _
  refine ⟨_, ⟨_, hr, rfl⟩, h0, ?_⟩
  rintro ⟨t, ht, e⟩
  have := Out.unique ht hr
  subst this
  have := congrFun (congrArg OmpState.I e) 0
  simp only [h0] at this
  simp at this

/-- **C161** CoSaMP does depend on the signs of the atoms: for the orthonormal atoms `1`, `i` and `y = 1 + 2i` its first state has coefficients `2, 1`; with the second atom negated it has
`-2, 1`, where `2, -1` would correspond. -/
theorem c161_cosamp_fails (lstsq lstsq' : List ℕ → ℂ → List ℝ) (hl : ∀ I y, IsLstsq planeAtoms I y (lstsq I y))
    (hl' : ∀ I y, IsLstsq (fun i => (if i = 1 then (-1 : ℝ) else 1) • planeAtoms i) I y (lstsq' I y)) :
    ∃ s s', CosampMatrixSolve planeAtoms 2 lstsq ⟨1, 2⟩ 2 1 0 s ∧ CosampMatrixSolve (fun i => (if i = 1 then (-1 : ℝ) else 1) • planeAtoms i) 2 lstsq' ⟨1, 2⟩ 2 1 0 s' ∧
      s.I = [0, 1] ∧ s'.I = [0, 1] ∧ s.x = [2, 1] ∧ s'.x = [-2, 1] := by
  have hω : ∀ i : ℕ, ‖(if i = 1 then (-1 : ℝ) else 1)‖ = 1 := fun i => by split_ifs <;> simp
  have hc : corr ℝ planeAtoms 2 (⟨1, 2⟩ : ℂ) = [1, 2] := by
    simp only [corr, List.range_succ, List.range_zero, List.nil_append, List.cons_append, List.map_cons, List.map_nil, plane0, plane1]
  have hJ : largestIndices (corr ℝ planeAtoms 2 (⟨1, 2⟩ : ℂ)) (2 + 2 * 2) = [1, 0] := by
    rw [hc]; exact largest_two_lt 1 2 (by norm_num) _ (by norm_num)
  have hx : lstsq [1, 0] ⟨1, 2⟩ = [2, 1] := by
    have h := hl [1, 0] ⟨1, 2⟩
    have hlen := h.length
    match hz : lstsq [1, 0] ⟨1, 2⟩, hlen with
    | [a, b], _ =>
      rw [hz] at h
      have n0 := h.normal 0 (by simp)
      have n1 := h.normal 1 (by simp)
      rw [plane0] at n0
      rw [plane1] at n1
      simp [lin, planeAtoms] at n0 n1
      have : a = 2 := by linarith
      have : b = 1 := by linarith
      subst a; subst b; rfl
  have hx' : lstsq' [1, 0] ⟨1, 2⟩ = [-2, 1] := by
    rw [lstsq_agree_phase hω planeAtoms hl hl', hx]
    simp [unphase]
  refine ⟨cosampInit planeAtoms 2 lstsq ⟨1, 2⟩ 2, cosampInit (fun i => (if i = 1 then (-1 : ℝ) else 1) • planeAtoms i) 2 lstsq' ⟨1, 2⟩ 2, ⟨.init, fun h => absurd h.2 (lt_irrefl 1)⟩,
    ⟨.init, fun h => absurd h.2 (lt_irrefl 1)⟩, ?_⟩
  have hL : largestIndices [(2 : ℝ), 1] 2 = [0, 1] := largest_two_gt 2 1 (by norm_num) _ le_rfl
  have hL' : largestIndices [(-2 : ℝ), 1] 2 = [0, 1] := by
    have := largest_unphase hω [1, 0] [(2 : ℝ), 1] 2 rfl
    rw [hL] at this
    simpa [unphase] using this
  simp only [cosampInit, mkState, corr_phase, largest_all hω, hJ, hx, hx', hL, hL', gather]
  simp [List.mergeSort]

/-! ## Concrete instances -/

/-- Signs `+, -, +, -, …`. -/
def exSigns (i : ℕ) : ℝ := (-1) ^ i

theorem exSigns_ok (i : ℕ) : exSigns i = 1 ∨ exSigns i = -1 := neg_one_pow_eq_or ℝ i

theorem exSigns_norm (i : ℕ) : ‖exSigns i‖ = 1 := sign_norm (exSigns_ok i)

example (s : GState ℝ (EuclideanSpace ℝ (Fin 4))) (h : IhtSolve exAtoms4 4 1 !₂[1, 1, 1, 1] 2 20 (1e-3) s) := c161_iht exSigns exSigns_norm exAtoms4 4 _ 2 20 (1e-3) s 1 h
example (s : Option (GState ℝ (EuclideanSpace ℝ (Fin 4)))) (h : NihtSolve exAtoms4 4 !₂[1, 1, 1, 1] 2 20 (1e-3) s) := c161_niht exSigns exSigns_norm exAtoms4 4 _ 2 20 (1e-3) s h
example (s : GState ℝ (EuclideanSpace ℝ (Fin 4))) (h : HtpSolve exAtoms4 4 1 (exLst exAtoms4) !₂[1, 1, 1, 1] 2 20 (1e-3) s) :=
  c161_htp exSigns exSigns_norm exAtoms4 4 _ (exLst _) (exLst_ok _) (exLst_ok _) _ 2 20 (1e-3) s 1 h
example (s : GState ℝ (EuclideanSpace ℝ (Fin 4))) (h : SpMatrixSolve exAtoms4 4 (exLst exAtoms4) !₂[1, 1, 1, 1] 2 20 (1e-3) s) :=
  c161_sp_matrix exSigns exSigns_norm exAtoms4 4 _ (exLst _) (exLst_ok _) (exLst_ok _) _ 2 20 (1e-3) s h
example (s : GState ℝ (EuclideanSpace ℝ (Fin 4))) (h : SpOperatorSolve exAtoms4 4 (exLst exAtoms4) !₂[1, 1, 1, 1] 2 20 (1e-3) s) :=
  c161_sp_operator exSigns exSigns_norm exAtoms4 4 _ (exLst _) (exLst_ok _) (exLst_ok _) _ 2 20 (1e-3) s h
example (s : GState ℝ (EuclideanSpace ℝ (Fin 4))) (h : CosampMatrixSolve exAtoms4 4 (exLst exAtoms4) !₂[1, 1, 1, 1] 1 20 (1e-3) s) :=
  c161_cosamp_matrix_partial exSigns exSigns_norm exAtoms4 4 _ (exLst _) (exLst_ok _) (exLst_ok _) _ 1 20 (1e-3) s (pairwise_one _ _) h
example (s : GState ℝ (EuclideanSpace ℝ (Fin 4))) (h : CosampOperatorSolve exAtoms4 4 (exLst exAtoms4) !₂[1, 1, 1, 1] 1 20 (1e-3) s) :=
  c161_cosamp_operator_partial exSigns exSigns_norm exAtoms4 4 _ (exLst _) (exLst_ok _) (exLst_ok _) _ 20 (1e-3) s h
example (s : MpState (EuclideanSpace ℝ (Fin 4))) (h : Out (mpCond !₂[1, 1, 1, 1] (1e-3) 20) (mpStep exAtoms4 4 !₂[1, 1, 1, 1]) (mpInit !₂[1, 1, 1, 1]) s) :=
  c161_mp exSigns_ok exAtoms4 4 _ (1e-3) 20 s h
example := c161_omp_matrix exSigns_ok exAtoms4 4 !₂[1, 1, 1, 1] 2
example (s : OmpState (EuclideanSpace ℝ (Fin 4))) (h : OmpOperatorSolve exAtoms4 4 !₂[1, 1, 1, 1] 2 (1e-3) s) := c161_omp_operator exSigns_ok exAtoms4 4 _ 2 (1e-3) s h

/-- The swap of two atoms. -/
theorem swap_ok (i : ℕ) : Equiv.swap 0 1 i < 2 ↔ i < 2 := by
  by_cases h0 : i = 0
  · subst h0; simp
  · by_cases h1 : i = 1
    · subst h1; simp
    · rw [Equiv.swap_apply_of_ne_of_ne h0 h1]

/-- Measurements that use both atoms of the plane. -/
def exPlane : ℂ := ⟨3 / 5, 4 / 5⟩

theorem tie0 : NoTie planeAtoms 2 exPlane := ⟨1, by norm_num, fun j hj hne => by
  have : j = 0 := by omega
  subst this
  rw [plane0, plane1]
  norm_num [exPlane]⟩

theorem plane_idx : absMaxIdx (corr ℝ planeAtoms 2 exPlane) = 1 := absMaxIdx_eq (by norm_num) fun j hj hne => by
  have : j = 0 := by omega
  subst this
  rw [plane0, plane1]
  norm_num [exPlane]

theorem plane_res : exPlane - (corr ℝ planeAtoms 2 exPlane).getD 1 0 • planeAtoms 1 = ((3 / 5 : ℝ) : ℂ) := by
  rw [corr_getD_in _ _ (by norm_num), plane1]
  apply Complex.ext <;> simp [exPlane, planeAtoms]

theorem tie1 : NoTie planeAtoms 2 ((3 / 5 : ℝ) : ℂ) := ⟨0, by norm_num, fun j hj hne => by
  have : j = 1 := by omega
  subst this
  rw [plane0, plane1]
  simp⟩

theorem plane_first : (ompInit planeAtoms 2 exPlane).r = ((3 / 5 : ℝ) : ℂ) := by
  simp only [ompInit, plane_idx]
  exact plane_res

theorem plane_unit : (1 / ‖exPlane‖) • exPlane = exPlane := by
  have : ‖exPlane‖ = 1 := by
    have : ‖exPlane‖ ^ 2 = 1 := by rw [← Complex.normSq_eq_norm_sq]; norm_num [Complex.normSq_apply, exPlane]
    nlinarith [norm_nonneg exPlane]
  rw [this]; simp

example := c161_omp_matrix_order swap_ok planeAtoms exPlane 2 tie0 fun j hj => by
  have : j = 0 := by omega
  subst this
  show NoTie _ _ (ompInit planeAtoms 2 exPlane).r
  rw [plane_first]
  exact tie1

example (s : OmpState ℂ) (h : OmpOperatorSolve planeAtoms 2 exPlane 2 (1e-3) s) := c161_omp_operator_order swap_ok planeAtoms exPlane 2 (1e-3) s (by rw [plane_unit]; exact tie0)
  (fun s hr hc => by
    rw [plane_unit] at hr
    have : s.r = ((3 / 5 : ℝ) : ℂ) ∨ 2 ≤ s.k := hr.inv' (fun s => s.r = ((3 / 5 : ℝ) : ℂ) ∧ s.k = 1 ∨ 2 ≤ s.k) (Or.inl ⟨plane_first, rfl⟩) (fun s _ h _ => Or.inr (by
      show 2 ≤ s.k + 1
      rcases h with h | h <;> omega)) |>.imp_left fun h => h.1
    rcases this with h | h
    · rw [h]; exact tie1
    · exact absurd hc.2 (by omega)) h

example (s : MpState ℂ) (h : Out (mpCond exPlane (1e-3) 2) (mpStep planeAtoms 2 exPlane) (mpInit exPlane) s) := c161_mp_order swap_ok planeAtoms exPlane (1e-3) 2 s
  (fun s hr hc => by
    have : (s.r = exPlane ∧ s.iters = 0) ∨ (s.r = ((3 / 5 : ℝ) : ℂ) ∧ s.iters = 1) ∨ 2 ≤ s.iters :=
      hr.inv' (fun s => (s.r = exPlane ∧ s.iters = 0) ∨ (s.r = ((3 / 5 : ℝ) : ℂ) ∧ s.iters = 1) ∨ 2 ≤ s.iters) (Or.inl ⟨rfl, rfl⟩) (by
        rintro s _ (⟨h1, h2⟩ | ⟨h1, h2⟩ | h2) hc
        · refine Or.inr (Or.inl ⟨?_, by show s.iters + 1 = 1; omega⟩)
          have e : argmax ((corr ℝ planeAtoms 2 exPlane).map fun x => |x|) = 1 := plane_idx
          show s.r - (corr ℝ planeAtoms 2 s.r).getD (argmax ((corr ℝ planeAtoms 2 s.r).map fun x => |x|)) 0 • planeAtoms (argmax ((corr ℝ planeAtoms 2 s.r).map fun x => |x|)) = _
          rw [h1, e]
          exact plane_res
        · exact Or.inr (Or.inr (by show 2 ≤ s.iters + 1; omega))
        · exact Or.inr (Or.inr (by show 2 ≤ s.iters + 1; omega)))
    rcases this with h | h | h
    · rw [h.1]; exact tie0
    · rw [h.1]; exact tie1
    · exact absurd hc.2 (by omega)) h

example := c161_cosamp_fails (exLst _) (exLst _) (exLst_ok _) (exLst_ok _)

end Verif.Pursuit
