import Verif.LoopMap
import Verif.Pursuit.GreedyProps
import Verif.Pursuit.OmpModel
import Verif.Pursuit.NormalizedModel

set_option autoImplicit false
/-! # C143: units and isometries of the measurement space -/
noncomputable section
namespace Verif.Pursuit
open Verif.Loop

theorem outMap {σ τ : Type*} {c : σ → Prop} {f : σ → σ} {c' : τ → Prop} {f' : τ → τ} (g : σ → τ) (hc : ∀ s, c' (g s) ↔ c s) (hf : ∀ s, f' (g s) = g (f s))
    {s0 s : σ} (h : Out c f s0 s) : Out c' f' (g s0) (g s) := (Out.map g (fun s _ => hc s) (fun s _ _ => hf s) h _).2 rfl

variable {𝕜 : Type*} [RCLike 𝕜] {E F : Type*} [NormedAddCommGroup E] [InnerProductSpace 𝕜 E] [NormedAddCommGroup F] [InnerProductSpace 𝕜 F]

/-! ## Least squares -/

theorem lin_avg' (phi : ℕ → E) : ∀ (I : List ℕ) (x z : List 𝕜), x.length = I.length → z.length = I.length →
    lin phi I (List.zipWith (fun a b => (1 / 2 : 𝕜) * (a + b)) x z) = (1 / 2 : 𝕜) • (lin phi I x + lin phi I z)
  | [], [], [], _, _ => by simp [lin]
  | i :: I, a :: x, b :: z, hx, hz => by
    simp only [List.zipWith_cons_cons, lin, lin_avg' phi I x z (by simpa using hx) (by simpa using hz)]
    module

theorem sq_avg' : ∀ (x z : List 𝕜), x.length = z.length →
    ((List.zipWith (fun a b => (1 / 2 : 𝕜) * (a + b)) x z).map fun c => ‖c‖ ^ 2).sum + (List.zipWith (fun a b => ‖(1 / 2 : 𝕜) * (a - b)‖ ^ 2) x z).sum =
      ((x.map fun c => ‖c‖ ^ 2).sum + (z.map fun c => ‖c‖ ^ 2).sum) / 2
  | [], [], _ => by simp
  | a :: x, b :: z, h => by
    have := sq_avg' x z (by simpa using h)
    have hp := parallelogram_law_with_norm ℝ a b
    simp only [List.zipWith_cons_cons, List.map_cons, List.sum_cons] at this ⊢
    have e : ‖(1 / 2 : 𝕜)‖ = 1 / 2 := by simp
    have e1 : ‖(1 / 2 : 𝕜) * (a + b)‖ ^ 2 = 1 / 4 * (‖a + b‖ * ‖a + b‖) := by rw [norm_mul, e]; ring
    have e2 : ‖(1 / 2 : 𝕜) * (a - b)‖ ^ 2 = 1 / 4 * (‖a - b‖ * ‖a - b‖) := by rw [norm_mul, e]; ring
    rw [e1, e2]
    nlinarith [this, hp]

theorem zip_sq_zero' : ∀ (x z : List 𝕜), x.length = z.length → (List.zipWith (fun a b => ‖(1 / 2 : 𝕜) * (a - b)‖ ^ 2) x z).sum ≤ 0 → x = z
  | [], [], _, _ => rfl
  | a :: x, b :: z, h, hs => by
    have hnn : 0 ≤ (List.zipWith (fun a b : 𝕜 => ‖(1 / 2 : 𝕜) * (a - b)‖ ^ 2) x z).sum := by
      refine List.sum_nonneg fun q hq => ?_
      rw [← List.map_uncurry_zip_eq_zipWith, List.mem_map] at hq
      obtain ⟨p, _, rfl⟩ := hq
      exact sq_nonneg _
    simp only [List.zipWith_cons_cons, List.sum_cons] at hs
    have h0 : ‖(1 / 2 : 𝕜) * (a - b)‖ ^ 2 = 0 := le_antisymm (by linarith) (sq_nonneg _)
    have hab : a = b := by
      have := norm_eq_zero.1 (pow_eq_zero_iff two_ne_zero |>.mp h0)
      rcases mul_eq_zero.1 this with h | h
      · exact absurd h (by norm_num)
      · exact sub_eq_zero.1 h
    rw [hab, zip_sq_zero' x z (by simpa using h) (by linarith [sq_nonneg ‖(1 / 2 : 𝕜) * (a - b)‖])]

/-- The minimum-norm least squares solution is unique. -/
theorem lstsq_unique' (phi : ℕ → E) (I : List ℕ) (y : E) (x z : List 𝕜) (hx : IsLstsq phi I y x) (hz : IsLstsq phi I y z) : x = z := by
  have hl : x.length = z.length := hx.length.trans hz.length.symm
  have hn : (x.map fun c => ‖c‖ ^ 2).sum = (z.map fun c => ‖c‖ ^ 2).sum := le_antisymm (hx.minNorm z hz.length hz.normal) (hz.minNorm x hx.length hx.normal)
  have hm := hx.minNorm (List.zipWith (fun a b => (1 / 2 : 𝕜) * (a + b)) x z) (by simp [hx.length, hz.length]) (fun i hi => by
    rw [lin_avg' phi I x z hx.length hz.length]
    have e : y - (1 / 2 : 𝕜) • (lin phi I x + lin phi I z) = (1 / 2 : 𝕜) • (y - lin phi I x) + (1 / 2 : 𝕜) • (y - lin phi I z) := by module
    rw [e, inner_add_right, inner_smul_right, inner_smul_right, hx.normal i hi, hz.normal i hi]; simp)
  have := sq_avg' x z hl
  exact zip_sq_zero' x z hl (by linarith)

theorem lin_map (U : E →ₗᵢ[𝕜] F) (phi : ℕ → E) : ∀ (I : List ℕ) (x : List 𝕜), lin (fun i => U (phi i)) I x = U (lin phi I x)
  | [], _ => by simp [lin]
  | i :: I, [] => by simp [lin]
  | i :: I, c :: x => by simp [lin, lin_map U phi I x]

theorem sum_sq_scale (b : 𝕜) (l : List 𝕜) : ((l.map fun c => b * c).map fun c => ‖c‖ ^ 2).sum = ‖b‖ ^ 2 * (l.map fun c => ‖c‖ ^ 2).sum := by
  induction l with
  | nil => simp
  | cons q l ih => rw [List.map_cons, List.map_cons, List.sum_cons, ih, List.map_cons, List.sum_cons, norm_mul, mul_pow, mul_add]

/-- Least squares under an isometry and a change of scale. -/
theorem lstsq_sim (U : E →ₗᵢ[𝕜] F) {a : 𝕜} (ha : a ≠ 0) (phi : ℕ → E) (I : List ℕ) (y : E) (x : List 𝕜) (hx : IsLstsq phi I y x) :
    IsLstsq (fun i => U (phi i)) I (a • U y) (x.map fun c => a * c) := by
  refine ⟨by simp [hx.length], fun i hi => ?_, fun z hz hzn => ?_⟩
  · rw [lin_smul, lin_map, ← smul_sub, ← map_sub, inner_smul_right, U.inner_map_map, hx.normal i hi, mul_zero]
  · have h1 := hx.minNorm (z.map fun c => a⁻¹ * c) (by simp [hz]) (fun i hi => by
      have h2 := hzn i hi
      rw [lin_map] at h2
      rw [lin_smul]
      have e : U (y - a⁻¹ • lin phi I z) = a⁻¹ • (a • U y - U (lin phi I z)) := by
        rw [map_sub, map_smul, smul_sub, smul_smul, inv_mul_cancel₀ ha, one_smul]
      rw [← U.inner_map_map, e, inner_smul_right, h2, mul_zero])
    rw [sum_sq_scale] at h1 ⊢
    have hn : ‖a‖ ≠ 0 := norm_ne_zero_iff.2 ha
    have : ‖a‖ ^ 2 * (‖a⁻¹‖ ^ 2 * (z.map fun c => ‖c‖ ^ 2).sum) = (z.map fun c => ‖c‖ ^ 2).sum := by rw [norm_inv]; field_simp
    rw [← this]
    exact mul_le_mul_of_nonneg_left h1 (sq_nonneg _)

/-! ## Selection of indices -/

theorem argsort_scale {a : ℝ} (ha : 0 < a) (l : List ℝ) : argsort (l.map fun x => a * x) = argsort l := by
  have e : ∀ i, (l.map fun x => a * x).getD i 0 = a * l.getD i 0 := fun i => by
    rw [List.getD_eq_getElem?_getD, List.getD_eq_getElem?_getD, List.getElem?_map]
    cases l[i]? <;> simp
  rw [argsort, argsort, List.length_map]
  congr 1
  funext i j
  rw [e, e]
  simp only [mul_le_mul_iff_right₀ ha]

theorem norm_map_scale (c : 𝕜) (h : List 𝕜) : ((h.map fun x => c * x).map fun x => ‖x‖) = (h.map fun x => ‖x‖).map fun x => ‖c‖ * x := by
  simp [List.map_map, Function.comp_def]

theorem largestIndices_scale {c : 𝕜} (hc : c ≠ 0) (h : List 𝕜) (K : ℕ) : largestIndices (h.map fun x => c * x) K = largestIndices h K := by
  rw [largestIndices, largestIndices, norm_map_scale, argsort_scale (norm_pos_iff.2 hc)]

theorem argmaxFrom_scale' {a : ℝ} (ha : 0 < a) : ∀ (l : List ℝ) (b : ℕ) (v : ℝ) (k : ℕ), argmaxFrom b (a * v) k (l.map fun c => a * c) = argmaxFrom b v k l
  | [], _, _, _ => rfl
  | x :: l, b, v, k => by
    simp only [List.map_cons, argmaxFrom, mul_lt_mul_iff_right₀ ha]
    split_ifs
    · exact argmaxFrom_scale' ha l k x (k + 1)
    · exact argmaxFrom_scale' ha l b v (k + 1)

theorem argmax_scale' {a : ℝ} (ha : 0 < a) (l : List ℝ) : argmax (l.map fun c => a * c) = argmax l := by
  cases l with
  | nil => rfl
  | cons x l => exact argmaxFrom_scale' ha l 0 x 1

theorem absMaxIdx_scale {c : 𝕜} (hc : c ≠ 0) (h : List 𝕜) : absMaxIdx (h.map fun x => c * x) = absMaxIdx h := by
  rw [absMaxIdx, absMaxIdx, norm_map_scale, argmax_scale' (norm_pos_iff.2 hc)]

theorem corr_sim (U : E →ₗᵢ[𝕜] F) (c : 𝕜) (phi : ℕ → E) (n : ℕ) (r : E) :
    corr 𝕜 (fun i => U (phi i)) n (c • U r) = (corr 𝕜 phi n r).map fun x => c * x := by
  simp [corr, List.map_map, Function.comp_def, inner_smul_right]

theorem getD_scale (c : 𝕜) (l : List 𝕜) (i : ℕ) : (l.map fun x => c * x).getD i 0 = c * l.getD i 0 := by
  rw [List.getD_eq_getElem?_getD, List.getD_eq_getElem?_getD, List.getElem?_map]
  cases l[i]? <;> simp

theorem gather_scale (c : 𝕜) (l : List 𝕜) (I : List ℕ) : gather 0 (l.map fun x => c * x) I = (gather 0 l I).map fun x => c * x := by
  simp only [gather, List.map_map, Function.comp_def, getD_scale]

theorem zeroAt_scale (c : 𝕜) (h : List 𝕜) (I : List ℕ) : zeroAt (h.map fun x => c * x) I = (zeroAt h I).map fun x => c * x := by
  simp only [zeroAt, List.length_map, List.map_map, Function.comp_def, getD_scale, mul_ite, mul_zero]

theorem buildSignal_scale (c : 𝕜) : ∀ (I : List ℕ) (x : List 𝕜) (j : ℕ), buildSignal I (x.map fun x => c * x) j = c * buildSignal I x j
  | [], _, _ => by simp [buildSignal]
  | _ :: _, [], _ => by simp [buildSignal]
  | i :: I, v :: x, j => by
    simp only [List.map_cons, buildSignal, List.length_map, buildSignal_scale c I x j, mul_ite]

theorem gradStep_scale (c : 𝕜) (n : ℕ) (I : List ℕ) (x : List 𝕜) (mu : ℝ) (h : List 𝕜) :
    gradStep n I (x.map fun x => c * x) mu (h.map fun x => c * x) = (gradStep n I x mu h).map fun x => c * x := by
  simp only [gradStep, List.map_map, Function.comp_def, getD_scale, buildSignal_scale]
  exact List.map_congr_left fun i _ => by ring

/-- The state that corresponds to `s` when the measurement space is mapped by the isometry `U` and the measurements are multiplied by `c`: same support
and iteration count, coefficients times `c`, residual mapped likewise. -/
def GState.sim (U : E →ₗᵢ[𝕜] F) (c : 𝕜) (s : GState 𝕜 E) : GState 𝕜 F :=
  { x := s.x.map fun v => c * v, I := s.I, r := c • U s.r, rr := ‖c‖ ^ 2 * s.rr, iters := s.iters, Iprev := s.Iprev }

theorem mkState_sim (U : E →ₗᵢ[𝕜] F) (c : 𝕜) (phi : ℕ → E) (y : E) (I : List ℕ) (x : List 𝕜) (k : ℕ) (Ip : List ℕ) :
    mkState (fun i => U (phi i)) (c • U y) I (x.map fun v => c * v) k Ip = (mkState phi y I x k Ip).sim U c := by
  have e : c • U y - lin (fun i => U (phi i)) I (x.map fun v => c * v) = c • U (y - lin phi I x) := by
    rw [lin_smul, lin_map, map_sub, smul_sub]
  simp only [mkState, GState.sim, e]
  congr 1
  rw [norm_smul, U.norm_map, mul_pow]

/-- Two least-squares routines with the documented semantics agree under the change of space and scale. -/
theorem lstsq_agree (U : E →ₗᵢ[𝕜] F) {c : 𝕜} (hc : c ≠ 0) (phi : ℕ → E) {lstsq : List ℕ → E → List 𝕜} {lstsq' : List ℕ → F → List 𝕜}
    (hl : ∀ I y, IsLstsq phi I y (lstsq I y)) (hl' : ∀ I y, IsLstsq (fun i => U (phi i)) I y (lstsq' I y)) (I : List ℕ) (y : E) :
    lstsq' I (c • U y) = (lstsq I y).map fun v => c * v :=
  lstsq_unique' _ I _ _ _ (hl' I _) (lstsq_sim U hc phi I y _ (hl I y))

section steps
variable (U : E →ₗᵢ[𝕜] F) {c : 𝕜} (hc : c ≠ 0) (phi : ℕ → E) (n : ℕ) {lstsq : List ℕ → E → List 𝕜} {lstsq' : List ℕ → F → List 𝕜}
  (hl : ∀ I y, IsLstsq phi I y (lstsq I y)) (hl' : ∀ I y, IsLstsq (fun i => U (phi i)) I y (lstsq' I y)) (y : E) (K : ℕ)
include hc

theorem ihtInit_sim (mu : ℝ) : ihtInit (𝕜 := 𝕜) (fun i => U (phi i)) n mu (c • U y) K = (ihtInit phi n mu y K).sim U c := by
  have e : gradStep n [] [] mu ((corr 𝕜 phi n y).map fun x => c * x) = (gradStep n [] [] mu (corr 𝕜 phi n y)).map fun x => c * x := gradStep_scale c n [] [] mu _
  simp only [ihtInit, hardThresholdK, corr_sim, e, largestIndices_scale hc, gather_scale, mkState_sim]

theorem ihtBody_sim (mu : ℝ) (s : GState 𝕜 E) : ihtBody (fun i => U (phi i)) n mu (c • U y) K (s.sim U c) = (ihtBody phi n mu y K s).sim U c := by
  simp only [ihtBody, hardThresholdK, GState.sim, corr_sim, gradStep_scale, largestIndices_scale hc, gather_scale]
  exact mkState_sim U c phi y _ _ _ _

include hl hl'

theorem spInit_sim : spInit (fun i => U (phi i)) n lstsq' (c • U y) K = (spInit phi n lstsq y K).sim U c := by
  simp only [spInit, corr_sim, largestIndices_scale hc, lstsq_agree U hc phi hl hl', mkState_sim]

theorem spBody_sim (s : GState 𝕜 E) : spBody (fun i => U (phi i)) n lstsq' (c • U y) K (s.sim U c) = (spBody phi n lstsq y K s).sim U c := by
  simp only [spBody, GState.sim, corr_sim, zeroAt_scale, largestIndices_scale hc, lstsq_agree U hc phi hl hl']
  exact mkState_sim U c phi y _ _ _ _

theorem cosampInit_sim : cosampInit (fun i => U (phi i)) n lstsq' (c • U y) K = (cosampInit phi n lstsq y K).sim U c := by
  simp only [cosampInit, corr_sim, largestIndices_scale hc, lstsq_agree U hc phi hl hl', gather_scale, mkState_sim]

theorem cosampBody_sim (s : GState 𝕜 E) : cosampBody (fun i => U (phi i)) n lstsq' (c • U y) K (s.sim U c) = (cosampBody phi n lstsq y K s).sim U c := by
  simp only [cosampBody, GState.sim, corr_sim, zeroAt_scale, largestIndices_scale hc, lstsq_agree U hc phi hl hl', gather_scale]
  exact mkState_sim U c phi y _ _ _ _

theorem htpBody_sim (mu : ℝ) (s : GState 𝕜 E) : htpBody (fun i => U (phi i)) n mu lstsq' (c • U y) K (s.sim U c) = (htpBody phi n mu lstsq y K s).sim U c := by
  simp only [htpBody, hardThresholdSorted, GState.sim, corr_sim, gradStep_scale, largestIndices_scale hc, lstsq_agree U hc phi hl hl']
  exact mkState_sim U c phi y _ _ _ _

end steps

theorem plainCond_sim (U : E →ₗᵢ[𝕜] F) {c : 𝕜} (hc : c ≠ 0) (y : E) (rtol : ℝ) (maxIters : ℕ) (s : GState 𝕜 E) :
    plainCond (‖c • U y‖ ^ 2 * rtol ^ 2) maxIters (s.sim U c) ↔ plainCond (‖y‖ ^ 2 * rtol ^ 2) maxIters s := by
  have h : 0 < ‖c‖ ^ 2 := by have := norm_pos_iff.2 hc; positivity
  have e : ‖c • U y‖ ^ 2 * rtol ^ 2 = ‖c‖ ^ 2 * (‖y‖ ^ 2 * rtol ^ 2) := by rw [norm_smul, U.norm_map]; ring
  simp only [plainCond, GState.sim, e, gt_iff_lt, mul_lt_mul_iff_right₀ h]

theorem supportCond_sim (U : E →ₗᵢ[𝕜] F) {c : 𝕜} (hc : c ≠ 0) (tol : ℝ) (maxIters K : ℕ) (s : GState 𝕜 E) :
    supportCond (‖c‖ ^ 2 * tol) maxIters K (s.sim U c) ↔ supportCond tol maxIters K s := by
  have h : 0 < ‖c‖ ^ 2 := by have := norm_pos_iff.2 hc; positivity
  simp only [supportCond, GState.sim, gt_iff_lt, mul_lt_mul_iff_right₀ h]

theorem normalizedStep_sim (U : E →ₗᵢ[𝕜] F) {c : 𝕜} (hc : c ≠ 0) (phi : ℕ → E) (h : List 𝕜) (I : List ℕ) :
    normalizedStep (fun i => U (phi i)) (h.map fun x => c * x) I = normalizedStep phi h I := by
  have hn : ‖c‖ ≠ 0 := norm_ne_zero_iff.2 hc
  have e : lin (fun i => U (phi i)) I ((gather 0 h I).map fun x => c * x) = c • U (lin phi I (gather 0 h I)) := by rw [lin_smul, lin_map]
  have z : lin (fun i => U (phi i)) I (gather 0 (h.map fun x => c * x) I) = 0 ↔ lin phi I (gather 0 h I) = 0 := by
    rw [gather_scale, e, ← norm_eq_zero, norm_smul, U.norm_map, mul_eq_zero, or_iff_right hn, norm_eq_zero]
  by_cases h0 : lin phi I (gather 0 h I) = 0
  · rw [normalizedStep, normalizedStep, if_pos (z.2 h0), if_pos h0]
  · rw [normalizedStep, normalizedStep, if_neg (fun h => h0 (z.1 h)), if_neg h0, gather_scale, e, sum_sq_scale, norm_smul, U.norm_map, mul_pow,
      mul_div_mul_left _ _ (pow_ne_zero 2 hn)]

/-! ## The greedy solvers -/

section solvers
variable (U : E →ₗᵢ[𝕜] F) (c : 𝕜) (hc : c ≠ 0) (phi : ℕ → E) (n : ℕ) (lstsq : List ℕ → E → List 𝕜) (lstsq' : List ℕ → F → List 𝕜)
  (hl : ∀ I y, IsLstsq phi I y (lstsq I y)) (hl' : ∀ I y, IsLstsq (fun i => U (phi i)) I y (lstsq' I y)) (y : E) (K maxIters : ℕ) (rtol : ℝ)
  (s : GState 𝕜 E)
include hc

/-- **C143** (iterative hard thresholding, any step) Let the measurement space be mapped by a linear isometry `U` (a rotation, a change of orthonormal basis, an embedding) and the
measurements be multiplied by `c ≠ 0`. If the solver returns `s` for the original problem then for the new problem it returns exactly the corresponding state: same support, same
number of iterations, coefficients multiplied by `c`. -/
theorem c143_iht (mu : ℝ) (h : IhtSolve phi n mu y K maxIters rtol s) (s' : GState 𝕜 F) :
    IhtSolve (fun i => U (phi i)) n mu (c • U y) K maxIters rtol s' ↔ s' = s.sim U c := by
  have h' : IhtSolve (fun i => U (phi i)) n mu (c • U y) K maxIters rtol (s.sim U c) := by
    rw [IhtSolve, ihtInit_sim U hc]
    exact outMap (GState.sim U c) (plainCond_sim U hc y rtol maxIters) (ihtBody_sim U hc phi n y K mu) h
  exact ⟨fun h1 => Out.unique h1 h', fun e => e ▸ h'⟩

/-- **C143** (iterative hard thresholding with normalised step) as `c143_iht`; the result is NaN for one problem exactly if it is NaN for the other. -/
theorem c143_niht (s : Option (GState 𝕜 E)) (h : NihtSolve phi n y K maxIters rtol s) (s' : Option (GState 𝕜 F)) :
    NihtSolve (fun i => U (phi i)) n (c • U y) K maxIters rtol s' ↔ s' = s.map (GState.sim U c) := by
  have h' : NihtSolve (fun i => U (phi i)) n (c • U y) K maxIters rtol (s.map (GState.sim U c)) := by
    have e0 : nihtInit (𝕜 := 𝕜) (fun i => U (phi i)) n (c • U y) K = (nihtInit phi n y K).map (GState.sim U c) := by
      simp only [nihtInit, corr_sim, normalizedStep_sim U hc, ihtInit_sim U hc, Option.map_map, Function.comp_def]
    rw [NihtSolve, e0]
    refine outMap (Option.map (GState.sim U c)) (fun s => ?_) (fun s => ?_) h
    · cases s with
      | none => exact Iff.rfl
      | some s => exact plainCond_sim U hc y rtol maxIters s
    · cases s with
      | none => rfl
      | some s =>
        simp only [Option.map_some, Option.bind_some, nihtBody]
        have : corr 𝕜 (fun i => U (phi i)) n (s.sim U c).r = (corr 𝕜 phi n s.r).map fun x => c * x := corr_sim U c phi n s.r
        rw [this]
        show (normalizedStep (fun i => U (phi i)) _ s.I).map _ = _
        rw [normalizedStep_sim U hc, Option.map_map]
        congr 1
        funext mu
        exact ihtBody_sim U hc phi n y K mu s
  exact ⟨fun h1 => Out.unique h1 h', fun e => e ▸ h'⟩

include hl hl'

/-- **C143** (hard thresholding pursuit) as `c143_iht`. -/
theorem c143_htp (mu : ℝ) (h : HtpSolve phi n mu lstsq y K maxIters rtol s) (s' : GState 𝕜 F) :
    HtpSolve (fun i => U (phi i)) n mu lstsq' (c • U y) K maxIters rtol s' ↔ s' = s.sim U c := by
  have h' : HtpSolve (fun i => U (phi i)) n mu lstsq' (c • U y) K maxIters rtol (s.sim U c) := by
    have e : ‖c • U y‖ ^ 2 * rtol ^ 2 = ‖c‖ ^ 2 * (‖y‖ ^ 2 * rtol ^ 2) := by rw [norm_smul, U.norm_map]; ring
    rw [HtpSolve, ihtInit_sim U hc, e]
    exact outMap (GState.sim U c) (supportCond_sim U hc _ maxIters K) (htpBody_sim U hc phi n hl hl' y K mu) h
  exact ⟨fun h1 => Out.unique h1 h', fun e => e ▸ h'⟩

/-- **C143** (subspace pursuit, `matrix_solve`) as `c143_iht`. -/
theorem c143_sp_matrix (h : SpMatrixSolve phi n lstsq y K maxIters rtol s) (s' : GState 𝕜 F) :
    SpMatrixSolve (fun i => U (phi i)) n lstsq' (c • U y) K maxIters rtol s' ↔ s' = s.sim U c := by
  have h' : SpMatrixSolve (fun i => U (phi i)) n lstsq' (c • U y) K maxIters rtol (s.sim U c) := by
    rw [SpMatrixSolve, spInit_sim U hc phi n hl hl']
    exact outMap (GState.sim U c) (plainCond_sim U hc y rtol maxIters) (spBody_sim U hc phi n hl hl' y K) h
  exact ⟨fun h1 => Out.unique h1 h', fun e => e ▸ h'⟩

/-- **C143** (CoSaMP, `matrix_solve`) as `c143_iht`. -/
theorem c143_cosamp_matrix (h : CosampMatrixSolve phi n lstsq y K maxIters rtol s) (s' : GState 𝕜 F) :
    CosampMatrixSolve (fun i => U (phi i)) n lstsq' (c • U y) K maxIters rtol s' ↔ s' = s.sim U c := by
  have h' : CosampMatrixSolve (fun i => U (phi i)) n lstsq' (c • U y) K maxIters rtol (s.sim U c) := by
    rw [CosampMatrixSolve, cosampInit_sim U hc phi n hl hl']
    exact outMap (GState.sim U c) (plainCond_sim U hc y rtol maxIters) (cosampBody_sim U hc phi n hl hl' y K) h
  exact ⟨fun h1 => Out.unique h1 h', fun e => e ▸ h'⟩

omit hl hl' in
/-- The normalised measurements of the two problems differ by a factor of modulus one. -/
theorem normalised_sim : ((1 / ‖c • U y‖ : ℝ) : 𝕜) • (c • U y) = (((‖c‖⁻¹ : ℝ) : 𝕜) * c) • U (((1 / ‖y‖ : ℝ) : 𝕜) • y) ∧ ‖((‖c‖⁻¹ : ℝ) : 𝕜) * c‖ = 1 ∧ ((‖c‖⁻¹ : ℝ) : 𝕜) * c ≠ 0 := by
  have hn : ‖c‖ ≠ 0 := norm_ne_zero_iff.2 hc
  have h1 : ‖((‖c‖⁻¹ : ℝ) : 𝕜) * c‖ = 1 := by rw [norm_mul, RCLike.norm_ofReal, abs_of_nonneg (by positivity), inv_mul_cancel₀ hn]
  refine ⟨?_, h1, norm_ne_zero_iff.1 (by rw [h1]; exact one_ne_zero)⟩
  rw [norm_smul, U.norm_map, map_smul, smul_smul, smul_smul]
  congr 1
  push_cast
  rw [one_div, one_div, mul_inv]
  ring

omit hl hl' in
theorem rescale_sim (t : GState 𝕜 E) : rescale ‖c • U y‖ (t.sim U (((‖c‖⁻¹ : ℝ) : 𝕜) * c)) = (rescale ‖y‖ t).sim U c := by
  have hn : ‖c‖ ≠ 0 := norm_ne_zero_iff.2 hc
  obtain ⟨-, h1, -⟩ := normalised_sim U c hc y
  have e : ((‖c • U y‖ : ℝ) : 𝕜) * (((‖c‖⁻¹ : ℝ) : 𝕜) * c) = c * ((‖y‖ : ℝ) : 𝕜) := by
    rw [norm_smul, U.norm_map]
    push_cast
    have : ((‖c‖ : ℝ) : 𝕜) ≠ 0 := by exact_mod_cast hn
    field_simp
  simp only [rescale, GState.sim, List.map_map, Function.comp_def, map_smul, smul_smul, h1, e]
  congr 1
  · exact List.map_congr_left fun v _ => by rw [← mul_assoc, e, mul_assoc]
  · rw [norm_smul, U.norm_map]; ring

/-- **C143** (subspace pursuit, `operator_solve`) as `c143_iht`. -/
theorem c143_sp_operator (h : SpOperatorSolve phi n lstsq y K maxIters rtol s) (s' : GState 𝕜 F) :
    SpOperatorSolve (fun i => U (phi i)) n lstsq' (c • U y) K maxIters rtol s' ↔ s' = s.sim U c := by
  obtain ⟨t, ht, rfl⟩ := h
  obtain ⟨e, h1, h0⟩ := normalised_sim U c hc y
  have h' : Out (supportCond (rtol ^ 2) maxIters K) (spBody (fun i => U (phi i)) n lstsq' (((1 / ‖c • U y‖ : ℝ) : 𝕜) • (c • U y)) K)
      (spInit (fun i => U (phi i)) n lstsq' (((1 / ‖c • U y‖ : ℝ) : 𝕜) • (c • U y)) K) (t.sim U (((‖c‖⁻¹ : ℝ) : 𝕜) * c)) := by
    rw [e, spInit_sim U h0 phi n hl hl']
    refine outMap (GState.sim U _) (fun s => ?_) (spBody_sim U h0 phi n hl hl' _ K) ht
    have := supportCond_sim U h0 (rtol ^ 2) maxIters K s
    rwa [h1, one_pow, one_mul] at this
  rw [← rescale_sim U c hc]
  exact ⟨fun ⟨t', ht', e'⟩ => by rw [e', Out.unique ht' h'], fun e => ⟨_, h', e⟩⟩

/-- **C143** (CoSaMP, `operator_solve`) as `c143_iht`. -/
theorem c143_cosamp_operator (h : CosampOperatorSolve phi n lstsq y K maxIters rtol s) (s' : GState 𝕜 F) :
    CosampOperatorSolve (fun i => U (phi i)) n lstsq' (c • U y) K maxIters rtol s' ↔ s' = s.sim U c := by
  obtain ⟨t, ht, rfl⟩ := h
  obtain ⟨e, h1, h0⟩ := normalised_sim U c hc y
  have h' : Out (supportCond (rtol ^ 2) maxIters K) (cosampBody (fun i => U (phi i)) n lstsq' (((1 / ‖c • U y‖ : ℝ) : 𝕜) • (c • U y)) K)
      (cosampInit (fun i => U (phi i)) n lstsq' (((1 / ‖c • U y‖ : ℝ) : 𝕜) • (c • U y)) K) (t.sim U (((‖c‖⁻¹ : ℝ) : 𝕜) * c)) := by
    rw [e, cosampInit_sim U h0 phi n hl hl']
    refine outMap (GState.sim U _) (fun s => ?_) (cosampBody_sim U h0 phi n hl hl' _ K) ht
    have := supportCond_sim U h0 (rtol ^ 2) maxIters K s
    rwa [h1, one_pow, one_mul] at this
  rw [← rescale_sim U c hc]
  exact ⟨fun ⟨t', ht', e'⟩ => by rw [e', Out.unique ht' h'], fun e => ⟨_, h', e⟩⟩

end solvers

/-! ## Matching pursuit and orthogonal matching pursuit (real data) -/

section real
variable {E F : Type*} [NormedAddCommGroup E] [InnerProductSpace ℝ E] [NormedAddCommGroup F] [InnerProductSpace ℝ F]

/-- As `GState.sim`, for the states of matching pursuit. -/
def MpState.sim (U : E →ₗᵢ[ℝ] F) (c : ℝ) (s : MpState E) : MpState F :=
  { x := fun i => c * s.x i, r := c • U s.r, rr := c ^ 2 * s.rr, iters := s.iters }

/-- **C143** (matching pursuit) as `c143_iht`. -/
theorem c143_mp (U : E →ₗᵢ[ℝ] F) (c : ℝ) (hc : c ≠ 0) (phi : ℕ → E) (n : ℕ) (y : E) (rtol : ℝ) (maxIters : ℕ) (s : MpState E)
    (h : Out (mpCond y rtol maxIters) (mpStep phi n y) (mpInit y) s) (s' : MpState F) :
    Out (mpCond (c • U y) rtol maxIters) (mpStep (fun i => U (phi i)) n (c • U y)) (mpInit (c • U y)) s' ↔ s' = s.sim U c := by
  have hny : ‖c • U y‖ ^ 2 = c ^ 2 * ‖y‖ ^ 2 := by rw [norm_smul, U.norm_map, mul_pow, Real.norm_eq_abs, sq_abs]
  have h' : Out (mpCond (c • U y) rtol maxIters) (mpStep (fun i => U (phi i)) n (c • U y)) (mpInit (c • U y)) (s.sim U c) := by
    have e0 : mpInit (c • U y) = (mpInit y).sim U c := by simp only [mpInit, MpState.sim, hny, mul_zero]
    rw [e0]
    refine outMap (MpState.sim U c) (fun s => ?_) (fun s => ?_) h
    · have h2 : 0 < c ^ 2 := by positivity
      simp only [mpCond, MpState.sim, hny, gt_iff_lt, mul_assoc, mul_lt_mul_iff_right₀ h2]
    · have hi : ∀ h : List ℝ, argmax ((h.map fun x => c * x).map fun x => |x|) = argmax (h.map fun x => |x|) := fun h => absMaxIdx_scale (𝕜 := ℝ) hc h
      simp only [mpStep, MpState.sim, corr_sim, hi, hny]
      rw [getD_scale]
      congr 1
      · funext i
        by_cases hb : i = argmax ((corr ℝ phi n s.r).map fun x => |x|)
        · subst hb; simp only [Function.update_self]; ring
        · simp only [Function.update_of_ne hb]
      · rw [map_sub, map_smul, smul_sub, smul_smul]
  exact ⟨fun h1 => Out.unique h1 h', fun e => e ▸ h'⟩

/-- As `GState.sim`, for the states of orthogonal matching pursuit; the Cholesky factor is the same. -/
def OmpState.sim (U : E →ₗᵢ[ℝ] F) (c : ℝ) (s : OmpState E) : OmpState F :=
  { k := s.k, I := s.I, phiI := fun i => U (s.phiI i), x := fun i => c * s.x i, r := c • U s.r, L := s.L, rr := c ^ 2 * s.rr }

theorem fwdSub_scale (L : ℕ → ℕ → ℝ) (b : ℕ → ℝ) (c : ℝ) (i : ℕ) : fwdSub L (fun j => c * b j) i = c * fwdSub L b i := by
  induction i using Nat.strong_induction_on with
  | _ i ih =>
    rw [fwdSub.eq_def, fwdSub.eq_def L b i]
    rw [Finset.sum_congr rfl fun (j : Fin i) _ => by rw [ih j j.2, mul_left_comm]]
    rw [← Finset.mul_sum, ← mul_sub, mul_div_assoc]

theorem backSub_scale (L : ℕ → ℕ → ℝ) (k : ℕ) (b : ℕ → ℝ) (c : ℝ) (i : ℕ) : backSub L k (fun j => c * b j) i = c * backSub L k b i := by
  induction h : k - i using Nat.strong_induction_on generalizing i with
  | _ m ih =>
    rw [backSub.eq_def, backSub.eq_def L k b i]
    rw [Finset.sum_congr rfl fun (j : Fin (k - (i + 1))) _ => by rw [ih (k - (i + 1 + j)) (by omega) (i + 1 + j) rfl, mul_left_comm]]
    rw [← Finset.mul_sum, ← mul_sub, mul_div_assoc]

theorem solveSpdChol_scale (L : ℕ → ℕ → ℝ) (k : ℕ) (b : ℕ → ℝ) (c : ℝ) : solveSpdChol L k (fun j => c * b j) = fun i => c * solveSpdChol L k b i := by
  funext i
  have : fwdSub L (fun j => c * b j) = fun i => c * fwdSub L b i := funext fun i => fwdSub_scale L b c i
  rw [solveSpdChol, solveSpdChol, this, backSub_scale]

theorem ompInit_sim (U : E →ₗᵢ[ℝ] F) {c : ℝ} (hc : c ≠ 0) (phi : ℕ → E) (n : ℕ) (y : E) :
    ompInit (fun i => U (phi i)) n (c • U y) = (ompInit phi n y).sim U c := by
  have e : c • U y - (c * (corr ℝ phi n y).getD (absMaxIdx (corr ℝ phi n y)) 0) • U (phi (absMaxIdx (corr ℝ phi n y))) =
      c • U (y - (corr ℝ phi n y).getD (absMaxIdx (corr ℝ phi n y)) 0 • phi (absMaxIdx (corr ℝ phi n y))) := by
    rw [map_sub, map_smul, smul_sub, smul_smul]
  simp only [ompInit, OmpState.sim, corr_sim, absMaxIdx_scale hc, getD_scale, e]
  congr 1
  rw [norm_smul, U.norm_map, mul_pow, Real.norm_eq_abs, sq_abs]

theorem ompStep_sim (U : E →ₗᵢ[ℝ] F) {c : ℝ} (hc : c ≠ 0) (phi : ℕ → E) (n : ℕ) (y : E) (s : OmpState E) :
    ompStep (fun i => U (phi i)) n (c • U y) (s.sim U c) = (ompStep phi n y s).sim U c := by
  set i := absMaxIdx (corr ℝ phi n s.r) with hi
  have hP : Function.update (fun i => U (s.phiI i)) s.k (U (phi i)) = fun j => U (Function.update s.phiI s.k (phi i) j) := by
    funext j
    by_cases hj : j = s.k
    · subst hj; simp
    · simp [Function.update_of_ne hj]
  have e : ∀ x : ℕ → ℝ, ∀ P : ℕ → E, c • U y - ∑ j ∈ Finset.range (s.k + 1), (c * x j) • U (P j) = c • U (y - ∑ j ∈ Finset.range (s.k + 1), x j • P j) := by
    intro x P
    rw [map_sub, map_sum, smul_sub, Finset.smul_sum]
    congr 1
    exact Finset.sum_congr rfl fun j _ => by rw [map_smul, smul_smul]
  simp only [ompStep, OmpState.sim, corr_sim, absMaxIdx_scale hc, getD_scale, ← hi, U.inner_map_map, solveSpdChol_scale, hP, e]
  congr 1
  rw [norm_smul, U.norm_map, mul_pow, Real.norm_eq_abs, sq_abs]

/-- **C143** (OMP, `matrix_solve`) as `c143_iht`. -/
theorem c143_omp_matrix (U : E →ₗᵢ[ℝ] F) (c : ℝ) (hc : c ≠ 0) (phi : ℕ → E) (n : ℕ) (y : E) (K : ℕ) :
    ompMatrixSolve (fun i => U (phi i)) n (c • U y) K = (ompMatrixSolve phi n y K).map (OmpState.sim U c) := by
  have : ∀ j, (ompStep (fun i => U (phi i)) n (c • U y))^[j] (ompInit (fun i => U (phi i)) n (c • U y)) = ((ompStep phi n y)^[j] (ompInit phi n y)).sim U c := by
    intro j
    induction j with
    | zero => exact ompInit_sim U hc phi n y
    | succ j ih => rw [Function.iterate_succ_apply', Function.iterate_succ_apply', ih, ompStep_sim U hc]
  rw [ompMatrixSolve, ompMatrixSolve]
  split_ifs
  · rfl
  · rw [this, Option.map_some]

/-- **C143** (OMP, `operator_solve`) as `c143_iht`. -/
theorem c143_omp_operator (U : E →ₗᵢ[ℝ] F) (c : ℝ) (hc : c ≠ 0) (phi : ℕ → E) (n : ℕ) (y : E) (K : ℕ) (rtol : ℝ) (s : OmpState E)
    (h : OmpOperatorSolve phi n y K rtol s) (s' : OmpState F) :
    OmpOperatorSolve (fun i => U (phi i)) n (c • U y) K rtol s' ↔ s' = s.sim U c := by
  obtain ⟨t, ht, rfl⟩ := h
  have hn : |c| ≠ 0 := abs_ne_zero.2 hc
  have e : (1 / ‖c • U y‖) • (c • U y) = (|c|⁻¹ * c) • U ((1 / ‖y‖) • y) := by
    rw [norm_smul, U.norm_map, map_smul, smul_smul, smul_smul, Real.norm_eq_abs, one_div, one_div, mul_inv]
    congr 1; ring
  have h1 : (|c|⁻¹ * c) ^ 2 = 1 := by rw [mul_pow, inv_pow, sq_abs, inv_mul_cancel₀ (pow_ne_zero 2 hc)]
  have h0 : |c|⁻¹ * c ≠ 0 := mul_ne_zero (inv_ne_zero hn) hc
  have hsq : ‖c • U y‖ = |c| * ‖y‖ := by rw [norm_smul, U.norm_map, Real.norm_eq_abs]
  have h' : Out (ompCond K rtol) (ompStep (fun i => U (phi i)) n ((1 / ‖c • U y‖) • (c • U y))) (ompOpInit (fun i => U (phi i)) n ((1 / ‖c • U y‖) • (c • U y)))
      (t.sim U (|c|⁻¹ * c)) := by
    have ei : ompOpInit (fun i => U (phi i)) n ((|c|⁻¹ * c) • U ((1 / ‖y‖) • y)) = (ompOpInit phi n ((1 / ‖y‖) • y)).sim U (|c|⁻¹ * c) := by
      rw [ompOpInit, ompInit_sim U h0, ompOpInit]
      simp only [OmpState.sim]
      congr 1
      rw [norm_smul, U.norm_map, mul_pow, Real.norm_eq_abs, sq_abs]
    rw [e, ei]
    refine outMap (OmpState.sim U _) (fun s => ?_) (ompStep_sim U h0 phi n _) ht
    simp only [ompCond, OmpState.sim, h1, one_mul]
  have er : ({ t.sim U (|c|⁻¹ * c) with x := (fun j => ‖c • U y‖ * (t.sim U (|c|⁻¹ * c)).x j), r := ‖c • U y‖ • (t.sim U (|c|⁻¹ * c)).r, rr := (t.sim U (|c|⁻¹ * c)).rr * ‖c • U y‖ ^ 2 } : OmpState F) = OmpState.sim U c { t with x := (fun j => ‖y‖ * t.x j), r := ‖y‖ • t.r, rr := t.rr * ‖y‖ ^ 2 } := by
    simp only [OmpState.sim, hsq, map_smul, smul_smul]
    congr 1
    · funext j; field_simp
    · congr 1; field_simp
    · rw [h1, mul_pow, sq_abs]; ring
  constructor
  · rintro ⟨t', ht', rfl⟩
    rw [Out.unique ht' h', er]
  · rintro rfl
    exact ⟨_, h', er.symm⟩

/-! ## Concrete instances -/

/-- The isometry `v ↦ -v` of `ℝ⁴`. -/
def exFlip : EuclideanSpace ℝ (Fin 4) →ₗᵢ[ℝ] EuclideanSpace ℝ (Fin 4) := (LinearIsometryEquiv.neg ℝ).toLinearIsometry

/-- The solvers return on the original problem, so the theorems above say what they return on the new one. -/
example : (∃ s, IhtSolve (𝕜 := ℝ) exAtoms4 4 1 !₂[1, 1, 1, 1] 2 20 (1e-3) s) ∧ (∃ s, HtpSolve (𝕜 := ℝ) exAtoms4 4 1 (exLst exAtoms4) !₂[1, 1, 1, 1] 2 20 (1e-3) s) ∧
    (∃ s, SpMatrixSolve (𝕜 := ℝ) exAtoms4 4 (exLst exAtoms4) !₂[1, 1, 1, 1] 2 20 (1e-3) s) ∧ (∃ s, SpOperatorSolve (𝕜 := ℝ) exAtoms4 4 (exLst exAtoms4) !₂[1, 1, 1, 1] 2 20 (1e-3) s) ∧
    (∃ s, CosampMatrixSolve (𝕜 := ℝ) exAtoms4 4 (exLst exAtoms4) !₂[1, 1, 1, 1] 1 20 (1e-3) s) ∧ (∃ s, CosampOperatorSolve (𝕜 := ℝ) exAtoms4 4 (exLst exAtoms4) !₂[1, 1, 1, 1] 1 20 (1e-3) s) ∧
    (∃ s, OmpOperatorSolve exAtoms4 4 !₂[1, 1, 1, 1] 2 (1e-3) s) ∧ (∃ s, Out (mpCond !₂[1, 1, 1, 1] (1e-3) 20) (mpStep exAtoms4 4 !₂[1, 1, 1, 1]) (mpInit !₂[1, 1, 1, 1]) s) := by
  refine ⟨exists_out (fun s => s.iters) 20 (fun s h => h.2) fun s => Nat.lt_succ_self _, exists_out (fun s => s.iters) 20 (fun s h => h.1.2) fun s => Nat.lt_succ_self _,
    exists_out (fun s => s.iters) 20 (fun s h => h.2) fun s => Nat.lt_succ_self _, ?_,
    exists_out (fun s => s.iters) 20 (fun s h => h.2) fun s => Nat.lt_succ_self _, ?_, ?_, exists_out (fun s => s.iters) 20 (fun s h => h.2) fun s => Nat.lt_succ_self _⟩
  · obtain ⟨t, ht⟩ := exists_out (c := supportCond (𝕜 := ℝ) ((1e-3 : ℝ) ^ 2) 20 2) (f := spBody (𝕜 := ℝ) exAtoms4 4 (exLst exAtoms4) (((1 / ‖(!₂[1, 1, 1, 1] : EuclideanSpace ℝ (Fin 4))‖ : ℝ) : ℝ) • !₂[1, 1, 1, 1]) 2)
      (s0 := spInit exAtoms4 4 (exLst exAtoms4) (((1 / ‖(!₂[1, 1, 1, 1] : EuclideanSpace ℝ (Fin 4))‖ : ℝ) : ℝ) • !₂[1, 1, 1, 1]) 2) (fun s => s.iters) 20 (fun s h => h.1.2) fun s => Nat.lt_succ_self _
    exact ⟨_, t, ht, rfl⟩
  · obtain ⟨t, ht⟩ := exists_out (c := supportCond (𝕜 := ℝ) ((1e-3 : ℝ) ^ 2) 20 1) (f := cosampBody (𝕜 := ℝ) exAtoms4 4 (exLst exAtoms4) (((1 / ‖(!₂[1, 1, 1, 1] : EuclideanSpace ℝ (Fin 4))‖ : ℝ) : ℝ) • !₂[1, 1, 1, 1]) 1)
      (s0 := cosampInit exAtoms4 4 (exLst exAtoms4) (((1 / ‖(!₂[1, 1, 1, 1] : EuclideanSpace ℝ (Fin 4))‖ : ℝ) : ℝ) • !₂[1, 1, 1, 1]) 1) (fun s => s.iters) 20 (fun s h => h.1.2) fun s => Nat.lt_succ_self _
    exact ⟨_, t, ht, rfl⟩
  · obtain ⟨t, ht⟩ := exists_out (c := ompCond 2 (1e-3)) (f := ompStep exAtoms4 4 ((1 / ‖(!₂[1, 1, 1, 1] : EuclideanSpace ℝ (Fin 4))‖) • !₂[1, 1, 1, 1]))
      (s0 := ompOpInit exAtoms4 4 ((1 / ‖(!₂[1, 1, 1, 1] : EuclideanSpace ℝ (Fin 4))‖) • !₂[1, 1, 1, 1])) (fun s => s.k) 2 (fun s h => h.2) fun s => Nat.lt_succ_self _
    exact ⟨_, t, ht, rfl⟩

example (s : GState ℝ (EuclideanSpace ℝ (Fin 4))) (h : IhtSolve exAtoms4 4 1 !₂[1, 1, 1, 1] 2 20 (1e-3) s) := c143_iht exFlip (-3 : ℝ) (by norm_num) exAtoms4 4 _ 2 20 (1e-3) s 1 h
example (s : Option (GState ℝ (EuclideanSpace ℝ (Fin 4)))) (h : NihtSolve exAtoms4 4 !₂[1, 1, 1, 1] 2 20 (1e-3) s) := c143_niht exFlip (-3 : ℝ) (by norm_num) exAtoms4 4 _ 2 20 (1e-3) s h
example (s : GState ℝ (EuclideanSpace ℝ (Fin 4))) (h : HtpSolve exAtoms4 4 1 (exLst exAtoms4) !₂[1, 1, 1, 1] 2 20 (1e-3) s) :=
  c143_htp exFlip (-3 : ℝ) (by norm_num) exAtoms4 4 _ (exLst _) (exLst_ok _) (exLst_ok _) _ 2 20 (1e-3) s 1 h
example (s : GState ℝ (EuclideanSpace ℝ (Fin 4))) (h : SpMatrixSolve exAtoms4 4 (exLst exAtoms4) !₂[1, 1, 1, 1] 2 20 (1e-3) s) :=
  c143_sp_matrix exFlip (-3 : ℝ) (by norm_num) exAtoms4 4 _ (exLst _) (exLst_ok _) (exLst_ok _) _ 2 20 (1e-3) s h
example (s : GState ℝ (EuclideanSpace ℝ (Fin 4))) (h : SpOperatorSolve exAtoms4 4 (exLst exAtoms4) !₂[1, 1, 1, 1] 2 20 (1e-3) s) :=
  c143_sp_operator exFlip (-3 : ℝ) (by norm_num) exAtoms4 4 _ (exLst _) (exLst_ok _) (exLst_ok _) _ 2 20 (1e-3) s h
example (s : GState ℝ (EuclideanSpace ℝ (Fin 4))) (h : CosampMatrixSolve exAtoms4 4 (exLst exAtoms4) !₂[1, 1, 1, 1] 1 20 (1e-3) s) :=
  c143_cosamp_matrix exFlip (-3 : ℝ) (by norm_num) exAtoms4 4 _ (exLst _) (exLst_ok _) (exLst_ok _) _ 1 20 (1e-3) s h
example (s : GState ℝ (EuclideanSpace ℝ (Fin 4))) (h : CosampOperatorSolve exAtoms4 4 (exLst exAtoms4) !₂[1, 1, 1, 1] 1 20 (1e-3) s) :=
  c143_cosamp_operator exFlip (-3 : ℝ) (by norm_num) exAtoms4 4 _ (exLst _) (exLst_ok _) (exLst_ok _) _ 1 20 (1e-3) s h
example (s : MpState (EuclideanSpace ℝ (Fin 4))) (h : Out (mpCond !₂[1, 1, 1, 1] (1e-3) 20) (mpStep exAtoms4 4 !₂[1, 1, 1, 1]) (mpInit !₂[1, 1, 1, 1]) s) :=
  c143_mp exFlip (-3) (by norm_num) exAtoms4 4 _ (1e-3) 20 s h
example := c143_omp_matrix exFlip (-3) (by norm_num) exAtoms4 4 !₂[1, 1, 1, 1] 2
example (s : OmpState (EuclideanSpace ℝ (Fin 4))) (h : OmpOperatorSolve exAtoms4 4 !₂[1, 1, 1, 1] 2 (1e-3) s) :=
  c143_omp_operator exFlip (-3) (by norm_num) exAtoms4 4 _ 2 (1e-3) s h

end real
end Verif.Pursuit
