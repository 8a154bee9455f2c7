import Verif.Pursuit.SimilarityProps

set_option autoImplicit false
/-! # C166: `matrix_solve` and `operator_solve` of the greedy pursuits agree -/
noncomputable section
namespace Verif.Pursuit
open Verif.Loop

/-- A loop with a stricter condition returns a state that the other loop passes through. -/
theorem out_of_stricter {σ : Type*} {c c' : σ → Prop} {f : σ → σ} {s0 s t : σ} (hcc : ∀ s, c s → c' s) (hs : Out c f s0 s) (ht : Out c' f s0 t) :
    ∃ m, t = f^[m] s ∧ (¬ c' s → m = 0) := by
  obtain ⟨k, rfl, hk⟩ := hs.1.iterate
  obtain ⟨l, rfl, hl⟩ := ht.1.iterate
  have hkl : k ≤ l := by
    by_contra h
    exact ht.2 (hcc _ (hk l (by omega)))
  refine ⟨l - k, by rw [← Function.iterate_add_apply]; congr 1; omega, fun h => ?_⟩
  by_contra hm
  exact h (hl k (by omega))

variable {𝕜 : Type*} [RCLike 𝕜] {E : Type*} [NormedAddCommGroup E] [InnerProductSpace 𝕜 E]

theorem inv_norm_ne {y : E} (hy : y ≠ 0) : ((1 / ‖y‖ : ℝ) : 𝕜) ≠ 0 := by
  have := norm_ne_zero_iff.2 hy
  exact_mod_cast one_div_ne_zero this

/-- Undoing the normalisation of the measurements. -/
theorem rescale_normalised {y : E} (hy : y ≠ 0) (u : GState 𝕜 E) : rescale ‖y‖ (u.sim LinearIsometry.id ((1 / ‖y‖ : ℝ) : 𝕜)) = u := by
  have hn := norm_ne_zero_iff.2 hy
  have e : ((‖y‖ : ℝ) : 𝕜) * ((1 / ‖y‖ : ℝ) : 𝕜) = 1 := by rw [← RCLike.ofReal_mul, mul_one_div_cancel hn, RCLike.ofReal_one]
  have en : ‖((1 / ‖y‖ : ℝ) : 𝕜)‖ = 1 / ‖y‖ := by rw [RCLike.norm_ofReal, abs_of_nonneg (by positivity)]
  cases u with
  | mk x I r rr iters Ip =>
    simp only [rescale, GState.sim, List.map_map, Function.comp_def, ← mul_assoc, e, one_mul, smul_smul, one_smul, en, LinearIsometry.id_apply, GState.mk.injEq, List.map_id', true_and,
      and_true]
    field_simp

theorem tol_normalised {y : E} (hy : y ≠ 0) (rtol : ℝ) : rtol ^ 2 = ‖((1 / ‖y‖ : ℝ) : 𝕜)‖ ^ 2 * (‖y‖ ^ 2 * rtol ^ 2) := by
  have hn := norm_ne_zero_iff.2 hy
  rw [RCLike.norm_ofReal, abs_of_nonneg (by positivity)]
  field_simp

section solvers
variable (phi : ℕ → E) (n : ℕ) (lstsq : List ℕ → E → List 𝕜) (hl : ∀ I y, IsLstsq phi I y (lstsq I y)) (y : E) (hy : y ≠ 0) (K maxIters : ℕ) (rtol : ℝ) (s t : GState 𝕜 E)
include hl hy

/-- Working on normalised measurements and scaling the result back is the same as working on the measurements. -/
theorem spOperator_iff : SpOperatorSolve phi n lstsq y K maxIters rtol s ↔ Out (supportCond (‖y‖ ^ 2 * rtol ^ 2) maxIters K) (spBody phi n lstsq y K) (spInit phi n lstsq y K) s := by
  have hc := inv_norm_ne (𝕜 := 𝕜) hy
  have key : ∀ u, Out (supportCond (‖y‖ ^ 2 * rtol ^ 2) maxIters K) (spBody phi n lstsq y K) (spInit phi n lstsq y K) u →
      Out (supportCond (rtol ^ 2) maxIters K) (spBody phi n lstsq (((1 / ‖y‖ : ℝ) : 𝕜) • y) K) (spInit phi n lstsq (((1 / ‖y‖ : ℝ) : 𝕜) • y) K)
        (u.sim LinearIsometry.id ((1 / ‖y‖ : ℝ) : 𝕜)) := fun u hu => by
    have e0 := spInit_sim (LinearIsometry.id : E →ₗᵢ[𝕜] E) hc phi n hl hl y K
    simp only [LinearIsometry.id_apply] at e0
    rw [e0]
    refine outMap (GState.sim LinearIsometry.id _) (fun s => ?_) (fun s => spBody_sim (LinearIsometry.id : E →ₗᵢ[𝕜] E) hc phi n hl hl y K s) hu
    have := supportCond_sim (LinearIsometry.id : E →ₗᵢ[𝕜] E) hc (‖y‖ ^ 2 * rtol ^ 2) maxIters K s
    rwa [← tol_normalised (𝕜 := 𝕜) hy] at this
  constructor
  · rintro ⟨u, hu, rfl⟩
    obtain ⟨v, hv⟩ := exists_out (c := supportCond (𝕜 := 𝕜) (‖y‖ ^ 2 * rtol ^ 2) maxIters K) (f := spBody phi n lstsq y K) (s0 := spInit phi n lstsq y K) (fun s => s.iters) maxIters
      (fun s h => h.1.2) fun s => Nat.lt_succ_self _
    rw [Out.unique hu (key v hv), rescale_normalised hy]
    exact hv
  · intro h
    exact ⟨_, key s h, (rescale_normalised hy s).symm⟩

theorem cosampOperator_iff : CosampOperatorSolve phi n lstsq y K maxIters rtol s ↔
    Out (supportCond (‖y‖ ^ 2 * rtol ^ 2) maxIters K) (cosampBody phi n lstsq y K) (cosampInit phi n lstsq y K) s := by
  have hc := inv_norm_ne (𝕜 := 𝕜) hy
  have key : ∀ u, Out (supportCond (‖y‖ ^ 2 * rtol ^ 2) maxIters K) (cosampBody phi n lstsq y K) (cosampInit phi n lstsq y K) u →
      Out (supportCond (rtol ^ 2) maxIters K) (cosampBody phi n lstsq (((1 / ‖y‖ : ℝ) : 𝕜) • y) K) (cosampInit phi n lstsq (((1 / ‖y‖ : ℝ) : 𝕜) • y) K)
        (u.sim LinearIsometry.id ((1 / ‖y‖ : ℝ) : 𝕜)) := fun u hu => by
    have e0 := cosampInit_sim (LinearIsometry.id : E →ₗᵢ[𝕜] E) hc phi n hl hl y K
    simp only [LinearIsometry.id_apply] at e0
    rw [e0]
    refine outMap (GState.sim LinearIsometry.id _) (fun s => ?_) (fun s => cosampBody_sim (LinearIsometry.id : E →ₗᵢ[𝕜] E) hc phi n hl hl y K s) hu
    have := supportCond_sim (LinearIsometry.id : E →ₗᵢ[𝕜] E) hc (‖y‖ ^ 2 * rtol ^ 2) maxIters K s
    rwa [← tol_normalised (𝕜 := 𝕜) hy] at this
  constructor
  · rintro ⟨u, hu, rfl⟩
    obtain ⟨v, hv⟩ := exists_out (c := supportCond (𝕜 := 𝕜) (‖y‖ ^ 2 * rtol ^ 2) maxIters K) (f := cosampBody phi n lstsq y K) (s0 := cosampInit phi n lstsq y K) (fun s => s.iters) maxIters
      (fun s h => h.1.2) fun s => Nat.lt_succ_self _
    rw [Out.unique hu (key v hv), rescale_normalised hy]
    exact hv
  · intro h
    exact ⟨_, key s h, (rescale_normalised hy s).symm⟩

omit hl hy in
theorem largestIndices_zero (h : List 𝕜) : largestIndices h 0 = [] := by simp [largestIndices]

omit hl hy in
/-- What a reached state of subspace pursuit knows about its past. -/
theorem sp_past {c : GState 𝕜 E → Prop} (h : Reach c (spBody phi n lstsq y K) (spInit phi n lstsq y K) s) :
    s.x = lstsq s.I y ∧ s.r = y - lin phi s.I (lstsq s.I y) ∧ s.rr = ‖y - lin phi s.I (lstsq s.I y)‖ ^ 2 ∧
      (s.I = s.Iprev → ¬ s.iters < min (3 * K) 20 → (spBody phi n lstsq y K s).I = s.I) := by
  induction h with
  | init =>
    refine ⟨rfl, rfl, rfl, fun _ h => ?_⟩
    have hK : K = 0 := by
      have : ¬ 1 < min (3 * K) 20 := h
      omega
    subst hK
    simp [spBody, spInit, mkState, largestIndices_zero, gather]
  | @step p hp _ ih =>
    refine ⟨rfl, rfl, rfl, fun he _ => ?_⟩
    have he : (spBody phi n lstsq y K p).I = p.I := he
    have hr : (spBody phi n lstsq y K p).r = p.r := by
      rw [ih.2.1, ← he]; rfl
    conv_lhs => rw [spBody]
    show gather 0 ((spBody phi n lstsq y K p).I ++ largestIndices (zeroAt (corr 𝕜 phi n (spBody phi n lstsq y K p).r) (spBody phi n lstsq y K p).I) K)
      (largestIndices (lstsq ((spBody phi n lstsq y K p).I ++ largestIndices (zeroAt (corr 𝕜 phi n (spBody phi n lstsq y K p).r) (spBody phi n lstsq y K p).I) K) y) K) = (spBody phi n lstsq y K p).I
    rw [hr, he]
    exact he

/-- **C166** (subspace pursuit) `operator_solve` works on `y/|y|` and stops early once the support no longer changes, `matrix_solve` does neither; nevertheless for every dictionary, every
`y ≠ 0`, sparsity, tolerance and iteration cap the two return the same support, the same coefficients, the same residual and residual norm, and `operator_solve` never takes more
iterations. -/
theorem c166_sp (hs : SpOperatorSolve phi n lstsq y K maxIters rtol s) (ht : SpMatrixSolve phi n lstsq y K maxIters rtol t) :
    s.I = t.I ∧ s.x = t.x ∧ s.r = t.r ∧ s.rr = t.rr ∧ s.iters ≤ t.iters := by
  rw [spOperator_iff phi n lstsq hl y hy] at hs
  obtain ⟨m, rfl, hm⟩ := out_of_stricter (fun _ h => h.1) hs ht
  by_cases hp : plainCond (‖y‖ ^ 2 * rtol ^ 2) maxIters s
  · have hstop : s.I = s.Iprev ∧ ¬ s.iters < min (3 * K) 20 := by
      have := hs.2
      simp only [supportCond] at this
      exact ⟨by_contra fun h => this ⟨hp, Or.inr h⟩, fun h => this ⟨hp, Or.inl h⟩⟩
    obtain ⟨h1, h2, h3, h4⟩ := sp_past phi n lstsq y K s hs.1
    have hfix := h4 hstop.1 hstop.2
    have key : ∀ m, ((spBody phi n lstsq y K)^[m] s).I = s.I ∧ ((spBody phi n lstsq y K)^[m] s).x = s.x ∧ ((spBody phi n lstsq y K)^[m] s).r = s.r ∧
        ((spBody phi n lstsq y K)^[m] s).rr = s.rr ∧ s.iters ≤ ((spBody phi n lstsq y K)^[m] s).iters := by
      intro m
      induction m with
      | zero => exact ⟨rfl, rfl, rfl, rfl, le_refl _⟩
      | succ m ih =>
        rw [Function.iterate_succ_apply']
        generalize (spBody phi n lstsq y K)^[m] s = v at ih
        have hI : (spBody phi n lstsq y K v).I = s.I := by
          rw [← hfix]
          show gather 0 _ _ = gather 0 _ _
          rw [ih.1, ih.2.2.1]
        refine ⟨hI, ?_, ?_, ?_, ih.2.2.2.2.trans (Nat.le_succ _)⟩
        · rw [h1, ← hI]; rfl
        · rw [h2, ← hI]; rfl
        · rw [h3, ← hI]; rfl
    obtain ⟨a, b, c, d, e⟩ := key m
    exact ⟨a.symm, b.symm, c.symm, d.symm, e⟩
  · rw [hm hp]
    exact ⟨rfl, rfl, rfl, rfl, le_refl _⟩

/-- **C166** (CoSaMP) the result of `operator_solve` is a state that `matrix_solve` passes through: `matrix_solve` goes on from it for the remaining iterations and for no others; the
two results are equal unless the support was unchanged after `min(3K, 20)` iterations. -/
theorem c166_cosamp (hs : CosampOperatorSolve phi n lstsq y K maxIters rtol s) (ht : CosampMatrixSolve phi n lstsq y K maxIters rtol t) :
    t = (cosampBody phi n lstsq y K)^[t.iters - s.iters] s ∧ s.iters ≤ t.iters ∧ ((s.iters < min (3 * K) 20 ∨ s.I ≠ s.Iprev) → s = t) := by
  rw [cosampOperator_iff phi n lstsq hl y hy] at hs
  obtain ⟨m, rfl, hm⟩ := out_of_stricter (fun _ h => h.1) hs ht
  have hit : ∀ m, ((cosampBody phi n lstsq y K)^[m] s).iters = s.iters + m := by
    intro m
    induction m with
    | zero => rfl
    | succ m ih =>
      rw [Function.iterate_succ_apply']
      show ((cosampBody phi n lstsq y K)^[m] s).iters + 1 = _
      rw [ih]; ring
  refine ⟨by rw [hit, Nat.add_sub_cancel_left], by rw [hit]; exact Nat.le_add_right _ _, fun h => ?_⟩
  rw [hm fun hp => hs.2 ⟨hp, h⟩]
  rfl

end solvers

section real
variable {E : Type*} [NormedAddCommGroup E] [InnerProductSpace ℝ E]

/-- **C166** (OMP) `operator_solve` on `y ≠ 0` returns, after `s.k ≥ 2` atoms, exactly what `matrix_solve` returns when asked for `s.k` atoms: same atoms in the same order, same
coefficients, same residual, same Cholesky factor, same residual norm. -/
theorem c166_omp (phi : ℕ → E) (n : ℕ) (y : E) (hy : y ≠ 0) (K : ℕ) (rtol : ℝ) (s : OmpState E) (hs : OmpOperatorSolve phi n y K rtol s) (hk : 2 ≤ s.k) :
    ompMatrixSolve phi n y s.k = some s ∧ s.k ≤ K := by
  obtain ⟨t, ht, rfl⟩ := hs
  have hn := norm_ne_zero_iff.2 hy
  have hc : (1 / ‖y‖) ≠ 0 := one_div_ne_zero hn
  have hk : 2 ≤ t.k := hk
  obtain ⟨m, rfl, hm⟩ := ht.1.iterate
  have hit : ∀ m, ((ompStep phi n ((1 / ‖y‖) • y))^[m] (ompOpInit phi n ((1 / ‖y‖) • y))).k = m + 1 := by
    intro m
    induction m with
    | zero => rfl
    | succ m ih =>
      rw [Function.iterate_succ_apply']
      show (_ : OmpState E).k + 1 = _
      rw [ih]
  have hsim : ∀ m, (ompStep phi n ((1 / ‖y‖) • y))^[m + 1] (ompOpInit phi n ((1 / ‖y‖) • y)) = ((ompStep phi n y)^[m + 1] (ompInit phi n y)).sim LinearIsometry.id (1 / ‖y‖) := by
    intro m
    induction m with
    | zero =>
      have e0 := ompInit_sim (LinearIsometry.id : E →ₗᵢ[ℝ] E) hc phi n y
      simp only [LinearIsometry.id_apply] at e0
      have e1 := ompStep_sim (LinearIsometry.id : E →ₗᵢ[ℝ] E) hc phi n y (ompInit phi n y)
      simp only [LinearIsometry.id_apply] at e1
      rw [← e0] at e1
      exact e1
    | succ m ih =>
      rw [Function.iterate_succ_apply', ih, Function.iterate_succ_apply' _ (m + 1)]
      exact ompStep_sim (LinearIsometry.id : E →ₗᵢ[ℝ] E) hc phi n y _
  have hm1 : 1 ≤ m := by rw [hit] at hk; omega
  obtain ⟨j, rfl⟩ : ∃ j, m = j + 1 := ⟨m - 1, by omega⟩
  refine ⟨?_, ?_⟩
  · show ompMatrixSolve phi n y ((ompStep phi n ((1 / ‖y‖) • y))^[j + 1] (ompOpInit phi n ((1 / ‖y‖) • y))).k = _
    refine (congrArg (ompMatrixSolve phi n y) (hit (j + 1))).trans ?_
    rw [ompMatrixSolve, if_neg (by omega), hsim, show j + 1 + 1 - 1 = j + 1 by omega]
    generalize (ompStep phi n y)^[j + 1] (ompInit phi n y) = u
    congr 1
    cases u with
    | mk k I P x r L rr =>
      simp only [OmpState.sim, LinearIsometry.id_apply, smul_smul, mul_one_div_cancel hn, one_smul, OmpState.mk.injEq, true_and]
      refine ⟨funext fun j => by field_simp, ?_⟩
      field_simp
  · show ((ompStep phi n ((1 / ‖y‖) • y))^[j + 1] (ompOpInit phi n ((1 / ‖y‖) • y))).k ≤ K
    have := (hm j (by omega)).2
    rw [hit] at this ⊢
    omega

/-! ## Concrete instances -/

theorem ones4_ne : (!₂[1, 1, 1, 1] : EuclideanSpace ℝ (Fin 4)) ≠ 0 := fun h => by
  have := congrArg (fun v : EuclideanSpace ℝ (Fin 4) => v 0) h
  simp at this

/-- Both versions return (see the example of C143), and the theorem applies to what they return. -/
example : ∃ s t : GState ℝ (EuclideanSpace ℝ (Fin 4)), SpOperatorSolve exAtoms4 4 (exLst exAtoms4) !₂[1, 1, 1, 1] 2 20 (1e-3) s ∧
    SpMatrixSolve exAtoms4 4 (exLst exAtoms4) !₂[1, 1, 1, 1] 2 20 (1e-3) t ∧ s.I = t.I ∧ s.x = t.x := by
  obtain ⟨s, hs⟩ := exists_out (c := supportCond (𝕜 := ℝ) (‖(!₂[1, 1, 1, 1] : EuclideanSpace ℝ (Fin 4))‖ ^ 2 * (1e-3 : ℝ) ^ 2) 20 2) (f := spBody (𝕜 := ℝ) exAtoms4 4 (exLst exAtoms4) !₂[1, 1, 1, 1] 2)
    (s0 := spInit exAtoms4 4 (exLst exAtoms4) !₂[1, 1, 1, 1] 2) (fun s => s.iters) 20 (fun s h => h.1.2) fun s => Nat.lt_succ_self _
  obtain ⟨t, ht⟩ : ∃ t, SpMatrixSolve (𝕜 := ℝ) exAtoms4 4 (exLst exAtoms4) !₂[1, 1, 1, 1] 2 20 (1e-3) t := exists_out (fun s => s.iters) 20 (fun s h => h.2) fun s => Nat.lt_succ_self _
  have hs' := (spOperator_iff exAtoms4 4 (exLst exAtoms4) (exLst_ok _) _ ones4_ne 2 20 (1e-3) s).2 hs
  have h := c166_sp exAtoms4 4 (exLst exAtoms4) (exLst_ok _) _ ones4_ne 2 20 (1e-3) s t hs' ht
  exact ⟨s, t, hs', ht, h.1, h.2.1⟩

example (s t : GState ℝ (EuclideanSpace ℝ (Fin 4))) (hs : CosampOperatorSolve exAtoms4 4 (exLst exAtoms4) !₂[1, 1, 1, 1] 1 20 (1e-3) s)
    (ht : CosampMatrixSolve exAtoms4 4 (exLst exAtoms4) !₂[1, 1, 1, 1] 1 20 (1e-3) t) := c166_cosamp exAtoms4 4 (exLst exAtoms4) (exLst_ok _) _ ones4_ne 1 20 (1e-3) s t hs ht

/-- With tolerance `1e-3` at least two atoms are chosen: the hypothesis `2 ≤ s.k` is met. -/
example (s : OmpState (EuclideanSpace ℝ (Fin 4))) (h : OmpOperatorSolve exAtoms4 4 !₂[1, 1, 1, 1] 2 (1e-3) s) : ompMatrixSolve exAtoms4 4 !₂[1, 1, 1, 1] 2 = some s := by
  have hk : s.k = 2 ∨ 2 ≤ s.k := by
    obtain ⟨t, ht, rfl⟩ := h
    right
    show 2 ≤ t.k
    obtain ⟨m, rfl, hm⟩ := ht.1.iterate
    rcases m with - | m
    · exfalso
      refine ht.2 ⟨?_, by show 1 < 2; norm_num⟩
      show ‖(1 / ‖(!₂[1, 1, 1, 1] : EuclideanSpace ℝ (Fin 4))‖) • (!₂[1, 1, 1, 1] : EuclideanSpace ℝ (Fin 4))‖ ^ 2 > _
      rw [norm_smul, norm_div, norm_one, norm_norm, one_div_mul_cancel (norm_ne_zero_iff.2 ones4_ne)]
      norm_num
    · rw [Function.iterate_succ_apply']
      show 2 ≤ (_ : OmpState _).k + 1
      have : ∀ m, 1 ≤ ((ompStep exAtoms4 4 ((1 / ‖(!₂[1, 1, 1, 1] : EuclideanSpace ℝ (Fin 4))‖) • !₂[1, 1, 1, 1]))^[m] (ompOpInit exAtoms4 4 ((1 / ‖(!₂[1, 1, 1, 1] : EuclideanSpace ℝ (Fin 4))‖) • !₂[1, 1, 1, 1]))).k := by
        intro m
        cases m with
        | zero => exact le_refl _
        | succ m => rw [Function.iterate_succ_apply']; exact Nat.le_add_left 1 _
      exact Nat.succ_le_succ (this m)
  have hk2 : 2 ≤ s.k := by omega
  obtain ⟨h1, h2⟩ := c166_omp exAtoms4 4 _ ones4_ne 2 (1e-3) s h hk2
  rwa [show s.k = 2 by omega] at h1

end real
end Verif.Pursuit
