import Verif.LoopMap
import Verif.Cvx.SpgSymProps
import Verif.Cvx.Spgl1CProps

set_option autoImplicit false
/-! # C165: coordinates of the measurements, phases and order of the unknowns in SPGL1 on complex arrays -/
noncomputable section
namespace Verif.Cvx
open Verif.Loop Verif.Opt
open Verif.Sls (counted)
open Verif.Lop (ent cumsum ent_cumsum length_cumsum)

variable {m n : ℕ}

/-! ## Permutations with phases -/

/-- The unknowns in the order `σ` and with phases `ω`. -/
def cperm (σ : Equiv.Perm (Fin n)) (ω : Fin n → ℂ) : CVec n →ₗ[ℂ] CVec n where
  toFun x := cvec fun i => ω i * x (σ i)
  map_add' x y := by ext i; exact mul_add _ _ _
  map_smul' c x := by ext i; exact mul_left_comm _ _ _

theorem l1Kappa_nonneg (q : ℝ) (a : List ℝ) (ha : ∀ v ∈ a, 0 ≤ v) (hs : q < a.sum) : 0 ≤ l1Kappa q a := by
  by_cases hq : 0 ≤ q
  · exact (l1Kappa_spec q hq a ha hs).1
  · unfold l1Kappa
    have hc : ∀ i, 0 ≤ ent (cumsum (sortDesc a)) i := by
      intro i
      by_cases hi : i < (sortDesc a).length
      · rw [ent_cumsum hi]
        refine Finset.sum_nonneg fun j hj => ?_
        have hj' : j < (sortDesc a).length := by have := Finset.mem_range.1 hj; omega
        have hm : ent (sortDesc a) j ∈ sortDesc a := by
          unfold ent
          rw [List.getD_eq_getElem?_getD, List.getElem?_eq_getElem hj']
          exact List.getElem_mem _
        exact ha _ ((Verif.Opt.sortDesc_perm a).mem_iff.1 hm)
      · unfold ent
        rw [List.getD_eq_getElem?_getD, List.getElem?_eq_none (by rw [length_cumsum]; omega)]
        exact le_rfl
    apply div_nonneg _ (Nat.cast_nonneg _)
    have := hc ((if argmaxB ((List.range (sortDesc a).length).map fun i : ℕ => decide (ent (cumsum (sortDesc a)) i - q > ent (sortDesc a) i * ((i : ℝ) + 1))) = 0 then
      ((List.range (sortDesc a).length).map fun i : ℕ => decide (ent (cumsum (sortDesc a)) i - q > ent (sortDesc a) i * ((i : ℝ) + 1))).length else
      argmaxB ((List.range (sortDesc a).length).map fun i : ℕ => decide (ent (cumsum (sortDesc a)) i - q > ent (sortDesc a) i * ((i : ℝ) + 1)))) - 1)
    linarith

section cperm
variable (σ : Equiv.Perm (Fin n)) {ω : Fin n → ℂ} (hω : ∀ i, ‖ω i‖ = 1)

theorem cperm_apply (ω : Fin n → ℂ) (x : CVec n) (i : Fin n) : cperm σ ω x i = ω i * x (σ i) := rfl

theorem cperm_smul (ω : Fin n → ℂ) (c : ℝ) (x : CVec n) : c • cperm σ ω x = cperm σ ω (c • x) := (LinearMap.map_smul_of_tower _ _ _).symm

include hω

theorem cperm_abs (x : CVec n) (i : Fin n) : ‖cperm σ ω x i‖ = ‖x (σ i)‖ := by
  rw [cperm_apply, norm_mul, hω i, one_mul]

theorem cperm_norm (x : CVec n) : ‖cperm σ ω x‖ = ‖x‖ := by
  rw [EuclideanSpace.norm_eq, EuclideanSpace.norm_eq]
  congr 1
  simp only [cperm_abs σ hω]
  exact Equiv.sum_comp σ fun i => ‖x i‖ ^ 2

theorem cperm_l1 (x : CVec n) : l1C (cperm σ ω x) = l1C x := by
  simp only [l1C, cperm_abs σ hω]
  exact Equiv.sum_comp σ fun i => ‖x i‖

theorem cperm_linf (x : CVec n) : linfC (cperm σ ω x) = linfC x := by
  refine le_antisymm ((pi_norm_le_iff_of_nonneg (norm_nonneg _)).2 fun i => ?_) ((pi_norm_le_iff_of_nonneg (norm_nonneg _)).2 fun i => ?_)
  · have : ‖(cperm σ ω x).ofLp i‖ = ‖x.ofLp (σ i)‖ := cperm_abs σ hω x i
    rw [this]
    exact norm_le_pi_norm x.ofLp (σ i)
  · have : ‖(cperm σ ω x).ofLp (σ.symm i)‖ = ‖x.ofLp i‖ := by
      have := cperm_abs σ hω x (σ.symm i)
      rwa [Equiv.apply_symm_apply] at this
    rw [← this]
    exact norm_le_pi_norm (cperm σ ω x).ofLp (σ.symm i)

theorem cperm_vdot (x y : CVec n) : vdotC (cperm σ ω x) (cperm σ ω y) = vdotC x y := by
  rw [vdotC, vdotC, ← Equiv.sum_comp σ fun i => (starRingEnd ℂ) (x i) * y i]
  refine Finset.sum_congr rfl fun i _ => ?_
  rw [cperm_apply, cperm_apply, map_mul]
  have h : (starRingEnd ℂ) (ω i) * ω i = 1 := by rw [Complex.conj_mul', hω i]; norm_num
  linear_combination (starRingEnd ℂ) (x (σ i)) * y (σ i) * h

theorem cperm_proj (x : CVec n) (q : ℝ) : projectToL1BallC (cperm σ ω x) q = cperm σ ω (projectToL1BallC x q) := by
  have hp : (List.ofFn fun i => ‖cperm σ ω x i‖).Perm (List.ofFn fun i => ‖x i‖) := by
    have : (fun i => ‖cperm σ ω x i‖) = (fun i => ‖x i‖) ∘ σ := funext (cperm_abs σ hω x)
    rw [this]
    exact Equiv.Perm.ofFn_comp_perm σ _
  unfold projectToL1BallC
  rw [cperm_l1 σ hω]
  split_ifs with hq
  · have : l1Kappa q (List.ofFn fun i => ‖cperm σ ω x i‖) = l1Kappa q (List.ofFn fun i => ‖x i‖) := by
      unfold l1Kappa
      rw [Verif.Cvx.sortDesc_perm hp]
    have hκ : 0 ≤ l1Kappa q (List.ofFn fun i => ‖x i‖) := by
      refine l1Kappa_nonneg q _ (by simp) ?_
      rw [List.sum_ofFn]; exact hq
    ext i
    show ((max (‖cperm σ ω x i‖ - l1Kappa q (List.ofFn fun i => ‖cperm σ ω x i‖)) 0 : ℝ) : ℂ) * Complex.exp (Complex.I * Complex.arg (cperm σ ω x i)) =
      ω i * (((max (‖x (σ i)‖ - l1Kappa q (List.ofFn fun i => ‖x i‖)) 0 : ℝ) : ℂ) * Complex.exp (Complex.I * Complex.arg (x (σ i))))
    rw [this, cperm_abs σ hω]
    by_cases h0 : x (σ i) = 0
    · rw [h0, norm_zero, zero_sub, max_eq_right (by linarith)]
      simp
    · have e : Complex.exp (Complex.I * Complex.arg (cperm σ ω x i)) = ω i * Complex.exp (Complex.I * Complex.arg (x (σ i))) := by
        have h1 := Complex.norm_mul_exp_arg_mul_I (cperm σ ω x i)
        have h2 := Complex.norm_mul_exp_arg_mul_I (x (σ i))
        rw [cperm_abs σ hω, cperm_apply] at h1
        have hn : ((‖x (σ i)‖ : ℝ) : ℂ) ≠ 0 := by simpa using h0
        apply mul_left_cancel₀ hn
        rw [mul_comm Complex.I, mul_comm Complex.I, cperm_apply, h1]
        conv_lhs => rw [← h2]
        ring
      rw [e]; ring
  · rfl

end cperm

theorem vdotC_map (Q : CVec m →ₗᵢ[ℂ] CVec m) (x y : CVec m) : vdotC (Q x) (Q y) = vdotC x y := by
  have h : ∀ u v : CVec m, vdotC u v = inner ℂ u v := fun u v => by
    rw [vdotC, PiLp.inner_apply]
    exact Finset.sum_congr rfl fun i _ => by rw [RCLike.inner_apply, mul_comm]
  rw [h, h, Q.inner_map_map]

section spgl1
variable {A A' : CVec n → CVec m} {At At' : CVec m → CVec n} {σ : Equiv.Perm (Fin n)} {ω : Fin n → ℂ} {Q : CVec m →ₗᵢ[ℂ] CVec m}
  (hω : ∀ i, ‖ω i‖ = 1) (hA : ∀ x, A' (cperm σ ω x) = Q (A x)) (hAt : ∀ r, At' (Q r) = cperm σ ω (At r))

/-- The state of the line search in the new coordinates. -/
def CurvyStateC.moved (σ : Equiv.Perm (Fin n)) (ω : Fin n → ℂ) (Q : CVec m →ₗᵢ[ℂ] CVec m) (s : CurvyStateC m n) : CurvyStateC m n :=
  { s with xNew := cperm σ ω s.xNew, rNew := Q s.rNew, dNew := cperm σ ω s.dNew }

theorem objVal_movedC (r : CVec m) : objValC (Q r) = objValC r := by rw [objValC, objValC, vdotC_map]

section
include hω

theorem firstAlpha_movedC (o : Spgl1Opts) (d : CVec n) : firstAlphaC o (cperm σ ω d) = firstAlphaC o d := by rw [firstAlphaC, firstAlphaC, cperm_linf σ hω]

theorem nextAlpha_movedC (o : Spgl1Opts) (s y : CVec n) : nextAlphaC o (cperm σ ω s) (cperm σ ω y) = nextAlphaC o s y := by
  rw [nextAlphaC, nextAlphaC, cperm_vdot σ hω, cperm_vdot σ hω]

theorem relGap_movedC (b r : CVec m) (g : CVec n) (f tau : ℝ) : relGapC (Q b) (cperm σ ω g) (Q r) f tau = relGapC b g r f tau := by
  rw [relGapC, relGapC, cperm_linf σ hω, ← map_sub, vdotC_map]

include hA

theorem curvyCandidate_movedC (b : CVec m) (x g : CVec n) (fMax tau gamma alpha scale dn : ℝ) (k l calls : ℕ) :
    curvyCandidateC A' (Q b) (cperm σ ω x) (cperm σ ω g) fMax tau gamma alpha scale dn k l calls =
      (curvyCandidateC A b x g fMax tau gamma alpha scale dn k l calls).moved σ ω Q := by
  have e1 : projectToL1BallC (cperm σ ω x - (alpha * scale) • cperm σ ω g) tau = cperm σ ω (projectToL1BallC (x - (alpha * scale) • g) tau) := by
    rw [cperm_smul, ← map_sub, cperm_proj σ hω]
  simp only [curvyCandidateC, CurvyStateC.moved, counted, e1, hA, ← map_sub, cperm_vdot σ hω, objVal_movedC]

theorem curvyNext_movedC (b : CVec m) (x g : CVec n) (fMax tau gamma : ℝ) (s : CurvyStateC m n) :
    curvyNextC A' (Q b) (cperm σ ω x) (cperm σ ω g) fMax tau gamma (s.moved σ ω Q) = (curvyNextC A b x g fMax tau gamma s).moved σ ω Q := by
  simp only [curvyNextC, ← curvyCandidate_movedC hω hA]
  simp only [CurvyStateC.moved, cperm_norm σ hω]

open Classical in
theorem curvy_movedC (b : CVec m) (x g : CVec n) (a fMax tau gamma : ℝ) (calls : ℕ) :
    curvyLineSearchC A' (Q b) (cperm σ ω x) (cperm σ ω g) a fMax tau gamma calls = (curvyLineSearchC A b x g a fMax tau gamma calls).moved σ ω Q := by
  simp only [curvyLineSearchC, cperm_smul, curvyInitC, curvyCandidate_movedC hω hA]
  exact run_map (c := curvyCondC) (c' := curvyCondC) (CurvyStateC.moved σ ω Q) (fun _ => Iff.rfl) (fun s => curvyNext_movedC hω hA b x (a • g) fMax tau gamma s) 10 _

end

/-- The state of the LASSO solver in the new coordinates. -/
def LassoStateC.moved (σ : Equiv.Perm (Fin n)) (ω : Fin n → ℂ) (Q : CVec m →ₗᵢ[ℂ] CVec m) (s : LassoStateC m n) : LassoStateC m n :=
  { s with x := cperm σ ω s.x, g := cperm σ ω s.g, r := Q s.r }

include hω hA hAt

theorem lassoInit_movedC (b : CVec m) (tau : ℝ) (x0 : CVec n) (o : Spgl1Opts) :
    lassoInitC A' At' (Q b) tau (cperm σ ω x0) o = (lassoInitC A At b tau x0 o).moved σ ω Q := by
  simp only [lassoInitC, LassoStateC.moved, counted, cperm_proj σ hω, hA, ← map_sub, hAt, ← map_neg, objVal_movedC, firstAlpha_movedC hω, relGap_movedC hω, Q.norm_map]

theorem lassoBody_movedC (b : CVec m) (tau : ℝ) (o : Spgl1Opts) (s : LassoStateC m n) :
    lassoBodyC A' At' (Q b) tau o (s.moved σ ω Q) = (lassoBodyC A At b tau o s).moved σ ω Q := by
  have e := curvy_movedC hω hA b s.x s.g s.alphaNext (listMax s.fPast) tau o.gamma s.timesCalls
  simp only [lassoBodyC, LassoStateC.moved, e]
  simp only [CurvyStateC.moved, counted, hAt, ← map_sub, ← map_neg, nextAlpha_movedC hω, relGap_movedC hω, Q.norm_map]

/-- **C165** (SPGL1, `solve_lasso`, `solve_lasso_from`) Rotate the measurement coordinates by `Q`, list the unknowns in the order `σ` and turn their phases by `ω` (in the operator, its
adjoint, the data and the start). The solver returns exactly the transformed solution, gradient and residual, and the same scalars and counts. -/
theorem c165_lasso (b : CVec m) (tau : ℝ) (x0 : CVec n) (o : Spgl1Opts) (s : LassoStateC m n) (h : LassoSolveFromC A At b tau x0 o s) (s' : LassoStateC m n) :
    LassoSolveFromC A' At' (Q b) tau (cperm σ ω x0) o s' ↔ s' = { s with x := cperm σ ω s.x, g := cperm σ ω s.g, r := Q s.r } := by
  unfold LassoSolveFromC
  rw [lassoInit_movedC hω hA hAt]
  refine Out.map (c := lassoCondC b o) (f := lassoBodyC A At b tau o) (LassoStateC.moved σ ω Q) (fun s _ => ?_) (fun s _ _ => lassoBody_movedC hω hA hAt b tau o s) h s'
  simp only [lassoCondC, LassoStateC.moved, Q.norm_map]

omit hω hA hAt in
/-- The state of the basis pursuit solver in the new coordinates. -/
def BpStateC.moved (σ : Equiv.Perm (Fin n)) (ω : Fin n → ℂ) (Q : CVec m →ₗᵢ[ℂ] CVec m) (s : BpStateC m n) : BpStateC m n :=
  { s with x := cperm σ ω s.x, g := cperm σ ω s.g, r := Q s.r }

theorem bpInit_movedC (b : CVec m) (sigma : ℝ) (x0 : CVec n) (o : Spgl1Opts) :
    bpInitC A' At' (Q b) sigma (cperm σ ω x0) o = (bpInitC A At b sigma x0 o).map (BpStateC.moved σ ω Q) := by
  simp only [bpInitC, counted, cperm_l1 σ hω, cperm_proj σ hω, hA, ← map_sub, hAt, ← map_neg, objVal_movedC, firstAlpha_movedC hω, relGap_movedC hω, Q.norm_map, cperm_linf σ hω, Option.map_map]
  rfl

theorem bpBody_movedC (b : CVec m) (sigma : ℝ) (o : Spgl1Opts) (s : BpStateC m n) :
    bpBodyC A' At' (Q b) sigma o (s.moved σ ω Q) = (bpBodyC A At b sigma o s).map (BpStateC.moved σ ω Q) := by
  have e := curvy_movedC hω hA b s.x s.g s.alphaNext (listMax s.fPast) s.tau o.gamma s.timesCalls
  unfold bpBodyC
  rw [show (s.moved σ ω Q).tau = s.tau from rfl]
  dsimp only [BpStateC.moved]
  rw [e]
  generalize curvyLineSearchC A b s.x s.g s.alphaNext (listMax s.fPast) s.tau o.gamma s.timesCalls = w
  rw [show ‖(CurvyStateC.moved σ ω Q w).rNew‖ = ‖w.rNew‖ from Q.norm_map _, show (CurvyStateC.moved σ ω Q w).fVal = w.fVal from rfl]
  simp only [CurvyStateC.moved, counted, hAt, ← map_neg, relGap_movedC hω, cperm_linf σ hω, cperm_proj σ hω, Option.map_map]
  congr 1
  funext tau
  simp only [Function.comp_def]
  by_cases ht : tau < s.tau
  · simp only [if_pos ht, hA, hAt, ← map_sub, ← map_neg, objVal_movedC, nextAlpha_movedC hω, cperm_proj σ hω]
    rfl
  · simp only [if_neg ht, ← map_sub, nextAlpha_movedC hω]
    rfl

omit hω hA hAt in
theorem bpCond_movedC (b : CVec m) (sigma : ℝ) (o : Spgl1Opts) (s : BpStateC m n) : bpCondC (Q b) sigma o (s.moved σ ω Q) ↔ bpCondC b sigma o s := by
  simp only [bpCondC, BpStateC.moved, Q.norm_map]

theorem bpReach_movedC (b : CVec m) (sigma : ℝ) (x0 : CVec n) (o : Spgl1Opts) (s' : BpStateC m n) :
    BpReachC A' At' (Q b) sigma (cperm σ ω x0) o s' ↔ ∃ s, BpReachC A At b sigma x0 o s ∧ s' = s.moved σ ω Q := by
  constructor
  · intro h
    induction h with
    | init h0 =>
      rw [bpInit_movedC hω hA hAt, Option.map_eq_some_iff] at h0
      obtain ⟨s, h1, h2⟩ := h0
      exact ⟨s, .init h1, h2.symm⟩
    | step _ hc hs ih =>
      obtain ⟨s, h1, rfl⟩ := ih
      rw [bpBody_movedC hω hA hAt, Option.map_eq_some_iff] at hs
      obtain ⟨t, h2, h3⟩ := hs
      exact ⟨t, .step h1 ((bpCond_movedC b sigma o s).1 hc) h2, h3.symm⟩
  · rintro ⟨s, h, rfl⟩
    induction h with
    | init h0 => exact .init (by rw [bpInit_movedC hω hA hAt, h0]; rfl)
    | step _ hc hs ih => exact .step ih ((bpCond_movedC b sigma o _).2 hc) (by rw [bpBody_movedC hω hA hAt, hs]; rfl)

/-- **C165** (SPGL1, `solve_bpic`, `solve_bp`, `solve_bpic_from`) as `c165_lasso`; a run of one problem ends in a division by zero exactly if the other does. -/
theorem c165_bpic (b : CVec m) (sigma : ℝ) (x0 : CVec n) (o : Spgl1Opts) (s' : BpStateC m n) :
    (BpReachC A' At' (Q b) sigma (cperm σ ω x0) o s' ∧ ¬ bpCondC (Q b) sigma o s') ↔
      ∃ s, (BpReachC A At b sigma x0 o s ∧ ¬ bpCondC b sigma o s) ∧ s' = { s with x := cperm σ ω s.x, g := cperm σ ω s.g, r := Q s.r } := by
  rw [bpReach_movedC hω hA hAt]
  constructor
  · rintro ⟨⟨s, h1, rfl⟩, h2⟩
    exact ⟨s, ⟨h1, fun h => h2 ((bpCond_movedC b sigma o s).2 h)⟩, rfl⟩
  · rintro ⟨s, ⟨h1, h2⟩, rfl⟩
    exact ⟨⟨s, h1, rfl⟩, fun h => h2 ((bpCond_movedC b sigma o s).1 h)⟩

end spgl1


/-! Two complex unknowns exchanged, one of them multiplied with `i`; the identity becomes a quarter turn in the complex plane for one entry. -/
def exPh : Fin 2 → ℂ := ![1, Complex.I]
def exTurnC (v : CVec 2) : CVec 2 := cvec ![-Complex.I * v 1, v 0]

theorem exPh_norm (i : Fin 2) : ‖exPh i‖ = 1 := by
  fin_cases i <;> simp [exPh]

theorem exTurnC_hA (x : CVec 2) : exTurnC (cperm exSw exPh x) = (LinearIsometry.id : CVec 2 →ₗᵢ[ℂ] CVec 2) x := by
  ext i
  fin_cases i
  · show -Complex.I * (Complex.I * x 0) = x 0
    rw [← mul_assoc, neg_mul, Complex.I_mul_I]; ring
  · show 1 * x 1 = x 1
    ring

example (b : CVec 2) (tau : ℝ) (o : Spgl1Opts) (s : LassoStateC 2 2) (h : LassoSolveFromC id id b tau 0 o s) :=
  c165_lasso exPh_norm exTurnC_hA (At := id) (At' := cperm exSw exPh) (fun _ => rfl) b tau 0 o s h

example (b : CVec 2) (sigma : ℝ) (o : Spgl1Opts) (s : BpStateC 2 2) :=
  c165_bpic exPh_norm exTurnC_hA (At := id) (At' := cperm exSw exPh) (fun _ => rfl) b sigma 0 o s

end Verif.Cvx
