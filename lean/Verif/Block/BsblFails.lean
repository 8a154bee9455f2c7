import Verif.Block.BsblRoot

set_option autoImplicit false
/-!
# Block sparse Bayesian learning: options (C90) and the learning rule for high signal to noise ratios (C88)
-/
noncomputable section
namespace Verif.Block
open Verif.Loop Matrix

variable {m nb b : ℕ}

/-! ## A run with the identity dictionary -/

/-- The identity dictionary with two blocks of length one. -/
def idPhi : Matrix (Fin 2) (Fin (2 * 1)) ℝ := Matrix.of fun r k => if (finProdFinEquiv.symm k).1 = r then 1 else 0

theorem idPhi_sub (i r : Fin 2) (j : Fin 1) : getSubdicts idPhi i r j = if i = r then 1 else 0 := by
  rw [getSubdicts_apply, idPhi, Matrix.of_apply, Equiv.symm_apply_apply]

theorem idPhi_reg (c : Fin 2 → ℝ) (l : ℝ) : regGram (getSubdicts idPhi) (fun i => c i • (1 : Matrix (Fin 1) (Fin 1) ℝ)) l = Matrix.diagonal fun i => c i + l := by
  ext r t
  rw [regGram, Matrix.add_apply, Matrix.sum_apply, Matrix.smul_apply]
  simp only [Matrix.mul_smul, Matrix.mul_one, Matrix.smul_mul, Matrix.smul_apply, Matrix.mul_apply, transpose_apply, idPhi_sub, Fin.sum_univ_two, Fin.sum_univ_one, smul_eq_mul]
  fin_cases r <;> fin_cases t <;> simp [Matrix.one_apply]

theorem idPhi_inv (c : Fin 2 → ℝ) (l : ℝ) (h : ∀ i, c i + l ≠ 0) :
    (regGram (getSubdicts idPhi) (fun i => c i • (1 : Matrix (Fin 1) (Fin 1) ℝ)) l)⁻¹ = Matrix.diagonal fun i => (c i + l)⁻¹ := by
  refine Matrix.inv_eq_right_inv ?_
  rw [idPhi_reg, diagonal_mul_diagonal]
  ext r t
  simp [Matrix.diagonal_apply, Matrix.one_apply, mul_inv_cancel₀ (h _)]

theorem idPhi_mean (c : Fin 2 → ℝ) (l : ℝ) (h : ∀ i, c i + l ≠ 0) (y : Fin 2 → ℝ) (i : Fin 2) :
    postMean (getSubdicts idPhi) (fun i => c i • (1 : Matrix (Fin 1) (Fin 1) ℝ)) l y i = fun _ => c i * ((c i + l)⁻¹ * y i) := by
  funext j
  rw [postMean, idPhi_inv c l h, smul_mulVec, one_mulVec]
  show c i * ∑ r, getSubdicts idPhi i r j * _ = _
  simp only [idPhi_sub, mulVec_diagonal, Fin.sum_univ_two]
  fin_cases i <;> simp

theorem idPhi_cov (c : Fin 2 → ℝ) (l : ℝ) (h : ∀ i, c i + l ≠ 0) (i : Fin 2) :
    postCov (getSubdicts idPhi) (fun i => c i • (1 : Matrix (Fin 1) (Fin 1) ℝ)) l i = (c i - c i * (c i + l)⁻¹ * c i) • 1 := by
  have e : (getSubdicts idPhi i)ᵀ * Matrix.diagonal (fun i => (c i + l)⁻¹) * getSubdicts idPhi i = (c i + l)⁻¹ • (1 : Matrix (Fin 1) (Fin 1) ℝ) := by
    ext j k
    rw [Subsingleton.elim j 0, Subsingleton.elim k 0, Matrix.mul_apply, Fin.sum_univ_two]
    simp only [mul_diagonal, transpose_apply, idPhi_sub]
    fin_cases i <;> simp
  rw [postCov, idPhi_inv c l h, e]
  simp only [Matrix.smul_mul, Matrix.mul_smul, Matrix.one_mul, Matrix.mul_one, smul_smul, sub_smul]
  congr 2
  ring

theorem arMat_one : arMat 1 0 = 1 := by
  ext j k
  rw [Subsingleton.elim j 0, Subsingleton.elim k 0]
  simp [arMat]

/-- A state of a run with two blocks of length one. -/
structure IdState (t : BsblState 2 2 1) (g : Fin 2 → ℝ) (u : Fin 2 → ℝ) : Prop where
  gammas : ∀ i, t.gammas i = some (g i)
  sigma0 : ∀ i, t.sigma0 i = some (g i • 1)
  mu : ∀ i, t.mu i = some fun _ => u i

open Classical in
/-- The covariances in effect. -/
def idC (prune : ℝ) (g : Fin 2 → ℝ) (i : Fin 2) : ℝ := if prune < g i then g i else 0

def idU (prune : ℝ) (g : Fin 2 → ℝ) (l : ℝ) (y : Fin 2 → ℝ) (i : Fin 2) : ℝ := idC prune g i * ((idC prune g i + l)⁻¹ * y i)

def idV (prune : ℝ) (g : Fin 2 → ℝ) (l : ℝ) (i : Fin 2) : ℝ := idC prune g i - idC prune g i * (idC prune g i + l)⁻¹ * idC prune g i

open Classical in
def idG (prune : ℝ) (g : Fin 2 → ℝ) (l : ℝ) (y : Fin 2 → ℝ) (i : Fin 2) : ℝ := if prune < g i then idV prune g l i + idU prune g l y i ^ 2 else 0

section
variable {opt : BsblOptions} {t : BsblState 2 2 1} {g u y : Fin 2 → ℝ} {l : ℝ}

theorem IdState.active (h : IdState t g u) (i : Fin 2) : activeBlocks opt.pruneGamma t.gammas i = true ↔ opt.pruneGamma < g i := by
  rw [active_true, h.gammas]
  simp

theorem IdState.prior (hp : 0 ≤ opt.pruneGamma) (h : IdState t g u) (hl : t.lam = some l) (hl0 : 0 < l) :
    Prior opt t (fun i => idC opt.pruneGamma g i • 1) l := by
  refine ⟨hl, hl0, fun i hi => ?_, fun i hi => ?_⟩
  · have hi := h.active i |>.mp hi
    simp only [idC, if_pos hi]
    refine ⟨h.sigma0 i, posDef_iff.mpr ⟨by simp, fun v hv => ?_⟩⟩
    rw [smul_mulVec, one_mulVec, dotProduct_smul]
    exact mul_pos (lt_of_le_of_lt hp hi) (dot_self_pos hv)
  · have hi : ¬ opt.pruneGamma < g i := fun h' => by
      rw [(h.active i).mpr h'] at hi
      exact absurd hi (by simp)
    simp only [idC, if_neg hi, zero_smul]

theorem idC_nonneg {prune : ℝ} (hp : 0 ≤ prune) (g : Fin 2 → ℝ) (i : Fin 2) : 0 ≤ idC prune g i := by
  unfold idC
  split
  · linarith
  · exact le_rfl

theorem IdState.step (hp : 0 ≤ opt.pruneGamma) (h : IdState t g u) (hl : t.lam = some l) (hl0 : 0 < l) :
    IdState (bsblEmBody idPhi y opt t) (idG opt.pruneGamma g l y) (idU opt.pruneGamma g l y) := by
  have hP := h.prior hp hl hl0
  have hne : ∀ i, idC opt.pruneGamma g i + l ≠ 0 := fun i => (add_pos_of_nonneg_of_pos (idC_nonneg hp g i) hl0).ne'
  have hmu : ∀ i, stepMu idPhi y opt t i = some fun _ => idU opt.pruneGamma g l y i := fun i => by
    rw [stepMu_eq hP, idPhi_mean _ _ hne]
    rfl
  have hB : stepB idPhi y opt t = some 1 := by
    rw [stepB, computeB, if_pos le_rfl, arMat_one]
  have hg : ∀ i, gammasEm (stepCov idPhi y opt t) ((stepB idPhi y opt t).bind minv) (activeBlocks opt.pruneGamma t.gammas) i = some (idG opt.pruneGamma g l y i) := fun i => by
    have hm : minv (1 : Matrix (Fin 1) (Fin 1) ℝ) = some 1 := by
      rw [minv_posDef Matrix.PosDef.one, inv_one]
    rw [gammasEm, hB, Option.bind_some, hm]
    by_cases ha : opt.pruneGamma < g i
    · rw [if_pos ((h.active i).mpr ha), stepCov_eq hP, idPhi_mean _ _ hne, idPhi_cov _ _ hne]
      simp [odiv, idG, ha, computeCovX, Matrix.trace, idU, idV, sq, dotProduct]
    · rw [if_neg (by rw [h.active i]; exact ha)]
      simp [odiv, idG, ha]
  refine ⟨hg, fun i => ?_, hmu⟩
  show (gammasEm _ _ _ i).bind (fun g => (stepB idPhi y opt t).map fun B => g • B) = _
  rw [hg, hB]
  rfl

theorem IdState.lam_step (hlearn : opt.learnLambda = 2) (hp : 0 ≤ opt.pruneGamma) (h : IdState t g u) (hl : t.lam = some l) (hl0 : 0 < l) (hg : ∀ i, g i ≠ 0) :
    (bsblEmBody idPhi y opt t).lam = some (((y 0 - idU opt.pruneGamma g l y 0) ^ 2 + (y 1 - idU opt.pruneGamma g l y 1) ^ 2 +
      l * (2 - (idV opt.pruneGamma g l 0 / g 0 + idV opt.pruneGamma g l 1 / g 1))) / 2) := by
  have hP := h.prior hp hl hl0
  have hne : ∀ i, idC opt.pruneGamma g i + l ≠ 0 := fun i => (add_pos_of_nonneg_of_pos (idC_nonneg hp g i) hl0).ne'
  have hB : stepB idPhi y opt t = some 1 := by
    rw [stepB, computeB, if_pos le_rfl, arMat_one]
  have hm : minv (1 : Matrix (Fin 1) (Fin 1) ℝ) = some 1 := by
    rw [minv_posDef Matrix.PosDef.one, inv_one]
  have hres : stepRes idPhi y opt t = some fun i => y i - idU opt.pruneGamma g l y i := by
    rw [stepRes, xHat_eq hP, Option.map_some, mulVec_blocks, reshape2_flatten2]
    congr 1
    funext r
    rw [Pi.sub_apply, Finset.sum_apply, Fin.sum_univ_two, idPhi_mean _ _ hne, idPhi_mean _ _ hne]
    congr 1
    show ∑ j, getSubdicts idPhi 0 r j * _ + ∑ j, getSubdicts idPhi 1 r j * _ = _
    simp only [Fin.sum_univ_one, idPhi_sub]
    fin_cases r <;> simp [idU]
  show lambdaRule opt.learnLambda t.lam (getSubdicts idPhi) t.gammas (stepSigma idPhi opt t) ((stepB idPhi y opt t).bind minv)
    ((stepRes idPhi y opt t).map fun r => r ⬝ᵥ r) = _
  rw [lambdaRule, if_neg (by omega), if_neg (by omega), hB, Option.bind_some, hm, hres, hl, lambdaHigh,
    osum_some (g := fun i => idV opt.pruneGamma g l i / g i) fun i => by
      rw [stepSigma_eq hP, idPhi_cov _ _ hne, h.gammas]
      simp [odiv, hg i, Matrix.trace, idV]]
  simp only [Option.bind_some, Option.map_some, odiv, Fin.sum_univ_two]
  rw [if_neg (by norm_num)]
  simp only [dotProduct, Fin.sum_univ_two, sq]
  norm_num

theorem IdState.lam_none (hlearn : opt.learnLambda = 2) (h : IdState t g u) (i : Fin 2) (hi : g i = 0) : (bsblEmBody idPhi y opt t).lam = none := by
  show lambdaRule opt.learnLambda t.lam (getSubdicts idPhi) t.gammas (stepSigma idPhi opt t) ((stepB idPhi y opt t).bind minv)
    ((stepRes idPhi y opt t).map fun r => r ⬝ᵥ r) = _
  rw [lambdaRule, if_neg (by omega), if_neg (by omega), lambdaHigh, osum_none (i := i), Option.bind_none]
  rw [h.gammas, hi]
  cases stepSigma idPhi opt t i with
  | none => rfl
  | some sx =>
    cases (stepB idPhi y opt t).bind minv with
    | none => rfl
    | some Bi => simp [odiv]

theorem lam_stays_none (hlearn : opt.learnLambda = 2) (hl : t.lam = none) : (bsblEmBody idPhi y opt t).lam = none := by
  show lambdaRule opt.learnLambda t.lam (getSubdicts idPhi) t.gammas (stepSigma idPhi opt t) ((stepB idPhi y opt t).bind minv)
    ((stepRes idPhi y opt t).map fun r => r ⬝ᵥ r) = _
  rw [lambdaRule, if_neg (by omega), if_neg (by omega), lambdaHigh, hl]
  simp

theorem IdState.mu_none (h : IdState t g u) (hl : t.lam = none) (i : Fin 2) (hi : opt.pruneGamma < g i) : (bsblEmBody idPhi y opt t).mu i = none := by
  show stepMu idPhi y opt t i = none
  have hH : stepH idPhi opt t = none := by
    rw [stepH, hl]
    cases cumPhiBPhiPruned (getSubdicts idPhi) t.sigma0 (activeBlocks opt.pruneGamma t.gammas) <;> rfl
  unfold stepMu computeMuXPruned computeHy
  rw [hH, if_pos ((h.active i).mpr hi)]
  cases t.sigma0 i <;> rfl

theorem IdState.cond {t' : BsblState 2 2 1} {u' : Fin 2 → ℝ} (hu : ∀ i, t.mu i = some fun _ => u i) (hu' : ∀ i, t'.mu i = some fun _ => u' i)
    (hd : t'.dmu = muDiff t'.mu t.mu) (he : opt.epsilon < |u' 1 - u 1|) (hi : t'.iterations < opt.maxIters) : bsblCond opt t' := by
  refine ⟨⟨‖(fun i (_ : Fin 1) => u' i) - fun i _ => u i‖, ?_, lt_of_lt_of_le he ?_⟩, hi⟩
  · rw [hd, muDiff, gather_some hu', gather_some hu]
    rfl
  · have h1 := norm_le_pi_norm ((fun i (_ : Fin 1) => u' i) - fun i _ => u i : Fin 2 → Fin 1 → ℝ) 1
    have h2 := norm_le_pi_norm (((fun i (_ : Fin 1) => u' i) - fun i _ => u i : Fin 2 → Fin 1 → ℝ) 1) 0
    exact h2.trans h1

end

/-- The documented options for high signal to noise ratios: `bsbl_em_options(learn_lambda=2)`. -/
def highOpt : BsblOptions := bsblEmOptions none (some 2) none none none none

theorem highOpt_prune : highOpt.pruneGamma = 1 / 100 := by norm_num [highOpt, bsblEmOptions]
theorem highOpt_lam : highOpt.lambdaVal = 1 / 1000 := by norm_num [highOpt, bsblEmOptions]
theorem highOpt_eps : highOpt.epsilon = 1 / 100000000 := by norm_num [highOpt, bsblEmOptions]

/-- **C88, refuted for `learn_lambda = 2`.** With the documented options for high signal to noise ratios, the identity dictionary with two blocks and the measurements
`(0, 4)`, `bsbl_em` returns a solution and a noise variance that are not finite: the scalar of the pruned block is zero and the learning rule divides by it. -/
theorem c88_high_snr_fails : ∃ s : BsblState 2 2 1, BsblEm idPhi ![0, 4] highOpt s ∧ s.lam = none ∧ xHat s.mu = none := by
  have hlearn : highOpt.learnLambda = 2 := rfl
  have hp : 0 ≤ highOpt.pruneGamma := by rw [highOpt_prune]; norm_num
  set y : Fin 2 → ℝ := ![0, 4] with hy
  set s0 : BsblState 2 2 1 := bsblInit y highOpt with hs0
  set s1 := bsblEmBody idPhi y highOpt s0 with hs1
  set s2 := bsblEmBody idPhi y highOpt s1 with hs2
  set s3 := bsblEmBody idPhi y highOpt s2 with hs3
  set s4 := bsblEmBody idPhi y highOpt s3 with hs4
  -- the first iteration
  have l0 : s0.lam = some (1 / 1000) := congrArg some highOpt_lam
  have i0 : IdState s0 ![1, 1] ![0, 0] := ⟨fun i => by fin_cases i <;> rfl, fun i => by fin_cases i <;> simp [hs0, bsblInit], fun i => by fin_cases i <;> rfl⟩
  have g1 : idG highOpt.pruneGamma ![1, 1] (1 / 1000) y = ![1 / 1001, 16001001 / 1002001] := by
    rw [highOpt_prune]; funext i; fin_cases i <;> norm_num [idG, idV, idU, idC, hy]
  have u1 : idU highOpt.pruneGamma ![1, 1] (1 / 1000) y = ![0, 4000 / 1001] := by
    rw [highOpt_prune]; funext i; fin_cases i <;> norm_num [idU, idC, hy]
  have i1 : IdState s1 ![1 / 1001, 16001001 / 1002001] ![0, 4000 / 1001] := by
    have := i0.step (y := y) hp l0 (by norm_num)
    rwa [g1, u1] at this
  have l1 : s1.lam = some (1009 / 1002001) := by
    rw [hs1, i0.lam_step (y := y) hlearn hp l0 (by norm_num) fun i => by fin_cases i <;> norm_num, highOpt_prune]
    norm_num [idV, idU, idC, hy]
  -- the second iteration
  have g2 : idG highOpt.pruneGamma ![1 / 1001, 16001001 / 1002001] (1009 / 1002001) y = ![0, 2052484001106111091053 / 128288354376252120050] := by
    rw [highOpt_prune]; funext i; fin_cases i <;> norm_num [idG, idV, idU, idC, hy]
  have u2 : idU highOpt.pruneGamma ![1 / 1001, 16001001 / 1002001] (1009 / 1002001) y = ![0, 32002002 / 8001005] := by
    rw [highOpt_prune]; funext i; fin_cases i <;> norm_num [idU, idC, hy]
  have i2 : IdState s2 ![0, 2052484001106111091053 / 128288354376252120050] ![0, 32002002 / 8001005] := by
    have := i1.step (y := y) hp l1 (by norm_num)
    rwa [g2, u2] at this
  have l2 : s2.lam = some (258368918230730143 / 256576708752504240100) := by
    rw [hs2, i1.lam_step (y := y) hlearn hp l1 (by norm_num) fun i => by fin_cases i <;> norm_num, highOpt_prune]
    norm_num [idV, idU, idC, hy]
  -- the third iteration
  have u3 : idU highOpt.pruneGamma ![0, 2052484001106111091053 / 128288354376252120050] (258368918230730143 / 256576708752504240100) y =
      ![0, 16419872008848888728424 / 4105226371130452912249] := by
    rw [highOpt_prune]; funext i; fin_cases i <;> norm_num [idU, idC, hy]
  have i3 : IdState s3 (idG highOpt.pruneGamma ![0, 2052484001106111091053 / 128288354376252120050] (258368918230730143 / 256576708752504240100) y)
      ![0, 16419872008848888728424 / 4105226371130452912249] := by
    have := i2.step (y := y) hp l2 (by norm_num)
    rwa [u3] at this
  have l3 : s3.lam = none := i2.lam_none hlearn 0 rfl
  have g3 : highOpt.pruneGamma < idG highOpt.pruneGamma ![0, 2052484001106111091053 / 128288354376252120050] (258368918230730143 / 256576708752504240100) y 1 := by
    rw [highOpt_prune]; norm_num [idG, idV, idU, idC, hy]
  -- the fourth iteration
  have m4 : s4.mu 1 = none := i3.mu_none l3 1 g3
  have r0 : Reach (bsblCond highOpt) (bsblEmBody idPhi y highOpt) s0 s0 := .init
  have c0 : bsblCond highOpt s0 := ⟨⟨1, rfl, by rw [highOpt_eps]; norm_num⟩, by decide⟩
  have r1 := Reach.step r0 c0
  have c1 : bsblCond highOpt s1 := IdState.cond i0.mu i1.mu rfl (by rw [highOpt_eps]; norm_num [abs_of_pos]) (by decide)
  have r2 := Reach.step r1 c1
  have c2 : bsblCond highOpt s2 := IdState.cond i1.mu i2.mu rfl (by rw [highOpt_eps]; norm_num [abs_of_pos]) (by decide)
  have r3 := Reach.step r2 c2
  have c3 : bsblCond highOpt s3 := IdState.cond i2.mu i3.mu rfl (by rw [highOpt_eps]; norm_num [abs_of_pos]) (by decide)
  have r4 := Reach.step r3 c3
  refine ⟨s4, ⟨r4, ?_⟩, ?_, ?_⟩
  · rintro ⟨⟨d, hd, _⟩, _⟩
    have : s4.dmu = none := by
      show muDiff s4.mu s3.mu = none
      rw [muDiff, gather_none m4]
      rfl
    rw [this] at hd
    exact absurd hd (by simp)
  · exact lam_stays_none hlearn l3
  · rw [xHat, gather_none m4]
    rfl

/-! ## Options (C90) -/

/-- **C90.** With `learn_lambda = 0` the noise variance is the given one at every iteration of `bsbl_em`. -/
theorem c90_lambda_em (Phi : Matrix (Fin m) (Fin (nb * b)) ℝ) (y : Fin m → ℝ) (opt : BsblOptions) (h0 : opt.learnLambda = 0) (s : BsblState m nb b)
    (h : BsblEmReach Phi y opt s) : s.lam = some opt.lambdaVal :=
  h.inv (fun s => s.lam = some opt.lambdaVal) rfl fun t ht _ => by
    show lambdaRule opt.learnLambda t.lam _ _ _ _ _ = _
    rw [lambdaRule, if_pos (by omega), ht]

/-- **C90.** The same for `bsbl_bo`. -/
theorem c90_lambda_bo (svd : Svd b) (Phi : Matrix (Fin m) (Fin (nb * b)) ℝ) (y : Fin m → ℝ) (opt : BsblOptions) (h0 : opt.learnLambda = 0) (s : BsblState m nb b)
    (h : BsblBoReach svd Phi y opt s) : s.lam = some opt.lambdaVal :=
  h.inv (fun s => s.lam = some opt.lambdaVal) rfl fun t ht _ => by
    show lambdaRule opt.learnLambda t.lam _ _ _ _ _ = _
    rw [lambdaRule, if_pos (by omega), ht]

/-- **C90.** `bsbl_em` returns after at most `max_iters` iterations; if it returns earlier, the last change of the solution was at most `epsilon` or not finite. -/
theorem c90_stop_em (Phi : Matrix (Fin m) (Fin (nb * b)) ℝ) (y : Fin m → ℝ) (opt : BsblOptions) :
    ∃ s : BsblState m nb b, BsblEm Phi y opt s ∧ s.iterations ≤ opt.maxIters ∧ (s.iterations < opt.maxIters → ∀ d, s.dmu = some d → d ≤ opt.epsilon) := by
  have hle : ∀ s, BsblEmReach Phi y opt s → s.iterations ≤ opt.maxIters := fun s h =>
    h.inv (fun s => s.iterations ≤ opt.maxIters) (Nat.zero_le _) fun t _ hc => hc.2
  obtain ⟨s, hs⟩ := exists_out (c := bsblCond opt) (f := bsblEmBody Phi y opt) (s0 := bsblInit y opt) (fun s => s.iterations) opt.maxIters
    (fun _ hc => hc.2) fun _ => Nat.lt_succ_self _
  refine ⟨s, hs, hle s hs.1, fun hi d hd => ?_⟩
  by_contra hc
  exact hs.2 ⟨⟨d, hd, not_le.mp hc⟩, hi⟩

/-- **C90.** The same for `bsbl_bo`. -/
theorem c90_stop_bo (svd : Svd b) (Phi : Matrix (Fin m) (Fin (nb * b)) ℝ) (y : Fin m → ℝ) (opt : BsblOptions) :
    ∃ s : BsblState m nb b, BsblBo svd Phi y opt s ∧ s.iterations ≤ opt.maxIters ∧ (s.iterations < opt.maxIters → ∀ d, s.dmu = some d → d ≤ opt.epsilon) := by
  have hle : ∀ s, BsblBoReach svd Phi y opt s → s.iterations ≤ opt.maxIters := fun s h =>
    h.inv (fun s => s.iterations ≤ opt.maxIters) (Nat.zero_le _) fun t _ hc => hc.2
  obtain ⟨s, hs⟩ := exists_out (c := bsblCond opt) (f := fun s => bsblBoBody Phi y opt s svd) (s0 := bsblInit y opt) (fun s => s.iterations) opt.maxIters
    (fun _ hc => hc.2) fun _ => Nat.lt_succ_self _
  refine ⟨s, hs, hle s hs.1, fun hi d hd => ?_⟩
  by_contra hc
  exact hs.2 ⟨⟨d, hd, not_le.mp hc⟩, hi⟩

/-- **C90.** `bsbl_em_options` passes on the values the caller gives. -/
theorem c90_options (c l : ℤ) (p lam : ℝ) (k : ℕ) (e : ℝ) :
    bsblEmOptions (some c) (some l) (some p) (some lam) (some k) (some e) = ⟨c, l, p, lam, k, e⟩ := rfl

/-- One measurement of the first entry of a block of length two. -/
def corrPhi : Matrix (Fin 1) (Fin (1 * 2)) ℝ := Matrix.of fun _ k => if (finProdFinEquiv.symm k).2 = 0 then 1 else 0

theorem corrPhi_sub (j : Fin 2) : getSubdicts corrPhi 0 0 j = if j = 0 then 1 else 0 := by
  rw [getSubdicts_apply, corrPhi, Matrix.of_apply, Equiv.symm_apply_apply]

/-- **C90, refuted for `learn_block_corr`.** The option is not used: with `learn_block_corr = 0`, which is documented to ignore the correlation within blocks, the covariance
of a block has nonzero off-diagonal entries after one iteration. -/
theorem c90_block_corr_fails : ∃ (opt : BsblOptions) (s : BsblState 1 1 2) (S : Matrix (Fin 2) (Fin 2) ℝ), opt.learnBlockCorr = 0 ∧
    BsblEmReach corrPhi ![1] opt s ∧ s.sigma0 0 = some S ∧ S 0 1 ≠ 0 := by
  set opt : BsblOptions := ⟨0, 0, 0, 1, 1, 0⟩ with hopt
  set s0 : BsblState 1 1 2 := bsblInit ![1] opt with hs0
  have hp : 0 ≤ opt.pruneGamma := le_rfl
  have hact : activeBlocks opt.pruneGamma s0.gammas 0 = true := active_true.mpr ⟨1, rfl, one_pos⟩
  have hP : Prior opt s0 (fun _ => (1 : Matrix (Fin 2) (Fin 2) ℝ)) 1 := ⟨rfl, one_pos, fun i _ => ⟨rfl, Matrix.PosDef.one⟩, fun i hi => by
    rw [Subsingleton.elim i 0, hact] at hi
    exact absurd hi (by simp)⟩
  have hA : regGram (getSubdicts corrPhi) (fun _ => (1 : Matrix (Fin 2) (Fin 2) ℝ)) 1 = (2 : ℝ) • 1 := by
    ext i j
    rw [Subsingleton.elim i 0, Subsingleton.elim j 0, regGram, Fin.sum_univ_one, Matrix.mul_one]
    simp [Matrix.mul_apply, Fin.sum_univ_two, corrPhi_sub]
    norm_num
  have hAi : (regGram (getSubdicts corrPhi) (fun _ => (1 : Matrix (Fin 2) (Fin 2) ℝ)) 1)⁻¹ = (1 / 2 : ℝ) • 1 := by
    refine Matrix.inv_eq_right_inv ?_
    rw [hA, Matrix.smul_mul, Matrix.one_mul, smul_smul]
    norm_num
  have hmean : ∀ j, postMean (getSubdicts corrPhi) (fun _ => (1 : Matrix (Fin 2) (Fin 2) ℝ)) 1 ![1] 0 j = if j = 0 then 1 / 2 else 0 := fun j => by
    rw [postMean, hAi, one_mulVec]
    show ∑ r, getSubdicts corrPhi 0 r j * _ = _
    rw [Fin.sum_univ_one, corrPhi_sub, smul_mulVec, one_mulVec]
    simp
  have hcov : ∀ j k, postCov (getSubdicts corrPhi) (fun _ => (1 : Matrix (Fin 2) (Fin 2) ℝ)) 1 0 j k = (1 : Matrix (Fin 2) (Fin 2) ℝ) j k -
      1 / 2 * ((if j = 0 then 1 else 0) * if k = 0 then 1 else 0) := fun j k => by
    rw [postCov, hAi]
    simp only [Matrix.one_mul, Matrix.mul_one, Matrix.mul_smul, Matrix.smul_mul, Matrix.sub_apply, Matrix.smul_apply, Matrix.mul_apply, Fin.sum_univ_one, transpose_apply,
      corrPhi_sub, smul_eq_mul]
  set C := computeCovX (postCov (getSubdicts corrPhi) (fun _ => (1 : Matrix (Fin 2) (Fin 2) ℝ)) 1 0)
    (postMean (getSubdicts corrPhi) (fun _ => (1 : Matrix (Fin 2) (Fin 2) ℝ)) 1 ![1] 0) with hC
  have hCe : ∀ j k, C j k = (1 : Matrix (Fin 2) (Fin 2) ℝ) j k - 1 / 2 * ((if j = 0 then 1 else 0) * if k = 0 then 1 else 0) + 1 / 4 := fun j k => by
    rw [hC, computeCovX, Matrix.add_apply, hcov]
    congr 1
    rw [Matrix.of_apply, dotProduct, Fin.sum_univ_two, hmean, hmean]
    norm_num
  have hsum : covSumPruned (stepCov corrPhi ![1] opt s0) s0.gammas (activeBlocks opt.pruneGamma s0.gammas) = some C := by
    have e : ∀ i : Fin 1, (if activeBlocks opt.pruneGamma s0.gammas i then (stepCov corrPhi ![1] opt s0 i).bind fun cx => (s0.gammas i).bind fun g => mdiv cx g else
        stepCov corrPhi ![1] opt s0 i) = some C := fun i => by
      have hg : s0.gammas 0 = some 1 := rfl
      rw [Subsingleton.elim i 0, if_pos hact, stepCov_eq hP, Option.bind_some, hg, Option.bind_some, mdiv, if_neg one_ne_zero, inv_one, one_smul]
    rw [covSumPruned, osum_some e, Fin.sum_univ_one]
  have hB : stepB corrPhi ![1] opt s0 = some (arMat 2 (1 / 4)) := by
    rw [stepB, computeB, if_neg (by norm_num), hsum, Option.bind_some, arCoef, if_neg (by norm_num)]
    have h0 : meanDiag C = 1 := by
      rw [meanDiag, Fin.sum_univ_two, hCe, hCe]
      norm_num [Matrix.one_apply]
    have h1 : meanUpper C = 1 / 4 := by
      show (∑ i : Fin 1, C ⟨i, _⟩ ⟨i + 1, _⟩) / (1 : ℕ) = 1 / 4
      rw [Fin.sum_univ_one, hCe]
      norm_num [Matrix.one_apply]
    dsimp only
    rw [h0, h1, if_neg one_ne_zero, Option.map_some]
    norm_num
  have hpd := arMat_posDef (b := 2) (r := 1 / 4) (by norm_num)
  have hCpd : C.PosDef := by
    have h1 := posDef_iff.mp (sigma_posDef (D := getSubdicts corrPhi) hP.psd hP.pos 0 Matrix.PosDef.one)
    have h2 := covX_psd (sigma_psd (D := getSubdicts corrPhi) hP.psd hP.pos 0) (postMean (getSubdicts corrPhi) (fun _ => (1 : Matrix (Fin 2) (Fin 2) ℝ)) 1 ![1] 0)
    refine posDef_iff.mpr ⟨h2.1, fun v hv => ?_⟩
    have e : v ⬝ᵥ (C *ᵥ v) = v ⬝ᵥ (postCov (getSubdicts corrPhi) (fun _ => (1 : Matrix (Fin 2) (Fin 2) ℝ)) 1 0 *ᵥ v) + 1 / 4 * (v 0 + v 1) ^ 2 := by
      simp only [dotProduct, mulVec, Fin.sum_univ_two, hCe, hcov]
      ring
    rw [e]
    have := h1.2 v hv
    have h3 : postCov (getSubdicts corrPhi) (fun _ => (1 : Matrix (Fin 2) (Fin 2) ℝ)) 1 0 = (1 : Matrix (Fin 2) (Fin 2) ℝ) -
      1 * ((getSubdicts corrPhi 0)ᵀ * (regGram (getSubdicts corrPhi) (fun _ => (1 : Matrix (Fin 2) (Fin 2) ℝ)) 1)⁻¹ * getSubdicts corrPhi 0) * 1 := rfl
    rw [h3]
    have h4 := sq_nonneg (v 0 + v 1)
    linarith
  have htr : 0 < ((arMat 2 (1 / 4))⁻¹ * C).trace := by
    have := trace_mul_pos (D := (1 : Matrix (Fin 2) (Fin 2) ℝ)) hpd.inv hCpd one_ne_zero
    simpa using this
  have hg : gammasEm (stepCov corrPhi ![1] opt s0) ((stepB corrPhi ![1] opt s0).bind minv) (activeBlocks opt.pruneGamma s0.gammas) 0 =
      some (((arMat 2 (1 / 4))⁻¹ * C).trace / 2) := by
    rw [gammasEm, if_pos hact, stepCov_eq hP, hB, Option.bind_some, Option.bind_some, minv_posDef hpd, Option.map_some, Option.bind_some, odiv, if_neg (by norm_num)]
    norm_num
    rfl
  refine ⟨opt, bsblEmBody corrPhi ![1] opt s0, (((arMat 2 (1 / 4))⁻¹ * C).trace / 2) • arMat 2 (1 / 4), rfl,
    Reach.step .init ⟨⟨1, rfl, one_pos⟩, Nat.one_pos⟩, ?_, ?_⟩
  · show (gammasEm _ _ _ 0).bind (fun g => (stepB corrPhi ![1] opt s0).map fun B => g • B) = _
    rw [hg, hB]
    rfl
  · rw [Matrix.smul_apply, smul_eq_mul]
    refine mul_ne_zero (by positivity) ?_
    norm_num [arMat]

/-! ## The hypotheses are met -/

/-- `c73_gram`, `c73_mean`, `c73_covariance` apply to correlated blocks. -/
example : ∃ S : Fin 3 → Matrix (Fin 2) (Fin 2) ℝ, (∀ i, (S i).PosDef) ∧ S 0 0 1 ≠ 0 :=
  ⟨fun _ => arMat 2 (1 / 2), fun _ => arMat_posDef (by norm_num), by norm_num [arMat]⟩

/-- `c73_iterate_em`, `c88_finite_em`: with the default options the state after one iteration is reachable. -/
example : BsblEmReach idPhi ![0, 4] (bsblEmOptions none none none none none none)
    (bsblEmBody idPhi ![0, 4] (bsblEmOptions none none none none none none) (bsblInit ![0, 4] (bsblEmOptions none none none none none none))) ∧
    0 < (bsblEmOptions none none none none none none).lambdaVal ∧ 0 ≤ (bsblEmOptions none none none none none none).pruneGamma ∧
    (bsblEmOptions none none none none none none).learnLambda = 1 ∧ (![0, 4] : Fin 2 → ℝ) ≠ 0 := by
  refine ⟨Reach.step .init ⟨⟨1, rfl, ?_⟩, ?_⟩, ?_, ?_, rfl, fun h => ?_⟩
  · norm_num [bsblEmOptions]
  · norm_num [bsblEmOptions, bsblInit]
  · norm_num [bsblEmOptions]
  · norm_num [bsblEmOptions]
  · have := congrFun h 1
    simp at this

/-- `c73_iterate_bo`, `c88_finite_bo`: likewise for `bsbl_bo`. -/
example (svd : Svd 1) : BsblBoReach svd idPhi ![0, 4] ⟨1, 0, 1 / 1000, 1 / 1000, 300, 1 / 1000⟩
    (bsblBoBody idPhi ![0, 4] ⟨1, 0, 1 / 1000, 1 / 1000, 300, 1 / 1000⟩ (bsblInit ![0, 4] ⟨1, 0, 1 / 1000, 1 / 1000, 300, 1 / 1000⟩) svd) :=
  Reach.step .init ⟨⟨1, rfl, by norm_num⟩, by norm_num [bsblInit]⟩

/-- `c73_pruned_em`: a pruned block. -/
example : ¬ IsActive highOpt (⟨fun _ => some 0, none, none, ![some 0, some 1], fun _ => none, none, none, 1⟩ : BsblState 2 2 1) 0 := by
  rintro ⟨g, hg, hp⟩
  have : g = 0 := (Option.some.inj hg).symm
  rw [this, highOpt_prune] at hp
  norm_num at hp

/-- The two theorems on the option at the state after one pass for the measurements `(0, 4)`. -/
example := c90_lambda_em idPhi ![0, 4] ⟨1, 0, 1 / 1000, 1 / 1000, 300, 1 / 1000⟩ rfl
    (bsblEmBody idPhi ![0, 4] ⟨1, 0, 1 / 1000, 1 / 1000, 300, 1 / 1000⟩ (bsblInit ![0, 4] ⟨1, 0, 1 / 1000, 1 / 1000, 300, 1 / 1000⟩))
    (Reach.step .init ⟨⟨1, rfl, by norm_num⟩, by norm_num [bsblInit]⟩)

example (svd : Svd 1) := c90_lambda_bo svd idPhi ![0, 4] ⟨1, 0, 1 / 1000, 1 / 1000, 300, 1 / 1000⟩ rfl
    (bsblBoBody idPhi ![0, 4] ⟨1, 0, 1 / 1000, 1 / 1000, 300, 1 / 1000⟩ (bsblInit ![0, 4] ⟨1, 0, 1 / 1000, 1 / 1000, 300, 1 / 1000⟩) svd)
    (Reach.step .init ⟨⟨1, rfl, by norm_num⟩, by norm_num [bsblInit]⟩)

end Verif.Block
