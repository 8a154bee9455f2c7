import Verif.Block.EvidenceLemmas
import Verif.Block.BsblFails

set_option autoImplicit false
/-!
# The evidence along the iterations of block sparse Bayesian learning (C131)
-/
noncomputable section
namespace Verif.Block
open Verif.Loop Matrix

variable {m nb b : ℕ}

/-! ## Specification -/

/-- Specification: minus twice the logarithm of the density of the measurements `y = Phi x + noise`, up to a constant, when the blocks of `x` are independent Gaussian
vectors with covariances `S i` and the noise is Gaussian with variance `lam`. -/
def evidence (Phi : Matrix (Fin m) (Fin (nb * b)) ℝ) (y : Fin m → ℝ) (S : Fin nb → Matrix (Fin b) (Fin b) ℝ) (lam : ℝ) : ℝ :=
  Real.log (Phi * bdiag S * Phiᵀ + lam • (1 : Matrix (Fin m) (Fin m) ℝ)).det + y ⬝ᵥ ((Phi * bdiag S * Phiᵀ + lam • (1 : Matrix (Fin m) (Fin m) ℝ))⁻¹ *ᵥ y)

/-- Specification: the prior covariances of the state `s`; a block whose covariance is not finite counts as absent. -/
def statePrior (s : BsblState m nb b) (i : Fin nb) : Matrix (Fin b) (Fin b) ℝ := (s.sigma0 i).getD 0

open Classical in
/-- Specification: the prior covariances of the state `s` after the blocks that are not active have been removed. -/
def keptPrior (opt : BsblOptions) (s : BsblState m nb b) (i : Fin nb) : Matrix (Fin b) (Fin b) ℝ := if IsActive opt s i then statePrior s i else 0

/-! ## Connection with the scalar problem -/

/-- The columns of a dictionary with blocks of length one. -/
def colMat (Phi : Matrix (Fin m) (Fin (nb * 1)) ℝ) : Matrix (Fin m) (Fin nb) ℝ := Matrix.of fun r i => Phi r (finProdFinEquiv (i, 0))

theorem one_mat_ext {A B : Matrix (Fin 1) (Fin 1) ℝ} (h : A 0 0 = B 0 0) : A = B := by
  ext i j
  rw [Subsingleton.elim i 0, Subsingleton.elim j 0, h]

theorem regGram_one (Phi : Matrix (Fin m) (Fin (nb * 1)) ℝ) (S : Fin nb → Matrix (Fin 1) (Fin 1) ℝ) (l : ℝ) :
    regGram (getSubdicts Phi) S l = covY (colMat Phi) (fun i => S i 0 0) l := by
  rw [regGram, covY]
  congr 1
  ext r t
  rw [Matrix.sum_apply, Matrix.mul_apply]
  refine Finset.sum_congr rfl fun i _ => ?_
  rw [Matrix.mul_apply, Fin.sum_univ_one, Matrix.mul_apply, Fin.sum_univ_one, mul_diagonal, transpose_apply, transpose_apply, getSubdicts_apply, getSubdicts_apply]
  rfl

theorem evidence_one (Phi : Matrix (Fin m) (Fin (nb * 1)) ℝ) (y : Fin m → ℝ) (S : Fin nb → Matrix (Fin 1) (Fin 1) ℝ) (l : ℝ) :
    evidence Phi y S l = evid (colMat Phi) y (fun i => S i 0 0) l := by
  rw [evidence, evid, gram_eq, ← regGram_one]
  rfl

theorem kept_eq {opt : BsblOptions} {s : BsblState m nb b} {S : Fin nb → Matrix (Fin b) (Fin b) ℝ} {l : ℝ} (h : Prior opt s S l) : keptPrior opt s = S := by
  funext i
  unfold keptPrior
  split
  · rename_i hi
    rw [statePrior, (h.active i (active_true.2 hi)).1, Option.getD_some]
  · rename_i hi
    exact (h.inactive i (by rw [Bool.eq_false_iff]; exact fun hc => hi (active_true.1 hc))).symm

theorem dict_h (Phi : Matrix (Fin m) (Fin (nb * 1)) ℝ) (i : Fin nb) (v : Fin m → ℝ) : ((getSubdicts Phi i)ᵀ *ᵥ v) 0 = ((colMat Phi)ᵀ *ᵥ v) i := by
  show ∑ r, getSubdicts Phi i r 0 * v r = ∑ r, colMat Phi r i * v r
  exact Finset.sum_congr rfl fun r _ => by rw [getSubdicts_apply]; rfl

theorem dict_lev (Phi : Matrix (Fin m) (Fin (nb * 1)) ℝ) (i : Fin nb) (S : Fin nb → Matrix (Fin 1) (Fin 1) ℝ) (l : ℝ) :
    ((getSubdicts Phi i)ᵀ * (regGram (getSubdicts Phi) S l)⁻¹ * getSubdicts Phi i) 0 0 = lev (colMat Phi) (fun i => S i 0 0) l i := by
  rw [regGram_one, lev]
  show ∑ r, (∑ t, getSubdicts Phi i t 0 * _) * getSubdicts Phi i r 0 = ∑ r, (∑ t, colMat Phi t i * _) * colMat Phi r i
  exact Finset.sum_congr rfl fun r _ => by
    rw [getSubdicts_apply]
    congr 1
    exact Finset.sum_congr rfl fun t _ => by rw [getSubdicts_apply]; rfl

theorem arMat_b1 (r : ℝ) : arMat 1 r = 1 := one_mat_ext (by simp [arMat])

section
variable {Phi : Matrix (Fin m) (Fin (nb * 1)) ℝ} {y : Fin m → ℝ} {opt : BsblOptions} {s : BsblState m nb 1} {S : Fin nb → Matrix (Fin 1) (Fin 1) ℝ} {l : ℝ}

theorem stepB_one : stepB Phi y opt s = some 1 := by
  rw [stepB, computeB, if_pos le_rfl, arMat_b1]

theorem prior_nonneg (h : Prior opt s S l) (i : Fin nb) : 0 ≤ S i 0 0 := psd_diag (h.psd i) 0

/-- The scalars of `bsbl_em` for blocks of length one. -/
theorem em_gamma (h : Prior opt s S l) (i : Fin nb) :
    (bsblEmBody Phi y opt s).gammas i = some (S i 0 0 - S i 0 0 * lev (colMat Phi) (fun i => S i 0 0) l i * S i 0 0 +
      (S i 0 0 * ((colMat Phi)ᵀ *ᵥ ((covY (colMat Phi) (fun i => S i 0 0) l)⁻¹ *ᵥ y)) i) ^ 2) := by
  show gammasEm (stepCov Phi y opt s) ((stepB Phi y opt s).bind minv) (activeBlocks opt.pruneGamma s.gammas) i = _
  unfold gammasEm
  cases ha : activeBlocks opt.pruneGamma s.gammas i with
  | false =>
    rw [if_neg (by simp), Option.bind_some, odiv, if_neg (by norm_num), h.inactive i ha]
    simp
  | true =>
    rw [if_pos rfl, stepCov_eq h, Option.bind_some, stepB_one, Option.bind_some, minv_posDef Matrix.PosDef.one, Option.map_some, Option.bind_some, odiv, if_neg (by norm_num)]
    rw [inv_one, Matrix.one_mul, Matrix.trace, Fin.sum_univ_one, diag_apply, computeCovX, Matrix.add_apply, Matrix.of_apply, dotProduct, Fin.sum_univ_one, postMean, postCov,
      Matrix.sub_apply, Matrix.mul_apply, Fin.sum_univ_one, Matrix.mul_apply, Fin.sum_univ_one, dict_lev, mulVec, dotProduct, Fin.sum_univ_one, dict_h, regGram_one]
    congr 1
    push_cast
    ring

theorem body_prior (gammas : Fin nb → Option ℝ) (i : Fin nb) : (bsblBody Phi y opt s gammas).sigma0 i = (gammas i).map fun g => g • 1 := by
  show updateSigma0 gammas (stepB Phi y opt s) i = _
  rw [updateSigma0, stepB_one]
  cases gammas i <;> rfl

/-- The scalars of `bsbl_bo` for blocks of length one. -/
theorem bo_gamma (svd : Svd 1) (hsvd : IsSvd 1 (svd 1)) (h : Prior opt s S l) (hs : ∀ i, s.sigma0 i = (s.gammas i).map fun g => g • 1) (i : Fin nb) :
    ((bsblBoBody Phi y opt s svd).gammas i = none ∧ lev (colMat Phi) (fun i => S i 0 0) l i = 0) ∨
    ∃ g, (bsblBoBody Phi y opt s svd).gammas i = some g ∧ (g = S i 0 0 * |((colMat Phi)ᵀ *ᵥ ((covY (colMat Phi) (fun i => S i 0 0) l)⁻¹ *ᵥ y)) i| /
      Real.sqrt (lev (colMat Phi) (fun i => S i 0 0) l i)) := by
  have hbody : (bsblBoBody Phi y opt s svd).gammas i = gammasBo svd s.gammas (stepB Phi y opt s) (computeHy (stepH Phi opt s) y) (computeHPhi Phi (stepH Phi opt s))
    (activeBlocks opt.pruneGamma s.gammas) i := rfl
  rw [hbody]
  unfold gammasBo
  cases ha : activeBlocks opt.pruneGamma s.gammas i with
  | false =>
    right
    refine ⟨0, by rw [if_neg (by simp)], ?_⟩
    rw [h.inactive i ha]
    simp
  | true =>
    obtain ⟨g, hg, hpg⟩ := active_true.1 ha
    have hSg : S i 0 0 = g := by
      have := (h.active i ha).1
      rw [hs i, hg, Option.map_some, Option.some.injEq] at this
      rw [← this]
      simp
    rw [if_pos rfl, hg, Option.bind_some, stepB_one, Option.bind_some, stepH_eq h, computeHy, computeHPhi, Option.map_some, Option.map_some, Option.bind_some, Option.bind_some,
      hphi_block (regGram_inv_symm h.psd), hy_block (regGram_inv_symm h.psd)]
    have htr : ((getSubdicts Phi i)ᵀ * (regGram (getSubdicts Phi) S l)⁻¹ * getSubdicts Phi i * 1).trace = lev (colMat Phi) (fun i => S i 0 0) l i := by
      rw [Matrix.mul_one, Matrix.trace, Fin.sum_univ_one, diag_apply, dict_lev]
    rcases (lev_nonneg (colMat Phi) (prior_nonneg h) h.pos i).eq_or_lt with h0 | h0
    · left
      refine ⟨?_, h0.symm⟩
      unfold boMapper osqrt odiv
      dsimp only
      rw [htr, ← h0]
      simp
    · right
      rw [c89_bo_update svd 1 Matrix.PosSemidef.one hsvd _ _ _ (by rw [htr]; exact h0)]
      refine ⟨_, rfl, ?_⟩
      rw [htr, hSg, one_mulVec, dotProduct, Fin.sum_univ_one, dict_h, regGram_one, Real.sqrt_div' _ h0.le, Real.sqrt_mul_self_eq_abs, mul_div_assoc]

end

/-! ## Properties -/

section
variable (Phi : Matrix (Fin m) (Fin (nb * 1)) ℝ) (y : Fin m → ℝ) (opt : BsblOptions)

/-- **C131 (blocks of length one).** With a fixed noise variance, an iteration of `bsbl_em` never increases the evidence cost: the cost of the new prior is at most the
cost of the current one, after the blocks below the pruning threshold have been removed. For longer blocks this is false: `c131_em_fails`. -/
theorem c131_em_partial (hl : 0 < opt.lambdaVal) (hp : 0 ≤ opt.pruneGamma) (h0 : opt.learnLambda = 0) (s : BsblState m nb 1) (h : BsblEmReach Phi y opt s) :
    evidence Phi y (statePrior (bsblEmBody Phi y opt s)) opt.lambdaVal ≤ evidence Phi y (keptPrior opt s) opt.lambdaVal := by
  obtain ⟨S, l, hP⟩ := (valid_em hl hp (Or.inl h0.le) h).exists_prior
  have hlam := c90_lambda_em Phi y opt h0 s h
  rw [hP.lam, Option.some.injEq] at hlam
  rw [kept_eq hP, evidence_one, evidence_one, ← hlam]
  refine (evid_em (colMat Phi) y (prior_nonneg hP) hP.pos fun i => ?_).2
  rw [statePrior]
  have : (bsblEmBody Phi y opt s).sigma0 i = ((bsblEmBody Phi y opt s).gammas i).map fun g => g • 1 := body_prior _ i
  rw [this, em_gamma hP i]
  simp

theorem bo_sigma0 {svd : Svd 1} {s : BsblState m nb 1} (h : BsblBoReach svd Phi y opt s) (i : Fin nb) : s.sigma0 i = (s.gammas i).map fun g => g • 1 :=
  h.inv (fun s => ∀ i, s.sigma0 i = (s.gammas i).map fun g => g • 1) (fun i => by simp [bsblInit]) (fun s _ _ i => body_prior _ i) i

theorem em_sigma0 {s : BsblState m nb 1} (h : BsblEmReach Phi y opt s) (i : Fin nb) : s.sigma0 i = (s.gammas i).map fun g => g • 1 :=
  h.inv (fun s => ∀ i, s.sigma0 i = (s.gammas i).map fun g => g • 1) (fun i => by simp [bsblInit]) (fun s _ _ i => body_prior _ i) i

/-- **C131 (blocks of length one).** The same for `bsbl_bo`, whatever singular value decomposition is used. -/
theorem c131_bo_partial (svd : Svd 1) (hsvd : IsSvd 1 (svd 1)) (hl : 0 < opt.lambdaVal) (hp : 0 ≤ opt.pruneGamma) (h0 : opt.learnLambda = 0) (s : BsblState m nb 1)
    (h : BsblBoReach svd Phi y opt s) :
    evidence Phi y (statePrior (bsblBoBody Phi y opt s svd)) opt.lambdaVal ≤ evidence Phi y (keptPrior opt s) opt.lambdaVal := by
  obtain ⟨S, l, hP⟩ := (valid_bo hl hp (Or.inl h0.le) h).exists_prior
  have hlam := c90_lambda_bo svd Phi y opt h0 s h
  rw [hP.lam, Option.some.injEq] at hlam
  rw [kept_eq hP, evidence_one, evidence_one, ← hlam]
  have hb : ∀ i, statePrior (bsblBoBody Phi y opt s svd) i 0 0 = ((bsblBoBody Phi y opt s svd).gammas i).getD 0 := fun i => by
    rw [statePrior]
    have : (bsblBoBody Phi y opt s svd).sigma0 i = ((bsblBoBody Phi y opt s svd).gammas i).map fun g => g • 1 := body_prior _ i
    rw [this]
    cases (bsblBoBody Phi y opt s svd).gammas i <;> simp
  refine evid_bo (colMat Phi) y (prior_nonneg hP) (fun i => ?_) hP.pos fun i hi => ?_
  · rw [hb]
    rcases bo_gamma svd hsvd hP (bo_sigma0 Phi y opt h) i with hg | ⟨g, hg, he⟩
    · rw [hg.1]; exact le_rfl
    · rw [hg, Option.getD_some, he]
      exact div_nonneg (mul_nonneg (prior_nonneg hP i) (abs_nonneg _)) (Real.sqrt_nonneg _)
  · rw [hb]
    rcases bo_gamma svd hsvd hP (bo_sigma0 Phi y opt h) i with hg | ⟨g, hg, he⟩
    · exact absurd hg.2 hi
    · rw [hg, Option.getD_some, he]

theorem kept_state {s : BsblState m nb 1} (hp : opt.pruneGamma = 0) (hs : ∀ i, s.sigma0 i = (s.gammas i).map fun g => g • 1) (hg : ∀ i g, s.gammas i = some g → 0 ≤ g) :
    keptPrior opt s = statePrior s := by
  funext i
  unfold keptPrior
  split
  · rfl
  · rename_i hi
    rw [statePrior, hs i]
    cases h : s.gammas i with
    | none => rfl
    | some g =>
      have h1 := hg i g h
      have h2 : ¬ 0 < g := fun hc => hi ⟨g, h, by rw [hp]; exact hc⟩
      rw [show g = 0 by linarith]
      simp

/-- **C131 (blocks of length one).** Without pruning (`prune_gamma = 0`) and with a fixed noise variance, the evidence cost never increases along a run of `bsbl_em`: if `t`
is a state of the run and `s` a later one, the cost of `s` is at most that of `t`. -/
theorem c131_em_run_partial (hl : 0 < opt.lambdaVal) (hp : opt.pruneGamma = 0) (h0 : opt.learnLambda = 0) (t s : BsblState m nb 1) (ht : BsblEmReach Phi y opt t)
    (hs : Reach (bsblCond opt) (bsblEmBody Phi y opt) t s) : evidence Phi y (statePrior s) opt.lambdaVal ≤ evidence Phi y (statePrior t) opt.lambdaVal := by
  refine (hs.inv (fun s => BsblEmReach Phi y opt s ∧ evidence Phi y (statePrior s) opt.lambdaVal ≤ evidence Phi y (statePrior t) opt.lambdaVal) ⟨ht, le_rfl⟩
    fun u hu hc => ⟨hu.1.step hc, le_trans ?_ hu.2⟩).2
  have h := c131_em_partial Phi y opt hl hp.ge h0 u hu.1
  rwa [kept_state opt hp (em_sigma0 Phi y opt hu.1) fun i g hg => by
    obtain ⟨g', hg', h'⟩ := (c88_finite_em Phi y opt one_pos hl hp.ge (Or.inl h0.le) u hu.1).2.2.1 i
    rw [hg, Option.some.injEq] at hg'
    rwa [hg']] at h

/-- **C131 (blocks of length one).** The same for `bsbl_bo`. -/
theorem c131_bo_run_partial (svd : Svd 1) (hsvd : IsSvd 1 (svd 1)) (hl : 0 < opt.lambdaVal) (hp : opt.pruneGamma = 0) (h0 : opt.learnLambda = 0) (t s : BsblState m nb 1)
    (ht : BsblBoReach svd Phi y opt t) (hs : Reach (bsblCond opt) (fun s => bsblBoBody Phi y opt s svd) t s) :
    evidence Phi y (statePrior s) opt.lambdaVal ≤ evidence Phi y (statePrior t) opt.lambdaVal := by
  refine (hs.inv (fun s => BsblBoReach svd Phi y opt s ∧ evidence Phi y (statePrior s) opt.lambdaVal ≤ evidence Phi y (statePrior t) opt.lambdaVal) ⟨ht, le_rfl⟩
    fun u hu hc => ⟨hu.1.step hc, le_trans ?_ hu.2⟩).2
  have h := c131_bo_partial Phi y opt svd hsvd hl hp.ge h0 u hu.1
  rwa [kept_state opt hp (bo_sigma0 Phi y opt hu.1) fun i => (c88_gammas_bo_partial svd Phi y opt hl hp.ge (Or.inl h0.le) u hu.1 i).1] at h

end

/-- The hypotheses are met, and the cost does change: for one measurement `y = 3` of one unknown with unit noise, the prior variance grows from `1` to `11 / 4` in an
iteration of `bsbl_em`, and the cost decreases. -/
example : ∃ (opt : BsblOptions) (s : BsblState 1 1 1), 0 < opt.lambdaVal ∧ opt.pruneGamma = 0 ∧ opt.learnLambda = 0 ∧ BsblEmReach (Matrix.of fun _ _ => 1) ![3] opt s ∧
    statePrior s 0 0 0 = 11 / 4 ∧ statePrior (bsblInit ![3] opt : BsblState 1 1 1) 0 0 0 = 1 := by
  set opt : BsblOptions := ⟨0, 0, 0, 1, 1, 0⟩ with hopt
  set s0 : BsblState 1 1 1 := bsblInit ![3] opt with hs0
  have hact : activeBlocks opt.pruneGamma s0.gammas 0 = true := active_true.mpr ⟨1, rfl, one_pos⟩
  have hP : Prior opt s0 (fun _ => (1 : Matrix (Fin 1) (Fin 1) ℝ)) 1 := ⟨rfl, one_pos, fun i _ => ⟨rfl, Matrix.PosDef.one⟩, fun i hi => by
    rw [Subsingleton.elim i 0, hact] at hi
    exact absurd hi (by simp)⟩
  refine ⟨opt, bsblEmBody (Matrix.of fun _ _ => 1) ![3] opt s0, one_pos, rfl, rfl, Reach.step .init ⟨⟨1, rfl, one_pos⟩, Nat.one_pos⟩, ?_, by simp [statePrior, hs0, bsblInit]⟩
  have hcol : colMat (Matrix.of fun _ _ => 1 : Matrix (Fin 1) (Fin (1 * 1)) ℝ) = 1 := one_mat_ext (by simp [colMat])
  have hC : covY (1 : Matrix (Fin 1) (Fin 1) ℝ) (fun i => (1 : Matrix (Fin 1) (Fin 1) ℝ) 0 0) 1 = (2 : ℝ) • 1 := one_mat_ext (by simp [covY]; norm_num)
  have hCi : (covY (1 : Matrix (Fin 1) (Fin 1) ℝ) (fun i => (1 : Matrix (Fin 1) (Fin 1) ℝ) 0 0) 1)⁻¹ = (1 / 2 : ℝ) • 1 := by
    refine Matrix.inv_eq_right_inv ?_
    rw [hC, Matrix.smul_mul, Matrix.one_mul, smul_smul]
    norm_num
  have e1 : (bsblEmBody (Matrix.of fun _ _ => 1) ![3] opt s0).sigma0 0 = ((bsblEmBody (Matrix.of fun _ _ => 1) ![3] opt s0).gammas 0).map fun g => g • 1 := body_prior _ 0
  rw [statePrior, e1, em_gamma hP 0, lev, hcol, hCi, smul_mulVec, one_mulVec]
  simp
  norm_num

/-- A singular value decomposition of the identity exists. -/
example : ∃ svd : Svd 1, IsSvd 1 (svd 1) := ⟨fun _ => (1, fun _ => 1, 1), by simp, by simp, fun _ => zero_le_one, by simp⟩

/-! ## Blocks of length two -/

/-- Direct measurements of a block of length two. -/
def pairPhi : Matrix (Fin 2) (Fin (1 * 2)) ℝ := Matrix.of fun r k => if r = (finProdFinEquiv.symm k).2 then 1 else 0

theorem pairPhi_sub (i : Fin 1) : getSubdicts pairPhi i = 1 := by
  ext r j
  rw [getSubdicts_apply, pairPhi, Matrix.of_apply, Equiv.symm_apply_apply, Matrix.one_apply]

theorem pair_gram (S : Fin 1 → Matrix (Fin 2) (Fin 2) ℝ) (l : ℝ) : pairPhi * bdiag S * pairPhiᵀ + l • 1 = S 0 + l • 1 := by
  rw [gram_eq, Fin.sum_univ_one, pairPhi_sub, Matrix.one_mul, transpose_one, Matrix.mul_one]

/-- The options: fixed noise variance 1, no pruning. -/
def pairOpt : BsblOptions := ⟨1, 0, 0, 1, 1, 0⟩

/-- The initial state. -/
def pairInit : BsblState 2 1 2 := bsblInit ![2, -2] pairOpt

theorem pair_active : activeBlocks pairOpt.pruneGamma pairInit.gammas 0 = true := active_true.mpr ⟨1, rfl, one_pos⟩

theorem pair_prior : Prior pairOpt pairInit (fun _ => (1 : Matrix (Fin 2) (Fin 2) ℝ)) 1 := ⟨rfl, one_pos, fun i _ => ⟨rfl, Matrix.PosDef.one⟩, fun i hi => by
    rw [Subsingleton.elim i 0, pair_active] at hi
    exact absurd hi (by simp)⟩

theorem pair_inv : (regGram (getSubdicts pairPhi) (fun _ => (1 : Matrix (Fin 2) (Fin 2) ℝ)) 1)⁻¹ = (1 / 2 : ℝ) • 1 := by
  refine Matrix.inv_eq_right_inv ?_
  rw [regGram, Fin.sum_univ_one, pairPhi_sub, Matrix.one_mul, transpose_one, Matrix.mul_one, one_smul, Matrix.add_mul, Matrix.one_mul, ← add_smul]
  norm_num

theorem pair_mean : postMean (getSubdicts pairPhi) (fun _ => (1 : Matrix (Fin 2) (Fin 2) ℝ)) 1 ![2, -2] 0 = ![1, -1] := by
  rw [postMean, pair_inv, one_mulVec, pairPhi_sub, transpose_one, one_mulVec, smul_mulVec, one_mulVec]
  ext i
  fin_cases i <;> simp

theorem pair_cov : postCov (getSubdicts pairPhi) (fun _ => (1 : Matrix (Fin 2) (Fin 2) ℝ)) 1 0 = (1 / 2 : ℝ) • 1 := by
  rw [postCov, pair_inv, pairPhi_sub, transpose_one, Matrix.one_mul, Matrix.one_mul, Matrix.mul_one, Matrix.mul_one]
  ext i j
  fin_cases i <;> fin_cases j <;> norm_num

/-- The second moment the code uses. -/
theorem pair_second (i : Fin 1) : stepCov pairPhi ![2, -2] pairOpt pairInit i = some !![5 / 2, 2; 2, 5 / 2] := by
  rw [Subsingleton.elim i 0, stepCov_eq pair_prior, pair_mean, pair_cov]
  congr 1
  ext i j
  fin_cases i <;> fin_cases j <;> norm_num [computeCovX, dotProduct, Fin.sum_univ_two]

theorem arMat_two (r : ℝ) : arMat 2 r = !![1, r; r, 1] := by
  ext i j
  fin_cases i <;> fin_cases j <;> simp [arMat]

theorem pair_B : stepB pairPhi ![2, -2] pairOpt pairInit = some !![1, 4 / 5; 4 / 5, 1] := by
  have hsum : covSumPruned (stepCov pairPhi ![2, -2] pairOpt pairInit) pairInit.gammas (activeBlocks pairOpt.pruneGamma pairInit.gammas) = some !![5 / 2, 2; 2, 5 / 2] := by
    rw [covSumPruned, osum_some (g := fun _ => !![5 / 2, 2; 2, 5 / 2]) fun i => ?_, Fin.sum_univ_one]
    have hg : pairInit.gammas 0 = some 1 := rfl
    rw [Subsingleton.elim i 0, if_pos pair_active, pair_second, Option.bind_some, hg, Option.bind_some, mdiv, if_neg one_ne_zero, inv_one, one_smul]
  rw [stepB, computeB, if_neg (by norm_num), hsum, Option.bind_some, arCoef, if_neg (by norm_num)]
  have h0 : meanDiag !![(5 / 2 : ℝ), 2; 2, 5 / 2] = 5 / 2 := by
    rw [meanDiag, Fin.sum_univ_two]
    norm_num
  have h1 : meanUpper !![(5 / 2 : ℝ), 2; 2, 5 / 2] = 2 := by
    show (∑ i : Fin 1, !![(5 / 2 : ℝ), 2; 2, 5 / 2] ⟨i, _⟩ ⟨i + 1, _⟩) / (1 : ℕ) = 2
    rw [Fin.sum_univ_one]
    norm_num
  dsimp only
  rw [h0, h1, if_neg (by norm_num), Option.map_some, ← arMat_two]
  norm_num

theorem pair_evidence (S : Fin 1 → Matrix (Fin 2) (Fin 2) ℝ) (p q : ℝ) (hS : S 0 = !![p, q; q, p]) (h1 : p + 1 + q ≠ 0) (h2 : p + 1 - q ≠ 0) :
    evidence pairPhi ![2, -2] S 1 = Real.log ((p + 1 + q) * (p + 1 - q)) + 8 / (p + 1 - q) := by
  have hC : S 0 + (1 : ℝ) • (1 : Matrix (Fin 2) (Fin 2) ℝ) = !![p + 1, q; q, p + 1] := by
    rw [hS]
    ext i j
    fin_cases i <;> fin_cases j <;> simp
  have hd : (!![p + 1, q; q, p + 1] : Matrix (Fin 2) (Fin 2) ℝ).det = (p + 1 + q) * (p + 1 - q) := by
    rw [det_fin_two_of]
    ring
  have hne : (!![p + 1, q; q, p + 1] : Matrix (Fin 2) (Fin 2) ℝ).det ≠ 0 := by
    rw [hd]
    exact mul_ne_zero h1 h2
  have hv : (!![p + 1, q; q, p + 1] : Matrix (Fin 2) (Fin 2) ℝ)⁻¹ *ᵥ ![2, -2] = ![2 / (p + 1 - q), -2 / (p + 1 - q)] := by
    have e : (!![p + 1, q; q, p + 1] : Matrix (Fin 2) (Fin 2) ℝ) *ᵥ ![2 / (p + 1 - q), -2 / (p + 1 - q)] = ![2, -2] := by
      ext i
      fin_cases i
      · simp [mulVec, dotProduct, Fin.sum_univ_two]
        field_simp
        ring
      · simp [mulVec, dotProduct, Fin.sum_univ_two]
        field_simp
        ring
    rw [← e, mulVec_mulVec, nonsing_inv_mul _ (isUnit_iff_ne_zero.2 hne), one_mulVec]
  rw [evidence, pair_gram, hC, hd, hv]
  congr 1
  simp [dotProduct, Fin.sum_univ_two]
  field_simp
  norm_num

theorem pair_evidence_init : evidence pairPhi ![2, -2] (statePrior pairInit) 1 = Real.log 4 + 4 := by
  rw [pair_evidence _ 1 0 (by
    show (1 : Matrix (Fin 2) (Fin 2) ℝ) = _
    ext i j
    fin_cases i <;> fin_cases j <;> simp) (by norm_num) (by norm_num)]
  norm_num

/-- **C131, refuted for longer blocks.** For a block of length two, measured directly with unit noise variance, the first iteration of `bsbl_em` increases the evidence
cost when the two measurements have opposite signs. The cause is the second moment: the code adds the scalar `mᵀ m` to every entry instead of the matrix `m mᵀ`, so opposite
signs are taken for a positive correlation. -/
theorem c131_em_fails : ∃ (Phi : Matrix (Fin 2) (Fin (1 * 2)) ℝ) (y : Fin 2 → ℝ) (opt : BsblOptions) (s : BsblState 2 1 2), 0 < opt.lambdaVal ∧ opt.pruneGamma = 0 ∧
    opt.learnLambda = 0 ∧ BsblEmReach Phi y opt s ∧
    evidence Phi y (statePrior s) opt.lambdaVal < evidence Phi y (statePrior (bsblEmBody Phi y opt s)) opt.lambdaVal := by
  refine ⟨pairPhi, ![2, -2], pairOpt, pairInit, one_pos, rfl, rfl, .init, ?_⟩
  have hBi : (!![1, 4 / 5; 4 / 5, 1] : Matrix (Fin 2) (Fin 2) ℝ)⁻¹ = !![25 / 9, -20 / 9; -20 / 9, 25 / 9] := by
    refine Matrix.inv_eq_right_inv ?_
    ext i j
    fin_cases i <;> fin_cases j <;> norm_num [Matrix.mul_apply, Fin.sum_univ_two]
  have hg : (bsblEmBody pairPhi ![2, -2] pairOpt pairInit).gammas 0 = some (5 / 2) := by
    show gammasEm _ _ _ 0 = _
    rw [gammasEm, if_pos pair_active, pair_second, pair_B, Option.bind_some, Option.bind_some, minv, if_pos (by rw [det_fin_two_of]; norm_num), Option.map_some, Option.bind_some,
      odiv, if_neg (by norm_num), hBi]
    norm_num [Matrix.trace, Fin.sum_univ_two]
  have hS : statePrior (bsblEmBody pairPhi ![2, -2] pairOpt pairInit) 0 = !![5 / 2, 2; 2, 5 / 2] := by
    have : (bsblEmBody pairPhi ![2, -2] pairOpt pairInit).sigma0 0 = ((bsblEmBody pairPhi ![2, -2] pairOpt pairInit).gammas 0).bind fun g =>
      (stepB pairPhi ![2, -2] pairOpt pairInit).map fun B => g • B := rfl
    rw [statePrior, this, hg, pair_B, Option.bind_some, Option.map_some, Option.getD_some]
    ext i j
    fin_cases i <;> fin_cases j <;> norm_num
  show evidence _ _ _ 1 < evidence _ _ _ 1
  rw [pair_evidence_init, pair_evidence _ _ _ hS (by norm_num) (by norm_num)]
  have := Real.log_lt_log (show (0 : ℝ) < 4 by norm_num) (show (4 : ℝ) < (5 / 2 + 1 + 2) * (5 / 2 + 1 - 2) by norm_num)
  norm_num at this ⊢
  linarith

/-- **C131, refuted for longer blocks.** The same for `bsbl_bo`, whatever singular value decomposition is used. -/
theorem c131_bo_fails (svd : Svd 2) (hsvd : ∀ B : Matrix (Fin 2) (Fin 2) ℝ, B.PosSemidef → IsSvd B (svd B)) :
    ∃ (Phi : Matrix (Fin 2) (Fin (1 * 2)) ℝ) (y : Fin 2 → ℝ) (opt : BsblOptions) (s : BsblState 2 1 2), 0 < opt.lambdaVal ∧ opt.pruneGamma = 0 ∧
    opt.learnLambda = 0 ∧ BsblBoReach svd Phi y opt s ∧
    evidence Phi y (statePrior s) opt.lambdaVal < evidence Phi y (statePrior (bsblBoBody Phi y opt s svd)) opt.lambdaVal := by
  refine ⟨pairPhi, ![2, -2], pairOpt, pairInit, one_pos, rfl, rfl, .init, ?_⟩
  have hpsd : (!![1, 4 / 5; 4 / 5, 1] : Matrix (Fin 2) (Fin 2) ℝ).PosSemidef := by
    rw [← arMat_two]
    exact (arMat_posDef (by norm_num)).posSemidef
  have hg : (bsblBoBody pairPhi ![2, -2] pairOpt pairInit svd).gammas 0 = some (Real.sqrt (2 / 5)) := by
    show gammasBo svd _ _ _ _ _ 0 = _
    have hg1 : pairInit.gammas 0 = some 1 := rfl
    rw [gammasBo, if_pos pair_active, hg1, Option.bind_some, pair_B, Option.bind_some, stepH_eq pair_prior, computeHy, computeHPhi, Option.map_some, Option.map_some,
      Option.bind_some, Option.bind_some, hphi_block (regGram_inv_symm pair_prior.psd), hy_block (regGram_inv_symm pair_prior.psd), pair_inv, pairPhi_sub]
    have htr : ((1 : Matrix (Fin 2) (Fin 2) ℝ)ᵀ * ((1 / 2 : ℝ) • 1) * 1 * !![1, 4 / 5; 4 / 5, 1]).trace = 1 := by
      rw [transpose_one, Matrix.one_mul, Matrix.mul_one, Matrix.smul_mul, Matrix.one_mul]
      norm_num [Matrix.trace, Fin.sum_univ_two]
    rw [c89_bo_update svd _ hpsd (hsvd _ hpsd) _ _ _ (by rw [htr]; exact one_pos), htr]
    congr 1
    rw [transpose_one, one_mulVec, smul_mulVec, one_mulVec, one_mul]
    congr 1
    norm_num [mulVec, dotProduct, Fin.sum_univ_two]
  obtain ⟨w, hw⟩ : ∃ w, w = Real.sqrt (2 / 5) := ⟨_, rfl⟩
  have hw0 : 0 ≤ w := hw ▸ Real.sqrt_nonneg _
  have hw2 : w ^ 2 = 2 / 5 := by rw [hw]; exact Real.sq_sqrt (by norm_num)
  have hw1 : w ≤ 13 / 20 := by nlinarith
  rw [← hw] at hg
  have hS : statePrior (bsblBoBody pairPhi ![2, -2] pairOpt pairInit svd) 0 = !![w, w * (4 / 5); w * (4 / 5), w] := by
    have : (bsblBoBody pairPhi ![2, -2] pairOpt pairInit svd).sigma0 0 = ((bsblBoBody pairPhi ![2, -2] pairOpt pairInit svd).gammas 0).bind fun g =>
      (stepB pairPhi ![2, -2] pairOpt pairInit).map fun B => g • B := rfl
    rw [statePrior, this, hg, pair_B, Option.bind_some, Option.map_some, Option.getD_some]
    ext i j
    fin_cases i <;> fin_cases j <;> simp
  show evidence _ _ _ 1 < evidence _ _ _ 1
  rw [pair_evidence_init, pair_evidence _ _ _ hS (by nlinarith) (by nlinarith)]
  have h1 : 0 ≤ Real.log ((w + 1 + w * (4 / 5)) * (w + 1 - w * (4 / 5))) := Real.log_nonneg (by nlinarith)
  have h2 : 7 ≤ 8 / (w + 1 - w * (4 / 5)) := by
    rw [le_div_iff₀ (by nlinarith)]
    nlinarith
  have h3 : Real.log 4 < 3 := by
    have := Real.log_lt_sub_one_of_pos (show (0 : ℝ) < 4 by norm_num) (by norm_num)
    linarith
  linarith

/-- Positive semidefinite matrices have singular value decompositions, so the hypothesis is met. -/
example : ∃ svd : Svd b, ∀ B : Matrix (Fin b) (Fin b) ℝ, B.PosSemidef → IsSvd B (svd B) := by
  have : ∀ B : Matrix (Fin b) (Fin b) ℝ, ∃ d, B.PosSemidef → IsSvd B d := fun B => by
    by_cases hB : B.PosSemidef
    · have hU := hB.1.eigenvectorUnitary.2
      refine ⟨(hB.1.eigenvectorUnitary, hB.1.eigenvalues, (star hB.1.eigenvectorUnitary : Matrix (Fin b) (Fin b) ℝ)), fun _ => ⟨?_, ?_, hB.eigenvalues_nonneg, ?_⟩⟩
      · have := Unitary.star_mul_self_of_mem hU
        rwa [star_eq_conjTranspose, conjTranspose_eq_transpose_of_trivial] at this
      · have := Unitary.star_mul_self_of_mem hU
        rw [star_eq_conjTranspose, conjTranspose_eq_transpose_of_trivial] at this
        show (star (hB.1.eigenvectorUnitary : Matrix (Fin b) (Fin b) ℝ)) * (star (hB.1.eigenvectorUnitary : Matrix (Fin b) (Fin b) ℝ))ᵀ = 1
        rw [star_eq_conjTranspose, conjTranspose_eq_transpose_of_trivial, transpose_transpose, this]
      · have := hB.1.spectral_theorem
        rw [Unitary.conjStarAlgAut_apply] at this
        simpa using this
    · exact ⟨(0, 0, 0), fun h => absurd h hB⟩
  choose d hd using this
  exact ⟨d, hd⟩

/-- Two blocks of one entry, two measurements. -/
example := c131_em_partial idPhi ![1, 4] ⟨1, 0, 1 / 1000, 1 / 10, 300, 1 / 1000⟩ (by norm_num) (by norm_num) rfl _ (Reach.step .init ⟨⟨1, rfl, by norm_num⟩, by norm_num [bsblInit]⟩)

example := c131_bo_partial idPhi ![1, 4] ⟨1, 0, 1 / 1000, 1 / 10, 300, 1 / 1000⟩ (fun _ => (1, fun _ => 1, 1)) ⟨by simp, by simp, fun _ => zero_le_one, by simp⟩ (by norm_num) (by norm_num) rfl _
  (Reach.step .init ⟨⟨1, rfl, by norm_num⟩, by norm_num [bsblInit]⟩)

example := c131_em_run_partial idPhi ![1, 4] ⟨1, 0, 0, 1 / 10, 300, 1 / 1000⟩ (by norm_num) rfl rfl _ _ .init (Reach.step .init ⟨⟨1, rfl, by norm_num⟩, by norm_num [bsblInit]⟩)

example := c131_bo_run_partial idPhi ![1, 4] ⟨1, 0, 0, 1 / 10, 300, 1 / 1000⟩ (fun _ => (1, fun _ => 1, 1)) ⟨by simp, by simp, fun _ => zero_le_one, by simp⟩ (by norm_num) rfl rfl _ _ .init
  (Reach.step .init ⟨⟨1, rfl, by norm_num⟩, by norm_num [bsblInit]⟩)

end Verif.Block
