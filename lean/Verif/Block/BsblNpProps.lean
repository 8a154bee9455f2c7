import Verif.Block.BsblNpModel
import Verif.Block.BsblRoot

set_option autoImplicit false
/-!
# BSBL without pruning (C113)
-/
noncomputable section
namespace Verif.Block
open Verif.Loop Matrix

variable {m nb b : ℕ}

/-- With every block active, one pass of `bsbl_bo` and one of `bsbl_bo_np` agree. -/
theorem np_body_eq (svd : Svd b) (Phi : Matrix (Fin m) (Fin (nb * b)) ℝ) (y : Fin m → ℝ) (opt : BsblOptions) (s : BsblState m nb b)
    (h : ∀ i, IsActive opt s i) : bsblNpBody svd Phi y opt s = bsblBoBody Phi y opt s svd := by
  have ha : activeBlocks opt.pruneGamma s.gammas = fun _ => true := funext fun i => active_true.mpr (h i)
  simp only [bsblNpBody, bsblBoBody, bsblBody, stepB, stepCov, stepRes, stepMu, stepSigma, stepH, ha, cumPhiBPhiPruned, cumPhiBPhi, computeMuXPruned,
    computeMuX, computeSigmaXPruned, computeSigmaX, covSumPruned, covSum, if_true]
  rfl

/-- **C113** When no block falls to the pruning threshold in the run of `bsbl_bo`, the variant without pruning sees the same states and returns the same
result. -/
theorem c113_np_eq (svd : Svd b) (Phi : Matrix (Fin m) (Fin (nb * b)) ℝ) (y : Fin m → ℝ) (opt : BsblOptions)
    (h : ∀ s, BsblBoReach svd Phi y opt s → bsblCond opt s → ∀ i, IsActive opt s i) (s : BsblState m nb b) :
    (BsblNpReach svd Phi y opt s ↔ BsblBoReach svd Phi y opt s) ∧ (BsblNp svd Phi y opt s ↔ BsblBo svd Phi y opt s) := by
  have h1 : ∀ s, BsblNpReach svd Phi y opt s ↔ BsblBoReach svd Phi y opt s := fun s => by
    constructor
    · intro hr
      induction hr with
      | init => exact Reach.init
      | @step t _ hc ih =>
        rw [np_body_eq svd Phi y opt t (h t ih hc)]
        exact Reach.step (f := fun s => bsblBoBody Phi y opt s svd) ih hc
    · intro hr
      induction hr with
      | init => exact Reach.init
      | @step t hr hc ih =>
        show BsblNpReach svd Phi y opt (bsblBoBody Phi y opt t svd)
        rw [← np_body_eq svd Phi y opt t (h t hr hc)]
        exact Reach.step ih hc
  exact ⟨h1 s, and_congr (h1 s) Iff.rfl⟩

/-- The initial state of every run is one with all blocks active when the threshold is below one. -/
example (opt : BsblOptions) (hp : opt.pruneGamma < 1) (y : Fin m → ℝ) (i : Fin nb) : IsActive opt (bsblInit y opt : BsblState m nb b) i := ⟨1, rfl, hp⟩

/-- **C113** With one block, `bsbl_bo` and `bsbl_bo_np` agree when the only block stays active; with no iterations they agree always. -/
theorem c113_np_no_iterations (svd : Svd b) (Phi : Matrix (Fin m) (Fin (nb * b)) ℝ) (y : Fin m → ℝ) (opt : BsblOptions) (h0 : opt.maxIters = 0)
    (s : BsblState m nb b) : BsblNp svd Phi y opt s ↔ s = bsblInit y opt := by
  have hc : ∀ t : BsblState m nb b, ¬ bsblCond opt t := fun t h => by
    have := h.2; omega
  constructor
  · rintro ⟨hr, -⟩
    cases hr with
    | init => rfl
    | @step t _ h => exact absurd h (hc t)
  · rintro rfl
    exact ⟨Reach.init, hc _⟩

/-- **C113** Always at most `max_iters` iterations; `bsbl_bo_np` returns exactly one state. -/
theorem c113_np_returns (svd : Svd b) (Phi : Matrix (Fin m) (Fin (nb * b)) ℝ) (y : Fin m → ℝ) (opt : BsblOptions) :
    (∃! s, BsblNp svd Phi y opt s) ∧ ∀ s, BsblNpReach svd Phi y opt s → s.iterations ≤ opt.maxIters := by
  refine ⟨?_, fun s h => by simpa [bsblInit] using h.cnt_le (fun s => s.iterations) opt.maxIters (fun s hc => hc.2) fun s => rfl⟩
  obtain ⟨s, hs⟩ := exists_out (c := bsblCond opt) (f := bsblNpBody svd Phi y opt) (s0 := bsblInit y opt) (fun s => s.iterations) opt.maxIters
    (fun s h => h.2) fun s => Nat.lt_succ_self _
  exact ⟨s, hs, fun t ht => ht.unique hs⟩

/-- **C113, refuted.** `bsbl_bo_np` has no guard against a block scalar of zero: for blocks of length at least two, once a scalar is zero all scalars and
covariances of the next state are not finite, and after one more iteration the whole solution is not a number. -/
theorem c113_np_zero_gamma_fails (hb : 2 ≤ b) (svd : Svd b) (Phi : Matrix (Fin m) (Fin (nb * b)) ℝ) (y : Fin m → ℝ) (opt : BsblOptions)
    (s : BsblState m nb b) (i : Fin nb) (h0 : s.gammas i = some 0) :
    (∀ j, (bsblNpBody svd Phi y opt s).gammas j = none ∧ (bsblNpBody svd Phi y opt s).sigma0 j = none) ∧
      ∀ j, (bsblNpBody svd Phi y opt (bsblNpBody svd Phi y opt s)).mu j = none := by
  have hB : ∀ Cov : Fin nb → Option (Matrix (Fin b) (Fin b) ℝ), computeB (covSum Cov s.gammas) = none := fun Cov => by
    have : covSum Cov s.gammas = none := by
      unfold covSum
      refine osum_none (i := i) ?_
      rw [h0]
      cases Cov i with
      | none => rfl
      | some c => simp [mdiv]
    rw [this, computeB, if_neg (by omega)]; rfl
  have hg : ∀ j, (bsblNpBody svd Phi y opt s).gammas j = none := fun j => by
    simp only [bsblNpBody, hB, gammasBoAll, Option.bind_none]
    cases s.gammas j <;> rfl
  have hs : ∀ j, (bsblNpBody svd Phi y opt s).sigma0 j = none := fun j => by
    have : (bsblNpBody svd Phi y opt s).sigma0 j = ((bsblNpBody svd Phi y opt s).gammas j).bind fun g =>
      (computeB (covSum _ s.gammas)).map fun B => g • B := rfl
    rw [this, hg j]; rfl
  refine ⟨fun j => ⟨hg j, hs j⟩, fun j => ?_⟩
  show blockMul ((bsblNpBody svd Phi y opt s).sigma0 j) _ = none
  rw [hs j]; rfl

/-- **C113** How a zero scalar arises: a block of the dictionary that is orthogonal to `(Phi Sigma0 Phiᵀ + lambda I)⁻¹ y`, for instance when `y = 0`. Whenever
the update is finite its numerator is zero. -/
theorem c113_np_zero_gamma_arises (svd : Svd b) (old : Fin nb → Option ℝ) (B : Matrix (Fin b) (Fin b) ℝ) (Hy : Fin nb → Fin b → ℝ)
    (HPhi : Fin nb → Matrix (Fin b) (Fin b) ℝ) (i : Fin nb) (g : ℝ) (hg : old i = some g) (hHy : Hy i = 0) (ht : 0 < (HPhi i * B).trace) :
    gammasBoAll svd old (some B) (some Hy) (some HPhi) i = some 0 := by
  simp only [gammasBoAll, hg, Option.bind_some, boMapper, hHy, mulVec_zero, zero_dotProduct, Real.sqrt_zero, mul_zero]
  rw [osqrt, if_neg (not_lt.mpr ht.le), Option.bind_some, odiv, if_neg (Real.sqrt_pos.mpr ht).ne', zero_div]

example : (0 : ℝ) < ((1 : Matrix (Fin 2) (Fin 2) ℝ) * arMat 2 (1 / 5)).trace := by
  simp [Matrix.trace, arMat, Fin.sum_univ_two]

/-- **C113** The two forms of the noise update agree for `learn_lambda = 0, 1, 2` and every larger value. -/
theorem c113_lambda_rules (learn : ℤ) (hl : 0 ≤ learn) (lam : Option ℝ) (D : Fin nb → Matrix (Fin m) (Fin b) ℝ) (gammas : Fin nb → Option ℝ)
    (Sigma_x : Fin nb → Option (Matrix (Fin b) (Fin b) ℝ)) (Binv : Option (Matrix (Fin b) (Fin b) ℝ)) (rNormSqr : Option ℝ) :
    lambdaRuleNojit learn lam D gammas Sigma_x Binv rNormSqr = lambdaRule learn lam D gammas Sigma_x Binv rNormSqr := by
  unfold lambdaRuleNojit lambdaRule
  by_cases h0 : learn = 0
  · rw [if_pos h0, if_pos h0.le]
  · have h1 : ¬ learn ≤ 0 := by omega
    simp only [if_neg h0, if_neg h1]

/-- **C113** The block scalars of the unpruned EM update: `trace(B⁻¹ Cov_i) / b`, the same as the pruned update with all blocks active. -/
theorem c113_gammas_em (Cov : Fin nb → Option (Matrix (Fin b) (Fin b) ℝ)) (Binv : Option (Matrix (Fin b) (Fin b) ℝ)) :
    gammasEmAll Cov Binv = gammasEm Cov Binv fun _ => true := by
  funext i; simp [gammasEmAll, gammasEm]

/-- **C113** Options of the BO variant: given arguments are kept; the defaults are `300` iterations, tolerance `1e-8`, threshold `1e-3` and noise variance
`1e-12` without noise learning, and `1e-2` and one percent of the standard deviation of `y` otherwise, which is positive exactly if `y` is not constant. -/
theorem c113_bo_options (scale : ℝ) (c l : ℤ) (p lam : ℝ) (k : ℕ) (e : ℝ) :
    bsblBoOptions scale (some c) (some l) (some p) (some lam) (some k) (some e) =
      { learnBlockCorr := c, learnLambda := l, pruneGamma := p, lambdaVal := lam, maxIters := k, epsilon := e } ∧
    bsblBoOptions scale none (some 0) none none none none =
      { learnBlockCorr := 1, learnLambda := 0, pruneGamma := 1e-3, lambdaVal := 1e-12, maxIters := 300, epsilon := 1e-8 } ∧
    (l ≠ 0 → bsblBoOptions scale none (some l) none none none none =
      { learnBlockCorr := 1, learnLambda := l, pruneGamma := 1e-2, lambdaVal := scale / 100, maxIters := 300, epsilon := 1e-8 }) ∧
    bsblBoOptions scale none none none none none none = bsblBoOptions scale none (some 1) none none none none := by
  refine ⟨rfl, by simp [bsblBoOptions], fun h => ?_, rfl⟩
  simp only [bsblBoOptions, Option.getD_some, Option.getD_none, if_neg h]
  congr 1
  norm_num
  ring

/-- **C113** The initial arrays: identity covariances, unit scalars, all of them above every threshold below one. -/
theorem c113_init (n nb : ℕ) (hn : nb * b = n) (hb : 0 < b) (y : Fin m → ℝ) (opt : BsblOptions) (t : ℝ) (ht : t < 1) :
    n / b = nb ∧ (∀ i j, (bsblInit y opt : BsblState m nb b).sigma0 i = some (initSigmas n b j)) ∧
    (∀ i, (bsblInit y opt : BsblState m nb b).gammas i = some (initGammas nb i)) ∧ ∀ i, pruneBlocks (initGammas nb) t i = true := by
  refine ⟨by rw [← hn, Nat.mul_div_cancel _ hb], fun i j => rfl, fun i => rfl, fun i => by simp [pruneBlocks, initGammas, ht]⟩

/-- Every block stays active when the pruning threshold is negative and the scalars stay finite: at one iteration only the initial state passes the test. -/
example (svd : Svd 1) (y : Fin 2 → ℝ) (s : BsblState 2 2 1) := c113_np_eq svd (Matrix.of fun r k => if (finProdFinEquiv.symm k).1 = r then 1 else 0) y ⟨1, 0, -1, 1, 1, 0⟩
  (fun s hs hc i => by
    obtain ⟨hr, hn⟩ : s.iterations = 0 ∧ True := ⟨Nat.lt_one_iff.mp hc.2, trivial⟩
    cases hs with
    | init => exact ⟨1, rfl, by norm_num⟩
    | step _ _ => exact absurd hr (Nat.succ_ne_zero _)) s

example (svd : Svd 2) (y : Fin 3 → ℝ) (Phi : Matrix (Fin 3) (Fin (4 * 2)) ℝ) := c113_np_no_iterations svd Phi y ⟨1, 0, 1 / 1000, 1, 0, 0⟩ rfl (bsblInit y ⟨1, 0, 1 / 1000, 1, 0, 0⟩)

example (svd : Svd 2) (y : Fin 3 → ℝ) (Phi : Matrix (Fin 3) (Fin (2 * 2)) ℝ) := c113_np_zero_gamma_fails le_rfl svd Phi y ⟨1, 0, 1 / 1000, 1, 10, 0⟩
  { (bsblInit y ⟨1, 0, 1 / 1000, 1, 10, 0⟩ : BsblState 3 2 2) with gammas := ![some 0, some 1] } 0 rfl

example (svd : Svd 2) := c113_np_zero_gamma_arises (nb := 2) svd ![some 3, some 1] (arMat 2 (1 / 5)) ![0, ![1, 2]] (fun _ => 1) 0 3 rfl rfl
  (by simp [Matrix.trace, arMat, Fin.sum_univ_two])

example (D : Fin 2 → Matrix (Fin 3) (Fin 2) ℝ) := c113_lambda_rules 1 (by norm_num) (some 2) D ![some 0, some 1] (fun _ => some 1) (some 1) (some 5)

example := c113_init (b := 2) 6 3 (by norm_num) (by norm_num) ![1, 2] ⟨1, 0, 1 / 1000, 1, 10, 0⟩ (1 / 1000) (by norm_num)

end Verif.Block
