import Verif.Block.BsblModel

set_option autoImplicit false
/-!
# Model of the variants of block sparse Bayesian learning without pruning (block/bsbl.py)
-/
noncomputable section
namespace Verif.Block
open Verif.Loop Matrix

variable {m nb b : ℕ}

/-- `init_sigmas(n, b)` (block/bsbl.py:50-53): one identity matrix for each of the `n // b` blocks. -/
def initSigmas (n b : ℕ) : Fin (n / b) → Matrix (Fin b) (Fin b) ℝ := fun _ => 1

/-- `init_gammas(n_blocks)` (block/bsbl.py:56-57). -/
def initGammas (nb : ℕ) : Fin nb → ℝ := fun _ => 1

open Classical in
/-- `prune_blocks(gammas, threshold)` for finite values (block/bsbl.py:59-60). -/
def pruneBlocks (gammas : Fin nb → ℝ) (threshold : ℝ) : Fin nb → Bool := fun i => decide (gammas i > threshold)

/-- `update_lambda_rule_nojit` (block/bsbl.py:226-232). -/
def lambdaRuleNojit (learn : ℤ) (lam : Option ℝ) (D : Fin nb → Matrix (Fin m) (Fin b) ℝ) (gammas : Fin nb → Option ℝ)
    (Sigma_x : Fin nb → Option (Matrix (Fin b) (Fin b) ℝ)) (Binv : Option (Matrix (Fin b) (Fin b) ℝ)) (rNormSqr : Option ℝ) : Option ℝ :=
  if learn = 0 then lam else if learn = 1 then lambdaLow D Sigma_x rNormSqr else lambdaHigh lam gammas Sigma_x Binv rNormSqr m

/-- `update_gammas_em(Cov_x, B_inv)` (block/bsbl.py:247-252). -/
def gammasEmAll (Cov : Fin nb → Option (Matrix (Fin b) (Fin b) ℝ)) (Binv : Option (Matrix (Fin b) (Fin b) ℝ)) : Fin nb → Option ℝ :=
  fun i => ((Cov i).bind fun cx => Binv.map fun Bi => (Bi * cx).trace).bind fun t => odiv t b

/-- `update_gammas_bo(old_gammas, B, Hy, HPhi)` (block/bsbl.py:267-279). -/
def gammasBoAll (svd : Svd b) (old : Fin nb → Option ℝ) (B : Option (Matrix (Fin b) (Fin b) ℝ)) (Hy : Option (Fin nb → Fin b → ℝ))
    (HPhi : Option (Fin nb → Matrix (Fin b) (Fin b) ℝ)) : Fin nb → Option ℝ :=
  fun i => (old i).bind fun g => B.bind fun B => Hy.bind fun h => HPhi.bind fun P => boMapper (sqrtmSvd svd B) B g (h i) (P i)

/-- `bsbl_bo_options` (block/bsbl.py:383-420); `none` is an argument that is not given and `scale` is `jnp.std(y)`, or one without `y`. -/
def bsblBoOptions (scale : ℝ) (learnBlockCorr learnLambda : Option ℤ) (pruneGamma lambdaVal : Option ℝ) (maxIters : Option ℕ) (epsilon : Option ℝ) : BsblOptions :=
  let learn := learnLambda.getD 1
  { learnBlockCorr := learnBlockCorr.getD 1
    learnLambda := learn
    pruneGamma := pruneGamma.getD (if learn = 0 then 1e-3 else 1e-2)
    lambdaVal := lambdaVal.getD (if learn = 0 then 1e-12 else scale * 1e-2)
    maxIters := maxIters.getD 300
    epsilon := epsilon.getD 1e-8 }

/-- `body_func` of `bsbl_bo_np` (block/bsbl.py:791-831). -/
def bsblNpBody (svd : Svd b) (Phi : Matrix (Fin m) (Fin (nb * b)) ℝ) (y : Fin m → ℝ) (opt : BsblOptions) (s : BsblState m nb b) : BsblState m nb b :=
  let D := getSubdicts Phi
  let H := (cumPhiBPhi D s.sigma0).bind fun P => s.lam.bind fun l => computeH Phi P l
  let mu := computeMuX s.sigma0 H y
  let Sigma_x := computeSigmaX Phi s.sigma0 H
  let Cov := covBlocks Sigma_x mu
  let B := computeB (covSum Cov s.gammas)
  let res := (xHat mu).map fun x => y - Phi *ᵥ x
  let rNormSqr := res.map fun r => r ⬝ᵥ r
  let gammas := gammasBoAll svd s.gammas B (computeHy H y) (computeHPhi Phi H)
  { mu := mu
    r := res
    rNormSqr := rNormSqr
    gammas := gammas
    sigma0 := updateSigma0 gammas B
    lam := lambdaRule opt.learnLambda s.lam D s.gammas Sigma_x (B.bind minv) rNormSqr
    dmu := muDiff mu s.mu
    iterations := s.iterations + 1 }

/-- The states at the loop header of `bsbl_bo_np(Phi, y, b, opt)` (block/bsbl.py:730-840). -/
def BsblNpReach (svd : Svd b) (Phi : Matrix (Fin m) (Fin (nb * b)) ℝ) (y : Fin m → ℝ) (opt : BsblOptions) (s : BsblState m nb b) : Prop :=
  Reach (bsblCond opt) (bsblNpBody svd Phi y opt) (bsblInit y opt) s

/-- `bsbl_bo_np(Phi, y, b, opt)` returns `s` (block/bsbl.py:730-844). -/
def BsblNp (svd : Svd b) (Phi : Matrix (Fin m) (Fin (nb * b)) ℝ) (y : Fin m → ℝ) (opt : BsblOptions) (s : BsblState m nb b) : Prop :=
  Out (bsblCond opt) (bsblNpBody svd Phi y opt) (bsblInit y opt) s

end Verif.Block
