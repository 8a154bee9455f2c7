import Verif.Loop
import Mathlib.LinearAlgebra.Matrix.NonsingularInverse
import Mathlib.LinearAlgebra.Matrix.Trace
import Mathlib.Analysis.SpecialFunctions.Pow.Real
import Mathlib.Logic.Equiv.Fin.Basic

set_option autoImplicit false
/-!
# Model of block sparse Bayesian learning (block/bsbl.py)

Real matrices. `nb` is the number of blocks, `b` the block length, and the dictionary has `nb * b` columns (other column counts make a reshape or a product of the
code fail). Column `(i, j)` stands for column `i * b + j`, which is what `finProdFinEquiv (i, j)` is.

Values that are not finite are `none`, separately for each block, because `lax.cond` under `vmap` selects: a value that is not finite in a block which is not selected
has no effect. A comparison with such a value is false, as for a value that is not a number; `c88_bo_nan` shows that the block scalars do not become infinite. The one place where the sign of an infinite value matters (the clipping of the correlation coefficient) is modelled
explicitly.

`crn.add_to_diagonal`, `crn.block_diag`, `crn.toeplitz_mat`, `crn.sqr_norm_l2` (package cr-nimble) and `jnp.linalg.solve`, `inv` are modelled by what they document.
-/
noncomputable section
namespace Verif.Block
open Verif.Loop Matrix

variable {m nb b : ℕ}

/-! ## Values that may be not finite -/

open Classical in
/-- Division of floats; the result is not finite when the divisor is zero. -/
def odiv (x y : ℝ) : Option ℝ := if y = 0 then none else some (x / y)

open Classical in
/-- `jnp.sum(f, axis=0)` over the blocks: not finite when a summand is not finite. -/
def osum {M : Type*} [AddCommMonoid M] (f : Fin nb → Option M) : Option M :=
  if h : ∀ i, (f i).isSome then some (∑ i, (f i).get (h i)) else none

open Classical in
/-- `jnp.linalg.inv(A)`: the inverse, or values that are not finite when `A` is singular. -/
def minv {k : ℕ} (A : Matrix (Fin k) (Fin k) ℝ) : Option (Matrix (Fin k) (Fin k) ℝ) := if A.det ≠ 0 then some A⁻¹ else none

open Classical in
/-- `jnp.sqrt(t)`: not a number for negative `t`. -/
def osqrt (t : ℝ) : Option ℝ := if t < 0 then none else some (Real.sqrt t)

/-! ## Reshaping -/

/-- Row-major reading of a two-dimensional array of shape `(p, q)`. -/
def flatten2 {p q : ℕ} (A : Fin p → Fin q → ℝ) : Fin (p * q) → ℝ := fun k => A (finProdFinEquiv.symm k).1 (finProdFinEquiv.symm k).2

/-- `reshape(p, q, -1)` of a flat array. -/
def reshape3 {p q r : ℕ} (v : Fin (p * q * r) → ℝ) : Fin p → Fin q → Fin r → ℝ := fun i j k => v (finProdFinEquiv (finProdFinEquiv (i, j), k))

/-- `jnp.reshape(v, (p, -1))` of a flat array. -/
def reshape2 {p q : ℕ} (v : Fin (p * q) → ℝ) : Fin p → Fin q → ℝ := fun i j => v (finProdFinEquiv (i, j))

/-- `get_subdicts(Phi, n_blocks)`: `Phi.swapaxes(0, 1).reshape(n_blocks, -1, m).swapaxes(1, 2)` (block/bsbl.py:62-65). -/
def getSubdicts (Phi : Matrix (Fin m) (Fin (nb * b)) ℝ) : Fin nb → Matrix (Fin m) (Fin b) ℝ :=
  let t : Fin (nb * b) → Fin m → ℝ := fun k r => Phi r k
  let blocks := reshape3 (flatten2 t)
  fun i => Matrix.of fun r c => blocks i c r

/-- `phi_b_phi(Phi, start, length, Sigma0)` with `start = i * b` and `length = b` (block/bsbl.py:67-69, 76-81). -/
def phiBPhi (Phi : Matrix (Fin m) (Fin (nb * b)) ℝ) (i : Fin nb) (Sigma0 : Matrix (Fin b) (Fin b) ℝ) : Matrix (Fin m) (Fin m) ℝ :=
  let subdict : Matrix (Fin m) (Fin b) ℝ := Phi.submatrix id fun j => ⟨i * b + j, by
    have hi : (i : ℕ) + 1 ≤ nb := i.isLt
    have := Nat.mul_le_mul_right b hi
    have := j.isLt
    nlinarith⟩
  subdict * Sigma0 * subdictᵀ

/-- `cum_phi_b_phi_ref(Phi, Sigma0)` (block/bsbl.py:71-82). -/
def cumPhiBPhiRef (Phi : Matrix (Fin m) (Fin (nb * b)) ℝ) (Sigma0 : Fin nb → Matrix (Fin b) (Fin b) ℝ) : Matrix (Fin m) (Fin m) ℝ :=
  (List.finRange nb).foldl (fun result i => result + phiBPhi Phi i (Sigma0 i)) 0

/-- `cum_phi_b_phi(Subdicts, Sigma0)` (block/bsbl.py:86-90). -/
def cumPhiBPhi (D : Fin nb → Matrix (Fin m) (Fin b) ℝ) (Sigma0 : Fin nb → Option (Matrix (Fin b) (Fin b) ℝ)) : Option (Matrix (Fin m) (Fin m) ℝ) :=
  osum fun i => (Sigma0 i).map fun S => D i * S * (D i)ᵀ

/-- `cum_phi_b_phi_pruned(Subdicts, Sigma0, active_blocks)` (block/bsbl.py:92-103). -/
def cumPhiBPhiPruned (D : Fin nb → Matrix (Fin m) (Fin b) ℝ) (Sigma0 : Fin nb → Option (Matrix (Fin b) (Fin b) ℝ)) (active : Fin nb → Bool) :
    Option (Matrix (Fin m) (Fin m) ℝ) :=
  osum fun i => if active i then (Sigma0 i).map fun S => D i * S * (D i)ᵀ else some 0

/-- `compute_h(Phi, PhiBPhi, lambda_val)`: the transpose of `jnp.linalg.solve(PhiBPhi + lambda I, Phi)` (block/bsbl.py:105-110). -/
def computeH (Phi : Matrix (Fin m) (Fin (nb * b)) ℝ) (P : Matrix (Fin m) (Fin m) ℝ) (lam : ℝ) : Option (Matrix (Fin (nb * b)) (Fin m) ℝ) :=
  (minv (P + lam • (1 : Matrix (Fin m) (Fin m) ℝ))).map fun Ai => (Ai * Phi)ᵀ

/-- `Hy`, split into blocks (block/bsbl.py:114-117, 124-127). -/
def computeHy (H : Option (Matrix (Fin (nb * b)) (Fin m) ℝ)) (y : Fin m → ℝ) : Option (Fin nb → Fin b → ℝ) := H.map fun H => reshape2 (H *ᵥ y)

/-- The product `a @ y` of an array of matrices with an array of vectors, in one block. -/
def blockMul (S : Option (Matrix (Fin b) (Fin b) ℝ)) (hy : Option (Fin b → ℝ)) : Option (Fin b → ℝ) := S.bind fun S => hy.map fun h => S *ᵥ h

/-- `compute_mu_x(Sigma0, H, y)`, first component (block/bsbl.py:113-120). -/
def computeMuX (Sigma0 : Fin nb → Option (Matrix (Fin b) (Fin b) ℝ)) (H : Option (Matrix (Fin (nb * b)) (Fin m) ℝ)) (y : Fin m → ℝ) :
    Fin nb → Option (Fin b → ℝ) :=
  let Hy := computeHy H y
  fun i => blockMul (Sigma0 i) (Hy.map fun h => h i)

/-- `compute_mu_x_pruned(Sigma0, H, y, active_blocks)`, first component (block/bsbl.py:123-138). -/
def computeMuXPruned (Sigma0 : Fin nb → Option (Matrix (Fin b) (Fin b) ℝ)) (H : Option (Matrix (Fin (nb * b)) (Fin m) ℝ)) (y : Fin m → ℝ)
    (active : Fin nb → Bool) : Fin nb → Option (Fin b → ℝ) :=
  let Hy := computeHy H y
  fun i => if active i then blockMul (Sigma0 i) (Hy.map fun h => h i) else some 0

/-- `crn.block_diag(A, b)`: the diagonal blocks of a square matrix. -/
def diagBlocks (A : Matrix (Fin (nb * b)) (Fin (nb * b)) ℝ) : Fin nb → Matrix (Fin b) (Fin b) ℝ :=
  fun i => Matrix.of fun j k => A (finProdFinEquiv (i, j)) (finProdFinEquiv (i, k))

/-- `HPhi_blocks` (block/bsbl.py:144-146, 154-156). -/
def computeHPhi (Phi : Matrix (Fin m) (Fin (nb * b)) ℝ) (H : Option (Matrix (Fin (nb * b)) (Fin m) ℝ)) : Option (Fin nb → Matrix (Fin b) (Fin b) ℝ) :=
  H.map fun H => diagBlocks (H * Phi)

/-- `A - A @ B @ A` in one block. -/
def shrink (S : Option (Matrix (Fin b) (Fin b) ℝ)) (B : Option (Matrix (Fin b) (Fin b) ℝ)) : Option (Matrix (Fin b) (Fin b) ℝ) :=
  S.bind fun S => B.map fun B => S - S * B * S

/-- `compute_sigma_x(Phi, Sigma0, H)`, first component (block/bsbl.py:141-150). -/
def computeSigmaX (Phi : Matrix (Fin m) (Fin (nb * b)) ℝ) (Sigma0 : Fin nb → Option (Matrix (Fin b) (Fin b) ℝ)) (H : Option (Matrix (Fin (nb * b)) (Fin m) ℝ)) :
    Fin nb → Option (Matrix (Fin b) (Fin b) ℝ) :=
  let HPhi := computeHPhi Phi H
  fun i => shrink (Sigma0 i) (HPhi.map fun B => B i)

/-- `compute_sigma_x_pruned(Phi, Sigma0, H, active_blocks)`, first component (block/bsbl.py:152-165). -/
def computeSigmaXPruned (Phi : Matrix (Fin m) (Fin (nb * b)) ℝ) (Sigma0 : Fin nb → Option (Matrix (Fin b) (Fin b) ℝ))
    (H : Option (Matrix (Fin (nb * b)) (Fin m) ℝ)) (active : Fin nb → Bool) : Fin nb → Option (Matrix (Fin b) (Fin b) ℝ) :=
  let HPhi := computeHPhi Phi H
  fun i => if active i then shrink (Sigma0 i) (HPhi.map fun B => B i) else some 0

/-- `compute_cov_x(Sigma_x, mu_x)` in one block: `sx + mx @ mx.T` (block/bsbl.py:167-171). Inside `vmap` the mean `mx` is one-dimensional, so `mx @ mx.T` is the inner
product, a scalar, which is added to every entry of `sx`. -/
def computeCovX (sx : Matrix (Fin b) (Fin b) ℝ) (mx : Fin b → ℝ) : Matrix (Fin b) (Fin b) ℝ := sx + Matrix.of fun _ _ => mx ⬝ᵥ mx

/-- `compute_cov_x` over all blocks. -/
def covBlocks (Sigma_x : Fin nb → Option (Matrix (Fin b) (Fin b) ℝ)) (mu : Fin nb → Option (Fin b → ℝ)) : Fin nb → Option (Matrix (Fin b) (Fin b) ℝ) :=
  fun i => (Sigma_x i).bind fun sx => (mu i).map fun mx => computeCovX sx mx

open Classical in
/-- `cx / g`. -/
def mdiv (C : Matrix (Fin b) (Fin b) ℝ) (g : ℝ) : Option (Matrix (Fin b) (Fin b) ℝ) := if g = 0 then none else some (g⁻¹ • C)

/-- `compute_cov_x_sum_pruned(Cov_x, gammas, active_blocks)` (block/bsbl.py:181-188). -/
def covSumPruned (Cov : Fin nb → Option (Matrix (Fin b) (Fin b) ℝ)) (gammas : Fin nb → Option ℝ) (active : Fin nb → Bool) : Option (Matrix (Fin b) (Fin b) ℝ) :=
  osum fun i => if active i then (Cov i).bind fun cx => (gammas i).bind fun g => mdiv cx g else Cov i

/-- `compute_cov_x_sum(Cov_x, gammas)` (block/bsbl.py:174-178). -/
def covSum (Cov : Fin nb → Option (Matrix (Fin b) (Fin b) ℝ)) (gammas : Fin nb → Option ℝ) : Option (Matrix (Fin b) (Fin b) ℝ) :=
  osum fun i => (Cov i).bind fun cx => (gammas i).bind fun g => mdiv cx g

/-- `jnp.mean(jnp.diag(B0))` (block/bsbl.py:191). -/
def meanDiag (B0 : Matrix (Fin b) (Fin b) ℝ) : ℝ := (∑ i, B0 i i) / b

/-- `jnp.mean(jnp.diag(B0, 1))` for `b ≥ 2` (block/bsbl.py:192). -/
def meanUpper (B0 : Matrix (Fin b) (Fin b) ℝ) : ℝ := (∑ i : Fin (b - 1), B0 ⟨i, by omega⟩ ⟨i + 1, by omega⟩) / (b - 1 : ℕ)

open Classical in
/-- The clipped correlation coefficient (block/bsbl.py:190-196). For `b = 1` the mean of the empty diagonal is not a number; `m1 / 0` is an infinity with the sign of `m1`,
which clipping makes finite, or not a number. -/
def arCoef (B0 : Matrix (Fin b) (Fin b) ℝ) : Option ℝ :=
  if b ≤ 1 then none
  else
    let m0 := meanDiag B0
    let m1 := meanUpper B0
    if m0 = 0 then (if m1 = 0 then none else if 0 < m1 then some 0.99 else some (-0.99))
    else some (min (max (m1 / m0) (-0.99)) 0.99)

/-- `crn.toeplitz_mat(c, c)` with `c = r ** jnp.arange(b)` (block/bsbl.py:200-201). -/
def arMat (b : ℕ) (r : ℝ) : Matrix (Fin b) (Fin b) ℝ := Matrix.of fun i j => r ^ (max (i : ℕ) j - min (i : ℕ) j)

/-- `compute_B_B_inv(B0)`, first component (block/bsbl.py:190-203). For `b = 1` the only power is `r ** 0 = 1`, also when `r` is not a number. -/
def computeB (B0 : Option (Matrix (Fin b) (Fin b) ℝ)) : Option (Matrix (Fin b) (Fin b) ℝ) :=
  if b ≤ 1 then some (arMat b 0) else (B0.bind arCoef).map (arMat b)

/-! ## Updates -/

/-- `update_lambda_high_snr` (block/bsbl.py:206-215); `m` is the number of measurements. -/
def lambdaHigh (lam : Option ℝ) (gammas : Fin nb → Option ℝ) (Sigma_x : Fin nb → Option (Matrix (Fin b) (Fin b) ℝ)) (Binv : Option (Matrix (Fin b) (Fin b) ℝ))
    (rNormSqr : Option ℝ) (m : ℕ) : Option ℝ :=
  (osum fun i => (Sigma_x i).bind fun sx => Binv.bind fun Bi => (gammas i).bind fun g => odiv (sx * Bi).trace g).bind fun comp =>
    lam.bind fun l => rNormSqr.bind fun q => odiv (q + l * (nb - comp)) m

/-- `update_lambda_low_snr` (block/bsbl.py:217-224). -/
def lambdaLow (D : Fin nb → Matrix (Fin m) (Fin b) ℝ) (Sigma_x : Fin nb → Option (Matrix (Fin b) (Fin b) ℝ)) (rNormSqr : Option ℝ) : Option ℝ :=
  (osum fun i => (Sigma_x i).map fun sx => (D i * sx * (D i)ᵀ).trace).bind fun comp => rNormSqr.bind fun q => odiv (q + comp) m

/-- `update_lambda_rule_jittable`: `lax.switch` clamps its index to `0 … 2` (block/bsbl.py:235-245). -/
def lambdaRule (learn : ℤ) (lam : Option ℝ) (D : Fin nb → Matrix (Fin m) (Fin b) ℝ) (gammas : Fin nb → Option ℝ)
    (Sigma_x : Fin nb → Option (Matrix (Fin b) (Fin b) ℝ)) (Binv : Option (Matrix (Fin b) (Fin b) ℝ)) (rNormSqr : Option ℝ) : Option ℝ :=
  if learn ≤ 0 then lam else if learn = 1 then lambdaLow D Sigma_x rNormSqr else lambdaHigh lam gammas Sigma_x Binv rNormSqr m

/-- `update_gammas_em_pruned(Cov_x, B_inv, active_blocks)` (block/bsbl.py:255-265). -/
def gammasEm (Cov : Fin nb → Option (Matrix (Fin b) (Fin b) ℝ)) (Binv : Option (Matrix (Fin b) (Fin b) ℝ)) (active : Fin nb → Bool) : Fin nb → Option ℝ :=
  fun i => (if active i then (Cov i).bind fun cx => Binv.map fun Bi => (Bi * cx).trace else some 0).bind fun t => odiv t b

/-- The singular value decomposition computed by `jnp.linalg.svd`: `(u, s, vh)`. -/
abbrev Svd (b : ℕ) := Matrix (Fin b) (Fin b) ℝ → Matrix (Fin b) (Fin b) ℝ × (Fin b → ℝ) × Matrix (Fin b) (Fin b) ℝ

/-- `sqrtm_svd(B)` (block/bsbl.py:43-48). -/
def sqrtmSvd (svd : Svd b) (B : Matrix (Fin b) (Fin b) ℝ) : Matrix (Fin b) (Fin b) ℝ :=
  (svd B).1 * Matrix.diagonal (fun i => Real.sqrt ((svd B).2.1 i)) * (svd B).2.2

/-- `mapper(g, hy, hphi)` of the bound optimisation update (block/bsbl.py:272-276, 286-290). -/
def boMapper (root B : Matrix (Fin b) (Fin b) ℝ) (g : ℝ) (hy : Fin b → ℝ) (hphi : Matrix (Fin b) (Fin b) ℝ) : Option ℝ :=
  let numer := Real.sqrt ((root *ᵥ hy) ⬝ᵥ (root *ᵥ hy))
  (osqrt (hphi * B).trace).bind fun denom => odiv (g * numer) denom

/-- `update_gammas_bo_pruned(old_gammas, B, Hy, HPhi, active_blocks)` (block/bsbl.py:281-298). -/
def gammasBo (svd : Svd b) (old : Fin nb → Option ℝ) (B : Option (Matrix (Fin b) (Fin b) ℝ)) (Hy : Option (Fin nb → Fin b → ℝ))
    (HPhi : Option (Fin nb → Matrix (Fin b) (Fin b) ℝ)) (active : Fin nb → Bool) : Fin nb → Option ℝ :=
  fun i => if active i then
      (old i).bind fun g => B.bind fun B => Hy.bind fun h => HPhi.bind fun P => boMapper (sqrtmSvd svd B) B g (h i) (P i)
    else some 0

/-- `update_sigma_0(gammas, B)` (block/bsbl.py:301-305). -/
def updateSigma0 (gammas : Fin nb → Option ℝ) (B : Option (Matrix (Fin b) (Fin b) ℝ)) : Fin nb → Option (Matrix (Fin b) (Fin b) ℝ) :=
  fun i => (gammas i).bind fun g => B.map fun B => g • B

/-! ## The solvers -/

/-- `BSBL_Options` (block/bsbl.py:312-340). -/
structure BsblOptions where
  learnBlockCorr : ℤ
  learnLambda : ℤ
  pruneGamma : ℝ
  lambdaVal : ℝ
  maxIters : ℕ
  epsilon : ℝ

/-- `bsbl_em_options` (block/bsbl.py:344-380); `none` is an argument that is not given. -/
def bsblEmOptions (learnBlockCorr learnLambda : Option ℤ) (pruneGamma lambdaVal : Option ℝ) (maxIters : Option ℕ) (epsilon : Option ℝ) : BsblOptions :=
  let learn := learnLambda.getD 1
  { learnBlockCorr := learnBlockCorr.getD 1
    learnLambda := learn
    pruneGamma := pruneGamma.getD (if learn = 0 then 1e-3 else 1e-2)
    lambdaVal := lambdaVal.getD (if learn = 0 then 1e-12 else 1e-3)
    maxIters := maxIters.getD 800
    epsilon := epsilon.getD 1e-8 }

/-- `BSBL_State` (block/bsbl.py:427-445). -/
structure BsblState (m nb b : ℕ) where
  mu : Fin nb → Option (Fin b → ℝ)
  r : Option (Fin m → ℝ)
  rNormSqr : Option ℝ
  gammas : Fin nb → Option ℝ
  sigma0 : Fin nb → Option (Matrix (Fin b) (Fin b) ℝ)
  lam : Option ℝ
  dmu : Option ℝ
  iterations : ℕ

open Classical in
/-- All blocks of an array, when all are finite. -/
def gather {α : Type*} (f : Fin nb → Option α) : Option (Fin nb → α) := if h : ∀ i, (f i).isSome then some fun i => (f i).get (h i) else none

/-- The solution vector `mu_x.flatten()` (block/bsbl.py:448-451, 552). -/
def xHat (mu : Fin nb → Option (Fin b → ℝ)) : Option (Fin (nb * b) → ℝ) := (gather mu).map flatten2

/-- `active_blocks = state.gammas > prune_gamma` (block/bsbl.py:541, 669). -/
def activeBlocks (prune : ℝ) (gammas : Fin nb → Option ℝ) : Fin nb → Bool := fun i => (gammas i).elim false fun g => decide (prune < g)

/-- `jnp.max(jnp.abs(mu_x - state.mu_x))` (block/bsbl.py:570-571, 698-699): the supremum norm of the difference. -/
def muDiff (new old : Fin nb → Option (Fin b → ℝ)) : Option ℝ := (gather new).bind fun u => (gather old).map fun v => ‖u - v‖

/-- `init_func` (block/bsbl.py:522-538, 650-666). -/
def bsblInit (y : Fin m → ℝ) (opt : BsblOptions) : BsblState m nb b where
  mu _ := some 0
  r := some y
  rNormSqr := some (y ⬝ᵥ y)
  gammas _ := some 1
  sigma0 _ := some 1
  lam := some opt.lambdaVal
  dmu := some 1
  iterations := 0

section
variable (Phi : Matrix (Fin m) (Fin (nb * b)) ℝ) (y : Fin m → ℝ) (opt : BsblOptions) (s : BsblState m nb b)

/-- `H` of an iteration (block/bsbl.py:541-543, 669-671). -/
def stepH : Option (Matrix (Fin (nb * b)) (Fin m) ℝ) :=
  (cumPhiBPhiPruned (getSubdicts Phi) s.sigma0 (activeBlocks opt.pruneGamma s.gammas)).bind fun P => s.lam.bind fun l => computeH Phi P l

/-- `mu_x` of an iteration (block/bsbl.py:545, 673). -/
def stepMu : Fin nb → Option (Fin b → ℝ) := computeMuXPruned s.sigma0 (stepH Phi opt s) y (activeBlocks opt.pruneGamma s.gammas)

/-- `Sigma_x` of an iteration (block/bsbl.py:547, 675). -/
def stepSigma : Fin nb → Option (Matrix (Fin b) (Fin b) ℝ) := computeSigmaXPruned Phi s.sigma0 (stepH Phi opt s) (activeBlocks opt.pruneGamma s.gammas)

/-- `Cov_x` of an iteration (block/bsbl.py:548, 676). -/
def stepCov : Fin nb → Option (Matrix (Fin b) (Fin b) ℝ) := covBlocks (stepSigma Phi opt s) (stepMu Phi y opt s)

/-- `B` of an iteration (block/bsbl.py:549-550, 677-678). -/
def stepB : Option (Matrix (Fin b) (Fin b) ℝ) := computeB (covSumPruned (stepCov Phi y opt s) s.gammas (activeBlocks opt.pruneGamma s.gammas))

/-- `res` of an iteration (block/bsbl.py:552-554, 680-682). -/
def stepRes : Option (Fin m → ℝ) := (xHat (stepMu Phi y opt s)).map fun x => y - Phi *ᵥ x

/-- The body shared by `bsbl_em` and `bsbl_bo` (block/bsbl.py:540-582, 668-710); `gammas` are the updated block scalars. -/
def bsblBody (gammas : Fin nb → Option ℝ) : BsblState m nb b :=
  let B := stepB Phi y opt s
  let res := stepRes Phi y opt s
  let rNormSqr := res.map fun r => r ⬝ᵥ r
  { mu := stepMu Phi y opt s
    r := res
    rNormSqr := rNormSqr
    gammas := gammas
    sigma0 := updateSigma0 gammas B
    lam := lambdaRule opt.learnLambda s.lam (getSubdicts Phi) s.gammas (stepSigma Phi opt s) (B.bind minv) rNormSqr
    dmu := muDiff (stepMu Phi y opt s) s.mu
    iterations := s.iterations + 1 }

/-- `body_func` of `bsbl_em` (block/bsbl.py:540-582). -/
def bsblEmBody : BsblState m nb b :=
  bsblBody Phi y opt s (gammasEm (stepCov Phi y opt s) ((stepB Phi y opt s).bind minv) (activeBlocks opt.pruneGamma s.gammas))

/-- `body_func` of `bsbl_bo` (block/bsbl.py:668-710). -/
def bsblBoBody (svd : Svd b) : BsblState m nb b :=
  bsblBody Phi y opt s (gammasBo svd s.gammas (stepB Phi y opt s) (computeHy (stepH Phi opt s) y) (computeHPhi Phi (stepH Phi opt s))
    (activeBlocks opt.pruneGamma s.gammas))

end

/-- `cond_func` (block/bsbl.py:585-589, 713-717). -/
def bsblCond (opt : BsblOptions) (s : BsblState m nb b) : Prop := (∃ d, s.dmu = some d ∧ opt.epsilon < d) ∧ s.iterations < opt.maxIters

/-- The states at the loop header of `bsbl_em(Phi, y, b, opt)` (block/bsbl.py:478-591). -/
def BsblEmReach (Phi : Matrix (Fin m) (Fin (nb * b)) ℝ) (y : Fin m → ℝ) (opt : BsblOptions) (s : BsblState m nb b) : Prop :=
  Reach (bsblCond opt) (bsblEmBody Phi y opt) (bsblInit y opt) s

/-- `bsbl_em(Phi, y, b, opt)` returns `s` (block/bsbl.py:478-595). -/
def BsblEm (Phi : Matrix (Fin m) (Fin (nb * b)) ℝ) (y : Fin m → ℝ) (opt : BsblOptions) (s : BsblState m nb b) : Prop :=
  Out (bsblCond opt) (bsblEmBody Phi y opt) (bsblInit y opt) s

/-- The states at the loop header of `bsbl_bo(Phi, y, b, opt)` (block/bsbl.py:606-719). -/
def BsblBoReach (svd : Svd b) (Phi : Matrix (Fin m) (Fin (nb * b)) ℝ) (y : Fin m → ℝ) (opt : BsblOptions) (s : BsblState m nb b) : Prop :=
  Reach (bsblCond opt) (fun s => bsblBoBody Phi y opt s svd) (bsblInit y opt) s

/-- `bsbl_bo(Phi, y, b, opt)` returns `s` (block/bsbl.py:606-723). -/
def BsblBo (svd : Svd b) (Phi : Matrix (Fin m) (Fin (nb * b)) ℝ) (y : Fin m → ℝ) (opt : BsblOptions) (s : BsblState m nb b) : Prop :=
  Out (bsblCond opt) (fun s => bsblBoBody Phi y opt s svd) (bsblInit y opt) s

end Verif.Block
