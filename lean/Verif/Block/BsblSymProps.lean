import Verif.Block.BsblProps
import Verif.LoopMap

set_option autoImplicit false
/-!
# C160: orthonormal coordinates, signs, orders and units in block sparse Bayesian learning
-/
noncomputable section
namespace Verif.Block
open Verif.Loop Matrix

variable {m nb b : ℕ}

/-! ## Orthonormal coordinates of the measurements, and their sign -/

theorem osum_map {M N : Type*} [AddCommMonoid M] [AddCommMonoid N] (g : M →+ N) (f : Fin nb → Option M) : osum (fun i => (f i).map g) = (osum f).map g := by
  by_cases h : ∀ i, (f i).isSome
  · choose q hq using fun i => Option.isSome_iff_exists.1 (h i)
    rw [osum_some hq, osum_some (g := fun i => g (q i)) fun i => by rw [hq]; rfl, Option.map_some, map_sum]
  · push Not at h
    obtain ⟨i, hi⟩ := h
    have hi : f i = none := by simpa using hi
    rw [osum_none hi, osum_none (i := i) (by rw [hi]; rfl)]
    rfl

theorem getSubdicts_left (U : Matrix (Fin m) (Fin m) ℝ) (Phi : Matrix (Fin m) (Fin (nb * b)) ℝ) (i : Fin nb) : getSubdicts (U * Phi) i = U * getSubdicts Phi i := by
  ext r c
  rw [getSubdicts_apply, Matrix.mul_apply, Matrix.mul_apply]
  exact Finset.sum_congr rfl fun k _ => by rw [getSubdicts_apply]

/-- Conjugation by `U`, as a map of sums. -/
def conjHom (U : Matrix (Fin m) (Fin m) ℝ) : Matrix (Fin m) (Fin m) ℝ →+ Matrix (Fin m) (Fin m) ℝ where
  toFun P := U * P * Uᵀ
  map_zero' := by simp
  map_add' P Q := by rw [mul_add, add_mul]

section iso
variable {U : Matrix (Fin m) (Fin m) ℝ} (hU : Uᵀ * U = 1) (Phi : Matrix (Fin m) (Fin (nb * b)) ℝ) (y : Fin m → ℝ) {ε : ℝ} (hε : ε * ε = 1)

theorem cum_iso (Sigma0 : Fin nb → Option (Matrix (Fin b) (Fin b) ℝ)) (active : Fin nb → Bool) :
    cumPhiBPhiPruned (getSubdicts (U * Phi)) Sigma0 active = (cumPhiBPhiPruned (getSubdicts Phi) Sigma0 active).map fun P => U * P * Uᵀ := by
  unfold cumPhiBPhiPruned
  have := osum_map (conjHom U) fun i => if active i then (Sigma0 i).map fun S => getSubdicts Phi i * S * (getSubdicts Phi i)ᵀ else some 0
  refine Eq.trans ?_ this
  congr 1
  funext i
  cases active i with
  | false => simp
  | true =>
    simp only [if_true, Option.map_map]
    congr 1
    funext S
    show getSubdicts (U * Phi) i * S * (getSubdicts (U * Phi) i)ᵀ = U * (getSubdicts Phi i * S * (getSubdicts Phi i)ᵀ) * Uᵀ
    rw [getSubdicts_left, transpose_mul]
    simp only [Matrix.mul_assoc]

include hU

theorem minv_iso (A : Matrix (Fin m) (Fin m) ℝ) : minv (U * A * Uᵀ) = (minv A).map fun Ai => U * Ai * Uᵀ := by
  have hU' : U * Uᵀ = 1 := mul_eq_one_comm.1 hU
  have hd : (U * A * Uᵀ).det = A.det := by
    have h1 : Uᵀ.det * U.det = 1 := by rw [← det_mul, hU, det_one]
    rw [det_mul, det_mul]
    linear_combination A.det * h1
  unfold minv
  rw [hd]
  split_ifs with h
  · rw [Option.map_some]
    congr 1
    refine Matrix.inv_eq_right_inv ?_
    have : U * A * Uᵀ * (U * A⁻¹ * Uᵀ) = U * A * (Uᵀ * U) * A⁻¹ * Uᵀ := by simp only [Matrix.mul_assoc]
    rw [this, hU, Matrix.mul_one, Matrix.mul_assoc U, Matrix.mul_nonsing_inv _ (isUnit_iff_ne_zero.2 h), Matrix.mul_one, hU']
  · rfl

theorem computeH_iso (P : Matrix (Fin m) (Fin m) ℝ) (l : ℝ) : computeH (U * Phi) (U * P * Uᵀ) l = (computeH Phi P l).map fun H => H * Uᵀ := by
  have hU' : U * Uᵀ = 1 := mul_eq_one_comm.1 hU
  have e : U * P * Uᵀ + l • (1 : Matrix (Fin m) (Fin m) ℝ) = U * (P + l • 1) * Uᵀ := by
    rw [Matrix.mul_add, Matrix.add_mul, Matrix.mul_smul, Matrix.smul_mul, Matrix.mul_one, hU']
  unfold computeH
  rw [e, minv_iso hU, Option.map_map, Option.map_map]
  congr 1
  funext Ai
  show (U * Ai * Uᵀ * (U * Phi))ᵀ = (Ai * Phi)ᵀ * Uᵀ
  rw [← transpose_mul]
  congr 1
  have : U * Ai * Uᵀ * (U * Phi) = U * Ai * (Uᵀ * U) * Phi := by simp only [Matrix.mul_assoc]
  rw [this, hU, Matrix.mul_one, Matrix.mul_assoc]

theorem stepH_iso (opt : BsblOptions) (s s' : BsblState m nb b) (h1 : s'.sigma0 = s.sigma0) (h2 : s'.gammas = s.gammas) (h3 : s'.lam = s.lam) :
    stepH (U * Phi) opt s' = (stepH Phi opt s).map fun H => H * Uᵀ := by
  unfold stepH
  rw [h1, h2, h3, cum_iso]
  cases cumPhiBPhiPruned (getSubdicts Phi) s.sigma0 (activeBlocks opt.pruneGamma s.gammas) with
  | none => rfl
  | some P =>
    cases s.lam with
    | none => rfl
    | some l => exact computeH_iso hU Phi P l

theorem computeHy_iso (H : Option (Matrix (Fin (nb * b)) (Fin m) ℝ)) :
    computeHy (H.map fun H => H * Uᵀ) (ε • (U *ᵥ y)) = (computeHy H y).map fun h => ε • h := by
  cases H with
  | none => rfl
  | some H =>
    show some (reshape2 ((H * Uᵀ) *ᵥ (ε • (U *ᵥ y)))) = some (ε • reshape2 (H *ᵥ y))
    have : (H * Uᵀ) *ᵥ (ε • (U *ᵥ y)) = ε • (H *ᵥ y) := by
      rw [mulVec_smul, mulVec_mulVec, Matrix.mul_assoc, hU, Matrix.mul_one]
    rw [this]
    rfl

theorem computeHPhi_iso (H : Option (Matrix (Fin (nb * b)) (Fin m) ℝ)) : computeHPhi (U * Phi) (H.map fun H => H * Uᵀ) = computeHPhi Phi H := by
  cases H with
  | none => rfl
  | some H =>
    show some (diagBlocks (H * Uᵀ * (U * Phi))) = some (diagBlocks (H * Phi))
    have : H * Uᵀ * (U * Phi) = H * (Uᵀ * U) * Phi := by simp only [Matrix.mul_assoc]
    rw [this, hU, Matrix.mul_one]

omit hU in
theorem blockMul_smul (S : Option (Matrix (Fin b) (Fin b) ℝ)) (h : Option (Fin b → ℝ)) (ε : ℝ) : blockMul S (h.map fun v => ε • v) = (blockMul S h).map fun v => ε • v := by
  cases S with
  | none => rfl
  | some S =>
    cases h with
    | none => rfl
    | some h => simp [blockMul, mulVec_smul]

variable (opt : BsblOptions) (s : BsblState m nb b)

/-- The state that corresponds to `s` when the measurements are turned by `U` and multiplied by the sign `ε`. -/
def BsblState.iso (U : Matrix (Fin m) (Fin m) ℝ) (ε : ℝ) (s : BsblState m nb b) : BsblState m nb b :=
  { s with mu := fun i => (s.mu i).map fun v => ε • v, r := s.r.map fun r => ε • (U *ᵥ r) }

theorem stepMu_iso : stepMu (U * Phi) (ε • (U *ᵥ y)) opt (s.iso U ε) = fun i => (stepMu Phi y opt s i).map fun v => ε • v := by
  funext i
  unfold stepMu computeMuXPruned
  rw [stepH_iso hU Phi opt s (s.iso U ε) rfl rfl rfl, computeHy_iso hU]
  show (if activeBlocks opt.pruneGamma s.gammas i then _ else _) = _
  split_ifs
  · have := blockMul_smul (s.sigma0 i) ((computeHy (stepH Phi opt s) y).map fun h => h i) ε
    rw [← this, Option.map_map, Option.map_map]
    rfl
  · simp

theorem stepSigma_iso : stepSigma (U * Phi) opt (s.iso U ε) = stepSigma Phi opt s := by
  unfold stepSigma computeSigmaXPruned
  rw [stepH_iso hU Phi opt s (s.iso U ε) rfl rfl rfl, computeHPhi_iso hU]
  rfl

include hε

omit hU in
theorem covBlocks_sign (Sx : Fin nb → Option (Matrix (Fin b) (Fin b) ℝ)) (mu : Fin nb → Option (Fin b → ℝ)) :
    covBlocks Sx (fun i => (mu i).map fun v => ε • v) = covBlocks Sx mu := by
  funext i
  simp only [covBlocks, Option.map_map]
  congr 1
  funext sx
  congr 1
  funext mx
  show sx + Matrix.of (fun _ _ => (ε • mx) ⬝ᵥ (ε • mx)) = _
  rw [smul_dotProduct, dotProduct_smul, smul_smul, hε, one_smul]
  rfl

theorem stepCov_iso : stepCov (U * Phi) (ε • (U *ᵥ y)) opt (s.iso U ε) = stepCov Phi y opt s := by
  unfold stepCov
  rw [stepMu_iso hU, stepSigma_iso hU, covBlocks_sign hε]

theorem stepB_iso : stepB (U * Phi) (ε • (U *ᵥ y)) opt (s.iso U ε) = stepB Phi y opt s := by
  unfold stepB
  rw [stepCov_iso hU Phi y hε]
  rfl

omit hU hε in
theorem gather_map {α β : Type*} (g : α → β) (f : Fin nb → Option α) : gather (fun i => (f i).map g) = (gather f).map fun u i => g (u i) := by
  by_cases h : ∀ i, (f i).isSome
  · choose q hq using fun i => Option.isSome_iff_exists.1 (h i)
    rw [gather_some hq, gather_some (g := fun i => g (q i)) fun i => by rw [hq]; rfl, Option.map_some]
  · push Not at h
    obtain ⟨i, hi⟩ := h
    have hi : f i = none := by simpa using hi
    rw [gather_none hi, gather_none (i := i) (by rw [hi]; rfl)]
    rfl

omit hU hε in
theorem stepRes_iso (hU : Uᵀ * U = 1) : stepRes (U * Phi) (ε • (U *ᵥ y)) opt (s.iso U ε) = (stepRes Phi y opt s).map fun r => ε • (U *ᵥ r) := by
  unfold stepRes xHat
  rw [stepMu_iso hU, gather_map, Option.map_map, Option.map_map, Option.map_map, Option.map_map]
  congr 1
  funext u
  show ε • (U *ᵥ y) - (U * Phi) *ᵥ flatten2 (fun i => ε • u i) = ε • (U *ᵥ (y - Phi *ᵥ flatten2 u))
  have : flatten2 (fun i => ε • u i) = ε • flatten2 u := rfl
  rw [this, mulVec_smul, mulVec_sub, mulVec_mulVec, smul_sub]

theorem dot_iso (r : Fin m → ℝ) : (ε • (U *ᵥ r)) ⬝ᵥ (ε • (U *ᵥ r)) = r ⬝ᵥ r := by
  have h : (U *ᵥ r) ⬝ᵥ (U *ᵥ r) = r ⬝ᵥ r := by
    rw [← trans_dot, mulVec_mulVec, hU, one_mulVec]
  rw [smul_dotProduct, dotProduct_smul, smul_smul, hε, one_smul, h]

omit hU in
theorem muDiff_sign (u v : Fin nb → Option (Fin b → ℝ)) : muDiff (fun i => (u i).map fun w => ε • w) (fun i => (v i).map fun w => ε • w) = muDiff u v := by
  unfold muDiff
  rw [gather_map, gather_map, Option.bind_map]
  congr 1
  funext a
  simp only [Function.comp_def, Option.map_map]
  congr 1
  funext c
  have : ((fun i => ε • a i) - fun i => ε • c i) = ε • (a - c) := by
    funext i
    exact (smul_sub ε (a i) (c i)).symm
  have hn : ‖ε‖ = 1 := by
    have : ‖ε‖ * ‖ε‖ = 1 := by rw [← norm_mul, hε, norm_one]
    nlinarith [norm_nonneg ε]
  rw [this, norm_smul, hn, one_mul]

theorem lambdaRule_iso (gammas : Fin nb → Option ℝ) (lam : Option ℝ) (Sx : Fin nb → Option (Matrix (Fin b) (Fin b) ℝ)) (Bi : Option (Matrix (Fin b) (Fin b) ℝ)) (q : Option ℝ) (learn : ℤ) :
    lambdaRule learn lam (getSubdicts (U * Phi)) gammas Sx Bi q = lambdaRule learn lam (getSubdicts Phi) gammas Sx Bi q := by
  unfold lambdaRule
  congr 1
  congr 1
  unfold lambdaLow
  congr 2
  funext i
  congr 1
  funext sx
  rw [getSubdicts_left, transpose_mul]
  have : U * getSubdicts Phi i * sx * ((getSubdicts Phi i)ᵀ * Uᵀ) = U * (getSubdicts Phi i * sx * (getSubdicts Phi i)ᵀ) * Uᵀ := by simp only [Matrix.mul_assoc]
  rw [this, trace_mul_comm, ← Matrix.mul_assoc, hU, Matrix.one_mul]

theorem bsblBody_iso (gammas : Fin nb → Option ℝ) :
    bsblBody (U * Phi) (ε • (U *ᵥ y)) opt (s.iso U ε) gammas = (bsblBody Phi y opt s gammas).iso U ε := by
  have hq : (stepRes (U * Phi) (ε • (U *ᵥ y)) opt (s.iso U ε)).map (fun r => r ⬝ᵥ r) = (stepRes Phi y opt s).map fun r => r ⬝ᵥ r := by
    rw [stepRes_iso Phi y opt s hU, Option.map_map]
    congr 1
    funext r
    exact dot_iso hU hε r
  simp only [bsblBody, hq]
  simp only [stepB_iso hU Phi y hε, stepRes_iso Phi y opt s hU, stepMu_iso hU, stepSigma_iso hU, lambdaRule_iso hU Phi hε]
  simp only [BsblState.iso, muDiff_sign hε]

theorem bsblEmBody_iso : bsblEmBody (U * Phi) (ε • (U *ᵥ y)) opt (s.iso U ε) = (bsblEmBody Phi y opt s).iso U ε := by
  unfold bsblEmBody
  rw [bsblBody_iso hU Phi y hε, stepCov_iso hU Phi y hε, stepB_iso hU Phi y hε]
  rfl

omit hU in
theorem boMapper_sign (root B : Matrix (Fin b) (Fin b) ℝ) (g : ℝ) (hy : Fin b → ℝ) (P : Matrix (Fin b) (Fin b) ℝ) : boMapper root B g (ε • hy) P = boMapper root B g hy P := by
  unfold boMapper
  rw [mulVec_smul, smul_dotProduct, dotProduct_smul, smul_smul, hε, one_smul]

theorem bsblBoBody_iso (svd : Svd b) : bsblBoBody (U * Phi) (ε • (U *ᵥ y)) opt (s.iso U ε) svd = (bsblBoBody Phi y opt s svd).iso U ε := by
  unfold bsblBoBody
  rw [bsblBody_iso hU Phi y hε, stepB_iso hU Phi y hε, stepH_iso hU Phi opt s (s.iso U ε) rfl rfl rfl, computeHy_iso hU, computeHPhi_iso hU]
  congr 2
  funext i
  unfold gammasBo
  show (if activeBlocks opt.pruneGamma s.gammas i then _ else _) = _
  congr 1
  show (s.gammas i).bind _ = _
  congr 1
  funext g
  congr 1
  funext B
  rw [Option.bind_map]
  congr 1
  funext h
  show (computeHPhi Phi (stepH Phi opt s)).bind (fun P => boMapper (sqrtmSvd svd B) B g (ε • h i) (P i)) = _
  congr 1
  funext P
  exact boMapper_sign hε _ _ _ _ _

theorem bsblInit_iso : (bsblInit (ε • (U *ᵥ y)) opt : BsblState m nb b) = (bsblInit y opt).iso U ε := by
  simp only [bsblInit, BsblState.iso, dot_iso hU hε, Option.map_some, smul_zero]

end iso

/-- **C160** orthonormal coordinates in the space of the measurements do not matter, nor does the sign of the measurements: for an orthogonal matrix `U` and a sign `ε`, `bsbl_em` on the dictionary `U Phi` and the data `ε U y` returns the solution multiplied by `ε`, the residual turned by `U` and multiplied by `ε`, and otherwise the same block scalars, noise variance and iteration count; `bsbl_bo` likewise. -/
theorem c160_coordinates (U : Matrix (Fin m) (Fin m) ℝ) (hU : Uᵀ * U = 1) (ε : ℝ) (hε : ε = 1 ∨ ε = -1) (Phi : Matrix (Fin m) (Fin (nb * b)) ℝ) (y : Fin m → ℝ) (opt : BsblOptions) :
    (∀ s, BsblEm Phi y opt s → ∀ t, BsblEm (U * Phi) (ε • (U *ᵥ y)) opt t ↔ t = { s with mu := fun i => (s.mu i).map fun v => ε • v, r := s.r.map fun r => ε • (U *ᵥ r) }) ∧
    ∀ svd s, BsblBo svd Phi y opt s → ∀ t, BsblBo svd (U * Phi) (ε • (U *ᵥ y)) opt t ↔ t = { s with mu := fun i => (s.mu i).map fun v => ε • v, r := s.r.map fun r => ε • (U *ᵥ r) } := by
  have hε' : ε * ε = 1 := by rcases hε with rfl | rfl <;> norm_num
  constructor
  · intro s hs t
    unfold BsblEm
    rw [bsblInit_iso hU y hε']
    exact Out.map (c := bsblCond opt) (f := bsblEmBody Phi y opt) (BsblState.iso U ε) (fun s _ => Iff.rfl) (fun s _ _ => bsblEmBody_iso hU Phi y hε' opt s) hs t
  · intro svd s hs t
    unfold BsblBo
    rw [bsblInit_iso hU y hε']
    exact Out.map (c := bsblCond opt) (f := fun s => bsblBoBody Phi y opt s svd) (BsblState.iso U ε) (fun s _ => Iff.rfl) (fun s _ _ => bsblBoBody_iso hU Phi y hε' opt s svd) hs t

/-! ## Order of the blocks -/

/-- The permutation of the columns that permutes the blocks by `π`: column `j` of block `i` becomes column `j` of block `π i`. -/
def colPerm (π : Equiv.Perm (Fin nb)) : Equiv.Perm (Fin (nb * b)) := finProdFinEquiv.symm.trans ((Equiv.prodCongr π (Equiv.refl (Fin b))).trans finProdFinEquiv)

theorem colPerm_apply (π : Equiv.Perm (Fin nb)) (i : Fin nb) (j : Fin b) : colPerm (b := b) π (finProdFinEquiv (i, j)) = finProdFinEquiv (π i, j) := by
  simp [colPerm]

theorem osum_perm {M : Type*} [AddCommMonoid M] (π : Equiv.Perm (Fin nb)) (f : Fin nb → Option M) : osum (fun i => f (π i)) = osum f := by
  by_cases h : ∀ i, (f i).isSome
  · choose q hq using fun i => Option.isSome_iff_exists.1 (h i)
    rw [osum_some hq, osum_some (g := fun i => q (π i)) fun i => hq _, Equiv.sum_comp π q]
  · push Not at h
    obtain ⟨i, hi⟩ := h
    have hi : f i = none := by simpa using hi
    rw [osum_none hi, osum_none (i := π.symm i) (by rw [Equiv.apply_symm_apply, hi])]

theorem gather_perm {α : Type*} (π : Equiv.Perm (Fin nb)) (f : Fin nb → Option α) : gather (fun i => f (π i)) = (gather f).map fun u i => u (π i) := by
  by_cases h : ∀ i, (f i).isSome
  · choose q hq using fun i => Option.isSome_iff_exists.1 (h i)
    rw [gather_some hq, gather_some (g := fun i => q (π i)) fun i => hq _, Option.map_some]
  · push Not at h
    obtain ⟨i, hi⟩ := h
    have hi : f i = none := by simpa using hi
    rw [gather_none hi, gather_none (i := π.symm i) (by rw [Equiv.apply_symm_apply, hi])]
    rfl

section perm
variable (π : Equiv.Perm (Fin nb)) (Phi : Matrix (Fin m) (Fin (nb * b)) ℝ) (y : Fin m → ℝ) (opt : BsblOptions) (s : BsblState m nb b)

/-- The dictionary with its blocks in the order `π`. -/
def permDict : Matrix (Fin m) (Fin (nb * b)) ℝ := Phi.submatrix id (colPerm π)

/-- The state with its blocks in the order `π`. -/
def BsblState.perm : BsblState m nb b := { s with mu := fun i => s.mu (π i), gammas := fun i => s.gammas (π i), sigma0 := fun i => s.sigma0 (π i) }

theorem getSubdicts_perm : getSubdicts (permDict π Phi) = fun i => getSubdicts Phi (π i) := by
  funext i
  ext r c
  rw [getSubdicts_apply, getSubdicts_apply]
  show Phi r (colPerm π (finProdFinEquiv (i, c))) = _
  rw [colPerm_apply]

theorem active_perm : activeBlocks opt.pruneGamma (s.perm π).gammas = fun i => activeBlocks opt.pruneGamma s.gammas (π i) := rfl

theorem computeH_perm (P : Matrix (Fin m) (Fin m) ℝ) (l : ℝ) : computeH (permDict π Phi) P l = (computeH Phi P l).map fun H => H.submatrix (colPerm π) id := by
  unfold computeH
  rw [Option.map_map]
  rfl

theorem stepH_perm : stepH (permDict π Phi) opt (s.perm π) = (stepH Phi opt s).map fun H => H.submatrix (colPerm π) id := by
  unfold stepH
  rw [getSubdicts_perm, active_perm]
  have : cumPhiBPhiPruned (fun i => getSubdicts Phi (π i)) (s.perm π).sigma0 (fun i => activeBlocks opt.pruneGamma s.gammas (π i)) =
      cumPhiBPhiPruned (getSubdicts Phi) s.sigma0 (activeBlocks opt.pruneGamma s.gammas) :=
    osum_perm π fun i => if activeBlocks opt.pruneGamma s.gammas i then (s.sigma0 i).map fun S => getSubdicts Phi i * S * (getSubdicts Phi i)ᵀ else some 0
  rw [this]
  cases cumPhiBPhiPruned (getSubdicts Phi) s.sigma0 (activeBlocks opt.pruneGamma s.gammas) with
  | none => rfl
  | some P =>
    show s.lam.bind _ = _
    cases s.lam with
    | none => rfl
    | some l => exact computeH_perm π Phi P l

theorem computeHy_perm (H : Option (Matrix (Fin (nb * b)) (Fin m) ℝ)) : computeHy (H.map fun H => H.submatrix (colPerm π) id) y = (computeHy H y).map fun h i => h (π i) := by
  unfold computeHy
  rw [Option.map_map, Option.map_map]
  congr 1
  funext H i j
  show (H *ᵥ y) (colPerm π (finProdFinEquiv (i, j))) = (H *ᵥ y) (finProdFinEquiv (π i, j))
  rw [colPerm_apply]

theorem computeHPhi_perm (H : Option (Matrix (Fin (nb * b)) (Fin m) ℝ)) :
    computeHPhi (permDict π Phi) (H.map fun H => H.submatrix (colPerm π) id) = (computeHPhi Phi H).map fun h i => h (π i) := by
  unfold computeHPhi
  rw [Option.map_map, Option.map_map]
  congr 1
  funext H i
  ext j k
  show (H * Phi) (colPerm π (finProdFinEquiv (i, j))) (colPerm π (finProdFinEquiv (i, k))) = (H * Phi) (finProdFinEquiv (π i, j)) (finProdFinEquiv (π i, k))
  rw [colPerm_apply, colPerm_apply]

theorem stepMu_perm : stepMu (permDict π Phi) y opt (s.perm π) = fun i => stepMu Phi y opt s (π i) := by
  funext i
  unfold stepMu computeMuXPruned
  rw [stepH_perm, computeHy_perm]
  simp only [Option.map_map]
  rfl

theorem stepSigma_perm : stepSigma (permDict π Phi) opt (s.perm π) = fun i => stepSigma Phi opt s (π i) := by
  funext i
  unfold stepSigma computeSigmaXPruned
  rw [stepH_perm, computeHPhi_perm]
  simp only [Option.map_map]
  rfl

theorem stepCov_perm : stepCov (permDict π Phi) y opt (s.perm π) = fun i => stepCov Phi y opt s (π i) := by
  unfold stepCov
  rw [stepMu_perm, stepSigma_perm]
  rfl

theorem stepB_perm : stepB (permDict π Phi) y opt (s.perm π) = stepB Phi y opt s := by
  unfold stepB
  rw [stepCov_perm]
  congr 1
  exact osum_perm π fun i => if activeBlocks opt.pruneGamma s.gammas i then (stepCov Phi y opt s i).bind fun cx => (s.gammas i).bind fun g => mdiv cx g else stepCov Phi y opt s i

theorem stepRes_perm : stepRes (permDict π Phi) y opt (s.perm π) = stepRes Phi y opt s := by
  unfold stepRes xHat
  rw [stepMu_perm, gather_perm, Option.map_map, Option.map_map, Option.map_map]
  congr 1
  funext u
  show y - permDict π Phi *ᵥ flatten2 (fun i => u (π i)) = y - Phi *ᵥ flatten2 u
  rw [mulVec_blocks, mulVec_blocks, reshape2_flatten2, reshape2_flatten2, getSubdicts_perm]
  congr 1
  exact Equiv.sum_comp π fun i => getSubdicts Phi i *ᵥ u i

theorem muDiff_perm (u v : Fin nb → Option (Fin b → ℝ)) : muDiff (fun i => u (π i)) (fun i => v (π i)) = muDiff u v := by
  unfold muDiff
  rw [gather_perm, gather_perm, Option.bind_map]
  congr 1
  funext a
  simp only [Function.comp_def, Option.map_map]
  congr 1
  funext c
  refine le_antisymm ((pi_norm_le_iff_of_nonneg (norm_nonneg _)).2 fun i => norm_le_pi_norm (a - c) (π i)) ((pi_norm_le_iff_of_nonneg (norm_nonneg _)).2 fun i => ?_)
  have := norm_le_pi_norm ((fun i => a (π i)) - fun i => c (π i)) (π.symm i)
  simpa using this

theorem lambdaRule_perm (gammas : Fin nb → Option ℝ) (lam : Option ℝ) (Sx : Fin nb → Option (Matrix (Fin b) (Fin b) ℝ)) (Bi : Option (Matrix (Fin b) (Fin b) ℝ)) (q : Option ℝ) (learn : ℤ) :
    lambdaRule learn lam (fun i => getSubdicts Phi (π i)) (fun i => gammas (π i)) (fun i => Sx (π i)) Bi q = lambdaRule learn lam (getSubdicts Phi) gammas Sx Bi q := by
  unfold lambdaRule
  congr 1
  congr 1
  · unfold lambdaLow
    rw [osum_perm π fun i => (Sx i).map fun sx => (getSubdicts Phi i * sx * (getSubdicts Phi i)ᵀ).trace]
  · unfold lambdaHigh
    rw [osum_perm π fun i => (Sx i).bind fun sx => Bi.bind fun Bi => (gammas i).bind fun g => odiv (sx * Bi).trace g]

theorem bsblBody_perm (gammas : Fin nb → Option ℝ) :
    bsblBody (permDict π Phi) y opt (s.perm π) (fun i => gammas (π i)) = (bsblBody Phi y opt s gammas).perm π := by
  simp only [bsblBody, stepB_perm, stepRes_perm, stepMu_perm, stepSigma_perm, getSubdicts_perm]
  simp only [BsblState.perm, muDiff_perm, lambdaRule_perm]
  rfl

theorem bsblEmBody_perm : bsblEmBody (permDict π Phi) y opt (s.perm π) = (bsblEmBody Phi y opt s).perm π := by
  unfold bsblEmBody
  rw [← bsblBody_perm, stepCov_perm, stepB_perm]
  rfl

theorem bsblBoBody_perm (svd : Svd b) : bsblBoBody (permDict π Phi) y opt (s.perm π) svd = (bsblBoBody Phi y opt s svd).perm π := by
  unfold bsblBoBody
  rw [← bsblBody_perm, stepB_perm, stepH_perm, computeHy_perm, computeHPhi_perm]
  congr 1
  funext i
  unfold gammasBo
  simp only [Option.bind_map]
  rfl

end perm

/-- **C160** the order of the blocks does not matter: with the blocks of the dictionary listed in the order `π`, `bsbl_em` and `bsbl_bo` return the same blocks of the solution, block scalars and prior covariances in the order `π`, and everything else unchanged. -/
theorem c160_block_order (π : Equiv.Perm (Fin nb)) (Phi Phi' : Matrix (Fin m) (Fin (nb * b)) ℝ) (hPhi : ∀ r i j, Phi' r (finProdFinEquiv (i, j)) = Phi r (finProdFinEquiv (π i, j))) (y : Fin m → ℝ) (opt : BsblOptions) :
    (∀ s, BsblEm Phi y opt s → ∀ t, BsblEm Phi' y opt t ↔ t = { s with mu := fun i => s.mu (π i), gammas := fun i => s.gammas (π i), sigma0 := fun i => s.sigma0 (π i) }) ∧
    ∀ svd s, BsblBo svd Phi y opt s → ∀ t, BsblBo svd Phi' y opt t ↔ t = { s with mu := fun i => s.mu (π i), gammas := fun i => s.gammas (π i), sigma0 := fun i => s.sigma0 (π i) } := by
  have e : Phi' = permDict π Phi := by
    ext r k
    obtain ⟨⟨i, j⟩, rfl⟩ := finProdFinEquiv.surjective k
    rw [hPhi]
    show _ = Phi r (colPerm π (finProdFinEquiv (i, j)))
    rw [colPerm_apply]
  subst e
  constructor
  · intro s hs t
    exact Out.map (c := bsblCond opt) (f := bsblEmBody Phi y opt) (BsblState.perm π) (fun s _ => Iff.rfl) (fun s _ _ => bsblEmBody_perm π Phi y opt s) hs t
  · intro svd s hs t
    exact Out.map (c := bsblCond opt) (f := fun s => bsblBoBody Phi y opt s svd) (BsblState.perm π) (fun s _ => Iff.rfl) (fun s _ _ => bsblBoBody_perm π Phi y opt s svd) hs t

/-! ## Units -/

theorem init_prior (y : Fin m → ℝ) (opt : BsblOptions) (hl : 0 < opt.lambdaVal) (hp : opt.pruneGamma < 1) : Prior opt (bsblInit y opt : BsblState m nb b) (fun _ => 1) opt.lambdaVal where
  lam := rfl
  pos := hl
  active i _ := ⟨rfl, Matrix.PosDef.one⟩
  inactive i h := by
    have : activeBlocks opt.pruneGamma (bsblInit y opt : BsblState m nb b).gammas i = true := active_true.2 ⟨1, rfl, hp⟩
    rw [this] at h
    cases h

theorem postMean_smul (D : Fin nb → Matrix (Fin m) (Fin b) ℝ) (S : Fin nb → Matrix (Fin b) (Fin b) ℝ) (l c : ℝ) (y : Fin m → ℝ) : postMean D S l (c • y) = c • postMean D S l y := by
  funext i
  show S i *ᵥ ((D i)ᵀ *ᵥ ((regGram D S l)⁻¹ *ᵥ (c • y))) = c • (S i *ᵥ ((D i)ᵀ *ᵥ ((regGram D S l)⁻¹ *ᵥ y)))
  rw [mulVec_smul, mulVec_smul, mulVec_smul]

theorem muDiff_init {y : Fin m → ℝ} {opt : BsblOptions} {u : Fin nb → Fin b → ℝ} {mu : Fin nb → Option (Fin b → ℝ)} (h : ∀ i, mu i = some (u i)) :
    muDiff mu (bsblInit y opt : BsblState m nb b).mu = some ‖u‖ := by
  unfold muDiff
  rw [gather_some h, gather_some (f := (bsblInit y opt : BsblState m nb b).mu) (g := fun _ => (0 : Fin b → ℝ)) fun i => rfl, Option.bind_some, Option.map_some]
  congr 1
  exact congrArg _ (sub_zero u)

/-- The ridge regression solution `Phiᵀ (Phi Phiᵀ + lam I)⁻¹ y`. -/
def ridge (Phi : Matrix (Fin m) (Fin (nb * b)) ℝ) (lam : ℝ) (y : Fin m → ℝ) : Fin (nb * b) → ℝ := Phiᵀ *ᵥ ((Phi * Phiᵀ + lam • (1 : Matrix (Fin m) (Fin m) ℝ))⁻¹ *ᵥ y)

theorem ridge_eq (Phi : Matrix (Fin m) (Fin (nb * b)) ℝ) (lam : ℝ) (y : Fin m → ℝ) : flatten2 (postMean (getSubdicts Phi) (fun _ => 1) lam y) = ridge Phi lam y := by
  have e : regGram (getSubdicts Phi) (fun _ => 1) lam = Phi * Phiᵀ + lam • (1 : Matrix (Fin m) (Fin m) ℝ) := by
    unfold regGram
    rw [← gram_eq]
    congr 2
    have : bdiag (fun _ : Fin nb => (1 : Matrix (Fin b) (Fin b) ℝ)) = 1 := by
      ext k l
      obtain ⟨⟨i, j⟩, rfl⟩ := finProdFinEquiv.surjective k
      obtain ⟨⟨i', j'⟩, rfl⟩ := finProdFinEquiv.surjective l
      rw [bdiag_apply, Matrix.one_apply, Matrix.one_apply]
      by_cases h1 : i = i' <;> by_cases h2 : j = j' <;> simp [h1, h2]
    rw [this, Matrix.mul_one]
  funext k
  obtain ⟨⟨i, j⟩, rfl⟩ := finProdFinEquiv.surjective k
  rw [flatten2_apply, postMean, e, one_mulVec]
  show ∑ r, getSubdicts Phi i r j * _ = ∑ r, Phi r (finProdFinEquiv (i, j)) * _
  exact Finset.sum_congr rfl fun r _ => by rw [getSubdicts_apply]

theorem small_run {opt : BsblOptions} (hl : 0 < opt.lambdaVal) (hp : opt.pruneGamma < 1) (he : opt.epsilon < 1) (hm : 1 ≤ opt.maxIters) (Phi : Matrix (Fin m) (Fin (nb * b)) ℝ) (y : Fin m → ℝ)
    (hy : ‖postMean (getSubdicts Phi) (fun _ => 1) opt.lambdaVal y‖ ≤ opt.epsilon) (G : BsblState m nb b → Fin nb → Option ℝ) (s : BsblState m nb b)
    (h : Out (bsblCond opt) (fun s => bsblBody Phi y opt s (G s)) (bsblInit y opt) s) : s.iterations = 1 ∧ xHat s.mu = some (ridge Phi opt.lambdaVal y) := by
  have hP := init_prior (nb := nb) (b := b) y opt hl hp
  set s0 : BsblState m nb b := bsblInit y opt with hs0
  have hx := xHat_eq (Phi := Phi) (y := y) hP
  rw [ridge_eq] at hx
  have hd : (bsblBody Phi y opt s0 (G s0)).dmu = some ‖postMean (getSubdicts Phi) (fun _ => 1) opt.lambdaVal y‖ := muDiff_init (stepMu_eq hP)
  have hor : s = s0 ∨ s = bsblBody Phi y opt s0 (G s0) := by
    refine h.1.inv' (fun s => s = s0 ∨ s = bsblBody Phi y opt s0 (G s0)) (Or.inl rfl) ?_
    rintro s _ (rfl | rfl) hc
    · exact Or.inr rfl
    · exfalso
      obtain ⟨d, h1, h2⟩ := hc.1
      rw [hd, Option.some_inj] at h1
      linarith
  rcases hor with rfl | rfl
  · exact absurd ⟨⟨1, rfl, he⟩, hm⟩ h.2
  · exact ⟨rfl, hx⟩

/-- **C160** the block scalars start at 1 and the stop test is absolute, so units matter: whatever the dictionary and the data, in large enough units (small enough numbers) both solvers stop after their first iteration and return the ridge regression solution, which is not sparse. -/
theorem c160_units_fails (opt : BsblOptions) (hl : 0 < opt.lambdaVal) (hp : opt.pruneGamma < 1) (he0 : 0 < opt.epsilon) (he : opt.epsilon < 1) (hm : 1 ≤ opt.maxIters)
    (Phi : Matrix (Fin m) (Fin (nb * b)) ℝ) (y : Fin m → ℝ) :
    ∃ c0 : ℝ, 0 < c0 ∧ ∀ c, 0 < c → c ≤ c0 →
      (∀ s, BsblEm Phi (c • y) opt s → s.iterations = 1 ∧ xHat s.mu = some (ridge Phi opt.lambdaVal (c • y))) ∧
      ∀ svd s, BsblBo svd Phi (c • y) opt s → s.iterations = 1 ∧ xHat s.mu = some (ridge Phi opt.lambdaVal (c • y)) := by
  set N := ‖postMean (getSubdicts Phi) (fun _ => 1) opt.lambdaVal y‖ with hN
  have hN0 : 0 ≤ N := norm_nonneg _
  refine ⟨opt.epsilon / (N + 1), by positivity, fun c hc hle => ?_⟩
  have hy : ‖postMean (getSubdicts Phi) (fun _ => 1) opt.lambdaVal (c • y)‖ ≤ opt.epsilon := by
    rw [postMean_smul, norm_smul, Real.norm_of_nonneg hc.le, ← hN]
    rw [le_div_iff₀ (by positivity)] at hle
    nlinarith
  exact ⟨fun s hs => small_run hl hp he hm Phi (c • y) hy _ s hs, fun svd s hs => small_run hl hp he hm Phi (c • y) hy _ s hs⟩

theorem large_run {opt : BsblOptions} (hl : 0 < opt.lambdaVal) (hp : opt.pruneGamma < 1) (he : opt.epsilon < 1) (hm : 2 ≤ opt.maxIters) (Phi : Matrix (Fin m) (Fin (nb * b)) ℝ) (y : Fin m → ℝ)
    (hy : opt.epsilon < ‖postMean (getSubdicts Phi) (fun _ => 1) opt.lambdaVal y‖) (G : BsblState m nb b → Fin nb → Option ℝ) (s : BsblState m nb b)
    (h : Out (bsblCond opt) (fun s => bsblBody Phi y opt s (G s)) (bsblInit y opt) s) : 2 ≤ s.iterations := by
  have hP := init_prior (nb := nb) (b := b) y opt hl hp
  set s0 : BsblState m nb b := bsblInit y opt with hs0
  have hd : (bsblBody Phi y opt s0 (G s0)).dmu = some ‖postMean (getSubdicts Phi) (fun _ => 1) opt.lambdaVal y‖ := muDiff_init (stepMu_eq hP)
  have hor : s = s0 ∨ s = bsblBody Phi y opt s0 (G s0) ∨ 2 ≤ s.iterations := by
    refine h.1.inv' (fun s => s = s0 ∨ s = bsblBody Phi y opt s0 (G s0) ∨ 2 ≤ s.iterations) (Or.inl rfl) ?_
    rintro s _ (rfl | rfl | h2) hc
    · exact Or.inr (Or.inl rfl)
    · exact Or.inr (Or.inr le_rfl)
    · exact Or.inr (Or.inr (h2.trans (Nat.le_succ _)))
  rcases hor with rfl | rfl | h2
  · exact absurd ⟨⟨1, rfl, he⟩, by show 0 < _; omega⟩ h.2
  · exact absurd ⟨⟨_, hd, hy⟩, by show 1 < _; omega⟩ h.2
  · exact h2

/-- **C160** unless the ridge solution vanishes, in small enough units (large enough numbers) both solvers run at least two iterations, so `c160_units_fails` is about the units and not about the problem. -/
theorem c160_units_large (opt : BsblOptions) (hl : 0 < opt.lambdaVal) (hp : opt.pruneGamma < 1) (he : opt.epsilon < 1) (hm : 2 ≤ opt.maxIters)
    (Phi : Matrix (Fin m) (Fin (nb * b)) ℝ) (y : Fin m → ℝ) (hy : ridge Phi opt.lambdaVal y ≠ 0) :
    ∃ c0 : ℝ, 0 < c0 ∧ ∀ c, c0 ≤ c →
      (∀ s, BsblEm Phi (c • y) opt s → 2 ≤ s.iterations) ∧ ∀ svd s, BsblBo svd Phi (c • y) opt s → 2 ≤ s.iterations := by
  set N := ‖postMean (getSubdicts Phi) (fun _ => 1) opt.lambdaVal y‖ with hN
  have hN0 : 0 < N := by
    refine norm_pos_iff.2 fun h => hy ?_
    rw [← ridge_eq, h]
    rfl
  refine ⟨1 / N, by positivity, fun c hle => ?_⟩
  have hc : 0 < c := lt_of_lt_of_le (by positivity) hle
  have hy : opt.epsilon < ‖postMean (getSubdicts Phi) (fun _ => 1) opt.lambdaVal (c • y)‖ := by
    rw [postMean_smul, norm_smul, Real.norm_of_nonneg hc.le, ← hN]
    rw [div_le_iff₀ hN0] at hle
    linarith
  exact ⟨fun s hs => large_run hl hp he hm Phi (c • y) hy _ s hs, fun svd s hs => large_run hl hp he hm Phi (c • y) hy _ s hs⟩

/-! ### Instances -/

example := c160_coordinates (Matrix.diagonal ![1, -1, 1]) (by
  rw [Matrix.diagonal_transpose, Matrix.diagonal_mul_diagonal, ← Matrix.diagonal_one]
  congr 1
  funext i
  fin_cases i <;> simp) (-1) (Or.inr rfl) exPhi ![1, 2, 4] exOpt

example := c160_block_order (Equiv.swap 0 1) exPhi (permDict (Equiv.swap 0 1) exPhi) (fun r i j => by
  show exPhi r (colPerm _ (finProdFinEquiv (i, j))) = _
  rw [colPerm_apply]) ![1, 2, 4] exOpt

example := c160_units_fails exOpt exOpt_lam (by norm_num [exOpt]) (by norm_num [exOpt]) (by norm_num [exOpt]) (by norm_num [exOpt]) exPhi ![1, 2, 4]

/-- A dictionary with the single atom 1. -/
def onePhi : Matrix (Fin 1) (Fin (1 * 1)) ℝ := 1

theorem ridge_one : ridge onePhi 1 ![2] ≠ 0 := by
  intro h
  have e : onePhi * onePhiᵀ + (1 : ℝ) • (1 : Matrix (Fin 1) (Fin 1) ℝ) = (2 : ℝ) • 1 := by
    show (1 : Matrix (Fin 1) (Fin 1) ℝ) * 1ᵀ + (1 : ℝ) • (1 : Matrix (Fin 1) (Fin 1) ℝ) = (2 : ℝ) • 1
    simp only [Matrix.transpose_one, mul_one, one_smul, two_smul]
  have h0 := congrFun h 0
  unfold ridge at h0
  rw [e] at h0
  have : ((2 : ℝ) • (1 : Matrix (Fin 1) (Fin 1) ℝ))⁻¹ = (1 / 2 : ℝ) • 1 := Matrix.inv_eq_right_inv (by simp [smul_smul])
  rw [this] at h0
  have e2 : onePhiᵀ = (1 : Matrix (Fin 1) (Fin 1) ℝ) := Matrix.transpose_one
  rw [e2] at h0
  simp [Matrix.smul_mulVec] at h0

example := c160_units_large ⟨1, 0, 1 / 1000, 1, 300, 1 / 1000⟩ (by norm_num) (by norm_num) (by norm_num) (by norm_num) onePhi ![2] ridge_one

end Verif.Block
