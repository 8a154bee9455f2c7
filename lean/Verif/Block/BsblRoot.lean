import Verif.Block.BsblProps
import Mathlib.Tactic.FinCases

set_option autoImplicit false
/-!
# Matrix square root and the bound optimisation update (C88, C89)
-/
noncomputable section
namespace Verif.Block
open Verif.Loop Matrix

variable {m nb b : ℕ}

/-- Specification: `(u, s, vh)` is a singular value decomposition of `B`. -/
structure IsSvd (B : Matrix (Fin b) (Fin b) ℝ) (d : Matrix (Fin b) (Fin b) ℝ × (Fin b → ℝ) × Matrix (Fin b) (Fin b) ℝ) : Prop where
  left : d.1ᵀ * d.1 = 1
  right : d.2.2 * d.2.2ᵀ = 1
  nonneg : ∀ i, 0 ≤ d.2.1 i
  eq : B = d.1 * Matrix.diagonal d.2.1 * d.2.2

open scoped MatrixOrder in
theorem sqrt_unique {P Q : Matrix (Fin b) (Fin b) ℝ} (hP : P.PosSemidef) (hQ : Q.PosSemidef) (h : P * P = Q * Q) : P = Q := by
  have h1 : CFC.sqrt (P * P) = P := CFC.sqrt_unique rfl hP.nonneg
  have h2 : CFC.sqrt (Q * Q) = Q := CFC.sqrt_unique rfl hQ.nonneg
  rw [← h1, h, h2]

theorem diag_conj_psd {s : Fin b → ℝ} (hs : ∀ i, 0 ≤ s i) (V : Matrix (Fin b) (Fin b) ℝ) : (Vᵀ * Matrix.diagonal s * V).PosSemidef := by
  have h := (Matrix.PosSemidef.diagonal (d := s) hs).conjTranspose_mul_mul_same V
  rwa [conjTranspose_eq_transpose_of_trivial] at h

/-- **C89.** For a positive semidefinite matrix and any singular value decomposition, `sqrtm_svd` returns the positive semidefinite square root. Positive semidefiniteness
is needed: `c89_sqrt_fails`. -/
theorem c89_sqrt_partial (svd : Svd b) (B : Matrix (Fin b) (Fin b) ℝ) (hB : B.PosSemidef) (h : IsSvd B (svd B)) :
    (sqrtmSvd svd B).PosSemidef ∧ sqrtmSvd svd B * sqrtmSvd svd B = B := by
  obtain ⟨hu, hv, hs, he⟩ := h
  unfold sqrtmSvd
  generalize svd B = d at *
  obtain ⟨u, s, vh⟩ := d
  dsimp only at *
  have hsymm : Bᵀ = B := by
    have := hB.1
    rwa [IsHermitian, conjTranspose_eq_transpose_of_trivial] at this
  have hP := diag_conj_psd hs vh
  have hBB : B * B = (vhᵀ * Matrix.diagonal s * vh) * (vhᵀ * Matrix.diagonal s * vh) := by
    have e1 : Bᵀ = vhᵀ * Matrix.diagonal s * uᵀ := by rw [he, transpose_mul, transpose_mul, diagonal_transpose, Matrix.mul_assoc]
    calc B * B = Bᵀ * B := by rw [hsymm]
      _ = vhᵀ * Matrix.diagonal s * (uᵀ * u) * (Matrix.diagonal s * vh) := by rw [e1]; nth_rewrite 1 [he]; simp only [Matrix.mul_assoc]
      _ = vhᵀ * Matrix.diagonal s * (vh * vhᵀ) * (Matrix.diagonal s * vh) := by rw [hu, hv]
      _ = _ := by simp only [Matrix.mul_assoc]
  have hBP : B = vhᵀ * Matrix.diagonal s * vh := sqrt_unique hB hP hBB
  have hus : u * Matrix.diagonal s = vhᵀ * Matrix.diagonal s := by
    have e : u * Matrix.diagonal s * vh * vhᵀ = vhᵀ * Matrix.diagonal s * vh * vhᵀ := by rw [← he, hBP]
    rwa [Matrix.mul_assoc _ vh, hv, Matrix.mul_one, Matrix.mul_assoc _ vh, hv, Matrix.mul_one] at e
  have hroot : u * Matrix.diagonal (fun i => Real.sqrt (s i)) = vhᵀ * Matrix.diagonal (fun i => Real.sqrt (s i)) := by
    ext i j
    have e := congrFun (congrFun hus i) j
    rw [mul_diagonal, mul_diagonal] at e ⊢
    by_cases h0 : s j = 0
    · rw [h0, Real.sqrt_zero, mul_zero, mul_zero]
    · rw [mul_right_cancel₀ h0 e]
  rw [hroot]
  refine ⟨diag_conj_psd (fun i => Real.sqrt_nonneg _) vh, ?_⟩
  have e : vhᵀ * Matrix.diagonal (fun i => Real.sqrt (s i)) * vh * (vhᵀ * Matrix.diagonal (fun i => Real.sqrt (s i)) * vh) =
      vhᵀ * (Matrix.diagonal (fun i => Real.sqrt (s i)) * (vh * vhᵀ) * Matrix.diagonal (fun i => Real.sqrt (s i))) * vh := by simp only [Matrix.mul_assoc]
  rw [e, hv, Matrix.mul_one, diagonal_mul_diagonal, hBP]
  congr 3
  funext i
  exact Real.mul_self_sqrt (hs i)

/-- **C89, refuted for symmetric matrices.** For the symmetric matrix `-1` and every singular value decomposition, the square of the result is `1`. -/
theorem c89_sqrt_fails (svd : Svd 1) (h : IsSvd (-1) (svd (-1))) : sqrtmSvd svd (-1) * sqrtmSvd svd (-1) = 1 := by
  obtain ⟨hu, hv, hs, he⟩ := h
  unfold sqrtmSvd
  generalize svd (-1) = d at *
  obtain ⟨u, s, vh⟩ := d
  dsimp only at *
  have hu := congrFun (congrFun hu 0) 0
  have hv := congrFun (congrFun hv 0) 0
  have he := congrFun (congrFun he 0) 0
  simp [Matrix.mul_apply] at hu hv he
  have h1 : s 0 * s 0 = 1 := by
    have : (s 0 * s 0) * ((u 0 0 * u 0 0) * (vh 0 0 * vh 0 0)) = 1 := by
      calc _ = (u 0 0 * s 0 * vh 0 0) * (u 0 0 * s 0 * vh 0 0) := by ring
        _ = 1 := by rw [← he]; norm_num
    rwa [hu, hv, mul_one, mul_one] at this
  have h2 : s 0 = 1 := by nlinarith [hs 0]
  ext i j
  rw [Subsingleton.elim i 0, Subsingleton.elim j 0]
  simp [Matrix.mul_apply, h2]
  calc u 0 0 * vh 0 0 * (u 0 0 * vh 0 0) = (u 0 0 * u 0 0) * (vh 0 0 * vh 0 0) := by ring
    _ = 1 := by rw [hu, hv, mul_one]

example : ∃ svd : Svd 1, IsSvd (-1) (svd (-1)) :=
  ⟨fun _ => (-1, fun _ => 1, 1), by simp, by simp, fun _ => zero_le_one, by
    ext i j
    rw [Subsingleton.elim i 0, Subsingleton.elim j 0]
    simp [Matrix.mul_apply]⟩

/-- **C89.** With a positive semidefinite `B` and any singular value decomposition, the bound optimisation update of a block scalar is `g √(hyᵀ B hy / tr(hphi B))` when the
trace is positive. -/
theorem c89_bo_update (svd : Svd b) (B : Matrix (Fin b) (Fin b) ℝ) (hB : B.PosSemidef) (h : IsSvd B (svd B)) (g : ℝ) (hy : Fin b → ℝ)
    (hphi : Matrix (Fin b) (Fin b) ℝ) (ht : 0 < (hphi * B).trace) :
    boMapper (sqrtmSvd svd B) B g hy hphi = some (g * Real.sqrt ((hy ⬝ᵥ (B *ᵥ hy)) / (hphi * B).trace)) := by
  obtain ⟨h1, h2⟩ := c89_sqrt_partial svd B hB h
  have hsymm : (sqrtmSvd svd B)ᵀ = sqrtmSvd svd B := by
    have := h1.1
    rwa [IsHermitian, conjTranspose_eq_transpose_of_trivial] at this
  have e : (sqrtmSvd svd B *ᵥ hy) ⬝ᵥ (sqrtmSvd svd B *ᵥ hy) = hy ⬝ᵥ (B *ᵥ hy) := by
    rw [symm_dot hsymm, mulVec_mulVec, h2]
  unfold boMapper osqrt odiv
  dsimp only
  rw [e, if_neg (not_lt.mpr ht.le), Option.bind_some, if_neg (Real.sqrt_pos.mpr ht).ne', Real.sqrt_div', mul_div_assoc]
  exact ht.le

/-- The hypotheses of `c89_sqrt_partial` and `c89_bo_update` are met, for example by a diagonal matrix. -/
example : ∃ (svd : Svd 2) (B : Matrix (Fin 2) (Fin 2) ℝ), B.PosSemidef ∧ IsSvd B (svd B) ∧ B ≠ 1 ∧ 0 < ((1 : Matrix (Fin 2) (Fin 2) ℝ) * B).trace := by
  refine ⟨fun _ => (1, ![3, 2], 1), Matrix.diagonal ![3, 2], Matrix.PosSemidef.diagonal ?_, ⟨by simp, by simp, ?_, by simp⟩, ?_, ?_⟩
  · intro i; fin_cases i <;> simp
  · intro i; fin_cases i <;> simp
  · intro h
    have := congrFun (congrFun h 0) 0
    simp at this
  · rw [Matrix.one_mul, Matrix.trace_diagonal, Fin.sum_univ_two]
    norm_num

theorem trace_mul_pos {k l : ℕ} {A : Matrix (Fin l) (Fin l) ℝ} {C : Matrix (Fin k) (Fin k) ℝ} {D : Matrix (Fin l) (Fin k) ℝ} (hA : A.PosDef) (hC : C.PosDef) (hD : D ≠ 0) :
    0 < (Dᵀ * A * D * C).trace := by
  obtain ⟨R, hR⟩ := posDef_factor (posDef_psd hC)
  have e : (Dᵀ * A * D * C).trace = ∑ i, (D * Rᵀ)ᵀ i ⬝ᵥ (A *ᵥ ((D * Rᵀ)ᵀ i)) := by
    have e1 : Dᵀ * A * D * C = (Dᵀ * A * D * Rᵀ) * R := by rw [hR]; simp only [Matrix.mul_assoc]
    have e2 : R * (Dᵀ * A * D * Rᵀ) = (D * Rᵀ)ᵀ * (A * (D * Rᵀ)) := by
      rw [transpose_mul, transpose_transpose]
      simp only [Matrix.mul_assoc]
    rw [e1, trace_mul_comm, e2]
    rfl
  have hDR : D * Rᵀ ≠ 0 := fun h0 => hD (by
    have : D * C = 0 := by rw [hR, ← Matrix.mul_assoc, h0, Matrix.zero_mul]
    have h3 := congrArg (· * C⁻¹) this
    simpa [Matrix.mul_assoc, posDef_mul_inv hC] using h3)
  have : ∃ i, (D * Rᵀ)ᵀ i ≠ 0 := by
    by_contra hall
    push Not at hall
    refine hDR ?_
    ext r c
    exact congrFun (hall c) r
  obtain ⟨i, hi⟩ := this
  rw [e]
  exact Finset.sum_pos' (fun j _ => (posDef_psd hA).2 _) ⟨i, Finset.mem_univ i, (posDef_iff.mp hA).2 _ hi⟩

/-- **C88.** In `bsbl_bo` the block scalars that are finite are nonnegative, and the scalar of a block with a nonzero column is always finite. Zero blocks are different:
`c88_bo_zero_block_fails`. -/
theorem c88_gammas_bo_partial (svd : Svd b) (Phi : Matrix (Fin m) (Fin (nb * b)) ℝ) (y : Fin m → ℝ) (opt : BsblOptions) (hl : 0 < opt.lambdaVal)
    (hp : 0 ≤ opt.pruneGamma) (hlearn : opt.learnLambda ≤ 0 ∨ opt.learnLambda = 1 ∧ y ≠ 0) (s : BsblState m nb b) (h : BsblBoReach svd Phi y opt s) (i : Fin nb) :
    (∀ g, s.gammas i = some g → 0 ≤ g) ∧ ((∃ r j, Phi r (finProdFinEquiv (i, j)) ≠ 0) → ∃ g, s.gammas i = some g) := by
  cases h with
  | init => exact ⟨fun g hg => by rw [← Option.some.inj hg]; exact zero_le_one, fun _ => ⟨1, rfl⟩⟩
  | step hr hc =>
    rename_i t
    show (∀ g, gammasBo svd t.gammas (stepB Phi y opt t) (computeHy (stepH Phi opt t) y) (computeHPhi Phi (stepH Phi opt t)) (activeBlocks opt.pruneGamma t.gammas) i =
      some g → 0 ≤ g) ∧ (_ → ∃ g, gammasBo svd t.gammas (stepB Phi y opt t) (computeHy (stepH Phi opt t) y) (computeHPhi Phi (stepH Phi opt t))
        (activeBlocks opt.pruneGamma t.gammas) i = some g)
    obtain ⟨S, l, hP⟩ := (valid_bo hl hp hlearn hr).exists_prior
    unfold gammasBo
    cases ha : activeBlocks opt.pruneGamma t.gammas i with
    | false =>
      simp only [Bool.false_eq_true, if_false]
      exact ⟨fun g hg => (Option.some.inj hg).le, fun _ => ⟨0, rfl⟩⟩
    | true =>
      obtain ⟨g, hg, hpg⟩ := active_true.mp ha
      obtain ⟨q, hq, hB⟩ := stepB_eq (Phi := Phi) (y := y) hp hP i ha
      simp only [if_true, hg, hB, stepH_eq hP, computeHy, computeHPhi, Option.bind_some, Option.map_some]
      rw [hphi_block (regGram_inv_symm hP.psd)]
      unfold boMapper osqrt odiv
      dsimp only
      constructor
      · intro g' hg'
        split at hg'
        · exact absurd hg' (by simp)
        · rw [Option.bind_some] at hg'
          split at hg'
          · exact absurd hg' (by simp)
          · rw [← Option.some.inj hg']
            exact div_nonneg (mul_nonneg (hp.trans hpg.le) (Real.sqrt_nonneg _)) (Real.sqrt_nonneg _)
      · rintro ⟨r, j, hrj⟩
        have hD : getSubdicts Phi i ≠ 0 := fun h0 => hrj ((getSubdicts_apply Phi i r j).symm.trans (by rw [h0]; rfl))
        have ht := trace_mul_pos (regGram_posDef (D := getSubdicts Phi) hP.psd hP.pos).inv (arMat_posDef (b := b) hq) hD
        rw [if_neg (not_lt.mpr ht.le), Option.bind_some, if_neg (Real.sqrt_pos.mpr ht).ne']
        exact ⟨_, rfl⟩

/-- **C88, refuted for zero blocks.** In `bsbl_bo` the scalar of a block whose columns are all zero is not a number after the first iteration. -/
theorem c88_bo_zero_block_fails (svd : Svd b) (Phi : Matrix (Fin m) (Fin (nb * b)) ℝ) (y : Fin m → ℝ) (opt : BsblOptions) (hl : 0 < opt.lambdaVal)
    (hp : 0 ≤ opt.pruneGamma) (hp1 : opt.pruneGamma < 1) (i : Fin nb) (hi : ∀ r j, Phi r (finProdFinEquiv (i, j)) = 0) :
    (bsblBoBody Phi y opt (bsblInit y opt) svd).gammas i = none := by
  obtain ⟨S, l, hP⟩ := (valid_init (y := y) (nb := nb) (b := b) hl).exists_prior
  have ha : activeBlocks opt.pruneGamma (bsblInit y opt : BsblState m nb b).gammas i = true := active_true.mpr ⟨1, rfl, hp1⟩
  obtain ⟨q, hq, hB⟩ := stepB_eq (Phi := Phi) (y := y) hp hP i ha
  show gammasBo svd _ _ _ _ _ i = none
  have hg : (bsblInit y opt : BsblState m nb b).gammas i = some 1 := rfl
  have hD : getSubdicts Phi i = 0 := by
    ext r j
    rw [getSubdicts_apply, hi r j]
    rfl
  unfold gammasBo
  simp only [ha, if_true, hg, hB, stepH_eq hP, computeHy, computeHPhi, Option.bind_some, Option.map_some]
  rw [hphi_block (regGram_inv_symm hP.psd), hD]
  unfold boMapper osqrt odiv
  simp

/-- **C88.** A scalar that is not finite in `bsbl_bo` is the quotient zero by zero, so it is not a number and its block is pruned: both `Hy` and `HPhi` vanish on the
block. (A comparison with an infinite scalar would be true; infinite scalars do not occur.) -/
theorem c88_bo_nan (svd : Svd b) (Phi : Matrix (Fin m) (Fin (nb * b)) ℝ) (y : Fin m → ℝ) (opt : BsblOptions) (hl : 0 < opt.lambdaVal)
    (hp : 0 ≤ opt.pruneGamma) (hlearn : opt.learnLambda ≤ 0 ∨ opt.learnLambda = 1 ∧ y ≠ 0) (s : BsblState m nb b) (h : BsblBoReach svd Phi y opt s) (i : Fin nb)
    (hi : (bsblBoBody Phi y opt s svd).gammas i = none) :
    ∃ H, stepH Phi opt s = some H ∧ reshape2 (H *ᵥ y) i = 0 ∧ diagBlocks (H * Phi) i = 0 := by
  obtain ⟨S, l, hP⟩ := (valid_bo hl hp hlearn h).exists_prior
  change gammasBo svd s.gammas (stepB Phi y opt s) (computeHy (stepH Phi opt s) y) (computeHPhi Phi (stepH Phi opt s)) (activeBlocks opt.pruneGamma s.gammas) i = none at hi
  have hcols : ∀ r j, Phi r (finProdFinEquiv (i, j)) = 0 := by
    by_contra hne
    push Not at hne
    obtain ⟨r, j, hrj⟩ := hne
    unfold gammasBo at hi
    cases ha : activeBlocks opt.pruneGamma s.gammas i with
    | false => simp [ha] at hi
    | true =>
      obtain ⟨g, hg, hpg⟩ := active_true.mp ha
      obtain ⟨q, hq, hB⟩ := stepB_eq (Phi := Phi) (y := y) hp hP i ha
      simp only [ha, if_true, hg, hB, stepH_eq hP, computeHy, computeHPhi, Option.bind_some, Option.map_some] at hi
      rw [hphi_block (regGram_inv_symm hP.psd)] at hi
      unfold boMapper osqrt odiv at hi
      dsimp only at hi
      have hD : getSubdicts Phi i ≠ 0 := fun h0 => hrj ((getSubdicts_apply Phi i r j).symm.trans (by rw [h0]; rfl))
      have ht := trace_mul_pos (regGram_posDef (D := getSubdicts Phi) hP.psd hP.pos).inv (arMat_posDef (b := b) hq) hD
      rw [if_neg (not_lt.mpr ht.le), Option.bind_some, if_neg (Real.sqrt_pos.mpr ht).ne'] at hi
      exact absurd hi (by simp)
  refine ⟨_, stepH_eq hP, ?_, ?_⟩
  · funext j
    simp only [reshape2, mulVec, dotProduct, transpose_apply, Matrix.mul_apply, hcols, mul_zero, Finset.sum_const_zero, zero_mul, Pi.zero_apply]
  · ext j k
    simp only [diagBlocks, Matrix.of_apply, Matrix.mul_apply, hcols, mul_zero, Finset.sum_const_zero, Matrix.zero_apply]

/-- The scalar of a zero block is of this kind: `c88_bo_zero_block_fails` gives such a state. -/
example : ∃ (Phi : Matrix (Fin 1) (Fin (1 * 1)) ℝ) (opt : BsblOptions), 0 < opt.lambdaVal ∧ 0 ≤ opt.pruneGamma ∧ opt.learnLambda ≤ 0 ∧
    ∀ svd, (bsblBoBody Phi ![1] opt (bsblInit ![1] opt) svd).gammas 0 = none :=
  ⟨0, ⟨1, 0, 0, 1, 10, 0⟩, one_pos, le_rfl, le_rfl, fun svd => c88_bo_zero_block_fails svd 0 ![1] _ one_pos le_rfl one_pos 0 fun _ _ => rfl⟩

/-- The singular value decomposition `[[3, 0], [0, 2]] = I · diag(3, 2) · I`. -/
theorem ex_svd : (Matrix.diagonal ![3, 2] : Matrix (Fin 2) (Fin 2) ℝ).PosSemidef ∧ IsSvd (Matrix.diagonal ![3, 2]) ((1 : Matrix (Fin 2) (Fin 2) ℝ), ![3, 2], (1 : Matrix (Fin 2) (Fin 2) ℝ)) := by
  refine ⟨Matrix.PosSemidef.diagonal ?_, ⟨by simp, by simp, ?_, by simp⟩⟩
  · intro i; fin_cases i <;> simp
  · intro i; fin_cases i <;> simp

example := c89_sqrt_partial (fun _ => (1, ![3, 2], 1)) (Matrix.diagonal ![3, 2]) ex_svd.1 ex_svd.2

example := c89_sqrt_fails (fun _ => (-1, fun _ => 1, 1)) ⟨by simp, by simp, fun _ => zero_le_one, by
    ext i j
    rw [Subsingleton.elim i 0, Subsingleton.elim j 0]
    simp [Matrix.mul_apply]⟩

example := c89_bo_update (fun _ => (1, ![3, 2], 1)) (Matrix.diagonal ![3, 2]) ex_svd.1 ex_svd.2 5 ![1, 2] 1 (by
  rw [Matrix.one_mul, Matrix.trace_diagonal, Fin.sum_univ_two]; norm_num)

example (svd : Svd 2) := c88_gammas_bo_partial svd exPhi ![1, 2, 4] exOpt exOpt_lam exOpt_prune (Or.inl le_rfl) _ (Reach.step .init (exOpt_cond _)) 1

example (svd : Svd 1) := c88_bo_nan svd (0 : Matrix (Fin 1) (Fin (1 * 1)) ℝ) ![1] ⟨1, 0, 0, 1, 10, 0⟩ one_pos le_rfl (Or.inl le_rfl) _ .init 0
  (c88_bo_zero_block_fails svd 0 ![1] _ one_pos le_rfl one_pos 0 fun _ _ => rfl)

end Verif.Block
