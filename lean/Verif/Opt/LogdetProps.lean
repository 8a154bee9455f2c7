import Verif.Opt.LogdetModel
import Verif.Opt.SmoothProps
import Mathlib.Analysis.Matrix.LDL
import Mathlib.LinearAlgebra.Matrix.Block
import Mathlib.LinearAlgebra.Matrix.Charpoly.Coeff
import Mathlib.Analysis.Calculus.FDeriv.Mul
import Mathlib.Analysis.Calculus.FDeriv.Add
import Mathlib.Analysis.Calculus.Deriv.Polynomial
import Mathlib.Analysis.Calculus.Deriv.Comp
import Mathlib.Algebra.Order.Star.Real

set_option autoImplicit false
/-!
# The log-determinant and its gradient (C35)
-/
noncomputable section
namespace Verif.Opt
open scoped RealInnerProductSpace Topology
open Matrix

/-! ## Cholesky factors -/

theorem IsCholesky.det {n : ℕ} {L S : Matrix (Fin n) (Fin n) ℝ} (h : IsCholesky L S) : S.det = (∏ i, L i i) ^ 2 := by
  have h1 : L.det = ∏ i, L i i := det_of_lowerTriangular L (fun i j hij => h.lower i j (by simpa using hij))
  rw [← h.fac, det_mul, det_transpose, h1, sq]

theorem IsCholesky.log_det {n : ℕ} {L S : Matrix (Fin n) (Fin n) ℝ} (h : IsCholesky L S) :
    0 < S.det ∧ Real.log S.det = 2 * ∑ i, Real.log (L i i) := by
  have hp : 0 < ∏ i, L i i := Finset.prod_pos fun i _ => h.pos i
  rw [h.det, Real.log_pow, Real.log_prod (fun i _ => (h.pos i).ne')]
  exact ⟨by positivity, by norm_num⟩

theorem IsCholesky.posDef {n : ℕ} {L S : Matrix (Fin n) (Fin n) ℝ} (h : IsCholesky L S) : S.PosDef := by
  have h1 : L.det = ∏ i, L i i := det_of_lowerTriangular L (fun i j hij => h.lower i j (by simpa using hij))
  have hp : 0 < ∏ i, L i i := Finset.prod_pos fun i _ => h.pos i
  have hu : IsUnit L := (isUnit_iff_isUnit_det L).mpr (by rw [h1]; exact hp.ne'.isUnit)
  have := PosDef.mul_mul_conjTranspose_same (A := (1 : Matrix (Fin n) (Fin n) ℝ)) (B := L) .one ?_
  · rw [← h.fac]; simpa [conjTranspose_eq_transpose_of_trivial] using this
  · exact vecMul_injective_of_isUnit hu

/-- Every positive definite matrix has a Cholesky factor. -/
theorem exists_cholesky {n : ℕ} {S : Matrix (Fin n) (Fin n) ℝ} (hS : S.PosDef) : ∃ L, IsCholesky L S := by
  have hD : LDL.diag hS = LDL.lowerInv hS * S * (LDL.lowerInv hS)ᴴ := LDL.diag_eq_lowerInv_conj hS
  have hdp : (LDL.diag hS).PosDef := by
    rw [hD]
    exact hS.mul_mul_conjTranspose_same (vecMul_injective_of_isUnit (isUnit_of_invertible _))
  have hd : ∀ i, 0 < LDL.diagEntries hS i := by
    intro i
    have := hdp.diag_pos (i := i)
    simpa [LDL.diag] using this
  have hlow : ∀ i j, i < j → LDL.lower hS i j = 0 := by
    intro i j hij
    have h1 : BlockTriangular (LDL.lowerInv hS) OrderDual.toDual := by
      intro a b hab
      exact LDL.lowerInv_triangular hS (by simpa using hab)
    have h2 := blockTriangular_inv_of_blockTriangular h1
    exact h2 (by simpa using hij)
  have hfac := LDL.lower_conj_diag hS
  set M : Matrix (Fin n) (Fin n) ℝ := LDL.lower hS * diagonal (fun i => Real.sqrt (LDL.diagEntries hS i)) with hM
  have hMM : M * Mᵀ = S := by
    rw [hM, transpose_mul, diagonal_transpose, Matrix.mul_assoc, ← Matrix.mul_assoc (diagonal _), diagonal_mul_diagonal]
    conv_rhs => rw [← hfac]
    rw [conjTranspose_eq_transpose_of_trivial, Matrix.mul_assoc]
    congr 2
    rw [LDL.diag]
    congr 1
    funext i
    exact Real.mul_self_sqrt (hd i).le
  have hMl : ∀ i j, i < j → M i j = 0 := by
    intro i j hij
    rw [hM, mul_diagonal, hlow i j hij, zero_mul]
  have hMd : ∀ i, M i i ≠ 0 := by
    have h1 : M.det = ∏ i, M i i := det_of_lowerTriangular M (fun i j hij => hMl i j (by simpa using hij))
    have h2 : M.det * M.det = S.det := by
      have := congrArg Matrix.det hMM
      rwa [det_mul M, det_transpose] at this
    intro i hi
    have : M.det = 0 := by rw [h1]; exact Finset.prod_eq_zero (Finset.mem_univ i) hi
    rw [this, zero_mul] at h2
    exact hS.det_pos.ne h2
  refine ⟨M * diagonal (fun i => ((SignType.sign (M i i) : SignType) : ℝ)), ?_, ?_, ?_⟩
  · intro i j hij; rw [mul_diagonal, hMl i j hij, zero_mul]
  · intro i
    rw [mul_diagonal, mul_comm]
    rw [sign_mul_self]
    exact abs_pos.mpr (hMd i)
  · rw [transpose_mul, diagonal_transpose, Matrix.mul_assoc, ← Matrix.mul_assoc (diagonal _), diagonal_mul_diagonal]
    have : (fun i => ((SignType.sign (M i i) : SignType) : ℝ) * ((SignType.sign (M i i) : SignType) : ℝ)) = fun _ => (1 : ℝ) := by
      funext i
      rcases lt_or_gt_of_ne (hMd i) with h | h
      · simp [sign_neg h]
      · simp [sign_pos h]
    rw [this]
    rw [show diagonal (fun _ : Fin n => (1 : ℝ)) = 1 from rfl, Matrix.one_mul, hMM]

/-- The symmetric part. -/
def symPart {n : ℕ} (X : MatVec n) : Matrix (Fin n) (Fin n) ℝ := (1 / 2 : ℝ) • (toMat X + (toMat X).transpose)

theorem symPart_of_symm {n : ℕ} {X : MatVec n} (h : (toMat X)ᵀ = toMat X) : symPart X = toMat X := by
  rw [symPart, h, ← two_smul ℝ (toMat X), smul_smul]; norm_num

theorem symPart_transpose {n : ℕ} (X : MatVec n) : (symPart X)ᵀ = symPart X := by
  rw [symPart, transpose_smul, transpose_add, transpose_transpose, add_comm]

theorem symPart_apply {n : ℕ} (X : MatVec n) (i j : Fin n) : symPart X i j = 1 / 2 * (X (i, j) + X (j, i)) := rfl

theorem quad_eq {n : ℕ} (M : Matrix (Fin n) (Fin n) ℝ) (x : Fin n → ℝ) : star x ⬝ᵥ M *ᵥ x = ∑ i, ∑ j, x i * (M i j * x j) := by
  simp only [dotProduct, mulVec, Finset.mul_sum, Pi.star_apply, star_trivial]

theorem posDef_iff {n : ℕ} (X : MatVec n) : (symPart X).PosDef ↔
    ∀ x : Fin n → ℝ, ‖x‖ = 1 → 0 < ∑ i, ∑ j, x i * (symPart X i j * x j) := by
  have hh : (symPart X).IsHermitian := by
    rw [IsHermitian, conjTranspose_eq_transpose_of_trivial, symPart_transpose]
  rw [posDef_iff_dotProduct_mulVec]
  constructor
  · rintro ⟨-, h⟩ x hx
    rw [← quad_eq]
    exact h (by rintro rfl; simp at hx)
  · intro h
    refine ⟨hh, fun {x} hx => ?_⟩
    have hn : ‖x‖ ≠ 0 := norm_ne_zero_iff.mpr hx
    have := h (‖x‖⁻¹ • x) (by rw [norm_smul, norm_inv, norm_norm, inv_mul_cancel₀ hn])
    rw [quad_eq]
    have e : ∑ i, ∑ j, (‖x‖⁻¹ • x) i * (symPart X i j * (‖x‖⁻¹ • x) j) = ‖x‖⁻¹ ^ 2 * ∑ i, ∑ j, x i * (symPart X i j * x j) := by
      rw [Finset.mul_sum]
      refine Finset.sum_congr rfl fun i _ => ?_
      rw [Finset.mul_sum]
      refine Finset.sum_congr rfl fun j _ => ?_
      simp only [Pi.smul_apply, smul_eq_mul]; ring
    rw [e] at this
    exact pos_of_mul_pos_right this (by positivity)

/-- Positive definiteness of the symmetric part is an open condition. -/
theorem posDef_eventually {n : ℕ} {X : MatVec n} (h : (symPart X).PosDef) : ∀ᶠ Y in 𝓝 X, (symPart Y).PosDef := by
  have hK : IsCompact (Metric.sphere (0 : Fin n → ℝ) 1) := isCompact_sphere 0 1
  have hc : Continuous fun z : MatVec n × (Fin n → ℝ) => ∑ i, ∑ j, z.2 i * (symPart z.1 i j * z.2 j) := by
    simp only [symPart_apply]
    fun_prop
  have := hK.eventually_forall_of_forall_eventually (x₀ := X)
    (P := fun Y x => 0 < ∑ i, ∑ j, x i * (symPart Y i j * x j)) (fun x hx => by
      have hp := (posDef_iff X).mp h x (by simpa using hx)
      exact hc.continuousAt.eventually (lt_mem_nhds hp))
  filter_upwards [this] with Y hY
  exact (posDef_iff Y).mpr fun x hx => hY x (by simpa using hx)

theorem logdetFunc_eq {n : ℕ} (q : ℝ) (C : Option (MatVec n)) {X : MatVec n} (h : (symPart X).PosDef) :
    logdetFunc q C X = some (-q * Real.log (symPart X).det + ∑ p, (C.getD 0) p * X p) := by
  have he : ∃ L, IsCholesky L ((1 / 2 : ℝ) • (toMat X + (toMat X).transpose)) := exists_cholesky h
  obtain ⟨L, hL, hc⟩ : ∃ L, IsCholesky L (symPart X) ∧ cholesky (toMat X) = some L :=
    ⟨he.choose, he.choose_spec, by rw [cholesky, dif_pos he]⟩
  rw [logdetFunc, hc, hL.log_det.2]
  cases C <;> simp <;> ring

theorem det_differentiable {n : ℕ} : Differentiable ℝ fun X : MatVec n => (symPart X).det := by
  simp only [det_apply, symPart_apply]
  fun_prop

theorem det_line {n : ℕ} {X : MatVec n} (h : (symPart X).PosDef) (H : MatVec n) :
    HasDerivAt (fun t : ℝ => (symPart (X + t • H)).det) ((symPart X).det * ((symPart X)⁻¹ * symPart H).trace) 0 := by
  have hu : IsUnit (symPart X).det := h.det_pos.ne'.isUnit
  have e : ∀ t : ℝ, symPart (X + t • H) = symPart X * (1 + t • ((symPart X)⁻¹ * symPart H)) := by
    intro t
    rw [Matrix.mul_add, Matrix.mul_one, Matrix.mul_smul, ← Matrix.mul_assoc, mul_nonsing_inv _ hu, Matrix.one_mul]
    ext i j
    simp only [symPart_apply, Matrix.add_apply, Matrix.smul_apply, PiLp.add_apply, PiLp.smul_apply, smul_eq_mul]
    ring
  have e' : (fun t : ℝ => (symPart (X + t • H)).det) = fun t : ℝ => (symPart X).det * (1 + t • ((symPart X)⁻¹ * symPart H)).det :=
    funext fun t => by rw [e, det_mul]
  rw [e']
  refine HasDerivAt.const_mul _ ?_
  have e2 : (fun t : ℝ => (1 + t • ((symPart X)⁻¹ * symPart H)).det) = fun t => _ := funext fun t => det_one_add_smul t _
  rw [e2]
  set P := (det (1 + (Polynomial.X : Polynomial ℝ) • ((symPart X)⁻¹ * symPart H).map Polynomial.C)).divX.divX
  set tr := ((symPart X)⁻¹ * symPart H).trace
  have h1 : HasDerivAt (fun t : ℝ => 1 + tr * t) tr 0 := by
    simpa using ((hasDerivAt_id (0 : ℝ)).const_mul tr).const_add 1
  have h2 : HasDerivAt (fun t : ℝ => P.eval t * t ^ 2) 0 0 := by
    exact ((P.hasDerivAt 0).fun_mul (hasDerivAt_pow 2 (0 : ℝ))).congr_deriv (by simp)
  exact (h1.fun_add h2).congr_deriv (add_zero _)

theorem trace_symPart {n : ℕ} {X : MatVec n} (hX : (symPart X).PosDef) (H : MatVec n) :
    ((symPart X)⁻¹ * symPart H).trace = ∑ p : Fin n × Fin n, (symPart X)⁻¹ p.1 p.2 * H p := by
  have ht : ∀ i j, (symPart X)⁻¹ j i = (symPart X)⁻¹ i j := by
    intro i j
    have : ((symPart X)⁻¹)ᵀ = (symPart X)⁻¹ := by rw [transpose_nonsing_inv, symPart_transpose]
    exact congrFun (congrFun this i) j
  simp only [trace, diag_apply, Matrix.mul_apply, symPart_apply]
  rw [Fintype.sum_prod_type]
  have e1 : ∑ i, ∑ j, (symPart X)⁻¹ i j * (1 / 2 * (H (j, i) + H (i, j))) =
      1 / 2 * ∑ i, ∑ j, (symPart X)⁻¹ i j * H (j, i) + 1 / 2 * ∑ i, ∑ j, (symPart X)⁻¹ i j * H (i, j) := by
    simp only [Finset.mul_sum, ← Finset.sum_add_distrib]
    exact Finset.sum_congr rfl fun i _ => Finset.sum_congr rfl fun j _ => by ring
  have e2 : ∑ i, ∑ j, (symPart X)⁻¹ i j * H (j, i) = ∑ i, ∑ j, (symPart X)⁻¹ i j * H (i, j) := by
    rw [Finset.sum_comm]
    exact Finset.sum_congr rfl fun i _ => Finset.sum_congr rfl fun j _ => by rw [ht]
  rw [e1, e2]; ring

theorem logdet_hasGradient {n : ℕ} (q : ℝ) (C : MatVec n) {X : MatVec n} (h : (symPart X).PosDef) :
    HasGradientAt (fun Y => -q * Real.log (symPart Y).det + ∑ p, C p * Y p) ((-q) • ofMat (symPart X)⁻¹ + C) X := by
  rw [hasGradientAt_iff_hasFDerivAt]
  have hd := (det_differentiable X).hasFDerivAt
  have hl := (hd.log h.det_pos.ne').const_mul (-q)
  have hC : HasFDerivAt (fun Y : MatVec n => ∑ p, C p * Y p) (innerSL ℝ C) X := by
    have e : (fun Y : MatVec n => ∑ p, C p * Y p) = innerSL ℝ C := by
      funext Y
      simp [innerSL_apply_apply, PiLp.inner_apply, mul_comm]
    rw [e]; exact (innerSL ℝ C).hasFDerivAt
  refine (hl.add hC).congr_fderiv ?_
  ext H
  have hline : fderiv ℝ (fun Y : MatVec n => (symPart Y).det) X H = (symPart X).det * ((symPart X)⁻¹ * symPart H).trace := by
    have h1 : HasDerivAt (fun t : ℝ => X + t • H) H 0 := by
      simpa using ((hasDerivAt_id (0 : ℝ)).smul_const H).const_add X
    have hd' : HasFDerivAt (fun Y : MatVec n => (symPart Y).det) (fderiv ℝ (fun Y : MatVec n => (symPart Y).det) X) (X + (0 : ℝ) • H) := by
      simpa using hd
    have h3 : HasDerivAt (fun t : ℝ => (symPart (X + t • H)).det) (fderiv ℝ (fun Y : MatVec n => (symPart Y).det) X H) 0 :=
      HasFDerivAt.comp_hasDerivAt (f := fun t : ℝ => X + t • H) (0 : ℝ) hd' h1
    exact h3.unique (det_line h H)
  simp only [ContinuousLinearMap.add_apply, ContinuousLinearMap.smul_apply, hline, trace_symPart h, smul_eq_mul,
    innerSL_apply_apply, InnerProductSpace.toDual_apply_apply, inner_add_left, inner_smul_left]
  have e3 : ⟪ofMat (symPart X)⁻¹, H⟫ = ∑ p : Fin n × Fin n, (symPart X)⁻¹ p.1 p.2 * H p := by
    simp [PiLp.inner_apply, ofMat, mul_comm]
  rw [e3]
  have hne := h.det_pos.ne'
  rw [inv_mul_cancel_left₀ hne]
  simp

/-! ## The theorem -/

/-- C35 (`smooth_logdet`): at every symmetric positive definite `X` the function value is `-q log det X + ⟨C, X⟩`, it is
defined (finite) in a neighbourhood of `X`, and the returned gradient is its gradient there (for the Frobenius inner
product).  The value is NaN exactly when the symmetric part of `X` is not positive definite. -/
theorem c35_logdet {n : ℕ} (q : ℝ) (C : Option (MatVec n)) (X : MatVec n) :
    (logdetFunc q C X = none ↔ ¬ ((1 / 2 : ℝ) • (toMat X + (toMat X)ᵀ)).PosDef) ∧
    ((toMat X).PosDef →
      logdetFunc q C X = some (-q * Real.log (toMat X).det + ∑ p, (C.getD 0) p * X p) ∧
      (∀ᶠ Y in 𝓝 X, (logdetFunc q C Y).isSome) ∧
      ∃ G, logdetGradVal q C X = (some G, logdetFunc q C X) ∧ HasGradientAt (fun Y => (logdetFunc q C Y).getD 0) G X) := by
  refine ⟨⟨fun h hp => ?_, fun h => ?_⟩, fun h => ?_⟩
  · rw [logdetFunc_eq q C hp] at h; cases h
  · have : ¬ ∃ L, IsCholesky L ((1 / 2 : ℝ) • (toMat X + (toMat X).transpose)) := fun ⟨L, hL⟩ => h hL.posDef
    rw [logdetFunc, cholesky, dif_neg this]; rfl
  · have hsym : (toMat X)ᵀ = toMat X := by
      have := h.1.eq
      rwa [conjTranspose_eq_transpose_of_trivial] at this
    have hs := symPart_of_symm hsym
    have hp : (symPart X).PosDef := by rw [hs]; exact h
    have hev := posDef_eventually hp
    refine ⟨by rw [logdetFunc_eq q C hp, hs], ?_, (-q) • ofMat (symPart X)⁻¹ + C.getD 0, ?_, ?_⟩
    · filter_upwards [hev] with Y hY
      rw [logdetFunc_eq q C hY]; rfl
    · rw [logdetGradVal, logdetGrad, if_neg h.det_pos.ne', hs]
      cases C <;> simp
    · refine (logdet_hasGradient q (C.getD 0) hp).congr_of_eventuallyEq ?_
      filter_upwards [hev] with Y hY
      rw [logdetFunc_eq q C hY]; rfl

/-- The hypothesis is met by the `2 × 2` matrix `[[2, 1], [1, 2]]`. -/
example : logdetFunc 1 none (ofMat !![2, 1; 1, 2]) = some (-Real.log 3) := by
  have h : (toMat (ofMat !![(2 : ℝ), 1; 1, 2])).PosDef := by
    rw [posDef_iff_dotProduct_mulVec]
    refine ⟨?_, fun {x} hx => ?_⟩
    · rw [IsHermitian, conjTranspose_eq_transpose_of_trivial]
      ext i j; fin_cases i <;> fin_cases j <;> rfl
    · rw [quad_eq]
      simp [Fin.sum_univ_two, toMat, ofMat]
      have : x 0 ≠ 0 ∨ x 1 ≠ 0 := by
        by_contra hc
        push Not at hc
        exact hx (by ext i; fin_cases i <;> simp [hc])
      rcases this with h0 | h0
      · nlinarith [sq_nonneg (x 0 + x 1), sq_nonneg (x 1), pow_pos (abs_pos.mpr h0) 2, sq_abs (x 0)]
      · nlinarith [sq_nonneg (x 0 + x 1), sq_nonneg (x 0), pow_pos (abs_pos.mpr h0) 2, sq_abs (x 1)]
  rw [((c35_logdet 1 none _).2 h).1]
  have : (toMat (ofMat !![(2 : ℝ), 1; 1, 2])).det = 3 := by
    rw [det_fin_two]; simp [toMat, ofMat]; norm_num
  rw [this]; simp

end Verif.Opt
