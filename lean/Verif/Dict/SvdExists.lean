import Mathlib.Analysis.InnerProductSpace.Spectrum
import Mathlib.Analysis.InnerProductSpace.Adjoint
import Mathlib.Analysis.InnerProductSpace.PiL2
import Verif.Dict.BasesModel
import Verif.Dict.GrassModel
/-!
The contract of `jnp.linalg.svd` used by the models can be met: every real matrix has a singular value decomposition with non-negative
values in descending order. These theorems make the hypotheses `IsThinSvd` and `IsGSvd` of the property theorems satisfiable for all matrices.
-/
noncomputable section
set_option autoImplicit false
namespace Verif.Dict
open Matrix
open scoped InnerProductSpace

/-- A tall matrix has a thin singular value decomposition. -/
theorem exists_svd_tall {m n : ℕ} (hmn : n ≤ m) (A : Matrix (Fin m) (Fin n) ℝ) :
    ∃ (U : Matrix (Fin m) (Fin n) ℝ) (s : Fin n → ℝ) (V : Matrix (Fin n) (Fin n) ℝ),
      Uᵀ * U = 1 ∧ Vᵀ * V = 1 ∧ U * diagonal s * Vᵀ = A ∧ (∀ i, 0 ≤ s i) ∧ Antitone s := by
  classical
  let T : EuclideanSpace ℝ (Fin n) →ₗ[ℝ] EuclideanSpace ℝ (Fin m) := toEuclideanLin A
  have hS : (LinearMap.adjoint T ∘ₗ T).IsSymmetric := fun x y => by
    rw [LinearMap.comp_apply, LinearMap.comp_apply, LinearMap.adjoint_inner_left, LinearMap.adjoint_inner_right]
  have hn : Module.finrank ℝ (EuclideanSpace ℝ (Fin n)) = n := finrank_euclideanSpace_fin
  obtain ⟨l, hl⟩ : ∃ l, l = hS.eigenvalues hn := ⟨_, rfl⟩
  obtain ⟨v, hv⟩ : ∃ v, v = hS.eigenvectorBasis hn := ⟨_, rfl⟩
  have hin : ∀ i j, ⟪T (v i), T (v j)⟫_ℝ = if i = j then l i else 0 := by
    intro i j
    have h1 : (LinearMap.adjoint T ∘ₗ T) (v i) = l i • v i := by
      rw [hv, hl]; exact hS.apply_eigenvectorBasis hn i
    rw [← LinearMap.adjoint_inner_left]
    have h2 : LinearMap.adjoint T (T (v i)) = l i • v i := h1
    rw [h2, inner_smul_left, orthonormal_iff_ite.1 v.orthonormal i j]
    simp
  have hl0 : ∀ i, 0 ≤ l i := fun i => by
    have := hin i i
    rw [if_pos rfl] at this
    rw [← this]; exact real_inner_self_nonneg
  have hanti : Antitone l := by rw [hl]; exact hS.eigenvalues_antitone hn
  obtain ⟨s, hs⟩ : ∃ s : Fin n → ℝ, s = fun i => Real.sqrt (l i) := ⟨_, rfl⟩
  have hs2 : ∀ i, s i * s i = l i := fun i => by rw [hs]; exact Real.mul_self_sqrt (hl0 i)
  obtain ⟨w, hw⟩ : ∃ w : Fin m → EuclideanSpace ℝ (Fin m), w = fun k : Fin m => if h : (k : ℕ) < n then (s ⟨k, h⟩)⁻¹ • T (v ⟨k, h⟩) else 0 := ⟨_, rfl⟩
  have hwo : Orthonormal ℝ ({k : Fin m | ∃ h : (k : ℕ) < n, s ⟨k, h⟩ ≠ 0}.domRestrict w) := by
    rw [orthonormal_iff_ite]
    rintro ⟨a, ha, ha'⟩ ⟨b, hb, hb'⟩
    show ⟪w a, w b⟫_ℝ = _
    rw [hw]
    simp only [dif_pos ha, dif_pos hb, inner_smul_left, inner_smul_right, hin, Subtype.mk.injEq, Fin.mk.injEq, Fin.ext_iff]
    split
    · rename_i h
      have : (⟨a, ha⟩ : Fin n) = ⟨b, hb⟩ := Fin.ext h
      rw [← this, ← hs2]
      simp only [conj_trivial]
      field_simp
    · simp
  obtain ⟨b, hb⟩ := hwo.exists_orthonormalBasis_extension_of_card_eq (by simp)
  have hTv : ∀ i : Fin n, T (v i) = s i • b (Fin.castLE hmn i) := by
    intro i
    by_cases h0 : s i = 0
    · rw [h0, zero_smul, ← inner_self_eq_zero (𝕜 := ℝ), hin, if_pos rfl, ← hs2, h0, zero_mul]
    · rw [hb (Fin.castLE hmn i) ⟨i.2, h0⟩, hw]
      simp only [Fin.val_castLE, dif_pos i.2, Fin.eta]
      rw [smul_smul, mul_inv_cancel₀ h0, one_smul]
  have hV : (Matrix.of fun (j i : Fin n) => v i j)ᵀ * (Matrix.of fun (j i : Fin n) => v i j) = 1 := by
    ext i j
    have := orthonormal_iff_ite.1 v.orthonormal j i
    rw [PiLp.inner_apply] at this
    simp only [mul_apply, transpose_apply, of_apply, one_apply]
    simpa [eq_comm] using this
  refine ⟨Matrix.of fun (j : Fin m) (i : Fin n) => b (Fin.castLE hmn i) j, s, Matrix.of fun (j i : Fin n) => v i j, ?_, hV, ?_, fun i => ?_, fun i j hij => ?_⟩
  · ext i j
    have := orthonormal_iff_ite.1 b.orthonormal (Fin.castLE hmn j) (Fin.castLE hmn i)
    rw [PiLp.inner_apply] at this
    simp only [mul_apply, transpose_apply, of_apply, one_apply]
    simpa [eq_comm] using this
  · have hA : A * (Matrix.of fun (j i : Fin n) => v i j) = (Matrix.of fun (j : Fin m) (i : Fin n) => b (Fin.castLE hmn i) j) * diagonal s := by
      ext j i
      have h1 : T (v i) j = (s i • b (Fin.castLE hmn i)) j := by rw [hTv]
      rw [mul_diagonal, mul_apply]
      simp only [of_apply]
      have h2 : T (v i) j = ∑ k, A j k * v i k := rfl
      rw [← h2, h1]
      simp [mul_comm]
    rw [← hA, Matrix.mul_assoc, mul_eq_one_comm.1 hV, Matrix.mul_one]
  · rw [hs]; exact Real.sqrt_nonneg _
  · rw [hs]; exact Real.sqrt_le_sqrt (hanti hij)

/-- Every matrix has a thin singular value decomposition. -/
theorem exists_thinSvd {m n : ℕ} (A : Matrix (Fin m) (Fin n) ℝ) : ∃ (k : ℕ) (U : Matrix (Fin m) (Fin k) ℝ) (s : Fin k → ℝ) (V : Matrix (Fin n) (Fin k) ℝ), IsThinSvd A U s V := by
  rcases le_total n m with h | h
  · obtain ⟨U, s, V, h1, h2, h3, h4, h5⟩ := exists_svd_tall h A
    exact ⟨n, U, s, V, (min_eq_right h).symm, h1, h2, h3, h4, fun i j hij => h5 hij⟩
  · obtain ⟨U, s, V, h1, h2, h3, h4, h5⟩ := exists_svd_tall h Aᵀ
    refine ⟨m, V, s, U, (min_eq_left h).symm, h2, h1, ?_, h4, fun i j hij => h5 hij⟩
    rw [← transpose_transpose A, ← h3]
    simp [Matrix.mul_assoc]

/-- Every square matrix has a full singular value decomposition: a function `svd` with the documented semantics exists. -/
theorem exists_gsvd (n : ℕ) : ∃ svd : Matrix (Fin n) (Fin n) ℝ → GSvd n, ∀ a, IsGSvd a (svd a) := by
  have h : ∀ a : Matrix (Fin n) (Fin n) ℝ, ∃ d : GSvd n, IsGSvd a d := fun a => by
    obtain ⟨U, s, V, h1, h2, h3, h4, h5⟩ := exists_svd_tall le_rfl a
    exact ⟨⟨U, s, Vᵀ⟩, h1, by simpa using h2, h3.symm, h4, h5⟩
  choose svd hsvd using h
  exact ⟨svd, hsvd⟩

end Verif.Dict
