import Verif.Dict.PropsProps
import Verif.Dict.SimpleProps
import Mathlib.Analysis.InnerProductSpace.PiL2
import Mathlib.Algebra.Order.Chebyshev

set_option autoImplicit false

/-!
# C151: mutual coherence of two dictionaries

`dict/props.py:95-112`.
-/
noncomputable section
namespace Verif.Dict
open Finset
variable {𝕜 : Type*} [RCLike 𝕜] {E : Type*} [NormedAddCommGroup E] [InnerProductSpace 𝕜 E]

/-- `mutual_coherence(A, B)` (dict/props.py:108-112). -/
def mutualCoherence (𝕜 : Type*) [RCLike 𝕜] {E : Type*} [NormedAddCommGroup E] [InnerProductSpace 𝕜 E] (a b : ℕ → E) (n p : ℕ) : ℝ :=
  (mutualCoherenceWithIndex 𝕜 a b n p).1

/-- The atoms `0 .. n-1` have unit norm and are mutually orthogonal. -/
def OrthoAtoms (𝕜 : Type*) [RCLike 𝕜] {E : Type*} [NormedAddCommGroup E] [InnerProductSpace 𝕜 E] (a : ℕ → E) (n : ℕ) : Prop :=
  ∀ i < n, ∀ j < n, inner 𝕜 (a i) (a j) = if i = j then (1 : 𝕜) else 0

/-- The number of non-zero coefficients. -/
def nnz {𝕜 : Type*} [RCLike 𝕜] (n : ℕ) (c : ℕ → 𝕜) : ℕ := by
  classical exact ((range n).filter fun i => c i ≠ 0).card

theorem mc_le (a b : ℕ → E) (n p : ℕ) {i j : ℕ} (hi : i < n) (hj : j < p) : ‖inner 𝕜 (a i) (b j)‖ ≤ mutualCoherence 𝕜 a b n p :=
  (c66_mutual_coherence a b n p (by omega) (by omega)).2.2.2 i hi j hj

/-- **C151** `mutual_coherence` is symmetric in its arguments, not negative, at most one for unit atoms, and zero exactly if every atom of `A` is orthogonal to every
atom of `B`. -/
theorem c151_range (a b : ℕ → E) (n p : ℕ) (hn : 0 < n) (hp : 0 < p) :
    mutualCoherence 𝕜 a b n p = mutualCoherence 𝕜 b a p n ∧ 0 ≤ mutualCoherence 𝕜 a b n p ∧
    ((∀ i < n, ‖a i‖ = 1) → (∀ j < p, ‖b j‖ = 1) → mutualCoherence 𝕜 a b n p ≤ 1) ∧
    (mutualCoherence 𝕜 a b n p = 0 ↔ ∀ i < n, ∀ j < p, inner 𝕜 (a i) (b j) = 0) := by
  obtain ⟨h1, h2, h3, h4⟩ := c66_mutual_coherence (𝕜 := 𝕜) a b n p hn hp
  obtain ⟨g1, g2, g3, g4⟩ := c66_mutual_coherence (𝕜 := 𝕜) b a p n hp hn
  have h0 : 0 ≤ mutualCoherence 𝕜 a b n p := by rw [mutualCoherence, h3]; exact norm_nonneg _
  refine ⟨le_antisymm ?_ ?_, h0, fun ha hb => ?_, fun h i hi j hj => ?_, fun h => ?_⟩
  · rw [mutualCoherence, h3, norm_inner_symm]; exact g4 _ h2 _ h1
  · rw [mutualCoherence, g3, norm_inner_symm]; exact h4 _ g2 _ g1
  · rw [mutualCoherence, h3]
    refine (norm_inner_le_norm _ _).trans ?_
    rw [ha _ h1, hb _ h2, one_mul]
  · exact norm_le_zero_iff.mp (h ▸ mc_le a b n p hi hj)
  · rw [mutualCoherence, h3, h _ h1 _ h2, norm_zero]

theorem ortho_norm (a : ℕ → E) (n : ℕ) (ha : OrthoAtoms 𝕜 a n) (c : ℕ → 𝕜) : ‖∑ i ∈ range n, c i • a i‖ ^ 2 = ∑ i ∈ range n, ‖c i‖ ^ 2 := by
  have h : inner 𝕜 (∑ i ∈ range n, c i • a i) (∑ i ∈ range n, c i • a i) = ((∑ i ∈ range n, ‖c i‖ ^ 2 : ℝ) : 𝕜) := by
    rw [sum_inner]
    push_cast
    refine sum_congr rfl fun i hi => ?_
    rw [inner_sum, sum_eq_single i]
    · rw [inner_smul_left, inner_smul_right, ha i (mem_range.mp hi) i (mem_range.mp hi), if_pos rfl, mul_one, RCLike.conj_mul]
    · intro j hj hne
      rw [inner_smul_left, inner_smul_right, ha i (mem_range.mp hi) j (mem_range.mp hj), if_neg (Ne.symm hne), mul_zero, mul_zero]
    · intro h; exact absurd hi h
  have h2 := @inner_self_eq_norm_sq_to_K 𝕜 E _ _ _ (∑ i ∈ range n, c i • a i)
  rw [h] at h2
  exact_mod_cast h2.symm

theorem l1_le_nnz (n : ℕ) (c : ℕ → 𝕜) : (∑ i ∈ range n, ‖c i‖) ^ 2 ≤ nnz n c * ∑ i ∈ range n, ‖c i‖ ^ 2 := by
  classical
  have e : ∀ f : 𝕜 → ℝ, f 0 = 0 → ∑ i ∈ range n, f (c i) = ∑ i ∈ (range n).filter fun i => c i ≠ 0, f (c i) := by
    intro f hf
    rw [sum_filter]
    refine sum_congr rfl fun i _ => ?_
    by_cases h : c i = 0
    · rw [if_neg (by simpa using h), h, hf]
    · rw [if_pos h]
  rw [e (fun z => ‖z‖) norm_zero, e (fun z => ‖z‖ ^ 2) (by simp)]
  have hc : (nnz n c : ℝ) = (((range n).filter fun i => c i ≠ 0).card : ℝ) := by
    unfold nnz
    congr!
  rw [hc]
  exact sq_sum_le_card_mul_sum_sq

/-- **C151** uncertainty principle: a non-zero signal with `s` coefficients in `A` and `t` coefficients in `B`, both with orthonormal atoms, has
`1 ≤ mu² s t` and `2 ≤ mu (s + t)`, where `mu` is the mutual coherence. -/
theorem c151_uncertainty (a b : ℕ → E) (n p : ℕ) (ha : OrthoAtoms 𝕜 a n) (hb : OrthoAtoms 𝕜 b p) (α β : ℕ → 𝕜) (x : E) (hx : x ≠ 0)
    (hxa : x = ∑ i ∈ range n, α i • a i) (hxb : x = ∑ j ∈ range p, β j • b j) :
    1 ≤ mutualCoherence 𝕜 a b n p ^ 2 * (nnz n α * nnz p β) ∧ 2 ≤ mutualCoherence 𝕜 a b n p * (nnz n α + nnz p β) := by
  have hn : 0 < n := Nat.pos_of_ne_zero fun h => hx (by rw [hxa, h, sum_range_zero])
  have hp : 0 < p := Nat.pos_of_ne_zero fun h => hx (by rw [hxb, h, sum_range_zero])
  set mu := mutualCoherence 𝕜 a b n p with hmu
  have hmu0 : 0 ≤ mu := (c151_range a b n p hn hp).2.1
  have hxpos : 0 < ‖x‖ := norm_pos_iff.mpr hx
  have e1 : ∑ i ∈ range n, ‖α i‖ ^ 2 = ‖x‖ ^ 2 := by rw [hxa, ortho_norm a n ha]
  have e2 : ∑ i ∈ range p, ‖β i‖ ^ 2 = ‖x‖ ^ 2 := by rw [hxb, ortho_norm b p hb]
  have hin : ‖x‖ ^ 2 ≤ mu * ((∑ i ∈ range n, ‖α i‖) * ∑ j ∈ range p, ‖β j‖) := by
    have h1 : ‖inner 𝕜 x x‖ = ‖x‖ ^ 2 := by rw [inner_self_eq_norm_sq_to_K, norm_pow, RCLike.norm_ofReal, abs_norm]
    have h2 : inner 𝕜 x x = ∑ i ∈ range n, ∑ j ∈ range p, starRingEnd 𝕜 (α i) * (β j * inner 𝕜 (a i) (b j)) := by
      conv_lhs => rw [hxa]
      rw [sum_inner]
      refine sum_congr rfl fun i _ => ?_
      rw [← hxa]
      conv_lhs => rw [hxb]
      rw [inner_sum]
      refine sum_congr rfl fun j _ => ?_
      rw [inner_smul_left, inner_smul_right]
    rw [← h1, h2, sum_mul_sum, mul_sum]
    refine (norm_sum_le _ _).trans (sum_le_sum fun i hi => ?_)
    rw [mul_sum]
    refine (norm_sum_le _ _).trans (sum_le_sum fun j hj => ?_)
    rw [norm_mul, norm_mul, RCLike.norm_conj]
    have := mc_le (𝕜 := 𝕜) a b n p (mem_range.mp hi) (mem_range.mp hj)
    calc ‖α i‖ * (‖β j‖ * ‖inner 𝕜 (a i) (b j)‖) ≤ ‖α i‖ * (‖β j‖ * mu) := by gcongr
      _ = mu * (‖α i‖ * ‖β j‖) := by ring
  have hA := l1_le_nnz n α
  have hB := l1_le_nnz p β
  rw [e1] at hA
  rw [e2] at hB
  have hsq : (‖x‖ ^ 2) ^ 2 ≤ mu ^ 2 * (nnz n α * nnz p β) * (‖x‖ ^ 2) ^ 2 := by
    calc (‖x‖ ^ 2) ^ 2 ≤ (mu * ((∑ i ∈ range n, ‖α i‖) * ∑ j ∈ range p, ‖β j‖)) ^ 2 := pow_le_pow_left₀ (by positivity) hin 2
      _ = mu ^ 2 * ((∑ i ∈ range n, ‖α i‖) ^ 2 * (∑ j ∈ range p, ‖β j‖) ^ 2) := by ring
      _ ≤ mu ^ 2 * ((nnz n α * ‖x‖ ^ 2) * (nnz p β * ‖x‖ ^ 2)) := by gcongr
      _ = _ := by ring
  have h1 : 1 ≤ mu ^ 2 * (nnz n α * nnz p β) := by
    have h4 : 0 < (‖x‖ ^ 2) ^ 2 := by positivity
    exact (le_mul_iff_one_le_left h4).mp hsq
  refine ⟨h1, ?_⟩
  have h2 : (2 : ℝ) ^ 2 ≤ (mu * (nnz n α + nnz p β)) ^ 2 := by
    have : (0 : ℝ) ≤ mu ^ 2 * ((nnz n α : ℝ) - nnz p β) ^ 2 := by positivity
    nlinarith
  exact le_of_sq_le_sq h2 (by positivity)

/-- **C151** uniqueness in a pair of orthonormal dictionaries: a representation of a signal by fewer than `1/mu` atoms of `A` and of `B` together is unique. -/
theorem c151_unique (a b : ℕ → E) (n p : ℕ) (ha : OrthoAtoms 𝕜 a n) (hb : OrthoAtoms 𝕜 b p) (α β α' β' : ℕ → 𝕜)
    (h : ∑ i ∈ range n, α i • a i + ∑ j ∈ range p, β j • b j = ∑ i ∈ range n, α' i • a i + ∑ j ∈ range p, β' j • b j)
    (hs : mutualCoherence 𝕜 a b n p * (nnz n α + nnz p β) < 1) (hs' : mutualCoherence 𝕜 a b n p * (nnz n α' + nnz p β') < 1) :
    (∀ i < n, α i = α' i) ∧ ∀ j < p, β j = β' j := by
  classical
  set x := ∑ i ∈ range n, (α i - α' i) • a i with hx
  have hxa : x = ∑ i ∈ range n, α i • a i - ∑ i ∈ range n, α' i • a i := by simp only [hx, sub_smul, sum_sub_distrib]
  have hxb : x = ∑ j ∈ range p, (β' j - β j) • b j := by
    simp only [sub_smul, sum_sub_distrib]
    rw [hxa, sub_eq_sub_iff_add_eq_add, h, add_comm]
  have hz : x = 0 := by
    by_contra hne
    have hn : 0 < n := Nat.pos_of_ne_zero fun h => hne (by rw [hx, h, sum_range_zero])
    have hp : 0 < p := Nat.pos_of_ne_zero fun h => hne (by rw [hxb, h, sum_range_zero])
    have h2 := (c151_uncertainty a b n p ha hb _ _ x hne hx hxb).2
    have hmu0 : 0 ≤ mutualCoherence 𝕜 a b n p := (c151_range a b n p hn hp).2.1
    have hsub : ∀ (m : ℕ) (c d : ℕ → 𝕜), nnz m (fun i => c i - d i) ≤ nnz m c + nnz m d := by
      intro m c d
      unfold nnz
      refine (card_le_card ?_).trans (card_union_le _ _)
      intro i hi
      rw [mem_filter] at hi
      rw [mem_union, mem_filter, mem_filter]
      by_cases hc : c i = 0
      · exact .inr ⟨hi.1, fun hd => hi.2 (by show c i - d i = 0; rw [hc, hd, sub_zero])⟩
      · exact .inl ⟨hi.1, hc⟩
    have k1 : (nnz n (fun i => α i - α' i) : ℝ) ≤ nnz n α + nnz n α' := by exact_mod_cast hsub n α α'
    have k2 : (nnz p (fun i => β' i - β i) : ℝ) ≤ nnz p β' + nnz p β := by exact_mod_cast hsub p β' β
    nlinarith [mul_le_mul_of_nonneg_left (add_le_add k1 k2) hmu0]
  have key : ∀ (m : ℕ) (c : ℕ → E) (hc : OrthoAtoms 𝕜 c m) (γ : ℕ → 𝕜), ∑ i ∈ range m, γ i • c i = 0 → ∀ i < m, γ i = 0 := by
    intro m c hc γ h0 i hi
    have := ortho_norm c m hc γ
    rw [h0, norm_zero, zero_pow two_ne_zero] at this
    have := (sum_eq_zero_iff_of_nonneg fun i _ => sq_nonneg _).mp this.symm i (mem_range.mpr hi)
    simpa using this
  exact ⟨fun i hi => sub_eq_zero.mp (key n a ha _ (hx.symm.trans hz) i hi), fun j hj => (sub_eq_zero.mp (key p b hb _ (hxb.symm.trans hz) j hj)).symm⟩

/-- **C151** two orthonormal bases of an `n`-dimensional space have mutual coherence at least `1/√n`. -/
theorem c151_bases [FiniteDimensional 𝕜 E] (a b : ℕ → E) (n : ℕ) (hn : 0 < n) (hd : Module.finrank 𝕜 E = n) (ha : OrthoAtoms 𝕜 a n) (hb : OrthoAtoms 𝕜 b n) :
    1 / Real.sqrt n ≤ mutualCoherence 𝕜 a b n n := by
  have hmu0 : 0 ≤ mutualCoherence 𝕜 a b n n := (c151_range a b n n hn hn).2.1
  have hortho : Orthonormal 𝕜 (fun i : Fin n => b i) := by
    rw [orthonormal_iff_ite]
    intro i j
    rw [hb i i.2 j j.2]
    simp only [Fin.ext_iff]
  haveI : Nonempty (Fin n) := ⟨⟨0, hn⟩⟩
  let B := OrthonormalBasis.mk hortho (by rw [hortho.linearIndependent.span_eq_top_of_card_eq_finrank (by rw [Fintype.card_fin, hd])])
  have hpars := B.sum_sq_norm_inner_right (a 0)
  have h1 : ‖a 0‖ ^ 2 = 1 := by
    have h := ha 0 hn 0 hn
    rw [if_pos rfl, inner_self_eq_norm_sq_to_K] at h
    exact_mod_cast h
  rw [h1] at hpars
  have hle : (1 : ℝ) ≤ n * mutualCoherence 𝕜 a b n n ^ 2 := by
    rw [← hpars]
    calc ∑ i, ‖inner 𝕜 (B i) (a 0)‖ ^ 2 ≤ ∑ _i : Fin n, mutualCoherence 𝕜 a b n n ^ 2 := by
          refine Finset.sum_le_sum fun i _ => pow_le_pow_left₀ (norm_nonneg _) ?_ 2
          rw [OrthonormalBasis.coe_mk, norm_inner_symm]
          exact mc_le a b n n hn i.2
      _ = _ := by simp
  have hs : 0 < Real.sqrt n := Real.sqrt_pos.mpr (by exact_mod_cast hn)
  rw [div_le_iff₀ hs]
  refine le_of_sq_le_sq ?_ (by positivity)
  rw [mul_pow, Real.sq_sqrt (by positivity), one_pow, mul_comm]
  exact hle

/-- Column `j` of a matrix with `n` rows as a vector. -/
def colVec (n : ℕ) (M : ℕ → ℕ → ℝ) (j : ℕ) : EuclideanSpace ℝ (Fin n) := WithLp.toLp 2 fun i => M i j

theorem colVec_inner (n : ℕ) (M N : ℕ → ℕ → ℝ) (i j : ℕ) : inner ℝ (colVec n M i) (colVec n N j) = ∑ q ∈ range n, M q i * N q j := by
  rw [colVec, colVec, PiLp.inner_apply, ← Fin.sum_univ_eq_sum_range fun q => M q i * N q j]
  refine Finset.sum_congr rfl fun q _ => ?_
  simp [mul_comm]

/-- The identity matrix. -/
def idMat (i j : ℕ) : ℝ := if i = j then 1 else 0

theorem idMat_sum (n : ℕ) (B : ℕ → ℕ → ℝ) (i j : ℕ) (hi : i < n) : ∑ q ∈ range n, idMat q i * B q j = B i j := by
  rw [sum_eq_single i]
  · simp [idMat]
  · intro q _ hq; simp [idMat, hq]
  · intro h; exact absurd (mem_range.mpr hi) h

theorem ortho_id (n : ℕ) : OrthoAtoms ℝ (colVec n idMat) n := by
  intro i hi j hj
  rw [colVec_inner, idMat_sum n _ i j hi]; rfl

theorem ortho_hadamard (n : ℕ) (B : ℕ → ℕ → ℝ) (h : hadamardBasis n = some B) : OrthoAtoms ℝ (colVec n B) n := by
  intro i hi j hj
  rw [colVec_inner]; exact (c69_basis n B h).1 i hi j hj

/-- **C151** the identity and `hadamard_basis(n)` attain the smallest possible mutual coherence `1/√n`. -/
theorem c151_dirac_hadamard (n : ℕ) (B : ℕ → ℕ → ℝ) (h : hadamardBasis n = some B) :
    mutualCoherence ℝ (colVec n idMat) (colVec n B) n n = 1 / Real.sqrt n := by
  have hn : 0 < n := by
    obtain ⟨H, hH, -⟩ := Option.map_eq_some_iff.mp h
    obtain ⟨k, rfl⟩ := (c69_domain n).mp ⟨H, hH⟩
    positivity
  obtain ⟨h1, h2, h3, h4⟩ := c66_mutual_coherence (𝕜 := ℝ) (colVec n idMat) (colVec n B) n n hn hn
  rw [mutualCoherence, h3, colVec_inner, idMat_sum n B _ _ h1, Real.norm_eq_abs]
  exact (c69_basis n B h).2.1 _ h1 _ h2

/-- **C151** the synthesis of a signal with `dirac_hadamard_basis(n)` is injective on coefficient vectors with fewer than `√n` non-zero entries. -/
theorem c151_dirac_hadamard_unique (n : ℕ) (D : ℕ → ℕ → ℝ) (h : diracHadamardBasis n = some D) (c c' : ℕ → ℝ)
    (he : ∀ i < n, ∑ j ∈ range (2 * n), D i j * c j = ∑ j ∈ range (2 * n), D i j * c' j)
    (hc : (nnz (2 * n) c : ℝ) < Real.sqrt n) (hc' : (nnz (2 * n) c' : ℝ) < Real.sqrt n) : ∀ j < 2 * n, c j = c' j := by
  classical
  obtain ⟨B, hB, -⟩ := Option.map_eq_some_iff.mp h
  obtain ⟨-, -, D', hD', hd1, hd2, -⟩ := c69_basis n B hB
  obtain rfl := Option.some.inj (h.symm.trans hD')
  have hs : 0 < Real.sqrt n := lt_of_le_of_lt (Nat.cast_nonneg _) hc
  have hsplit : ∀ d : ℕ → ℝ, ∀ i < n, ∑ j ∈ range (2 * n), D i j * d j = ∑ j ∈ range n, idMat i j * d j + ∑ j ∈ range n, B i j * d (n + j) := by
    intro d i hi
    rw [two_mul, sum_range_add]
    congr 1
    · refine sum_congr rfl fun j hj => ?_
      rw [hd1 i hi j (mem_range.mp hj)]; rfl
    · refine sum_congr rfl fun j hj => ?_
      rw [hd2 i hi j (mem_range.mp hj)]
  have hcount : ∀ d : ℕ → ℝ, (nnz n d : ℝ) + nnz n (fun j => d (n + j)) = nnz (2 * n) d := by
    intro d
    have : nnz n d + nnz n (fun j => d (n + j)) = nnz (2 * n) d := by
      unfold nnz
      simp only [card_filter]
      rw [two_mul, sum_range_add]
    exact_mod_cast this
  have hsyn : ∀ d : ℕ → ℝ, ∀ i : Fin n, (∑ j ∈ range n, d j • colVec n idMat j + ∑ j ∈ range n, d (n + j) • colVec n B j) i =
      ∑ j ∈ range (2 * n), D i j * d j := by
    intro d i
    rw [hsplit d i i.2]
    simp only [PiLp.add_apply, WithLp.ofLp_sum, Finset.sum_apply, WithLp.ofLp_smul, Pi.smul_apply, colVec, smul_eq_mul]
    congr 1 <;> exact sum_congr rfl fun j _ => mul_comm _ _
  have hmu := c151_dirac_hadamard n B hB
  have key := c151_unique (colVec n idMat) (colVec n B) n n (ortho_id n) (ortho_hadamard n B hB) c (fun j => c (n + j)) c' (fun j => c' (n + j))
    (by ext i; rw [hsyn c i, hsyn c' i]; exact he i i.2)
    (by rw [hmu, hcount, one_div_mul_eq_div, div_lt_one hs]; exact hc)
    (by rw [hmu, hcount, one_div_mul_eq_div, div_lt_one hs]; exact hc')
  intro j hj
  by_cases hjn : j < n
  · exact key.1 j hjn
  · have := key.2 (j - n) (by omega)
    rwa [show n + (j - n) = j by omega] at this

theorem ex_hadamard16 : ∃ B, hadamardBasis 16 = some B := by
  obtain ⟨H, hH⟩ := (c69_domain 16).mpr ⟨4, rfl⟩
  exact ⟨_, by rw [hadamardBasis, hH, Option.map_some]⟩

example := c151_range (𝕜 := ℝ) (colVec 16 idMat) (colVec 16 idMat) 16 16 (by norm_num) (by norm_num)

/-- The coherence bound for the two bases of dimension 16: `1/4`. -/
example : ∃ B, (1 : ℝ) / Real.sqrt 16 ≤ mutualCoherence ℝ (colVec 16 idMat) (colVec 16 B) 16 16 := by
  obtain ⟨B, hB⟩ := ex_hadamard16
  exact ⟨B, by exact_mod_cast c151_bases (colVec 16 idMat) (colVec 16 B) 16 (by norm_num) (by simp) (ortho_id 16) (ortho_hadamard 16 B hB)⟩

/-- A unit impulse has at least `16` non-zero Hadamard coefficients: one coefficient in the first basis and `s` in the second have `1 ≤ s / 16`. -/
example : ∃ B, ∀ β : ℕ → ℝ, colVec 16 idMat 3 = ∑ j ∈ range 16, β j • colVec 16 B j → 16 ≤ nnz 16 β := by
  classical
  obtain ⟨B, hB⟩ := ex_hadamard16
  refine ⟨B, fun β h => ?_⟩
  have hx : colVec 16 idMat 3 = ∑ i ∈ range 16, (Pi.single 3 1 : ℕ → ℝ) i • colVec 16 idMat i := by
    rw [sum_eq_single 3]
    · simp
    · intro i _ hi; rw [Pi.single_eq_of_ne hi, zero_smul]
    · intro hh; exact absurd (mem_range.mpr (by norm_num)) hh
  have hne : colVec 16 idMat 3 ≠ 0 := by
    intro h0
    have := (ortho_id 16) 3 (by norm_num) 3 (by norm_num)
    rw [h0, inner_zero_left, if_pos rfl] at this
    exact absurd this (by norm_num)
  have := (c151_uncertainty _ _ 16 16 (ortho_id 16) (ortho_hadamard 16 B hB) _ β _ hne hx h).1
  rw [c151_dirac_hadamard 16 B hB] at this
  have h1 : nnz 16 (Pi.single 3 1 : ℕ → ℝ) ≤ 1 := by
    unfold nnz
    refine card_le_one.mpr fun a ha b hb => ?_
    simp only [mem_filter, Pi.single_apply, ne_eq, ite_eq_right_iff, one_ne_zero, imp_false, not_not] at ha hb
    rw [ha.2, hb.2]
  have h1' : (nnz 16 (Pi.single 3 1 : ℕ → ℝ) : ℝ) ≤ 1 := by exact_mod_cast h1
  rw [div_pow, Real.sq_sqrt (by norm_num), one_pow] at this
  have h3 : (16 : ℝ) ≤ nnz 16 β := by
    have h4 : (0 : ℝ) ≤ nnz 16 β := Nat.cast_nonneg _
    have h5 := mul_le_mul_of_nonneg_right h1' h4
    push_cast at this
    linarith
  exact_mod_cast h3

example : ∃ D, diracHadamardBasis 16 = some D := by
  obtain ⟨B, hB⟩ := ex_hadamard16
  obtain ⟨-, -, D, hD, -⟩ := c69_basis 16 B hB
  exact ⟨D, hD⟩

end Verif.Dict
