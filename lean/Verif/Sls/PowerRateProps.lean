import Verif.Sls.PowerRate

set_option autoImplicit false
/-!
# Convergence of `normest` and `power_iterations` (C124)
-/
noncomputable section
namespace Verif.Sls
open Verif.Loop

section normest
variable {𝕜 E F : Type*} [RCLike 𝕜] [NormedAddCommGroup E] [InnerProductSpace 𝕜 E] [NormedAddCommGroup F] [InnerProductSpace 𝕜 F]
variable (A : E →L[𝕜] F) (At : F → E) (hadj : ∀ x y, inner 𝕜 x (At y) = inner 𝕜 (A x) y)

include hadj in
theorem psdFun_gram : PsdFun 𝕜 (fun x => At (A x)) where
  sym x y := by
    show inner 𝕜 (At (A x)) y = inner 𝕜 x (At (A y))
    rw [hadj, ← inner_conj_symm, hadj, inner_conj_symm]
  cs x y := by
    simp only [hadj, inner_self_eq_norm_sq]
    rw [← mul_pow]
    exact pow_le_pow_left₀ (norm_nonneg _) (norm_inner_le_norm _ _) 2
  smul c x := by
    refine ext_inner_left 𝕜 fun v => ?_
    rw [hadj, inner_smul_right, hadj, map_smul, inner_smul_right]

include hadj in
theorem rq_gram (x : E) : rq 𝕜 (fun x => At (A x)) x = ‖A x‖ ^ 2 / ‖x‖ ^ 2 := by
  unfold rq
  rw [hadj, inner_self_eq_norm_sq]

include hadj in
/-- A unit vector at which the norm is attained is an eigenvector of `Aᴴ A`. -/
theorem gram_eig {e : E} (he1 : ‖e‖ = 1) (he : ‖A e‖ = ‖A‖) : At (A e) = ((‖A‖ ^ 2 : ℝ) : 𝕜) • e := by
  have hAt : ∀ y, ‖At y‖ ≤ ‖A‖ * ‖y‖ := by
    intro y
    have h1 : ‖At y‖ ^ 2 ≤ (‖A‖ * ‖At y‖) * ‖y‖ := by
      have e1 : ‖inner 𝕜 (At y) (At y)‖ = ‖At y‖ ^ 2 := by rw [inner_self_eq_norm_sq_to_K, norm_pow]; simp
      rw [← e1, hadj]
      exact (norm_inner_le_norm _ _).trans (mul_le_mul_of_nonneg_right (A.le_opNorm _) (norm_nonneg _))
    rcases (norm_nonneg (At y)).eq_or_lt with h | h
    · rw [← h]; positivity
    · have : ‖At y‖ * ‖At y‖ ≤ ‖At y‖ * (‖A‖ * ‖y‖) := by nlinarith
      exact le_of_mul_le_mul_left this h
  have h2 := hAt (A e)
  rw [he] at h2
  have hz : ‖At (A e) - ((‖A‖ ^ 2 : ℝ) : 𝕜) • e‖ ^ 2 ≤ 0 := by
    have hin : inner 𝕜 (At (A e)) e = (((‖A‖ ^ 2 : ℝ)) : 𝕜) := by
      rw [← inner_conj_symm, hadj, inner_self_eq_norm_sq_to_K, he]; simp
    rw [@norm_sub_sq 𝕜, inner_smul_right, hin, norm_smul, RCLike.norm_ofReal, he1, RCLike.re_ofReal_mul, RCLike.ofReal_re, mul_one, sq_abs]
    have h3 : ‖At (A e)‖ ^ 2 ≤ (‖A‖ ^ 2) ^ 2 := pow_le_pow_left₀ (norm_nonneg _) (by nlinarith) 2
    nlinarith
  have : ‖At (A e) - ((‖A‖ ^ 2 : ℝ) : 𝕜) • e‖ = 0 := by
    have := sq_nonneg ‖At (A e) - ((‖A‖ ^ 2 : ℝ) : 𝕜) • e‖
    exact pow_eq_zero_iff two_ne_zero |>.mp (le_antisymm hz this)
  exact sub_eq_zero.mp (norm_eq_zero.mp this)

/-- In finite dimension the norm is attained. -/
theorem exists_leading [FiniteDimensional 𝕜 E] [Nontrivial E] : ∃ e : E, ‖e‖ = 1 ∧ ‖A e‖ = ‖A‖ := by
  haveI : ProperSpace E := FiniteDimensional.proper 𝕜 E
  have hne : (Metric.sphere (0 : E) 1).Nonempty := by
    obtain ⟨x, hx⟩ := exists_ne (0 : E)
    exact ⟨((‖x‖⁻¹ : ℝ) : 𝕜) • x, by rw [mem_sphere_zero_iff_norm]; exact norm_unit (norm_ne_zero_iff.mpr hx)⟩
  obtain ⟨e, he, hmax⟩ := (isCompact_sphere (0 : E) 1).exists_isMaxOn hne (f := fun x => ‖A x‖) (by fun_prop)
  have he1 : ‖e‖ = 1 := by simpa using he
  refine ⟨e, he1, le_antisymm (by simpa [he1] using A.le_opNorm e) ?_⟩
  refine A.opNorm_le_bound (norm_nonneg _) fun x => ?_
  by_cases hx : x = 0
  · simp [hx]
  · have hx0 : ‖x‖ ≠ 0 := norm_ne_zero_iff.mpr hx
    have h1 : ‖A (((‖x‖⁻¹ : ℝ) : 𝕜) • x)‖ ≤ ‖A e‖ := hmax (by rw [mem_sphere_zero_iff_norm]; exact norm_unit hx0)
    rw [map_smul, norm_smul, RCLike.norm_ofReal, abs_of_nonneg (by positivity), inv_mul_eq_div, div_le_iff₀ (by positivity)] at h1
    exact h1

variable {A At}

include hadj in
/-- The states of `normest`. -/
theorem ne_powInv {e : E} (he1 : ‖e‖ = 1) (he : ‖A e‖ = ‖A‖) (hA0 : 0 < ‖A‖) (b : E) (hb : inner 𝕜 e b ≠ 0) (N : ℕ) (tol : ℝ)
    (st : Option (PState E)) (h : Reach (pCond N tol) (neBody 𝕜 (⇑A) At) (neInit 𝕜 b) st) : PowInv 𝕜 (fun x => At (A x)) b st := by
  have hB := psdFun_gram A At hadj
  have hl : (0 : ℝ) < ‖A‖ ^ 2 := by positivity
  have hei := gram_eig A At hadj he1 he
  refine h.inv _ ?_ fun s hs _ => ?_
  · have hbn : ‖b‖ ≠ 0 := norm_ne_zero_iff.mpr fun h => hb (by rw [h, inner_zero_right])
    unfold neInit
    rw [if_neg hbn]
    exact ⟨⟨‖b‖⁻¹, by positivity, rfl⟩, rfl, rfl⟩
  · cases s with
    | none => exact hs.elim
    | some s =>
      obtain ⟨⟨c, hc, hv⟩, hnew, hold⟩ := hs
      have hx := (iter_ne_zero (B := fun x => At (A x)) hB hei hl b hb s.iters).2
      have hc' : (c : 𝕜) ≠ 0 := by exact_mod_cast hc.ne'
      have hv0 : ‖s.v‖ ≠ 0 := by rw [hv]; exact norm_ne_zero_iff.mpr (smul_ne_zero hc' hx)
      simp only [neBody]
      rw [if_neg hv0]
      have hnv : ((‖s.v‖⁻¹ : ℝ) : 𝕜) ≠ 0 := by exact_mod_cast inv_ne_zero hv0
      refine ⟨⟨‖s.v‖⁻¹ * c, by positivity, ?_⟩, ?_, ?_⟩
      · show At (A (((‖s.v‖⁻¹ : ℝ) : 𝕜) • s.v)) = _
        rw [Function.iterate_succ_apply', ← hB.smul]
        congr 2
        conv_lhs => rw [hv]
        rw [smul_smul]
        congr 1
        push_cast; rw [← hv]
      · show ‖inner 𝕜 (((‖s.v‖⁻¹ : ℝ) : 𝕜) • s.v) (At (A (((‖s.v‖⁻¹ : ℝ) : 𝕜) • s.v)))‖ = rq 𝕜 (fun x => At (A x)) _
        rw [ne_est A At hadj, ← rq_smul hB (mul_ne_zero hnv hc'), ← smul_smul, ← hv, rq_gram A At hadj, norm_unit hv0]
        simp
      · show s.new = estAt 𝕜 _ b s.iters
        exact hnew

include hadj in
/-- **C124** rate of `normest`: if the norm of `A` is attained at the unit vector `e` (in finite dimension there is such a vector) and the start
vector is not orthogonal to it, then after any number `k ≥ 1` of iterations the state is not `nan` and its estimate `σ = √new` satisfies
`cos θ · |A|^(2k-1) ≤ σ^(2k-1) ≤ |A|^(2k-1)`, where `θ` is the angle between the start and `e`. No spectral gap is assumed. -/
theorem c124_normest_rate {e : E} (he1 : ‖e‖ = 1) (he : ‖A e‖ = ‖A‖) (hA0 : A ≠ 0) (b : E) (hb : inner 𝕜 e b ≠ 0) (N : ℕ) (tol : ℝ)
    (st : Option (PState E)) (h : Reach (pCond N tol) (neBody 𝕜 (⇑A) At) (neInit 𝕜 b) st) :
    ∃ s, st = some s ∧ (1 ≤ s.iters → ‖inner 𝕜 e b‖ / ‖b‖ * ‖A‖ ^ (2 * s.iters - 1) ≤ Real.sqrt s.new ^ (2 * s.iters - 1) ∧
      Real.sqrt s.new ≤ ‖A‖) := by
  have hAp : 0 < ‖A‖ := norm_pos_iff.mpr hA0
  have hinv := ne_powInv hadj he1 he hAp b hb N tol st h
  cases st with
  | none => exact hinv.elim
  | some s =>
    refine ⟨s, rfl, fun hs => ⟨?_, ?_⟩⟩
    · have h1 := estAt_lower (psdFun_gram A At hadj) (gram_eig A At hadj he1 he) (by positivity) he1 b hb s.iters hs
      rw [← hinv.2.1] at h1
      have h2 : 0 ≤ s.new := by
        rcases ne_inv A At hadj b N tol _ h with ⟨h0, _⟩ | ⟨_, u, _, hn, _⟩
        · omega
        · rw [hn]; positivity
      refine le_of_sq_le_sq ?_ (by positivity)
      calc (‖inner 𝕜 e b‖ / ‖b‖ * ‖A‖ ^ (2 * s.iters - 1)) ^ 2 = (‖A‖ ^ 2) ^ (2 * s.iters - 1) * (‖inner 𝕜 e b‖ / ‖b‖) ^ 2 := by
            rw [mul_pow, ← pow_mul, ← pow_mul]; ring
        _ ≤ s.new ^ (2 * s.iters - 1) := h1
        _ = (Real.sqrt s.new ^ (2 * s.iters - 1)) ^ 2 := by rw [pow_right_comm, Real.sq_sqrt h2]
    · rcases ne_inv A At hadj b N tol _ h with ⟨h0, _⟩ | ⟨_, u, hu, hn, _⟩
      · omega
      · rw [hn, Real.sqrt_sq (norm_nonneg _)]
        simpa [hu] using A.le_opNorm u

include hadj in
/-- **C124** with `error_tolerance = 0` the result of `normest` converges to the norm: it is never `nan`, and for every `ε` all large enough
iteration limits give an estimate in `((1 - ε) |A|, |A|]`. (The norm is below `1e10`, the start value of the estimate.) -/
theorem c124_normest_converges {e : E} (he1 : ‖e‖ = 1) (he : ‖A e‖ = ‖A‖) (hA0 : A ≠ 0) (hA1 : ‖A‖ < 1e10) (b : E) (hb : inner 𝕜 e b ≠ 0)
    (ε : ℝ) (hε : 0 < ε) : ∃ K, ∀ N, K ≤ N → ∀ res, NormEst 𝕜 (⇑A) At b N 0 res → ∃ s, res = some s ∧ ‖A‖ * (1 - ε) < s ∧ s ≤ ‖A‖ := by
  have hAp : 0 < ‖A‖ := norm_pos_iff.mpr hA0
  have hb0 : 0 < ‖b‖ := norm_pos_iff.mpr fun h => hb (by rw [h, inner_zero_right])
  have hc0 : 0 < ‖inner 𝕜 e b‖ / ‖b‖ := div_pos (norm_pos_iff.mpr hb) hb0
  obtain ⟨K, hK⟩ := root_limit hAp hc0 ε hε
  refine ⟨K + 1, fun N hN res ⟨st, ⟨hr, hc⟩, hres⟩ => ?_⟩
  have hinv := ne_powInv hadj he1 he hAp b hb N 0 st hr
  obtain ⟨s, rfl, hs⟩ := c124_normest_rate hadj he1 he hA0 b hb N 0 st hr
  have hle : pCnt N (some s) ≤ N := by
    refine hr.inv (fun st => pCnt N st ≤ N) ?_ fun s _ hs => ?_
    · unfold neInit; split <;> simp [pCnt]
    · cases s with
      | none => exact hs.elim
      | some s =>
        simp only [neBody]
        split
        · exact le_rfl
        · exact hs.1
  have hsmall : ∀ x : E, x ≠ 0 → rq 𝕜 (fun x => At (A x)) x < 1e20 := by
    intro x hx
    have hx0 : 0 < ‖x‖ := norm_pos_iff.mpr hx
    rw [rq_gram A At hadj, div_lt_iff₀ (by positivity)]
    have h1 := A.le_opNorm x
    have h2 : ‖A x‖ ^ 2 ≤ (‖A‖ * ‖x‖) ^ 2 := pow_le_pow_left₀ (norm_nonneg _) h1 2
    have h3 : ‖A‖ ^ 2 < (1e10 : ℝ) ^ 2 := pow_lt_pow_left₀ hA1 (norm_nonneg _) two_ne_zero
    have h4 : (1e10 : ℝ) ^ 2 = 1e20 := by norm_num
    rw [h4] at h3
    rw [mul_pow] at h2
    have : 0 < ‖x‖ ^ 2 := by positivity
    nlinarith
  obtain ⟨hlow, hpos⟩ := powInv_zero_tol (psdFun_gram A At hadj) (gram_eig A At hadj he1 he) (by positivity) he1 b hb hsmall N (by omega) s hinv
    hle hc
  refine ⟨Real.sqrt s.new, hres, ?_, ?_⟩
  · refine hK N (by omega) _ (Real.sqrt_pos.mpr hpos) ?_
    refine le_of_sq_le_sq ?_ (by positivity)
    calc (‖A‖ ^ (2 * N - 1) * (‖inner 𝕜 e b‖ / ‖b‖)) ^ 2 = (‖A‖ ^ 2) ^ (2 * N - 1) * (‖inner 𝕜 e b‖ / ‖b‖) ^ 2 := by
          rw [mul_pow, ← pow_mul, ← pow_mul]; ring
      _ ≤ s.new ^ (2 * N - 1) := hlow
      _ = (Real.sqrt s.new ^ (2 * N - 1)) ^ 2 := by rw [pow_right_comm, Real.sq_sqrt hpos.le]
  · refine (hs ?_).2
    by_contra h0
    apply hc
    have h0' : s.iters = 0 := by omega
    have hn := hinv.2.1
    have ho := hinv.2.2
    rw [h0'] at hn ho
    simp only [estAt] at hn ho
    refine ⟨by omega, ?_⟩
    rw [if_neg (by rw [ho]; norm_num), ho, hn]
    norm_num

end normest

/-! ## Power iterations -/

section power
variable {E : Type*} [NormedAddCommGroup E] [InnerProductSpace ℝ E]

theorem psdFun_linear (A : E →ₗ[ℝ] E) (hA : A.IsSymmetric) (hpos : ∀ x, 0 ≤ inner ℝ x (A x)) : PsdFun ℝ (⇑A) where
  sym x y := hA x y
  cs x y := by
    simp only [RCLike.re_to_real, Real.norm_eq_abs, sq_abs]
    exact psd_cs A hA hpos x y
  smul c x := map_smul A c x

theorem pw_powInv (A : E →ₗ[ℝ] E) (hA : A.IsSymmetric) (hpos : ∀ x, 0 ≤ inner ℝ x (A x)) {e : E} {lam : ℝ} (he : A e = lam • e)
    (hl : 0 < lam) (b : E) (hb : inner ℝ e b ≠ (0 : ℝ)) (N : ℕ) (tol : ℝ) (st : Option (PState E))
    (h : Reach (pCond N tol) (pwBody A) (some { v := b, old := -1e20, new := 1e20, iters := 0 }) st) : PowInv ℝ (⇑A) b st := by
  have hB := psdFun_linear A hA hpos
  refine h.inv _ ⟨⟨1, one_pos, by simp⟩, rfl, rfl⟩ fun s hs _ => ?_
  cases s with
  | none => exact hs.elim
  | some s =>
    obtain ⟨⟨c, hc, hv⟩, hnew, hold⟩ := hs
    have hx := (iter_ne_zero (𝕜 := ℝ) (B := ⇑A) hB he hl b hb s.iters).2
    have hv0 : ‖s.v‖ ≠ 0 := by rw [hv]; exact norm_ne_zero_iff.mpr (smul_ne_zero hc.ne' hx)
    simp only [pwBody]
    rw [if_neg hv0]
    have hnv : ‖s.v‖⁻¹ ≠ 0 := inv_ne_zero hv0
    refine ⟨⟨‖s.v‖⁻¹ * c, by positivity, ?_⟩, ?_, hnew⟩
    · show A (‖s.v‖⁻¹ • s.v) = (‖s.v‖⁻¹ * c) • (⇑A)^[s.iters + 1] b
      rw [Function.iterate_succ_apply', ← map_smul, ← smul_smul]
      congr 2
    · show inner ℝ (‖s.v‖⁻¹ • s.v) (A (‖s.v‖⁻¹ • s.v)) = rq ℝ (⇑A) ((⇑A)^[s.iters] b)
      rw [← rq_smul hB (mul_ne_zero hnv hc.ne'), ← smul_smul]
      have : c • (⇑A)^[s.iters] b = s.v := hv.symm
      rw [this]
      unfold rq
      have hn : ‖‖s.v‖⁻¹ • s.v‖ = 1 := by simpa using norm_unit (𝕜 := ℝ) hv0
      rw [hn]; simp

/-- **C124** rate of `power_iterations` for a symmetric positive semidefinite operator: for every eigenvector `e` (unit, eigenvalue `λ > 0`) that is
not orthogonal to the start vector, after any number `k ≥ 1` of iterations the state is not `nan` and its estimate `s` satisfies
`cos² θ · λ^(2k-1) ≤ s^(2k-1)`. With `e` belonging to the largest eigenvalue and `c23_power_iterations_partial` this brackets the estimate. -/
theorem c124_power_iterations_rate (A : E →ₗ[ℝ] E) (hA : A.IsSymmetric) (hpos : ∀ x, 0 ≤ inner ℝ x (A x)) {e : E} {lam : ℝ} (he1 : ‖e‖ = 1)
    (he : A e = lam • e) (hl : 0 < lam) (b : E) (hb : inner ℝ e b ≠ (0 : ℝ)) (N : ℕ) (tol : ℝ) (st : Option (PState E))
    (h : Reach (pCond N tol) (pwBody A) (some { v := b, old := -1e20, new := 1e20, iters := 0 }) st) :
    ∃ s, st = some s ∧ (1 ≤ s.iters → (|inner ℝ e b| / ‖b‖) ^ 2 * lam ^ (2 * s.iters - 1) ≤ s.new ^ (2 * s.iters - 1)) := by
  have hinv := pw_powInv A hA hpos he hl b hb N tol st h
  cases st with
  | none => exact hinv.elim
  | some s =>
    refine ⟨s, rfl, fun hs => ?_⟩
    have h1 := estAt_lower (𝕜 := ℝ) (psdFun_linear A hA hpos) he hl he1 b hb s.iters hs
    rw [← hinv.2.1, Real.norm_eq_abs, mul_comm] at h1
    exact h1

/-- **C124** with `error_tolerance = 0` the eigenvalue returned by `power_iterations` converges to the largest eigenvalue `λ` of a positive
semidefinite operator (below the start value `1e20`), from every start vector not orthogonal to an eigenvector `e` of `λ`: for every `ε` all
large enough iteration limits give an estimate in `((1 - ε) λ, λ]`, never `nan`. -/
theorem c124_power_iterations_converges [FiniteDimensional ℝ E] (A : E →ₗ[ℝ] E) (hA : A.IsSymmetric) (hpos : ∀ x, 0 ≤ inner ℝ x (A x)) {e : E}
    {lam : ℝ} (he1 : ‖e‖ = 1) (he : A e = lam • e) (hl : 0 < lam) (hmax : ∀ μ : ℝ, Module.End.HasEigenvalue A μ → μ ≤ lam) (hl1 : lam < 1e20)
    (b : E) (hb : inner ℝ e b ≠ (0 : ℝ)) (ε : ℝ) (hε : 0 < ε) :
    ∃ K, ∀ N, K ≤ N → ∀ res, PowerIter A b N 0 res → ∃ v s k, res = some (v, s, k) ∧ lam * (1 - ε) < s ∧ s ≤ lam := by
  have hb0 : 0 < ‖b‖ := norm_pos_iff.mpr fun h => hb (by rw [h, inner_zero_right])
  have hc0 : 0 < (‖inner ℝ e b‖ / ‖b‖) ^ 2 := pow_pos (div_pos (norm_pos_iff.mpr hb) hb0) 2
  obtain ⟨K, hK⟩ := root_limit hl hc0 ε hε
  refine ⟨K + 1, fun N hN res hres => ?_⟩
  obtain ⟨st, ⟨hr, hc⟩, hres'⟩ := id hres
  have hinv := pw_powInv A hA hpos he hl b hb N 0 st hr
  cases st with
  | none => exact hinv.elim
  | some s =>
    have hle : pCnt N (some s) ≤ N := by
      refine hr.inv (fun st => pCnt N st ≤ N) (by simp [pCnt]) fun s _ hs => ?_
      cases s with
      | none => exact hs.elim
      | some s =>
        simp only [pwBody]
        split
        · exact le_rfl
        · exact hs.1
    have hsmall : ∀ x : E, x ≠ 0 → rq ℝ (⇑A) x < 1e20 := by
      intro x hx
      refine lt_of_le_of_lt ?_ hl1
      have hx0 : ‖x‖ ≠ 0 := norm_ne_zero_iff.mpr hx
      rw [← rq_smul (psdFun_linear A hA hpos) (inv_ne_zero hx0)]
      have hn : ‖‖x‖⁻¹ • x‖ = 1 := by simpa using norm_unit (𝕜 := ℝ) hx0
      unfold rq
      rw [hn]
      simpa using rayleigh_le A hA lam hmax _ hn
    obtain ⟨hlow, hp⟩ := powInv_zero_tol (𝕜 := ℝ) (psdFun_linear A hA hpos) he hl he1 b hb hsmall N (by omega) s hinv hle hc
    refine ⟨_, _, _, hres', hK N (by omega) _ hp hlow, ?_⟩
    exact (c23_power_iterations_partial A hA b N (by omega) 0 (by norm_num) _ _ _ (hres' ▸ hres)).2.1 lam hmax

end power

/-! ## What the tolerance does not promise -/

section fails

/-- `diag(1, 2)` on `ℝ²`. -/
def dg : EuclideanSpace ℝ (Fin 2) →L[ℝ] EuclideanSpace ℝ (Fin 2) :=
  LinearMap.toContinuousLinearMap
    { toFun := fun x => !₂[x 0, 2 * x 1]
      map_add' := fun x y => by ext i; fin_cases i <;> simp; ring
      map_smul' := fun c x => by ext i; fin_cases i <;> simp; ring }

theorem dg_apply (x : EuclideanSpace ℝ (Fin 2)) : dg x = !₂[x 0, 2 * x 1] := rfl

theorem dg_adj (x y : EuclideanSpace ℝ (Fin 2)) : inner ℝ x (dg y) = (inner ℝ (dg x) y : ℝ) := by
  simp [dg_apply, PiLp.inner_apply, Fin.sum_univ_two]; ring

theorem dg_norm : ‖dg‖ = 2 := by
  refine le_antisymm (dg.opNorm_le_bound (by norm_num) fun x => ?_) ?_
  · refine le_of_sq_le_sq ?_ (by positivity)
    rw [mul_pow, EuclideanSpace.norm_sq_eq, EuclideanSpace.norm_sq_eq, dg_apply]
    simp [Fin.sum_univ_two]
    nlinarith [sq_nonneg (x 0)]
  · have h := dg.le_opNorm !₂[0, 1]
    have h1 : ‖(!₂[0, 1] : EuclideanSpace ℝ (Fin 2))‖ = 1 := by rw [EuclideanSpace.norm_eq]; simp
    have h2 : ‖dg !₂[0, 1]‖ = 2 := by rw [dg_apply, EuclideanSpace.norm_eq]; simp
    rw [h1, h2, mul_one] at h
    exact h

/-- **C124 disproof** the error tolerance does not bound the error: for `diag(1, 2)` (norm 2) and the start `(1, 1e-4)`, which has a component along
the leading direction, every iteration limit from 2 on and the default tolerance `1e-6` give an estimate below `1.01`. -/
theorem c124_normest_early_stop_fails : ‖dg‖ = 2 ∧ inner ℝ (!₂[0, 1] : EuclideanSpace ℝ (Fin 2)) !₂[1, 1e-4] ≠ (0 : ℝ) ∧
    ∀ N, 2 ≤ N → ∀ res, NormEst ℝ (⇑dg) (⇑dg) !₂[1, 1e-4] N 1e-6 res → ∃ s, res = some s ∧ s < 1.01 := by
  have hb : inner ℝ (!₂[0, 1] : EuclideanSpace ℝ (Fin 2)) !₂[1, 1e-4] ≠ (0 : ℝ) := by
    simp [PiLp.inner_apply, Fin.sum_univ_two]
    norm_num
  refine ⟨dg_norm, hb, fun N hN res ⟨st, hout, hres⟩ => ?_⟩
  have he1 : ‖(!₂[0, 1] : EuclideanSpace ℝ (Fin 2))‖ = 1 := by rw [EuclideanSpace.norm_eq]; simp
  have he : ‖dg !₂[0, 1]‖ = ‖dg‖ := by rw [dg_norm, dg_apply, EuclideanSpace.norm_eq]; simp
  have hinv := fun st h => ne_powInv (At := ⇑dg) dg_adj he1 he (by rw [dg_norm]; norm_num) (!₂[1, 1e-4]) hb N 1e-6 st h
  have r0 : rq ℝ (fun x => dg (dg x)) (!₂[1, 1e-4]) = (1 + 4 * 1e-8) / (1 + 1e-8) := by
    rw [rq_gram dg (⇑dg) dg_adj, EuclideanSpace.norm_sq_eq, EuclideanSpace.norm_sq_eq, dg_apply]
    simp [Fin.sum_univ_two]
    norm_num
  have r1 : rq ℝ (fun x => dg (dg x)) (dg (dg !₂[1, 1e-4])) = (1 + 64 * 1e-8) / (1 + 16 * 1e-8) := by
    rw [rq_gram dg (⇑dg) dg_adj, EuclideanSpace.norm_sq_eq, EuclideanSpace.norm_sq_eq, dg_apply, dg_apply, dg_apply]
    simp [Fin.sum_univ_two]
    norm_num
  -- the first two iterations are made
  have c0 : pCond N 1e-6 (neInit ℝ (!₂[1, 1e-4] : EuclideanSpace ℝ (Fin 2))) := by
    unfold neInit
    rw [if_neg (norm_ne_zero_iff.mpr fun h => hb (by rw [h, inner_zero_right]))]
    refine ⟨by simp; omega, ?_⟩
    rw [if_neg (by norm_num)]
    norm_num
  have h1 := Reach.step (f := neBody ℝ (⇑dg) (⇑dg)) Reach.init c0
  have i1 := hinv _ h1
  obtain ⟨s1, e1⟩ : ∃ s1, neBody ℝ (⇑dg) (⇑dg) (neInit ℝ !₂[1, 1e-4]) = some s1 := by
    cases h : neBody ℝ (⇑dg) (⇑dg) (neInit ℝ !₂[1, 1e-4]) with
    | none => rw [h] at i1; exact i1.elim
    | some s1 => exact ⟨s1, rfl⟩
  have it1 : s1.iters = 1 := by
    have hbn : ‖(!₂[1, 1e-4] : EuclideanSpace ℝ (Fin 2))‖ ≠ 0 := norm_ne_zero_iff.mpr fun h => hb (by rw [h, inner_zero_right])
    have := e1
    unfold neInit at this
    rw [if_neg hbn] at this
    simp only [neBody] at this
    split at this
    · simp at this
    · simp only [Option.some.injEq] at this
      rw [← this]
  rw [e1] at h1 i1
  have n1 := i1.2.1
  have o1 := i1.2.2
  rw [it1] at n1 o1
  change _ = rq ℝ (fun x => dg (dg x)) (!₂[1, 1e-4]) at n1
  change _ = (1e20 : ℝ) at o1
  have c1 : pCond N 1e-6 (some s1) := by
    refine ⟨by omega, ?_⟩
    rw [if_neg (by rw [o1]; norm_num), n1, o1, r0]
    norm_num [abs_of_neg]
  have h2 := h1.step c1
  have i2 := hinv _ h2
  obtain ⟨s2, e2⟩ : ∃ s2, neBody ℝ (⇑dg) (⇑dg) (some s1) = some s2 := by
    cases h : neBody ℝ (⇑dg) (⇑dg) (some s1) with
    | none => rw [h] at i2; exact i2.elim
    | some s2 => exact ⟨s2, rfl⟩
  have it2 : s2.iters = 2 := by
    have := e2
    simp only [neBody] at this
    split at this
    · simp at this
    · simp only [Option.some.injEq] at this
      rw [← this]; simp [it1]
  rw [e2] at h2 i2
  have n2 := i2.2.1
  have o2 := i2.2.2
  rw [it2] at n2 o2
  change _ = rq ℝ (fun x => dg (dg x)) (dg (dg !₂[1, 1e-4])) at n2
  change _ = rq ℝ (fun x => dg (dg x)) (!₂[1, 1e-4]) at o2
  have c2 : ¬ pCond N 1e-6 (some s2) := by
    rintro ⟨_, h⟩
    rw [if_neg (by rw [o2, r0]; norm_num), n2, o2, r0, r1] at h
    norm_num [abs_of_pos] at h
  have := hout.unique ⟨h2, c2⟩
  subst this
  refine ⟨_, hres, ?_⟩
  show Real.sqrt s2.new < 1.01
  rw [n2, r1, Real.sqrt_lt' (by norm_num)]
  norm_num

/-- The hypotheses of `c124_normest_rate` and `c124_normest_converges` are met by `diag(1, 2)` and the start `(1, 1)`. -/
example (ε : ℝ) (hε : 0 < ε) : ∃ K, ∀ N, K ≤ N → ∀ res, NormEst ℝ (⇑dg) (⇑dg) !₂[1, 1] N 0 res →
    ∃ s, res = some s ∧ ‖dg‖ * (1 - ε) < s ∧ s ≤ ‖dg‖ := by
  have he1 : ‖(!₂[0, 1] : EuclideanSpace ℝ (Fin 2))‖ = 1 := by rw [EuclideanSpace.norm_eq]; simp
  have he : ‖dg !₂[0, 1]‖ = ‖dg‖ := by rw [dg_norm, dg_apply, EuclideanSpace.norm_eq]; simp
  refine c124_normest_converges dg_adj he1 he (norm_ne_zero_iff.mp (by rw [dg_norm]; norm_num)) (by rw [dg_norm]; norm_num) _ ?_ ε hε
  simp [PiLp.inner_apply, Fin.sum_univ_two]

/-- The flip on `ℝ²`, with eigenvalues `1` and `-1`. -/
def flip2 (x : EuclideanSpace ℝ (Fin 2)) : EuclideanSpace ℝ (Fin 2) := !₂[x 1, x 0]

/-- **C124 disproof** for an indefinite symmetric operator `power_iterations` need not approach any eigenvalue: for the flip of `ℝ²`, with eigenvalues
`1` and `-1`, and the start `(1, 0)`, neither orthogonal to an eigenvector, every limit from 1 on and every tolerance in `[0, 1)` return 0. -/
theorem c124_power_indefinite_fails : flip2 !₂[1, 1] = !₂[1, 1] ∧ flip2 !₂[1, -1] = -!₂[1, -1] ∧
    inner ℝ (!₂[1, 1] : EuclideanSpace ℝ (Fin 2)) !₂[1, 0] ≠ (0 : ℝ) ∧ inner ℝ (!₂[1, -1] : EuclideanSpace ℝ (Fin 2)) !₂[1, 0] ≠ (0 : ℝ) ∧
    ∀ N, 1 ≤ N → ∀ tol : ℝ, 0 ≤ tol → tol < 1 → ∀ res, PowerIter flip2 !₂[1, 0] N tol res → ∃ v k, res = some (v, 0, k) := by
  refine ⟨by ext i; fin_cases i <;> simp [flip2], by ext i; fin_cases i <;> simp [flip2], by simp [PiLp.inner_apply, Fin.sum_univ_two],
    by simp [PiLp.inner_apply, Fin.sum_univ_two], fun N hN tol h0 h1 res ⟨st, hout, hres⟩ => ?_⟩
  have hn1 : ‖(!₂[1, 0] : EuclideanSpace ℝ (Fin 2))‖ = 1 := by rw [EuclideanSpace.norm_eq]; simp
  have hn2 : ‖(!₂[0, 1] : EuclideanSpace ℝ (Fin 2))‖ = 1 := by rw [EuclideanSpace.norm_eq]; simp
  have hinv : ∃ s, st = some s ∧ (s.iters = 0 ∧ s.old = -1e20 ∧ s.new = 1e20 ∧ s.v = !₂[1, 0] ∨
      1 ≤ s.iters ∧ s.new = 0 ∧ (s.v = !₂[1, 0] ∨ s.v = !₂[0, 1])) := by
    refine hout.1.inv (fun st => ∃ s, st = some s ∧ (s.iters = 0 ∧ s.old = -1e20 ∧ s.new = 1e20 ∧ s.v = !₂[1, 0] ∨
      1 ≤ s.iters ∧ s.new = 0 ∧ (s.v = !₂[1, 0] ∨ s.v = !₂[0, 1]))) ⟨_, rfl, Or.inl ⟨rfl, rfl, rfl, rfl⟩⟩ fun st hs _ => ?_
    obtain ⟨s, rfl, hs⟩ := hs
    have hv : s.v = !₂[1, 0] ∨ s.v = !₂[0, 1] := by
      rcases hs with ⟨_, _, _, h⟩ | ⟨_, _, h⟩
      · exact Or.inl h
      · exact h
    simp only [pwBody]
    rcases hv with hv | hv
    · rw [hv, hn1, if_neg one_ne_zero]
      refine ⟨_, rfl, Or.inr ⟨Nat.succ_le_succ (Nat.zero_le _), ?_, Or.inr ?_⟩⟩
      · simp [flip2, PiLp.inner_apply, Fin.sum_univ_two]
      · ext i; fin_cases i <;> simp [flip2]
    · rw [hv, hn2, if_neg one_ne_zero]
      refine ⟨_, rfl, Or.inr ⟨Nat.succ_le_succ (Nat.zero_le _), ?_, Or.inl ?_⟩⟩
      · simp [flip2, PiLp.inner_apply, Fin.sum_univ_two]
      · ext i; fin_cases i <;> simp [flip2]
  obtain ⟨s, rfl, hs⟩ := hinv
  rcases hs with ⟨hi, ho, hn, _⟩ | ⟨_, hn, _⟩
  · exfalso; apply hout.2
    refine ⟨by omega, ?_⟩
    rw [if_neg (by rw [ho]; norm_num), ho, hn]
    norm_num; linarith
  · exact ⟨_, _, by rw [hres]; simp [hn]; exact ⟨rfl, rfl⟩⟩

end fails
/-! Instances: `diag(1, 2)` and the start `(1, 1)`. -/

theorem dg_top : ‖(!₂[0, 1] : EuclideanSpace ℝ (Fin 2))‖ = 1 ∧ ‖dg !₂[0, 1]‖ = ‖dg‖ ∧ dg !₂[0, 1] = (2 : ℝ) • !₂[0, 1] ∧
    inner ℝ (!₂[0, 1] : EuclideanSpace ℝ (Fin 2)) !₂[1, 1] ≠ (0 : ℝ) := by
  refine ⟨by rw [EuclideanSpace.norm_eq]; simp, by rw [dg_norm, dg_apply, EuclideanSpace.norm_eq]; simp, ?_, by simp [PiLp.inner_apply, Fin.sum_univ_two]⟩
  rw [dg_apply]
  ext i; fin_cases i <;> simp

theorem dg_pos (x : EuclideanSpace ℝ (Fin 2)) : 0 ≤ inner ℝ x (dg x) := by
  rw [dg_apply]
  simp [PiLp.inner_apply, Fin.sum_univ_two]
  nlinarith [sq_nonneg (x 0), sq_nonneg (x 1)]

theorem dg_eigs (μ : ℝ) (h : Module.End.HasEigenvalue (dg : EuclideanSpace ℝ (Fin 2) →ₗ[ℝ] EuclideanSpace ℝ (Fin 2)) μ) : μ ≤ 2 := by
  obtain ⟨v, hv⟩ := h.exists_hasEigenvector
  have h1 : dg v = μ • v := hv.apply_eq_smul
  have h2 := dg.le_opNorm v
  rw [h1, norm_smul, dg_norm] at h2
  exact (le_abs_self μ).trans (le_of_mul_le_mul_right h2 (norm_pos_iff.2 hv.2))

example (st) (h : Reach (pCond 5 1e-6) (neBody ℝ (⇑dg) (⇑dg)) (neInit ℝ !₂[1, 1]) st) :=
  c124_normest_rate dg_adj dg_top.1 dg_top.2.1 (norm_ne_zero_iff.mp (by rw [dg_norm]; norm_num)) _ dg_top.2.2.2 5 1e-6 st h
example (st) (h : Reach (pCond 5 1e-6) _ _ st) := c124_power_iterations_rate (dg : EuclideanSpace ℝ (Fin 2) →ₗ[ℝ] EuclideanSpace ℝ (Fin 2)) (fun x y => (dg_adj x y).symm) dg_pos dg_top.1
  dg_top.2.2.1 two_pos !₂[1, 1] dg_top.2.2.2 5 1e-6 st h
example := c124_power_iterations_converges (dg : EuclideanSpace ℝ (Fin 2) →ₗ[ℝ] EuclideanSpace ℝ (Fin 2)) (fun x y => (dg_adj x y).symm) dg_pos dg_top.1
  dg_top.2.2.1 two_pos dg_eigs (by norm_num) !₂[1, 1] dg_top.2.2.2 (1 / 100) (by norm_num)

end Verif.Sls
