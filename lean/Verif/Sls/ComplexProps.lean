import Verif.Opt.ProxCModel
import Verif.Opt.FomRateProps
import Verif.Sls.IstaResult
import Verif.Sls.LsqrProps
import Verif.Cvx.Spgl1CProps
import Mathlib.Analysis.InnerProductSpace.Spectrum

set_option autoImplicit false
/-!
# Proximal operators, ISTA, FISTA, LSQR and `l1rls` on complex arrays (C142)

`A` is a complex linear operator and `At` its adjoint for the complex inner product (`IsAdjC`); the l1 norm of a complex array is the sum of the moduli.
-/
noncomputable section
namespace Verif.Sls
open Verif.Loop Verif.Opt Filter Topology
open Verif.Cvx (CVec cvec l1C IsAdjC inner_vdotC vdotC vdotC_self shrinkC_cases)
open scoped RealInnerProductSpace

variable {m n : ℕ}

/-! ## Proximal operators -/

/-- A criterion for the proximal point of a weighted l1 norm: the move `x i - p i` is at most `t q i` and points along `p i`. -/
theorem proxC_of_coord (q : Fin n → ℝ) {t : ℝ} (ht : 0 < t) {x p : CVec n} (h1 : ∀ i, ‖x i - p i‖ ≤ t * q i) (h2 : ∀ i, ⟪x i - p i, p i⟫ = t * q i * ‖p i‖) :
    IsProx (fun z : CVec n => ∑ i, q i * ‖z i‖) t x p := by
  refine IsProx.of_subgradient ht fun z => ?_
  show ∑ i, q i * ‖p i‖ + _ ≤ ∑ i, q i * ‖z i‖
  rw [PiLp.inner_apply, Finset.sum_div, ← Finset.sum_add_distrib]
  refine Finset.sum_le_sum fun i _ => ?_
  show q i * ‖p i‖ + ⟪x i - p i, z i - p i⟫ / t ≤ q i * ‖z i‖
  rw [inner_sub_right, h2]
  have h3 : ⟪x i - p i, z i⟫ ≤ t * q i * ‖z i‖ := (real_inner_le_norm _ _).trans (mul_le_mul_of_nonneg_right (h1 i) (norm_nonneg _))
  have h4 : (⟪x i - p i, z i⟫ - t * q i * ‖p i‖) / t ≤ q i * ‖z i‖ - q i * ‖p i‖ := by
    rw [div_le_iff₀ ht]; linarith
  linarith

theorem real_mul_inner (a b : ℝ) (z : ℂ) : ⟪z * (a : ℂ), z * (b : ℂ)⟫ = a * b * ‖z‖ ^ 2 := by
  have e1 : z * (a : ℂ) = a • z := by rw [Complex.real_smul, mul_comm]
  have e2 : z * (b : ℂ) = b • z := by rw [Complex.real_smul, mul_comm]
  rw [e1, e2, real_inner_smul_left, real_inner_smul_right, real_inner_self_eq_norm_sq]; ring

/-- **C142** on complex arrays `prox_l1(q)` with positive weights is the proximal operator of `Σ q_i |x_i|`. -/
theorem c142_prox_l1 (q : Vec n) (hq : ∀ i, 0 < q i) : IsProxCapable (proxL1C q) Set.univ (fun x => ∑ i, q i * ‖x i‖) := by
  have hval : ∀ x : CVec n, ∑ i, ‖(q i : ℂ) * x i‖ = ∑ i, q i * ‖x i‖ := fun x =>
    Finset.sum_congr rfl fun i _ => by rw [norm_mul, Complex.norm_real, Real.norm_of_nonneg (hq i).le]
  refine ⟨fun x _ => by simp only [proxL1C, build, hval], fun x h => absurd trivial h, fun x t ht => ?_, fun x t _ => by simp only [proxL1C, build, hval]⟩
  have hcases : ∀ i, ∃ c : ℝ, 0 ≤ c ∧ c ≤ 1 ∧ (proxL1C q).proxOp x t i = x i * ((1 - c : ℝ) : ℂ) ∧ c * ‖x i‖ ≤ t * q i ∧ (c = 1 ∨ c * ‖x i‖ = t * q i) := by
    intro i
    have htq : 0 < t * q i := mul_pos ht (hq i)
    refine ⟨minDiv1 (t * q i) ‖x i‖, ?_, ?_, rfl, ?_, ?_⟩ <;> unfold minDiv1 <;> split_ifs with h
    · exact zero_le_one
    · exact le_min (by positivity) zero_le_one
    · exact le_rfl
    · exact min_le_right _ _
    · rw [h, mul_zero]; exact htq.le
    · have hx : 0 < ‖x i‖ := lt_of_le_of_ne (norm_nonneg _) (Ne.symm h)
      calc _ ≤ t * q i / ‖x i‖ * ‖x i‖ := mul_le_mul_of_nonneg_right (min_le_left _ _) hx.le
        _ = _ := by field_simp
    · exact .inl rfl
    · have hx : 0 < ‖x i‖ := lt_of_le_of_ne (norm_nonneg _) (Ne.symm h)
      rcases le_total (t * q i / ‖x i‖) 1 with h1 | h1
      · right; rw [min_eq_left h1]; field_simp
      · left; exact min_eq_right h1
  have hp := proxC_of_coord (fun i => q i) ht (x := x) (p := (proxL1C q).proxOp x t) (fun i => ?_) fun i => ?_
  · exact ⟨trivial, fun z _ hz => hp z hz⟩
  · obtain ⟨c, h0, -, h2, h3, -⟩ := hcases i
    rw [h2, show x i - x i * ((1 - c : ℝ) : ℂ) = x i * (c : ℂ) by push_cast; ring, norm_mul, Complex.norm_real, Real.norm_of_nonneg h0, mul_comm]
    exact h3
  · obtain ⟨c, h0, h1, h2, -, h4⟩ := hcases i
    rw [h2, show x i - x i * ((1 - c : ℝ) : ℂ) = x i * (c : ℂ) by push_cast; ring, real_mul_inner, norm_mul, Complex.norm_real, Real.norm_of_nonneg (by linarith)]
    rcases h4 with rfl | h4
    · ring
    · rw [← h4]; ring

/-- **C142** on complex arrays `prox_l2(q)`, `q > 0`, is the proximal operator of `q ‖x‖₂`. -/
theorem c142_prox_l2 (n : ℕ) (q : ℝ) (hq : 0 < q) : IsProxCapable (proxL2C n q) Set.univ (fun x => q * ‖x‖) := by
  refine ⟨fun x _ => rfl, fun x h => absurd trivial h, fun x t ht => ?_, fun x t _ => rfl⟩
  have hsm : (proxL2C n q).proxOp x t = (1 - 1 / max (‖x‖ / (t * q)) 1) • x := by
    ext i
    show ((1 - 1 / max (‖x‖ / (t * q)) 1 : ℝ) : ℂ) * x i = (1 - 1 / max (‖x‖ / (t * q)) 1) • x i
    rw [Complex.real_smul]
  rw [hsm]
  refine IsProxOn.of_subgradient ht trivial fun z _ => ?_
  have htq : 0 < t * q := mul_pos ht hq
  rcases le_total ‖x‖ (t * q) with h | h
  · rw [max_eq_right ((div_le_one htq).mpr h)]
    simp only [div_one, sub_self, zero_smul, norm_zero, mul_zero, sub_zero, zero_add]
    rw [div_le_iff₀ ht]
    calc ⟪x, z⟫ ≤ ‖x‖ * ‖z‖ := real_inner_le_norm _ _
      _ ≤ t * q * ‖z‖ := mul_le_mul_of_nonneg_right h (norm_nonneg _)
      _ = _ := by ring
  · have hx : 0 < ‖x‖ := htq.trans_le h
    rw [max_eq_left ((one_le_div htq).mpr h)]
    have e : 1 / (‖x‖ / (t * q)) = t * q / ‖x‖ := by field_simp
    rw [e]
    set s := 1 - t * q / ‖x‖ with hs
    have hs0 : 0 ≤ s := by rw [hs, sub_nonneg, div_le_one hx]; exact h
    have e1 : x - s • x = (t * q / ‖x‖) • x := by
      rw [hs]; module
    rw [e1, real_inner_smul_left, inner_sub_right, real_inner_smul_right, real_inner_self_eq_norm_sq, norm_smul, Real.norm_of_nonneg hs0]
    have h1 : ⟪x, z⟫ ≤ ‖x‖ * ‖z‖ := real_inner_le_norm _ _
    have e2 : t * q / ‖x‖ * (⟪x, z⟫ - s * ‖x‖ ^ 2) / t = q / ‖x‖ * (⟪x, z⟫ - s * ‖x‖ ^ 2) := by
      field_simp
    rw [e2]
    have h2 : q / ‖x‖ * (⟪x, z⟫ - s * ‖x‖ ^ 2) ≤ q / ‖x‖ * (‖x‖ * ‖z‖ - s * ‖x‖ ^ 2) :=
      mul_le_mul_of_nonneg_left (by linarith) (by positivity)
    have h3 : q / ‖x‖ * (‖x‖ * ‖z‖ - s * ‖x‖ ^ 2) = q * ‖z‖ - q * (s * ‖x‖) := by field_simp
    linarith

/-- **C142** the complex soft threshold at `t q` is the proximal operator of `q Σ |x_i|` too, and equals the proximal point computed by `prox_l1(q)`. -/
theorem c142_soft (q t : ℝ) (hq : 0 < q) (ht : 0 < t) (x : CVec n) :
    IsProx (fun z : CVec n => q * ∑ i, ‖z i‖) t x (softThresholdArrC (t * q) x) ∧ (proxL1C (vec fun _ : Fin n => q)).proxOp x t = softThresholdArrC (t * q) x := by
  have h1 : IsProx (fun z : CVec n => q * ∑ i, ‖z i‖) t x (softThresholdArrC (t * q) x) := by
    have hc := fun i => shrinkC_cases (t * q) (x i) (by positivity)
    have := proxC_of_coord (fun _ => q) ht (x := x) (p := softThresholdArrC (t * q) x) (fun i => (hc i).2.1) fun i => (hc i).2.2
    intro z hz
    have h := this z hz
    simp only [← Finset.mul_sum] at h
    exact h
  refine ⟨h1, ?_⟩
  have h2 := ((c142_prox_l1 (vec fun _ : Fin n => q) fun _ => hq).prox x t ht).2
  by_contra hne
  have a1 := h1 _ hne
  have a2 := h2 _ trivial (Ne.symm hne)
  simp only [vec_apply, ← Finset.mul_sum] at a2
  exact lt_asymm a1 a2

/-! ## ISTA and FISTA -/

theorem soft_matchesC (lam step : ℝ) (hl : 0 ≤ lam) (hs : 0 < step) (x : CVec n) :
    IsProx (fun z : CVec n => lam * l1C z) step x (softThresholdArrC (step * lam) x) := by
  have hc := fun i => shrinkC_cases (step * lam) (x i) (by positivity)
  have := proxC_of_coord (fun _ => lam) hs (x := x) (p := softThresholdArrC (step * lam) x) (fun i => (hc i).2.1) fun i => (hc i).2.2
  intro z hz
  have h := this z hz
  simp only [← Finset.mul_sum] at h
  exact h

theorem l1C_convex (lam : ℝ) (hl : 0 ≤ lam) : ConvexOn ℝ Set.univ (fun z : CVec n => lam * l1C z) := by
  refine ⟨convex_univ, fun x _ y _ a b ha hb _ => ?_⟩
  have h1 : l1C (a • x + b • y) ≤ a * l1C x + b * l1C y := by
    rw [l1C, l1C, l1C, Finset.mul_sum, Finset.mul_sum, ← Finset.sum_add_distrib]
    refine Finset.sum_le_sum fun i _ => (norm_add_le _ _).trans (le_of_eq ?_)
    show ‖a • x i‖ + ‖b • y i‖ = _
    rw [norm_smul, norm_smul, Real.norm_eq_abs, Real.norm_eq_abs, abs_of_nonneg ha, abs_of_nonneg hb]
  have := mul_le_mul_of_nonneg_left h1 hl
  simp only [smul_eq_mul]
  linarith

theorem norm_le_l1C (x : CVec n) : ‖x‖ ≤ l1C x := by
  rw [EuclideanSpace.norm_eq]
  apply Real.sqrt_le_iff.mpr
  refine ⟨Finset.sum_nonneg fun i _ => norm_nonneg _, ?_⟩
  have h0 : ∀ i ∈ Finset.univ, 0 ≤ ‖x i‖ := fun i _ => norm_nonneg _
  calc ∑ i, ‖x i‖ ^ 2 = ∑ i, ‖x i‖ * ‖x i‖ := Finset.sum_congr rfl fun i _ => by rw [sq]
    _ ≤ ∑ i, ‖x i‖ * l1C x := Finset.sum_le_sum fun i hi => mul_le_mul_of_nonneg_left (Finset.single_le_sum h0 hi) (norm_nonneg _)
    _ = l1C x ^ 2 := by rw [← Finset.sum_mul, sq]; rfl

/-- A unitary basis as a real isometry. -/
def realIso (B : CVec n ≃ₗᵢ[ℂ] CVec n) : CVec n ≃ₗᵢ[ℝ] CVec n where
  toLinearEquiv := B.toLinearEquiv.restrictScalars ℝ
  norm_map' := B.norm_map

/-- The arguments of `ista` and `fista` for the complex LASSO in a unitary basis: `basis.trans` is `B`, `basis.times` its inverse. -/
def lassoArgsC (A : CVec n → CVec m) (At : CVec m → CVec n) (B : CVec n ≃ₗᵢ[ℂ] CVec n) (b : CVec m) (x0 : CVec n) (lam step rtol xtol : ℝ) (N : ℕ) :
    IstaArgs (CVec n) (CVec m) (CVec n) :=
  { times := A, trans := At, b := b, x0 := x0, step := step, thresh := fun _ x => softThresholdArrC (step * lam) x, basisTimes := B.symm, basisTrans := B,
    rtol := rtol, xtol := xtol, maxIters := N }

theorem lassoC_setting (A : CVec n →ₗ[ℂ] CVec m) (At : CVec m →ₗ[ℂ] CVec n) (hadj : IsAdjC A At) (B : CVec n ≃ₗᵢ[ℂ] CVec n) (b : CVec m) (x0 : CVec n)
    (lam step : ℝ) (hl : 0 ≤ lam) (hs : 0 < step) (hstep : ∀ d, step * ‖A d‖ ^ 2 ≤ ‖d‖ ^ 2) (rtol xtol : ℝ) (N : ℕ) :
    IstaSetting (lassoArgsC A At B b x0 lam step rtol xtol N) (A.restrictScalars ℝ) (realIso B) (fun z => lam * l1C z) :=
  ⟨rfl, fun x y => hadj.inner x y, rfl, rfl, hs, hstep, l1C_convex lam hl, fun _ x => soft_matchesC lam step hl hs x⟩

/-- **C142** the LASSO on complex arrays: with soft thresholding at `step · lam` and a unitary basis `B`, `ista` never increases
`½|b - A x|² + lam Σ |(Bᴴ x)_i|` and approaches its values at rate `1/k`, `fista` at rate `1/k²`, from any start, for every complex operator with `step |A|² ≤ 1`.
For `lam > 0` a minimiser exists and the iterates of `ista` converge to one. -/
theorem c142_lasso (A : CVec n →ₗ[ℂ] CVec m) (At : CVec m →ₗ[ℂ] CVec n) (hadj : IsAdjC A At) (B : CVec n ≃ₗᵢ[ℂ] CVec n) (b : CVec m) (x0 : CVec n)
    (lam step : ℝ) (hl : 0 ≤ lam) (hs : 0 < step) (hstep : ∀ d, step * ‖A d‖ ^ 2 ≤ ‖d‖ ^ 2) (rtol xtol : ℝ) (N : ℕ) :
    let p := lassoArgsC A At B b x0 lam step rtol xtol N
    let F : CVec n → ℝ := fun x => 1 / 2 * ‖b - A x‖ ^ 2 + lam * ∑ i, ‖B x i‖
    (∀ s, Reach (istaCond p) (istaStep p) (istaInit p) s → F (istaStep p s).x ≤ F s.x ∧
      (1 ≤ s.iters → ∀ u, F s.x - F u ≤ ‖x0 - u‖ ^ 2 / (2 * step * s.iters))) ∧
    (∀ s, Reach (fistaCond p) (fistaStep p) (fistaInit p) s → 1 ≤ s.iters → ∀ u, F s.x - F u ≤ 2 * ‖x0 - u‖ ^ 2 / (step * (s.iters + 1) ^ 2)) ∧
    (0 < lam → ∃ u, (∀ v, F u ≤ F v) ∧ Tendsto (fun k => ((istaStep p)^[k] (istaInit p)).x) atTop (𝓝 u)) := by
  intro p F
  have hset := lassoC_setting A At hadj B b x0 lam step hl hs hstep rtol xtol N
  refine ⟨fun s h => ⟨?_, fun h1 u => c41_ista_rate hset s h h1 u⟩, fun s h h1 u => c42_fista_rate hset s h h1 u, fun hlp => ?_⟩
  · have := c41_ista_monotone hset s h
    have h0 : 0 ≤ ‖(istaStep p s).x - s.x‖ ^ 2 / (2 * p.step) := by
      have : 0 ≤ p.step := hs.le
      positivity
    have h2 : obj p (fun z => lam * l1C z) (istaStep p s).x ≤ obj p (fun z => lam * l1C z) s.x := by linarith
    exact h2
  · refine c41_ista_converges hset ?_
    have hA : Continuous (A.restrictScalars ℝ) := LinearMap.continuous_of_finiteDimensional _
    have hl1 : Continuous fun x : CVec n => lam * l1C x := by
      rw [← continuousOn_univ]; exact (l1C_convex lam hlp.le).continuousOn isOpen_univ
    have hcont : Continuous F := (continuous_const.mul ((continuous_const.sub hA).norm.pow 2)).add (hl1.comp B.continuous)
    have hinf : Tendsto F (cocompact (CVec n)) atTop := by
      refine tendsto_atTop_mono (fun x => ?_) (Tendsto.const_mul_atTop hlp (tendsto_norm_cocompact_atTop (E := CVec n)))
      have h1 := mul_le_mul_of_nonneg_left (norm_le_l1C (B x)) hlp.le
      rw [B.norm_map] at h1
      have h2 : 0 ≤ 1 / 2 * ‖b - A x‖ ^ 2 := by positivity
      show lam * ‖x‖ ≤ 1 / 2 * ‖b - A x‖ ^ 2 + lam * l1C (B x)
      linarith
    obtain ⟨u, hu⟩ := hcont.exists_forall_le hinf
    exact ⟨u, hu⟩

/-! ## LSQR -/

theorem inner_cvec (x y : CVec n) : inner ℂ x y = vdotC x y := by
  rw [PiLp.inner_apply, vdotC]
  exact Finset.sum_congr rfl fun i _ => by rw [RCLike.inner_apply, mul_comm]

theorem IsAdjC.innerC {A : CVec n →ₗ[ℂ] CVec m} {At : CVec m →ₗ[ℂ] CVec n} (h : IsAdjC A At) (x : CVec n) (y : CVec m) : inner ℂ (A x) y = inner ℂ x (At y) := by
  rw [inner_cvec, inner_cvec]; exact h x y

theorem krylovC_dim (A : CVec n →ₗ[ℂ] CVec m) (At : CVec m →ₗ[ℂ] CVec n) (hadj : IsAdjC A At) (r : CVec m) (k : ℕ) :
    Module.finrank ℝ (krylov (A.restrictScalars ℝ) (At.restrictScalars ℝ) r k) ≤ n := by
  have hsym : (At ∘ₗ A).IsSymmetric := fun x y => by
    show inner ℂ (At (A x)) y = inner ℂ x (At (A y))
    rw [← IsAdjC.innerC hadj, ← inner_conj_symm, ← IsAdjC.innerC hadj, inner_conj_symm]
  have hn : Module.finrank ℂ (CVec n) = n := by simp
  set e := hsym.eigenvectorBasis hn with he
  set w : Fin n → CVec n := fun j => (e.repr (At r) j) • e j with hw
  have hpow : ∀ i, (((At.restrictScalars ℝ) ∘ₗ (A.restrictScalars ℝ)) ^ i) (At r) = ∑ j, (hsym.eigenvalues hn j) ^ i • w j := by
    intro i
    induction i with
    | zero =>
      simp only [pow_zero, one_smul, hw]
      exact (e.sum_repr (At r)).symm
    | succ i ih =>
      rw [pow_succ', Module.End.mul_apply, ih, map_sum]
      refine Finset.sum_congr rfl fun j _ => ?_
      rw [map_smul, pow_succ, mul_smul]
      congr 1
      show (At ∘ₗ A) (e.repr (At r) j • e j) = _
      rw [map_smul, he, hsym.apply_eigenvectorBasis hn j, hw]
      show _ • ((hsym.eigenvalues hn j : ℂ) • _) = hsym.eigenvalues hn j • _
      rw [smul_comm]
      rfl
  have hsub : krylov (A.restrictScalars ℝ) (At.restrictScalars ℝ) r k ≤ Submodule.span ℝ (Set.range w) := by
    refine Submodule.span_le.mpr ?_
    rintro _ ⟨i, -, rfl⟩
    show (((At.restrictScalars ℝ) ∘ₗ (A.restrictScalars ℝ)) ^ i) (At r) ∈ _
    rw [hpow]
    exact Submodule.sum_mem _ fun j _ => Submodule.smul_mem _ _ (Submodule.subset_span ⟨j, rfl⟩)
  exact (Submodule.finrank_mono hsub).trans ((finrank_range_le_card w).trans (by simp))

/-- **C142** `lsqr` on complex arrays: after `k` passes no array that differs from `x0` by a real combination of `(AᴴA)ⁱ Aᴴ (b - A x0)`, `i < k`, has a smaller
(damped) objective, and the returned norms are those of the (damped) residual and gradient; with zero tolerances and a limit above the number `n` of unknowns the
returned `x` solves the (damped) complex normal equations, hence minimises the objective, and solves `A x = b` when that is possible and `damp = 0`. -/
theorem c142_lsqr (A : CVec n →ₗ[ℂ] CVec m) (At : CVec m →ₗ[ℂ] CVec n) (hadj : IsAdjC A At) (b : CVec m) (x0 : CVec n) (damp : ℝ) (max_iters : ℕ) :
    (∀ atol btol conlim s, LsqrReach A At b x0 damp atol btol conlim max_iters s →
      (∀ c : ℕ → ℝ, ‖b - A s.x‖ ^ 2 + damp ^ 2 * ‖s.x - x0‖ ^ 2 ≤
        ‖b - A (x0 + ∑ i ∈ Finset.range (s.iterations - 1), c i • ((At ∘ₗ A) ^ i) (At (b - A x0)))‖ ^ 2 +
          damp ^ 2 * ‖∑ i ∈ Finset.range (s.iterations - 1), c i • ((At ∘ₗ A) ^ i) (At (b - A x0))‖ ^ 2) ∧
      s.r_norm = √(‖b - A s.x‖ ^ 2 + damp ^ 2 * ‖s.x - x0‖ ^ 2) ∧ s.atr_norm = ‖At (b - A s.x) - damp ^ 2 • (s.x - x0)‖) ∧
    (∀ atol btol conlim, ∃ s, Lsqr A At b x0 damp atol btol conlim max_iters s) ∧
    (n < max_iters → ∀ s, Lsqr A At b x0 damp 0 0 0 max_iters s →
      At (b - A s.x) = damp ^ 2 • (s.x - x0) ∧
      (∀ y, ‖b - A s.x‖ ^ 2 + damp ^ 2 * ‖s.x - x0‖ ^ 2 ≤ ‖b - A y‖ ^ 2 + damp ^ 2 * ‖y - x0‖ ^ 2) ∧
      ((∃ y, A y = b) → damp = 0 → A s.x = b)) := by
  have hadj' : IsAdj (A.restrictScalars ℝ) (At.restrictScalars ℝ) := fun x y => hadj.inner x y
  refine ⟨fun atol btol conlim s h => ⟨fun c => ?_, ?_, ?_⟩, (c83_exact _ _ hadj' b x0 damp max_iters).1, fun hmax s hs => ?_⟩
  · have hpow : ∀ i, ((At ∘ₗ A) ^ i) (At (b - A x0)) = (((At.restrictScalars ℝ) ∘ₗ (A.restrictScalars ℝ)) ^ i) (At (b - A x0)) := by
      intro i
      induction i with
      | zero => rfl
      | succ i ih => rw [pow_succ', pow_succ', Module.End.mul_apply, Module.End.mul_apply, ih]; rfl
    have := (c83_optimal _ _ hadj' b x0 damp atol btol conlim max_iters s h).2
      (x0 + ∑ i ∈ Finset.range (s.iterations - 1), c i • ((At ∘ₗ A) ^ i) (At (b - A x0))) (by
        rw [add_sub_cancel_left]
        refine Submodule.sum_mem _ fun i hi => Submodule.smul_mem _ _ (Submodule.subset_span ⟨i, Finset.mem_range.mp hi, hpow i⟩))
    rw [add_sub_cancel_left] at this
    exact this
  · exact (c43_damped_norms _ _ hadj' b x0 damp atol btol conlim max_iters s h).1
  · exact (c43_damped_norms _ _ hadj' b x0 damp atol btol conlim max_iters s h).2.1
  · have h := lsqr_exact_dim hadj' (krylovC_dim A At hadj (b - A x0)) hmax hs
    exact ⟨sub_eq_zero.mp h, lsqr_minimiser hadj' h⟩

/-! ## `l1rls` -/

theorem quadC_func (v : CVec m) : (smoothQuadC m).func v = 1 / 2 * ‖v‖ ^ 2 := by
  show 0.5 * (vdotC v v).re = _
  rw [vdotC_self, Complex.ofReal_re]; norm_num

theorem quadC_conv (u v : CVec m) : (smoothQuadC m).func u + ⟪(smoothQuadC m).grad u, v - u⟫ ≤ (smoothQuadC m).func v := by
  rw [quadC_func, quadC_func]
  show 1 / 2 * ‖u‖ ^ 2 + ⟪u, v - u⟫ ≤ _
  have h2 : ‖v‖ ^ 2 = ‖u‖ ^ 2 + 2 * ⟪u, v - u⟫ + ‖v - u‖ ^ 2 := by
    conv_lhs => rw [show v = u + (v - u) by abel, norm_add_sq_real]
  have := sq_nonneg ‖v - u‖
  linarith

theorem l1rlsC_setting (A : CVec n →ₗ[ℂ] CVec m) (At : CVec m →ₗ[ℂ] CVec n) (hadj : IsAdjC A At) (b : CVec m) (lam : ℝ)
    (hl : 0 < lam) (x0 : CVec n) (o : FomOptions) (ha : 0 < o.alpha) (hb : 0 < o.beta) (hL : 0 < o.L0) (hx : ∀ l, o.Lexact = some l → 0 < l) :
    FomSetting (l1rlsC A At b lam x0 o) (A.restrictScalars ℝ) Set.univ (fun x => ∑ i, (vec fun _ => lam : Vec n) i * ‖x i‖) :=
  ⟨rfl, fun x y => hadj.inner x y, fun _ => rfl, quadC_conv, c142_prox_l1 _ fun _ => hl, by
    have := l1C_convex (n := n) lam hl.le
    simp only [l1C, Finset.mul_sum] at this
    exact this, ha, hb, hL, hx⟩

theorem l1rlsC_obj (A : CVec n →ₗ[ℂ] CVec m) (At : CVec m →ₗ[ℂ] CVec n) (b : CVec m) (lam : ℝ) (x0 : CVec n) (o : FomOptions) (x : CVec n) :
    fomObj (l1rlsC A At b lam x0 o) (fun x => ∑ i, (vec fun _ => lam : Vec n) i * ‖x i‖) x = 1 / 2 * ‖A x - b‖ ^ 2 + lam * ∑ i, ‖x i‖ := by
  simp only [fomObj, l1rlsC, quadC_func, Finset.mul_sum, vec_apply, sub_eq_add_neg]

theorem quadC_curv (A : CVec n →ₗ[ℂ] CVec m) (b : CVec m) (K : ℝ) (hA : ∀ d, ‖A d‖ ^ 2 ≤ K * ‖d‖ ^ 2) (u v : CVec n) :
    2 * ⟪A u - A v, (smoothQuadC m).grad (A u + b) - (smoothQuadC m).grad (A v + b)⟫ ≤ 2 * K * ‖u - v‖ ^ 2 := by
  show 2 * ⟪A u - A v, (A u + b) - (A v + b)⟫ ≤ _
  rw [add_sub_add_right_eq_sub, real_inner_self_eq_norm_sq, ← map_sub]
  have := hA (u - v)
  linarith

/-- **C142** `l1rls` on complex arrays with `alpha = 1`: for `L0 ≥ 2 |A|²` the values of `½|A x - b|² + lambda Σ |x_i|` after `k` iterations are within
`2 L0 |x0 - u|²/(k+1)²` of those at any `u`; for any other positive `L0` and `beta < 1` they converge to the minimum at rate `1/k²`, with a constant independent of
`max_iters` and `tol`. -/
theorem c142_l1rls (A : CVec n →ₗ[ℂ] CVec m) (At : CVec m →ₗ[ℂ] CVec n) (hadj : IsAdjC A At) (b : CVec m) (lam : ℝ) (hl : 0 < lam) (x0 : CVec n)
    (o : FomOptions) (ha : o.alpha = 1) (hb0 : 0 < o.beta) (hL : 0 < o.L0) (hx : o.Lexact = none) :
    let F : CVec n → ℝ := fun x => 1 / 2 * ‖A x - b‖ ^ 2 + lam * ∑ i, ‖x i‖
    ((∀ d, 2 * ‖A d‖ ^ 2 ≤ o.L0 * ‖d‖ ^ 2) → ∀ s, FomReach (l1rlsC A At b lam x0 o) s → ∀ u, F s.x - F u ≤ 2 * o.L0 * ‖x0 - u‖ ^ 2 / (s.iters + 1) ^ 2) ∧
    (o.beta < 1 → ∃ c, ∀ (N : ℕ) (tol : ℝ) (s : FomState (CVec n) (CVec m)), FomReach (l1rlsC A At b lam x0 { o with maxIters := N, tol := tol }) s → ∀ u,
      F s.x - F u ≤ c / (s.iters + 1) ^ 2) := by
  intro F
  have hx' : ∀ l, o.Lexact = some l → 0 < l := by intro l hl; rw [hx] at hl; cases hl
  have hs := l1rlsC_setting A At hadj b lam hl x0 o (by rw [ha]; exact one_pos) hb0 hL hx'
  constructor
  · intro hA s hr u
    have hK : ∀ d, ‖A d‖ ^ 2 ≤ o.L0 / 2 * ‖d‖ ^ 2 := fun d => by linarith [hA d]
    have hacc := accepted_of_L0 hs ha (fun u v => by
      have h1 := quadC_curv A (-b) _ hK u v
      have e : 2 * (o.L0 / 2) = o.L0 := by ring
      rw [e] at h1
      exact h1) s hr
    have := c40_fom_rate hs ha.le (fun l hl => by have : o.Lexact = some l := hl; rw [hx] at this; cases this) s hacc u trivial
    rw [l1rlsC_obj, l1rlsC_obj] at this
    have est : (fomStart (l1rlsC A At b lam x0 o)).1 = x0 := by
      have : (l1rlsC A At b lam x0 o).h.func (l1rlsC A At b lam x0 o).x0 = ((∑ i, (vec fun _ => lam : Vec n) i * ‖x0 i‖ : ℝ) : EReal) :=
        hs.prox.value x0 trivial
      unfold fomStart
      rw [this, if_neg (EReal.coe_ne_top _)]; rfl
    rw [est] at this
    exact this
  · intro hb
    have hl1 : Continuous fun x : CVec n => lam * ∑ i, ‖x i‖ := by
      rw [← continuousOn_univ]; exact (l1C_convex lam hl.le).continuousOn isOpen_univ
    have hA : Continuous (A.restrictScalars ℝ) := LinearMap.continuous_of_finiteDimensional _
    have hcont : Continuous F := (continuous_const.mul ((hA.sub continuous_const).norm.pow 2)).add hl1
    have hinf : Tendsto F (cocompact (CVec n)) atTop := by
      refine tendsto_atTop_mono (fun x => ?_) (Tendsto.const_mul_atTop hl (tendsto_norm_cocompact_atTop (E := CVec n)))
      have h1 := mul_le_mul_of_nonneg_left (norm_le_l1C x) hl.le
      have h2 : 0 ≤ 1 / 2 * ‖A x - b‖ ^ 2 := by positivity
      show lam * ‖x‖ ≤ 1 / 2 * ‖A x - b‖ ^ 2 + lam * l1C x
      linarith
    obtain ⟨w, hw⟩ := hcont.exists_forall_le hinf
    have hA : ∀ d, ‖A d‖ ^ 2 ≤ ‖LinearMap.toContinuousLinearMap A‖ ^ 2 * ‖d‖ ^ 2 := fun d => by
      rw [← mul_pow]
      exact pow_le_pow_left₀ (norm_nonneg _) ((LinearMap.toContinuousLinearMap A).le_opNorm d) 2
    obtain ⟨c, hc⟩ := c132_rate hs ha hb (K := 2 * ‖LinearMap.toContinuousLinearMap A‖ ^ 2) (by positivity) (fun u v => quadC_curv A _ _ hA u v) hx w trivial
      (fun v _ => by rw [l1rlsC_obj, l1rlsC_obj]; exact hw v)
    refine ⟨c, fun N tol s hr u => ?_⟩
    have h1 := hc N tol s hr
    rw [l1rlsC_obj, l1rlsC_obj] at h1
    have h2 := hw u
    show 1 / 2 * ‖A s.x - b‖ ^ 2 + lam * ∑ i, ‖s.x i‖ - F u ≤ _
    have h3 : F w = 1 / 2 * ‖A w - b‖ ^ 2 + lam * ∑ i, ‖w i‖ := rfl
    linarith

/-! ## The l1 ball -/

/-- **C142 disproof** on complex arrays `proj_l1_ball` is not the projection: it shrinks by comparing complex numbers, and sends `3i` to 0 although `i` lies in the
unit ball and is nearer. -/
theorem c142_proj_l1_ball_fails : ∃ x p : CVec 1, l1C p ≤ 1 ∧ projL1BallC 1 x = 0 ∧ ‖x - p‖ < ‖x - projL1BallC 1 x‖ := by
  set x : CVec 1 := cvec fun _ => 3 * Complex.I with hx
  have hxi : ∀ i, x i = 3 * Complex.I := fun i => rfl
  have hn : ∀ i, ‖x i‖ = 3 := fun i => by rw [hxi]; simp
  have hl : List.ofFn (fun i => ‖x i‖) = [3] := by simp [List.ofFn_succ, hn]
  have hk := (l1Kappa_spec 1 zero_le_one [3] (by simp) (by norm_num)).2
  have hk2 : l1Kappa 1 [3] = 2 := by
    simp only [List.map_cons, List.map_nil, List.sum_cons, List.sum_nil, add_zero] at hk
    rcases le_total (3 - l1Kappa 1 [3]) 0 with h | h
    · rw [max_eq_right h] at hk; norm_num at hk
    · rw [max_eq_left h] at hk; linarith
  have hp : projL1BallC 1 x = 0 := by
    have h1 : l1C x > 1 := by simp [l1C, hn]
    unfold projL1BallC
    rw [if_pos h1, hl, hk2]
    ext i
    show max0C (x i - (2 : ℝ)) + min0C (x i + (2 : ℝ)) = 0
    rw [hxi, max0C, min0C, if_neg, if_neg, add_zero]
    · simp [lexLt]
    · simp [lexLt]
  refine ⟨x, cvec fun _ => Complex.I, ?_, hp, ?_⟩
  · simp [l1C, cvec]
  · rw [hp, sub_zero, EuclideanSpace.norm_eq, EuclideanSpace.norm_eq]
    refine Real.sqrt_lt_sqrt (Finset.sum_nonneg fun _ _ => sq_nonneg _) ?_
    simp only [Finset.univ_unique, Finset.sum_singleton, hn]
    have : ‖(x - cvec (fun _ => Complex.I) : CVec 1) default‖ = 2 := by
      show ‖3 * Complex.I - Complex.I‖ = 2
      rw [show 3 * Complex.I - Complex.I = 2 * Complex.I by ring]; simp
    rw [this]; norm_num

/-! Instances: multiplication of two entries by `2i`. -/

/-- `x ↦ 2i x`. -/
def times2I : CVec 2 →ₗ[ℂ] CVec 2 := (2 * Complex.I) • LinearMap.id

/-- `y ↦ -2i y`, the adjoint of `times2I`. -/
def times2I' : CVec 2 →ₗ[ℂ] CVec 2 := (-(2 * Complex.I)) • LinearMap.id

theorem times2I_adj : IsAdjC times2I times2I' := by
  intro x y
  have h2 : (starRingEnd ℂ) (2 : ℂ) = 2 := map_ofNat _ 2
  simp [times2I, times2I', h2]
  ring

theorem times2I_norm (d : CVec 2) : ‖times2I d‖ ^ 2 = 4 * ‖d‖ ^ 2 := by
  rw [times2I, LinearMap.smul_apply, LinearMap.id_apply, norm_smul]; simp; ring

example := c142_prox_l1 (vec fun i : Fin 3 => (i : ℝ) + 1) fun i => by rw [vec_apply]; positivity
example := c142_prox_l2 3 2 (by norm_num)
example := c142_soft 2 (1 / 2) (by norm_num) (by norm_num) (cvec ![3 * Complex.I, 1 / 2])
example := c142_lasso times2I times2I' times2I_adj (LinearIsometryEquiv.refl ℂ _) (cvec ![3, Complex.I]) 0 1 (1 / 4) (by norm_num) (by norm_num)
  (fun d => by rw [times2I_norm]; linarith) 1e-3 1e-10 1000
example := c142_lsqr times2I times2I' times2I_adj (cvec ![3, Complex.I]) 0 (1 / 2) 10
example := (c142_lsqr times2I times2I' times2I_adj (cvec ![3, Complex.I]) 0 (1 / 2) 10).2.2 (by norm_num)
example := (c142_l1rls times2I times2I' times2I_adj (cvec ![3, Complex.I]) 1 (by norm_num) 0 { alpha := 1, L0 := 8 } rfl (by norm_num) (by norm_num) rfl).1
  fun d => by rw [times2I_norm]; linarith
example := (c142_l1rls times2I times2I' times2I_adj (cvec ![3, Complex.I]) 1 (by norm_num) 0 { alpha := 1 } rfl (by norm_num) (by norm_num) rfl).2 (by norm_num)

end Verif.Sls
