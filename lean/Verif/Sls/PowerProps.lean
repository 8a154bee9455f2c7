import Verif.Sls.PowerModel
import Mathlib.Analysis.InnerProductSpace.Adjoint
import Mathlib.Analysis.InnerProductSpace.Rayleigh
import Mathlib.Analysis.InnerProductSpace.PiL2
import Mathlib.Analysis.InnerProductSpace.EuclideanDist

set_option autoImplicit false
/-!
# Norm estimates never exceed the norm (C23)
-/
noncomputable section
namespace Verif.Sls
open Verif.Loop

section normest
variable {𝕜 E F : Type*} [RCLike 𝕜] [NormedAddCommGroup E] [InnerProductSpace 𝕜 E] [NormedAddCommGroup F] [InnerProductSpace 𝕜 F]
variable (A : E →L[𝕜] F) (At : F → E) (hadj : ∀ x y, inner 𝕜 x (At y) = inner 𝕜 (A x) y)

include hadj in
theorem ne_est (v : E) : ‖inner 𝕜 v (At (A v))‖ = ‖A v‖ ^ 2 := by
  rw [hadj, inner_self_eq_norm_sq_to_K, norm_pow]; simp

theorem norm_unit {v : E} (h : ‖v‖ ≠ 0) : ‖((‖v‖⁻¹ : ℝ) : 𝕜) • v‖ = 1 := by
  rw [norm_smul, RCLike.norm_ofReal, abs_of_nonneg (by positivity)]; exact inv_mul_cancel₀ h

/-- What a state knows: before the first iteration, the start values; afterwards a unit vector `u` with estimate `|A u|^2`. -/
def NeInv : Option (PState E) → Prop
  | none => True
  | some s => (s.iters = 0 ∧ s.old = -1e20 ∧ s.new = 1e20) ∨ (1 ≤ s.iters ∧ ∃ u : E, ‖u‖ = 1 ∧ s.new = ‖A u‖ ^ 2 ∧ s.v = At (A u))

include hadj in
theorem ne_inv (b : E) (N : ℕ) (tol : ℝ) (st : Option (PState E)) (h : Reach (pCond N tol) (neBody 𝕜 (⇑A) At) (neInit 𝕜 b) st) :
    NeInv A At st := by
  refine h.inv (NeInv A At) ?_ fun s _ _ => ?_
  · unfold neInit; split
    · trivial
    · exact Or.inl ⟨rfl, rfl, rfl⟩
  · cases s with
    | none => trivial
    | some s =>
      simp only [neBody]
      split
      · trivial
      · rename_i hv
        exact Or.inr ⟨Nat.succ_le_succ (Nat.zero_le _), _, norm_unit hv, ne_est A At hadj _, rfl⟩

include hadj in
/-- **C23** `normest` never overestimates: with at least one iteration allowed (and a tolerance below 2), whatever the start vector and however
many iterations are made, a returned estimate (one that is not `nan`) equals `|A u|` for a unit vector `u`, so it is at most the spectral norm. -/
theorem c23_normest_partial (b : E) (N : ℕ) (hN : 1 ≤ N) (tol : ℝ) (htol : tol < 2) (s : ℝ) (h : NormEst 𝕜 (⇑A) At b N tol (some s)) :
    s ≤ ‖A‖ ∧ ∃ u : E, ‖u‖ = 1 ∧ ‖A u‖ = s := by
  obtain ⟨st, ⟨hr, hc⟩, he⟩ := h
  cases st with
  | none => simp at he
  | some st =>
    simp only [Option.map_some, Option.some.injEq] at he
    rcases ne_inv A At hadj b N tol _ hr with ⟨h0, ho, hn⟩ | ⟨_, u, hu, hn, _⟩
    · exfalso; apply hc
      refine ⟨by omega, ?_⟩
      rw [if_neg (by rw [ho]; norm_num), ho, hn]
      norm_num; exact htol
    · rw [hn, Real.sqrt_sq (norm_nonneg _)] at he
      subst he
      refine ⟨?_, u, hu, rfl⟩
      simpa [hu] using A.le_opNorm u

/-- Termination measure. -/
def pCnt {E : Type*} (N : ℕ) : Option (PState E) → ℕ
  | none => N
  | some s => s.iters

/-- `normest` returns for every operator, start vector and iteration limit. -/
theorem c23_normest_terminates (times : E → F) (trans : F → E) (b : E) (N : ℕ) (tol : ℝ) : ∃ s, NormEst 𝕜 times trans b N tol s := by
  obtain ⟨st, h⟩ : ∃ st, Out (pCond N tol) (neBody 𝕜 times trans) (neInit 𝕜 b) st := by
    refine exists_out' (pCnt N) N ?_ ?_
    · rintro (_ | s) hs
      · exact hs.elim
      · exact hs.1
    · rintro (_ | s) hs
      · exact hs.elim
      · simp only [neBody]
        split
        · exact hs.1
        · exact Nat.lt_succ_self _
  exact ⟨_, st, h, rfl⟩

include hadj in
/-- **C23** successive `normest` estimates never decrease. -/
theorem c23_normest_monotone (b : E) (N : ℕ) (tol : ℝ) (s s' : PState E)
    (h : Reach (pCond N tol) (neBody 𝕜 (⇑A) At) (neInit 𝕜 b) (some s)) (h1 : 1 ≤ s.iters) (hs' : neBody 𝕜 (⇑A) At (some s) = some s') :
    s.new ≤ s'.new := by
  rcases ne_inv A At hadj b N tol _ h with ⟨h0, _⟩ | ⟨_, u, hu, hn, hv⟩
  · omega
  · simp only [neBody] at hs'
    split at hs'
    · simp at hs'
    · rename_i hv0
      simp only [Option.some.injEq] at hs'
      subst hs'
      rw [hn]
      change _ ≤ ‖inner 𝕜 _ _‖
      rw [ne_est A At hadj, map_smul]
      have hw : 0 < ‖s.v‖ := lt_of_le_of_ne (norm_nonneg _) (Ne.symm hv0)
      rw [norm_smul, RCLike.norm_ofReal, abs_of_nonneg (by positivity)]
      have h1 : ‖A u‖ ^ 2 ≤ ‖s.v‖ := by
        rw [← ne_est A At hadj, ← hv]
        simpa [hu] using norm_inner_le_norm (𝕜 := 𝕜) u s.v
      have h2 : ‖s.v‖ ^ 2 ≤ ‖A s.v‖ * ‖A u‖ := by
        have e : ‖inner 𝕜 s.v s.v‖ = ‖s.v‖ ^ 2 := by rw [inner_self_eq_norm_sq_to_K, norm_pow]; simp
        rw [← e]
        nth_rw 2 [hv]
        rw [hadj]
        exact norm_inner_le_norm _ _
      have hu0 : 0 < ‖A u‖ := by
        by_contra hneg
        have : ‖A u‖ = 0 := le_antisymm (not_lt.mp hneg) (norm_nonneg _)
        rw [this, mul_zero] at h2
        have : 0 < ‖s.v‖ ^ 2 := by positivity
        linarith
      have h3 : ‖A u‖ * ‖s.v‖ ≤ ‖A s.v‖ := by
        have : ‖A u‖ * (‖A u‖ * ‖s.v‖) ≤ ‖A u‖ * ‖A s.v‖ := by nlinarith
        exact le_of_mul_le_mul_left this hu0
      have h4 : ‖A u‖ ≤ ‖s.v‖⁻¹ * ‖A s.v‖ := by
        rw [inv_mul_eq_div, le_div_iff₀ hw]; exact h3
      exact pow_le_pow_left₀ (norm_nonneg _) h4 2

/-- **C23 disproof** with `max_iters=0` the "estimate" is `sqrt(1e20) = 1e10` for every operator. -/
theorem c23_normest_zero_iters_fails (times : E → F) (trans : F → E) (b : E) (hb : b ≠ 0) (tol : ℝ) :
    NormEst 𝕜 times trans b 0 tol (some 1e10) := by
  refine ⟨_, ⟨.init, ?_⟩, ?_⟩
  · unfold neInit; rw [if_neg (norm_ne_zero_iff.mpr hb)]; simp [pCond]
  · unfold neInit; rw [if_neg (norm_ne_zero_iff.mpr hb)]
    simp only [Option.map_some, Option.some.injEq]
    rw [show (1e20 : ℝ) = 1e10 ^ 2 by norm_num, Real.sqrt_sq (by norm_num)]

/-- **C23 disproof** for the zero operator (norm 0), with at least two iterations and a tolerance below 1, the result is `nan`: the second
iteration normalises the zero vector. -/
theorem c23_normest_zero_operator_fails (b : E) (hb : b ≠ 0) (N : ℕ) (hN : 2 ≤ N) (tol : ℝ) (htol : tol < 1) (s : Option ℝ) :
    NormEst 𝕜 (fun _ : E => (0 : F)) (fun _ => (0 : E)) b N tol s ↔ s = none := by
  have hb' : ‖b‖ ≠ 0 := norm_ne_zero_iff.mpr hb
  have e0 : neInit 𝕜 b = some { v := ((‖b‖⁻¹ : ℝ) : 𝕜) • b, old := -1e20, new := 1e20, iters := 0 } := by unfold neInit; rw [if_neg hb']
  have hu : ‖((‖b‖⁻¹ : ℝ) : 𝕜) • b‖ = 1 := norm_unit hb'
  have c0 : pCond N tol (neInit 𝕜 b) := by
    rw [e0]; refine ⟨by simp; omega, ?_⟩
    rw [if_neg (by norm_num)]; norm_num; linarith
  have e1 : neBody 𝕜 (fun _ : E => (0 : F)) (fun _ => (0 : E)) (neInit 𝕜 b) = some { v := 0, old := 1e20, new := 0, iters := 1 } := by
    rw [e0]; simp only [neBody]; rw [if_neg (by rw [hu]; norm_num)]; simp
  have c1 : pCond N tol (some { v := (0 : E), old := 1e20, new := 0, iters := 1 }) := by
    refine ⟨by simp; omega, ?_⟩
    rw [if_neg (by norm_num)]; norm_num; linarith
  have e2 : neBody 𝕜 (fun _ : E => (0 : F)) (fun _ => (0 : E)) (some { v := (0 : E), old := 1e20, new := 0, iters := 1 }) = none := by
    simp [neBody]
  have hout : Out (pCond N tol) (neBody 𝕜 (fun _ : E => (0 : F)) (fun _ => (0 : E))) (neInit 𝕜 b) none := by
    refine ⟨?_, fun h => h⟩
    have h1 := Reach.step (f := neBody 𝕜 (fun _ : E => (0 : F)) (fun _ => (0 : E))) Reach.init c0
    rw [e1] at h1
    have h2 := h1.step c1
    rwa [e2] at h2
  constructor
  · rintro ⟨st, h, rfl⟩
    rw [h.unique hout]; rfl
  · rintro rfl; exact ⟨none, hout, rfl⟩

/-- The hypotheses of `c23_normest_partial` are met: one iteration on the identity of `ℝ²` returns 1. -/
example : NormEst ℝ (⇑(ContinuousLinearMap.id ℝ (EuclideanSpace ℝ (Fin 2)))) id (EuclideanSpace.single 0 1) 1 1e-6 (some 1) := by
  have hb : ‖(EuclideanSpace.single 0 1 : EuclideanSpace ℝ (Fin 2))‖ = 1 := by simp
  have e0 : neInit ℝ (EuclideanSpace.single 0 1 : EuclideanSpace ℝ (Fin 2)) =
      some { v := EuclideanSpace.single 0 1, old := -1e20, new := 1e20, iters := 0 } := by
    unfold neInit; rw [if_neg (by rw [hb]; norm_num), hb]; simp
  have e1 : neBody ℝ (⇑(ContinuousLinearMap.id ℝ (EuclideanSpace ℝ (Fin 2)))) id (neInit ℝ (EuclideanSpace.single 0 1)) =
      some { v := EuclideanSpace.single 0 1, old := 1e20, new := 1, iters := 1 } := by
    rw [e0]; simp only [neBody]; rw [if_neg (by rw [hb]; norm_num), hb]; simp
  have c0 : pCond 1 1e-6 (neInit ℝ (EuclideanSpace.single 0 1 : EuclideanSpace ℝ (Fin 2))) := by
    rw [e0]; refine ⟨by simp, ?_⟩
    rw [if_neg (by norm_num)]; norm_num
  have h1 := Reach.step (f := neBody ℝ (⇑(ContinuousLinearMap.id ℝ (EuclideanSpace ℝ (Fin 2)))) id) Reach.init c0
  rw [e1] at h1
  exact ⟨_, ⟨h1, by simp [pCond]⟩, by simp⟩

end normest

/-! ## Power iterations -/
section power
variable {E : Type*} [NormedAddCommGroup E] [InnerProductSpace ℝ E]

/-- What a state of `power_iterations` knows. -/
def PwInv (A : E → E) : Option (PState E) → Prop
  | none => True
  | some s => (s.iters = 0 ∧ s.old = -1e20 ∧ s.new = 1e20) ∨ (1 ≤ s.iters ∧ ∃ u : E, ‖u‖ = 1 ∧ s.new = inner ℝ u (A u) ∧ s.v = A u)

theorem pw_inv (A : E → E) (b : E) (N : ℕ) (tol : ℝ) (st : Option (PState E))
    (h : Reach (pCond N tol) (pwBody A) (some { v := b, old := -1e20, new := 1e20, iters := 0 }) st) : PwInv A st := by
  refine h.inv (PwInv A) (Or.inl ⟨rfl, rfl, rfl⟩) fun s _ _ => ?_
  cases s with
  | none => trivial
  | some s =>
    simp only [pwBody]
    split
    · trivial
    · rename_i hv
      exact Or.inr ⟨Nat.succ_le_succ (Nat.zero_le _), _, by simpa using norm_unit (𝕜 := ℝ) hv, rfl, rfl⟩

/-- A quadratic form of a symmetric operator on a finite-dimensional space is at most the largest eigenvalue. -/
theorem rayleigh_le [FiniteDimensional ℝ E] (A : E →ₗ[ℝ] E) (hA : A.IsSymmetric) (lmax : ℝ)
    (hmax : ∀ μ : ℝ, Module.End.HasEigenvalue A μ → μ ≤ lmax) (u : E) (hu : ‖u‖ = 1) : inner ℝ u (A u) ≤ lmax := by
  have hne : u ≠ 0 := by intro h; rw [h, norm_zero] at hu; exact zero_ne_one hu
  have : Nontrivial E := ⟨u, 0, hne⟩
  have h1 := hmax _ (by simpa using hA.hasEigenvalue_iSup_of_finiteDimensional)
  refine le_trans ?_ h1
  have hb : BddAbove (Set.range fun x : {x : E // x ≠ 0} => RCLike.re (inner ℝ (A x) (x : E)) / ‖(x : E)‖ ^ 2) := by
    refine ⟨‖LinearMap.toContinuousLinearMap A‖, ?_⟩
    rintro _ ⟨x, rfl⟩
    have hx : 0 < ‖(x : E)‖ := norm_pos_iff.mpr x.2
    rw [div_le_iff₀ (by positivity)]
    have h2 := real_inner_le_norm (A x) (x : E)
    have h3 := (LinearMap.toContinuousLinearMap A).le_opNorm (x : E)
    simp only [LinearMap.coe_toContinuousLinearMap'] at h3
    simp only [RCLike.re_to_real]
    nlinarith
  have := le_ciSup hb ⟨u, hne⟩
  simp only [hu, one_pow, div_one, RCLike.re_to_real] at this
  rw [real_inner_comm]
  exact this

/-- **C23** `power_iterations` never overestimates: for a symmetric operator, whatever the start vector and however many iterations are made (at
least one), a returned estimate that is not `nan` equals `⟨u, A u⟩` for a unit vector `u`, is at most the largest eigenvalue, and the returned
vector, if not `nan`, has unit norm. -/
theorem c23_power_iterations_partial [FiniteDimensional ℝ E] (A : E →ₗ[ℝ] E) (hA : A.IsSymmetric) (b : E) (N : ℕ) (hN : 1 ≤ N) (tol : ℝ)
    (htol : tol < 2) (v : Option E) (s : ℝ) (k : ℕ) (h : PowerIter A b N tol (some (v, s, k))) :
    (∃ u : E, ‖u‖ = 1 ∧ inner ℝ u (A u) = s) ∧ (∀ lmax : ℝ, (∀ μ, Module.End.HasEigenvalue A μ → μ ≤ lmax) → s ≤ lmax) ∧
    (∀ w, v = some w → ‖w‖ = 1) ∧ 1 ≤ k ∧ k ≤ N := by
  obtain ⟨st, ⟨hr, hc⟩, he⟩ := h
  cases st with
  | none => simp at he
  | some st =>
    simp only [Option.map_some, Option.some.injEq, Prod.mk.injEq] at he
    obtain ⟨rfl, rfl, rfl⟩ := he
    have hle : pCnt N (some st) ≤ N := by
      refine hr.inv (fun st => pCnt N st ≤ N) (by simp [pCnt]) fun s _ hs => ?_
      cases s with
      | none => exact hs.elim
      | some s =>
        simp only [pwBody]
        split
        · exact le_rfl
        · exact hs.1
    rcases pw_inv A b N tol _ hr with ⟨h0, ho, hn⟩ | ⟨h1, u, hu, hn, _⟩
    · exfalso; apply hc
      refine ⟨by omega, ?_⟩
      rw [if_neg (by rw [ho]; norm_num), ho, hn]
      norm_num; exact htol
    · refine ⟨⟨u, hu, hn.symm⟩, fun lmax hl => hn ▸ rayleigh_le A hA lmax hl u hu, fun w hw => ?_, h1, hle⟩
      split at hw
      · simp at hw
      · rename_i hv
        simp only [Option.some.injEq] at hw
        subst hw
        simpa using norm_unit (𝕜 := ℝ) hv

/-- `power_iterations` returns for every operator, start vector and iteration limit. -/
theorem c23_power_iterations_terminates (times : E → E) (b : E) (N : ℕ) (tol : ℝ) : ∃ res, PowerIter times b N tol res := by
  obtain ⟨st, h⟩ : ∃ st, Out (pCond N tol) (pwBody times) (some { v := b, old := -1e20, new := 1e20, iters := 0 }) st := by
    refine exists_out' (pCnt N) N ?_ ?_
    · rintro (_ | s) hs
      · exact hs.elim
      · exact hs.1
    · rintro (_ | s) hs
      · exact hs.elim
      · simp only [pwBody]
        split
        · exact hs.1
        · exact Nat.lt_succ_self _
  exact ⟨_, st, h, rfl⟩

/-- Cauchy-Schwarz for a positive semidefinite symmetric operator. -/
theorem psd_cs (A : E →ₗ[ℝ] E) (hA : A.IsSymmetric) (hpos : ∀ x, 0 ≤ inner ℝ x (A x)) (x y : E) :
    inner ℝ x (A y) ^ 2 ≤ inner ℝ x (A x) * inner ℝ y (A y) := by
  have hq : ∀ t : ℝ, 0 ≤ inner ℝ y (A y) * (t * t) + 2 * inner ℝ x (A y) * t + inner ℝ x (A x) := by
    intro t
    have := hpos (x + t • y)
    have e : inner ℝ y (A x) = inner ℝ x (A y) := by rw [← hA, real_inner_comm]
    simp only [map_add, map_smul, inner_add_left, inner_add_right, inner_smul_left, inner_smul_right, e] at this
    simp only [conj_trivial] at this
    linarith
  have := discrim_le_zero hq
  unfold discrim at this
  linarith

/-- **C23** for a positive semidefinite operator successive estimates never decrease. -/
theorem c23_power_iterations_monotone (A : E →ₗ[ℝ] E) (hA : A.IsSymmetric) (hpos : ∀ x, 0 ≤ inner ℝ x (A x)) (b : E) (N : ℕ) (tol : ℝ)
    (s s' : PState E) (h : Reach (pCond N tol) (pwBody A) (some { v := b, old := -1e20, new := 1e20, iters := 0 }) (some s))
    (h1 : 1 ≤ s.iters) (hs' : pwBody A (some s) = some s') : s.new ≤ s'.new := by
  rcases pw_inv A b N tol _ h with ⟨h0, _⟩ | ⟨_, u, hu, hn, hv⟩
  · omega
  · simp only [pwBody] at hs'
    split at hs'
    · simp at hs'
    · rename_i hv0
      simp only [Option.some.injEq] at hs'
      subst hs'
      have hw : 0 < ‖s.v‖ := lt_of_le_of_ne (norm_nonneg _) (Ne.symm hv0)
      simp only [map_smul, inner_smul_left, inner_smul_right, conj_trivial, hn]
      set ρ := inner ℝ u (A u) with hρ
      set ω := inner ℝ s.v (A s.v) with hω
      have hcs := psd_cs A hA hpos u s.v
      have e : inner ℝ u (A s.v) = ‖s.v‖ ^ 2 := by rw [← hA, ← hv, real_inner_self_eq_norm_sq]
      rw [e] at hcs
      have h1 : ρ ≤ ‖s.v‖ := by
        have := real_inner_le_norm u (A u)
        rw [← hv, hu, one_mul] at this
        rw [hρ, ← hv]; exact this
      have hρ0 : 0 < ρ := by
        by_contra hneg
        have hz : ρ = 0 := le_antisymm (not_lt.mp hneg) (hpos u)
        rw [← hρ, hz, zero_mul] at hcs
        have : 0 < (‖s.v‖ ^ 2) ^ 2 := by positivity
        linarith
      have h2 : ρ ^ 2 ≤ ‖s.v‖ ^ 2 := pow_le_pow_left₀ hρ0.le h1 2
      have h3 : ρ * ‖s.v‖ ^ 2 ≤ ω := by
        have : ρ * (ρ * ‖s.v‖ ^ 2) ≤ ρ * ω := by
          have : 0 ≤ ‖s.v‖ ^ 2 := by positivity
          nlinarith
        exact le_of_mul_le_mul_left this hρ0
      have h4 : ‖s.v‖⁻¹ * (‖s.v‖⁻¹ * ω) = ω / ‖s.v‖ ^ 2 := by field_simp
      rw [h4, le_div_iff₀ (by positivity)]
      exact h3

/-- The hypotheses are met: one iteration on the identity of `ℝ²`. -/
example : PowerIter (LinearMap.id : EuclideanSpace ℝ (Fin 2) →ₗ[ℝ] _) (EuclideanSpace.single 0 1) 1 1e-6
    (some (some (EuclideanSpace.single 0 1), 1, 1)) := by
  have hb : ‖(EuclideanSpace.single 0 1 : EuclideanSpace ℝ (Fin 2))‖ = 1 := by simp
  have e1 : pwBody (LinearMap.id : EuclideanSpace ℝ (Fin 2) →ₗ[ℝ] _)
      (some { v := EuclideanSpace.single 0 1, old := -1e20, new := 1e20, iters := 0 }) =
      some { v := EuclideanSpace.single 0 1, old := 1e20, new := 1, iters := 1 } := by
    simp only [pwBody]; rw [if_neg (by rw [hb]; norm_num), hb]; simp
  have c0 : pCond 1 1e-6 (some { v := (EuclideanSpace.single 0 1 : EuclideanSpace ℝ (Fin 2)), old := -1e20, new := 1e20, iters := 0 }) := by
    refine ⟨by simp, ?_⟩
    rw [if_neg (by norm_num)]; norm_num
  have h1 := Reach.step (f := pwBody (LinearMap.id : EuclideanSpace ℝ (Fin 2) →ₗ[ℝ] _)) Reach.init c0
  rw [e1] at h1
  refine ⟨_, ⟨h1, by simp [pCond]⟩, ?_⟩
  simp only [Option.map_some, hb]
  rw [if_neg (by norm_num)]; simp

end power
/-! Instances: the identity of the plane. -/

example := c23_normest_partial (ContinuousLinearMap.id ℝ (EuclideanSpace ℝ (Fin 2))) id (fun _ _ => rfl) (EuclideanSpace.single 0 1) 5 (by norm_num) 1e-6 (by norm_num)
example := c23_normest_monotone (ContinuousLinearMap.id ℝ (EuclideanSpace ℝ (Fin 2))) id (fun _ _ => rfl) (EuclideanSpace.single 0 1) 5 1e-6
example := c23_normest_zero_iters_fails (𝕜 := ℝ) (E := EuclideanSpace ℝ (Fin 2)) id id (EuclideanSpace.single 0 1) (by simp) 1e-6
example := c23_normest_zero_operator_fails (𝕜 := ℝ) (E := EuclideanSpace ℝ (Fin 2)) (F := EuclideanSpace ℝ (Fin 2)) (EuclideanSpace.single 0 1) (by simp) 100 (by norm_num) 1e-6 (by norm_num)
example := c23_power_iterations_partial (LinearMap.id : EuclideanSpace ℝ (Fin 2) →ₗ[ℝ] _) (fun _ _ => rfl) (EuclideanSpace.single 0 1) 5 (by norm_num) 1e-6 (by norm_num)
example := c23_power_iterations_monotone (LinearMap.id : EuclideanSpace ℝ (Fin 2) →ₗ[ℝ] _) (fun _ _ => rfl) (fun _ => real_inner_self_nonneg) (EuclideanSpace.single 0 1) 5 1e-6

end Verif.Sls
