import Verif.Sls.LsqrProps
import Verif.Opt.CgRateProps
import Mathlib.Tactic.FinCases

set_option autoImplicit false
/-!
# Convergence rate of LSQR (C125)

The iterate minimises the damped objective over the Krylov space (C83); Chebyshev polynomials bound what that minimum can be. The rate depends on the smallest
**nonzero** singular value, so it also applies to operators that are not injective.
-/
noncomputable section
namespace Verif.Sls
open Verif.Loop Polynomial Verif.Opt

variable {E : Type*} [NormedAddCommGroup E] [InnerProductSpace ℝ E] {F : Type*} [NormedAddCommGroup F] [InnerProductSpace ℝ F]

/-- The damped least squares objective `|b - A y|² + damp² |y - x0|²`. -/
def dampedObj (A : E →ₗ[ℝ] F) (b : F) (x0 : E) (damp : ℝ) (y : E) : ℝ := ‖b - A y‖ ^ 2 + damp ^ 2 * ‖y - x0‖ ^ 2

/-! ## Polynomials of a symmetric operator -/

section spectral
variable [FiniteDimensional ℝ E] (H : E →ₗ[ℝ] E) (hH : H.IsSymmetric)
include hH

/-- Every eigenvalue is in `[lo, hi]` unless `H e` has no component along its eigenvectors. -/
def SpecOn (H : E →ₗ[ℝ] E) (e : E) (lo hi : ℝ) : Prop := ∀ (l : ℝ) (u : E), ‖u‖ = 1 → H u = l • u → (lo ≤ l ∧ l ≤ hi) ∨ l * inner ℝ u e = 0

theorem spec_inner (x y : E) : inner ℝ x y = ∑ i, inner ℝ (hH.eigenvectorBasis rfl i) x * inner ℝ (hH.eigenvectorBasis rfl i) y := by
  rw [← (hH.eigenvectorBasis rfl).sum_inner_mul_inner x y]
  exact Finset.sum_congr rfl fun i _ => by rw [real_inner_comm x]

theorem spec_apply (x : E) (i) : inner ℝ (hH.eigenvectorBasis rfl i) (H x) = hH.eigenvalues rfl i * inner ℝ (hH.eigenvectorBasis rfl i) x := by
  rw [← hH, hH.apply_eigenvectorBasis rfl i, inner_smul_left]; rfl

theorem spec_poly (q : ℝ[X]) (x : E) (i) : inner ℝ (hH.eigenvectorBasis rfl i) (aeval H q x) =
    q.eval (hH.eigenvalues rfl i) * inner ℝ (hH.eigenvectorBasis rfl i) x := by
  induction q using Polynomial.induction_on' with
  | add p q hp hq => rw [map_add, LinearMap.add_apply, inner_add_right, hp, hq, eval_add, add_mul]
  | monomial n a =>
    have hpow : ∀ n : ℕ, inner ℝ (hH.eigenvectorBasis rfl i) ((H ^ n) x) = hH.eigenvalues rfl i ^ n * inner ℝ (hH.eigenvectorBasis rfl i) x := by
      intro n
      induction n with
      | zero => simp
      | succ n ih => rw [pow_succ', Module.End.mul_apply, spec_apply H hH, ih, pow_succ']; ring
    rw [aeval_monomial, eval_monomial, Module.End.mul_apply, Module.algebraMap_end_apply, inner_smul_right, hpow, mul_assoc]

theorem spec_cases (e : E) (lo hi : ℝ) (hs : SpecOn H e lo hi) (i) :
    (lo ≤ hH.eigenvalues rfl i ∧ hH.eigenvalues rfl i ≤ hi) ∨ hH.eigenvalues rfl i * inner ℝ (hH.eigenvectorBasis rfl i) e = 0 :=
  hs _ _ ((hH.eigenvectorBasis rfl).orthonormal.1 i) (hH.apply_eigenvectorBasis rfl i)

theorem poly_bound_spec (e : E) (lo hi : ℝ) (hlo : 0 ≤ lo) (hs : SpecOn H e lo hi) (q : ℝ[X]) (c : ℝ) (hq : ∀ t, lo ≤ t → t ≤ hi → |q.eval t| ≤ c) :
    inner ℝ (aeval H q e) (H (aeval H q e)) ≤ c ^ 2 * inner ℝ e (H e) := by
  rw [spec_inner H hH, spec_inner H hH e, Finset.mul_sum]
  refine Finset.sum_le_sum fun i _ => ?_
  rw [spec_apply H hH, spec_apply H hH, spec_poly H hH]
  rcases spec_cases H hH e lo hi hs i with ⟨h1, h2⟩ | h0
  · have h3 := hq _ h1 h2
    have h4 : q.eval (hH.eigenvalues rfl i) ^ 2 ≤ c ^ 2 := sq_le_sq' (by linarith [neg_abs_le (q.eval (hH.eigenvalues rfl i))]) (le_trans (le_abs_self _) h3)
    have h5 : 0 ≤ hH.eigenvalues rfl i * inner ℝ (hH.eigenvectorBasis rfl i) e ^ 2 := mul_nonneg (hlo.trans h1) (sq_nonneg _)
    nlinarith [mul_le_mul_of_nonneg_right h4 h5]
  · have : hH.eigenvalues rfl i * (q.eval (hH.eigenvalues rfl i) * inner ℝ (hH.eigenvectorBasis rfl i) e) = 0 := by
      rw [mul_left_comm, h0, mul_zero]
    rw [this, h0]; simp

theorem spec_lo (e : E) (lo hi : ℝ) (hlo : 0 ≤ lo) (hs : SpecOn H e lo hi) : lo * inner ℝ e (H e) ≤ ‖H e‖ ^ 2 := by
  rw [← real_inner_self_eq_norm_sq, spec_inner H hH, spec_inner H hH (H e), Finset.mul_sum]
  refine Finset.sum_le_sum fun i _ => ?_
  rw [spec_apply H hH]
  rcases spec_cases H hH e lo hi hs i with ⟨h1, h2⟩ | h0
  · have h5 : 0 ≤ hH.eigenvalues rfl i * inner ℝ (hH.eigenvectorBasis rfl i) e ^ 2 := mul_nonneg (hlo.trans h1) (sq_nonneg _)
    nlinarith [mul_le_mul_of_nonneg_right h1 h5]
  · rw [h0]; simp

theorem spec_hi (hi : ℝ) (h0 : ∀ x, 0 ≤ inner ℝ x (H x)) (h1 : ∀ x, inner ℝ x (H x) ≤ hi * ‖x‖ ^ 2) (x : E) : ‖H x‖ ^ 2 ≤ hi * inner ℝ x (H x) := by
  rw [← real_inner_self_eq_norm_sq, spec_inner H hH, spec_inner H hH x, Finset.mul_sum]
  refine Finset.sum_le_sum fun i _ => ?_
  rw [spec_apply H hH]
  have a0 := h0 (hH.eigenvectorBasis rfl i)
  have a1 := h1 (hH.eigenvectorBasis rfl i)
  rw [hH.apply_eigenvectorBasis rfl i, inner_smul_right, real_inner_self_eq_norm_sq, (hH.eigenvectorBasis rfl).orthonormal.1 i] at a0 a1
  simp only [RCLike.ofReal_real_eq_id, id, one_pow, mul_one] at a0 a1
  have h5 : 0 ≤ hH.eigenvalues rfl i * inner ℝ (hH.eigenvectorBasis rfl i) x ^ 2 := mul_nonneg a0 (sq_nonneg _)
  nlinarith [mul_le_mul_of_nonneg_right a1 h5]
end spectral

/-! ## The damped normal operator -/

/-- `AᵀA + damp² I`. -/
def normalOp (A : E →ₗ[ℝ] F) (At : F →ₗ[ℝ] E) (damp : ℝ) : E →ₗ[ℝ] E := At ∘ₗ A + damp ^ 2 • LinearMap.id

section normal
variable {A : E →ₗ[ℝ] F} {At : F →ₗ[ℝ] E} (hadj : IsAdj A At) {b : F} {x0 : E} {damp : ℝ}
include hadj

theorem normalOp_inner (x y : E) : inner ℝ x (normalOp A At damp y) = inner ℝ (A x) (A y) + damp ^ 2 * inner ℝ x y := by
  simp only [normalOp, LinearMap.add_apply, LinearMap.comp_apply, LinearMap.smul_apply, LinearMap.id_apply, inner_add_right, inner_smul_right]
  rw [← hadj]

theorem normalOp_symm : (normalOp A At damp).IsSymmetric := by
  intro x y
  rw [real_inner_comm, normalOp_inner hadj, normalOp_inner hadj, real_inner_comm (A x), real_inner_comm x]

theorem normalOp_self (x : E) : inner ℝ x (normalOp A At damp x) = ‖A x‖ ^ 2 + damp ^ 2 * ‖x‖ ^ 2 := by
  rw [normalOp_inner hadj, real_inner_self_eq_norm_sq, real_inner_self_eq_norm_sq]

omit hadj in
theorem normalOp_sol (xs : E) (hxs : At (b - A xs) = damp ^ 2 • (xs - x0)) (x : E) :
    normalOp A At damp (xs - x) = At (b - A x) - damp ^ 2 • (x - x0) := by
  simp only [normalOp, LinearMap.add_apply, LinearMap.comp_apply, LinearMap.smul_apply, LinearMap.id_apply, map_sub] at hxs ⊢
  have : At b - At (A xs) = damp ^ 2 • (xs - x0) := hxs
  have e : At (A xs) = At b - damp ^ 2 • (xs - x0) := by rw [← this]; abel
  rw [e]; module

theorem obj_sub (xs : E) (hxs : At (b - A xs) = damp ^ 2 • (xs - x0)) (y : E) :
    dampedObj A b x0 damp y - dampedObj A b x0 damp xs = inner ℝ (y - xs) (normalOp A At damp (y - xs)) := by
  have e := damped_expand A At hadj b x0 xs (y - xs) damp
  rw [hxs, sub_self, inner_zero_left, add_sub_cancel] at e
  rw [normalOp_self hadj, dampedObj, dampedObj, e]; ring

/-- A polynomial of degree below `k` of the normal operator maps the first gradient into the Krylov space. -/
theorem poly_mem_krylov (r : F) (g : ℝ[X]) (k : ℕ) (hg : g.natDegree < k) : aeval (normalOp A At damp) g (At r) ∈ krylov A At r k := by
  have hpow : ∀ i : ℕ, ((normalOp A At damp) ^ i) (At r) ∈ krylov A At r (i + 1) := by
    intro i
    induction i with
    | zero => exact Submodule.subset_span ⟨0, by omega, rfl⟩
    | succ i ih =>
      rw [pow_succ', Module.End.mul_apply]
      have hstep : ∀ v ∈ krylov A At r (i + 1), normalOp A At damp v ∈ krylov A At r (i + 1 + 1) := by
        intro v hv
        refine Submodule.span_induction (p := fun v _ => normalOp A At damp v ∈ krylov A At r (i + 1 + 1)) ?_ (by simp) ?_ ?_ hv
        · rintro _ ⟨j, hj, rfl⟩
          rw [normalOp, LinearMap.add_apply, LinearMap.smul_apply, LinearMap.id_apply]
          refine add_mem (Submodule.subset_span ⟨j + 1, by omega, ?_⟩) (Submodule.smul_mem _ _ (Submodule.subset_span ⟨j, by omega, rfl⟩))
          rw [pow_succ', Module.End.mul_apply]
        · intro x y _ _ hx hy; rw [map_add]; exact add_mem hx hy
        · intro a x _ hx; rw [map_smul]; exact Submodule.smul_mem _ _ hx
      exact hstep _ ih
  rw [aeval_eq_sum_range, LinearMap.sum_apply]
  refine sum_mem fun i hi => ?_
  rw [LinearMap.smul_apply]
  have hik : i + 1 ≤ k := by have := Finset.mem_range.mp hi; omega
  refine Submodule.smul_mem _ _ (Submodule.span_mono ?_ (hpow i))
  rintro _ ⟨j, hj, rfl⟩
  exact ⟨j, by omega, rfl⟩

/-- The spectrum seen by the starting error. -/
theorem normal_spec (slo shi : ℝ) (hs0 : 0 ≤ slo) (hlo : ∀ z, slo * ‖At z‖ ≤ ‖A (At z)‖) (hhi : ∀ x, ‖A x‖ ≤ shi * ‖x‖)
    (xs : E) (hxs : At (b - A xs) = damp ^ 2 • (xs - x0)) :
    SpecOn (normalOp A At damp) (xs - x0) (slo ^ 2 + damp ^ 2) (shi ^ 2 + damp ^ 2) := by
  intro l u hu hl
  have h1 : At (A u) = (l - damp ^ 2) • u := by
    have : At (A u) + damp ^ 2 • u = l • u := hl
    rw [sub_smul, ← this]; abel
  have h2 : ‖A u‖ ^ 2 = l - damp ^ 2 := by
    rw [← real_inner_self_eq_norm_sq, hadj, h1, inner_smul_right, real_inner_self_eq_norm_sq, hu]; ring
  by_cases hz : l - damp ^ 2 = 0
  · right
    have hA : A u = 0 := by
      exact norm_eq_zero.mp (pow_eq_zero_iff two_ne_zero |>.1 (h2.trans hz))
    have e := normalOp_sol (A := A) (At := At) (b := b) (x0 := x0) (damp := damp) xs hxs x0
    rw [sub_self, smul_zero, sub_zero] at e
    have h3 : inner ℝ u (normalOp A At damp (xs - x0)) = (0 : ℝ) := by rw [e, ← hadj, hA, inner_zero_left]
    rw [← normalOp_symm hadj, hl, inner_smul_left] at h3
    exact h3
  · left
    have hu' : u = At ((l - damp ^ 2)⁻¹ • A u) := by rw [map_smul, h1, smul_smul, inv_mul_cancel₀ hz, one_smul]
    have h3 := hlo ((l - damp ^ 2)⁻¹ • A u)
    rw [← hu', hu, mul_one] at h3
    have h4 := hhi u
    rw [hu, mul_one] at h4
    have h5 := norm_nonneg (A u)
    constructor <;> nlinarith
end normal

/-! ## The theorems -/

variable [FiniteDimensional ℝ E]

section rate
variable {A : E →ₗ[ℝ] F} {At : F →ₗ[ℝ] E} (hadj : IsAdj A At) {b : F} {x0 : E} {damp atol btol conlim : ℝ} {max_iters : ℕ} {s : LsqrState E F}
include hadj

theorem rate_core (h : LsqrReach A At b x0 damp atol btol conlim max_iters s) (slo shi : ℝ) (hs0 : 0 ≤ slo) (hs1 : slo ≤ shi) (hpos : 0 < slo ^ 2 + damp ^ 2)
    (hlo : ∀ z, slo * ‖At z‖ ≤ ‖A (At z)‖) (hhi : ∀ x, ‖A x‖ ≤ shi * ‖x‖) (xs : E) (hxs : At (b - A xs) = damp ^ 2 • (xs - x0)) :
    dampedObj A b x0 damp s.x - dampedObj A b x0 damp xs ≤
      (2 * cgRate (slo ^ 2 + damp ^ 2) (shi ^ 2 + damp ^ 2) ^ (s.iterations - 1)) ^ 2 * (dampedObj A b x0 damp x0 - dampedObj A b x0 damp xs) := by
  have hle : slo ^ 2 + damp ^ 2 ≤ shi ^ 2 + damp ^ 2 := by nlinarith
  obtain ⟨q, hqd, hq0, hqb⟩ := exists_cheb _ _ hpos hle (s.iterations - 1)
  set k := s.iterations - 1 with hk
  set H := normalOp A At damp with hH
  have hsym : H.IsSymmetric := normalOp_symm hadj
  -- `q = 1 + g X`
  obtain ⟨g, hg⟩ : ∃ g : ℝ[X], q = 1 + g * X := by
    have : (X : ℝ[X]) ∣ q - 1 := by rw [X_dvd_iff, coeff_zero_eq_eval_zero, eval_sub, hq0]; simp
    obtain ⟨g, hg⟩ := this
    exact ⟨g, by rw [mul_comm, ← hg]; ring⟩
  set y := xs - aeval H q (xs - x0) with hy
  have hgrad : H (xs - x0) = At (b - A x0) := by
    have := normalOp_sol (A := A) (At := At) (b := b) (x0 := x0) (damp := damp) xs hxs x0
    rwa [sub_self, smul_zero, sub_zero] at this
  have hymem : y - x0 ∈ krylov A At (b - A x0) k := by
    have e : y - x0 = -aeval H g (At (b - A x0)) := by
      rw [hy, hg, map_add, map_mul, map_one, aeval_X, ← hgrad]
      simp only [LinearMap.add_apply, Module.End.one_apply, Module.End.mul_apply]
      abel
    rw [e]
    refine neg_mem ?_
    by_cases hg0 : g = 0
    · rw [hg0]; simp
    · refine poly_mem_krylov hadj _ g k ?_
      have : q.natDegree = g.natDegree + 1 := by
        rw [hg, add_comm, natDegree_add_eq_left_of_natDegree_lt]
        · rw [natDegree_mul_X hg0]
        · rw [natDegree_mul_X hg0]; simp
      omega
  have hopt := (c83_optimal A At hadj b x0 damp atol btol conlim max_iters s h).2 y hymem
  have hf : dampedObj A b x0 damp s.x ≤ dampedObj A b x0 damp y := hopt
  have h1 := obj_sub hadj xs hxs y
  have h2 := obj_sub hadj xs hxs x0
  have e1 : y - xs = -aeval H q (xs - x0) := by rw [hy]; abel
  have e2 : x0 - xs = -(xs - x0) := by abel
  rw [e1, map_neg, inner_neg_neg] at h1
  rw [e2, map_neg, inner_neg_neg] at h2
  have hb := poly_bound_spec H hsym (xs - x0) _ _ hpos.le (normal_spec hadj slo shi hs0 hlo hhi xs hxs) q _ hqb
  rw [← h1, ← h2] at hb
  linarith

theorem gradient_core (h : LsqrReach A At b x0 damp atol btol conlim max_iters s) (slo shi : ℝ) (hs0 : 0 ≤ slo) (hs1 : slo ≤ shi) (hpos : 0 < slo ^ 2 + damp ^ 2)
    (hlo : ∀ z, slo * ‖At z‖ ≤ ‖A (At z)‖) (hhi : ∀ x, ‖A x‖ ≤ shi * ‖x‖) (xs : E) (hxs : At (b - A xs) = damp ^ 2 • (xs - x0)) :
    ‖At (b - A s.x) - damp ^ 2 • (s.x - x0)‖ ≤ 2 * Real.sqrt ((shi ^ 2 + damp ^ 2) / (slo ^ 2 + damp ^ 2)) *
      cgRate (slo ^ 2 + damp ^ 2) (shi ^ 2 + damp ^ 2) ^ (s.iterations - 1) * ‖At (b - A x0)‖ := by
  have hc := rate_core hadj h slo shi hs0 hs1 hpos hlo hhi xs hxs
  have hle : slo ^ 2 + damp ^ 2 ≤ shi ^ 2 + damp ^ 2 := by nlinarith
  set lo := slo ^ 2 + damp ^ 2 with hlod
  set hi := shi ^ 2 + damp ^ 2 with hhid
  set ρ := cgRate lo hi ^ (s.iterations - 1) with hρ
  have hρ0 : 0 ≤ ρ := pow_nonneg (cgRate_nonneg hle) _
  have hsym := normalOp_symm (damp := damp) hadj
  have e0 := normalOp_sol (A := A) (At := At) (b := b) (x0 := x0) (damp := damp) xs hxs x0
  rw [sub_self, smul_zero, sub_zero] at e0
  have e1 := normalOp_sol (A := A) (At := At) (b := b) (x0 := x0) (damp := damp) xs hxs s.x
  have g1 := spec_lo _ hsym (xs - x0) lo hi hpos.le (normal_spec hadj slo shi hs0 hlo hhi xs hxs)
  have hbd : ∀ x, inner ℝ x (normalOp A At damp x) ≤ hi * ‖x‖ ^ 2 := by
    intro x
    rw [normalOp_self hadj]
    have := hhi x
    have h1 := norm_nonneg (A x)
    nlinarith [mul_self_le_mul_self h1 this]
  have g2 := spec_hi _ hsym hi (fun x => by rw [normalOp_self hadj]; positivity) hbd (xs - s.x)
  rw [obj_sub hadj xs hxs, obj_sub hadj xs hxs] at hc
  rw [← neg_sub xs s.x, ← neg_sub xs x0, map_neg, map_neg, inner_neg_neg, inner_neg_neg] at hc
  rw [e0] at g1
  rw [e1] at g2
  rw [e0, e1] at hc
  have hhi0 : 0 < hi := hpos.trans_le hle
  have hfin : ‖At (b - A s.x) - damp ^ 2 • (s.x - x0)‖ ^ 2 ≤ (2 * Real.sqrt (hi / lo) * ρ * ‖At (b - A x0)‖) ^ 2 := by
    rw [mul_pow, mul_pow, mul_pow, Real.sq_sqrt (div_nonneg hhi0.le hpos.le)]
    have : inner ℝ (xs - x0) (At (b - A x0)) ≤ ‖At (b - A x0)‖ ^ 2 / lo := by rw [le_div_iff₀ hpos]; linarith
    calc _ ≤ hi * inner ℝ (xs - s.x) (At (b - A s.x) - damp ^ 2 • (s.x - x0)) := g2
      _ ≤ hi * ((2 * ρ) ^ 2 * inner ℝ (xs - x0) (At (b - A x0))) := mul_le_mul_of_nonneg_left hc hhi0.le
      _ ≤ hi * ((2 * ρ) ^ 2 * (‖At (b - A x0)‖ ^ 2 / lo)) := mul_le_mul_of_nonneg_left (mul_le_mul_of_nonneg_left this (sq_nonneg _)) hhi0.le
      _ = _ := by ring
  exact abs_le_of_sq_le_sq' hfin (by positivity) |>.2

omit hadj in
/-- The normal equations always have a solution. -/
theorem exists_normal_sol (hadj : IsAdj A At) (b : F) (x0 : E) (damp : ℝ) : ∃ xs, At (b - A xs) = damp ^ 2 • (xs - x0) ∧ ∀ y, dampedObj A b x0 damp xs ≤ dampedObj A b x0 damp y := by
  obtain ⟨h1, h2⟩ := c83_exact A At hadj b x0 damp (Module.finrank ℝ E + 1)
  obtain ⟨s, hs⟩ := h1 0 0 0
  obtain ⟨h3, h4, -⟩ := h2 inferInstance (by omega) s hs
  exact ⟨s.x, h3, h4⟩
end rate

/-- **C125** Convergence rate of LSQR: let every nonzero singular value of `A` lie in `[slo, shi]`, and `ρ = (√hi - √lo) / (√hi + √lo)` with `lo = slo² + damp²`,
`hi = shi² + damp²`. After `k = iterations - 1` passes the excess of the (damped) least squares objective over its minimum is at most `(2 ρ^k)²` times the initial excess. -/
theorem c125_lsqr_rate (A : E →ₗ[ℝ] F) (At : F →ₗ[ℝ] E) (hadj : IsAdj A At) (b : F) (x0 : E) (damp atol btol conlim : ℝ) (max_iters : ℕ)
    (s : LsqrState E F) (h : LsqrReach A At b x0 damp atol btol conlim max_iters s) (slo shi : ℝ) (hs0 : 0 ≤ slo) (hs1 : slo ≤ shi) (hpos : 0 < slo ^ 2 + damp ^ 2)
    (hlo : ∀ z, slo * ‖At z‖ ≤ ‖A (At z)‖) (hhi : ∀ x, ‖A x‖ ≤ shi * ‖x‖)
    (xs : E) (hxs : ∀ y, ‖b - A xs‖ ^ 2 + damp ^ 2 * ‖xs - x0‖ ^ 2 ≤ ‖b - A y‖ ^ 2 + damp ^ 2 * ‖y - x0‖ ^ 2) :
    (‖b - A s.x‖ ^ 2 + damp ^ 2 * ‖s.x - x0‖ ^ 2) - (‖b - A xs‖ ^ 2 + damp ^ 2 * ‖xs - x0‖ ^ 2) ≤
      (2 * cgRate (slo ^ 2 + damp ^ 2) (shi ^ 2 + damp ^ 2) ^ (s.iterations - 1)) ^ 2 *
        (‖b - A x0‖ ^ 2 - (‖b - A xs‖ ^ 2 + damp ^ 2 * ‖xs - x0‖ ^ 2)) := by
  obtain ⟨x', h1, h2⟩ := exists_normal_sol hadj b x0 damp
  have e : dampedObj A b x0 damp x' = dampedObj A b x0 damp xs := le_antisymm (h2 xs) (hxs x')
  have hc := rate_core hadj h slo shi hs0 hs1 hpos hlo hhi x' h1
  rw [e] at hc
  have e0 : dampedObj A b x0 damp x0 = ‖b - A x0‖ ^ 2 := by simp [dampedObj]
  rw [e0] at hc
  exact hc

/-- **C125** For a solvable system without damping the residual norm is at most `2 ρ^k` times the initial one, with `ρ = (shi - slo) / (shi + slo)`. -/
theorem c125_lsqr_residual (A : E →ₗ[ℝ] F) (At : F →ₗ[ℝ] E) (hadj : IsAdj A At) (b : F) (x0 : E) (atol btol conlim : ℝ) (max_iters : ℕ)
    (s : LsqrState E F) (h : LsqrReach A At b x0 0 atol btol conlim max_iters s) (slo shi : ℝ) (hs0 : 0 < slo) (hs1 : slo ≤ shi)
    (hlo : ∀ z, slo * ‖At z‖ ≤ ‖A (At z)‖) (hhi : ∀ x, ‖A x‖ ≤ shi * ‖x‖) (hsol : ∃ y, A y = b) :
    ‖b - A s.x‖ ≤ 2 * ((shi - slo) / (shi + slo)) ^ (s.iterations - 1) * ‖b - A x0‖ := by
  obtain ⟨xs, hxs⟩ := hsol
  have hc := c125_lsqr_rate A At hadj b x0 0 atol btol conlim max_iters s h slo shi hs0.le hs1 (by positivity) hlo hhi xs (fun y => by rw [hxs]; simp)
  rw [hxs] at hc
  simp only [sub_self, norm_zero, ne_eq, OfNat.ofNat_ne_zero, not_false_eq_true, zero_pow, zero_mul, add_zero, sub_zero] at hc
  have hr : cgRate (slo ^ 2) (shi ^ 2) = (shi - slo) / (shi + slo) := by
    rw [cgRate, Real.sqrt_sq hs0.le, Real.sqrt_sq (hs0.le.trans hs1)]
  rw [hr, ← mul_pow] at hc
  have h0 : 0 ≤ (shi - slo) / (shi + slo) := div_nonneg (by linarith) (by linarith)
  exact abs_le_of_sq_le_sq' hc (by positivity) |>.2

/-- **C125** The reported norm of the gradient is at most `2 √(hi/lo) ρ^k` times the initial one. -/
theorem c125_lsqr_gradient (A : E →ₗ[ℝ] F) (At : F →ₗ[ℝ] E) (hadj : IsAdj A At) (b : F) (x0 : E) (damp atol btol conlim : ℝ) (max_iters : ℕ)
    (s : LsqrState E F) (h : LsqrReach A At b x0 damp atol btol conlim max_iters s) (slo shi : ℝ) (hs0 : 0 ≤ slo) (hs1 : slo ≤ shi) (hpos : 0 < slo ^ 2 + damp ^ 2)
    (hlo : ∀ z, slo * ‖At z‖ ≤ ‖A (At z)‖) (hhi : ∀ x, ‖A x‖ ≤ shi * ‖x‖) :
    s.atr_norm ≤ 2 * Real.sqrt ((shi ^ 2 + damp ^ 2) / (slo ^ 2 + damp ^ 2)) *
      cgRate (slo ^ 2 + damp ^ 2) (shi ^ 2 + damp ^ 2) ^ (s.iterations - 1) * ‖At (b - A x0)‖ := by
  obtain ⟨xs, h1, -⟩ := exists_normal_sol hadj b x0 damp
  rw [(c43_damped_norms A At hadj b x0 damp atol btol conlim max_iters s h).2.1]
  exact gradient_core hadj h slo shi hs0 hs1 hpos hlo hhi xs h1

/-- **C125** The error: if `xs` is the minimiser nearest to `x0` (the minimiser with `xs - x0` in the range of `Aᵀ`, which is unique), the distance of the iterate from
it is at most `2 √(hi/lo) ρ^k` times the initial distance. -/
theorem c125_lsqr_error (A : E →ₗ[ℝ] F) (At : F →ₗ[ℝ] E) (hadj : IsAdj A At) (b : F) (x0 : E) (damp atol btol conlim : ℝ) (max_iters : ℕ)
    (s : LsqrState E F) (h : LsqrReach A At b x0 damp atol btol conlim max_iters s) (slo shi : ℝ) (hs0 : 0 ≤ slo) (hs1 : slo ≤ shi) (hpos : 0 < slo ^ 2 + damp ^ 2)
    (hlo : ∀ z, slo * ‖At z‖ ≤ ‖A (At z)‖) (hhi : ∀ x, ‖A x‖ ≤ shi * ‖x‖)
    (xs : E) (hxs : At (b - A xs) = damp ^ 2 • (xs - x0)) (hr : ∃ z, xs - x0 = At z) :
    ‖s.x - xs‖ ≤ 2 * Real.sqrt ((shi ^ 2 + damp ^ 2) / (slo ^ 2 + damp ^ 2)) *
      cgRate (slo ^ 2 + damp ^ 2) (shi ^ 2 + damp ^ 2) ^ (s.iterations - 1) * ‖x0 - xs‖ := by
  have hc := rate_core hadj h slo shi hs0 hs1 hpos hlo hhi xs hxs
  have hle : slo ^ 2 + damp ^ 2 ≤ shi ^ 2 + damp ^ 2 := by nlinarith
  have hk : ∃ z, s.x - xs = At z := by
    have h1 := (c83_optimal A At hadj b x0 damp atol btol conlim max_iters s h).1
    have h2 : krylov A At (b - A x0) (s.iterations - 1) ≤ LinearMap.range At := by
      refine Submodule.span_le.mpr ?_
      rintro _ ⟨i, -, rfl⟩
      cases i with
      | zero => exact ⟨_, rfl⟩
      | succ i => rw [pow_succ', Module.End.mul_apply]; exact ⟨_, rfl⟩
    obtain ⟨z1, hz1⟩ := h2 h1
    obtain ⟨z2, hz2⟩ := hr
    exact ⟨z1 - z2, by rw [map_sub, hz1, ← hz2]; abel⟩
  obtain ⟨z, hz⟩ := hk
  rw [obj_sub hadj xs hxs, obj_sub hadj xs hxs, normalOp_self hadj, normalOp_self hadj] at hc
  have g1 := hlo z
  rw [← hz] at g1
  have g2 := hhi (x0 - xs)
  set lo := slo ^ 2 + damp ^ 2 with hlod
  set hi := shi ^ 2 + damp ^ 2 with hhid
  set ρ := cgRate lo hi ^ (s.iterations - 1) with hρ
  have hρ0 : 0 ≤ ρ := pow_nonneg (cgRate_nonneg hle) _
  have hhi0 : 0 < hi := hpos.trans_le hle
  have a1 : lo * ‖s.x - xs‖ ^ 2 ≤ ‖A (s.x - xs)‖ ^ 2 + damp ^ 2 * ‖s.x - xs‖ ^ 2 := by
    have := mul_self_le_mul_self (mul_nonneg hs0 (norm_nonneg _)) g1
    rw [hlod]; nlinarith
  have a2 : ‖A (x0 - xs)‖ ^ 2 + damp ^ 2 * ‖x0 - xs‖ ^ 2 ≤ hi * ‖x0 - xs‖ ^ 2 := by
    have := mul_self_le_mul_self (norm_nonneg _) g2
    rw [hhid]; nlinarith
  have hfin : ‖s.x - xs‖ ^ 2 ≤ (2 * Real.sqrt (hi / lo) * ρ * ‖x0 - xs‖) ^ 2 := by
    rw [mul_pow, mul_pow, mul_pow, Real.sq_sqrt (div_nonneg hhi0.le hpos.le)]
    have : lo * ‖s.x - xs‖ ^ 2 ≤ (2 * ρ) ^ 2 * (hi * ‖x0 - xs‖ ^ 2) := a1.trans (hc.trans (mul_le_mul_of_nonneg_left a2 (sq_nonneg _)))
    calc ‖s.x - xs‖ ^ 2 = lo * ‖s.x - xs‖ ^ 2 / lo := by field_simp
      _ ≤ (2 * ρ) ^ 2 * (hi * ‖x0 - xs‖ ^ 2) / lo := div_le_div_of_nonneg_right this hpos.le
      _ = _ := by ring
  exact abs_le_of_sq_le_sq' hfin (by positivity) |>.2

/-- **C125** The tolerance `atol` stops LSQR whatever `max_iters` is: if `2 √(hi/lo) ρ^N ≤ atol`, no run makes more than `N` passes. -/
theorem c125_lsqr_iterations (A : E →ₗ[ℝ] F) (At : F →ₗ[ℝ] E) (hadj : IsAdj A At) (b : F) (x0 : E) (damp atol btol conlim : ℝ) (max_iters : ℕ)
    (s : LsqrState E F) (h : LsqrReach A At b x0 damp atol btol conlim max_iters s) (slo shi : ℝ) (hs0 : 0 ≤ slo) (hs1 : slo ≤ shi) (hpos : 0 < slo ^ 2 + damp ^ 2)
    (hlo : ∀ z, slo * ‖At z‖ ≤ ‖A (At z)‖) (hhi : ∀ x, ‖A x‖ ≤ shi * ‖x‖) (N : ℕ)
    (hN : 2 * Real.sqrt ((shi ^ 2 + damp ^ 2) / (slo ^ 2 + damp ^ 2)) * cgRate (slo ^ 2 + damp ^ 2) (shi ^ 2 + damp ^ 2) ^ N ≤ atol) :
    s.iterations - 1 ≤ N := by
  have hle : slo ^ 2 + damp ^ 2 ≤ shi ^ 2 + damp ^ 2 := by nlinarith
  cases h with
  | init => show 1 - 1 ≤ N; omega
  | @step t ht hc =>
    show t.iterations + 1 - 1 ≤ N
    by_contra hlt
    have hg := c125_lsqr_gradient A At hadj b x0 damp atol btol conlim max_iters t ht slo shi hs0 hs1 hpos hlo hhi
    have hpos2 := (c83_no_zero_division A At hadj b x0 damp atol btol conlim max_iters t ht).2 hc
    have hi0 := (c43_damped_norms A At hadj b x0 damp atol btol conlim max_iters _ .init).2.1
    have e0 : (lsqrInit A At b x0).x = x0 := rfl
    rw [e0, sub_self, smul_zero, sub_zero] at hi0
    have hrel : t.atr_norm / (lsqrInit A At b x0).atr_norm > atol := hc.2.2.2.2.2.1
    rw [hi0, gt_iff_lt, lt_div_iff₀ hpos2.2.1] at hrel
    have hmono : cgRate (slo ^ 2 + damp ^ 2) (shi ^ 2 + damp ^ 2) ^ (t.iterations - 1) ≤ cgRate (slo ^ 2 + damp ^ 2) (shi ^ 2 + damp ^ 2) ^ N :=
      pow_le_pow_of_le_one (cgRate_nonneg hle) (cgRate_lt_one hpos hle).le (by omega)
    have : 2 * Real.sqrt ((shi ^ 2 + damp ^ 2) / (slo ^ 2 + damp ^ 2)) * cgRate (slo ^ 2 + damp ^ 2) (shi ^ 2 + damp ^ 2) ^ (t.iterations - 1) ≤ atol :=
      (mul_le_mul_of_nonneg_left hmono (by positivity)).trans hN
    have h2 := mul_le_mul_of_nonneg_right this (norm_nonneg (At (b - A x0)))
    linarith

/-- The singular operator `diag(1, 2, 0)` meets the hypotheses with `slo = 1`, `shi = 2`, so `ρ = 1/3`; a run makes at least one pass. -/
theorem ex_lsqr3 : let A := Matrix.toEuclideanLin !![(1 : ℝ), 0, 0; 0, 2, 0; 0, 0, 0]
    IsAdj A A ∧ (∀ z, 1 * ‖A z‖ ≤ ‖A (A z)‖) ∧ (∀ x, ‖A x‖ ≤ 2 * ‖x‖) ∧ cgRate (1 ^ 2 + 0 ^ 2) (2 ^ 2 + 0 ^ 2) = 1 / 3 ∧
    ∃ s, LsqrReach A A !₂[1, 1, 1] 0 0 (1/2) (1/2) 1000 10 s ∧ s.iterations = 2 := by
  intro A
  have hA : ∀ x : EuclideanSpace ℝ (Fin 3), A x = !₂[x 0, 2 * x 1, 0] := by
    intro x
    ext i
    fin_cases i <;> simp [A, Matrix.toEuclideanLin, Matrix.toLpLin_apply, Matrix.mulVec, dotProduct, Fin.sum_univ_three]
  refine ⟨fun x y => ?_, fun z => ?_, fun x => ?_, ?_, ?_⟩
  · rw [hA, hA]; simp [PiLp.inner_apply, Fin.sum_univ_three]; ring
  · rw [one_mul]
    refine abs_le_of_sq_le_sq' ?_ (norm_nonneg _) |>.2
    rw [hA (A z), EuclideanSpace.norm_sq_eq, EuclideanSpace.norm_sq_eq, hA z]
    simp [Fin.sum_univ_three]
    nlinarith [sq_nonneg (z 1)]
  · refine abs_le_of_sq_le_sq' ?_ (by positivity) |>.2
    rw [mul_pow, hA x, EuclideanSpace.norm_sq_eq, EuclideanSpace.norm_sq_eq]
    simp [Fin.sum_univ_three]
    nlinarith [sq_nonneg (x 0), sq_nonneg (x 1), sq_nonneg (x 2)]
  · have : Real.sqrt 4 = 2 := by rw [show (4 : ℝ) = 2 ^ 2 by norm_num, Real.sqrt_sq two_pos.le]
    norm_num [cgRate, this]
  · have h := lsqr_steps A A !₂[1, 1, 1] 0 0 (1/2) (1/2) 1000 10 (by
      rw [map_zero, sub_zero, hA]
      intro h0
      have := congrArg (fun v : EuclideanSpace ℝ (Fin 3) => v 0) h0
      simp at this) (by norm_num) (by norm_num) (by norm_num) (by norm_num)
    exact ⟨_, h, rfl⟩

/-! Instances. -/

section
local notation "A₃" => (Matrix.toEuclideanLin !![(1 : ℝ), 0, 0; 0, 2, 0; 0, 0, 0])
theorem ex_lsqr3_apply (x : EuclideanSpace ℝ (Fin 3)) : A₃ x = !₂[x 0, 2 * x 1, 0] := by
  ext i
  fin_cases i <;> simp [Matrix.toEuclideanLin, Matrix.toLpLin_apply, Matrix.mulVec, dotProduct, Fin.sum_univ_three]

variable (s : LsqrState (EuclideanSpace ℝ (Fin 3)) (EuclideanSpace ℝ (Fin 3))) (h : LsqrReach A₃ A₃ !₂[1, 1, 1] 0 0 (1 / 2) (1 / 2) 1000 10 s)

example (xs) (hxs) := c125_lsqr_rate A₃ A₃ ex_lsqr3.1 !₂[1, 1, 1] 0 0 (1 / 2) (1 / 2) 1000 10 s h 1 2 (by norm_num) (by norm_num) (by norm_num) ex_lsqr3.2.1 ex_lsqr3.2.2.1 xs hxs
example (h : LsqrReach A₃ A₃ (A₃ !₂[1, 1, 1]) 0 0 (1 / 2) (1 / 2) 1000 10 s) :=
  c125_lsqr_residual A₃ A₃ ex_lsqr3.1 (A₃ !₂[1, 1, 1]) 0 (1 / 2) (1 / 2) 1000 10 s h 1 2 (by norm_num) (by norm_num) ex_lsqr3.2.1 ex_lsqr3.2.2.1 ⟨_, rfl⟩
example := c125_lsqr_gradient A₃ A₃ ex_lsqr3.1 !₂[1, 1, 1] 0 0 (1 / 2) (1 / 2) 1000 10 s h 1 2 (by norm_num) (by norm_num) (by norm_num) ex_lsqr3.2.1 ex_lsqr3.2.2.1
/-- The minimum norm solution is `(1, 1/2, 0)`. -/
example := c125_lsqr_error A₃ A₃ ex_lsqr3.1 !₂[1, 1, 1] 0 0 (1 / 2) (1 / 2) 1000 10 s h 1 2 (by norm_num) (by norm_num) (by norm_num) ex_lsqr3.2.1 ex_lsqr3.2.2.1 !₂[1, 1 / 2, 0]
  (by rw [ex_lsqr3_apply, ex_lsqr3_apply]; ext i; fin_cases i <;> simp)
  ⟨!₂[1, 1 / 4, 0], by rw [ex_lsqr3_apply]; ext i; fin_cases i <;> norm_num⟩
/-- Two passes suffice for `atol = 1/2`: `2 · 2 · (1/3)² ≤ 1/2`. -/
example := c125_lsqr_iterations A₃ A₃ ex_lsqr3.1 !₂[1, 1, 1] 0 0 (1 / 2) (1 / 2) 1000 10 s h 1 2 (by norm_num) (by norm_num) (by norm_num) ex_lsqr3.2.1 ex_lsqr3.2.2.1 2
  (by
    rw [ex_lsqr3.2.2.2.1]
    have : Real.sqrt ((2 ^ 2 + 0 ^ 2) / (1 ^ 2 + 0 ^ 2)) = 2 := by rw [show ((2 : ℝ) ^ 2 + 0 ^ 2) / (1 ^ 2 + 0 ^ 2) = 2 ^ 2 by norm_num, Real.sqrt_sq two_pos.le]
    rw [this]
    norm_num)

end

end Verif.Sls
