import Verif.Sls.PowerModel
import Mathlib.Analysis.InnerProductSpace.Symmetric
import Mathlib.Analysis.InnerProductSpace.PiL2

set_option autoImplicit false
/-!
# Power iterations under a spectral gap (C124)
-/
noncomputable section
namespace Verif.Sls
open Verif.Loop
open scoped RealInnerProductSpace

variable {E : Type*} [NormedAddCommGroup E] [InnerProductSpace ℝ E]

section
variable (A : E →ₗ[ℝ] E) (hA : A.IsSymmetric) {e : E} {lam mu : ℝ} (he1 : ‖e‖ = 1) (he : A e = lam • e) (hl : lam ≠ 0) (hmu : 0 ≤ mu)
variable (hgap : ∀ x, ⟪e, x⟫ = 0 → ‖A x‖ ≤ mu * ‖x‖) (b : E) (hb : ⟪e, b⟫ ≠ (0 : ℝ))

/-- The tangent of the angle between `x` and the line of the unit vector `e`. -/
def tanTo (e x : E) : ℝ := ‖x - ⟪e, x⟫ • e‖ / |⟪e, x⟫|

include hA he in
theorem gap_inner (x : E) : ⟪e, A x⟫ = lam * ⟪e, x⟫ := by rw [← hA e x, he, inner_smul_left]; rfl

include hA he in
theorem gap_inner_iter (k : ℕ) : ⟪e, (⇑A)^[k] b⟫ = lam ^ k * ⟪e, b⟫ := by
  induction k with
  | zero => simp
  | succ k ih => rw [Function.iterate_succ_apply', gap_inner A hA he, ih]; ring

include he1 in
theorem perp_part (x : E) : ⟪e, x - ⟪e, x⟫ • e⟫ = 0 := by
  rw [inner_sub_right, inner_smul_right, real_inner_self_eq_norm_sq, he1]; ring

include hA he1 he hgap hmu in
theorem gap_perp_iter (k : ℕ) : ‖(⇑A)^[k] b - ⟪e, (⇑A)^[k] b⟫ • e‖ ≤ mu ^ k * ‖b - ⟪e, b⟫ • e‖ := by
  induction k with
  | zero => simp
  | succ k ih =>
    have h : (⇑A)^[k + 1] b - ⟪e, (⇑A)^[k + 1] b⟫ • e = A ((⇑A)^[k] b - ⟪e, (⇑A)^[k] b⟫ • e) := by
      rw [Function.iterate_succ_apply', gap_inner A hA he, map_sub, map_smul, he, smul_smul, mul_comm lam]
    rw [h]
    calc _ ≤ mu * ‖(⇑A)^[k] b - ⟪e, (⇑A)^[k] b⟫ • e‖ := hgap _ (perp_part he1 _)
      _ ≤ mu * (mu ^ k * ‖b - ⟪e, b⟫ • e‖) := mul_le_mul_of_nonneg_left ih hmu
      _ = _ := by ring

include hA he1 he hgap hmu hl hb in
/-- For a unit multiple of the `k`-th power. -/
theorem gap_unit (k : ℕ) (c : ℝ) (v : E) (hv : v = c • (⇑A)^[k] b) (hv1 : ‖v‖ = 1) : ‖v - ⟪e, v⟫ • e‖ ≤ (mu / |lam|) ^ k * tanTo e b := by
  have h1 := gap_perp_iter A hA he1 he hmu hgap b k
  have h2 : ‖v - ⟪e, v⟫ • e‖ = |c| * ‖(⇑A)^[k] b - ⟪e, (⇑A)^[k] b⟫ • e‖ := by
    rw [hv, inner_smul_right, mul_smul, ← smul_sub, norm_smul, Real.norm_eq_abs]
  have h3 : |⟪e, v⟫| ≤ 1 := by
    have := abs_real_inner_le_norm e v
    rwa [he1, hv1, one_mul] at this
  rw [hv, inner_smul_right, gap_inner_iter A hA he b k, abs_mul, abs_mul, abs_pow] at h3
  have ha : 0 < |⟪e, b⟫| := abs_pos.mpr hb
  have hL : 0 < |lam| := abs_pos.mpr hl
  have hp : 0 < |lam| ^ k := pow_pos hL k
  have hc : |c| ≤ 1 / (|lam| ^ k * |⟪e, b⟫|) := by rw [le_div_iff₀ (by positivity)]; exact h3
  rw [h2]
  calc |c| * ‖(⇑A)^[k] b - ⟪e, (⇑A)^[k] b⟫ • e‖ ≤ 1 / (|lam| ^ k * |⟪e, b⟫|) * (mu ^ k * ‖b - ⟪e, b⟫ • e‖) :=
        mul_le_mul hc h1 (norm_nonneg _) (by positivity)
    _ = _ := by rw [tanTo, div_pow]; field_simp

include hA he in
/-- The Rayleigh quotient of a unit vector near the eigenvector. -/
theorem gap_rayleigh (he1 : ‖e‖ = 1) (hmu : 0 ≤ mu) (hgap : ∀ x, ⟪e, x⟫ = 0 → ‖A x‖ ≤ mu * ‖x‖) (v : E) (hv1 : ‖v‖ = 1) :
    |⟪v, A v⟫ - lam| ≤ (|lam| + mu) * ‖v - ⟪e, v⟫ • e‖ ^ 2 := by
  set u := v - ⟪e, v⟫ • e with hu
  have hp : ⟪e, u⟫ = 0 := perp_part he1 v
  have hv : v = ⟪e, v⟫ • e + u := by rw [hu]; abel
  generalize ⟪e, v⟫ = a at hv
  clear hu
  have h1 : ‖v‖ ^ 2 = a ^ 2 + ‖u‖ ^ 2 := by
    rw [hv, norm_add_sq_real, norm_smul, he1, inner_smul_left, hp]; simp
  have h2 : ⟪v, A v⟫ = lam * a ^ 2 + ⟪u, A u⟫ := by
    have q1 : ⟪e, A u⟫ = 0 := by rw [gap_inner A hA he, hp, mul_zero]
    have q2 : ⟪u, e⟫ = 0 := by rw [real_inner_comm]; exact hp
    rw [hv, map_add, map_smul, he]
    simp only [inner_add_left, inner_add_right, inner_smul_left, inner_smul_right, q1, q2, real_inner_self_eq_norm_sq, he1, conj_trivial]
    ring
  rw [hv1] at h1
  have h3 : ⟪v, A v⟫ - lam = ⟪u, A u⟫ - lam * ‖u‖ ^ 2 := by
    rw [h2, show a ^ 2 = 1 - ‖u‖ ^ 2 by linarith]; ring
  rw [h3]
  have h4 : |⟪u, A u⟫| ≤ mu * ‖u‖ ^ 2 := by
    calc |⟪u, A u⟫| ≤ ‖u‖ * ‖A u‖ := abs_real_inner_le_norm u (A u)
      _ ≤ ‖u‖ * (mu * ‖u‖) := mul_le_mul_of_nonneg_left (hgap u hp) (norm_nonneg _)
      _ = _ := by ring
  calc |⟪u, A u⟫ - lam * ‖u‖ ^ 2| ≤ |⟪u, A u⟫| + |lam * ‖u‖ ^ 2| := abs_sub _ _
    _ ≤ mu * ‖u‖ ^ 2 + |lam| * ‖u‖ ^ 2 := by
      rw [abs_mul, abs_of_nonneg (sq_nonneg ‖u‖)]; exact add_le_add h4 le_rfl
    _ = _ := by ring

include hA he1 he hl hmu hgap hb in
/-- **C124** rate of the eigenvector and the eigenvalue of `power_iterations` under a spectral gap: `A` is symmetric, possibly indefinite, `e` a unit eigenvector for
`λ ≠ 0`, and `A` stretches no vector orthogonal to `e` by more than `μ`. Then, for every start `b` not orthogonal to `e`, every iteration limit and tolerance, the result is never `nan`; after `k`
iterations the distance of the returned unit vector from the line of `e` is at most `(μ/|λ|)^k tan θ`, and the error of the eigenvalue at most
`(|λ| + μ) ((μ/|λ|)^(k-1) tan θ)^2`, where `θ` is the angle between the start and `e`. -/
theorem c124_power_eigenvector_rate (N : ℕ) (tol : ℝ) (res : Option (Option E × ℝ × ℕ)) (h : PowerIter A b N tol res) :
    ∃ v s k, res = some (some v, s, k) ∧ k ≤ N ∧ ‖v‖ = 1 ∧
      ‖v - ⟪e, v⟫ • e‖ ≤ (mu / |lam|) ^ k * (‖b - ⟪e, b⟫ • e‖ / |⟪e, b⟫|) ∧
      (1 ≤ k → |s - lam| ≤ (|lam| + mu) * ((mu / |lam|) ^ (k - 1) * (‖b - ⟪e, b⟫ • e‖ / |⟪e, b⟫|)) ^ 2) := by
  obtain ⟨st, ⟨hr, -⟩, rfl⟩ := h
  have hne : ∀ (k : ℕ) (c : ℝ), 0 < c → c • (⇑A)^[k] b ≠ 0 := by
    intro k c hc h0
    have : ⟪e, c • (⇑A)^[k] b⟫ = 0 := by rw [h0, inner_zero_right]
    rw [inner_smul_right, gap_inner_iter A hA he b k] at this
    exact mul_ne_zero hc.ne' (mul_ne_zero (pow_ne_zero _ hl) hb) this
  have hI : ∃ s, st = some s ∧ s.iters ≤ N ∧ (∃ c : ℝ, 0 < c ∧ s.v = c • (⇑A)^[s.iters] b) ∧
      (1 ≤ s.iters → ∃ (c : ℝ) (u : E), u = c • (⇑A)^[s.iters - 1] b ∧ ‖u‖ = 1 ∧ s.new = ⟪u, A u⟫) := by
    refine hr.inv (fun st => ∃ s, st = some s ∧ s.iters ≤ N ∧ (∃ c : ℝ, 0 < c ∧ s.v = c • (⇑A)^[s.iters] b) ∧
      (1 ≤ s.iters → ∃ (c : ℝ) (u : E), u = c • (⇑A)^[s.iters - 1] b ∧ ‖u‖ = 1 ∧ s.new = ⟪u, A u⟫)) ?_ ?_
    · exact ⟨_, rfl, Nat.zero_le _, ⟨1, one_pos, by simp⟩, fun h => absurd h (by simp)⟩
    · rintro _ ⟨s, rfl, _, ⟨c, hc, hv⟩, -⟩ hcnd
      have hv0 : s.v ≠ 0 := by rw [hv]; exact hne _ _ hc
      have hn : ‖s.v‖ ≠ 0 := norm_ne_zero_iff.mpr hv0
      have hn' : 0 < ‖s.v‖ := norm_pos_iff.mpr hv0
      refine ⟨_, if_neg hn, hcnd.1, ⟨‖s.v‖⁻¹ * c, by positivity, ?_⟩, fun _ => ⟨‖s.v‖⁻¹ * c, ‖s.v‖⁻¹ • s.v, ?_, ?_, rfl⟩⟩
      · show A (‖s.v‖⁻¹ • s.v) = _
        rw [map_smul, hv, map_smul, Function.iterate_succ_apply', smul_smul, ← hv]
      · show _ = _ • (⇑A)^[s.iters + 1 - 1] b
        rw [Nat.add_sub_cancel, mul_smul, ← hv]
      · rw [norm_smul, norm_inv, norm_norm, inv_mul_cancel₀ hn]
  obtain ⟨s, rfl, hN, ⟨c, hc, hv⟩, hnew⟩ := hI
  have hv0 : s.v ≠ 0 := by rw [hv]; exact hne _ _ hc
  have hn : ‖s.v‖ ≠ 0 := norm_ne_zero_iff.mpr hv0
  have hu1 : ‖(‖s.v‖⁻¹ • s.v)‖ = 1 := by rw [norm_smul, norm_inv, norm_norm, inv_mul_cancel₀ hn]
  refine ⟨‖s.v‖⁻¹ • s.v, s.new, s.iters, by rw [Option.map_some, if_neg hn], hN, hu1, ?_, fun h1 => ?_⟩
  · exact gap_unit A hA he1 he hl hmu hgap b hb s.iters (‖s.v‖⁻¹ * c) _ (by rw [mul_smul, ← hv]) hu1
  · obtain ⟨c', u, hu, hu1, hnw⟩ := hnew h1
    have q1 := gap_rayleigh A hA he he1 hmu hgap u hu1
    have q2 := gap_unit A hA he1 he hl hmu hgap b hb (s.iters - 1) c' u hu hu1
    rw [← hnw] at q1
    refine q1.trans (mul_le_mul_of_nonneg_left (pow_le_pow_left₀ (norm_nonneg _) q2 2) (by positivity))

end

/-- Beside the theorem: `diag(-2, 1)` on `ℝ²` (indefinite), `e = (1, 0)`, `λ = -2`, `μ = 1` and the start `(1, 5)` meet the hypotheses, and the run returns. -/
example : ∃ (A : EuclideanSpace ℝ (Fin 2) →ₗ[ℝ] EuclideanSpace ℝ (Fin 2)), A.IsSymmetric ∧ ‖(!₂[1, 0] : EuclideanSpace ℝ (Fin 2))‖ = 1 ∧ A !₂[1, 0] = (-2 : ℝ) • !₂[1, 0] ∧
    (∀ x, ⟪!₂[1, 0], x⟫ = (0 : ℝ) → ‖A x‖ ≤ 1 * ‖x‖) ∧ ⟪(!₂[1, 0] : EuclideanSpace ℝ (Fin 2)), !₂[1, 5]⟫ ≠ (0 : ℝ) := by
  refine ⟨{ toFun := fun x => !₂[-2 * x 0, x 1], map_add' := fun x y => ?_, map_smul' := fun c x => ?_ }, fun x y => ?_, ?_, ?_, fun x hx => ?_, ?_⟩
  · ext i; fin_cases i <;> simp; ring
  · ext i; fin_cases i <;> simp; ring
  · simp [PiLp.inner_apply, Fin.sum_univ_two]; ring
  · simp [EuclideanSpace.norm_eq]
  · ext i; fin_cases i <;> simp
  · simp [PiLp.inner_apply, Fin.sum_univ_two] at hx
    simp [EuclideanSpace.norm_eq, Fin.sum_univ_two, hx]
  · simp [PiLp.inner_apply, Fin.sum_univ_two]

/-- An instance: `diag(-2, 1)`, the start `(1, 5)`. -/
example (A : EuclideanSpace ℝ (Fin 2) →ₗ[ℝ] EuclideanSpace ℝ (Fin 2)) (hA : ∀ x, A x = !₂[-2 * x 0, x 1]) (res) (h : PowerIter A !₂[1, 5] 20 1e-6 res) :=
  c124_power_eigenvector_rate A (fun x y => by rw [hA, hA]; simp [PiLp.inner_apply, Fin.sum_univ_two]; ring) (e := !₂[1, 0]) (lam := -2) (mu := 1)
    (by simp [EuclideanSpace.norm_eq]) (by rw [hA]; ext i; fin_cases i <;> simp) (by norm_num) (by norm_num)
    (fun x hx => by
      simp [PiLp.inner_apply, Fin.sum_univ_two] at hx
      rw [hA]
      simp [EuclideanSpace.norm_eq, Fin.sum_univ_two, hx])
    !₂[1, 5] (by simp [PiLp.inner_apply, Fin.sum_univ_two]) 20 1e-6 res h

end Verif.Sls
