import Verif.Cvx.RipRecovery
import Verif.Sls.IstaProps

set_option autoImplicit false
/-!
# Recovery of sparse signals by ISTA and FISTA (C133)
-/
noncomputable section
namespace Verif.Sls
open Verif.Loop Verif.Opt Verif.Cvx
open scoped RealInnerProductSpace

variable {m n : ℕ}

/-- A point whose LASSO objective exceeds that of the true signal by at most `ζ` is close to it. -/
theorem lasso_excess_recovery (A : Vec n →ₗ[ℝ] Vec m) (At : Vec m →ₗ[ℝ] Vec n) (hadj : IsAdj A At) (c δ : ℝ) (K : ℕ) (hδ : 0 ≤ δ)
    (hδ1 : (1 + 3 * √2) * δ < 1) (hK : 0 < K) (hA : RipC A c (2 * K) δ) (xs : Vec n) (hs : (Finset.univ.filter fun i => xs i ≠ 0).card ≤ K) (e : Vec m)
    (lam : ℝ) (hlam : 0 < lam) (hl : ∀ i, 2 * |At e i| ≤ lam) (x : Vec n) (z : ℝ) (hz : 0 ≤ z)
    (hx : 1 / 2 * ‖(A xs + e) - A x‖ ^ 2 + lam * l1 x - (1 / 2 * ‖(A xs + e) - A xs‖ ^ 2 + lam * l1 xs) ≤ z) :
    ‖x - xs‖ ≤ 96 * ((1 + δ) / c) * (lam * √K) / (1 - (1 + 3 * √2) * δ) ^ 2 +
      √((64 * ((1 + δ) / c) * z + 2 * ((1 + (√2 - 1) * δ) * (2 * (z / lam) / √K)) ^ 2) / (1 - (1 + 3 * √2) * δ) ^ 2) := by
  have h3 := penalised_rip hadj hδ hδ1 hK hA xs x hs e (2 * lam) (2 * z) (by positivity) (by positivity) (fun i => by have := hl i; linarith) (by
    have e1 : l1 x = ∑ i, |x i| := rfl
    have e2 : l1 xs = ∑ i, |xs i| := rfl
    rw [e1, e2] at hx
    rw [norm_sub_rev (A x), norm_sub_rev (A xs)]
    linarith)
  have e3 : 32 * ((1 + δ) / c) * (2 * z) = 64 * ((1 + δ) / c) * z := by ring
  have e4 : 2 * z / (2 * lam) = z / lam := by field_simp
  rw [e3, e4] at h3
  refine h3.trans_eq ?_
  ring

/-- **C133** `ista` and `fista` with the identity basis and soft thresholding at `step · lam`, `step |A|² ≤ 1` and `lam ≥ 2 |Aᵀ e|_∞`, for a signal `xs` with at
most `K` non-zero entries and data `A xs + e`: after `k` iterations the error is at most a constant times `lam √K` plus what an excess `z` of the objective
allows, where `z = |x0 - xs|²/(2 step k)` for `ista` and `z = 2 |x0 - xs|²/(step (k+1)²)` for `fista`. -/
theorem c133_ista_fista (A : Vec n →ₗ[ℝ] Vec m) (At : Vec m →ₗ[ℝ] Vec n) (hadj : IsAdj A At) (c δ : ℝ) (K : ℕ) (hδ : 0 ≤ δ)
    (hδ1 : (1 + 3 * √2) * δ < 1) (hK : 0 < K) (hA : RipC A c (2 * K) δ) (xs : Vec n) (hs : (Finset.univ.filter fun i => xs i ≠ 0).card ≤ K) (e : Vec m)
    (lam : ℝ) (hlam : 0 < lam) (hl : ∀ i, 2 * |At e i| ≤ lam) (x0 : Vec n) (step : ℝ) (hstep0 : 0 < step)
    (hstep : ∀ d, step * ‖A d‖ ^ 2 ≤ ‖d‖ ^ 2) (rtol xtol : ℝ) (N : ℕ) (bound : ℝ → ℝ)
    (hbound : bound = fun z => 96 * ((1 + δ) / c) * (lam * √K) / (1 - (1 + 3 * √2) * δ) ^ 2 +
      √((64 * ((1 + δ) / c) * z + 2 * ((1 + (√2 - 1) * δ) * (2 * (z / lam) / √K)) ^ 2) / (1 - (1 + 3 * √2) * δ) ^ 2)) :
    let p : IstaArgs (Vec n) (Vec m) (Vec n) := { times := A, trans := At, b := A xs + e, x0 := x0, step := step, thresh := (fun _ x => vec fun i => softThreshold (x i) (step * lam)), basisTimes := id, basisTrans := id, rtol := rtol, xtol := xtol, maxIters := N }
    (∀ s, Reach (istaCond p) (istaStep p) (istaInit p) s → 1 ≤ s.iters → ‖s.x - xs‖ ≤ bound (‖x0 - xs‖ ^ 2 / (2 * step * s.iters))) ∧
    (∀ s, Reach (fistaCond p) (fistaStep p) (fistaInit p) s → 1 ≤ s.iters → ‖s.x - xs‖ ≤ bound (2 * ‖x0 - xs‖ ^ 2 / (step * (s.iters + 1) ^ 2))) := by
  intro p
  obtain ⟨h1, h2⟩ := c41_c42_lasso A At hadj (A xs + e) x0 lam step hlam.le hstep0 hstep rtol xtol N
  subst hbound
  refine ⟨fun s hr hk => ?_, fun s hr hk => ?_⟩
  · exact lasso_excess_recovery A At hadj c δ K hδ hδ1 hK hA xs hs e lam hlam hl s.x _ (by positivity) ((h1 s hr).2 hk xs)
  · exact lasso_excess_recovery A At hadj c δ K hδ hδ1 hK hA xs hs e lam hlam hl s.x _ (by positivity) (h2 s hr hk xs)

/-- The hypotheses are met by the redundant dictionary `A` which `ex_rip` constructs, a spike, no noise, `lam = 1/10` and unit steps. -/
example (A : Vec 8 →ₗ[ℝ] Vec 7) (At : Vec 7 →ₗ[ℝ] Vec 8) (hadj : IsAdj A At) (hI : ∀ y, A (At y) = y) (hA : RipC A (7 / 8) (2 * 1) (1 / 7)) (h3 : (1 + 3 * √2) * (1 / 7) < 1) :=
  c133_ista_fista A At hadj (7 / 8) (1 / 7) 1 (by norm_num) h3 one_pos hA (vec ![0, 0, 3, 0, 0, 0, 0, 0]) (by
    rw [Finset.card_le_one]
    intro i hi j hj
    rw [Finset.mem_filter] at hi hj
    have h : ∀ i, (vec ![0, 0, 3, 0, 0, 0, 0, 0] : Vec 8) i ≠ 0 → i = 2 := by
      intro i
      fin_cases i <;> simp [vec]
    rw [h i hi.2, h j hj.2]) 0 (1 / 10) (by norm_num) (by simp) 0 1 one_pos (by
    intro d
    have h1 : ‖A d‖ ^ 2 = ⟪d, At (A d)⟫ := by rw [← real_inner_self_eq_norm_sq]; exact hadj d (A d)
    have h2 : ‖At (A d)‖ ^ 2 = ‖A d‖ ^ 2 := by
      rw [← real_inner_self_eq_norm_sq, ← hadj, hI, real_inner_self_eq_norm_sq]
    have h4 := real_inner_le_norm d (At (A d))
    nlinarith [sq_nonneg (‖d‖ - ‖At (A d)‖)]) 1e-3 1e-3 100 _ rfl

end Verif.Sls
