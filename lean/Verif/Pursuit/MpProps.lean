import Verif.Pursuit.MpModel
import Verif.Pursuit.UtilProps
import Verif.Opt.Spec

set_option autoImplicit false
/-!
# Matching pursuit (C44)
-/
noncomputable section
namespace Verif.Pursuit
open Verif.Loop
open scoped RealInnerProductSpace

section
variable {𝕜 E : Type*} [RCLike 𝕜] [NormedAddCommGroup E] [InnerProductSpace 𝕜 E]

theorem corr_length (phi : ℕ → E) (n : ℕ) (r : E) : (corr 𝕜 phi n r).length = n := by simp [corr]

theorem corr_getD (phi : ℕ → E) (n : ℕ) (r : E) {i : ℕ} (h : i < n) : (corr 𝕜 phi n r).getD i 0 = inner 𝕜 (phi i) r := by
  simp [corr, h]
end

variable {E : Type*} [NormedAddCommGroup E] [InnerProductSpace ℝ E]

/-- The atom chosen by `mp` has the largest absolute correlation with the residual. -/
theorem best_spec (phi : ℕ → E) {n : ℕ} (hn : 0 < n) (r : E) :
    absMaxIdx (corr ℝ phi n r) < n ∧ ∀ i, i < n → |⟪phi i, r⟫| ≤ |⟪phi (absMaxIdx (corr ℝ phi n r)), r⟫| := by
  have hne : corr ℝ phi n r ≠ [] := by
    intro h
    have := corr_length (𝕜 := ℝ) phi n r
    rw [h] at this; simp at this; omega
  obtain ⟨h1, h2, -⟩ := c51_abs_max_idx (corr ℝ phi n r) hne
  rw [corr_length] at h1
  refine ⟨h1, fun i hi => ?_⟩
  have := h2 i (by rw [corr_length]; exact hi)
  rwa [corr_getD phi n r hi, corr_getD phi n r h1] at this

theorem mpStep_eq (phi : ℕ → E) {n : ℕ} (hn : 0 < n) (y : E) (s : MpState E) :
    let b := absMaxIdx (corr ℝ phi n s.r)
    mpStep phi n y s = { x := Function.update s.x b (s.x b + ⟪phi b, s.r⟫), r := s.r - ⟪phi b, s.r⟫ • phi b, rr := ‖y‖ ^ 2, iters := s.iters + 1 } := by
  intro b
  have hb : argmax ((corr ℝ phi n s.r).map fun x => |x|) = b := rfl
  have := corr_getD (𝕜 := ℝ) phi n s.r (best_spec phi hn s.r).1
  simp only [mpStep, hb, b]
  rw [this]

/-- **C44** at every iteration of `mp` the residual is `y - Phi x`; iterations never exceed `max_iters`; the loop returns. -/
theorem c44_mp_residual (phi : ℕ → E) (n : ℕ) (hn : 0 < n) (y : E) (rtol : ℝ) (N : ℕ) :
    (∀ s, Reach (mpCond y rtol N) (mpStep phi n y) (mpInit y) s → s.r = y - synth phi n s.x ∧ s.iters ≤ N) ∧
    ∃ s, Out (mpCond y rtol N) (mpStep phi n y) (mpInit y) s := by
  refine ⟨fun s h => ⟨?_, by simpa [mpInit] using h.cnt_le (fun s => s.iters) N (fun s hc => hc.2) fun s => rfl⟩,
    exists_out (fun s => s.iters) N (fun s h => h.2) fun s => Nat.lt_succ_self _⟩
  refine h.inv (fun s => s.r = y - synth phi n s.x) (by simp [mpInit, synth]) fun s ih _ => ?_
  rw [mpStep_eq phi hn y s]
  simp only
  set b := absMaxIdx (corr ℝ phi n s.r) with hb
  have hbn : b ∈ Finset.range n := Finset.mem_range.mpr (best_spec phi hn s.r).1
  have e : synth phi n (Function.update s.x b (s.x b + ⟪phi b, s.r⟫)) = synth phi n s.x + ⟪phi b, s.r⟫ • phi b := by
    unfold synth
    rw [← Finset.sum_erase_add _ _ hbn, ← Finset.sum_erase_add _ (fun i => s.x i • phi i) hbn, Function.update_self, add_smul, ← add_assoc]
    congr 2
    exact Finset.sum_congr rfl fun i hi => by rw [Function.update_of_ne (Finset.ne_of_mem_erase hi)]
  rw [e, ih]; abel

/-- **C44** for unit-norm atoms each iteration removes exactly the largest squared correlation from the squared residual norm, so the
residual norm never increases, and strictly decreases unless the residual is orthogonal to every atom. -/
theorem c44_mp_decrease (phi : ℕ → E) (n : ℕ) (hn : 0 < n) (hu : ∀ i, i < n → ‖phi i‖ = 1) (y : E) (s : MpState E) :
    ‖(mpStep phi n y s).r‖ ≤ ‖s.r‖ ∧
    (∀ i, i < n → ‖(mpStep phi n y s).r‖ ^ 2 ≤ ‖s.r‖ ^ 2 - ⟪phi i, s.r⟫ ^ 2) ∧
    ((∃ i, i < n ∧ ⟪phi i, s.r⟫ ≠ 0) → ‖(mpStep phi n y s).r‖ < ‖s.r‖) := by
  obtain ⟨hb, hmax⟩ := best_spec phi hn s.r
  have e : ‖(mpStep phi n y s).r‖ ^ 2 = ‖s.r‖ ^ 2 - ⟪phi (absMaxIdx (corr ℝ phi n s.r)), s.r⟫ ^ 2 := by
    rw [mpStep_eq phi hn y s]
    simp only
    rw [norm_sub_sq_real, inner_smul_right, norm_smul, hu _ hb, real_inner_comm, Real.norm_eq_abs, mul_one, sq_abs]; ring
  have h2 : ∀ i, i < n → ‖(mpStep phi n y s).r‖ ^ 2 ≤ ‖s.r‖ ^ 2 - ⟪phi i, s.r⟫ ^ 2 := fun i hi => by
    rw [e]
    have := pow_le_pow_left₀ (abs_nonneg _) (hmax i hi) 2
    rw [sq_abs, sq_abs] at this
    linarith
  refine ⟨?_, h2, fun ⟨i, hi, hne⟩ => ?_⟩
  · refine (pow_le_pow_iff_left₀ (norm_nonneg _) (norm_nonneg _) two_ne_zero).mp ?_
    rw [e]; nlinarith [sq_nonneg ⟪phi (absMaxIdx (corr ℝ phi n s.r)), s.r⟫]
  · refine (pow_lt_pow_iff_left₀ (norm_nonneg _) (norm_nonneg _) two_ne_zero).mp ?_
    have := h2 i hi
    have : 0 < ⟪phi i, s.r⟫ ^ 2 := by positivity
    linarith

/-- **C44** (convergence) if every vector has correlation at least `c |r|` with some unit-norm atom, then after `k` iterations
`|r|² ≤ (1 - c²)^k |y|²`. -/
theorem c44_mp_geometric (phi : ℕ → E) (n : ℕ) (hn : 0 < n) (hu : ∀ i, i < n → ‖phi i‖ = 1) (c : ℝ) (hc : 0 ≤ c)
    (hcov : ∀ r : E, ∃ i, i < n ∧ c * ‖r‖ ≤ |⟪phi i, r⟫|) (y : E) (rtol : ℝ) (N : ℕ) (s : MpState E)
    (h : Reach (mpCond y rtol N) (mpStep phi n y) (mpInit y) s) : ‖s.r‖ ^ 2 ≤ (1 - c ^ 2) ^ s.iters * ‖y‖ ^ 2 := by
  have hc1 : 0 ≤ 1 - c ^ 2 := by
    obtain ⟨i, hi, h1⟩ := hcov (phi 0)
    have h2 := abs_real_inner_le_norm (phi i) (phi 0)
    rw [hu i hi, hu 0 hn] at h2
    rw [hu 0 hn] at h1
    nlinarith
  refine h.inv (fun s => ‖s.r‖ ^ 2 ≤ (1 - c ^ 2) ^ s.iters * ‖y‖ ^ 2) (by simp [mpInit]) fun s ih _ => ?_
  obtain ⟨i, hi, h1⟩ := hcov s.r
  have h2 := (c44_mp_decrease phi n hn hu y s).2.1 i hi
  have h3 := pow_le_pow_left₀ (by positivity) h1 2
  rw [mul_pow, sq_abs] at h3
  have ei : (mpStep phi n y s).iters = s.iters + 1 := rfl
  rw [ei, pow_succ]
  calc _ ≤ (1 - c ^ 2) * ‖s.r‖ ^ 2 := by linarith
    _ ≤ (1 - c ^ 2) * ((1 - c ^ 2) ^ s.iters * ‖y‖ ^ 2) := mul_le_mul_of_nonneg_left ih hc1
    _ = _ := by ring

/-- **C44 disproof** (reported norm, early stopping) the reported squared residual norm is always that of `y`; so with `rtol < 1` and `y ≠ 0` the
tolerance never stops the loop: exactly `max_iters` iterations are always run. -/
theorem c44_reported_norm (phi : ℕ → E) (n : ℕ) (y : E) (rtol : ℝ) (N : ℕ) (s : MpState E)
    (h : Reach (mpCond y rtol N) (mpStep phi n y) (mpInit y) s) :
    s.rr = ‖y‖ ^ 2 ∧ (y ≠ 0 → |rtol| < 1 → ¬ mpCond y rtol N s → s.iters = N) := by
  have e : s.rr = ‖y‖ ^ 2 := h.inv (fun s => s.rr = ‖y‖ ^ 2) rfl fun s _ _ => rfl
  refine ⟨e, fun hy hr hc => ?_⟩
  have hle : s.iters ≤ N := by simpa [mpInit] using h.cnt_le (fun s => s.iters) N (fun s hc => hc.2) fun s => rfl
  by_contra hne
  refine hc ⟨?_, by omega⟩
  rw [e]
  have hp : 0 < ‖y‖ ^ 2 := by have := norm_pos_iff.mpr hy; positivity
  have : rtol ^ 2 < 1 := by rw [← sq_abs]; nlinarith [abs_nonneg rtol]
  nlinarith

open Verif.Opt in
/-- **C44 disproof** a run on the dictionary `{e₀, e₁}` of `ℝ²` with `y = (2, 0)`: after one iteration the residual is exactly 0, the reported
squared norm is 4, and the loop continues. -/
theorem c44_reported_norm_fails : ∃ (phi : ℕ → Vec 2) (y : Vec 2) (s : MpState (Vec 2)),
    (∀ i, i < 2 → ‖phi i‖ = 1) ∧ Reach (mpCond y 1e-4 100) (mpStep phi 2 y) (mpInit y) s ∧ s.r = 0 ∧ s.rr = 4 ∧ mpCond y 1e-4 100 s := by
  let phi : ℕ → Vec 2 := fun i => vec fun j => if j.val = i then 1 else 0
  let y : Vec 2 := vec ![2, 0]
  have hphi : ∀ i, i < 2 → ‖phi i‖ = 1 := by
    intro i hi
    have : ‖phi i‖ ^ 2 = 1 := by
      rw [norm_sq_sum]
      interval_cases i <;> simp only [phi, Fin.sum_univ_two, vec_apply] <;> norm_num
    nlinarith [norm_nonneg (phi i)]
  have hy : ‖y‖ ^ 2 = 4 := by rw [norm_sq_sum]; simp [y]; norm_num
  have c0 : mpCond y 1e-4 100 (mpInit y) := by
    refine ⟨?_, by simp [mpInit]⟩
    simp only [mpInit, hy]; norm_num
  have hr : (mpStep phi 2 y (mpInit y)).r = 0 := by
    have i0 : ⟪phi 0, y⟫ = 2 := by rw [Opt.inner_sum]; simp [phi, y]
    have i1 : ⟪phi 1, y⟫ = 0 := by rw [Opt.inner_sum]; simp [phi, y]
    have hc : corr ℝ phi 2 y = [2, 0] := by simp [corr, List.range_succ, i0, i1]
    have hm : argmax ([2, 0] : List ℝ) = 0 := by norm_num [argmax, argmaxFrom]
    simp only [mpStep, mpInit, hc]
    simp [hm]
    ext j
    fin_cases j <;> simp [phi, y]
  refine ⟨phi, y, _, hphi, .step .init c0, hr, hy, ?_, by simp [mpStep, mpInit]⟩
  show ‖y‖ ^ 2 > _
  rw [hy]; norm_num

/-! Instances on the atoms `1`, `i` of the plane. -/

theorem ex_unit2 (i : ℕ) (hi : i < 2) : ‖(fun i => if i = 0 then (1 : ℂ) else Complex.I) i‖ = 1 := by
  show ‖if i = 0 then (1 : ℂ) else Complex.I‖ = 1
  split_ifs <;> simp

example (y : ℂ) := c44_mp_residual (fun i => if i = 0 then (1 : ℂ) else Complex.I) 2 (by norm_num) y (1e-3) 10
example (y : ℂ) (s) := c44_mp_decrease (fun i => if i = 0 then (1 : ℂ) else Complex.I) 2 (by norm_num) ex_unit2 y s
example (y : ℂ) := c44_mp_geometric (fun i => if i = 0 then (1 : ℂ) else Complex.I) 2 (by norm_num) ex_unit2 (1 / 2) (by norm_num) (fun r => by
    have h := Complex.norm_le_abs_re_add_abs_im r
    rcases le_total |r.re| |r.im| with h' | h'
    · exact ⟨1, by norm_num, by simp [Complex.inner]; linarith⟩
    · exact ⟨0, by norm_num, by simp [Complex.inner]; linarith⟩) y (1e-3) 10
example (y : ℂ) := c44_reported_norm (fun i => if i = 0 then (1 : ℂ) else Complex.I) 2 y (1e-3) 10 _ .init

end Verif.Pursuit
