import Verif.Cvx.FocussModel
import Mathlib.LinearAlgebra.Matrix.ToLinearEquiv
import Mathlib.Analysis.Convex.SpecificFunctions.Basic
import Mathlib.Tactic.FinCases

set_option autoImplicit false
/-!
# FOCUSS (C65, C87)

`Phi` is a real `m × n` matrix. Arrays with values that are not finite are `none`.
-/
noncomputable section
namespace Verif.Cvx
open Verif.Loop Matrix

variable {m n : ℕ}

/-- Specification: the reweighted squared norm `Σ z_i² / |x_i|^(2p)` over the entries with `x_i ≠ 0`. -/
def reweighted (p : ℝ) (x z : Fin n → ℝ) : ℝ := ∑ i with x i ≠ 0, z i ^ 2 / |x i| ^ (2 * p)

/-- Specification: the number of nonzero entries. -/
def nnz (x : Fin n → ℝ) : ℕ := (Finset.univ.filter fun i => x i ≠ 0).card

theorem linSolve_some {G : Matrix (Fin m) (Fin m) ℝ} {y v : Fin m → ℝ} (h : linSolve G y = some v) : G *ᵥ v = y := by
  unfold linSolve at h
  split at h
  · rename_i hd
    rw [Option.some.injEq] at h
    rw [← h, mulVec_mulVec, Matrix.mul_nonsing_inv _ (isUnit_iff_ne_zero.mpr hd), one_mulVec]
  · exact absurd h (by simp)

theorem linSolve_isSome {G : Matrix (Fin m) (Fin m) ℝ} (y : Fin m → ℝ) (h : ∀ v, G *ᵥ v = 0 → v = 0) : ∃ v, linSolve G y = some v := by
  have hd : G.det ≠ 0 := fun hd => by
    obtain ⟨v, hv, h0⟩ := Matrix.exists_mulVec_eq_zero_iff.mpr hd
    exact hv (h v h0)
  exact ⟨_, if_pos hd⟩

theorem step_some {Phi : Matrix (Fin m) (Fin n) ℝ} {y : Fin m → ℝ} {x x' : Fin n → ℝ} {p : ℝ} (h : stepNoiseless Phi y x p = some x') :
    Phi *ᵥ x' = y ∧ ∃ v, ∀ i, x' i = xp2 p x i * (Phiᵀ *ᵥ v) i := by
  unfold stepNoiseless at h
  rw [Option.map_eq_some_iff] at h
  obtain ⟨v, hv, rfl⟩ := h
  refine ⟨by rw [mulVec_mulVec]; exact linSolve_some hv, v, fun i => ?_⟩
  show ∑ j, xp2 p x i * Phi j i * v j = xp2 p x i * ∑ j, Phi j i * v j
  rw [Finset.mul_sum]
  exact Finset.sum_congr rfl fun j _ => mul_assoc _ _ _

theorem xp2_eq {p : ℝ} {x : Fin n → ℝ} {i : Fin n} (h : x i ≠ 0) : xp2 p x i = |x i| ^ (2 * p) := by
  rw [xp2, ← Real.rpow_add (abs_pos.mpr h), two_mul]

theorem xp2_zero {p : ℝ} (hp : 0 < p) {x : Fin n → ℝ} {i : Fin n} (h : x i = 0) : xp2 p x i = 0 := by
  rw [xp2, h, abs_zero, Real.zero_rpow hp.ne', mul_zero]

theorem xp2_nonneg (p : ℝ) (x : Fin n → ℝ) (i : Fin n) : 0 ≤ xp2 p x i := mul_self_nonneg _

theorem focuss_x {Phi : Matrix (Fin m) (Fin n) ℝ} {y : Fin m → ℝ} {p : ℝ} {maxIters : ℕ} {s : FocussState m n} (h : FocussReach Phi y p maxIters s) :
    (s.iterations = 0 ∧ s.x = some fun _ => 1) ∨ (0 < s.iterations ∧ ∀ x, s.x = some x → Phi *ᵥ x = y ∧ s.r = some 0 ∧ s.rNormSqr = some 0) := by
  refine h.inv (fun s => (s.iterations = 0 ∧ s.x = some fun _ => 1) ∨ (0 < s.iterations ∧ ∀ x, s.x = some x → Phi *ᵥ x = y ∧ s.r = some 0 ∧
    s.rNormSqr = some 0)) (Or.inl ⟨rfl, rfl⟩) fun s _ _ => Or.inr ⟨Nat.succ_pos _, fun x hx => ?_⟩
  have hx' : (s.x.bind fun x => stepNoiseless Phi y x p) = some x := hx
  rw [Option.bind_eq_some_iff] at hx'
  obtain ⟨x0, _, h1⟩ := hx'
  have h2 := (step_some h1).1
  refine ⟨h2, ?_, ?_⟩
  · show (focussBody Phi y p s).x.map (fun x => y - Phi *ᵥ x) = some 0
    rw [hx, Option.map_some, h2, sub_self]
  · show ((focussBody Phi y p s).x.map (fun x => y - Phi *ᵥ x)).map (fun r => r ⬝ᵥ r) = some 0
    rw [hx, Option.map_some, Option.map_some, h2, sub_self, dotProduct_zero]

/-- **C65.** Every finite iterate after the first iteration satisfies the measurement equations, and the reported residual is zero. Iterates need not be finite
even for dictionaries of full row rank (`c65_finite_fails`). -/
theorem c65_solution_partial (Phi : Matrix (Fin m) (Fin n) ℝ) (y : Fin m → ℝ) (p : ℝ) (maxIters : ℕ) (s : FocussState m n)
    (h : FocussReach Phi y p maxIters s) (hi : 0 < s.iterations) (x : Fin n → ℝ) (hx : s.x = some x) :
    Phi *ᵥ x = y ∧ s.r = some 0 ∧ s.rNormSqr = some 0 := by
  rcases focuss_x h with h | h
  · omega
  · exact h.2 x hx

/-- **C65.** An entry that is zero stays zero. -/
theorem c65_zero_stays (Phi : Matrix (Fin m) (Fin n) ℝ) (y : Fin m → ℝ) (p : ℝ) (hp : 0 < p) (s : FocussState m n) (x x' : Fin n → ℝ)
    (hx : s.x = some x) (hx' : (focussBody Phi y p s).x = some x') (i : Fin n) (hi : x i = 0) : x' i = 0 := by
  have h1 : (s.x.bind fun x => stepNoiseless Phi y x p) = some x' := hx'
  rw [hx, Option.bind_some] at h1
  obtain ⟨v, hv⟩ := (step_some h1).2
  rw [hv, xp2_zero hp hi, zero_mul]

/-- **C65.** An iteration minimises the reweighted norm among all solutions of the measurement equations that keep the zeros; the minimiser is unique. -/
theorem c65_minimal (Phi : Matrix (Fin m) (Fin n) ℝ) (y : Fin m → ℝ) (p : ℝ) (s : FocussState m n) (x x' : Fin n → ℝ)
    (hp : 0 < p ∨ ∀ i, x i ≠ 0) (hx : s.x = some x) (hx' : (focussBody Phi y p s).x = some x') (z : Fin n → ℝ) (hz : Phi *ᵥ z = y)
    (hz0 : ∀ i, x i = 0 → z i = 0) (hne : z ≠ x') : reweighted p x x' < reweighted p x z := by
  have h1 : (s.x.bind fun x => stepNoiseless Phi y x p) = some x' := hx'
  rw [hx, Option.bind_some] at h1
  obtain ⟨hPhi, v, hv⟩ := step_some h1
  have hx0 : ∀ i, x i = 0 → x' i = 0 := fun i hi => by
    rcases hp with hp | hp
    · rw [hv, xp2_zero hp hi, zero_mul]
    · exact absurd hi (hp i)
  have cross : ∑ i with x i ≠ 0, x' i * (z i - x' i) / |x i| ^ (2 * p) = 0 := by
    have e1 : ∑ i with x i ≠ 0, x' i * (z i - x' i) / |x i| ^ (2 * p) = ∑ i, (Phiᵀ *ᵥ v) i * (z i - x' i) := by
      rw [Finset.sum_filter]
      refine Finset.sum_congr rfl fun i _ => ?_
      by_cases hi : x i = 0
      · rw [if_neg (not_not.mpr hi), hz0 i hi, hx0 i hi, sub_self, mul_zero]
      · rw [if_pos hi, hv i, xp2_eq hi]
        have : |x i| ^ (2 * p) ≠ 0 := (Real.rpow_pos_of_pos (abs_pos.mpr hi) _).ne'
        field_simp
    have e2 : ∑ i, (Phiᵀ *ᵥ v) i * (z i - x' i) = (Phiᵀ *ᵥ v) ⬝ᵥ (z - x') := rfl
    rw [e1, e2, mulVec_transpose, ← dotProduct_mulVec, mulVec_sub, hz, hPhi, sub_self, dotProduct_zero]
  have e : reweighted p x z = reweighted p x x' + 2 * (∑ i with x i ≠ 0, x' i * (z i - x' i) / |x i| ^ (2 * p)) +
      ∑ i with x i ≠ 0, (z i - x' i) ^ 2 / |x i| ^ (2 * p) := by
    rw [reweighted, reweighted, Finset.mul_sum, ← Finset.sum_add_distrib, ← Finset.sum_add_distrib]
    exact Finset.sum_congr rfl fun i _ => by ring
  rw [e, cross, mul_zero, add_zero]
  have hpos : 0 < ∑ i with x i ≠ 0, (z i - x' i) ^ 2 / |x i| ^ (2 * p) := by
    obtain ⟨i, hi⟩ := Function.ne_iff.mp hne
    have hxi : x i ≠ 0 := fun h => hi (by rw [hz0 i h, hx0 i h])
    refine Finset.sum_pos' (fun j _ => div_nonneg (sq_nonneg _) (Real.rpow_nonneg (abs_nonneg _) _)) ⟨i, by simp [hxi], ?_⟩
    refine div_pos (by have := sub_ne_zero.mpr hi; positivity) (Real.rpow_pos_of_pos (abs_pos.mpr hxi) _)
  linarith

theorem gram_zero {Phi : Matrix (Fin m) (Fin n) ℝ} {p : ℝ} {x : Fin n → ℝ} {v : Fin m → ℝ} (h : (Phi * focussA Phi p x) *ᵥ v = 0) (i : Fin n) (hi : x i ≠ 0) :
    (Phiᵀ *ᵥ v) i = 0 := by
  have h1 : v ⬝ᵥ ((Phi * focussA Phi p x) *ᵥ v) = ∑ i, xp2 p x i * (Phiᵀ *ᵥ v) i ^ 2 := by
    rw [← mulVec_mulVec, dotProduct_mulVec, ← mulVec_transpose]
    refine Finset.sum_congr rfl fun i _ => ?_
    have : (focussA Phi p x *ᵥ v) i = xp2 p x i * (Phiᵀ *ᵥ v) i := by
      show ∑ j, xp2 p x i * Phi j i * v j = xp2 p x i * ∑ j, Phi j i * v j
      rw [Finset.mul_sum]
      exact Finset.sum_congr rfl fun j _ => mul_assoc _ _ _
    rw [this]; ring
  rw [h, dotProduct_zero] at h1
  have h2 := (Finset.sum_eq_zero_iff_of_nonneg fun i _ => mul_nonneg (xp2_nonneg p x i) (sq_nonneg _)).mp h1.symm i (Finset.mem_univ i)
  have h3 : xp2 p x i ≠ 0 := by rw [xp2_eq hi]; exact (Real.rpow_pos_of_pos (abs_pos.mpr hi) _).ne'
  exact pow_eq_zero_iff two_ne_zero |>.mp ((mul_eq_zero.mp h2).resolve_left h3)

/-- **C65.** For a dictionary with independent rows the first iteration is finite and gives the solution of least Euclidean norm. -/
theorem c65_first (Phi : Matrix (Fin m) (Fin n) ℝ) (hPhi : ∀ v, Phiᵀ *ᵥ v = 0 → v = 0) (y : Fin m → ℝ) (p : ℝ) :
    ∃ x, (focussBody Phi y p (focussInit Phi y)).x = some x ∧ Phi *ᵥ x = y ∧ ∀ z, Phi *ᵥ z = y → z ≠ x → ∑ i, x i ^ 2 < ∑ i, z i ^ 2 := by
  obtain ⟨v, hv⟩ := linSolve_isSome (G := Phi * focussA Phi p fun _ => 1) y fun v h => hPhi v (funext fun i => gram_zero h i one_ne_zero)
  have hs : stepNoiseless Phi y (fun _ => 1) p = some (focussA Phi p (fun _ => 1) *ᵥ v) := by
    show (linSolve _ y).map _ = _
    rw [hv]; rfl
  have hx : (focussBody Phi y p (focussInit Phi y)).x = some (focussA Phi p (fun _ => 1) *ᵥ v) := hs
  refine ⟨_, hx, (step_some hs).1, fun z hz hne => ?_⟩
  have := c65_minimal Phi y p (focussInit Phi y) (fun _ => 1) _ (Or.inr fun _ => one_ne_zero) rfl hx z hz (fun i h => absurd h one_ne_zero) hne
  simpa [reweighted] using this

/-- **C65.** If no hyperplane through the origin contains `m` columns and `y` is no combination of fewer than `m` columns, all iterates are finite. -/
theorem c65_finite_partial (Phi : Matrix (Fin m) (Fin n) ℝ) (hmn : m ≤ n)
    (hspark : ∀ v : Fin m → ℝ, v ≠ 0 → (Finset.univ.filter fun i => (Phiᵀ *ᵥ v) i = 0).card < m) (y : Fin m → ℝ)
    (hy : ∀ x, Phi *ᵥ x = y → m ≤ nnz x) (p : ℝ) (maxIters : ℕ) (s : FocussState m n) (h : FocussReach Phi y p maxIters s) :
    ∃ x, s.x = some x ∧ m ≤ nnz x := by
  refine h.inv (fun s => ∃ x, s.x = some x ∧ m ≤ nnz x) ⟨_, rfl, by simpa [nnz] using hmn⟩ fun s ⟨x, hx, hn⟩ _ => ?_
  obtain ⟨v, hv⟩ := linSolve_isSome (G := Phi * focussA Phi p x) y fun v h => by
    by_contra hne
    have h1 := hspark v hne
    have h2 : nnz x ≤ (Finset.univ.filter fun i => (Phiᵀ *ᵥ v) i = 0).card :=
      Finset.card_le_card fun i hi => by
        rw [Finset.mem_filter] at hi ⊢
        exact ⟨Finset.mem_univ _, gram_zero h i hi.2⟩
    omega
  have hs : stepNoiseless Phi y x p = some (focussA Phi p x *ᵥ v) := by
    show (linSolve _ y).map _ = _
    rw [hv]; rfl
  refine ⟨_, ?_, hy _ (step_some hs).1⟩
  show s.x.bind _ = _
  rw [hx, Option.bind_some, hs]

theorem reweighted_self {p : ℝ} (x : Fin n → ℝ) : reweighted p x x = ∑ i with x i ≠ 0, |x i| ^ (2 - 2 * p) := by
  refine Finset.sum_congr rfl fun i hi => ?_
  have hi : x i ≠ 0 := (Finset.mem_filter.mp hi).2
  rw [← sq_abs, ← Real.rpow_natCast, ← Real.rpow_sub (abs_pos.mpr hi)]
  norm_num

/-- Concavity: the change of `Σ |x_i|^(2 - 2p)` is bounded by that of the reweighted norm. -/
theorem q_bound {p : ℝ} (hp : 0 < p) (hp1 : p < 1) {x x' : Fin n → ℝ} (hx0 : ∀ i, x i = 0 → x' i = 0) :
    ∑ i, |x' i| ^ (2 - 2 * p) ≤ ∑ i, |x i| ^ (2 - 2 * p) + (1 - p) * (reweighted p x x' - reweighted p x x) := by
  have hq : 0 < 2 - 2 * p := by linarith
  have filt : ∀ z : Fin n → ℝ, (∀ i, x i = 0 → z i = 0) → ∑ i, |z i| ^ (2 - 2 * p) = ∑ i with x i ≠ 0, |z i| ^ (2 - 2 * p) := by
    intro z hz
    rw [Finset.sum_filter]
    refine Finset.sum_congr rfl fun i _ => ?_
    by_cases hi : x i = 0
    · rw [if_neg (not_not.mpr hi), hz i hi, abs_zero, Real.zero_rpow hq.ne']
    · rw [if_pos hi]
  rw [filt x' hx0, filt x fun _ h => h]
  -- concavity, entry by entry
  have key : ∀ i ∈ Finset.univ.filter (fun i => x i ≠ 0),
      |x' i| ^ (2 - 2 * p) ≤ |x i| ^ (2 - 2 * p) + (1 - p) * (x' i ^ 2 / |x i| ^ (2 * p) - x i ^ 2 / |x i| ^ (2 * p)) := by
    intro i hi
    have hi : x i ≠ 0 := (Finset.mem_filter.mp hi).2
    have ha := abs_pos.mpr hi
    set t := x' i ^ 2 / x i ^ 2 with ht
    have ht0 : 0 ≤ t := by positivity
    have b := rpow_one_add_le_one_add_mul_self (s := t - 1) (by linarith) (p := 1 - p) (by linarith) (by linarith)
    rw [add_sub_cancel] at b
    have e1 : t ^ (1 - p) = |x' i| ^ (2 - 2 * p) / |x i| ^ (2 - 2 * p) := by
      have : t = (|x' i| / |x i|) ^ (2 : ℝ) := by
        rw [ht, ← sq_abs (x' i), ← sq_abs (x i), ← div_pow]
        norm_num
      rw [this, ← Real.rpow_mul (by positivity), ← Real.div_rpow (abs_nonneg _) ha.le]
      congr 1; ring
    have hA : 0 < |x i| ^ (2 - 2 * p) := Real.rpow_pos_of_pos ha _
    rw [e1, div_le_iff₀ hA] at b
    have e2 : ∀ c : ℝ, c / |x i| ^ (2 * p) = c / x i ^ 2 * |x i| ^ (2 - 2 * p) := by
      intro c
      rw [Real.rpow_sub ha, ← sq_abs (x i)]
      have h1 : |x i| ^ (2 * p) ≠ 0 := (Real.rpow_pos_of_pos ha _).ne'
      have h2 : |x i| ^ (2 : ℝ) = |x i| ^ 2 := by norm_num
      rw [h2]
      field_simp
    rw [e2, e2, div_self (by positivity), ← ht]
    linarith
  have hsum := Finset.sum_le_sum key
  rw [Finset.sum_add_distrib, ← Finset.mul_sum, Finset.sum_sub_distrib] at hsum
  exact hsum

/-- **C87.** For `0 < p < 1` an iteration from a solution of the measurement equations does not increase `Σ |x_i|^(2 - 2p)`. -/
theorem c87_decrease (Phi : Matrix (Fin m) (Fin n) ℝ) (y : Fin m → ℝ) (p : ℝ) (hp : 0 < p) (hp1 : p < 1) (maxIters : ℕ) (s : FocussState m n)
    (h : FocussReach Phi y p maxIters s) (hi : 0 < s.iterations) (x x' : Fin n → ℝ) (hx : s.x = some x) (hx' : (focussBody Phi y p s).x = some x') :
    ∑ i, |x' i| ^ (2 - 2 * p) ≤ ∑ i, |x i| ^ (2 - 2 * p) := by
  have hsol := (c65_solution_partial Phi y p maxIters s h hi x hx).1
  have hmin : reweighted p x x' ≤ reweighted p x x := by
    by_cases he : x = x'
    · rw [← he]
    · exact (c65_minimal Phi y p s x x' (Or.inl hp) hx hx' x hsol (fun _ h => h) he).le
  have h1 := q_bound hp hp1 (c65_zero_stays Phi y p hp s x x' hx hx')
  nlinarith

/-- **C87.** For the default `p = 1` an iteration from a solution of the measurement equations does not increase the product of the magnitudes of its nonzero
entries. -/
theorem c87_decrease_default (Phi : Matrix (Fin m) (Fin n) ℝ) (y : Fin m → ℝ) (maxIters : ℕ) (s : FocussState m n)
    (h : FocussReach Phi y 1 maxIters s) (hi : 0 < s.iterations) (x x' : Fin n → ℝ) (hx : s.x = some x) (hx' : (focussBody Phi y 1 s).x = some x') :
    ∏ i with x i ≠ 0, |x' i| ≤ ∏ i with x i ≠ 0, |x i| := by
  have hsol := (c65_solution_partial Phi y 1 maxIters s h hi x hx).1
  have hmin : reweighted 1 x x' ≤ reweighted 1 x x := by
    by_cases he : x = x'
    · rw [← he]
    · exact (c65_minimal Phi y 1 s x x' (Or.inl one_pos) hx hx' x hsol (fun _ h => h) he).le
  have e2 : ∀ c : ℝ, ∀ i, c / |x i| ^ (2 * (1 : ℝ)) = c / x i ^ 2 := by
    intro c i
    rw [mul_one, ← sq_abs (x i)]
    norm_num
  have h1 : (∑ i with x i ≠ 0, x' i ^ 2 / x i ^ 2) ≤ ∑ i with x i ≠ 0, (1 : ℝ) := by
    have h2 : (∑ i with x i ≠ 0, x' i ^ 2 / |x i| ^ (2 * (1 : ℝ))) ≤ ∑ i with x i ≠ 0, x i ^ 2 / |x i| ^ (2 * (1 : ℝ)) := hmin
    have h3 : ∑ i with x i ≠ 0, x i ^ 2 / |x i| ^ (2 * (1 : ℝ)) = ∑ i with x i ≠ 0, (1 : ℝ) := Finset.sum_congr rfl fun i hi => by
      have hi : x i ≠ 0 := (Finset.mem_filter.mp hi).2
      rw [e2, div_self (by positivity)]
    rw [h3] at h2
    calc (∑ i with x i ≠ 0, x' i ^ 2 / x i ^ 2) = ∑ i with x i ≠ 0, x' i ^ 2 / |x i| ^ (2 * (1 : ℝ)) := Finset.sum_congr rfl fun i _ => (e2 _ i).symm
      _ ≤ _ := h2
  have h2 : ∏ i with x i ≠ 0, (x' i ^ 2 / x i ^ 2) ≤ 1 := by
    calc ∏ i with x i ≠ 0, (x' i ^ 2 / x i ^ 2) ≤ ∏ i with x i ≠ 0, Real.exp (x' i ^ 2 / x i ^ 2 - 1) :=
          Finset.prod_le_prod (fun i _ => by positivity) fun i _ => by have := Real.add_one_le_exp (x' i ^ 2 / x i ^ 2 - 1); linarith
      _ = Real.exp (∑ i with x i ≠ 0, (x' i ^ 2 / x i ^ 2 - 1)) := (Real.exp_sum _ _).symm
      _ ≤ 1 := by
        rw [Real.exp_le_one_iff, Finset.sum_sub_distrib]
        linarith
  rw [Finset.prod_div_distrib] at h2
  have hpos : 0 < ∏ i with x i ≠ 0, x i ^ 2 := Finset.prod_pos fun i hi => by
    have hi : x i ≠ 0 := (Finset.mem_filter.mp hi).2
    positivity
  rw [div_le_one hpos, Finset.prod_pow, Finset.prod_pow] at h2
  have h3 := sq_le_sq.mp h2
  rwa [Finset.abs_prod, Finset.abs_prod] at h3

/-- **C65 fails for some dictionaries of full row rank.** With the identity and `y = (1, 0)` the first iterate has a zero entry, the matrix of the second
iteration is singular, and the solver returns values that are not finite. -/
theorem c65_finite_fails : (∀ v, (1 : Matrix (Fin 2) (Fin 2) ℝ)ᵀ *ᵥ v = 0 → v = 0) ∧
    ∃ s, FocussSolve (1 : Matrix (Fin 2) (Fin 2) ℝ) ![1, 0] 1 20 s ∧ s.x = none := by
  have h0 : ∀ v, (1 : Matrix (Fin 2) (Fin 2) ℝ)ᵀ *ᵥ v = 0 → v = 0 := fun v h => by rwa [transpose_one, one_mulVec] at h
  refine ⟨h0, ?_⟩
  obtain ⟨x, hx, hs, _⟩ := c65_first (1 : Matrix (Fin 2) (Fin 2) ℝ) h0 ![1, 0] 1
  rw [one_mulVec] at hs
  have hlin : stepNoiseless (1 : Matrix (Fin 2) (Fin 2) ℝ) ![1, 0] x 1 = none := by
    have hd : ((1 : Matrix (Fin 2) (Fin 2) ℝ) * focussA 1 1 x).det = 0 := by
      rw [one_mul, Matrix.det_fin_two, hs]
      simp [focussA, xp2]
    show (linSolve _ _).map _ = none
    rw [linSolve, if_neg (not_not.mpr hd)]; rfl
  obtain ⟨s, hs1⟩ := exists_out (c := fun s : FocussState 2 2 => s.iterations < 20) (f := focussBody (1 : Matrix (Fin 2) (Fin 2) ℝ) ![1, 0] 1)
    (s0 := focussInit 1 ![1, 0]) (fun s => s.iterations) 20 (fun _ h => h) (fun s => Nat.lt_succ_self _)
  refine ⟨s, hs1, ?_⟩
  have hinv : (s.iterations = 0 ∧ s.x = some fun _ => 1) ∨ (s.iterations = 1 ∧ s.x = some x) ∨ s.x = none := by
    refine hs1.1.inv (fun s => (s.iterations = 0 ∧ s.x = some fun _ => 1) ∨ (s.iterations = 1 ∧ s.x = some x) ∨ s.x = none) (Or.inl ⟨rfl, rfl⟩) ?_
    rintro s (⟨h1, h2⟩ | ⟨h1, h2⟩ | h) _
    · refine Or.inr (Or.inl ⟨by show s.iterations + 1 = 1; rw [h1], ?_⟩)
      show s.x.bind _ = _
      rw [h2]; exact hx
    · refine Or.inr (Or.inr ?_)
      show s.x.bind _ = _
      rw [h2]; exact hlin
    · refine Or.inr (Or.inr ?_)
      show s.x.bind _ = _
      rw [h]; rfl
  have hnot : ¬ s.iterations < 20 := hs1.2
  rcases hinv with h | h | h
  · omega
  · omega
  · exact h

/-- A dictionary with two columns in dimension one. -/
def wideDict : Matrix (Fin 1) (Fin 2) ℝ := !![1, 2]

/-- It meets the hypotheses of `c65_finite_partial` (and so yields finite states for the other theorems). -/
theorem wide_ok : (1 ≤ 2) ∧ (∀ v : Fin 1 → ℝ, v ≠ 0 → (Finset.univ.filter fun i => (wideDictᵀ *ᵥ v) i = 0).card < 1) ∧
    ∀ x, wideDict *ᵥ x = ![5] → 1 ≤ nnz x := by
  refine ⟨by norm_num, fun v hv => ?_, fun x hx => ?_⟩
  · have hv0 : v 0 ≠ 0 := fun h => hv (funext fun i => by fin_cases i; exact h)
    rw [Nat.lt_one_iff, Finset.card_eq_zero, Finset.filter_eq_empty_iff]
    intro i _
    fin_cases i <;> simp [wideDict, mulVec, dotProduct, hv0]
  · rw [nnz, Nat.one_le_iff_ne_zero, Finset.card_ne_zero]
    by_contra h
    rw [Finset.not_nonempty_iff_eq_empty, Finset.filter_eq_empty_iff] at h
    have hx0 : x = 0 := funext fun i => not_not.mp (h (Finset.mem_univ i))
    have := congrFun hx 0
    rw [hx0, mulVec_zero] at this
    norm_num at this

/-- States reached after a positive number of iterations exist. -/
example : ∃ s, FocussReach wideDict ![5] 0.5 20 s ∧ 0 < s.iterations :=
  ⟨_, .step .init (by show 0 < 20; norm_num), by show 0 < 0 + 1; norm_num⟩

/-- Two consecutive finite states of a run, after at least one iteration. -/
theorem wide_two (p : ℝ) : ∃ s x x', FocussReach wideDict ![5] p 20 s ∧ 0 < s.iterations ∧ s.x = some x ∧
    (focussBody wideDict ![5] p s).x = some x' := by
  have h1 : FocussReach wideDict ![5] p 20 (focussBody wideDict ![5] p (focussInit wideDict ![5])) := .step .init (by show 0 < 20; norm_num)
  have h2 := h1.step (by show 0 + 1 < 20; norm_num)
  obtain ⟨x, hx, _⟩ := c65_finite_partial wideDict wide_ok.1 wide_ok.2.1 ![5] wide_ok.2.2 p 20 _ h1
  obtain ⟨x', hx', _⟩ := c65_finite_partial wideDict wide_ok.1 wide_ok.2.1 ![5] wide_ok.2.2 p 20 _ h2
  exact ⟨_, x, x', h1, by show 0 < 0 + 1; norm_num, hx, hx'⟩

example : ∃ s x, FocussReach wideDict ![5] 0.5 20 s ∧ s.x = some x ∧ wideDict *ᵥ x = ![5] := by
  obtain ⟨s, x, _, h, hi, hx, _⟩ := wide_two 0.5
  exact ⟨s, x, h, hx, (c65_solution_partial _ _ _ _ s h hi x hx).1⟩

/-- The solution `(5, 0)` is a fixed point of the step for `p = 1/2`. -/
theorem wide_fixed : stepNoiseless wideDict ![5] ![5, 0] (1 / 2) = some ![5, 0] := by
  have h5 : |(5 : ℝ)| ^ (1 / 2 : ℝ) * |(5 : ℝ)| ^ (1 / 2 : ℝ) = 5 := by
    rw [abs_of_pos (by norm_num), ← Real.rpow_add (by norm_num)]; norm_num
  have h0 : |(0 : ℝ)| ^ (1 / 2 : ℝ) = 0 := by rw [abs_zero, Real.zero_rpow (by norm_num)]
  have hA : focussA wideDict (1 / 2) ![5, 0] = !![5; 0] := by
    ext i j
    fin_cases i <;> fin_cases j
    · show |(5 : ℝ)| ^ (1 / 2 : ℝ) * |(5 : ℝ)| ^ (1 / 2 : ℝ) * 1 = 5
      rw [h5]; norm_num
    · show |(0 : ℝ)| ^ (1 / 2 : ℝ) * |(0 : ℝ)| ^ (1 / 2 : ℝ) * 2 = 0
      rw [h0]; norm_num
  have hP : wideDict * (!![5; 0] : Matrix (Fin 2) (Fin 1) ℝ) = !![5] := by
    ext i j
    fin_cases i; fin_cases j
    simp [wideDict, Matrix.mul_apply, Fin.sum_univ_two]
  have hd : (!![5] : Matrix (Fin 1) (Fin 1) ℝ).det = 5 := by simp
  have hi : (!![5] : Matrix (Fin 1) (Fin 1) ℝ)⁻¹ *ᵥ ![5] = ![1] := by
    have h1 : (![5] : Fin 1 → ℝ) = !![5] *ᵥ ![1] := by
      funext i; fin_cases i; simp [mulVec, dotProduct]
    have h2 : (!![5] : Matrix (Fin 1) (Fin 1) ℝ)⁻¹ *ᵥ (!![5] *ᵥ ![1]) = ![1] := by
      rw [mulVec_mulVec, nonsing_inv_mul _ (by rw [hd]; exact isUnit_iff_ne_zero.2 (by norm_num)), one_mulVec]
    exact (congrArg (fun b => (!![5] : Matrix (Fin 1) (Fin 1) ℝ)⁻¹ *ᵥ b) h1).trans h2
  unfold stepNoiseless
  simp only [hA, hP]
  rw [linSolve, if_pos (by rw [hd]; norm_num), hi, Option.map_some]
  congr 1
  funext i
  fin_cases i <;> simp [mulVec, dotProduct]

/-- A state with a zero entry. -/
example : (focussBody wideDict ![5] (1 / 2) (focussState wideDict ![5] (some ![5, 0]) 1)).x = some ![5, 0] ∧ (![5, 0] : Fin 2 → ℝ) 1 = 0 :=
  ⟨wide_fixed, c65_zero_stays wideDict ![5] (1 / 2) (by norm_num) (focussState wideDict ![5] (some ![5, 0]) 1) _ _ rfl wide_fixed 1 rfl⟩

/-- From the starting point, where no entry is zero, against the solution `(5, 0)`. -/
example (x' : Fin 2 → ℝ) (h : (focussBody wideDict ![5] 0.5 (focussInit wideDict ![5])).x = some x') (hne : ![5, 0] ≠ x') :=
  c65_minimal wideDict ![5] 0.5 (focussInit wideDict ![5]) _ x' (.inl (by norm_num)) rfl h ![5, 0]
    (by funext i; fin_cases i; simp [wideDict, mulVec, dotProduct]) (fun i hi => absurd hi one_ne_zero) hne

example := c65_first wideDict (fun v hv => by
  have := congrFun hv 0
  funext i
  fin_cases i
  simpa [wideDict, mulVec, dotProduct] using this) ![5] 0.5

example : ∃ s x x', FocussReach wideDict ![5] 0.5 20 s ∧ s.x = some x ∧ (focussBody wideDict ![5] 0.5 s).x = some x' ∧
    ∑ i, |x' i| ^ (2 - 2 * (0.5 : ℝ)) ≤ ∑ i, |x i| ^ (2 - 2 * (0.5 : ℝ)) := by
  obtain ⟨s, x, x', h, hi, hx, hx'⟩ := wide_two 0.5
  exact ⟨s, x, x', h, hx, hx', c87_decrease _ _ 0.5 (by norm_num) (by norm_num) 20 s h hi x x' hx hx'⟩

example : ∃ s x x', FocussReach wideDict ![5] 1 20 s ∧ s.x = some x ∧ (focussBody wideDict ![5] 1 s).x = some x' ∧
    ∏ i with x i ≠ 0, |x' i| ≤ ∏ i with x i ≠ 0, |x i| := by
  obtain ⟨s, x, x', h, hi, hx, hx'⟩ := wide_two 1
  exact ⟨s, x, x', h, hx, hx', c87_decrease_default _ _ 20 s h hi x x' hx hx'⟩

end Verif.Cvx
