import Verif.Cvx.YallGamma
import Mathlib.Tactic.FinCases

set_option autoImplicit false
/-!
# Recovery of sparse signals by YALL1 (C112)
-/
noncomputable section
namespace Verif.Cvx
open Verif.Opt Filter Topology
open scoped RealInnerProductSpace

variable {m n : ℕ}

/-- Specification: the null space property of `A` on the index set `S` with weights `w`: a non-zero vector of the null space has less weighted mass on
`S` than off `S`. -/
def NullSpace (w : Vec n) (S : Finset (Fin n)) (A : Vec n →ₗ[ℝ] Vec m) : Prop :=
  ∀ h : Vec n, h ≠ 0 → A h = 0 → ∑ i ∈ S, w i * |h i| < ∑ i ∈ Sᶜ, w i * |h i|

/-- Under the null space property a vector supported on `S` is the only solution of basis pursuit for its own measurements. -/
theorem bp_unique {w : Vec n} (hw : ∀ i, 0 < w i) {S : Finset (Fin n)} {A : Vec n →ₗ[ℝ] Vec m} (hN : NullSpace w S A) (xs x : Vec n)
    (hs : ∀ i, i ∉ S → xs i = 0) (hx : YallSol .bp false w A (A xs) x) : x = xs := by
  by_contra hne
  have hh : x - xs ≠ 0 := sub_ne_zero.mpr hne
  have h0 : A (x - xs) = 0 := by
    have : A x = A xs := hx.1.2
    rw [map_sub, this, sub_self]
  have h1 := hN _ hh h0
  have h2 : ∑ i, w i * |x i| ≤ ∑ i, w i * |xs i| := hx.2 xs ⟨fun h => by simp at h, rfl⟩
  rw [← Finset.sum_add_sum_compl S, ← Finset.sum_add_sum_compl S] at h2
  have h3 : ∑ i ∈ Sᶜ, w i * |xs i| = 0 := Finset.sum_eq_zero fun i hi => by
    rw [hs i (Finset.mem_compl.mp hi), abs_zero, mul_zero]
  have h4 : ∑ i ∈ Sᶜ, w i * |(x - xs) i| = ∑ i ∈ Sᶜ, w i * |x i| := Finset.sum_congr rfl fun i hi => by
    have : (x - xs) i = x i - xs i := rfl
    rw [this, hs i (Finset.mem_compl.mp hi), sub_zero]
  have h5 : ∑ i ∈ S, w i * |xs i| ≤ ∑ i ∈ S, w i * |x i| + ∑ i ∈ S, w i * |(x - xs) i| := by
    rw [← Finset.sum_add_distrib]
    refine Finset.sum_le_sum fun i _ => ?_
    rw [← mul_add]
    refine mul_le_mul_of_nonneg_left ?_ (hw i).le
    have : xs i = x i - (x - xs) i := by show xs i = x i - (x i - xs i); ring
    calc |xs i| = |x i - (x - xs) i| := by rw [← this]
      _ ≤ _ := abs_sub _ _
  linarith

/-- **C112** Sparse recovery: when the rows of `A` are orthonormal and `A` has the null space property on the support of `xs` for the weights, the
iterates of the basis pursuit solver for the measurements `b = A xs` (neither `rho` nor `delta` given) converge to `xs` from every starting point. -/
theorem c112_yall1_recovery (A : Vec n →ₗ[ℝ] Vec m) (At : Vec m →ₗ[ℝ] Vec n) (hadj : IsAdj A At) (hA : ∀ y, A (At y) = y) (xs : Vec n)
    (hb : A xs ≠ 0) (weights : Option (Vec n)) (hw : ∀ i, 0 < yallWeights weights i) (S : Finset (Fin n)) (hs : ∀ i, i ∉ S → xs i = 0)
    (hN : NullSpace (yallWeights weights) S A) (rho delta gamma tol : ℝ) (hg0 : 0 < gamma) (hg1 : gamma < (1 + √5) / 2) (hrho : rho ≤ 0) (hdelta : delta ≤ 0) (maxIters : ℕ) (x0 z0 : Vec n) :
    Tendsto (fun k => linf (A xs) • ((yallIter A At (yallArgs (A xs) weights false rho delta gamma tol maxIters))^[k]
      (yallInit A At (yallArgs (A xs) weights false rho delta gamma tol maxIters) x0 z0)).x) atTop (𝓝 xs) := by
  obtain ⟨x, hx, hlim⟩ := c86_converges_gamma A At hadj hA (A xs) hb weights hw false rho delta gamma tol maxIters x0 z0 hg0 hg1 (fun h => by simp at h) (fun h => by simp at h)
  have : yallProblem rho delta = .bp := by
    unfold yallProblem
    rw [if_neg (not_lt.mpr hrho), if_neg (not_lt.mpr hdelta)]
  rw [this] at hx
  have e := bp_unique hw hN xs x hs hx
  rwa [e] at hlim

/-- The `i`-th column of `A`. -/
def colV (A : Vec n →ₗ[ℝ] Vec m) (i : Fin n) : Vec m := A (vec fun j => if j = i then 1 else 0)

/-- **C112** Low coherence gives the null space property: if all columns have squared norm `c > 0`, the inner products of distinct columns are at most
`mu c` in magnitude and `(2|S| - 1) mu < 1`, then `A` has the null space property on `S` with unit weights. -/
theorem c112_coherence (A : Vec n →ₗ[ℝ] Vec m) (c mu : ℝ) (hc : 0 < c) (hmu : 0 ≤ mu) (hcol : ∀ i, ‖colV A i‖ ^ 2 = c)
    (hin : ∀ i j, i ≠ j → |⟪colV A i, colV A j⟫| ≤ mu * c) (S : Finset (Fin n)) (hS : (2 * (S.card : ℝ) - 1) * mu < 1) :
    NullSpace (yallWeights none) S A := by
  intro h hne h0
  have hw : ∀ i, (yallWeights none : Vec n) i = 1 := fun i => rfl
  simp only [hw, one_mul]
  have hA : A h = ∑ j, h j • colV A j := by
    have e : h = ∑ j, h j • (vec fun i => if i = j then 1 else 0 : Vec n) := by
      ext i
      rw [WithLp.ofLp_sum, Finset.sum_apply]
      simp [vec]
    conv_lhs => rw [e]
    rw [map_sum]
    exact Finset.sum_congr rfl fun j _ => by rw [map_smul]; rfl
  have hT : 0 < ∑ i, |h i| := by
    obtain ⟨i, hi⟩ : ∃ i, h i ≠ 0 := by
      by_contra hcon
      push Not at hcon
      exact hne (by ext i; exact hcon i)
    exact lt_of_lt_of_le (abs_pos.mpr hi) (Finset.single_le_sum (fun j _ => abs_nonneg (h j)) (Finset.mem_univ i))
  have key : ∀ i, (1 + mu) * |h i| ≤ mu * ∑ j, |h j| := by
    intro i
    have h1 : ⟪colV A i, A h⟫ = 0 := by rw [h0, inner_zero_right]
    rw [hA, _root_.inner_sum, ← Finset.add_sum_erase _ (fun j => ⟪colV A i, h j • colV A j⟫) (Finset.mem_univ i), inner_smul_right, real_inner_self_eq_norm_sq, hcol] at h1
    have h2 : |h i| * c ≤ ∑ j ∈ Finset.univ.erase i, |h j| * (mu * c) := by
      have : h i * c = -∑ j ∈ Finset.univ.erase i, ⟪colV A i, h j • colV A j⟫ := by linarith
      rw [← abs_of_pos hc, ← abs_mul, this, abs_neg, abs_of_pos hc]
      refine (Finset.abs_sum_le_sum_abs _ _).trans (Finset.sum_le_sum fun j hj => ?_)
      rw [inner_smul_right, abs_mul]
      exact mul_le_mul_of_nonneg_left (hin i j (Ne.symm (Finset.ne_of_mem_erase hj))) (abs_nonneg _)
    rw [← Finset.sum_mul] at h2
    have h3 : |h i| ≤ (∑ j ∈ Finset.univ.erase i, |h j|) * mu := by
      rw [← mul_assoc] at h2
      exact le_of_mul_le_mul_right h2 hc
    have h4 := Finset.add_sum_erase Finset.univ (fun j => |h j|) (Finset.mem_univ i)
    nlinarith
  have h5 : (1 + mu) * ∑ i ∈ S, |h i| ≤ S.card * (mu * ∑ j, |h j|) := by
    rw [Finset.mul_sum, ← nsmul_eq_mul]
    exact Finset.sum_le_card_nsmul _ _ _ fun i _ => key i
  have h6 := Finset.sum_add_sum_compl S (fun i => |h i|)
  by_contra hcon
  push Not at hcon
  have h7 : ∑ j, |h j| ≤ 2 * ∑ i ∈ S, |h i| := by linarith
  have h8 : (1 + mu) * ∑ j, |h j| ≤ 2 * (S.card * (mu * ∑ j, |h j|)) := by nlinarith
  have h9 : ((1 + mu) - 2 * S.card * mu) * ∑ j, |h j| ≤ 0 := by linarith
  have h10 : 0 < (1 + mu) - 2 * S.card * mu := by linarith
  nlinarith

/-- The row `(3/5, 4/5)` has the null space property on the second index. -/
theorem ex_nullSpace : ∃ (A : Vec 2 →ₗ[ℝ] Vec 1) (At : Vec 1 →ₗ[ℝ] Vec 2), IsAdj A At ∧ (∀ y, A (At y) = y) ∧ NullSpace (yallWeights none) {1} A ∧
    A (vec fun i => if i = 1 then 2 else 0) ≠ 0 := by
  refine ⟨{ toFun := fun x => vec fun _ => 3 / 5 * x 0 + 4 / 5 * x 1, map_add' := fun x y => ?_, map_smul' := fun a x => ?_ },
    { toFun := fun y => vec fun i => if i = 0 then 3 / 5 * y 0 else 4 / 5 * y 0, map_add' := fun x y => ?_, map_smul' := fun a x => ?_ }, ?_, ?_, ?_, ?_⟩
  · ext i; simp [vec]; ring
  · ext i; simp [vec]; ring
  · ext i; fin_cases i <;> simp [vec] <;> ring
  · ext i; fin_cases i <;> simp [vec] <;> ring
  · intro x y
    simp [PiLp.inner_apply, vec, Fin.sum_univ_two]; ring
  · intro y; ext i; fin_cases i; simp [vec]; ring
  · intro h hne h0
    have h1 : 3 / 5 * h 0 + 4 / 5 * h 1 = 0 := by
      have := congrArg (fun v : Vec 1 => v 0) h0
      simpa [vec] using this
    have e : ({1} : Finset (Fin 2))ᶜ = {0} := by decide
    rw [e, Finset.sum_singleton, Finset.sum_singleton]
    have hw : ∀ i, (yallWeights none : Vec 2) i = 1 := fun i => rfl
    rw [hw, hw, one_mul, one_mul]
    have h2 : h 1 = -(3 / 4) * h 0 := by linarith
    have h3 : h 0 ≠ 0 := fun hz => hne (by ext i; fin_cases i <;> simp [hz, h2])
    rw [h2, abs_mul, show |(-(3 / 4) : ℝ)| = 3 / 4 by rw [abs_neg]; norm_num]
    have := abs_pos.mpr h3
    linarith
  · intro h
    have := congrArg (fun v : Vec 1 => v 0) h
    simp [vec] at this

example : ∃ (A : Vec 2 →ₗ[ℝ] Vec 1) (At : Vec 1 →ₗ[ℝ] Vec 2), Tendsto (fun k => linf (A (vec fun i => if i = 1 then 2 else 0)) •
    ((yallIter A At (yallArgs (A (vec fun i => if i = 1 then 2 else 0)) none false 0 0 1 5e-3 9999))^[k]
      (yallInit A At (yallArgs (A (vec fun i => if i = 1 then 2 else 0)) none false 0 0 1 5e-3 9999) 0 0)).x) atTop (𝓝 (vec fun i => if i = 1 then 2 else 0)) := by
  obtain ⟨A, At, h1, h2, h3, h4⟩ := ex_nullSpace
  refine ⟨A, At, c112_yall1_recovery A At h1 h2 _ h4 none (fun i => one_pos) {1} (fun i hi => ?_) h3 0 0 1 5e-3 one_pos ?_ le_rfl le_rfl 9999 0 0⟩
  · rw [Finset.mem_singleton] at hi
    simp [vec, hi]
  · have : (1 : ℝ) < √5 := by rw [Real.lt_sqrt] <;> norm_num
    linarith

/-- The identity on three entries: every pair of columns is orthogonal. -/
example := c112_coherence (LinearMap.id : Vec 3 →ₗ[ℝ] Vec 3) 1 0 one_pos le_rfl (fun i => by rw [EuclideanSpace.norm_sq_eq]; simp [colV, vec])
  (fun i j hij => by simp [colV, vec, PiLp.inner_apply, hij]) {0, 2} (by norm_num)

end Verif.Cvx
