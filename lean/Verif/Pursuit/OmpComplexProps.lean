import Verif.Pursuit.OmpComplexModel
import Mathlib.Analysis.InnerProductSpace.PiL2
import Mathlib.Tactic.FinCases
import Mathlib.LinearAlgebra.Matrix.Block
import Mathlib.LinearAlgebra.Matrix.NonsingularInverse

set_option autoImplicit false
/-! # C45 on complex data -/
noncomputable section
namespace Verif.Pursuit

/-- `x` solves `L Lᵀ x = b` (order `k`). -/
def SolvesT (L : ℕ → ℕ → ℂ) (k : ℕ) (b x : ℕ → ℂ) : Prop :=
  ∀ i < k, ∑ j ∈ Finset.range k, (∑ l ∈ Finset.range k, L i l * L j l) * x j = b i

/-- `x` solves `L Lᴴ x = b` (order `k`). -/
def SolvesH (L : ℕ → ℕ → ℂ) (k : ℕ) (b x : ℕ → ℂ) : Prop :=
  ∀ i < k, ∑ j ∈ Finset.range k, (∑ l ∈ Finset.range k, L i l * star (L j l)) * x j = b i

/-- `L` is lower triangular of order `k` with non-zero diagonal. -/
def LowerRegular (L : ℕ → ℕ → ℂ) (k : ℕ) : Prop := ∀ i < k, L i i ≠ 0 ∧ ∀ j < k, i < j → L i j = 0

/-- The unit vectors `(1, 0)` and `(3i/5, 4/5)`. -/
def tiltedAtoms (i : ℕ) : EuclideanSpace ℂ (Fin 2) := if i = 0 then !₂[1, 0] else !₂[3 / 5 * Complex.I, 4 / 5]

/-- The unit signal `(4/5, 3/5)`. -/
def tiltedSignal : EuclideanSpace ℂ (Fin 2) := !₂[4 / 5, 3 / 5]

theorem inner2 (a b c d : ℂ) : inner ℂ (!₂[a, b] : EuclideanSpace ℂ (Fin 2)) !₂[c, d] = c * star a + d * star b := by
  rw [EuclideanSpace.inner_eq_star_dotProduct]
  simp [Matrix.vecHead, Matrix.vecTail]

theorem norm2 (a b : ℂ) : ‖(!₂[a, b] : EuclideanSpace ℂ (Fin 2))‖ = Real.sqrt (‖a‖ ^ 2 + ‖b‖ ^ 2) := by
  rw [EuclideanSpace.norm_eq]; simp

theorem absMaxIdx_two (a b : ℂ) : absMaxIdx [a, b] = if ‖a‖ < ‖b‖ then 1 else 0 := by
  simp only [absMaxIdx, List.map_cons, List.map_nil, argmax, argmaxFrom]

theorem tilted_corr (a b : ℂ) : corr ℂ tiltedAtoms 2 (!₂[a, b] : EuclideanSpace ℂ (Fin 2)) = [a, 4 / 5 * b - 3 / 5 * Complex.I * a] := by
  have h0 : tiltedAtoms 0 = !₂[1, 0] := rfl
  have h1 : tiltedAtoms 1 = !₂[3 / 5 * Complex.I, 4 / 5] := rfl
  simp only [corr, List.range_succ, List.range_zero, List.nil_append, List.cons_append, List.map_cons, List.map_nil, h0, h1, inner2]
  congr 1
  · simp
  · congr 1
    have e1 : star (3 / 5 * Complex.I : ℂ) = - (3 / 5 * Complex.I) := by simp
    have e2 : star (4 / 5 : ℂ) = 4 / 5 := by
      rw [show (4 / 5 : ℂ) = ((4 / 5 : ℝ) : ℂ) by push_cast; rfl]; exact Complex.conj_ofReal _
    rw [e1, e2]; ring

theorem norm_sq_lt {a b : ℂ} (h : Complex.normSq a < Complex.normSq b) : ‖a‖ < ‖b‖ := by
  rw [Complex.normSq_eq_norm_sq, Complex.normSq_eq_norm_sq] at h
  exact lt_of_pow_lt_pow_left₀ 2 (norm_nonneg _) h

/-- **C45 fails** on complex data: for two linearly independent unit atoms and a signal in their span, the second pass of `operator_solve` selects the second
atom, but its coefficients are not the least-squares solution: the residual is not orthogonal to the selected atoms. This holds whether the external
`solve_spd_chol(L, b)` solves `L Lᵀ x = b` or `L Lᴴ x = b`. The update of the factor uses `w` and `wᵀ w` where conjugates are needed. -/
theorem c45_complex_fails (solve : (ℕ → ℕ → ℂ) → ℕ → (ℕ → ℂ) → ℕ → ℂ)
    (hs : (∀ L k b, LowerRegular L k → SolvesT L k b (solve L k b)) ∨ (∀ L k b, LowerRegular L k → SolvesH L k b (solve L k b))) :
    (∀ i < 2, ‖tiltedAtoms i‖ = 1) ∧ ‖tiltedSignal‖ = 1 ∧
    (∃ c : ℕ → ℂ, tiltedSignal = c 0 • tiltedAtoms 0 + c 1 • tiltedAtoms 1) ∧
    let s := ompStepC solve tiltedAtoms 2 tiltedSignal (ompInitC tiltedAtoms 2 tiltedSignal)
    s.I 0 = 0 ∧ s.I 1 = 1 ∧ ∃ i < 2, inner ℂ (tiltedAtoms i) s.r ≠ 0 := by
  have h0 : tiltedAtoms 0 = !₂[1, 0] := rfl
  have h1 : tiltedAtoms 1 = !₂[3 / 5 * Complex.I, 4 / 5] := rfl
  refine ⟨fun i hi => ?_, ?_, ⟨fun i => if i = 0 then 4 / 5 - 9 / 20 * Complex.I else 3 / 4, ?_⟩, ?_⟩
  · obtain rfl | rfl : i = 0 ∨ i = 1 := by omega
    · rw [h0, norm2]; simp
    · rw [h1, norm2]; norm_num
  · rw [tiltedSignal, norm2]; norm_num
  · rw [h0, h1, tiltedSignal]
    ext i
    fin_cases i
    · simp; ring
    · simp; norm_num
  intro s
  have hp : corr ℂ tiltedAtoms 2 tiltedSignal = [4 / 5, 12 / 25 - 12 / 25 * Complex.I] := by
    rw [tiltedSignal, tilted_corr]; congr 2; ring
  have hi0 : absMaxIdx [(4 / 5 : ℂ), 12 / 25 - 12 / 25 * Complex.I] = 0 := by
    rw [absMaxIdx_two, if_neg]
    have : Complex.normSq (12 / 25 - 12 / 25 * Complex.I) < Complex.normSq (4 / 5) := by
      rw [Complex.normSq_apply, Complex.normSq_apply]; norm_num
    exact (norm_sq_lt this).le.not_gt
  have hr0 : (ompInitC tiltedAtoms 2 tiltedSignal).r = !₂[0, 3 / 5] := by
    simp only [ompInitC, hp, hi0, h0]
    ext i; fin_cases i <;> simp [tiltedSignal]
  have hq : corr ℂ tiltedAtoms 2 (!₂[0, 3 / 5] : EuclideanSpace ℂ (Fin 2)) = [0, 12 / 25] := by
    rw [tilted_corr]; congr 2; norm_num
  have hi1 : absMaxIdx [(0 : ℂ), 12 / 25] = 1 := by
    rw [absMaxIdx_two, if_pos]; norm_num
  have hk : (ompInitC tiltedAtoms 2 tiltedSignal).k = 1 := rfl
  have hI0 : (ompInitC tiltedAtoms 2 tiltedSignal).I = fun _ => 0 := by simp only [ompInitC, hp, hi0]
  have hP0 : (ompInitC tiltedAtoms 2 tiltedSignal).phiI = fun _ => tiltedAtoms 0 := by simp only [ompInitC, hp, hi0]
  have hL0 : (ompInitC tiltedAtoms 2 tiltedSignal).L = fun _ _ => 1 := rfl
  set w : ℂ := 3 / 5 * Complex.I with hw
  have hv : inner ℂ (tiltedAtoms 0) (tiltedAtoms 1) = w := by rw [h0, h1, inner2]; simp
  set L := gramCholUpdateC (fun _ _ => 1) 1 (fun _ => w) with hL
  have hfw : fwdSubC (fun _ _ => 1) (fun _ => w) 0 = w := by rw [fwdSubC]; simp
  have L00 : L 0 0 = 1 := by simp [hL, gramCholUpdateC]
  have L01 : L 0 1 = 0 := by simp [hL, gramCholUpdateC]
  have L10 : L 1 0 = w := by simp [hL, gramCholUpdateC, hfw]
  have hww : w * w = -(9 / 25) := by
    rw [hw]; linear_combination (9 / 25 : ℂ) * Complex.I_mul_I
  have L11 : L 1 1 * L 1 1 = 34 / 25 := by
    have : L 1 1 = (34 / 25 : ℂ) ^ (1 / 2 : ℂ) := by
      simp only [hL, gramCholUpdateC, Finset.sum_range_one, hfw, hww]
      simp
      norm_num
    rw [this, ← Complex.cpow_add _ _ (by norm_num)]
    norm_num
  have L11n : L 1 1 ≠ 0 := by
    intro h; rw [h] at L11; norm_num at L11
  have hdiag : LowerRegular L 2 := by
    intro i hi
    obtain rfl | rfl : i = 0 ∨ i = 1 := by omega
    · refine ⟨by rw [L00]; exact one_ne_zero, fun j hj h0j => ?_⟩
      obtain rfl : j = 1 := by omega
      exact L01
    · exact ⟨L11n, fun j hj h1j => by omega⟩
  have hs1 : s.I = Function.update (fun _ => 0) 1 1 := by
    simp only [s, ompStepC, hI0, hk, hr0, hq, hi1]
  have hb : (fun j => [(4 / 5 : ℂ), 12 / 25 - 12 / 25 * Complex.I].getD (Function.update (fun _ : ℕ => (0 : ℕ)) 1 1 j) 0) 0 = 4 / 5 ∧
      (fun j => [(4 / 5 : ℂ), 12 / 25 - 12 / 25 * Complex.I].getD (Function.update (fun _ : ℕ => (0 : ℕ)) 1 1 j) 0) 1 = 12 / 25 - 12 / 25 * Complex.I := by
    constructor <;> simp
  set b := fun j => [(4 / 5 : ℂ), 12 / 25 - 12 / 25 * Complex.I].getD (Function.update (fun _ : ℕ => (0 : ℕ)) 1 1 j) 0 with hbdef
  set x := solve L 2 b with hx
  have hr : s.r = tiltedSignal - (x 0 • tiltedAtoms 0 + x 1 • tiltedAtoms 1) := by
    simp only [s, ompStepC, hI0, hk, hr0, hq, hi1, hP0, hL0, hp, hv, ← hL, ← hbdef, ← hx]
    rw [Finset.sum_range_succ, Finset.sum_range_one]
    simp
  refine ⟨by rw [hs1]; simp, by rw [hs1]; simp, ?_⟩
  have hc : ∀ a : EuclideanSpace ℂ (Fin 2), inner ℂ a s.r = inner ℂ a tiltedSignal - (x 0 * inner ℂ a (tiltedAtoms 0) + x 1 * inner ℂ a (tiltedAtoms 1)) := by
    intro a; rw [hr, inner_sub_right, inner_add_right, inner_smul_right, inner_smul_right]
  have y0 : inner ℂ (tiltedAtoms 0) tiltedSignal = 4 / 5 := by rw [h0, tiltedSignal, inner2]; simp
  have y1 : inner ℂ (tiltedAtoms 1) tiltedSignal = 12 / 25 - 12 / 25 * Complex.I := by
    have := congrArg (fun l => l.getD 1 0) hp
    simpa [corr, List.range_succ] using this
  have hsw : star w = -w := by rw [hw]; simp
  have g00 : inner ℂ (tiltedAtoms 0) (tiltedAtoms 0) = 1 := by rw [h0, inner2]; simp
  have g10 : inner ℂ (tiltedAtoms 1) (tiltedAtoms 0) = -w := by
    rw [← inner_conj_symm, hv]
    exact hsw
  have g11 : inner ℂ (tiltedAtoms 1) (tiltedAtoms 1) = 1 := by
    have := congrArg (fun l => l.getD 1 0) (tilted_corr (3 / 5 * Complex.I) (4 / 5))
    rw [← h1] at this
    have e : inner ℂ (tiltedAtoms 1) (tiltedAtoms 1) = 4 / 5 * (4 / 5) - 3 / 5 * Complex.I * (3 / 5 * Complex.I) := by
      simpa [corr, List.range_succ] using this
    rw [e, ← hw, hww]; norm_num
  by_contra hcon
  push Not at hcon
  have o0 := hcon 0 (by norm_num)
  have o1 := hcon 1 (by norm_num)
  rw [hc, y0, g00, hv] at o0
  rw [hc, y1, g10, g11] at o1
  have hwI : w ≠ 0 := by rw [hw]; norm_num
  rcases hs with hs | hs
  · have e := hs L 2 b hdiag
    have e0 := e 0 (by norm_num)
    have e1 := e 1 (by norm_num)
    simp only [Finset.sum_range_succ, Finset.sum_range_zero, zero_add, L00, L01, L10, hb.1, hb.2, ← hx] at e0 e1
    -- the second equation of the solver has `w` where the normal equation has `-w`
    have : w * x 0 = 0 := by
      have : w * x 0 + w * x 0 = 0 := by linear_combination o1 + e1 - x 1 * hww - x 1 * L11
      linear_combination (1 / 2 : ℂ) * this
    have hx0 : x 0 = 0 := (mul_eq_zero.1 this).resolve_left hwI
    rw [hx0] at o0 o1
    have h2 : x 1 = 12 / 25 - 12 / 25 * Complex.I := by linear_combination -o1
    rw [h2, hw] at o0
    have := congrArg Complex.re o0
    norm_num at this
  · have e := hs L 2 b hdiag
    have e0 := e 0 (by norm_num)
    simp only [Finset.sum_range_succ, Finset.sum_range_zero, zero_add, L00, L01, L10, hb.1, ← hx] at e0
    rw [hsw] at e0
    have : w * x 1 = 0 := by
      have : w * x 1 + w * x 1 = 0 := by
        simp at e0
        linear_combination -o0 - e0
      linear_combination (1 / 2 : ℂ) * this
    have hx1 : x 1 = 0 := (mul_eq_zero.1 this).resolve_left hwI
    rw [hx1] at o0 o1
    have h2 : x 0 = 4 / 5 := by linear_combination -o0
    rw [h2, hw] at o1
    have := congrArg Complex.re o1
    norm_num at this

/-- Non-vacuity: a solver as in the first alternative of `c45_complex_fails` exists. -/
theorem exists_solvesT : ∃ solve : (ℕ → ℕ → ℂ) → ℕ → (ℕ → ℂ) → ℕ → ℂ, ∀ L k b, LowerRegular L k → SolvesT L k b (solve L k b) := by
  have : ∀ (L : ℕ → ℕ → ℂ) (k : ℕ) (b : ℕ → ℂ), ∃ x, LowerRegular L k → SolvesT L k b x := by
    intro L k b
    by_cases hL : LowerRegular L k
    swap
    · exact ⟨b, fun h => absurd h hL⟩
    let M : Matrix (Fin k) (Fin k) ℂ := fun i j => L i j
    have hdet : M.det ≠ 0 := by
      rw [Matrix.det_of_lowerTriangular M (by
        intro i j hij
        exact (hL i i.2).2 j j.2 hij)]
      exact Finset.prod_ne_zero_iff.2 fun i _ => (hL i i.2).1
    have hu : IsUnit (M * M.transpose).det := by
      rw [Matrix.det_mul, Matrix.det_transpose]
      exact (mul_ne_zero hdet hdet).isUnit
    let bk : Fin k → ℂ := fun i => b i
    let x : Fin k → ℂ := ((M * M.transpose)⁻¹).mulVec bk
    have hx : (M * M.transpose).mulVec x = bk := by
      rw [Matrix.mulVec_mulVec, Matrix.mul_nonsing_inv _ hu, Matrix.one_mulVec]
    refine ⟨fun i => if h : i < k then x ⟨i, h⟩ else 0, fun _ i hi => ?_⟩
    have e := congrFun hx ⟨i, hi⟩
    change ∑ j, (M * M.transpose) ⟨i, hi⟩ j * x j = b i at e
    rw [← e, Finset.sum_range]
    refine Finset.sum_congr rfl fun j _ => ?_
    rw [Matrix.mul_apply, Finset.sum_range]
    change _ * (if h : (j : ℕ) < k then x ⟨j, h⟩ else 0) = (∑ l : Fin k, L i l * L j l) * x j
    rw [dif_pos j.2]
  choose f hf using this
  exact ⟨f, hf⟩

/-- Non-vacuity of `c45_complex_fails`. -/
example : ∃ solve : (ℕ → ℕ → ℂ) → ℕ → (ℕ → ℂ) → ℕ → ℂ,
    ∃ i < 2, inner ℂ (tiltedAtoms i) (ompStepC solve tiltedAtoms 2 tiltedSignal (ompInitC tiltedAtoms 2 tiltedSignal)).r ≠ 0 := by
  obtain ⟨f, hf⟩ := exists_solvesT
  exact ⟨f, (c45_complex_fails f (Or.inl hf)).2.2.2.2.2⟩

end Verif.Pursuit
