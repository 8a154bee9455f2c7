import Verif.Lop.StructProps
import Mathlib.Analysis.Complex.Basic

set_option autoImplicit false

/-!
# C152: `rdot_test_complex`

`lop/util.py:88-100`.
-/
noncomputable section
namespace Verif.Lop

/-- `cnb.arr_rdot(x, y)` (external): the real part of the inner product. -/
def rdot (x y : List ℂ) : ℝ := (vdot x y).re

/-- `rdot_test_complex(key, A, tol)` (lop/util.py:88-100) once the complex test input `u` and the real test output `v` are drawn; division by zero as in
`dotTestReal`. `eps` is `1e-15`. -/
def rdotTestComplex (A : Op ℂ) (u : List ℂ) (v : List ℝ) (eps tol : ℝ) : Prop :=
  let w := v.map fun r : ℝ => (r : ℂ)
  let yy := rdot (A.times u) w
  let xx := rdot u (A.trans w)
  let den := (yy + xx + eps) / 2
  den ≠ 0 ∧ |yy - xx| / den < tol

/-- **C152** (part) A pair that is adjoint for the real inner product passes unless the mean of the two products is exactly zero. If the test succeeds and the sum of
the two products is not negative (up to `eps`), their mismatch is below the tolerance times their mean. Missing: negative sums and outputs that are not real, see
`c152_negative_fails` and `c152_imaginary_fails`. -/
theorem c152_rdot_partial (A : Op ℂ) (u : List ℂ) (v : List ℝ) (eps tol : ℝ) (htol : 0 < tol) :
    (rdot (A.times u) (v.map fun r : ℝ => (r : ℂ)) = rdot u (A.trans (v.map fun r : ℝ => (r : ℂ))) →
      2 * rdot (A.times u) (v.map fun r : ℝ => (r : ℂ)) + eps ≠ 0 → rdotTestComplex A u v eps tol) ∧
    (0 ≤ rdot (A.times u) (v.map fun r : ℝ => (r : ℂ)) + rdot u (A.trans (v.map fun r : ℝ => (r : ℂ))) + eps → rdotTestComplex A u v eps tol →
      |rdot (A.times u) (v.map fun r : ℝ => (r : ℂ)) - rdot u (A.trans (v.map fun r : ℝ => (r : ℂ)))| <
        tol * ((rdot (A.times u) (v.map fun r : ℝ => (r : ℂ)) + rdot u (A.trans (v.map fun r : ℝ => (r : ℂ))) + eps) / 2)) := by
  constructor
  · intro he hne
    refine ⟨?_, ?_⟩
    · rw [← he]; intro h; apply hne; linarith
    · rw [he, sub_self, abs_zero, zero_div]; exact htol
  · rintro h0 ⟨hd, ht⟩
    have hpos := lt_of_le_of_ne (by linarith) (Ne.symm hd)
    rwa [div_lt_iff₀ hpos] at ht

/-- **C152 fails** (negative products) `times = 5 x`, `trans = x` passes for the test vectors `1` and `-1`. -/
theorem c152_negative_fails (tol : ℝ) (htol : 0 < tol) :
    ∃ A : Op ℂ, A.shape = (1, 1) ∧ rdot (A.times [1]) [-1] = -5 ∧ rdot [1] (A.trans [-1]) = -1 ∧ rdotTestComplex A [1] [-1] 1e-15 tol := by
  refine ⟨{ times := smul 5, trans := fun x => x, shape := (1, 1) }, rfl, ?_, ?_, ?_⟩
  · simp [rdot, vdot, smul]
  · simp [rdot, vdot]
  · have e1 : rdot (smul (5 : ℂ) [1]) [-1] = -5 := by simp [rdot, vdot, smul]
    have e2 : rdot [1] [-1] = -1 := by simp [rdot, vdot]
    have e3 : ([-1] : List ℝ).map (fun r : ℝ => (r : ℂ)) = [-1] := by simp
    unfold rdotTestComplex
    simp only [e1, e2, e3]
    constructor
    · norm_num
    · have : |(-5 : ℝ) - -1| / ((-5 + -1 + 1e-15) / 2) < 0 := by
        apply div_neg_of_pos_of_neg <;> norm_num
      linarith

/-- **C152** the test looks at the adjoint on real arrays only: its verdict does not depend on what `trans` does with imaginary parts. -/
theorem c152_real_only (A : Op ℂ) (tr : List ℂ → List ℂ) (htr : ∀ v : List ℝ, tr (v.map fun r : ℝ => (r : ℂ)) = A.trans (v.map fun r : ℝ => (r : ℂ))) (u : List ℂ)
    (v : List ℝ) (eps tol : ℝ) : rdotTestComplex { A with trans := tr } u v eps tol ↔ rdotTestComplex A u v eps tol := by
  unfold rdotTestComplex
  simp only [htr v]

/-- **C152 fails** (imaginary outputs) the identity with an adjoint that drops imaginary parts passes for every draw with a non-zero mean, for every length, and is
not adjoint to it. -/
theorem c152_imaginary_fails : ∃ A : Op ℂ,
    (∀ (u : List ℂ) (v : List ℝ) (eps tol : ℝ), 0 < tol → 2 * rdot u (v.map fun r : ℝ => (r : ℂ)) + eps ≠ 0 → rdotTestComplex A u v eps tol) ∧
    rdot (A.times [Complex.I]) [Complex.I] = 1 ∧ rdot [Complex.I] (A.trans [Complex.I]) = 0 := by
  refine ⟨{ times := fun x => x, trans := fun x => x.map fun z => (z.re : ℂ), shape := (1, 1) }, fun u v eps tol htol h => ?_, ?_, ?_⟩
  · refine (c152_rdot_partial _ u v eps tol htol).1 ?_ h
    show rdot u (v.map fun r : ℝ => (r : ℂ)) = rdot u ((v.map fun r : ℝ => (r : ℂ)).map fun z => (z.re : ℂ))
    rw [List.map_map]
    congr 1
  · simp [rdot, vdot]
  · simp [rdot, vdot]

example := c152_rdot_partial { times := smul 2, trans := smul 2, shape := (1, 1) } [1 + Complex.I] [3] 1e-15 1e-6 (by norm_num)
example := c152_real_only { times := fun x => x, trans := fun x => x, shape := (1, 1) } (fun x => x.map fun z => (z.re : ℂ)) (fun v => by simp) [Complex.I] [1]

end Verif.Lop
