import Verif.Opt.CgProps
import Mathlib.Analysis.InnerProductSpace.Spectrum
import Mathlib.Analysis.SpecialFunctions.Trigonometric.Chebyshev.RootsExtrema
import Mathlib.RingTheory.Polynomial.Chebyshev

set_option autoImplicit false
/-!
# Convergence rate of conjugate gradients (C123)

The iterate has the least energy-norm error over the Krylov space, and Chebyshev polynomials bound that error.
-/
noncomputable section
namespace Verif.Opt
open Verif.Loop Polynomial

/-! ## Chebyshev polynomials on an interval of positive numbers -/

/-- The rate `(√hi - √lo) / (√hi + √lo)`, that is `(√κ - 1) / (√κ + 1)` for the condition number `κ = hi / lo`. -/
def cgRate (lo hi : ℝ) : ℝ := (Real.sqrt hi - Real.sqrt lo) / (Real.sqrt hi + Real.sqrt lo)

theorem cgRate_nonneg {lo hi : ℝ} (h : lo ≤ hi) : 0 ≤ cgRate lo hi :=
  div_nonneg (sub_nonneg.mpr (Real.sqrt_le_sqrt h)) (add_nonneg (Real.sqrt_nonneg _) (Real.sqrt_nonneg _))

theorem cgRate_lt_one {lo hi : ℝ} (h0 : 0 < lo) (h : lo ≤ hi) : cgRate lo hi < 1 := by
  have h1 := Real.sqrt_pos.mpr h0
  have h2 := Real.sqrt_pos.mpr (h0.trans_le h)
  rw [cgRate, div_lt_one (by linarith)]
  linarith

/-- A polynomial of degree at most `k`, one at zero, at most `2 ρ^k` on `[lo, hi]`. -/
theorem exists_cheb (lo hi : ℝ) (h0 : 0 < lo) (h : lo ≤ hi) (k : ℕ) :
    ∃ q : ℝ[X], q.natDegree ≤ k ∧ q.eval 0 = 1 ∧ ∀ t, lo ≤ t → t ≤ hi → |q.eval t| ≤ 2 * cgRate lo hi ^ k := by
  rcases h.eq_or_lt with rfl | hlt
  · refine ⟨(1 - C (1 / lo) * X) ^ k, ?_, by simp, fun t h1 h2 => ?_⟩
    · refine natDegree_pow_le.trans ?_
      have : (1 - C (1 / lo) * X : ℝ[X]).natDegree ≤ 1 := by
        refine (natDegree_sub_le _ _).trans ?_
        simp only [natDegree_one]
        exact max_le (by omega) ((natDegree_C_mul_le _ _).trans natDegree_X_le)
      calc k * _ ≤ k * 1 := Nat.mul_le_mul_left _ this
        _ = k := mul_one k
    · have : t = lo := le_antisymm h2 h1
      subst this
      have e : (1 - C (1 / t) * X : ℝ[X]).eval t = 0 := by simp [h0.ne']
      rw [eval_pow, e, cgRate, sub_self, zero_div, abs_pow, abs_zero]
      have := pow_nonneg (le_refl (0 : ℝ)) k
      linarith
  · set a := Real.sqrt lo with ha
    set b := Real.sqrt hi with hb
    have ha0 : 0 < a := Real.sqrt_pos.mpr h0
    have hab : a < b := Real.sqrt_lt_sqrt h0.le hlt
    have ela : lo = a ^ 2 := (Real.sq_sqrt h0.le).symm
    have ehb : hi = b ^ 2 := (Real.sq_sqrt (h0.le.trans h)).symm
    set c := (hi + lo) / (hi - lo) with hc
    set θ := Real.log ((b + a) / (b - a)) with hθ
    have hσ : 0 < (b + a) / (b - a) := div_pos (by linarith) (by linarith)
    have hcosh : Real.cosh θ = c := by
      rw [Real.cosh_eq, Real.exp_neg, hθ, Real.exp_log hσ, hc, ela, ehb]
      have h1 : b - a ≠ 0 := by linarith
      have h2 : b + a ≠ 0 := by linarith
      have h3 : b ^ 2 - a ^ 2 ≠ 0 := by
        have : b ^ 2 - a ^ 2 = (b - a) * (b + a) := by ring
        rw [this]; exact mul_ne_zero h1 h2
      field_simp
      ring
    have hT : ((b + a) / (b - a)) ^ k / 2 ≤ (Chebyshev.T ℝ k).eval c := by
      rw [← hcosh, Chebyshev.T_real_cosh, Real.cosh_eq]
      have : Real.exp ((k : ℤ) * θ) = ((b + a) / (b - a)) ^ k := by
        rw [Int.cast_natCast, Real.exp_nat_mul, hθ, Real.exp_log hσ]
      rw [this]
      have := Real.exp_pos (-((k : ℤ) * θ))
      linarith
    have hT0 : 0 < (Chebyshev.T ℝ k).eval c := lt_of_lt_of_le (by positivity) hT
    set l : ℝ[X] := C c - C (2 / (hi - lo)) * X with hl
    have hld : l.natDegree ≤ 1 := by
      rw [hl]
      refine (natDegree_sub_le _ _).trans ?_
      simp only [natDegree_C]
      exact max_le (by omega) ((natDegree_C_mul_le _ _).trans natDegree_X_le)
    refine ⟨C (1 / (Chebyshev.T ℝ k).eval c) * (Chebyshev.T ℝ k).comp l, ?_, ?_, fun t h1 h2 => ?_⟩
    · refine (natDegree_C_mul_le _ _).trans (natDegree_comp_le.trans ?_)
      have hd : (Chebyshev.T ℝ (k : ℤ)).natDegree = k := by simp
      rw [hd]
      calc k * _ ≤ k * 1 := Nat.mul_le_mul_left _ hld
        _ = k := mul_one k
    · rw [eval_mul, eval_C, eval_comp]
      have : l.eval 0 = c := by simp [hl]
      rw [this]
      exact one_div_mul_cancel hT0.ne'
    · rw [eval_mul, eval_C, eval_comp, abs_mul]
      have hlt' : 0 < hi - lo := by linarith
      have he : |l.eval t| ≤ 1 := by
        have : l.eval t = (hi + lo - 2 * t) / (hi - lo) := by
          simp only [hl, hc, eval_sub, eval_mul, eval_C, eval_X]; ring
        rw [this, abs_le]
        constructor
        · rw [le_div_iff₀ hlt']; linarith
        · rw [div_le_iff₀ hlt']; linarith
      have h3 := Chebyshev.abs_eval_T_real_le_one k he
      rw [abs_of_pos (one_div_pos.mpr hT0)]
      have h4 : 1 / (Chebyshev.T ℝ k).eval c ≤ 2 * cgRate lo hi ^ k := by
        rw [cgRate, ← ha, ← hb, div_le_iff₀ hT0]
        have e : ((b - a) / (b + a)) ^ k * ((b + a) / (b - a)) ^ k = 1 := by
          rw [← mul_pow, div_mul_div_comm, mul_comm (b - a), div_self, one_pow]
          exact mul_ne_zero (by linarith) (by linarith)
        have hp : 0 ≤ ((b - a) / (b + a)) ^ k := pow_nonneg (div_nonneg (by linarith) (by linarith)) _
        have := mul_le_mul_of_nonneg_left hT hp
        linarith
      calc 1 / (Chebyshev.T ℝ k).eval c * |(Chebyshev.T ℝ k).eval (l.eval t)| ≤ 1 / (Chebyshev.T ℝ k).eval c * 1 :=
            mul_le_mul_of_nonneg_left h3 (one_div_pos.mpr hT0).le
        _ ≤ _ := by rw [mul_one]; exact h4

/-! ## A polynomial of an operator that is self-adjoint for some inner product -/

/-- If `B` is symmetric for the inner product and its Rayleigh quotients lie in `[lo, hi]`, a polynomial bounded by `c` on `[lo, hi]` gives an
operator of norm at most `c`. -/
theorem poly_bound_inner {V : Type*} [NormedAddCommGroup V] [InnerProductSpace ℝ V] [FiniteDimensional ℝ V] (B : V →ₗ[ℝ] V)
    (hB : B.IsSymmetric) (lo hi : ℝ) (hlo : ∀ x, lo * inner ℝ x x ≤ inner ℝ x (B x)) (hhi : ∀ x, inner ℝ x (B x) ≤ hi * inner ℝ x x)
    (q : ℝ[X]) (c : ℝ) (hq : ∀ t, lo ≤ t → t ≤ hi → |q.eval t| ≤ c) (x : V) :
    inner ℝ (aeval B q x) (aeval B q x) ≤ c ^ 2 * inner ℝ x x := by
  set u := hB.eigenvectorBasis rfl with hu
  set ev := hB.eigenvalues rfl with hev
  have hB1 : ∀ i, B (u i) = ev i • u i := fun i => hB.apply_eigenvectorBasis rfl i
  have hev1 : ∀ i, lo ≤ ev i ∧ ev i ≤ hi := by
    intro i
    have h1 := hlo (u i)
    have h2 := hhi (u i)
    have hn : inner ℝ (u i) (u i) = (1 : ℝ) := by rw [real_inner_self_eq_norm_sq, u.orthonormal.1 i]; norm_num
    rw [hB1, inner_smul_right, hn] at h1 h2
    constructor <;> linarith
  have hq1 : ∀ i, aeval B q (u i) = q.eval (ev i) • u i := by
    intro i
    have : Module.End.HasEigenvector B (ev i) (u i) := hB.hasEigenvector_eigenvectorBasis rfl i
    exact Module.End.aeval_apply_of_hasEigenvector this
  have hx : x = ∑ i, inner ℝ (u i) x • u i := (u.sum_repr' x).symm
  have hqx : aeval B q x = ∑ i, (q.eval (ev i) * inner ℝ (u i) x) • u i := by
    conv_lhs => rw [hx]
    rw [map_sum]
    refine Finset.sum_congr rfl fun i _ => ?_
    rw [map_smul, hq1, smul_smul, mul_comm]
  have hnorm : ∀ g : Fin (Module.finrank ℝ V) → ℝ, inner ℝ (∑ i, g i • u i) (∑ i, g i • u i) = ∑ i, g i ^ 2 := by
    intro g
    rw [u.orthonormal.inner_sum]
    refine Finset.sum_congr rfl fun i _ => ?_
    simp [sq]
  have hxx : inner ℝ x x = ∑ i, inner ℝ (u i) x ^ 2 := by
    conv_lhs => rw [hx]
    exact hnorm _
  rw [hqx, hnorm, hxx, Finset.mul_sum]
  refine Finset.sum_le_sum fun i _ => ?_
  rw [mul_pow]
  refine mul_le_mul_of_nonneg_right ?_ (sq_nonneg _)
  have := hq _ (hev1 i).1 (hev1 i).2
  exact sq_le_sq' (by linarith [neg_abs_le (q.eval (ev i))]) (le_trans (le_abs_self _) this)

/-- The same for any positive definite form in place of the inner product. -/
theorem poly_bound {V : Type*} [AddCommGroup V] [Module ℝ V] [FiniteDimensional ℝ V] (ip : V →ₗ[ℝ] V →ₗ[ℝ] ℝ) (hs : ∀ x y, ip x y = ip y x)
    (hpos : ∀ x, x ≠ 0 → 0 < ip x x) (B : V →ₗ[ℝ] V) (hB : ∀ x y, ip (B x) y = ip x (B y)) (lo hi : ℝ)
    (hlo : ∀ x, lo * ip x x ≤ ip x (B x)) (hhi : ∀ x, ip x (B x) ≤ hi * ip x x)
    (q : ℝ[X]) (c : ℝ) (hq : ∀ t, lo ≤ t → t ≤ hi → |q.eval t| ≤ c) (x : V) :
    ip (aeval B q x) (aeval B q x) ≤ c ^ 2 * ip x x := by
  let core : InnerProductSpace.Core ℝ V :=
    { inner := fun x y => ip x y
      conj_inner_symm := fun x y => by simp [hs y x]
      re_inner_nonneg := fun x => by
        by_cases hx : x = 0
        · simp [hx]
        · exact (hpos x hx).le
      add_left := fun x y z => by simp
      smul_left := fun x y r => by simp
      definite := fun x hx => by
        by_contra hne
        exact absurd hx (hpos x hne).ne' }
  letI : NormedAddCommGroup V := core.toNormedAddCommGroup
  letI : InnerProductSpace ℝ V := InnerProductSpace.ofCore core.toCore
  exact poly_bound_inner B (fun x y => hB x y) lo hi (fun x => hlo x) (fun x => hhi x) q c hq x

/-! ## The Krylov space -/

variable {E : Type*} [NormedAddCommGroup E] [InnerProductSpace ℝ E]

section krylov
variable {A M : E →ₗ[ℝ] E} {b x0 : E}

/-- The span of the first `k` directions. -/
def dirSpan (A M : E →ₗ[ℝ] E) (b x0 : E) (k : ℕ) : Submodule ℝ E := Submodule.span ℝ {p | ∃ i < k, p = (pcgSeq A M b x0 i).p}

theorem dirSpan_mem {i k : ℕ} (h : i < k) : (pcgSeq A M b x0 i).p ∈ dirSpan A M b x0 k := Submodule.subset_span ⟨i, h, rfl⟩

theorem dirSpan_mono {k l : ℕ} (h : k ≤ l) : dirSpan A M b x0 k ≤ dirSpan A M b x0 l :=
  Submodule.span_mono fun p ⟨i, hi, e⟩ => ⟨i, by omega, e⟩

theorem Mr_mem (i : ℕ) : M (pcgSeq A M b x0 i).r ∈ dirSpan A M b x0 (i + 1) := by
  cases i with
  | zero => rw [← pcg_p_zero]; exact dirSpan_mem (by omega)
  | succ i =>
    obtain ⟨c, hc⟩ := pcg_p_succ (A := A) (M := M) (b := b) (x0 := x0) i
    have : M (pcgSeq A M b x0 (i + 1)).r = (pcgSeq A M b x0 (i + 1)).p - c • (pcgSeq A M b x0 i).p := by rw [hc]; abel
    rw [this]
    exact sub_mem (dirSpan_mem (by omega)) (Submodule.smul_mem _ _ (dirSpan_mem (by omega)))

theorem MAp_mem (hA : SPD A) (hM : SPD M) {k i : ℕ} (hi : i < k) (hr : ∀ j < k, (pcgSeq A M b x0 j).r ≠ 0) :
    M (A (pcgSeq A M b x0 i).p) ∈ dirSpan A M b x0 (i + 2) := by
  have hf := cg_facts hA hM k hr
  have hp := hA.pos _ (hf.p_ne hM hi.le (hr i hi))
  have hγ : 0 < (pcgSeq A M b x0 i).gamma := by rw [pcg_gamma]; exact hM.pos _ (hr i hi)
  set α := (pcgSeq A M b x0 i).gamma / inner ℝ (pcgSeq A M b x0 i).p (A (pcgSeq A M b x0 i).p) with hα
  have hα0 : α ≠ 0 := (div_pos hγ hp).ne'
  have e_r : (pcgSeq A M b x0 (i + 1)).r = (pcgSeq A M b x0 i).r - α • A (pcgSeq A M b x0 i).p := by rw [pcgSeq_succ]; rfl
  have e : M (A (pcgSeq A M b x0 i).p) = α⁻¹ • (M (pcgSeq A M b x0 i).r - M (pcgSeq A M b x0 (i + 1)).r) := by
    rw [e_r, map_sub, map_smul, sub_sub_cancel, smul_smul, inv_mul_cancel₀ hα0, one_smul]
  rw [e]
  exact Submodule.smul_mem _ _ (sub_mem (dirSpan_mono (by omega) (Mr_mem i)) (Mr_mem (i + 1)))

theorem MA_dirSpan (hA : SPD A) (hM : SPD M) {k l : ℕ} (hl : l ≤ k) (hr : ∀ j < k, (pcgSeq A M b x0 j).r ≠ 0) {v : E}
    (hv : v ∈ dirSpan A M b x0 l) : (M ∘ₗ A) v ∈ dirSpan A M b x0 (l + 1) := by
  unfold dirSpan at hv
  induction hv using Submodule.span_induction with
  | mem p hp => obtain ⟨i, hi, rfl⟩ := hp; exact dirSpan_mono (by omega) (MAp_mem hA hM (by omega) hr)
  | zero => rw [map_zero]; exact zero_mem _
  | add x y _ _ h1 h2 => rw [map_add]; exact add_mem h1 h2
  | smul c x _ h1 => rw [map_smul]; exact Submodule.smul_mem _ _ h1

theorem pow_mem_dirSpan (hA : SPD A) (hM : SPD M) {k : ℕ} (hr : ∀ j < k, (pcgSeq A M b x0 j).r ≠ 0) (i : ℕ) (hi : i < k) :
    ((M ∘ₗ A) ^ i) (pcgSeq A M b x0 0).p ∈ dirSpan A M b x0 (i + 1) := by
  induction i with
  | zero => exact dirSpan_mem (by omega)
  | succ i ih =>
    rw [pow_succ', Module.End.mul_apply]
    exact MA_dirSpan hA hM (by omega) hr (ih (by omega))

theorem poly_mem_dirSpan (hA : SPD A) (hM : SPD M) {k : ℕ} (hr : ∀ j < k, (pcgSeq A M b x0 j).r ≠ 0) (g : ℝ[X]) (hg : g.natDegree < k) :
    aeval (M ∘ₗ A) g (pcgSeq A M b x0 0).p ∈ dirSpan A M b x0 k := by
  rw [aeval_eq_sum_range, LinearMap.sum_apply]
  refine sum_mem fun i hi => ?_
  rw [LinearMap.smul_apply]
  have : i < k := by have := Finset.mem_range.mp hi; omega
  exact Submodule.smul_mem _ _ (dirSpan_mono (by omega) (pow_mem_dirSpan hA hM hr i this))

theorem x_mem_dirSpan (k : ℕ) : (pcgSeq A M b x0 k).x - x0 ∈ dirSpan A M b x0 k := by
  induction k with
  | zero => simp [pcgSeq, pcgInit]
  | succ k ih =>
    have : (pcgSeq A M b x0 (k + 1)).x - x0 = ((pcgSeq A M b x0 k).x - x0) +
        ((pcgSeq A M b x0 k).gamma / inner ℝ (pcgSeq A M b x0 k).p (A (pcgSeq A M b x0 k).p)) • (pcgSeq A M b x0 k).p := by
      rw [pcgSeq_succ]; simp only [pcgStep]; abel
    rw [this]
    exact add_mem (dirSpan_mono (by omega) ih) (Submodule.smul_mem _ _ (dirSpan_mem (by omega)))

theorem dirSpan_optimal (hA : SPD A) (hM : SPD M) {k : ℕ} (hr : ∀ j < k, (pcgSeq A M b x0 j).r ≠ 0) (xs : E) (hxs : A xs = b) {d : E}
    (hd : d ∈ dirSpan A M b x0 k) :
    inner ℝ ((pcgSeq A M b x0 k).x - xs) (A ((pcgSeq A M b x0 k).x - xs)) ≤
      inner ℝ ((pcgSeq A M b x0 k).x + d - xs) (A ((pcgSeq A M b x0 k).x + d - xs)) := by
  have hf := cg_facts hA hM k hr
  have h0 : inner ℝ (pcgSeq A M b x0 k).r d = 0 := by
    unfold dirSpan at hd
    induction hd using Submodule.span_induction with
    | mem p hp => obtain ⟨i, hi, rfl⟩ := hp; exact hf.rp i k hi le_rfl
    | zero => exact inner_zero_right _
    | add x y _ _ h1 h2 => rw [inner_add_right, h1, h2, add_zero]
    | smul c x _ h1 => rw [inner_smul_right, h1, mul_zero]
  rw [pcg_res] at h0
  set t := (pcgSeq A M b x0 k).x
  rw [← hxs, ← map_sub] at h0
  have e : t + d - xs = (t - xs) + d := by abel
  have h1 : inner ℝ (A (t - xs)) d = 0 := by rw [← neg_sub xs t, map_neg, inner_neg_left, h0, neg_zero]
  have h2 : inner ℝ d (A (t - xs)) = 0 := by rw [real_inner_comm, h1]
  have h3 : inner ℝ (t - xs) (A d) = 0 := by rw [← hA.symm, h1]
  rw [e, map_add, inner_add_left, inner_add_right, inner_add_right, h2, h3]
  have := hA.nonneg d
  linarith

/-- The energy-norm error after `k` steps is at most that of `q(M A)` applied to the initial error, for any `q` of degree at most `k` with
`q(0) = 1`. -/
theorem krylov_optimal (hA : SPD A) (hM : SPD M) {k : ℕ} (hr : ∀ j < k, (pcgSeq A M b x0 j).r ≠ 0) (xs : E) (hxs : A xs = b) (q : ℝ[X])
    (hd : q.natDegree ≤ k) (h0 : q.eval 0 = 1) :
    inner ℝ ((pcgSeq A M b x0 k).x - xs) (A ((pcgSeq A M b x0 k).x - xs)) ≤
      inner ℝ (aeval (M ∘ₗ A) q (x0 - xs)) (A (aeval (M ∘ₗ A) q (x0 - xs))) := by
  have hq : q = q.divX * X + C 1 := by
    conv_lhs => rw [← divX_mul_X_add q]
    rw [coeff_zero_eq_eval_zero, h0]
  have hp0 : (M ∘ₗ A) (x0 - xs) = -(pcgSeq A M b x0 0).p := by
    have : (pcgSeq A M b x0 0).p = M (b - A x0) := rfl
    rw [this, ← hxs, ← map_sub, ← map_neg, ← map_neg, neg_sub]; rfl
  have e : aeval (M ∘ₗ A) q (x0 - xs) = (x0 - xs) - aeval (M ∘ₗ A) q.divX (pcgSeq A M b x0 0).p := by
    conv_lhs => rw [hq]
    rw [map_add, map_mul, aeval_X, aeval_C, LinearMap.add_apply, Module.End.mul_apply, hp0, map_neg]
    simp only [map_one, Module.End.one_apply]
    abel
  have hmem : -((pcgSeq A M b x0 k).x - x0) - aeval (M ∘ₗ A) q.divX (pcgSeq A M b x0 0).p ∈ dirSpan A M b x0 k := by
    rcases Nat.eq_zero_or_pos k with rfl | hk
    · have : q.divX = 0 := by
        have := natDegree_divX_eq_natDegree_tsub_one (p := q)
        rw [eq_C_of_natDegree_eq_zero (Nat.le_zero.mp hd), divX_C]
      rw [this, map_zero]
      simp [pcgSeq, pcgInit]
    · refine sub_mem (neg_mem (x_mem_dirSpan k)) (poly_mem_dirSpan hA hM hr _ ?_)
      rw [natDegree_divX_eq_natDegree_tsub_one]; omega
  have := dirSpan_optimal hA hM hr xs hxs hmem
  have e2 : (pcgSeq A M b x0 k).x + (-((pcgSeq A M b x0 k).x - x0) - aeval (M ∘ₗ A) q.divX (pcgSeq A M b x0 0).p) - xs =
      aeval (M ∘ₗ A) q (x0 - xs) := by rw [e]; abel
  rwa [e2] at this

/-- The rate for the sequence. -/
theorem pcg_rate [FiniteDimensional ℝ E] (hA : SPD A) (hM : SPD M) {k : ℕ} (hr : ∀ j < k, (pcgSeq A M b x0 j).r ≠ 0) (xs : E) (hxs : A xs = b)
    (lo hi : ℝ) (h0 : 0 < lo) (h1 : lo ≤ hi) (hlo : ∀ x, lo * inner ℝ x (A x) ≤ inner ℝ (A x) (M (A x)))
    (hhi : ∀ x, inner ℝ (A x) (M (A x)) ≤ hi * inner ℝ x (A x)) :
    inner ℝ ((pcgSeq A M b x0 k).x - xs) (A ((pcgSeq A M b x0 k).x - xs)) ≤ (2 * cgRate lo hi ^ k) ^ 2 * inner ℝ (x0 - xs) (A (x0 - xs)) := by
  obtain ⟨q, hd, hq0, hq⟩ := exists_cheb lo hi h0 h1 k
  refine (krylov_optimal hA hM hr xs hxs q hd hq0).trans ?_
  let ip : E →ₗ[ℝ] E →ₗ[ℝ] ℝ := (innerₗ E).compl₂ A
  have hip : ∀ x y, ip x y = inner ℝ x (A y) := fun x y => by simp [ip]
  have := poly_bound ip (fun x y => by rw [hip, hip, ← hA.symm, real_inner_comm]) (fun x hx => by rw [hip]; exact hA.pos x hx) (M ∘ₗ A)
    (fun x y => by simp only [hip, LinearMap.comp_apply]; rw [hM.symm, hA.symm]) lo hi
    (fun x => by simp only [hip, LinearMap.comp_apply]; rw [← hA.symm x (M (A x))]; exact hlo x)
    (fun x => by simp only [hip, LinearMap.comp_apply]; rw [← hA.symm x (M (A x))]; exact hhi x) q _ hq (x0 - xs)
  simpa only [hip] using this

end krylov

/-! ## The theorems -/

/-- **C123** preconditioned conjugate gradients: if the preconditioned operator `M A` has its energy quotients
`⟨A x, M A x⟩ / ⟨x, A x⟩` in `[lo, hi]`, the energy-norm error after `k` iterations is at most `2 ((√hi - √lo) / (√hi + √lo))^k` times the
initial one. -/
theorem c123_pcg_rate [FiniteDimensional ℝ E] (A M : E →ₗ[ℝ] E) (hA : SPD A) (hM : SPD M) (isId : Bool)
    (hid : isId = true → M = LinearMap.id) (b x0 : E) (N : ℕ) (tol atol : ℝ) (s : PCGState E)
    (h : Reach (pcgCond b N tol atol isId) (pcgStep A M) (pcgInit A M b x0) s) (lo hi : ℝ) (h0 : 0 < lo) (h1 : lo ≤ hi)
    (hlo : ∀ x, lo * inner ℝ x (A x) ≤ inner ℝ (A x) (M (A x))) (hhi : ∀ x, inner ℝ (A x) (M (A x)) ≤ hi * inner ℝ x (A x))
    (xs : E) (hxs : A xs = b) :
    Real.sqrt (inner ℝ (s.x - xs) (A (s.x - xs))) ≤
      2 * ((Real.sqrt hi - Real.sqrt lo) / (Real.sqrt hi + Real.sqrt lo)) ^ (s.iters - 1) * Real.sqrt (inner ℝ (x0 - xs) (A (x0 - xs))) := by
  obtain ⟨k, rfl, hr, _⟩ := pcg_reach hid h
  rw [pcg_iters, Nat.add_sub_cancel]
  have := Real.sqrt_le_sqrt (pcg_rate (b := b) (x0 := x0) hA hM hr xs hxs lo hi h0 h1 hlo hhi)
  rw [Real.sqrt_mul (sq_nonneg _), Real.sqrt_sq (mul_nonneg zero_le_two (pow_nonneg (cgRate_nonneg h1) _))] at this
  exact this

theorem rayleigh_lo {A : E →ₗ[ℝ] E} (lo : ℝ) (h0 : 0 < lo) (hlo : ∀ x, lo * ‖x‖ ^ 2 ≤ inner ℝ x (A x)) (x : E) :
    lo * inner ℝ x (A x) ≤ inner ℝ (A x) (A x) := by
  have h1 := hlo x
  have h2 := real_inner_le_norm x (A x)
  rw [real_inner_self_eq_norm_sq]
  have h3 : lo * ‖x‖ ≤ ‖A x‖ := by
    rcases (norm_nonneg x).eq_or_lt with h | h
    · rw [← h, mul_zero]; exact norm_nonneg _
    · by_contra hc
      push Not at hc
      nlinarith
  calc lo * inner ℝ x (A x) ≤ lo * (‖x‖ * ‖A x‖) := mul_le_mul_of_nonneg_left h2 h0.le
    _ = (lo * ‖x‖) * ‖A x‖ := by ring
    _ ≤ ‖A x‖ * ‖A x‖ := mul_le_mul_of_nonneg_right h3 (norm_nonneg _)
    _ = ‖A x‖ ^ 2 := by ring

theorem rayleigh_hi {A : E →ₗ[ℝ] E} (hA : SPD A) (hi : ℝ) (h0 : 0 < hi) (hhi : ∀ x, inner ℝ x (A x) ≤ hi * ‖x‖ ^ 2) (x : E) :
    inner ℝ (A x) (A x) ≤ hi * inner ℝ x (A x) := by
  have h1 := hA.nonneg (hi • x - A x)
  have h2 := hhi (A x)
  rw [map_sub, map_smul, inner_sub_left, inner_sub_right, inner_sub_right, inner_smul_left, inner_smul_left, inner_smul_right, inner_smul_right,
    ← hA.symm x (A x)] at h1
  simp only [conj_trivial] at h1
  rw [← real_inner_self_eq_norm_sq] at h2
  by_contra hc
  push Not at hc
  nlinarith

/-- **C123** conjugate gradients: if the eigenvalues of the symmetric positive definite `A` lie in `[lo, hi]`, the energy-norm error after `k`
iterations is at most `2 ((√κ - 1) / (√κ + 1))^k` times the initial one, with `κ = hi / lo`. -/
theorem c123_cg_rate [FiniteDimensional ℝ E] (A : E →ₗ[ℝ] E) (hA : SPD A) (b x0 : E) (N : ℕ) (rtol : ℝ) (s : CGState E)
    (h : Reach (cgCond b N rtol) (cgStep A) (cgInit A b x0) s) (lo hi : ℝ) (h0 : 0 < lo) (h1 : lo ≤ hi)
    (hlo : ∀ x, lo * ‖x‖ ^ 2 ≤ inner ℝ x (A x)) (hhi : ∀ x, inner ℝ x (A x) ≤ hi * ‖x‖ ^ 2) (xs : E) (hxs : A xs = b) :
    Real.sqrt (inner ℝ (s.x - xs) (A (s.x - xs))) ≤
      2 * ((Real.sqrt (hi / lo) - 1) / (Real.sqrt (hi / lo) + 1)) ^ s.iters * Real.sqrt (inner ℝ (x0 - xs) (A (x0 - xs))) := by
  obtain ⟨k, _, hit, hseq, hr, _⟩ := cg_reach h
  have ex : s.x = (pcgSeq A LinearMap.id b x0 k).x := congrArg PCGState.x hseq
  have := Real.sqrt_le_sqrt (pcg_rate (b := b) (x0 := x0) hA spd_id hr xs hxs lo hi h0 h1 (fun x => rayleigh_lo lo h0 hlo x)
    (fun x => rayleigh_hi hA hi (h0.trans_le h1) hhi x))
  rw [Real.sqrt_mul (sq_nonneg _), Real.sqrt_sq (mul_nonneg zero_le_two (pow_nonneg (cgRate_nonneg h1) _))] at this
  have e : (Real.sqrt (hi / lo) - 1) / (Real.sqrt (hi / lo) + 1) = cgRate lo hi := by
    have hl := Real.sqrt_pos.mpr h0
    have hh := Real.sqrt_pos.mpr (h0.trans_le h1)
    rw [Real.sqrt_div (h0.le.trans h1), cgRate]
    field_simp
  rw [hit, ex, e]
  exact this

/-- **C123** the residual of `cg.solve` (start at zero) after `k` iterations is at most `2 √κ ((√κ - 1) / (√κ + 1))^k |b|`. -/
theorem c123_cg_residual [FiniteDimensional ℝ E] (A : E →ₗ[ℝ] E) (hA : SPD A) (b : E) (N : ℕ) (rtol : ℝ) (s : CGState E)
    (h : Reach (cgCond b N rtol) (cgStep A) (cgInit A b 0) s) (lo hi : ℝ) (h0 : 0 < lo) (h1 : lo ≤ hi)
    (hlo : ∀ x, lo * ‖x‖ ^ 2 ≤ inner ℝ x (A x)) (hhi : ∀ x, inner ℝ x (A x) ≤ hi * ‖x‖ ^ 2) :
    ‖b - A s.x‖ ≤ 2 * Real.sqrt (hi / lo) * ((Real.sqrt (hi / lo) - 1) / (Real.sqrt (hi / lo) + 1)) ^ s.iters * ‖b‖ := by
  have hinj : Function.Injective A := by
    intro x y hxy
    by_contra hne
    have := hA.pos (x - y) (sub_ne_zero.mpr hne)
    rw [map_sub, hxy, sub_self, inner_zero_right] at this
    exact lt_irrefl _ this
  obtain ⟨xs, hxs⟩ := (LinearMap.injective_iff_surjective.mp hinj) b
  have hrate := c123_cg_rate A hA b 0 N rtol s h lo hi h0 h1 hlo hhi xs hxs
  have hh0 : 0 < hi := h0.trans_le h1
  -- the residual is bounded by the energy-norm error
  have e1 : ‖b - A s.x‖ ≤ Real.sqrt hi * Real.sqrt (inner ℝ (s.x - xs) (A (s.x - xs))) := by
    rw [← Real.sqrt_mul hh0.le]
    refine Real.le_sqrt_of_sq_le ?_
    have := rayleigh_hi hA hi hh0 hhi (s.x - xs)
    rw [real_inner_self_eq_norm_sq] at this
    rwa [← hxs, ← map_sub, ← neg_sub s.x xs, map_neg, norm_neg]
  have e2 : Real.sqrt (inner ℝ (0 - xs) (A (0 - xs))) ≤ ‖b‖ / Real.sqrt lo := by
    rw [le_div_iff₀ (Real.sqrt_pos.mpr h0), ← Real.sqrt_mul (hA.nonneg _)]
    refine Real.sqrt_le_iff.mpr ⟨norm_nonneg _, ?_⟩
    have := rayleigh_lo lo h0 hlo (0 - xs)
    rw [real_inner_self_eq_norm_sq, zero_sub, map_neg, norm_neg, hxs] at this
    rw [zero_sub, map_neg, mul_comm, hxs]
    exact this
  set ρ := (Real.sqrt (hi / lo) - 1) / (Real.sqrt (hi / lo) + 1) with hρ
  have hρ0 : 0 ≤ ρ := by
    refine div_nonneg (sub_nonneg.mpr (Real.one_le_sqrt.mpr ?_)) (by positivity)
    rw [le_div_iff₀ h0, one_mul]; exact h1
  have e3 : Real.sqrt (hi / lo) = Real.sqrt hi / Real.sqrt lo := Real.sqrt_div hh0.le _
  calc ‖b - A s.x‖ ≤ Real.sqrt hi * Real.sqrt (inner ℝ (s.x - xs) (A (s.x - xs))) := e1
    _ ≤ Real.sqrt hi * (2 * ρ ^ s.iters * (‖b‖ / Real.sqrt lo)) := by
        refine mul_le_mul_of_nonneg_left (hrate.trans ?_) (Real.sqrt_nonneg _)
        exact mul_le_mul_of_nonneg_left e2 (by positivity)
    _ = 2 * (Real.sqrt hi / Real.sqrt lo) * ρ ^ s.iters * ‖b‖ := by ring
    _ = _ := by rw [← e3]

/-- **C123** how many iterations `cg.solve` needs, whatever the dimension: if `2 √κ ((√κ - 1) / (√κ + 1))^max_iters ≤ rtol` the result meets the
tolerance, and such a limit exists for every positive tolerance. -/
theorem c123_cg_iterations [FiniteDimensional ℝ E] (A : E →ₗ[ℝ] E) (hA : SPD A) (lo hi : ℝ) (h0 : 0 < lo) (h1 : lo ≤ hi)
    (hlo : ∀ x, lo * ‖x‖ ^ 2 ≤ inner ℝ x (A x)) (hhi : ∀ x, inner ℝ x (A x) ≤ hi * ‖x‖ ^ 2) (rtol : ℝ) (hrt : 0 < rtol) :
    (∀ N, 2 * Real.sqrt (hi / lo) * ((Real.sqrt (hi / lo) - 1) / (Real.sqrt (hi / lo) + 1)) ^ N ≤ rtol →
      ∀ (b : E) (s : CGState E), CgSolve A b N rtol s → ‖b - A s.x‖ ≤ rtol * ‖b‖) ∧
    ∃ N, 2 * Real.sqrt (hi / lo) * ((Real.sqrt (hi / lo) - 1) / (Real.sqrt (hi / lo) + 1)) ^ N ≤ rtol := by
  set κ := Real.sqrt (hi / lo) with hκ
  have hκ1 : 1 ≤ κ := Real.one_le_sqrt.mpr (by rw [le_div_iff₀ h0, one_mul]; exact h1)
  have hρ0 : 0 ≤ (κ - 1) / (κ + 1) := div_nonneg (by linarith) (by linarith)
  have hρ1 : (κ - 1) / (κ + 1) < 1 := by rw [div_lt_one (by linarith)]; linarith
  refine ⟨fun N hN b s hs => ?_, ?_⟩
  · rcases ((c37_cg_stop A hA b 0 N rtol hrt.le).2 s hs).1 with h | h
    · exact h
    · have := c123_cg_residual A hA b N rtol s hs.1 lo hi h0 h1 hlo hhi
      rw [← hκ, h] at this
      exact this.trans (mul_le_mul_of_nonneg_right hN (norm_nonneg _))
  · obtain ⟨N, hN⟩ := exists_pow_lt_of_lt_one (show 0 < rtol / (2 * κ) by positivity) hρ1
    refine ⟨N, ?_⟩
    have := (lt_div_iff₀ (by positivity : 0 < 2 * κ)).mp hN
    linarith

/-- **C123** how many iterations `pcg.solve` needs: with the energy quotients of the preconditioned operator in `[lo, hi]` and the eigenvalues of
`A` in `[l, u]`, a limit with `2 √(u / l) ((√hi - √lo) / (√hi + √lo))^(max_iters - 1) ≤ tol` is enough for the result to meet the tolerance. -/
theorem c123_pcg_iterations [FiniteDimensional ℝ E] (A M : E →ₗ[ℝ] E) (hA : SPD A) (hM : SPD M) (isId : Bool)
    (hid : isId = true → M = LinearMap.id) (lo hi : ℝ) (h0 : 0 < lo) (h1 : lo ≤ hi)
    (hlo : ∀ x, lo * inner ℝ x (A x) ≤ inner ℝ (A x) (M (A x))) (hhi : ∀ x, inner ℝ (A x) (M (A x)) ≤ hi * inner ℝ x (A x))
    (l u : ℝ) (hl0 : 0 < l) (hu0 : 0 < u) (hl : ∀ x, l * ‖x‖ ^ 2 ≤ inner ℝ x (A x)) (hu : ∀ x, inner ℝ x (A x) ≤ u * ‖x‖ ^ 2)
    (tol atol : ℝ) (htol : 0 ≤ tol) (N : ℕ) (hN : 1 ≤ N)
    (hrate : 2 * Real.sqrt (u / l) * ((Real.sqrt hi - Real.sqrt lo) / (Real.sqrt hi + Real.sqrt lo)) ^ (N - 1) ≤ tol) (b : E) (s : PCGState E)
    (hs : PcgSolve A M isId b N tol atol s) : ‖b - A s.x‖ ≤ max (tol * ‖b‖) |atol| := by
  have hmax : max (tol ^ 2 * ‖b‖ ^ 2) (atol ^ 2) = (max (tol * ‖b‖) |atol|) ^ 2 := by
    rw [← mul_pow, ← sq_abs atol]
    have ha : 0 ≤ tol * ‖b‖ := by positivity
    rcases le_total (tol * ‖b‖) |atol| with h | h
    · rw [max_eq_right h, max_eq_right (pow_le_pow_left₀ ha h 2)]
    · rw [max_eq_left h, max_eq_left (pow_le_pow_left₀ (abs_nonneg _) h 2)]
  rcases ((c38_pcg_stop A M hA hM isId hid b 0 N tol atol).2 s hs).1 with h | h
  · rw [hmax] at h
    exact le_of_sq_le_sq h (le_max_of_le_right (abs_nonneg _))
  · have hit : s.iters = N := le_antisymm ((c38_pcg_invariants A M hA hM isId hid b 0 N tol atol s hs.1).2.2.1 hN).2 h
    have hinj : Function.Injective A := by
      intro x y hxy
      by_contra hne
      have := hA.pos (x - y) (sub_ne_zero.mpr hne)
      rw [map_sub, hxy, sub_self, inner_zero_right] at this
      exact lt_irrefl _ this
    obtain ⟨xs, hxs⟩ := (LinearMap.injective_iff_surjective.mp hinj) b
    have hr := c123_pcg_rate A M hA hM isId hid b 0 N tol atol s hs.1 lo hi h0 h1 hlo hhi xs hxs
    rw [hit] at hr
    have e1 : ‖b - A s.x‖ ≤ Real.sqrt u * Real.sqrt (inner ℝ (s.x - xs) (A (s.x - xs))) := by
      rw [← Real.sqrt_mul hu0.le]
      refine Real.le_sqrt_of_sq_le ?_
      have := rayleigh_hi hA u hu0 hu (s.x - xs)
      rw [real_inner_self_eq_norm_sq] at this
      rwa [← hxs, ← map_sub, ← neg_sub s.x xs, map_neg, norm_neg]
    have e2 : Real.sqrt (inner ℝ (0 - xs) (A (0 - xs))) ≤ ‖b‖ / Real.sqrt l := by
      rw [le_div_iff₀ (Real.sqrt_pos.mpr hl0), ← Real.sqrt_mul (hA.nonneg _)]
      refine Real.sqrt_le_iff.mpr ⟨norm_nonneg _, ?_⟩
      have := rayleigh_lo l hl0 hl (0 - xs)
      rw [real_inner_self_eq_norm_sq, zero_sub, map_neg, norm_neg, hxs] at this
      rw [zero_sub, map_neg, mul_comm, hxs]
      exact this
    set ρ := (Real.sqrt hi - Real.sqrt lo) / (Real.sqrt hi + Real.sqrt lo) with hρ
    have hρ0 : 0 ≤ ρ := cgRate_nonneg h1
    refine le_max_of_le_left ?_
    calc ‖b - A s.x‖ ≤ Real.sqrt u * Real.sqrt (inner ℝ (s.x - xs) (A (s.x - xs))) := e1
      _ ≤ Real.sqrt u * (2 * ρ ^ (N - 1) * (‖b‖ / Real.sqrt l)) := by
          refine mul_le_mul_of_nonneg_left (hr.trans ?_) (Real.sqrt_nonneg _)
          exact mul_le_mul_of_nonneg_left e2 (by positivity)
      _ = 2 * Real.sqrt (u / l) * ρ ^ (N - 1) * ‖b‖ := by rw [Real.sqrt_div hu0.le]; ring
      _ ≤ tol * ‖b‖ := mul_le_mul_of_nonneg_right hrate (norm_nonneg _)

/-- The hypotheses of the preconditioned theorems are met: `A = 2 I`, `M = 3 I` on `ℝ³`, quotients `6`. -/
theorem ex_pre_bounds : let A := (2 : ℝ) • (LinearMap.id : EuclideanSpace ℝ (Fin 3) →ₗ[ℝ] EuclideanSpace ℝ (Fin 3))
    let M := (3 : ℝ) • (LinearMap.id : EuclideanSpace ℝ (Fin 3) →ₗ[ℝ] EuclideanSpace ℝ (Fin 3))
    (∀ x, (6 : ℝ) * inner ℝ x (A x) ≤ inner ℝ (A x) (M (A x))) ∧ ∀ x, inner ℝ (A x) (M (A x)) ≤ 6 * inner ℝ x (A x) := by
  constructor <;> intro x <;>
  · simp only [LinearMap.smul_apply, LinearMap.id_apply, inner_smul_left, inner_smul_right, conj_trivial]
    linarith

/-- The hypotheses are met by the non-diagonal matrix `[[2,1],[1,2]]`, whose eigenvalues are `1` and `3`. -/
theorem ex_bounds : (∀ x, (1 : ℝ) * ‖x‖ ^ 2 ≤ inner ℝ x (exA x)) ∧ ∀ x, inner ℝ x (exA x) ≤ 3 * ‖x‖ ^ 2 := by
  unfold exA
  refine ⟨fun x => ?_, fun x => ?_⟩ <;>
  · rw [EuclideanSpace.norm_sq_eq]
    simp [Matrix.toEuclideanLin, Matrix.toLpLin_apply, PiLp.inner_apply, Matrix.mulVec, dotProduct, Fin.sum_univ_two]
    nlinarith [sq_nonneg (x 0 + x 1), sq_nonneg (x 0 - x 1)]

/-! Instances: `[[2, 1], [1, 2]]` has its spectrum in `[1, 3]`. -/

theorem ex_spd3 : SPD ((3 : ℝ) • LinearMap.id : EuclideanSpace ℝ (Fin 3) →ₗ[ℝ] EuclideanSpace ℝ (Fin 3)) :=
  ⟨fun x y => by simp [inner_smul_left, inner_smul_right], fun x hx => by
    simp only [LinearMap.smul_apply, LinearMap.id_apply, inner_smul_right]
    exact mul_pos three_pos (real_inner_self_pos.mpr hx)⟩

example (xs : EuclideanSpace ℝ (Fin 3)) (s : PCGState (EuclideanSpace ℝ (Fin 3)))
    (h : Reach (pcgCond ((2 : ℝ) • xs) 30 (1e-5) 0 false) (pcgStep ((2 : ℝ) • (LinearMap.id : EuclideanSpace ℝ (Fin 3) →ₗ[ℝ] EuclideanSpace ℝ (Fin 3))) ((3 : ℝ) • (LinearMap.id : EuclideanSpace ℝ (Fin 3) →ₗ[ℝ] EuclideanSpace ℝ (Fin 3))))
      (pcgInit ((2 : ℝ) • (LinearMap.id : EuclideanSpace ℝ (Fin 3) →ₗ[ℝ] EuclideanSpace ℝ (Fin 3))) ((3 : ℝ) • (LinearMap.id : EuclideanSpace ℝ (Fin 3) →ₗ[ℝ] EuclideanSpace ℝ (Fin 3))) ((2 : ℝ) • xs) 0) s) :=
  c123_pcg_rate _ _ ex_spd2 ex_spd3 false (by simp) _ 0 30 (1e-5) 0 s h 6 6 (by norm_num) le_rfl ex_pre_bounds.1 ex_pre_bounds.2 xs rfl

example (xs x0 : EuclideanSpace ℝ (Fin 2)) (s : CGState (EuclideanSpace ℝ (Fin 2)))
    (h : Reach (cgCond (exA xs) 5 0) (cgStep exA) (cgInit exA (exA xs) x0) s) :=
  c123_cg_rate exA ex_spd_mat (exA xs) x0 5 0 s h 1 3 one_pos (by norm_num) ex_bounds.1 ex_bounds.2 xs rfl

example (b : EuclideanSpace ℝ (Fin 2)) (s : CGState (EuclideanSpace ℝ (Fin 2)))
    (h : Reach (cgCond b 5 0) (cgStep exA) (cgInit exA b 0) s) :=
  c123_cg_residual exA ex_spd_mat b 5 0 s h 1 3 one_pos (by norm_num) ex_bounds.1 ex_bounds.2

example := c123_cg_iterations exA ex_spd_mat 1 3 one_pos (by norm_num) ex_bounds.1 ex_bounds.2 (1e-5) (by norm_num)

/-- A perfect preconditioner: two iterations meet every tolerance. -/
example (b : EuclideanSpace ℝ (Fin 3)) (s : PCGState (EuclideanSpace ℝ (Fin 3)))
    (hs : PcgSolve ((2 : ℝ) • (LinearMap.id : EuclideanSpace ℝ (Fin 3) →ₗ[ℝ] EuclideanSpace ℝ (Fin 3))) ((3 : ℝ) • (LinearMap.id : EuclideanSpace ℝ (Fin 3) →ₗ[ℝ] EuclideanSpace ℝ (Fin 3))) false b 2 (1e-5) 0 s) :=
  c123_pcg_iterations _ _ ex_spd2 ex_spd3 false (by simp) 6 6 (by norm_num) le_rfl ex_pre_bounds.1 ex_pre_bounds.2 2 2 two_pos two_pos
    (fun x => by simp [inner_smul_right]) (fun x => by simp [inner_smul_right]) (1e-5) 0 (by norm_num) 2 (by norm_num)
    (by norm_num) b s hs

end Verif.Opt
