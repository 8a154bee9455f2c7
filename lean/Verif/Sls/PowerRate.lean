import Verif.Sls.PowerProps

set_option autoImplicit false
/-!
# Convergence of the norm and eigenvalue estimators (C124)

The estimates after `k` iterations are ratios of consecutive moments `⟨b, B^i b⟩`, which are log-convex. This gives a bound without any
assumption on a spectral gap.
-/
noncomputable section
namespace Verif.Sls
open Verif.Loop

/-- For a positive log-convex sequence the last ratio is the largest. -/
theorem logconvex_bound (m : ℕ → ℝ) (hpos : ∀ i, 0 < m i) (hlc : ∀ i, m (i + 1) ^ 2 ≤ m i * m (i + 2)) (n : ℕ) :
    m (n + 1) ≤ m 0 * (m (n + 1) / m n) ^ (n + 1) := by
  have hmono : ∀ i, m (i + 1) / m i ≤ m (i + 2) / m (i + 1) := by
    intro i
    rw [div_le_div_iff₀ (hpos _) (hpos _)]
    have := hlc i
    nlinarith
  have hr : ∀ i j, i ≤ j → m (i + 1) / m i ≤ m (j + 1) / m j := by
    intro i j hij
    induction hij with
    | refl => exact le_rfl
    | step _ ih => exact ih.trans (hmono _)
  set r := m (n + 1) / m n with hrdef
  have hr0 : 0 < r := div_pos (hpos _) (hpos _)
  have key : ∀ i, i ≤ n + 1 → m i ≤ m 0 * r ^ i := by
    intro i hi
    induction i with
    | zero => simp
    | succ i ih =>
      have h1 := ih (by omega)
      have h2 := hr i n (by omega)
      rw [div_le_iff₀ (hpos _)] at h2
      calc m (i + 1) ≤ r * m i := h2
        _ ≤ r * (m 0 * r ^ i) := mul_le_mul_of_nonneg_left h1 hr0.le
        _ = m 0 * r ^ (i + 1) := by ring
  exact key (n + 1) le_rfl

section moments
variable {𝕜 E : Type*} [RCLike 𝕜] [NormedAddCommGroup E] [InnerProductSpace 𝕜 E]

/-- What is used of the iterated operator: symmetric, positive (through its Cauchy-Schwarz inequality), homogeneous. -/
structure PsdFun (𝕜 : Type*) {E : Type*} [RCLike 𝕜] [NormedAddCommGroup E] [InnerProductSpace 𝕜 E] (B : E → E) : Prop where
  sym : ∀ x y, inner 𝕜 (B x) y = inner 𝕜 x (B y)
  cs : ∀ x y, ‖inner 𝕜 x (B y)‖ ^ 2 ≤ RCLike.re (inner 𝕜 x (B x)) * RCLike.re (inner 𝕜 y (B y))
  smul : ∀ (c : 𝕜) x, B (c • x) = c • B x

variable {B : E → E}

/-- The moments. -/
def moment (𝕜 : Type*) {E : Type*} [RCLike 𝕜] [NormedAddCommGroup E] [InnerProductSpace 𝕜 E] (B : E → E) (b : E) (i : ℕ) : ℝ :=
  RCLike.re (inner 𝕜 b (B^[i] b))

theorem inner_iter (hB : PsdFun 𝕜 B) (b : E) (i j : ℕ) : inner 𝕜 (B^[i] b) (B^[j] b) = inner 𝕜 b (B^[i + j] b) := by
  induction i generalizing j with
  | zero => simp
  | succ i ih =>
    rw [Function.iterate_succ_apply', hB.sym, ← Function.iterate_succ_apply' B, ih]
    congr 2; omega

theorem moment_even (hB : PsdFun 𝕜 B) (b : E) (i : ℕ) : moment 𝕜 B b (2 * i) = ‖B^[i] b‖ ^ 2 := by
  unfold moment
  rw [two_mul, ← inner_iter hB, inner_self_eq_norm_sq]

theorem moment_odd (hB : PsdFun 𝕜 B) (b : E) (i : ℕ) : moment 𝕜 B b (2 * i + 1) = RCLike.re (inner 𝕜 (B^[i] b) (B (B^[i] b))) := by
  unfold moment
  rw [← Function.iterate_succ_apply' B, inner_iter hB]
  congr 3; omega

theorem moment_lc (hB : PsdFun 𝕜 B) (b : E) (hpos : ∀ i, 0 < moment 𝕜 B b i) (i : ℕ) :
    moment 𝕜 B b (i + 1) ^ 2 ≤ moment 𝕜 B b i * moment 𝕜 B b (i + 2) := by
  rcases Nat.even_or_odd' i with ⟨a, rfl | rfl⟩
  · rw [show 2 * a + 2 = 2 * (a + 1) by ring, moment_even hB, moment_even hB, ← mul_pow]
    refine pow_le_pow_left₀ (hpos _).le ?_ 2
    rw [moment_odd hB, ← Function.iterate_succ_apply' B]
    exact (RCLike.re_le_norm _).trans (norm_inner_le_norm _ _)
  · have h := hB.cs (B^[a] b) (B^[a + 1] b)
    rw [show 2 * a + 1 + 2 = 2 * (a + 1) + 1 by ring, moment_odd hB, moment_odd hB]
    refine le_trans ?_ h
    refine pow_le_pow_left₀ (hpos _).le ?_ 2
    have : moment 𝕜 B b (2 * a + 1 + 1) = RCLike.re (inner 𝕜 (B^[a] b) (B (B^[a + 1] b))) := by
      unfold moment
      rw [← Function.iterate_succ_apply' B, inner_iter hB]
      congr 3; omega
    rw [this]
    exact RCLike.re_le_norm _

variable {e : E} {lam : ℝ}

theorem inner_eig (hB : PsdFun 𝕜 B) (he : B e = (lam : 𝕜) • e) (x : E) : inner 𝕜 e (B x) = (lam : 𝕜) * inner 𝕜 e x := by
  rw [← hB.sym, he, inner_smul_left]; simp

theorem inner_eig_iter (hB : PsdFun 𝕜 B) (he : B e = (lam : 𝕜) • e) (b : E) (i : ℕ) :
    inner 𝕜 e (B^[i] b) = (lam : 𝕜) ^ i * inner 𝕜 e b := by
  induction i with
  | zero => simp
  | succ i ih => rw [Function.iterate_succ_apply', inner_eig hB he, ih, pow_succ']; ring

/-- The moments grow at least like the powers of the eigenvalue. -/
theorem moment_lower (hB : PsdFun 𝕜 B) (he : B e = (lam : 𝕜) • e) (hlam : 0 < lam) (he1 : ‖e‖ = 1) (b : E) (i : ℕ) :
    lam ^ i * ‖inner 𝕜 e b‖ ^ 2 ≤ moment 𝕜 B b i := by
  rcases Nat.even_or_odd' i with ⟨a, rfl | rfl⟩
  · rw [moment_even hB]
    have h := norm_inner_le_norm (𝕜 := 𝕜) e (B^[a] b)
    rw [inner_eig_iter hB he, he1, one_mul, norm_mul, norm_pow, RCLike.norm_ofReal, abs_of_pos hlam] at h
    calc lam ^ (2 * a) * ‖inner 𝕜 e b‖ ^ 2 = (lam ^ a * ‖inner 𝕜 e b‖) ^ 2 := by rw [mul_pow, ← pow_mul, mul_comm 2 a]
      _ ≤ _ := pow_le_pow_left₀ (by positivity) h 2
  · rw [moment_odd hB]
    have h := hB.cs e (B^[a] b)
    rw [← Function.iterate_succ_apply' B, inner_eig_iter hB he, he, inner_smul_right, norm_mul, norm_pow, RCLike.norm_ofReal, abs_of_pos hlam,
      RCLike.re_ofReal_mul, inner_self_eq_norm_sq, he1, Function.iterate_succ_apply' B] at h
    have h2 : lam * (lam ^ (2 * a + 1) * ‖inner 𝕜 e b‖ ^ 2) ≤ lam * RCLike.re (inner 𝕜 (B^[a] b) (B (B^[a] b))) := by
      calc lam * (lam ^ (2 * a + 1) * ‖inner 𝕜 e b‖ ^ 2) = (lam ^ (a + 1) * ‖inner 𝕜 e b‖) ^ 2 := by ring
        _ ≤ _ := by simpa using h
    exact le_of_mul_le_mul_left h2 hlam

/-- The estimate after `k + 1` iterations. -/
theorem rayleigh_lower (hB : PsdFun 𝕜 B) (he : B e = (lam : 𝕜) • e) (hlam : 0 < lam) (he1 : ‖e‖ = 1) (b : E) (hb : inner 𝕜 e b ≠ 0) (k : ℕ) :
    lam ^ (2 * k + 1) * ‖inner 𝕜 e b‖ ^ 2 ≤
      ‖b‖ ^ 2 * (RCLike.re (inner 𝕜 (B^[k] b) (B (B^[k] b))) / ‖B^[k] b‖ ^ 2) ^ (2 * k + 1) := by
  have hpos : ∀ i, 0 < moment 𝕜 B b i := fun i => lt_of_lt_of_le (by positivity) (moment_lower hB he hlam he1 b i)
  have h := logconvex_bound (moment 𝕜 B b) hpos (moment_lc hB b hpos) (2 * k)
  have h0 : moment 𝕜 B b 0 = ‖b‖ ^ 2 := by
    have := moment_even hB b 0
    simpa using this
  rw [h0, moment_even hB, moment_odd hB] at h
  refine le_trans ?_ h
  rw [← moment_odd hB]
  exact moment_lower hB he hlam he1 b _

/-- The estimate made from `x`. -/
def rq (𝕜 : Type*) {E : Type*} [RCLike 𝕜] [NormedAddCommGroup E] [InnerProductSpace 𝕜 E] (B : E → E) (x : E) : ℝ :=
  RCLike.re (inner 𝕜 x (B x)) / ‖x‖ ^ 2

theorem iter_ne_zero (hB : PsdFun 𝕜 B) (he : B e = (lam : 𝕜) • e) (hlam : 0 < lam) (b : E) (hb : inner 𝕜 e b ≠ 0) (i : ℕ) :
    inner 𝕜 e (B^[i] b) ≠ 0 ∧ B^[i] b ≠ 0 := by
  have h : inner 𝕜 e (B^[i] b) ≠ 0 := by
    rw [inner_eig_iter hB he]
    exact mul_ne_zero (pow_ne_zero _ (by exact_mod_cast hlam.ne')) hb
  exact ⟨h, fun h0 => h (by rw [h0, inner_zero_right])⟩

theorem rq_pos (hB : PsdFun 𝕜 B) (he : B e = (lam : 𝕜) • e) (hlam : 0 < lam) (he1 : ‖e‖ = 1) (b : E) (hb : inner 𝕜 e b ≠ 0) (k : ℕ) :
    0 < rq 𝕜 B (B^[k] b) := by
  unfold rq
  rw [← moment_odd hB, ← moment_even hB]
  exact div_pos (lt_of_lt_of_le (by positivity) (moment_lower hB he hlam he1 b _)) (lt_of_lt_of_le (by positivity) (moment_lower hB he hlam he1 b _))

/-- If two consecutive estimates agree they are the eigenvalue. -/
theorem rq_stationary (hB : PsdFun 𝕜 B) (he : B e = (lam : 𝕜) • e) (hlam : 0 < lam) (he1 : ‖e‖ = 1) (b : E) (hb : inner 𝕜 e b ≠ 0) (k : ℕ)
    (h : rq 𝕜 B (B^[k] b) = rq 𝕜 B (B^[k + 1] b)) : rq 𝕜 B (B^[k + 1] b) = lam := by
  have hpos : ∀ i, 0 < moment 𝕜 B b i := fun i => lt_of_lt_of_le (by positivity) (moment_lower hB he hlam he1 b i)
  rw [← h]
  unfold rq at h ⊢
  rw [← moment_odd hB, ← moment_odd hB, ← moment_even hB, ← moment_even hB] at h
  rw [← moment_odd hB, ← moment_even hB]
  have l1 := moment_lc hB b hpos (2 * k)
  have l2 := moment_lc hB b hpos (2 * k + 1)
  rw [show 2 * (k + 1) = 2 * k + 2 by ring] at h
  set m0 := moment 𝕜 B b (2 * k)
  set m1 := moment 𝕜 B b (2 * k + 1)
  set m2 := moment 𝕜 B b (2 * k + 2)
  have e3 : moment 𝕜 B b (2 * k + 1 + 2) = moment 𝕜 B b (2 * k + 2 + 1) := by congr 1
  rw [e3] at l2
  change m2 ^ 2 ≤ m1 * _ at l2
  set m3 := moment 𝕜 B b (2 * k + 2 + 1)
  have p0 : 0 < m0 := hpos _
  have p1 : 0 < m1 := hpos _
  have p2 : 0 < m2 := hpos _
  have h' : m1 * m2 = m3 * m0 := by
    rw [div_eq_div_iff p0.ne' p2.ne'] at h; exact h
  -- so `m1² = m0 m2`
  have h2 : m0 * m2 ≤ m1 ^ 2 := by
    have : m2 * (m0 * m2) ≤ m2 * m1 ^ 2 := by nlinarith
    exact le_of_mul_le_mul_left this p2
  set x := B^[k] b with hx
  set ρ := m1 / m0 with hρ
  have em0 : m0 = ‖x‖ ^ 2 := moment_even hB b k
  have em1 : m1 = RCLike.re (inner 𝕜 x (B x)) := moment_odd hB b k
  have em2 : m2 = ‖B x‖ ^ 2 := by
    have : m2 = moment 𝕜 B b (2 * (k + 1)) := rfl
    rw [this, moment_even hB, Function.iterate_succ_apply']
  have hz : ‖B x - (ρ : 𝕜) • x‖ ^ 2 ≤ 0 := by
    rw [@norm_sub_sq 𝕜, inner_smul_right, norm_smul, RCLike.norm_ofReal, RCLike.re_ofReal_mul, mul_pow, sq_abs, hB.sym, ← em0, ← em1, ← em2, hρ]
    have : m2 - 2 * (m1 / m0 * m1) + (m1 / m0) ^ 2 * m0 = (m0 * m2 - m1 ^ 2) / m0 := by field_simp; ring
    rw [this]
    exact div_nonpos_of_nonpos_of_nonneg (by linarith) p0.le
  have hBx : B x = (ρ : 𝕜) • x := by
    have : ‖B x - (ρ : 𝕜) • x‖ = 0 := by
      have := sq_nonneg ‖B x - (ρ : 𝕜) • x‖
      exact pow_eq_zero_iff (two_ne_zero) |>.mp (le_antisymm hz this)
    exact sub_eq_zero.mp (norm_eq_zero.mp this)
  have h4 := inner_eig hB he x
  rw [hBx, inner_smul_right] at h4
  have := mul_right_cancel₀ (iter_ne_zero hB he hlam b hb k).1 h4
  exact_mod_cast this

end moments

/-! ## The loops -/

section loops
variable {𝕜 E : Type*} [RCLike 𝕜] [NormedAddCommGroup E] [InnerProductSpace 𝕜 E]

/-- The estimate after `k` iterations. -/
def estAt (𝕜 : Type*) {E : Type*} [RCLike 𝕜] [NormedAddCommGroup E] [InnerProductSpace 𝕜 E] (B : E → E) (b : E) : ℕ → ℝ
  | 0 => 1e20
  | k + 1 => rq 𝕜 B (B^[k] b)

/-- The state after `k` iterations: the vector is a positive multiple of `B^k b`. -/
def PowInv (𝕜 : Type*) {E : Type*} [RCLike 𝕜] [NormedAddCommGroup E] [InnerProductSpace 𝕜 E] (B : E → E) (b : E) : Option (PState E) → Prop
  | none => False
  | some s => (∃ c : ℝ, 0 < c ∧ s.v = (c : 𝕜) • B^[s.iters] b) ∧ s.new = estAt 𝕜 B b s.iters ∧
      s.old = (match s.iters with | 0 => -1e20 | k + 1 => estAt 𝕜 B b k)

theorem rq_smul {B : E → E} (hB : PsdFun 𝕜 B) {c : 𝕜} (hc : c ≠ 0) (x : E) : rq 𝕜 B (c • x) = rq 𝕜 B x := by
  unfold rq
  rw [hB.smul, inner_smul_left, inner_smul_right, ← mul_assoc, RCLike.conj_mul, norm_smul, mul_pow]
  have e : (((‖c‖ : 𝕜)) ^ 2 * inner 𝕜 x (B x)) = (((‖c‖ ^ 2 : ℝ)) : 𝕜) * inner 𝕜 x (B x) := by push_cast; rfl
  rw [e, RCLike.re_ofReal_mul, mul_div_mul_left _ _ (pow_ne_zero 2 (norm_ne_zero_iff.mpr hc))]

theorem estAt_lower {B : E → E} (hB : PsdFun 𝕜 B) {e : E} {lam : ℝ} (he : B e = (lam : 𝕜) • e) (hlam : 0 < lam) (he1 : ‖e‖ = 1) (b : E)
    (hb : inner 𝕜 e b ≠ 0) (k : ℕ) (hk : 1 ≤ k) :
    lam ^ (2 * k - 1) * (‖inner 𝕜 e b‖ / ‖b‖) ^ 2 ≤ estAt 𝕜 B b k ^ (2 * k - 1) := by
  obtain ⟨k, rfl⟩ : ∃ j, k = j + 1 := ⟨k - 1, by omega⟩
  have hb0 : 0 < ‖b‖ := norm_pos_iff.mpr fun h => hb (by rw [h, inner_zero_right])
  have h := rayleigh_lower hB he hlam he1 b hb k
  have e1 : 2 * (k + 1) - 1 = 2 * k + 1 := by omega
  rw [e1, div_pow, ← mul_div_assoc, div_le_iff₀ (by positivity), mul_comm (estAt 𝕜 B b (k + 1) ^ _)]
  exact h

/-- With the tolerance zero the loop stops early only at an exact estimate. -/
theorem powInv_zero_tol {B : E → E} (hB : PsdFun 𝕜 B) {e : E} {lam : ℝ} (he : B e = (lam : 𝕜) • e) (hlam : 0 < lam) (he1 : ‖e‖ = 1) (b : E)
    (hb : inner 𝕜 e b ≠ 0) (hsmall : ∀ x : E, x ≠ 0 → rq 𝕜 B x < 1e20) (N : ℕ) (hN : 1 ≤ N) (s : PState E) (hs : PowInv 𝕜 B b (some s))
    (hle : s.iters ≤ N) (hc : ¬ pCond N 0 (some s)) : lam ^ (2 * N - 1) * (‖inner 𝕜 e b‖ / ‖b‖) ^ 2 ≤ s.new ^ (2 * N - 1) ∧ 0 < s.new := by
  have hb0 : 0 < ‖b‖ := norm_pos_iff.mpr fun h => hb (by rw [h, inner_zero_right])
  obtain ⟨_, hnew, hold⟩ := hs
  rcases Nat.eq_zero_or_pos s.iters with h0 | hpos
  · exfalso; apply hc
    rw [h0] at hnew hold
    simp only [estAt] at hnew hold
    refine ⟨by omega, ?_⟩
    rw [if_neg (by rw [hold]; norm_num), hold, hnew]
    norm_num
  · have hposn : 0 < s.new := by
      obtain ⟨j, hj⟩ : ∃ j, s.iters = j + 1 := ⟨s.iters - 1, by omega⟩
      rw [hnew, hj]
      exact rq_pos hB he hlam he1 b hb j
    refine ⟨?_, hposn⟩
    rcases hle.eq_or_lt with heq | hlt
    · rw [hnew, heq]
      exact estAt_lower hB he hlam he1 b hb N hN
    · -- stopped early
      obtain ⟨j, hj⟩ : ∃ j, s.iters = j + 1 := ⟨s.iters - 1, by omega⟩
      rw [hj] at hold hnew
      simp only at hold
      have holdpos : 0 < s.old := by
        rw [hold]
        cases j with
        | zero => simp only [estAt]; norm_num
        | succ j => exact rq_pos hB he hlam he1 b hb j
      have hstop : s.new = s.old := by
        by_contra hne
        apply hc
        refine ⟨hlt, ?_⟩
        rw [if_neg holdpos.ne']
        exact abs_pos.mpr (div_ne_zero (sub_ne_zero.mpr hne) holdpos.ne')
      have hlamn : s.new = lam := by
        cases j with
        | zero =>
          exfalso
          have := hsmall (B^[0] b) (iter_ne_zero hB he hlam b hb 0).2
          rw [hnew, hold] at hstop
          simp only [estAt] at hstop
          linarith
        | succ j =>
          rw [hnew, hold] at hstop
          rw [hnew]
          exact rq_stationary hB he hlam he1 b hb j hstop.symm
      rw [hlamn]
      have hcs : (‖inner 𝕜 e b‖ / ‖b‖) ^ 2 ≤ 1 := by
        have := norm_inner_le_norm (𝕜 := 𝕜) e b
        rw [he1, one_mul] at this
        have h1 : ‖inner 𝕜 e b‖ / ‖b‖ ≤ 1 := (div_le_one hb0).mpr this
        have h2 : 0 ≤ ‖inner 𝕜 e b‖ / ‖b‖ := by positivity
        nlinarith
      have : 0 < lam ^ (2 * N - 1) := by positivity
      nlinarith

/-- A bound of this form drives the estimate to `lam`. -/
theorem root_limit {lam c : ℝ} (hlam : 0 < lam) (hc : 0 < c) (ε : ℝ) (hε : 0 < ε) :
    ∃ K, ∀ k, K ≤ k → ∀ x : ℝ, 0 < x → lam ^ (2 * k - 1) * c ≤ x ^ (2 * k - 1) → lam * (1 - ε) < x := by
  rcases le_or_gt 1 ε with h1 | h1
  · refine ⟨0, fun k _ x hx _ => lt_of_le_of_lt ?_ hx⟩
    exact mul_nonpos_of_nonneg_of_nonpos hlam.le (by linarith)
  · obtain ⟨n, hn⟩ := exists_pow_lt_of_lt_one hc (show 1 - ε < 1 by linarith)
    refine ⟨n + 1, fun k hk x hx h => ?_⟩
    by_contra hneg
    push Not at hneg
    have h2 : x ^ (2 * k - 1) ≤ (lam * (1 - ε)) ^ (2 * k - 1) := pow_le_pow_left₀ hx.le hneg _
    rw [mul_pow] at h2
    have h3 : (1 - ε) ^ (2 * k - 1) ≤ (1 - ε) ^ n := pow_le_pow_of_le_one (by linarith) (by linarith) (by omega)
    have h4 : c ≤ (1 - ε) ^ (2 * k - 1) := by
      have : 0 < lam ^ (2 * k - 1) := by positivity
      exact le_of_mul_le_mul_left (h.trans h2) this
    linarith

end loops

end Verif.Sls
