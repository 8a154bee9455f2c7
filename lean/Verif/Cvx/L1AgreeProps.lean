import Verif.Cvx.L1lsConvProps
import Verif.Cvx.YallProps
import Verif.Sls.IstaResult
import Verif.Opt.FomRateProps

set_option autoImplicit false
/-!
# C155: the l1 solvers of the library solve the same problem

The specification is the penalised problem `½|b - A x|² + lam |x|₁`.
-/
noncomputable section
namespace Verif.Cvx
open Verif.Loop Verif.Opt Filter Topology
open Verif.Sls (IstaArgs IstaState FistaState istaCond istaStep istaInit fistaCond fistaStep fistaInit)
open scoped RealInnerProductSpace

variable {m n : ℕ}

/-- Specification: the objective of the penalised problem. -/
def qpObj (A : Vec n →ₗ[ℝ] Vec m) (b : Vec m) (lam : ℝ) (x : Vec n) : ℝ := 1 / 2 * ‖b - A x‖ ^ 2 + lam * l1 x

/-- Specification: `x` minimises the penalised problem. -/
def QpMin (A : Vec n →ₗ[ℝ] Vec m) (b : Vec m) (lam : ℝ) (x : Vec n) : Prop := ∀ v, qpObj A b lam x ≤ qpObj A b lam v

theorem qp_segment (A : Vec n →ₗ[ℝ] Vec m) (b : Vec m) {lam : ℝ} (hl : 0 ≤ lam) (u v : Vec n) {t : ℝ} (h0 : 0 ≤ t) (h1 : t ≤ 1) :
    qpObj A b lam ((1 - t) • u + t • v) ≤ (1 - t) * qpObj A b lam u + t * qpObj A b lam v - t * (1 - t) / 2 * ‖A v - A u‖ ^ 2 := by
  have e : b - A ((1 - t) • u + t • v) = (1 - t) • (b - A u) + t • (b - A v) := by
    rw [map_add, map_smul, map_smul]; module
  have hq : ‖(1 - t) • (b - A u) + t • (b - A v)‖ ^ 2 = (1 - t) * ‖b - A u‖ ^ 2 + t * ‖b - A v‖ ^ 2 - t * (1 - t) * ‖A v - A u‖ ^ 2 := by
    have e2 : A v - A u = (b - A u) - (b - A v) := by abel
    rw [e2, norm_add_sq_real, norm_sub_sq_real (b - A u) (b - A v), norm_smul, norm_smul, real_inner_smul_left, real_inner_smul_right, mul_pow, mul_pow, Real.norm_eq_abs, Real.norm_eq_abs, sq_abs, sq_abs]
    ring
  have hll : l1 ((1 - t) • u + t • v) ≤ (1 - t) * l1 u + t * l1 v := by
    have := l1_add_le ((1 - t) • u) (t • v)
    rwa [l1_smul, l1_smul, abs_of_nonneg h0, abs_of_nonneg (by linarith : 0 ≤ 1 - t)] at this
  have := mul_le_mul_of_nonneg_left hll hl
  rw [qpObj, qpObj, qpObj, e, hq]
  linarith

/-- **C155** (growth) every point exceeds the minimum by at least half the squared distance of its image from that of a minimiser. -/
theorem c155_growth (A : Vec n →ₗ[ℝ] Vec m) (b : Vec m) {lam : ℝ} (hl : 0 ≤ lam) {u : Vec n} (hu : QpMin A b lam u) (v : Vec n) :
    qpObj A b lam u + 1 / 2 * ‖A v - A u‖ ^ 2 ≤ qpObj A b lam v := by
  have key : ∀ t : ℝ, 0 < t → t ≤ 1 → qpObj A b lam u + (1 - t) / 2 * ‖A v - A u‖ ^ 2 ≤ qpObj A b lam v := fun t h0 h1 => by
    have h2 := (hu ((1 - t) • u + t • v)).trans (qp_segment A b hl u v h0.le h1)
    have h3 : t * (qpObj A b lam u + (1 - t) / 2 * ‖A v - A u‖ ^ 2) ≤ t * qpObj A b lam v := by nlinarith
    exact le_of_mul_le_mul_left h3 h0
  have hlim : Tendsto (fun t : ℝ => qpObj A b lam u + (1 - t) / 2 * ‖A v - A u‖ ^ 2) (𝓝[>] 0) (𝓝 (qpObj A b lam u + (1 - 0) / 2 * ‖A v - A u‖ ^ 2)) := by
    refine Tendsto.mono_left ?_ nhdsWithin_le_nhds
    exact Continuous.tendsto (by fun_prop) 0
  have := le_of_tendsto hlim (by
    filter_upwards [Ioc_mem_nhdsGT (zero_lt_one : (0 : ℝ) < 1)] with t ht using key t ht.1 ht.2)
  rwa [sub_zero] at this

/-- **C155** (uniqueness) two minimisers have the same image, hence the same residual, and for `lam > 0` the same l1 norm. If `A` is injective they are equal. -/
theorem c155_same (A : Vec n →ₗ[ℝ] Vec m) (b : Vec m) {lam : ℝ} (hl : 0 < lam) {u v : Vec n} (hu : QpMin A b lam u) (hv : QpMin A b lam v) :
    A u = A v ∧ l1 u = l1 v := by
  have h1 := c155_growth A b hl.le hu v
  have h2 := hv u
  have h3 : ‖A v - A u‖ ^ 2 ≤ 0 := by linarith
  have h4 : A v - A u = 0 := by rw [← norm_eq_zero]; nlinarith [norm_nonneg (A v - A u)]
  have h5 : A u = A v := (sub_eq_zero.mp h4).symm
  refine ⟨h5, ?_⟩
  have h6 := hu v
  rw [qpObj, qpObj, h5] at h2 h6
  exact mul_left_cancel₀ hl.ne' (by linarith)

/-- **C155** (accuracy) two points whose objectives exceed the minimum by at most `e1` and `e2`: their images differ by at most `√(2 e1) + √(2 e2)`, and if `|A d|² ≥ sigma |d|²` so do the points up to `1/√sigma`. -/
theorem c155_close (A : Vec n →ₗ[ℝ] Vec m) (b : Vec m) {lam : ℝ} (hl : 0 ≤ lam) {u : Vec n} (hu : QpMin A b lam u) {x1 x2 : Vec n} {e1 e2 : ℝ}
    (h1 : qpObj A b lam x1 ≤ qpObj A b lam u + e1) (h2 : qpObj A b lam x2 ≤ qpObj A b lam u + e2) :
    ‖A x1 - A x2‖ ≤ √(2 * e1) + √(2 * e2) ∧ ∀ σ : ℝ, 0 < σ → (∀ d, σ * ‖d‖ ^ 2 ≤ ‖A d‖ ^ 2) → ‖x1 - x2‖ ≤ (√(2 * e1) + √(2 * e2)) / √σ := by
  have hd : ∀ x e, qpObj A b lam x ≤ qpObj A b lam u + e → ‖A x - A u‖ ≤ √(2 * e) := fun x e h => by
    have := c155_growth A b hl hu x
    exact Real.le_sqrt_of_sq_le (by linarith)
  have k : ‖A x1 - A x2‖ ≤ √(2 * e1) + √(2 * e2) := by
    have := norm_sub_le_norm_sub_add_norm_sub (A x1) (A u) (A x2)
    rw [norm_sub_rev (A u)] at this
    linarith [hd x1 e1 h1, hd x2 e2 h2]
  refine ⟨k, fun σ hσ hb => ?_⟩
  rw [le_div_iff₀ (Real.sqrt_pos.mpr hσ)]
  refine le_trans ?_ k
  have := hb (x1 - x2)
  rw [map_sub] at this
  refine abs_le_of_sq_le_sq' ?_ (norm_nonneg _) |>.2
  rw [mul_pow, Real.sq_sqrt hσ.le]
  linarith

/-- **C155** (the three forms) a point within `e` of the minimum of the penalised problem is within `e` of the smallest `½|b - A x|²` among the points of no larger l1 norm, and within `e/lam`
of the smallest l1 norm among the points of no larger residual. A minimiser (`e = 0`) solves both constrained problems. -/
theorem c155_constrained (A : Vec n →ₗ[ℝ] Vec m) (b : Vec m) {lam : ℝ} (hl : 0 < lam) {x : Vec n} {e : ℝ} (hx : ∀ v, qpObj A b lam x ≤ qpObj A b lam v + e) :
    (∀ v, l1 v ≤ l1 x → 1 / 2 * ‖b - A x‖ ^ 2 ≤ 1 / 2 * ‖b - A v‖ ^ 2 + e) ∧ ∀ v, ‖b - A v‖ ≤ ‖b - A x‖ → l1 x ≤ l1 v + e / lam := by
  refine ⟨fun v hv => ?_, fun v hv => ?_⟩
  · have h1 := hx v
    have h2 := mul_le_mul_of_nonneg_left hv hl.le
    rw [qpObj, qpObj] at h1; linarith
  · have h1 := hx v
    have h2 := pow_le_pow_left₀ (norm_nonneg _) hv 2
    rw [qpObj, qpObj] at h1
    have h3 : lam * l1 x ≤ lam * (l1 v + e / lam) := by rw [mul_add, mul_div_cancel₀ _ hl.ne']; linarith
    exact le_of_mul_le_mul_left h3 hl

theorem exists_sign (c : ℝ) : ∃ s : ℝ, |s| = 1 ∧ s * c = |c| := by
  rcases le_total 0 c with h | h
  · exact ⟨1, by norm_num, by rw [one_mul, abs_of_nonneg h]⟩
  · exact ⟨-1, by norm_num, by rw [abs_of_nonpos h]; ring⟩

/-- **C155** (back) a solution `x` of the problem with the bound `tau` on the l1 norm minimises the penalised problem with `lam = |Aᵀ(b - A x)|∞`. -/
theorem c155_from_lasso (A : Vec n →ₗ[ℝ] Vec m) (At : Vec m →ₗ[ℝ] Vec n) (hadj : IsAdj A At) (b : Vec m) (tau : ℝ) (x : Vec n) (hx : l1 x ≤ tau)
    (hmin : ∀ v, l1 v ≤ tau → ‖b - A x‖ ≤ ‖b - A v‖) : QpMin A b (linf (At (b - A x))) x := by
  have htau : 0 ≤ tau := (l1_nonneg x).trans hx
  set g := At (b - A x) with hg
  -- the variational inequality
  have hvi : ∀ v, l1 v ≤ tau → ⟪g, v - x⟫ ≤ 0 := fun v hv => by
    by_contra hcon
    push Not at hcon
    have hin : ⟪b - A x, A (v - x)⟫ = ⟪g, v - x⟫ := by rw [real_inner_comm, hadj, real_inner_comm]
    have hq : ∀ t : ℝ, 0 < t → t ≤ 1 → 2 * ⟪g, v - x⟫ ≤ t * ‖A (v - x)‖ ^ 2 := fun t h0 h1 => by
      have hc : l1 (x + t • (v - x)) ≤ tau := by
        have : x + t • (v - x) = (1 - t) • x + t • v := by module
        rw [this]
        exact convex_l1 tau hx hv (by linarith) h0.le (by ring)
      have h2 := pow_le_pow_left₀ (norm_nonneg _) (hmin _ hc) 2
      have e : b - A (x + t • (v - x)) = (b - A x) - t • A (v - x) := by rw [map_add, map_smul]; abel
      rw [e, norm_sub_sq_real (b - A x), real_inner_smul_right, hin, norm_smul, mul_pow, Real.norm_eq_abs, sq_abs] at h2
      have h3 : t * (2 * ⟪g, v - x⟫) ≤ t * (t * ‖A (v - x)‖ ^ 2) := by nlinarith
      exact le_of_mul_le_mul_left h3 h0
    set c := ⟪g, v - x⟫ with hcd
    set q := ‖A (v - x)‖ ^ 2 with hqd
    have hq0 : 0 ≤ q := by positivity
    have := hq (min 1 (c / (q + 1))) (lt_min one_pos (by positivity)) (min_le_left _ _)
    have h4 : min 1 (c / (q + 1)) * q ≤ c / (q + 1) * q := mul_le_mul_of_nonneg_right (min_le_right _ _) hq0
    have h5 : c / (q + 1) * q ≤ c := by rw [div_mul_eq_mul_div, div_le_iff₀ (by positivity)]; nlinarith
    linarith
  -- the largest entry of the gradient
  have hmax : tau * linf g ≤ ⟪g, x⟫ := by
    rcases Nat.eq_zero_or_pos n with h0 | hn
    · subst h0
      have e1 : g = 0 := Subsingleton.elim _ _
      have e2 : linf (0 : Vec 0) = 0 := by rw [linf, WithLp.ofLp_zero, norm_zero]
      rw [e1, e2, mul_zero, inner_zero_left]
    · haveI : Nonempty (Fin n) := ⟨⟨0, hn⟩⟩
      obtain ⟨i, hi⟩ := Finite.exists_max fun i => |g i|
      have hlin : linf g ≤ |g i| := (pi_norm_le_iff_of_nonneg (abs_nonneg _)).2 fun j => by rw [Real.norm_eq_abs]; exact hi j
      obtain ⟨s, hs1, hs2⟩ := exists_sign (g i)
      set v : Vec n := EuclideanSpace.single i (tau * s) with hv
      have hl1 : l1 v ≤ tau := by
        rw [l1, Finset.sum_eq_single i]
        · rw [hv, EuclideanSpace.single_apply, if_pos rfl, abs_mul, abs_of_nonneg htau, hs1, mul_one]
        · intro j _ hj; rw [hv, EuclideanSpace.single_apply, if_neg hj, abs_zero]
        · intro h; exact absurd (Finset.mem_univ _) h
      have h1 := hvi v hl1
      have h2 : ⟪g, v⟫ = tau * |g i| := by
        rw [hv, EuclideanSpace.inner_single_right]
        rw [conj_trivial, mul_assoc, hs2]
      rw [inner_sub_right, h2] at h1
      have := mul_le_mul_of_nonneg_left hlin htau
      linarith
  intro v
  have h1 := le_of_abs_le (inner_le_linf g v)
  have h2 : linf g * l1 x ≤ tau * linf g := by rw [mul_comm]; exact mul_le_mul_of_nonneg_right hx (linf_nonneg g)
  have e : b - A v = (b - A x) - A (v - x) := by rw [map_sub]; abel
  have hin : ⟪b - A x, A (v - x)⟫ = ⟪g, v⟫ - ⟪g, x⟫ := by rw [real_inner_comm, hadj, real_inner_comm, inner_sub_right]
  rw [qpObj, qpObj, e, norm_sub_sq_real (b - A x), hin]
  nlinarith [sq_nonneg ‖A (v - x)‖]

/-- **C155** (the path) along increasing `lam` the l1 norm of the minimisers decreases and their residual grows. -/
theorem c155_path (A : Vec n →ₗ[ℝ] Vec m) (b : Vec m) {lam mu : ℝ} (h0 : 0 ≤ lam) (h : lam < mu) {u v : Vec n} (hu : QpMin A b lam u) (hv : QpMin A b mu v) :
    l1 v ≤ l1 u ∧ ‖b - A u‖ ≤ ‖b - A v‖ := by
  have h1 := hu v
  have h2 := hv u
  rw [qpObj, qpObj] at h1 h2
  have h3 : (mu - lam) * l1 v ≤ (mu - lam) * l1 u := by nlinarith
  have h4 : l1 v ≤ l1 u := le_of_mul_le_mul_left h3 (by linarith)
  refine ⟨h4, abs_le_of_sq_le_sq' ?_ (norm_nonneg _) |>.2⟩
  have := mul_le_mul_of_nonneg_left h4 h0
  linarith

/-- **C155** (the largest useful `lam`) zero minimises the penalised problem exactly when `lam` is at least the largest absolute entry of `Aᵀ b`, and it is the only minimiser when `lam` is larger. -/
theorem c155_zero (A : Vec n →ₗ[ℝ] Vec m) (At : Vec m →ₗ[ℝ] Vec n) (hadj : IsAdj A At) (b : Vec m) (lam : ℝ) :
    (QpMin A b lam 0 ↔ ∀ i, |At b i| ≤ lam) ∧ (linf (At b) < lam → ∀ u, QpMin A b lam u → u = 0) := by
  have z1 : l1 (0 : Vec n) = 0 := by simp [l1]
  have hexp : ∀ v, qpObj A b lam v = 1 / 2 * ‖b‖ ^ 2 - ⟪At b, v⟫ + 1 / 2 * ‖A v‖ ^ 2 + lam * l1 v := fun v => by
    rw [qpObj, norm_sub_sq_real, real_inner_comm (A v) b, hadj, real_inner_comm]; ring
  have e0 : qpObj A b lam 0 = 1 / 2 * ‖b‖ ^ 2 := by rw [hexp, z1]; simp
  refine ⟨⟨fun h i => ?_, fun h v => ?_⟩, fun h u hu => ?_⟩
  · by_contra hcon
    push Not at hcon
    obtain ⟨s, hs1, hs2⟩ := exists_sign (At b i)
    set e : Vec n := EuclideanSpace.single i s with he
    have hl1 : l1 e = 1 := by
      rw [l1, Finset.sum_eq_single i]
      · rw [he, EuclideanSpace.single_apply, if_pos rfl, hs1]
      · intro j _ hj; rw [he, EuclideanSpace.single_apply, if_neg hj, abs_zero]
      · intro h; exact absurd (Finset.mem_univ _) h
    have hin : ⟪At b, e⟫ = |At b i| := by rw [he, EuclideanSpace.inner_single_right, conj_trivial, hs2]
    set c := |At b i| - lam with hc
    have hc0 : 0 < c := by linarith
    set q := ‖A e‖ ^ 2 with hq
    have hq0 : 0 ≤ q := by positivity
    have ht : 0 < c / (q + 1) := by positivity
    have h3 := h ((c / (q + 1)) • e)
    rw [e0, hexp, real_inner_smul_right, hin, l1_smul, hl1, abs_of_pos ht, map_smul, norm_smul, mul_pow, Real.norm_eq_abs, sq_abs, ← hq] at h3
    have h4 : 0 ≤ c / (q + 1) * (1 / 2 * (c / (q + 1) * q) - c) := by
      have : c / (q + 1) * (1 / 2 * (c / (q + 1) * q) - c) = -(c / (q + 1) * |At b i|) + 1 / 2 * ((c / (q + 1)) ^ 2 * q) + lam * (c / (q + 1) * 1) := by
        rw [show |At b i| = c + lam by rw [hc]; ring]; ring
      rw [this]; linarith
    have h5 : c / (q + 1) * q ≤ c := by rw [div_mul_eq_mul_div, div_le_iff₀ (by positivity)]; nlinarith
    nlinarith
  · rw [e0, hexp]
    have h1 : ⟪At b, v⟫ ≤ lam * l1 v := by
      rw [Verif.Opt.inner_sum, l1, Finset.mul_sum]
      refine Finset.sum_le_sum fun i _ => (le_abs_self _).trans ?_
      rw [abs_mul]; exact mul_le_mul_of_nonneg_right (h i) (abs_nonneg _)
    nlinarith [sq_nonneg ‖A v‖]
  · have h1 := hu 0
    rw [e0, hexp] at h1
    have h2 := le_of_abs_le (inner_le_linf (At b) u)
    have h3 : l1 u ≤ 0 := by
      by_contra hc
      push Not at hc
      nlinarith [sq_nonneg ‖A u‖]
    ext i
    have h4 : |u i| ≤ l1 u := Finset.single_le_sum (f := fun i => |u i|) (fun i _ => abs_nonneg _) (Finset.mem_univ i)
    exact abs_eq_zero.mp (le_antisymm (h4.trans h3) (abs_nonneg _))

/-! ## The solvers -/

/-- **C155** (`ista`, `fista` with soft thresholding) how near the image of an iterate is to that of a minimiser of the penalised problem. -/
theorem c155_ista_fista (A : Vec n →ₗ[ℝ] Vec m) (At : Vec m → Vec n) (hadj : ∀ x y, ⟪A x, y⟫ = ⟪x, At y⟫) (b : Vec m) (x0 : Vec n)
    (lam step : ℝ) (hl : 0 ≤ lam) (hs : 0 < step) (hstep : ∀ d, step * ‖A d‖ ^ 2 ≤ ‖d‖ ^ 2) (rtol xtol : ℝ) (N : ℕ) (u : Vec n) (hu : QpMin A b lam u) :
    let p : IstaArgs (Vec n) (Vec m) (Vec n) := { times := A, trans := At, b := b, x0 := x0, step := step, thresh := (fun _ x => vec fun i => softThreshold (x i) (step * lam)), basisTimes := id, basisTrans := id, rtol := rtol, xtol := xtol, maxIters := N }
    (∀ s, Reach (istaCond p) (istaStep p) (istaInit p) s → 1 ≤ s.iters → 1 / 2 * ‖A s.x - A u‖ ^ 2 ≤ ‖x0 - u‖ ^ 2 / (2 * step * s.iters)) ∧
    (∀ s, Reach (fistaCond p) (fistaStep p) (fistaInit p) s → 1 ≤ s.iters → 1 / 2 * ‖A s.x - A u‖ ^ 2 ≤ 2 * ‖x0 - u‖ ^ 2 / (step * (s.iters + 1) ^ 2)) := by
  intro p
  obtain ⟨h1, h2⟩ := Verif.Sls.c41_c42_lasso A At hadj b x0 lam step hl hs hstep rtol xtol N
  refine ⟨fun s hr hi => ?_, fun s hr hi => ?_⟩
  · have h3 := (h1 s hr).2 hi u
    have h4 := c155_growth A b hl hu s.x
    simp only [qpObj] at h4; linarith
  · have h3 := h2 s hr hi u
    have h4 := c155_growth A b hl hu s.x
    simp only [qpObj] at h4; linarith

/-- **C155** (`l1rls`) with `alpha = 1`, for any `L0`: the same at rate `1/k²`. -/
theorem c155_l1rls (A : Vec n →ₗ[ℝ] Vec m) (At : Vec m → Vec n) (hadj : ∀ x y, ⟪A x, y⟫ = ⟪x, At y⟫) (b : Vec m) (lam : ℝ) (hl : 0 < lam) (x0 : Vec n)
    (o : FomOptions) (ha : o.alpha = 1) (hb0 : 0 < o.beta) (hb : o.beta < 1) (hL : 0 < o.L0) (hx : o.Lexact = none) :
    ∃ c, ∀ (N : ℕ) (tol : ℝ) (s : FomState (Vec n) (Vec m)), FomReach (l1rls A At b lam x0 { o with maxIters := N, tol := tol }) s → ∀ u, QpMin A b lam u →
      1 / 2 * ‖A s.x - A u‖ ^ 2 ≤ c / (s.iters + 1) ^ 2 := by
  obtain ⟨c, hc⟩ := c132_l1rls A At hadj b lam hl x0 o ha hb0 hb hL hx
  refine ⟨c, fun N tol s hr u hu => ?_⟩
  have h3 := hc N tol s hr u
  have h4 := c155_growth A b hl.le hu s.x
  simp only [qpObj] at h4
  rw [norm_sub_rev b, norm_sub_rev b] at h4
  linarith

/-- **C155** (`l1ls`) its objective is `|A x - b|² + lam |x|₁`, so it solves the problem of the other solvers when it is given `2 lam`: with exact inner solves and a large enough iteration limit the result
satisfies `½|A x - A u|² ≤ tol · ½|b|²`. -/
theorem c155_l1ls (A : Vec n →ₗ[ℝ] Vec m) (At : Vec m →ₗ[ℝ] Vec n) (hadj : IsAdj A At) (b : Vec m) (hy : b ≠ 0) (lam : ℝ) (hl : 0 < lam) (hn : 0 < n) (tol : ℝ) (htol : 0 < tol) :
    ∃ K : ℕ, ∀ N P : ℕ, K < N → 2 * n < P → ∃ s, L1lsSolve A At b (2 * lam) tol 0 N P s ∧ s.iterations < N ∧
      ∀ u, QpMin A b lam u → 1 / 2 * ‖A s.x - A u‖ ^ 2 ≤ tol * (1 / 2 * ‖b‖ ^ 2) := by
  obtain ⟨K, hK⟩ := c139_solves A At hadj b hy (2 * lam) (by positivity) hn tol htol
  refine ⟨K, fun N P h1 h2 => ?_⟩
  obtain ⟨s, hs, hi, hv⟩ := hK N P h1 h2
  refine ⟨s, hs, hi, fun u hu => ?_⟩
  have h3 := hv u
  have h4 := c155_growth A b hl.le hu s.x
  have h5 := hu 0
  have z1 : l1 (0 : Vec n) = 0 := by simp [l1]
  simp only [qpObj] at h4 h5
  rw [map_zero, sub_zero, z1] at h5
  rw [norm_sub_rev b, norm_sub_rev b] at h4
  rw [norm_sub_rev b] at h5
  change ‖A s.x - b‖ ^ 2 + 2 * lam * l1 s.x ≤ (1 + tol) * (‖A u - b‖ ^ 2 + 2 * lam * l1 u) at h3
  nlinarith

/-- `ista` on `A = 1, b = 1` with `lam = 1/2` and step 1 from zero. -/
def scalarIsta (rtol xtol : ℝ) (N : ℕ) : IstaArgs (Vec 1) (Vec 1) (Vec 1) :=
  { times := unit1, trans := unit1, b := v1 1, x0 := 0, step := 1, thresh := (fun _ x => vec fun i => softThreshold (x i) (1 * (1 / 2))), basisTimes := id, basisTrans := id, rtol := rtol, xtol := xtol, maxIters := N }

theorem scalarIsta_run (rtol xtol : ℝ) (N k : ℕ) : ((istaStep (scalarIsta rtol xtol N))^[k + 1] (istaInit (scalarIsta rtol xtol N))).x = v1 (1 / 2) ∧
    ((istaStep (scalarIsta rtol xtol N))^[k + 1] (istaInit (scalarIsta rtol xtol N))).r = v1 (1 / 2) := by
  have step : ∀ s : IstaState (Vec 1) (Vec 1), s.x + s.r = v1 1 → (istaStep (scalarIsta rtol xtol N) s).x = v1 (1 / 2) ∧ (istaStep (scalarIsta rtol xtol N) s).r = v1 (1 / 2) := fun s hs => by
    have hx : (istaStep (scalarIsta rtol xtol N) s).x = v1 (1 / 2) := by
      show (vec fun i => softThreshold ((s.x + (1 : ℝ) • unit1 s.r) i) (1 * (1 / 2)) : Vec 1) = _
      rw [unit1_apply, one_smul, hs]
      ext i
      show softThreshold 1 (1 * (1 / 2)) = 1 / 2
      norm_num [softThreshold]
    refine ⟨hx, ?_⟩
    show v1 1 - unit1 (istaStep (scalarIsta rtol xtol N) s).x = _
    rw [hx, unit1_apply, v1_sub]; norm_num
  induction k with
  | zero => exact step _ (by show (0 : Vec 1) + (v1 1 - unit1 0) = _; rw [map_zero, sub_zero, zero_add])
  | succ k ih =>
    rw [Function.iterate_succ_apply']
    exact step _ (by rw [ih.1, ih.2]; ext i; show (1 / 2 : ℝ) + 1 / 2 = 1; norm_num)

/-- **C155** (the same `lam` is not the same problem) on the scalar problem `A = 1, b = 1` with `lam = 1/2` the minimiser of the penalised problem is `1/2`, the point `ista` with step 1 returns, while `l1ls` with the same
`lam`, accurate to `tol ≤ 1/1000`, returns a point above `0.6`. -/
theorem c155_lambda_differs : QpMin unit1 (v1 1) (1 / 2) (v1 (1 / 2)) ∧ (∀ u, QpMin unit1 (v1 1) (1 / 2) u → u = v1 (1 / 2)) ∧
    (∀ (rtol xtol : ℝ) (N k : ℕ), ((istaStep (scalarIsta rtol xtol N))^[k + 1] (istaInit (scalarIsta rtol xtol N))).x = v1 (1 / 2)) ∧
    ∀ tol : ℝ, 0 < tol → tol ≤ 1 / 1000 → ∃ K : ℕ, ∀ N P : ℕ, K < N → 2 < P → ∃ s, L1lsSolve unit1 unit1 (v1 1) (1 / 2) tol 0 N P s ∧ s.iterations < N ∧ 0.6 < s.x 0 := by
  have hobj : ∀ a : ℝ, qpObj unit1 (v1 1) (1 / 2) (v1 a) = 1 / 2 * (1 - a) ^ 2 + 1 / 2 * |a| := fun a => by
    rw [qpObj, unit1_apply, v1_sub, v1_norm, v1_l1, sq_abs]
  have hmin : QpMin unit1 (v1 1) (1 / 2) (v1 (1 / 2)) := fun v => by
    rw [v1_ext v, hobj, hobj, abs_of_pos (by norm_num : (0 : ℝ) < 1 / 2)]
    nlinarith [le_abs_self (v 0), sq_nonneg (v 0 - 1 / 2)]
  refine ⟨hmin, fun u hu => ?_, fun rtol xtol N k => (scalarIsta_run rtol xtol N k).1, fun tol h0 h1 => ?_⟩
  · have := (c155_same unit1 (v1 1) (by norm_num) hu hmin).1
    rwa [unit1_apply, unit1_apply] at this
  · obtain ⟨K, hK⟩ := c139_solves unit1 unit1 unit1_adj (v1 1) (v1_ne_zero one_ne_zero) (1 / 2) (by norm_num) one_pos tol h0
    refine ⟨K, fun N P a1 a2 => ?_⟩
    obtain ⟨s, hs, hi, hv⟩ := hK N P a1 (by omega)
    refine ⟨s, hs, hi, ?_⟩
    have h2 := hv (v1 (3 / 4))
    change ‖unit1 s.x - v1 1‖ ^ 2 + 1 / 2 * l1 s.x ≤ (1 + tol) * (‖unit1 (v1 (3 / 4)) - v1 1‖ ^ 2 + 1 / 2 * l1 (v1 (3 / 4))) at h2
    rw [v1_ext s.x, unit1_apply, unit1_apply, v1_sub, v1_sub, v1_norm, v1_norm, v1_l1, v1_l1, sq_abs, sq_abs] at h2
    norm_num at h2
    have h3 := le_abs_self (s.x 0)
    by_contra hcon
    push Not at hcon
    have e : s.x 0 ≤ 0.6 := hcon
    norm_num at e
    nlinarith

/-- **C155** (YALL1, penalised form) with `rho = lam`, orthonormal rows and the default weights, the limit of the iterates minimises the penalised problem. -/
theorem c155_yall (A : Vec n →ₗ[ℝ] Vec m) (At : Vec m →ₗ[ℝ] Vec n) (hadj : IsAdj A At) (hA : ∀ y, A (At y) = y) (b : Vec m) (hb : b ≠ 0) (lam : ℝ) (hl : 0 < lam)
    (delta tol : ℝ) (maxIters : ℕ) (x0 z0 : Vec n) :
    ∃ x, QpMin A b lam x ∧ Tendsto (fun k => linf b • ((yallIter A At (yallArgs b none false lam delta 1 tol maxIters))^[k]
        (yallInit A At (yallArgs b none false lam delta 1 tol maxIters) x0 z0)).x) atTop (𝓝 x) := by
  obtain ⟨x, hx, hlim⟩ := c86_converges A At hadj hA b hb none (fun i => one_pos) false lam delta tol maxIters (by simp) x0 z0
  refine ⟨x, fun v => ?_, hlim⟩
  have hp : yallProblem lam delta = .l1l2 lam := if_pos hl
  rw [hp] at hx
  have h1 := hx.2 v ⟨by simp, trivial⟩
  have e : ∀ w : Vec n, yallObj (.l1l2 lam) (yallWeights none) A b w = l1 w + ‖A w - b‖ ^ 2 / (2 * lam) := fun w => by
    show (∑ i, (1 : ℝ) * |w i|) + _ = _
    rw [l1]; simp
  rw [e, e] at h1
  have h2 := mul_le_mul_of_nonneg_left h1 hl.le
  have e3 : ∀ w : Vec n, lam * (l1 w + ‖A w - b‖ ^ 2 / (2 * lam)) = qpObj A b lam w := fun w => by
    rw [qpObj, norm_sub_rev b]; field_simp; ring
  rwa [e3, e3] at h2

/-- **C155** (YALL1, residual form) with `delta = |b - A u|` for a minimiser `u` of the penalised problem that does not interpolate, the limit minimises the penalised problem too; so it has the image and l1 norm of `u`. -/
theorem c155_yall_con (A : Vec n →ₗ[ℝ] Vec m) (At : Vec m →ₗ[ℝ] Vec n) (hadj : IsAdj A At) (hA : ∀ y, A (At y) = y) (b : Vec m) (hb : b ≠ 0) (lam : ℝ) (hl : 0 < lam)
    (u : Vec n) (hu : QpMin A b lam u) (hr : A u ≠ b) (tol : ℝ) (maxIters : ℕ) (x0 z0 : Vec n) :
    ∃ x, QpMin A b lam x ∧ A x = A u ∧ l1 x = l1 u ∧ Tendsto (fun k => linf b • ((yallIter A At (yallArgs b none false 0 ‖b - A u‖ 1 tol maxIters))^[k]
        (yallInit A At (yallArgs b none false 0 ‖b - A u‖ 1 tol maxIters) x0 z0)).x) atTop (𝓝 x) := by
  have hd : 0 < ‖b - A u‖ := norm_pos_iff.mpr (sub_ne_zero.mpr (Ne.symm hr))
  obtain ⟨x, hx, hlim⟩ := c86_converges A At hadj hA b hb none (fun i => one_pos) false 0 ‖b - A u‖ tol maxIters (by simp) x0 z0
  have hp : yallProblem 0 ‖b - A u‖ = .con ‖b - A u‖ := by rw [yallProblem, if_neg (lt_irrefl _), if_pos hd]
  rw [hp] at hx
  have e : ∀ w : Vec n, yallObj (.con ‖b - A u‖) (yallWeights none) A b w = l1 w := fun w => by
    show (∑ i, (1 : ℝ) * |w i|) = _
    rw [l1]; simp
  have hf : ‖A x - b‖ ≤ ‖b - A u‖ := hx.1.2
  have h1 := hx.2 u ⟨by simp, by show ‖A u - b‖ ≤ _; rw [norm_sub_rev]⟩
  rw [e, e] at h1
  have hq : QpMin A b lam x := fun v => by
    refine le_trans ?_ (hu v)
    rw [norm_sub_rev] at hf
    have := pow_le_pow_left₀ (norm_nonneg _) hf 2
    have := mul_le_mul_of_nonneg_left h1 hl.le
    rw [qpObj, qpObj]; linarith
  have hs := c155_same A b hl hq hu
  exact ⟨x, hq, hs.1, hs.2, hlim⟩

/-- **C155** (SPGL1 `solve_lasso`) with `tau = |u|₁` for a minimiser `u` of the penalised problem: a result accepted by the gap test has an image near that of `u`. -/
theorem c155_spgl1 (A : Vec n →ₗ[ℝ] Vec m) (At : Vec m →ₗ[ℝ] Vec n) (hadj : IsAdj A At) (b : Vec m) (lam : ℝ) (hl : 0 ≤ lam) (u : Vec n) (hu : QpMin A b lam u)
    (o : Spgl1Opts) (hm : 0 < o.memory) (s : LassoState m n) (hs : LassoSolve A At b (l1 u) o s) (hi : s.iterations < o.maxIters) (hr : o.optTol * ‖b‖ ≤ ‖b - A s.x‖) :
    l1 s.x ≤ l1 u ∧ 1 / 2 * ‖A s.x - A u‖ ^ 2 ≤ o.optTol * max 1 (‖b - A s.x‖ ^ 2 / 2) := by
  obtain ⟨h1, -, h3⟩ := (c61_solve_lasso A At hadj b (l1 u) (l1_nonneg u) o hm).2 s hs
  refine ⟨h1, ?_⟩
  rcases h3 with h3 | h3 | h3
  · have h4 := h3 u le_rfl
    have h5 := c155_growth A b hl hu s.x
    have h6 := mul_le_mul_of_nonneg_left h1 hl
    change lam * l1 s.x ≤ lam * l1 u at h6
    simp only [qpObj] at h5
    linarith
  · exact absurd h3 (not_lt.mpr hr)
  · omega

/-- **C155** (`lasso` of the first order methods) with `tau = |u|₁`. -/
theorem c155_fom_lasso (A : Vec n →ₗ[ℝ] Vec m) (At : Vec m → Vec n) (hadj : ∀ x y, ⟪A x, y⟫ = ⟪x, At y⟫) (b : Vec m) (lam : ℝ) (hl : 0 ≤ lam) (u : Vec n) (hu : QpMin A b lam u)
    (hu0 : 0 < l1 u) (x0 : Vec n) (o : FomOptions) (ha : o.alpha = 1) (hb0 : 0 < o.beta) (hb : o.beta < 1) (hL : 0 < o.L0) (hx : o.Lexact = none)
    (a : ℝ) (ha' : 0 ≤ a) (hA : ∀ d, ‖A d‖ ^ 2 ≤ a * ‖d‖ ^ 2) (s : FomState (Vec n) (Vec m)) (hr : FomReach (lasso A At b (l1 u) x0 o) s) :
    l1 s.x ≤ l1 u ∧ 1 / 2 * ‖A s.x - A u‖ ^ 2 ≤ 8 * l1 u ^ 2 * max o.L0 (2 * a / o.beta) * (1 + 2 * a / (o.L0 * (1 - o.beta))) / (s.iters + 1) ^ 2 := by
  obtain ⟨h1, h2⟩ := c132_lasso A At hadj b (l1 u) hu0 x0 o ha hb0 hb hL hx a ha' hA s hr
  refine ⟨h1, le_trans ?_ (h2 u le_rfl)⟩
  have h5 := c155_growth A b hl hu s.x
  have h6 := mul_le_mul_of_nonneg_left h1 hl
  simp only [qpObj] at h5
  rw [norm_sub_rev b, norm_sub_rev b] at h5
  linarith

/-! Instances: `A = 1`, `b = 1`, `lam = 1/2`, with the minimiser `1/2`. -/

example := c155_growth unit1 (v1 1) (by norm_num : (0 : ℝ) ≤ 1 / 2) c155_lambda_differs.1 (v1 3)
example := c155_same unit1 (v1 1) (by norm_num : (0 : ℝ) < 1 / 2) c155_lambda_differs.1 c155_lambda_differs.1
example := c155_close unit1 (v1 1) (by norm_num : (0 : ℝ) ≤ 1 / 2) c155_lambda_differs.1 (x1 := v1 1) (x2 := v1 0) (e1 := 1 / 8) (e2 := 1 / 8)
  (by simp only [qpObj, unit1_apply, v1_sub, v1_norm, v1_l1]; norm_num [abs_of_pos]) (by simp only [qpObj, unit1_apply, v1_sub, v1_norm, v1_l1]; norm_num [abs_of_pos])
example := c155_constrained unit1 (v1 1) (by norm_num : (0 : ℝ) < 1 / 2) (x := v1 (1 / 2)) (e := 0) (fun v => by rw [add_zero]; exact c155_lambda_differs.1 v)
example := c155_from_lasso unit1 unit1 unit1_adj (v1 1) (1 / 2) (v1 (1 / 2)) (by rw [v1_l1]; norm_num [abs_of_pos]) (fun v hv => by
  rw [v1_ext v, v1_l1] at hv
  rw [v1_ext v, unit1_apply, unit1_apply, v1_sub, v1_sub, v1_norm, v1_norm, abs_of_pos (by norm_num : (0 : ℝ) < 1 - 1 / 2), abs_of_pos (by linarith [le_abs_self (v 0)])]
  linarith [le_abs_self (v 0)])
/-- For `lam = 2` the minimiser is zero. -/
theorem ex_qp_zero : QpMin unit1 (v1 1) 2 0 := (c155_zero unit1 unit1 unit1_adj (v1 1) 2).1.2 fun i => by rw [unit1_apply]; show |(1 : ℝ)| ≤ 2; norm_num
example := c155_path unit1 (v1 1) (by norm_num : (0 : ℝ) ≤ 1 / 2) (by norm_num : (1 / 2 : ℝ) < 2) c155_lambda_differs.1 ex_qp_zero
example := (c155_zero unit1 unit1 unit1_adj (v1 1) 2).2 (by rw [unit1_apply, v1_linf]; norm_num)
example := c155_ista_fista unit1 unit1 unit1_adj (v1 1) 0 (1 / 2) 1 (by norm_num) one_pos (fun d => by rw [unit1_apply, one_mul]) 1e-3 1e-3 50 _ c155_lambda_differs.1
example := c155_l1rls unit1 unit1 unit1_adj (v1 1) (1 / 2) (by norm_num) 0 { L0 := 1, alpha := 1, beta := 1 / 2, maxIters := 100, tol := 1e-3, Lexact := none } rfl (by norm_num) (by norm_num) one_pos rfl
example := c155_l1ls unit1 unit1 unit1_adj (v1 1) (v1_ne_zero one_ne_zero) (1 / 2) (by norm_num) one_pos 1e-3 (by norm_num)
example := c155_yall unit1 unit1 unit1_adj unit1_orth (v1 1) (v1_ne_zero one_ne_zero) (1 / 2) (by norm_num) 0 5e-3 9999 0 0
example := c155_yall_con unit1 unit1 unit1_adj unit1_orth (v1 1) (v1_ne_zero one_ne_zero) (1 / 2) (by norm_num) (v1 (1 / 2)) c155_lambda_differs.1
  (fun h => by have := congrArg (fun v : Vec 1 => v 0) h; rw [unit1_apply] at this; norm_num [v1, vec] at this) 5e-3 9999 0 0
example (s) (hs : LassoSolve unit1 unit1 (v1 1) (l1 (v1 (1 / 2))) spgl1Default s) (hi) (hr) :=
  c155_spgl1 unit1 unit1 unit1_adj (v1 1) (1 / 2) (by norm_num) (v1 (1 / 2)) c155_lambda_differs.1 spgl1Default (by norm_num [spgl1Default]) s hs hi hr
example (s) (hr) := c155_fom_lasso unit1 unit1 unit1_adj (v1 1) (1 / 2) (by norm_num) (v1 (1 / 2)) c155_lambda_differs.1 (by rw [v1_l1]; norm_num) 0
  { L0 := 1, alpha := 1, beta := 1 / 2, maxIters := 100, tol := 1e-3, Lexact := none } rfl (by norm_num) (by norm_num) one_pos rfl 1 zero_le_one (fun d => by rw [unit1_apply, one_mul]) s hr

end Verif.Cvx
