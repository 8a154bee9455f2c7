import Verif.Cvx.RipLemmas
import Verif.Opt.FomRateProps

set_option autoImplicit false
/-!
# Recovery by the convex solvers under the restricted isometry property (C133)
-/
noncomputable section
namespace Verif.Cvx
open Verif.Opt Filter Topology
open scoped RealInnerProductSpace

variable {m n : ℕ}

/-- Points with a small `l1` norm. -/
theorem rip_cone {A : Vec n →ₗ[ℝ] Vec m} {c δ : ℝ} {K : ℕ} (hδ : 0 ≤ δ) (hδ1 : (1 + √2) * δ < 1) (hK : 0 < K) (hA : RipC A c (2 * K) δ)
    (S : Finset (Fin n)) (hS : S.card ≤ K) (xs x : Vec n) (sigma : ℝ) (hsig : 0 ≤ sigma) (hx : ∑ i, |x i| ≤ ∑ i, |xs i| + sigma) (eps : ℝ)
    (he : ‖A (x - xs)‖ ≤ eps) :
    (1 - (1 + √2) * δ) * ‖x - xs‖ ≤ 2 * √((1 + δ) / c) * eps + (1 + (√2 - 1) * δ) * ((sigma + 2 * ∑ i ∈ Sᶜ, |xs i|) / √K) := by
  have h0 : 0 ≤ √2 * δ := mul_nonneg (Real.sqrt_nonneg _) hδ
  have h1 := cone_bound S xs x sigma hx
  have h2 : 0 ≤ ∑ i ∈ Sᶜ, |xs i| := Finset.sum_nonneg fun _ _ => abs_nonneg _
  have h3 := rip_error hδ (by linarith) hK hA S hS (x - xs) 1 (sigma + 2 * ∑ i ∈ Sᶜ, |xs i|) zero_le_one (by linarith) (by rwa [one_mul]) (by linarith)
  rw [← Real.sqrt_div (by linarith)] at h3
  have h4 := mul_le_mul_of_nonneg_left he (Real.sqrt_nonneg ((1 + δ) / c))
  have e : 1 - δ - 1 * (√2 * δ) = 1 - (1 + √2) * δ := by ring
  rw [e] at h3
  linarith

/-- **C133** Basis pursuit by YALL1: for `A` with orthonormal rows and the restricted isometry property of order `2K` with constant below `√2 - 1`, the
iterates for the measurements `b = A xs` converge from every starting point, and the error of the limit is at most a constant times the mass of `xs` off
any `K` entries over `√K`. -/
theorem c133_yall1_bp (A : Vec n →ₗ[ℝ] Vec m) (At : Vec m →ₗ[ℝ] Vec n) (hadj : IsAdj A At) (hI : ∀ y, A (At y) = y) (c δ : ℝ) (K : ℕ) (hδ : 0 ≤ δ)
    (hδ1 : (1 + √2) * δ < 1) (hK : 0 < K) (hA : RipC A c (2 * K) δ) (xs : Vec n) (hb : A xs ≠ 0) (rho delta : ℝ) (hrho : rho ≤ 0) (hdelta : delta ≤ 0)
    (gamma tol : ℝ) (hg0 : 0 < gamma) (hg1 : gamma < (1 + √5) / 2) (maxIters : ℕ) (x0 z0 : Vec n) :
    ∃ x, Tendsto (fun k => linf (A xs) • ((yallIter A At (yallArgs (A xs) none false rho delta gamma tol maxIters))^[k]
        (yallInit A At (yallArgs (A xs) none false rho delta gamma tol maxIters) x0 z0)).x) atTop (𝓝 x) ∧
      ((Finset.univ.filter fun i => xs i ≠ 0).card ≤ K → x = xs) ∧
      ∀ S : Finset (Fin n), S.card ≤ K → (1 - (1 + √2) * δ) * ‖x - xs‖ ≤ 2 * (1 + (√2 - 1) * δ) * (∑ i ∈ Sᶜ, |xs i|) / √K := by
  obtain ⟨x, hx, hlim⟩ := c86_converges_gamma A At hadj hI (A xs) hb none (fun _ => one_pos) false rho delta gamma tol maxIters x0 z0 hg0 hg1 (fun h => by simp at h) (fun h => by simp at h)
  have hp : yallProblem rho delta = .bp := by
    unfold yallProblem
    rw [if_neg (not_lt.mpr hrho), if_neg (not_lt.mpr hdelta)]
  rw [hp] at hx
  have hf : A x = A xs := hx.1.2
  have hopt : ∑ i, (1 : ℝ) * |x i| ≤ ∑ i, (1 : ℝ) * |xs i| := hx.2 xs ⟨fun h => by simp at h, rfl⟩
  simp only [one_mul] at hopt
  have hall : ∀ S : Finset (Fin n), S.card ≤ K → (1 - (1 + √2) * δ) * ‖x - xs‖ ≤ 2 * (1 + (√2 - 1) * δ) * (∑ i ∈ Sᶜ, |xs i|) / √K := by
    intro S hS
    have h1 := rip_cone hδ hδ1 hK hA S hS xs x 0 le_rfl (by linarith) 0 (by rw [map_sub, hf, sub_self, norm_zero])
    refine h1.trans_eq ?_
    ring
  refine ⟨x, hlim, fun hs => ?_, hall⟩
  have h1 := hall _ hs
  have hz : ∑ i ∈ (Finset.univ.filter fun i => xs i ≠ 0)ᶜ, |xs i| = 0 := Finset.sum_eq_zero fun i hi => by
    have : xs i = 0 := by
      by_contra hne
      exact Finset.mem_compl.1 hi (Finset.mem_filter.2 ⟨Finset.mem_univ i, hne⟩)
    rw [this, abs_zero]
  rw [hz, mul_zero, zero_div] at h1
  have h2 : ‖x - xs‖ ≤ 0 := by
    by_contra hcon
    push Not at hcon
    have : 0 < (1 - (1 + √2) * δ) * ‖x - xs‖ := mul_pos (by linarith) hcon
    linarith
  exact sub_eq_zero.1 (norm_eq_zero.1 (le_antisymm h2 (norm_nonneg _)))

/-- **C133** YALL1 with a bound on the residual, measurements `b = A xs + e` with `|e| ≤ delta`: the iterates converge, and the error of the limit is at
most a constant times `delta` plus a constant times the mass of `xs` off any `K` entries over `√K`. -/
theorem c133_yall1_noise (A : Vec n →ₗ[ℝ] Vec m) (At : Vec m →ₗ[ℝ] Vec n) (hadj : IsAdj A At) (hI : ∀ y, A (At y) = y) (c δ : ℝ) (K : ℕ) (hδ : 0 ≤ δ)
    (hδ1 : (1 + √2) * δ < 1) (hK : 0 < K) (hA : RipC A c (2 * K) δ) (xs : Vec n) (e : Vec m) (rho delta : ℝ) (hrho : rho ≤ 0) (hdelta : 0 < delta)
    (he : ‖e‖ ≤ delta) (hb : A xs + e ≠ 0) (gamma tol : ℝ) (hg0 : 0 < gamma) (hg1 : gamma < (1 + √5) / 2) (maxIters : ℕ) (x0 z0 : Vec n) :
    ∃ x, Tendsto (fun k => linf (A xs + e) • ((yallIter A At (yallArgs (A xs + e) none false rho delta gamma tol maxIters))^[k]
        (yallInit A At (yallArgs (A xs + e) none false rho delta gamma tol maxIters) x0 z0)).x) atTop (𝓝 x) ∧
      ∀ S : Finset (Fin n), S.card ≤ K → (1 - (1 + √2) * δ) * ‖x - xs‖ ≤
        4 * √((1 + δ) / c) * delta + 2 * (1 + (√2 - 1) * δ) * (∑ i ∈ Sᶜ, |xs i|) / √K := by
  obtain ⟨x, hx, hlim⟩ := c86_converges_gamma A At hadj hI (A xs + e) hb none (fun _ => one_pos) false rho delta gamma tol maxIters x0 z0 hg0 hg1 (fun h => by simp at h) (fun h => by simp at h)
  refine ⟨x, hlim, fun S hS => ?_⟩
  have hp : yallProblem rho delta = .con delta := by
    unfold yallProblem
    rw [if_neg (not_lt.mpr hrho), if_pos hdelta]
  rw [hp] at hx
  have hf : ‖A x - (A xs + e)‖ ≤ delta := hx.1.2
  have hopt : ∑ i, (1 : ℝ) * |x i| ≤ ∑ i, (1 : ℝ) * |xs i| := hx.2 xs ⟨fun h => by simp at h, by
    show ‖A xs - (A xs + e)‖ ≤ delta
    rw [sub_add_cancel_left, norm_neg]; exact he⟩
  simp only [one_mul] at hopt
  have hAh : ‖A (x - xs)‖ ≤ 2 * delta := by
    have e1 : A (x - xs) = (A x - (A xs + e)) + e := by rw [map_sub]; abel
    rw [e1]
    exact (norm_add_le _ _).trans (by linarith)
  have h1 := rip_cone hδ hδ1 hK hA S hS xs x 0 le_rfl (by linarith) _ hAh
  refine h1.trans_eq ?_
  ring

theorem residual_err (A : Vec n →ₗ[ℝ] Vec m) (xs x : Vec n) (e : Vec m) : ‖A (x - xs)‖ ≤ ‖A xs + e - A x‖ + ‖e‖ := by
  have e1 : A (x - xs) = e - (A xs + e - A x) := by rw [map_sub]; abel
  rw [e1]
  exact (norm_sub_le _ _).trans (add_comm _ _).le

/-- **C133** SPGL1's LASSO with the radius `|xs|₁`, measurements `b = A xs + e`: at every state of the run the error is at most a constant times the residual
reported plus the noise, plus a constant times the mass of `xs` off any `K` entries over `√K`. -/
theorem c133_lasso_noise (A : Vec n →ₗ[ℝ] Vec m) (At : Vec m →ₗ[ℝ] Vec n) (c δ : ℝ) (K : ℕ) (hδ : 0 ≤ δ) (hδ1 : (1 + √2) * δ < 1) (hK : 0 < K)
    (hA : RipC A c (2 * K) δ) (xs : Vec n) (e : Vec m) (x0 : Vec n) (o : Spgl1Opts) (hm : 0 < o.memory) (s : LassoState m n)
    (h : LassoReach A At (A xs + e) (∑ i, |xs i|) x0 o s) (S : Finset (Fin n)) (hS : S.card ≤ K) :
    (1 - (1 + √2) * δ) * ‖s.x - xs‖ ≤ 2 * √((1 + δ) / c) * (s.rNorm + ‖e‖) + 2 * (1 + (√2 - 1) * δ) * (∑ i ∈ Sᶜ, |xs i|) / √K := by
  obtain ⟨h1, -, -, h4, -⟩ := c61_consistent A At (A xs + e) _ (Finset.sum_nonneg fun i _ => abs_nonneg (xs i)) x0 o hm s h
  have h5 := rip_cone hδ hδ1 hK hA S hS xs s.x 0 le_rfl (by linarith) _ (residual_err A xs s.x e)
  rw [h4]
  refine h5.trans_eq ?_
  ring

/-- **C133** The LASSO solver returns, and unless the iteration limit was reached the error of the result is at most a constant times the noise level and what
the tolerance allows, plus the mass of `xs` off any `K` entries. -/
theorem c133_lasso_returns (A : Vec n →ₗ[ℝ] Vec m) (At : Vec m →ₗ[ℝ] Vec n) (hadj : IsAdj A At) (c δ : ℝ) (K : ℕ) (hδ : 0 ≤ δ) (hδ1 : (1 + √2) * δ < 1)
    (hK : 0 < K) (hA : RipC A c (2 * K) δ) (xs : Vec n) (e : Vec m) (x0 : Vec n) (o : Spgl1Opts) (hm : 0 < o.memory) :
    (∃ s, LassoSolveFrom A At (A xs + e) (∑ i, |xs i|) x0 o s) ∧
    ∀ s, LassoSolveFrom A At (A xs + e) (∑ i, |xs i|) x0 o s →
      (∀ S : Finset (Fin n), S.card ≤ K →
        (1 - (1 + √2) * δ) * ‖s.x - xs‖ ≤ 2 * √((1 + δ) / c) * (s.rNorm + ‖e‖) + 2 * (1 + (√2 - 1) * δ) * (∑ i ∈ Sᶜ, |xs i|) / √K) ∧
      (s.rNorm ^ 2 ≤ ‖e‖ ^ 2 + 2 * o.optTol * max 1 (s.rNorm ^ 2 / 2) ∨ s.rNorm ≤ o.optTol * ‖A xs + e‖ ∨ o.maxIters ≤ s.iterations) := by
  have htau : 0 ≤ ∑ i, |xs i| := Finset.sum_nonneg fun i _ => abs_nonneg (xs i)
  obtain ⟨hex, hall⟩ := c61_stop A At hadj (A xs + e) _ htau x0 o hm
  refine ⟨hex, fun s hsol => ⟨c133_lasso_noise A At c δ K hδ hδ1 hK hA xs e x0 o hm s hsol.1, ?_⟩⟩
  obtain ⟨-, -, -, h4, -⟩ := c61_consistent A At (A xs + e) _ htau x0 o hm s hsol.1
  rw [h4]
  rcases hall s hsol with h1 | h1 | h1
  · left
    have h2 := h1 xs le_rfl
    rw [add_sub_cancel_left] at h2
    linarith
  · right; left
    linarith
  · exact Or.inr (Or.inr h1)

/-- **C133** SPGL1's basis pursuit with noise level `sigma ≥ |e|`: after an iteration in which the radius grew, the error of the iterate is bounded by its
residual, the noise, the mass of `xs` off any `K` entries, and the excess of the radius, which the reported gap bounds. -/
theorem c133_bpic_noise (A : Vec n →ₗ[ℝ] Vec m) (At : Vec m →ₗ[ℝ] Vec n) (hadj : IsAdj A At) (c δ : ℝ) (K : ℕ) (hδ : 0 ≤ δ) (hδ1 : (1 + √2) * δ < 1)
    (hK : 0 < K) (hA : RipC A c (2 * K) δ) (xs : Vec n) (e : Vec m) (sigma : ℝ) (he : ‖e‖ ≤ sigma) (o : Spgl1Opts) (hm : 0 < o.memory)
    (s s' : BpState m n) (h : BpicReach A At (A xs + e) sigma o s) (hc : bpCond (A xs + e) sigma o s)
    (hst : bpBody A At (A xs + e) sigma o s = some s') (htau : s.tau < s'.tau) (S : Finset (Fin n)) (hS : S.card ≤ K) :
    (1 - (1 + √2) * δ) * ‖s'.x - xs‖ ≤ 2 * √((1 + δ) / c) * (‖s'.r‖ + ‖e‖) +
      (1 + (√2 - 1) * δ) * ((|s'.rGap| * max 1 (‖s'.r‖ ^ 2 / 2) / linf s'.g + 2 * ∑ i ∈ Sᶜ, |xs i|) / √K) := by
  have h1 := (c107_tau_bound A At hadj (A xs + e) sigma o hm xs (by rw [add_sub_cancel_left]; exact he)).2 s s' h hc hst htau
  obtain ⟨-, h2, h3, -, -⟩ := c62_consistent A At (A xs + e) sigma 0 o hm s' (.step h hc hst)
  have hi := bp_inv hm h
  have hit : 1 < s'.iterations := by rw [(bp_body_inv hm hi hst).2.1]; exact Nat.lt_succ_of_le hi.iters
  have hl : 0 ≤ linf s'.g := linf_nonneg _
  have hmx : 0 ≤ max 1 (‖s'.r‖ ^ 2 / 2) := le_trans zero_le_one (le_max_left _ _)
  refine rip_cone hδ hδ1 hK hA S hS xs s'.x _ (div_nonneg (mul_nonneg (abs_nonneg _) hmx) hl) ?_ _ (h3 ▸ residual_err A xs s'.x e)
  refine (h2 hit).trans (h1.trans ?_)
  have : s'.rGap * max 1 (‖s'.r‖ ^ 2 / 2) / linf s'.g ≤ |s'.rGap| * max 1 (‖s'.r‖ ^ 2 / 2) / linf s'.g :=
    div_le_div_of_nonneg_right (mul_le_mul_of_nonneg_right (le_abs_self _) hmx) hl
  linarith

/-- The penalised problem: a point `x` whose objective `|A x - b|² + lam |x|₁` exceeds the objective of `xs` by at most `zeta`, for a penalty
`lam ≥ 4 |Aᵀ e|_∞`: the error has at most three times more mass off `S`, and `|A (x - xs)|²` is at most `1.5 lam` times its mass on `S`. -/
theorem penalised_cone {A : Vec n →ₗ[ℝ] Vec m} {At : Vec m →ₗ[ℝ] Vec n} (hadj : IsAdj A At) (S : Finset (Fin n)) (xs x : Vec n)
    (hs : ∀ i, i ∉ S → xs i = 0) (e : Vec m) (lam zeta : ℝ) (hlam : 0 < lam) (hl : ∀ i, 4 * |At e i| ≤ lam)
    (hx : ‖A x - (A xs + e)‖ ^ 2 + lam * ∑ i, |x i| ≤ ‖A xs - (A xs + e)‖ ^ 2 + lam * ∑ i, |xs i| + zeta) :
    ‖A (x - xs)‖ ^ 2 ≤ 3 / 2 * lam * (∑ i ∈ S, |(x - xs) i|) + zeta ∧
    ∑ i ∈ Sᶜ, |(x - xs) i| ≤ 3 * ∑ i ∈ S, |(x - xs) i| + 2 * (zeta / lam) := by
  set h := x - xs with hh
  have e1 : A x - (A xs + e) = A h - e := by rw [hh, map_sub]; abel
  have e2 : A xs - (A xs + e) = -e := by abel
  rw [e1, e2, norm_neg, norm_sub_sq_real] at hx
  have h1 : 2 * ⟪A h, e⟫ ≤ lam / 2 * ∑ i, |h i| := by
    have : ⟪A h, e⟫ = ⟪h, At e⟫ := hadj h e
    rw [this, PiLp.inner_apply, Finset.mul_sum, Finset.mul_sum]
    refine Finset.sum_le_sum fun i _ => ?_
    have h2 : ⟪h i, At e i⟫ ≤ |h i| * |At e i| := by
      have : (⟪h i, At e i⟫ : ℝ) = At e i * h i := rfl
      rw [this, mul_comm, ← abs_mul]; exact le_abs_self _
    have h3 := mul_le_mul_of_nonneg_left (hl i) (abs_nonneg (h i))
    nlinarith
  have h4 := Finset.sum_add_sum_compl S (fun i => |h i|)
  have h5 : ∑ i, |xs i| ≤ ∑ i, |x i| + ∑ i ∈ S, |h i| - ∑ i ∈ Sᶜ, |h i| := by
    rw [← Finset.sum_add_sum_compl S (fun i => |x i|), ← Finset.sum_add_sum_compl S (fun i => |xs i|)]
    have k1 : ∑ i ∈ S, |xs i| ≤ ∑ i ∈ S, |x i| + ∑ i ∈ S, |h i| := by
      rw [← Finset.sum_add_distrib]
      refine Finset.sum_le_sum fun i _ => ?_
      have : xs i = x i - h i := by show xs i = x i - (x i - xs i); ring
      calc |xs i| = |x i - h i| := by rw [← this]
        _ ≤ _ := abs_sub _ _
    have k2 : ∑ i ∈ Sᶜ, |xs i| = 0 := Finset.sum_eq_zero fun i hi => by rw [hs i (Finset.mem_compl.1 hi), abs_zero]
    have k3 : ∑ i ∈ Sᶜ, |h i| = ∑ i ∈ Sᶜ, |x i| := Finset.sum_congr rfl fun i hi => by
      have : h i = x i - xs i := rfl
      rw [this, hs i (Finset.mem_compl.mp hi), sub_zero]
    linarith
  set a := ∑ i ∈ S, |h i| with ha
  set d := ∑ i ∈ Sᶜ, |h i| with hd
  have hd0 : 0 ≤ d := Finset.sum_nonneg fun _ _ => abs_nonneg _
  rw [← h4] at h1
  have h8 : ‖A h‖ ^ 2 ≤ 3 / 2 * lam * a - lam / 2 * d + zeta := by nlinarith
  have h9 : 0 ≤ lam / 2 * d := mul_nonneg (by positivity) hd0
  refine ⟨by linarith, ?_⟩
  have : lam / 2 * d ≤ 3 / 2 * lam * a + zeta := by nlinarith [sq_nonneg ‖A h‖]
  have hz' : zeta = zeta / lam * lam := by field_simp
  rw [hz'] at this
  have : lam * d ≤ lam * (3 * a + 2 * (zeta / lam)) := by linarith
  exact le_of_mul_le_mul_left this hlam

theorem penalised_arith {k t p q u r : ℝ} (hk : 0 < k) (ht : 0 ≤ t) (hp : 0 ≤ p) (hq : 0 ≤ q) (hr : 0 ≤ r) (hu : 0 ≤ u) {y : ℝ}
    (hz : 0 ≤ u) (hy : y ^ 2 ≤ q * t + u) (h : k * t ≤ 4 * (√p * y) + r) :
    t ≤ 32 * p * q / k ^ 2 + √((32 * p * u + 2 * r ^ 2) / k ^ 2) := by
  refine quad_le ht (by positivity) (by positivity) (by positivity) ?_
  have h1 : (k * t) ^ 2 ≤ (4 * (√p * y) + r) ^ 2 := pow_le_pow_left₀ (mul_nonneg hk.le ht) h 2
  have h2 : (√p * y) ^ 2 = p * y ^ 2 := by rw [mul_pow, Real.sq_sqrt hp]
  have h3 : (4 * (√p * y) + r) ^ 2 ≤ 32 * (√p * y) ^ 2 + 2 * r ^ 2 := by nlinarith [sq_nonneg (4 * (√p * y) - r)]
  have h4 := mul_le_mul_of_nonneg_left hy hp
  rw [h2] at h3
  nlinarith

/-- The error of the penalised problem under the restricted isometry property. -/
theorem penalised_rip {A : Vec n →ₗ[ℝ] Vec m} {At : Vec m →ₗ[ℝ] Vec n} (hadj : IsAdj A At) {c δ : ℝ} {K : ℕ} (hδ : 0 ≤ δ)
    (hδ1 : (1 + 3 * √2) * δ < 1) (hK : 0 < K) (hA : RipC A c (2 * K) δ) (xs x : Vec n)
    (hs : (Finset.univ.filter fun i => xs i ≠ 0).card ≤ K) (e : Vec m) (lam zeta : ℝ) (hlam : 0 < lam) (hz : 0 ≤ zeta)
    (hl : ∀ i, 4 * |At e i| ≤ lam)
    (hx : ‖A x - (A xs + e)‖ ^ 2 + lam * ∑ i, |x i| ≤ ‖A xs - (A xs + e)‖ ^ 2 + lam * ∑ i, |xs i| + zeta) :
    ‖x - xs‖ ≤ 48 * ((1 + δ) / c) * (lam * √K) / (1 - (1 + 3 * √2) * δ) ^ 2 +
      √((32 * ((1 + δ) / c) * zeta + 2 * ((1 + (√2 - 1) * δ) * (2 * (zeta / lam) / √K)) ^ 2) / (1 - (1 + 3 * √2) * δ) ^ 2) := by
  set S := Finset.univ.filter fun i => xs i ≠ 0 with hS
  obtain ⟨h1, h2⟩ := penalised_cone hadj S xs x (fun i hi => by
    by_contra hne
    exact hi (Finset.mem_filter.2 ⟨Finset.mem_univ i, hne⟩)) e lam zeta hlam hl hx
  have h0 : 0 ≤ √2 * δ := mul_nonneg (Real.sqrt_nonneg _) hδ
  have hzl : 0 ≤ zeta / lam := div_nonneg hz hlam.le
  have h3 := rip_error hδ (by linarith) hK hA S hs (x - xs) 3 (2 * (zeta / lam)) (by norm_num) (by linarith) h2 (by linarith)
  rw [← Real.sqrt_div (by linarith)] at h3
  have e1 : 1 - δ - 3 * (√2 * δ) = 1 - (1 + 3 * √2) * δ := by ring
  have e2 : (1 + 3 : ℝ) = 4 := by norm_num
  rw [e1, e2] at h3
  have h4 : ∑ i ∈ S, |(x - xs) i| ≤ √K * ‖x - xs‖ := by
    have h5 := Real.sqrt_le_sqrt (l1_on_sq S (x - xs))
    rw [Real.sqrt_sq (Finset.sum_nonneg fun _ _ => abs_nonneg _), Real.sqrt_mul (Nat.cast_nonneg _), Real.sqrt_sq (norm_nonneg _)] at h5
    exact h5.trans (mul_le_mul_of_nonneg_right (Real.sqrt_le_sqrt (by exact_mod_cast hs)) (norm_nonneg _))
  have h6 : ‖A (x - xs)‖ ^ 2 ≤ 3 / 2 * lam * √K * ‖x - xs‖ + zeta := by
    have := mul_le_mul_of_nonneg_left h4 (show 0 ≤ 3 / 2 * lam by positivity)
    linarith
  have hr : 0 ≤ (1 + (√2 - 1) * δ) * (2 * (zeta / lam) / √K) := by
    refine mul_nonneg ?_ (div_nonneg (by linarith) (Real.sqrt_nonneg _))
    linarith
  have h7 := penalised_arith (by linarith : 0 < 1 - (1 + 3 * √2) * δ) (norm_nonneg (x - xs)) (div_nonneg (by linarith) hA.pos.le : 0 ≤ (1 + δ) / c)
    (by positivity) hr hz hz h6 h3
  refine h7.trans_eq ?_
  congr 2
  ring

/-- **C133** `l1ls` under the restricted isometry property: for a signal with at most `K` non-zero entries, measurements `y = A xs + e` and a penalty
`lam ≥ 4 |Aᵀ e|_∞`, the `x` returned by the default start before the iteration limit has an error of at most a constant times `lam √K`, plus what the
stopping tolerance allows (`zeta = tol (|e|² + lam |xs|₁)`). -/
theorem c133_l1ls_noise (A : Vec n →ₗ[ℝ] Vec m) (At : Vec m →ₗ[ℝ] Vec n) (hadj : IsAdj A At) (c δ : ℝ) (K : ℕ) (hδ : 0 ≤ δ)
    (hδ1 : (1 + 3 * √2) * δ < 1) (hK : 0 < K) (hA : RipC A c (2 * K) δ) (xs : Vec n) (hs : (Finset.univ.filter fun i => xs i ≠ 0).card ≤ K) (e : Vec m)
    (lam : ℝ) (hlam : 0 < lam) (hl : ∀ i, 4 * |At e i| ≤ lam) (tol xi : ℝ) (htol : 0 ≤ tol) (N P : ℕ) (s : L1lsState m n)
    (h : L1lsSolve A At (A xs + e) lam tol xi N P s) (hN : s.iterations < N) (zeta : ℝ) (hzeta : zeta = tol * (‖e‖ ^ 2 + lam * ∑ i, |xs i|)) :
    ‖s.x - xs‖ ≤ 48 * ((1 + δ) / c) * (lam * √K) / (1 - (1 + 3 * √2) * δ) ^ 2 +
      √((32 * ((1 + δ) / c) * zeta + 2 * ((1 + (√2 - 1) * δ) * (2 * (zeta / lam) / √K)) ^ 2) / (1 - (1 + 3 * √2) * δ) ^ 2) := by
  obtain ⟨h1, -⟩ := c63_default_start A At hadj (A xs + e) lam hlam tol xi htol N P s h hN xs
  have hl1 : 0 ≤ ∑ i, |xs i| := Finset.sum_nonneg fun i _ => abs_nonneg (xs i)
  refine penalised_rip hadj hδ hδ1 hK hA xs s.x hs e lam zeta hlam (hzeta ▸ mul_nonneg htol (by positivity)) hl (h1.trans_eq ?_)
  have : ‖A xs - (A xs + e)‖ = ‖e‖ := by rw [sub_add_cancel_left, norm_neg]
  rw [this, hzeta]; ring

/-- **C133** YALL1's penalised form (`rho > 0`) under the restricted isometry property: for `2 rho ≥ 4 |Aᵀ e|_∞` and a signal with at most `K` non-zero
entries the iterates converge from every starting point, and the error of the limit is at most a constant times `rho √K`. -/
theorem c133_yall1_penalised (A : Vec n →ₗ[ℝ] Vec m) (At : Vec m →ₗ[ℝ] Vec n) (hadj : IsAdj A At) (hI : ∀ y, A (At y) = y) (c δ : ℝ) (K : ℕ)
    (hδ : 0 ≤ δ) (hδ1 : (1 + 3 * √2) * δ < 1) (hK : 0 < K) (hA : RipC A c (2 * K) δ) (xs : Vec n)
    (hs : (Finset.univ.filter fun i => xs i ≠ 0).card ≤ K) (e : Vec m) (rho delta : ℝ) (hrho : 0 < rho)
    (hl : ∀ i, 4 * |At e i| ≤ 2 * rho) (hb : A xs + e ≠ 0) (gamma tol : ℝ) (hg0 : 0 < gamma) (hg1 : gamma < (1 + √5) / 2) (maxIters : ℕ) (x0 z0 : Vec n) :
    ∃ x, Tendsto (fun k => linf (A xs + e) • ((yallIter A At (yallArgs (A xs + e) none false rho delta gamma tol maxIters))^[k]
        (yallInit A At (yallArgs (A xs + e) none false rho delta gamma tol maxIters) x0 z0)).x) atTop (𝓝 x) ∧
      ‖x - xs‖ ≤ 96 * ((1 + δ) / c) * (rho * √K) / (1 - (1 + 3 * √2) * δ) ^ 2 := by
  obtain ⟨x, hx, hlim⟩ := c86_converges_gamma A At hadj hI (A xs + e) hb none (fun _ => one_pos) false rho delta gamma tol maxIters x0 z0 hg0 hg1 (fun h => by simp at h) (fun h => by simp at h)
  refine ⟨x, hlim, ?_⟩
  have hp : yallProblem rho delta = .l1l2 rho := by
    unfold yallProblem
    rw [if_pos hrho]
  rw [hp] at hx
  have hopt : ∑ i, (1 : ℝ) * |x i| + ‖A x - (A xs + e)‖ ^ 2 / (2 * rho) ≤ ∑ i, (1 : ℝ) * |xs i| + ‖A xs - (A xs + e)‖ ^ 2 / (2 * rho) :=
    hx.2 xs ⟨fun h => by simp at h, trivial⟩
  simp only [one_mul] at hopt
  have h1 := penalised_rip hadj hδ hδ1 hK hA xs x hs e (2 * rho) 0 (by positivity) le_rfl hl (by
    have h2 := mul_le_mul_of_nonneg_left hopt (show 0 ≤ 2 * rho by positivity)
    have h3 : ∀ t : ℝ, 2 * rho * (t / (2 * rho)) = t := fun t => by field_simp
    rw [mul_add, mul_add, h3, h3] at h2
    linarith)
  have e0 : √((32 * ((1 + δ) / c) * 0 + 2 * ((1 + (√2 - 1) * δ) * (2 * (0 / (2 * rho)) / √K)) ^ 2) / (1 - (1 + 3 * √2) * δ) ^ 2) = 0 := by simp
  rw [e0, add_zero] at h1
  refine h1.trans_eq ?_
  ring

/-- **C133** The first order solver `lasso` with `tau = |xs|₁`, `alpha = 1` and any `L0`: after `k` iterations the error is at most a constant times
`√(|e|² + 2 B/(k+1)²) + |e|`, plus a constant times the mass of `xs` off any `K` entries over `√K`. -/
theorem c133_fom_lasso (A : Vec n →ₗ[ℝ] Vec m) (At : Vec m → Vec n) (hadj : ∀ x y, ⟪A x, y⟫ = ⟪x, At y⟫) (c δ : ℝ) (K : ℕ) (hδ : 0 ≤ δ)
    (hδ1 : (1 + √2) * δ < 1) (hK : 0 < K) (hA : RipC A c (2 * K) δ) (xs : Vec n) (hxs : xs ≠ 0) (e : Vec m) (x0 : Vec n)
    (o : FomOptions) (ha : o.alpha = 1) (hb0 : 0 < o.beta) (hb : o.beta < 1) (hL : 0 < o.L0) (hx : o.Lexact = none)
    (a : ℝ) (ha' : 0 ≤ a) (hAn : ∀ d, ‖A d‖ ^ 2 ≤ a * ‖d‖ ^ 2) (s : FomState (Vec n) (Vec m))
    (hr : FomReach (lasso A At (A xs + e) (∑ i, |xs i|) x0 o) s) (S : Finset (Fin n)) (hS : S.card ≤ K) :
    (1 - (1 + √2) * δ) * ‖s.x - xs‖ ≤ 2 * √((1 + δ) / c) *
        (√(‖e‖ ^ 2 + 16 * (∑ i, |xs i|) ^ 2 * max o.L0 (2 * a / o.beta) * (1 + 2 * a / (o.L0 * (1 - o.beta))) / (s.iters + 1) ^ 2) + ‖e‖) +
      2 * (1 + (√2 - 1) * δ) * (∑ i ∈ Sᶜ, |xs i|) / √K := by
  have htau : 0 < ∑ i, |xs i| := by
    obtain ⟨i, hi⟩ : ∃ i, xs i ≠ 0 := by
      by_contra hcon
      push Not at hcon
      exact hxs (by ext i; exact hcon i)
    exact lt_of_lt_of_le (abs_pos.mpr hi) (Finset.single_le_sum (fun j _ => abs_nonneg (xs j)) (Finset.mem_univ i))
  obtain ⟨h1, h2⟩ := c132_lasso A At hadj (A xs + e) _ htau x0 o ha hb0 hb hL hx a ha' hAn s hr
  have h3 := h2 xs le_rfl
  have e1 : ‖A xs - (A xs + e)‖ = ‖e‖ := by rw [sub_add_cancel_left, norm_neg]
  rw [e1] at h3
  have h1' : ∑ i, |s.x i| ≤ ∑ i, |xs i| := h1
  have h4 : ‖A xs + e - A s.x‖ ≤
      √(‖e‖ ^ 2 + 16 * (∑ i, |xs i|) ^ 2 * max o.L0 (2 * a / o.beta) * (1 + 2 * a / (o.L0 * (1 - o.beta))) / (s.iters + 1) ^ 2) := by
    refine Real.le_sqrt_of_sq_le ?_
    rw [norm_sub_rev]
    have e2 : 16 * (∑ i, |xs i|) ^ 2 * max o.L0 (2 * a / o.beta) * (1 + 2 * a / (o.L0 * (1 - o.beta))) / ((s.iters : ℝ) + 1) ^ 2 =
        2 * (8 * (∑ i, |xs i|) ^ 2 * max o.L0 (2 * a / o.beta) * (1 + 2 * a / (o.L0 * (1 - o.beta))) / ((s.iters : ℝ) + 1) ^ 2) := by ring
    rw [e2]
    linarith
  have h5 := rip_cone hδ hδ1 hK hA S hS xs s.x 0 le_rfl (by linarith) _ ((residual_err A xs s.x e).trans (add_le_add_left h4 _))
  refine h5.trans_eq ?_
  ring

/-- **C133** The first order solver `l1rls` with `alpha = 1` and any `L0`, for a penalty `lambda ≥ 2 |Aᵀ e|_∞`: for a signal with at most `K` non-zero entries
there is a constant `B`, independent of `max_iters` and `tol`, such that after `k` iterations the error is at most a constant times `lambda √K` plus what an
excess of the objective of `zeta = B/(k+1)²` allows. -/
theorem c133_fom_l1rls (A : Vec n →ₗ[ℝ] Vec m) (At : Vec m →ₗ[ℝ] Vec n) (hadj : IsAdj A At) (c δ : ℝ) (K : ℕ) (hδ : 0 ≤ δ)
    (hδ1 : (1 + 3 * √2) * δ < 1) (hK : 0 < K) (hA : RipC A c (2 * K) δ) (xs : Vec n) (hs : (Finset.univ.filter fun i => xs i ≠ 0).card ≤ K) (e : Vec m)
    (lam : ℝ) (hlam : 0 < lam) (hl : ∀ i, 2 * |At e i| ≤ lam) (x0 : Vec n)
    (o : FomOptions) (ha : o.alpha = 1) (hb0 : 0 < o.beta) (hb : o.beta < 1) (hL : 0 < o.L0) (hx : o.Lexact = none) :
    ∃ B, 0 ≤ B ∧ ∀ (N : ℕ) (tol : ℝ) (s : FomState (Vec n) (Vec m)),
      FomReach (l1rls A At (A xs + e) lam x0 { o with maxIters := N, tol := tol }) s → ∀ zeta, zeta = B / ((s.iters : ℝ) + 1) ^ 2 →
      ‖s.x - xs‖ ≤ 96 * ((1 + δ) / c) * (lam * √K) / (1 - (1 + 3 * √2) * δ) ^ 2 +
        √((32 * ((1 + δ) / c) * zeta + 2 * ((1 + (√2 - 1) * δ) * ((zeta / lam) / √K)) ^ 2) / (1 - (1 + 3 * √2) * δ) ^ 2) := by
  obtain ⟨c0, h0⟩ := c132_l1rls A At hadj (A xs + e) lam hlam x0 o ha hb0 hb hL hx
  refine ⟨2 * max c0 0, by positivity, fun N tol s hr zeta hz => ?_⟩
  have h1 := h0 N tol s hr xs
  have hk : 0 < ((s.iters : ℝ) + 1) ^ 2 := by positivity
  have h2 : c0 / ((s.iters : ℝ) + 1) ^ 2 ≤ max c0 0 / ((s.iters : ℝ) + 1) ^ 2 := div_le_div_of_nonneg_right (le_max_left _ _) hk.le
  have hz' : zeta = 2 * (max c0 0 / ((s.iters : ℝ) + 1) ^ 2) := by rw [hz]; ring
  have hz0 : 0 ≤ zeta := by rw [hz]; positivity
  have h3 := penalised_rip hadj hδ hδ1 hK hA xs s.x hs e (2 * lam) zeta (by positivity) hz0 (fun i => by have := hl i; linarith) (by
    have e1 : l1 s.x = ∑ i, |s.x i| := rfl
    have e2 : l1 xs = ∑ i, |xs i| := rfl
    rw [e1, e2] at h1
    linarith)
  refine h3.trans_eq ?_
  have e1 : 2 * (zeta / (2 * lam)) = zeta / lam := by field_simp
  rw [e1]
  congr 2
  ring

/-- **C133** Low coherence gives the restricted isometry property: the constant of order `s ≥ 1` is at most `(s - 1) mu`. -/
theorem c133_coherence {A : Vec n →ₗ[ℝ] Vec m} {c mu : ℝ} (hA : LowCoh A c mu) (s : ℕ) : RipC A c s ((s - 1) * mu) := by
  have hT : ∀ v : Vec n, (Finset.univ.filter fun i => v i ≠ 0).card ≤ s → (∑ i, |v i|) ^ 2 ≤ s * ‖v‖ ^ 2 := by
    intro v hv
    have h1 := l1_on_sq (Finset.univ.filter fun i => v i ≠ 0) v
    have h2 : ∑ i ∈ Finset.univ.filter (fun i => v i ≠ 0), |v i| = ∑ i, |v i| :=
      Finset.sum_filter_of_ne fun i _ hne h0 => hne (by rw [h0, abs_zero])
    rw [h2] at h1
    exact h1.trans (mul_le_mul_of_nonneg_right (by exact_mod_cast hv) (sq_nonneg _))
  have hcm : 0 ≤ c * mu := mul_nonneg hA.pos.le hA.nonneg
  refine ⟨hA.pos, fun v hv => ?_, fun v hv => ?_⟩
  · have h1 := lowcoh_energy hA v
    have h2 := mul_le_mul_of_nonneg_left (hT v hv) hcm
    nlinarith
  · have e1 : ‖A v‖ ^ 2 = ∑ i, ∑ j, v i * v j * ⟪colV A i, colV A j⟫ := by
      rw [← real_inner_self_eq_norm_sq, map_eq_cols A v, sum_inner]
      refine Finset.sum_congr rfl fun i _ => ?_
      rw [_root_.inner_sum]
      refine Finset.sum_congr rfl fun j _ => ?_
      rw [real_inner_smul_left, real_inner_smul_right]; ring
    have e2 : c * ((1 - mu) * ‖v‖ ^ 2 + mu * (∑ i, |v i|) ^ 2)
        = ∑ i, ∑ j, ((if i = j then c * (1 - mu) * (v i) ^ 2 else 0) + c * mu * (|v i| * |v j|)) := by
      simp only [Finset.sum_add_distrib, Finset.sum_ite_eq, Finset.mem_univ, if_true]
      rw [normsq_sum, pow_two (∑ i, |v i|), Finset.sum_mul_sum, mul_add]
      congr 1
      · rw [← mul_assoc, Finset.mul_sum]
      · rw [← mul_assoc, Finset.mul_sum]
        exact Finset.sum_congr rfl fun i _ => by rw [Finset.mul_sum]
    have h1 : ‖A v‖ ^ 2 ≤ c * ((1 - mu) * ‖v‖ ^ 2 + mu * (∑ i, |v i|) ^ 2) := by
      rw [e1, e2]
      refine Finset.sum_le_sum fun i _ => Finset.sum_le_sum fun j _ => ?_
      by_cases hij : i = j
      · subst hij
        rw [if_pos rfl, real_inner_self_eq_norm_sq, hA.col, abs_mul_abs_self]
        nlinarith
      · rw [if_neg hij]
        have k1 := le_abs_self (v i * v j * ⟪colV A i, colV A j⟫)
        rw [abs_mul, abs_mul] at k1
        have k2 := mul_le_mul_of_nonneg_left (hA.coh i j hij) (mul_nonneg (abs_nonneg (v i)) (abs_nonneg (v j)))
        nlinarith
    have h2 := mul_le_mul_of_nonneg_left (hT v hv) hcm
    nlinarith

/-- The hypotheses hold for a redundant dictionary: the eight columns of the simplex in seven dimensions (a Hadamard matrix without its constant row) are a
tight frame with orthonormal rows, and have the restricted isometry property of order two with constant `1/7`. -/
theorem ex_rip : ∃ (A : Vec 8 →ₗ[ℝ] Vec 7) (At : Vec 7 →ₗ[ℝ] Vec 8), IsAdj A At ∧ (∀ y, A (At y) = y) ∧ RipC A (7 / 8) (2 * 1) (1 / 7) ∧
    (1 + √2) * (1 / 7) < 1 ∧ (1 + 3 * √2) * (1 / 7) < 1 := by
  have h2 : √2 < 2 := by rw [Real.sqrt_lt' (by norm_num)]; norm_num
  have h8 : √8 * √8 = 8 := Real.mul_self_sqrt (by norm_num)
  have hp : 0 < √8 := Real.sqrt_pos.2 (by norm_num)
  let H : Fin 7 → Fin 8 → ℝ := ![![1, 1, 1, 1, -1, -1, -1, -1], ![1, 1, -1, -1, 1, 1, -1, -1], ![1, 1, -1, -1, -1, -1, 1, 1],
    ![1, -1, 1, -1, 1, -1, 1, -1], ![1, -1, 1, -1, -1, 1, -1, 1], ![1, -1, -1, 1, 1, -1, -1, 1], ![1, -1, -1, 1, -1, 1, 1, -1]]
  let A : Vec 8 →ₗ[ℝ] Vec 7 := { toFun := fun x => vec fun i => (∑ j, H i j * x j) / √8, map_add' := fun x y => ?_, map_smul' := fun a x => ?_ }
  let At : Vec 7 →ₗ[ℝ] Vec 8 := { toFun := fun y => vec fun j => (∑ i, H i j * y i) / √8, map_add' := fun x y => ?_, map_smul' := fun a x => ?_ }
  have hAt : ∀ y, A (At y) = y := by
    intro y
    ext i
    show (∑ j, H i j * ((∑ k, H k j * y k) / √8)) / √8 = y i
    have : ∀ t : ℝ, t / √8 / √8 = t / 8 := fun t => by rw [div_div, h8]
    simp_rw [← mul_div_assoc]
    rw [← Finset.sum_div, this]
    fin_cases i <;> simp [H, Fin.sum_univ_eight, Fin.sum_univ_seven] <;> ring
  have hn : ∀ v, ‖A v‖ ^ 2 = ‖v‖ ^ 2 - (∑ i, v i) ^ 2 / 8 := by
    intro v
    rw [normsq_sum, normsq_sum]
    have : ∀ i, (A v i) ^ 2 = (∑ j, H i j * v j) ^ 2 / 8 := fun i => by
      show ((∑ j, H i j * v j) / √8) ^ 2 = _
      rw [div_pow, Real.sq_sqrt (by norm_num)]
    simp_rw [this]
    simp [H, Fin.sum_univ_eight, Fin.sum_univ_seven]
    ring
  refine ⟨A, At, fun x y => ?_, hAt, ⟨by norm_num, fun v hv => ?_, fun v hv => ?_⟩, by linarith, by linarith⟩
  · rw [PiLp.inner_apply, PiLp.inner_apply]
    show ∑ i, y i * ((∑ j, H i j * x j) / √8) = ∑ j, ((∑ i, H i j * y i) / √8) * x j
    simp_rw [mul_div_assoc', Finset.mul_sum, div_mul_eq_mul_div, Finset.sum_mul, ← Finset.sum_div]
    rw [Finset.sum_comm]
    refine congrArg (· / √8) (Finset.sum_congr rfl fun j _ => Finset.sum_congr rfl fun i _ => by ring)
  · rw [hn]
    have h1 := l1_on_sq (Finset.univ.filter fun i => v i ≠ 0) v
    have h3 : ∑ i ∈ Finset.univ.filter (fun i => v i ≠ 0), |v i| = ∑ i, |v i| :=
      Finset.sum_filter_of_ne fun i _ hne h0 => hne (by rw [h0, abs_zero])
    rw [h3] at h1
    have h4 : (∑ i, v i) ^ 2 ≤ (∑ i, |v i|) ^ 2 := by
      rw [← sq_abs]
      exact pow_le_pow_left₀ (abs_nonneg _) (Finset.abs_sum_le_sum_abs _ _) 2
    have h5 : ((Finset.univ.filter fun i => v i ≠ 0).card : ℝ) ≤ 2 := by exact_mod_cast hv
    have h6 := mul_le_mul_of_nonneg_right h5 (sq_nonneg ‖v‖)
    linarith
  · rw [hn]
    have := sq_nonneg (∑ i, v i)
    linarith
  · ext i; simp [vec, mul_add, Finset.sum_add_distrib, add_div]
  · ext i; simp [vec, mul_left_comm, ← Finset.mul_sum, mul_div_assoc]
  · ext i; simp [vec, mul_add, Finset.sum_add_distrib, add_div]
  · ext i; simp [vec, mul_left_comm, ← Finset.mul_sum, mul_div_assoc]

section
-- an operator as in `ex_rip`
variable (A : Vec 8 →ₗ[ℝ] Vec 7) (At : Vec 7 →ₗ[ℝ] Vec 8) (hadj : IsAdj A At) (hI : ∀ y, A (At y) = y) (hA : RipC A (7 / 8) (2 * 1) (1 / 7))

private theorem ex_small : (1 + √2) * (1 / 7) < 1 ∧ (1 + 3 * √2) * (1 / 7) < 1 := by
  obtain ⟨_, _, _, _, _, h⟩ := ex_rip
  exact h

private theorem ex_gamma : (1 : ℝ) < (1 + √5) / 2 := by
  have : (1 : ℝ) < √5 := by rw [Real.lt_sqrt] <;> norm_num
  linarith

/-- The vector `3 e₂`, which `A` does not map to zero. -/
private def exSpike : Vec 8 := vec ![0, 0, 3, 0, 0, 0, 0, 0]

private theorem ex_spike_card : (Finset.univ.filter fun i => exSpike i ≠ 0).card ≤ 1 := by
  rw [Finset.card_le_one]
  intro i hi j hj
  rw [Finset.mem_filter] at hi hj
  have h : ∀ i, exSpike i ≠ 0 → i = 2 := by
    intro i
    fin_cases i <;> simp [exSpike, vec]
  rw [h i hi.2, h j hj.2]

private theorem ex_spike_ne : exSpike ≠ 0 := fun h => by
  have h2 : exSpike 2 = (0 : Vec 8) 2 := by rw [h]
  have h3 : exSpike 2 = 3 := rfl
  rw [h3] at h2
  norm_num at h2

include hA in
private theorem ex_image : A exSpike ≠ 0 := fun h => by
  have h1 := hA.lower exSpike (ex_spike_card.trans (by norm_num))
  rw [h, norm_zero] at h1
  have := norm_pos_iff.2 ex_spike_ne
  nlinarith [mul_pos this this]

example := c133_yall1_bp A At hadj hI (7 / 8) (1 / 7) 1 (by norm_num) ex_small.1 one_pos hA exSpike (ex_image A hA) 0 0 le_rfl le_rfl 1 1e-3 one_pos ex_gamma 100 0 0

example := c133_yall1_noise A At hadj hI (7 / 8) (1 / 7) 1 (by norm_num) ex_small.1 one_pos hA exSpike 0 0 1 le_rfl one_pos (by simp)
  (by rw [add_zero]; exact ex_image A hA) 1 1e-3 one_pos ex_gamma 100 0 0

example := c133_lasso_noise A At (7 / 8) (1 / 7) 1 (by norm_num) ex_small.1 one_pos hA exSpike 0 0 spgl1Default (by norm_num [spgl1Default])

example := c133_lasso_returns A At hadj (7 / 8) (1 / 7) 1 (by norm_num) ex_small.1 one_pos hA exSpike 0 0 spgl1Default (by norm_num [spgl1Default])

example := c133_bpic_noise A At hadj (7 / 8) (1 / 7) 1 (by norm_num) ex_small.1 one_pos hA exSpike 0 1 (by simp) spgl1Default (by norm_num [spgl1Default])

example := c133_l1ls_noise A At hadj (7 / 8) (1 / 7) 1 (by norm_num) ex_small.2 one_pos hA exSpike ex_spike_card 0 1 one_pos (by simp) 1e-3 1e-3 (by norm_num) 400 5000

example := c133_yall1_penalised A At hadj hI (7 / 8) (1 / 7) 1 (by norm_num) ex_small.2 one_pos hA exSpike ex_spike_card 0 1 0 one_pos (by simp)
  (by rw [add_zero]; exact ex_image A hA) 1 1e-3 one_pos ex_gamma 100 0 0

example (o : FomOptions) (ha : o.alpha = 1) (hb0 : 0 < o.beta) (hb : o.beta < 1) (hL : 0 < o.L0) (hx : o.Lexact = none) :=
  c133_fom_lasso A At hadj (7 / 8) (1 / 7) 1 (by norm_num) ex_small.1 one_pos hA exSpike ex_spike_ne 0 0 o ha hb0 hb hL hx

example (o : FomOptions) (ha : o.alpha = 1) (hb0 : 0 < o.beta) (hb : o.beta < 1) (hL : 0 < o.L0) (hx : o.Lexact = none) :=
  c133_fom_l1rls A At hadj (7 / 8) (1 / 7) 1 (by norm_num) ex_small.2 one_pos hA exSpike ex_spike_card 0 1 one_pos (by simp) 0 o ha hb0 hb hL hx

/-- The identity has coherence zero. -/
example := c133_coherence (n := 3) ex_lowCoh.1 2
end

end Verif.Cvx
