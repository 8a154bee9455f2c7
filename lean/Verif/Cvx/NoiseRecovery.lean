import Verif.Cvx.YallRecovery
import Verif.Cvx.BpProps
import Mathlib.Algebra.Order.Chebyshev

set_option autoImplicit false
/-!
# Recovery of sparse signals from noisy measurements by the convex solvers (C129)
-/
noncomputable section
namespace Verif.Cvx
open Verif.Opt Filter Topology
open scoped RealInnerProductSpace

variable {m n : ℕ}

/-- Specification: the columns of `A` all have squared norm `c > 0` and the coherence is at most `mu`. -/
structure LowCoh (A : Vec n →ₗ[ℝ] Vec m) (c mu : ℝ) : Prop where
  pos : 0 < c
  nonneg : 0 ≤ mu
  col : ∀ i, ‖colV A i‖ ^ 2 = c
  coh : ∀ i j, i ≠ j → |⟪colV A i, colV A j⟫| ≤ mu * c

theorem map_eq_cols (A : Vec n →ₗ[ℝ] Vec m) (h : Vec n) : A h = ∑ j, h j • colV A j := by
  have e : h = ∑ j, h j • (vec fun i => if i = j then 1 else 0 : Vec n) := by
    ext i
    rw [WithLp.ofLp_sum, Finset.sum_apply]
    simp [vec]
  conv_lhs => rw [e]
  rw [map_sum]
  exact Finset.sum_congr rfl fun j _ => by rw [map_smul]; rfl

theorem normsq_sum (h : Vec n) : ‖h‖ ^ 2 = ∑ i, (h i) ^ 2 := by
  rw [EuclideanSpace.norm_sq_eq]
  exact Finset.sum_congr rfl fun i _ => by rw [Real.norm_eq_abs, sq_abs]

/-- The energy of `A h` from below by the two norms of `h`. -/
theorem lowcoh_energy {A : Vec n →ₗ[ℝ] Vec m} {c mu : ℝ} (hA : LowCoh A c mu) (h : Vec n) :
    c * ((1 + mu) * ‖h‖ ^ 2 - mu * (∑ i, |h i|) ^ 2) ≤ ‖A h‖ ^ 2 := by
  have e1 : ‖A h‖ ^ 2 = ∑ i, ∑ j, h i * h j * ⟪colV A i, colV A j⟫ := by
    rw [← real_inner_self_eq_norm_sq, map_eq_cols A h, sum_inner]
    refine Finset.sum_congr rfl fun i _ => ?_
    rw [_root_.inner_sum]
    refine Finset.sum_congr rfl fun j _ => ?_
    rw [real_inner_smul_left, real_inner_smul_right]; ring
  have e2 : c * ((1 + mu) * ‖h‖ ^ 2 - mu * (∑ i, |h i|) ^ 2)
      = ∑ i, ∑ j, ((if i = j then c * (1 + mu) * (h i) ^ 2 else 0) - c * mu * (|h i| * |h j|)) := by
    simp only [Finset.sum_sub_distrib, Finset.sum_ite_eq, Finset.mem_univ, if_true]
    rw [normsq_sum, pow_two (∑ i, |h i|), Finset.sum_mul_sum, mul_sub]
    congr 1
    · rw [← mul_assoc, Finset.mul_sum]
    · rw [← mul_assoc, Finset.mul_sum]
      exact Finset.sum_congr rfl fun i _ => by rw [Finset.mul_sum]
  rw [e1, e2]
  refine Finset.sum_le_sum fun i _ => Finset.sum_le_sum fun j _ => ?_
  by_cases hij : i = j
  · subst hij
    rw [if_pos rfl, real_inner_self_eq_norm_sq, hA.col, abs_mul_abs_self]
    nlinarith
  · rw [if_neg hij]
    have h1 := neg_abs_le (h i * h j * ⟪colV A i, colV A j⟫)
    rw [abs_mul, abs_mul] at h1
    have h2 := mul_le_mul_of_nonneg_left (hA.coh i j hij) (mul_nonneg (abs_nonneg (h i)) (abs_nonneg (h j)))
    nlinarith

/-- The error of a point whose `l1` norm exceeds the one of `xs` by at most `sigma` is concentrated on `S`. -/
theorem cone_bound (S : Finset (Fin n)) (xs x : Vec n) (sigma : ℝ) (hx : ∑ i, |x i| ≤ ∑ i, |xs i| + sigma) :
    ∑ i ∈ Sᶜ, |(x - xs) i| ≤ ∑ i ∈ S, |(x - xs) i| + (sigma + 2 * ∑ i ∈ Sᶜ, |xs i|) := by
  rw [← Finset.sum_add_sum_compl S (fun i => |x i|), ← Finset.sum_add_sum_compl S (fun i => |xs i|)] at hx
  have h1 : ∑ i ∈ S, |xs i| ≤ ∑ i ∈ S, |x i| + ∑ i ∈ S, |(x - xs) i| := by
    rw [← Finset.sum_add_distrib]
    refine Finset.sum_le_sum fun i _ => ?_
    have : xs i = x i - (x - xs) i := by show xs i = x i - (x i - xs i); ring
    calc |xs i| = |x i - (x - xs) i| := by rw [← this]
      _ ≤ _ := abs_sub _ _
  have h2 : ∑ i ∈ Sᶜ, |(x - xs) i| ≤ ∑ i ∈ Sᶜ, |x i| + ∑ i ∈ Sᶜ, |xs i| := by
    rw [← Finset.sum_add_distrib]
    exact Finset.sum_le_sum fun i _ => abs_sub _ _
  linarith

theorem l1_on_sq (S : Finset (Fin n)) (h : Vec n) : (∑ i ∈ S, |h i|) ^ 2 ≤ S.card * ‖h‖ ^ 2 := by
  refine (sq_sum_le_card_mul_sum_sq).trans (mul_le_mul_of_nonneg_left ?_ (Nat.cast_nonneg _))
  rw [normsq_sum]
  simp only [sq_abs]
  exact Finset.sum_le_univ_sum_of_nonneg fun i => sq_nonneg _

/-- Error bounds for points in the cone. -/
theorem lowcoh_error {A : Vec n →ₗ[ℝ] Vec m} {c mu : ℝ} (hA : LowCoh A c mu) (S : Finset (Fin n)) (xs x : Vec n) (sigma : ℝ)
    (hx : ∑ i, |x i| ≤ ∑ i, |xs i| + sigma) :
    (sigma = 0 → (∀ i, i ∉ S → xs i = 0) → c * (1 - (4 * (S.card : ℝ) - 1) * mu) * ‖x - xs‖ ^ 2 ≤ ‖A (x - xs)‖ ^ 2) ∧
    c * (1 - (8 * (S.card : ℝ) - 1) * mu) * ‖x - xs‖ ^ 2 ≤ ‖A (x - xs)‖ ^ 2 + 2 * c * mu * (sigma + 2 * ∑ i ∈ Sᶜ, |xs i|) ^ 2 := by
  have h1 := cone_bound S xs x sigma hx
  have h2 := l1_on_sq S (x - xs)
  have h3 := lowcoh_energy hA (x - xs)
  have h4 := Finset.sum_add_sum_compl S (fun i => |(x - xs) i|)
  set a := ∑ i ∈ S, |(x - xs) i| with ha
  set T := ∑ i, |(x - xs) i| with hT
  set q := ‖x - xs‖ ^ 2 with hq
  have ha0 : 0 ≤ a := Finset.sum_nonneg fun _ _ => abs_nonneg _
  have hT0 : 0 ≤ T := Finset.sum_nonneg fun _ _ => abs_nonneg _
  have hcm : 0 ≤ c * mu := mul_nonneg hA.pos.le hA.nonneg
  constructor
  · intro hs hsupp
    have hz : ∑ i ∈ Sᶜ, |xs i| = 0 := Finset.sum_eq_zero fun i hi => by rw [hsupp i (Finset.mem_compl.1 hi), abs_zero]
    rw [hs, hz] at h1
    have h5 : T ≤ 2 * a := by linarith
    have h6 : T ^ 2 ≤ 4 * (S.card * q) := by nlinarith
    have h7 := mul_le_mul_of_nonneg_left h6 hcm
    nlinarith
  · set sg := sigma + 2 * ∑ i ∈ Sᶜ, |xs i| with hsg
    have h5 : T ≤ 2 * a + sg := by linarith
    have h6 : T ^ 2 ≤ 8 * (S.card * q) + 2 * sg ^ 2 := by
      have h7 : T ^ 2 ≤ (2 * a + sg) ^ 2 := pow_le_pow_left₀ hT0 h5 2
      nlinarith [sq_nonneg (2 * a - sg)]
    have h7 := mul_le_mul_of_nonneg_left h6 hcm
    nlinarith

/-- **C129** YALL1 with a bound on the residual: for `A` with orthonormal rows and low coherence, measurements `b = A xs + e` with noise `|e| ≤ delta`,
the iterates converge from every starting point, and the limit `x` has `c (1 - (4K-1) mu) |x - xs|² ≤ (2 delta)²` for a signal `xs` with `K`
non-zero entries (index set `S`); for a signal which is not sparse the same holds with `8K` for `4K` and the mass of `xs` off `S` added. -/
theorem c129_yall1_noise (A : Vec n →ₗ[ℝ] Vec m) (At : Vec m →ₗ[ℝ] Vec n) (hadj : IsAdj A At) (hI : ∀ y, A (At y) = y) (c mu : ℝ)
    (hA : LowCoh A c mu) (xs : Vec n) (e : Vec m) (rho delta : ℝ) (hrho : rho ≤ 0) (hdelta : 0 < delta) (he : ‖e‖ ≤ delta)
    (hb : A xs + e ≠ 0) (gamma tol : ℝ) (hg0 : 0 < gamma) (hg1 : gamma < (1 + √5) / 2) (maxIters : ℕ) (x0 z0 : Vec n) :
    ∃ x, Tendsto (fun k => linf (A xs + e) • ((yallIter A At (yallArgs (A xs + e) none false rho delta gamma tol maxIters))^[k]
        (yallInit A At (yallArgs (A xs + e) none false rho delta gamma tol maxIters) x0 z0)).x) atTop (𝓝 x) ∧
      ∀ S : Finset (Fin n),
        ((∀ i, i ∉ S → xs i = 0) → c * (1 - (4 * (S.card : ℝ) - 1) * mu) * ‖x - xs‖ ^ 2 ≤ (2 * delta) ^ 2) ∧
        c * (1 - (8 * (S.card : ℝ) - 1) * mu) * ‖x - xs‖ ^ 2 ≤ (2 * delta) ^ 2 + 8 * c * mu * (∑ i ∈ Sᶜ, |xs i|) ^ 2 := by
  obtain ⟨x, hx, hlim⟩ := c86_converges_gamma A At hadj hI (A xs + e) hb none (fun _ => one_pos) false rho delta gamma tol maxIters x0 z0 hg0 hg1 (fun h => by simp at h) (fun h => by simp at h)
  refine ⟨x, hlim, fun S => ?_⟩
  have hp : yallProblem rho delta = .con delta := by
    unfold yallProblem
    rw [if_neg (not_lt.mpr hrho), if_pos hdelta]
  rw [hp] at hx
  have hf : ‖A x - (A xs + e)‖ ≤ delta := hx.1.2
  have hopt : ∑ i, (1 : ℝ) * |x i| ≤ ∑ i, (1 : ℝ) * |xs i| := hx.2 xs ⟨fun h => by simp at h, by
    show ‖A xs - (A xs + e)‖ ≤ delta
    rw [sub_add_cancel_left, norm_neg]; exact he⟩
  simp only [one_mul] at hopt
  have hAh : ‖A (x - xs)‖ ≤ 2 * delta := by
    have e1 : A (x - xs) = (A x - (A xs + e)) + e := by rw [map_sub]; abel
    rw [e1]
    exact (norm_add_le _ _).trans (by linarith)
  have hsq := pow_le_pow_left₀ (norm_nonneg _) hAh 2
  obtain ⟨k1, k2⟩ := lowcoh_error hA S xs x 0 (by linarith)
  refine ⟨fun hs => (k1 rfl hs).trans hsq, k2.trans ?_⟩
  have : 2 * c * mu * (0 + 2 * ∑ i ∈ Sᶜ, |xs i|) ^ 2 = 8 * c * mu * (∑ i ∈ Sᶜ, |xs i|) ^ 2 := by ring
  linarith

/-- **C129** SPGL1's LASSO with the radius of a sparse signal `xs`, measurements `b = A xs + e`: at every state of the run the error is bounded by the
residual reported and the noise, `c (1 - (4K-1) mu) |x - xs|² ≤ (r_norm + |e|)²`. -/
theorem c129_lasso_noise (A : Vec n →ₗ[ℝ] Vec m) (At : Vec m →ₗ[ℝ] Vec n) (c mu : ℝ) (hA : LowCoh A c mu) (xs : Vec n)
    (S : Finset (Fin n)) (hs : ∀ i, i ∉ S → xs i = 0) (e : Vec m) (x0 : Vec n) (o : Spgl1Opts) (hm : 0 < o.memory) (s : LassoState m n)
    (h : LassoReach A At (A xs + e) (∑ i, |xs i|) x0 o s) :
    c * (1 - (4 * (S.card : ℝ) - 1) * mu) * ‖s.x - xs‖ ^ 2 ≤ (s.rNorm + ‖e‖) ^ 2 := by
  obtain ⟨h1, -, -, h4, -⟩ := c61_consistent A At (A xs + e) _ (Finset.sum_nonneg fun i _ => abs_nonneg (xs i)) x0 o hm s h
  refine ((lowcoh_error hA S xs s.x 0 (by linarith)).1 rfl hs).trans ?_
  rw [h4]
  refine pow_le_pow_left₀ (norm_nonneg _) ?_ 2
  have e1 : A (s.x - xs) = e - (A xs + e - A s.x) := by rw [map_sub]; abel
  rw [e1]
  exact (norm_sub_le _ _).trans (add_comm _ _).le

/-- **C129** The LASSO solver returns, and the result meets, for the noise level and the tolerance of the options, the error bound below, unless the
iteration limit was reached: either the gap was certified, or the residual is relatively small. -/
theorem c129_lasso_returns (A : Vec n →ₗ[ℝ] Vec m) (At : Vec m →ₗ[ℝ] Vec n) (hadj : IsAdj A At) (c mu : ℝ) (hA : LowCoh A c mu) (xs : Vec n)
    (S : Finset (Fin n)) (hs : ∀ i, i ∉ S → xs i = 0) (e : Vec m) (x0 : Vec n) (o : Spgl1Opts) (hm : 0 < o.memory) :
    (∃ s, LassoSolveFrom A At (A xs + e) (∑ i, |xs i|) x0 o s) ∧
    ∀ s, LassoSolveFrom A At (A xs + e) (∑ i, |xs i|) x0 o s →
      c * (1 - (4 * (S.card : ℝ) - 1) * mu) * ‖s.x - xs‖ ^ 2 ≤ (√(‖e‖ ^ 2 + 2 * o.optTol * max 1 (‖A xs + e - A s.x‖ ^ 2 / 2)) + ‖e‖) ^ 2 ∨
      c * (1 - (4 * (S.card : ℝ) - 1) * mu) * ‖s.x - xs‖ ^ 2 ≤ (o.optTol * ‖A xs + e‖ + ‖e‖) ^ 2 ∨ o.maxIters ≤ s.iterations := by
  have htau : 0 ≤ ∑ i, |xs i| := Finset.sum_nonneg fun i _ => abs_nonneg (xs i)
  obtain ⟨hex, hall⟩ := c61_stop A At hadj (A xs + e) _ htau x0 o hm
  refine ⟨hex, fun s hsol => ?_⟩
  have hb := c129_lasso_noise A At c mu hA xs S hs e x0 o hm s hsol.1
  obtain ⟨-, -, -, h4, -⟩ := c61_consistent A At (A xs + e) _ htau x0 o hm s hsol.1
  have hr0 : 0 ≤ s.rNorm := by rw [h4]; exact norm_nonneg _
  rcases hall s hsol with h1 | h1 | h1
  · left
    refine hb.trans (pow_le_pow_left₀ (add_nonneg hr0 (norm_nonneg _)) ?_ 2)
    have h2 := h1 xs le_rfl
    rw [add_sub_cancel_left] at h2
    have : s.rNorm ≤ √(‖e‖ ^ 2 + 2 * o.optTol * max 1 (‖A xs + e - A s.x‖ ^ 2 / 2)) := by
      refine Real.le_sqrt_of_sq_le ?_
      rw [h4]
      linarith
    linarith
  · right; left
    refine hb.trans (pow_le_pow_left₀ (add_nonneg hr0 (norm_nonneg _)) ?_ 2)
    rw [h4]; linarith
  · exact Or.inr (Or.inr h1)

/-- **C129** SPGL1's basis pursuit with noise level `sigma ≥ |e|`: after an iteration in which the radius grew, the error of the iterate is bounded by its
residual, the noise and the excess of the radius, which the reported gap bounds:
`c (1 - (8K-1) mu) |x - xs|² ≤ (|r| + |e|)² + 2 c mu (gap max(1, |r|²/2) / |g|_∞)²`. -/
theorem c129_bpic_noise (A : Vec n →ₗ[ℝ] Vec m) (At : Vec m →ₗ[ℝ] Vec n) (hadj : IsAdj A At) (c mu : ℝ) (hA : LowCoh A c mu) (xs : Vec n)
    (S : Finset (Fin n)) (hs : ∀ i, i ∉ S → xs i = 0) (e : Vec m) (sigma : ℝ) (he : ‖e‖ ≤ sigma) (o : Spgl1Opts) (hm : 0 < o.memory)
    (s s' : BpState m n) (h : BpicReach A At (A xs + e) sigma o s) (hc : bpCond (A xs + e) sigma o s)
    (hst : bpBody A At (A xs + e) sigma o s = some s') (htau : s.tau < s'.tau) :
    c * (1 - (8 * (S.card : ℝ) - 1) * mu) * ‖s'.x - xs‖ ^ 2 ≤
      (‖s'.r‖ + ‖e‖) ^ 2 + 2 * c * mu * (s'.rGap * max 1 (‖s'.r‖ ^ 2 / 2) / linf s'.g) ^ 2 := by
  have h1 := (c107_tau_bound A At hadj (A xs + e) sigma o hm xs (by rw [add_sub_cancel_left]; exact he)).2 s s' h hc hst htau
  obtain ⟨-, h2, h3, -, -⟩ := c62_consistent A At (A xs + e) sigma 0 o hm s' (.step h hc hst)
  have hi := bp_inv hm h
  have hit : 1 < s'.iterations := by rw [(bp_body_inv hm hi hst).2.1]; exact Nat.lt_succ_of_le hi.iters
  have hz : ∑ i ∈ Sᶜ, |xs i| = 0 := Finset.sum_eq_zero fun i hi => by rw [hs i (Finset.mem_compl.1 hi), abs_zero]
  have h4 := (lowcoh_error hA S xs s'.x _ ((h2 hit).trans h1)).2
  rw [hz, mul_zero, add_zero] at h4
  refine h4.trans (add_le_add_left (pow_le_pow_left₀ (norm_nonneg _) ?_ 2) _)
  rw [h3]
  have e1 : A (s'.x - xs) = e - (A xs + e - A s'.x) := by rw [map_sub]; abel
  rw [e1]
  exact (norm_sub_le _ _).trans (add_comm _ _).le

/-- A nonnegative `t` with `k t² ≤ a t + b` is at most `a/k + √(b/k)`. -/
theorem quad_le {t k a b : ℝ} (ht : 0 ≤ t) (hk : 0 < k) (ha : 0 ≤ a) (hb : 0 ≤ b) (h : k * t ^ 2 ≤ a * t + b) : t ≤ a / k + √(b / k) := by
  by_contra hcon
  push Not at hcon
  have hs : 0 ≤ √(b / k) := Real.sqrt_nonneg _
  have hak : 0 ≤ a / k := div_nonneg ha hk.le
  have h1 : √(b / k) ^ 2 = b / k := Real.sq_sqrt (div_nonneg hb hk.le)
  have h2 : t ^ 2 ≤ a / k * t + b / k := by
    have : a / k * t + b / k = (a * t + b) / k := by ring
    rw [this, le_div_iff₀ hk]; linarith
  nlinarith

/-- The penalised problem: a point `x` whose objective `|A x - b|² + lam |x|₁` exceeds the objective of `xs` by at most `zeta`, for a penalty
`lam ≥ 4 |Aᵀ e|_∞`. -/
theorem penalised_error {A : Vec n →ₗ[ℝ] Vec m} {At : Vec m →ₗ[ℝ] Vec n} (hadj : IsAdj A At) {c mu : ℝ} (hA : LowCoh A c mu)
    (S : Finset (Fin n)) (xs x : Vec n) (hs : ∀ i, i ∉ S → xs i = 0) (e : Vec m) (lam zeta : ℝ) (hlam : 0 < lam) (hz : 0 ≤ zeta)
    (hl : ∀ i, 4 * |At e i| ≤ lam) (hK : 0 < 1 - (32 * (S.card : ℝ) - 1) * mu)
    (hx : ‖A x - (A xs + e)‖ ^ 2 + lam * ∑ i, |x i| ≤ ‖A xs - (A xs + e)‖ ^ 2 + lam * ∑ i, |xs i| + zeta) :
    ‖x - xs‖ ≤ 3 / 2 * lam * √S.card / (c * (1 - (32 * (S.card : ℝ) - 1) * mu)) +
      √((zeta + 8 * c * mu * (zeta / lam) ^ 2) / (c * (1 - (32 * (S.card : ℝ) - 1) * mu))) := by
  set h := x - xs with hh
  have e1 : A x - (A xs + e) = A h - e := by rw [hh, map_sub]; abel
  have e2 : A xs - (A xs + e) = -e := by abel
  rw [e1, e2, norm_neg, norm_sub_sq_real] at hx
  -- the cross term
  have h1 : 2 * ⟪A h, e⟫ ≤ lam / 2 * ∑ i, |h i| := by
    have : ⟪A h, e⟫ = ⟪h, At e⟫ := hadj h e
    rw [this, PiLp.inner_apply, Finset.mul_sum, Finset.mul_sum]
    refine Finset.sum_le_sum fun i _ => ?_
    have h2 : ⟪h i, At e i⟫ ≤ |h i| * |At e i| := by
      have : (⟪h i, At e i⟫ : ℝ) = At e i * h i := rfl
      rw [this, mul_comm, ← abs_mul]; exact le_abs_self _
    have h3 := mul_le_mul_of_nonneg_left (hl i) (abs_nonneg (h i))
    nlinarith
  have h4 := Finset.sum_add_sum_compl S (fun i => |h i|)
  have h5 : ∑ i, |xs i| ≤ ∑ i, |x i| + ∑ i ∈ S, |h i| - ∑ i ∈ Sᶜ, |h i| := by
    rw [← Finset.sum_add_sum_compl S (fun i => |x i|), ← Finset.sum_add_sum_compl S (fun i => |xs i|)]
    have k1 : ∑ i ∈ S, |xs i| ≤ ∑ i ∈ S, |x i| + ∑ i ∈ S, |h i| := by
      rw [← Finset.sum_add_distrib]
      refine Finset.sum_le_sum fun i _ => ?_
      have : xs i = x i - h i := by show xs i = x i - (x i - xs i); ring
      calc |xs i| = |x i - h i| := by rw [← this]
        _ ≤ _ := abs_sub _ _
    have k2 : ∑ i ∈ Sᶜ, |xs i| = 0 := Finset.sum_eq_zero fun i hi => by rw [hs i (Finset.mem_compl.1 hi), abs_zero]
    have k3 : ∑ i ∈ Sᶜ, |h i| = ∑ i ∈ Sᶜ, |x i| := Finset.sum_congr rfl fun i hi => by
      have : h i = x i - xs i := rfl
      rw [this, hs i (Finset.mem_compl.mp hi), sub_zero]
    linarith
  have h6 := l1_on_sq S h
  have h7 := lowcoh_energy hA h
  set a := ∑ i ∈ S, |h i| with ha
  set d := ∑ i ∈ Sᶜ, |h i| with hd
  have ha0 : 0 ≤ a := Finset.sum_nonneg fun _ _ => abs_nonneg _
  have hd0 : 0 ≤ d := Finset.sum_nonneg fun _ _ => abs_nonneg _
  rw [← h4] at h1 h7
  have h8 : ‖A h‖ ^ 2 ≤ 3 / 2 * lam * a - lam / 2 * d + zeta := by nlinarith
  have hd1 : d ≤ 3 * a + 2 * (zeta / lam) := by
    have : lam / 2 * d ≤ 3 / 2 * lam * a + zeta := by nlinarith [sq_nonneg ‖A h‖]
    have hz' : zeta = zeta / lam * lam := by field_simp
    rw [hz'] at this
    have : lam * d ≤ lam * (3 * a + 2 * (zeta / lam)) := by linarith
    exact le_of_mul_le_mul_left this hlam
  have ha1 : a ≤ √S.card * ‖h‖ := by
    have := Real.sqrt_le_sqrt h6
    rwa [Real.sqrt_sq ha0, Real.sqrt_mul (Nat.cast_nonneg _), Real.sqrt_sq (norm_nonneg _)] at this
  have hzl : 0 ≤ zeta / lam := div_nonneg hz hlam.le
  have h9 : (a + d) ^ 2 ≤ 32 * (S.card * ‖h‖ ^ 2) + 8 * (zeta / lam) ^ 2 := by
    have k : (a + d) ^ 2 ≤ (4 * a + 2 * (zeta / lam)) ^ 2 := pow_le_pow_left₀ (add_nonneg ha0 hd0) (by linarith) 2
    nlinarith [sq_nonneg (4 * a - 2 * (zeta / lam))]
  have hcm : 0 ≤ c * mu := mul_nonneg hA.pos.le hA.nonneg
  have h10 := mul_le_mul_of_nonneg_left h9 hcm
  have h11 : 3 / 2 * lam * a ≤ 3 / 2 * lam * (√S.card * ‖h‖) := mul_le_mul_of_nonneg_left ha1 (by positivity)
  have h12 : 0 ≤ lam / 2 * d := mul_nonneg (by positivity) hd0
  refine quad_le (norm_nonneg _) (mul_pos hA.pos hK) (by positivity) ?_ ?_
  · have : 0 ≤ 8 * c * mu * (zeta / lam) ^ 2 := by
      have := mul_nonneg hcm (sq_nonneg (zeta / lam))
      nlinarith
    linarith
  · nlinarith

/-- **C129** `l1ls` with noise: for measurements `y = A xs + e` of a signal with `K` non-zero entries, a penalty `lam ≥ 4 |Aᵀ e|_∞` and `(32K - 1) mu < 1`,
the `x` returned by the default start before the iteration limit has `|x - xs| ≤ 1.5 lam √K / kappa + √((zeta + 8 c mu (zeta/lam)²) / kappa)`, with
`kappa = c (1 - (32K-1) mu)` and `zeta = tol (|e|² + lam |xs|₁)` what the stopping tolerance allows. -/
theorem c129_l1ls_noise (A : Vec n →ₗ[ℝ] Vec m) (At : Vec m →ₗ[ℝ] Vec n) (hadj : IsAdj A At) (c mu : ℝ) (hA : LowCoh A c mu) (xs : Vec n)
    (S : Finset (Fin n)) (hs : ∀ i, i ∉ S → xs i = 0) (e : Vec m) (lam : ℝ) (hlam : 0 < lam) (hl : ∀ i, 4 * |At e i| ≤ lam)
    (hK : 0 < 1 - (32 * (S.card : ℝ) - 1) * mu) (tol xi : ℝ) (htol : 0 ≤ tol) (N P : ℕ) (s : L1lsState m n)
    (h : L1lsSolve A At (A xs + e) lam tol xi N P s) (hN : s.iterations < N) :
    ‖s.x - xs‖ ≤ 3 / 2 * lam * √S.card / (c * (1 - (32 * (S.card : ℝ) - 1) * mu)) +
      √((tol * (‖e‖ ^ 2 + lam * ∑ i, |xs i|) + 8 * c * mu * (tol * (‖e‖ ^ 2 + lam * ∑ i, |xs i|) / lam) ^ 2) /
        (c * (1 - (32 * (S.card : ℝ) - 1) * mu))) := by
  obtain ⟨h1, -⟩ := c63_default_start A At hadj (A xs + e) lam hlam tol xi htol N P s h hN xs
  have hl1 : 0 ≤ ∑ i, |xs i| := Finset.sum_nonneg fun i _ => abs_nonneg (xs i)
  refine penalised_error hadj hA S xs s.x hs e lam _ hlam (mul_nonneg htol (by positivity)) hl hK (h1.trans_eq ?_)
  have : ‖A xs - (A xs + e)‖ = ‖e‖ := by rw [sub_add_cancel_left, norm_neg]
  rw [this]; ring

/-- **C129** YALL1's penalised form (`rho > 0`) with noise: for `2 rho ≥ 4 |Aᵀ e|_∞` and `(32K - 1) mu < 1` the iterates converge from every starting
point to an `x` with `|x - xs| ≤ 3 rho √K / (c (1 - (32K-1) mu))`. -/
theorem c129_yall1_penalised (A : Vec n →ₗ[ℝ] Vec m) (At : Vec m →ₗ[ℝ] Vec n) (hadj : IsAdj A At) (hI : ∀ y, A (At y) = y) (c mu : ℝ)
    (hA : LowCoh A c mu) (xs : Vec n) (S : Finset (Fin n)) (hs : ∀ i, i ∉ S → xs i = 0) (e : Vec m) (rho delta : ℝ) (hrho : 0 < rho)
    (hl : ∀ i, 4 * |At e i| ≤ 2 * rho) (hK : 0 < 1 - (32 * (S.card : ℝ) - 1) * mu) (hb : A xs + e ≠ 0) (gamma tol : ℝ) (hg0 : 0 < gamma) (hg1 : gamma < (1 + √5) / 2) (maxIters : ℕ) (x0 z0 : Vec n) :
    ∃ x, Tendsto (fun k => linf (A xs + e) • ((yallIter A At (yallArgs (A xs + e) none false rho delta gamma tol maxIters))^[k]
        (yallInit A At (yallArgs (A xs + e) none false rho delta gamma tol maxIters) x0 z0)).x) atTop (𝓝 x) ∧
      ‖x - xs‖ ≤ 3 * rho * √S.card / (c * (1 - (32 * (S.card : ℝ) - 1) * mu)) := by
  obtain ⟨x, hx, hlim⟩ := c86_converges_gamma A At hadj hI (A xs + e) hb none (fun _ => one_pos) false rho delta gamma tol maxIters x0 z0 hg0 hg1 (fun h => by simp at h) (fun h => by simp at h)
  refine ⟨x, hlim, ?_⟩
  have hp : yallProblem rho delta = .l1l2 rho := by
    unfold yallProblem
    rw [if_pos hrho]
  rw [hp] at hx
  have hopt : ∑ i, (1 : ℝ) * |x i| + ‖A x - (A xs + e)‖ ^ 2 / (2 * rho) ≤ ∑ i, (1 : ℝ) * |xs i| + ‖A xs - (A xs + e)‖ ^ 2 / (2 * rho) :=
    hx.2 xs ⟨fun h => by simp at h, trivial⟩
  simp only [one_mul] at hopt
  have h1 := penalised_error hadj hA S xs x hs e (2 * rho) 0 (by positivity) le_rfl hl hK (by
    have h2 := mul_le_mul_of_nonneg_left hopt (show 0 ≤ 2 * rho by positivity)
    have h3 : ∀ t : ℝ, 2 * rho * (t / (2 * rho)) = t := fun t => by field_simp
    rw [mul_add, mul_add, h3, h3] at h2
    linarith)
  have e0 : √((0 + 8 * c * mu * (0 / (2 * rho)) ^ 2) / (c * (1 - (32 * (S.card : ℝ) - 1) * mu))) = 0 := by simp
  rw [e0, add_zero] at h1
  refine h1.trans_eq ?_
  congr 1; ring

/-- The hypotheses hold: the identity has coherence zero. -/
theorem ex_lowCoh : LowCoh (LinearMap.id : Vec 3 →ₗ[ℝ] Vec 3) 1 0 ∧ IsAdj (LinearMap.id : Vec 3 →ₗ[ℝ] Vec 3) (LinearMap.id : Vec 3 →ₗ[ℝ] Vec 3) ∧
    0 < 1 - (32 * ((({0, 2} : Finset (Fin 3)).card : ℕ) : ℝ) - 1) * 0 := by
  refine ⟨⟨one_pos, le_rfl, fun i => ?_, fun i j hij => ?_⟩, fun _ _ => rfl, by norm_num⟩
  · rw [normsq_sum]; simp [colV, vec]
  · simp [colV, vec, PiLp.inner_apply, hij]

/-- A redundant dictionary of five columns in four dimensions: the columns `16 e_i - 5 (1,1,1,1)` and `(7,7,7,7)` have squared norm `196` and coherence
`15/49`, enough for one non-zero entry in the bounds with `4K - 1`. -/
example : ∃ A : Vec 5 →ₗ[ℝ] Vec 4, LowCoh A 196 (15 / 49) ∧ 0 < 1 - (4 * ((({2} : Finset (Fin 5)).card : ℕ) : ℝ) - 1) * (15 / 49) := by
  let M : Fin 4 → Fin 5 → ℝ := ![![11, -5, -5, -5, 7], ![-5, 11, -5, -5, 7], ![-5, -5, 11, -5, 7], ![-5, -5, -5, 11, 7]]
  let A : Vec 5 →ₗ[ℝ] Vec 4 := { toFun := fun x => vec fun i => ∑ j, M i j * x j, map_add' := fun x y => ?_, map_smul' := fun a x => ?_ }
  have hc : ∀ i, colV A i = vec fun k => M k i := fun i => by ext k; simp [colV, A, vec]
  refine ⟨A, ⟨by norm_num, by norm_num, fun i => ?_, fun i j hij => ?_⟩, by norm_num⟩
  · rw [hc, normsq_sum]
    fin_cases i <;> simp [M, vec, Fin.sum_univ_four] <;> norm_num
  · rw [hc, hc]
    fin_cases i <;> fin_cases j <;> simp [M, vec, PiLp.inner_apply, Fin.sum_univ_four] at hij ⊢ <;> norm_num [abs_le]
  · ext i; simp [vec, mul_add, Finset.sum_add_distrib]
  · ext i; simp [vec, Finset.mul_sum, mul_left_comm]

section
/-- The vector `(3, 0, -1)`, its support, and noise. -/
private def exX : Vec 3 := vec ![3, 0, -1]
private def exE : Vec 3 := vec ![0, 1, 0]

private theorem ex_supp : ∀ i, i ∉ ({0, 2} : Finset (Fin 3)) → exX i = 0 := by
  intro i hi
  fin_cases i <;> simp [exX, vec] at hi ⊢

private theorem ex_norm : ‖exE‖ ≤ 1 := by
  have : ‖exE‖ ^ 2 = 1 := by rw [normsq_sum]; simp [exE, vec, Fin.sum_univ_three]
  nlinarith [norm_nonneg exE]

private theorem ex_ne : (LinearMap.id : Vec 3 →ₗ[ℝ] Vec 3) exX + exE ≠ 0 := fun h => by
  have h2 : (exX + exE) 0 = (0 : Vec 3) 0 := by rw [← h]; rfl
  norm_num [exX, exE, vec] at h2

private theorem ex_sqrt : (1 : ℝ) < (1 + √5) / 2 := by
  have : (1 : ℝ) < √5 := by rw [Real.lt_sqrt] <;> norm_num
  linarith

example := c129_yall1_noise LinearMap.id LinearMap.id ex_lowCoh.2.1 (fun _ => rfl) 1 0 ex_lowCoh.1 exX exE 0 1 le_rfl one_pos ex_norm ex_ne 1 1e-3 one_pos ex_sqrt 100 0 0

example := c129_lasso_noise LinearMap.id LinearMap.id 1 0 ex_lowCoh.1 exX {0, 2} ex_supp exE 0 spgl1Default (by norm_num [spgl1Default])

example := c129_lasso_returns LinearMap.id LinearMap.id ex_lowCoh.2.1 1 0 ex_lowCoh.1 exX {0, 2} ex_supp exE 0 spgl1Default (by norm_num [spgl1Default])

example := c129_bpic_noise LinearMap.id LinearMap.id ex_lowCoh.2.1 1 0 ex_lowCoh.1 exX {0, 2} ex_supp exE 1 ex_norm spgl1Default (by norm_num [spgl1Default])

example := c129_l1ls_noise LinearMap.id LinearMap.id ex_lowCoh.2.1 1 0 ex_lowCoh.1 exX {0, 2} ex_supp exE 4 (by norm_num) (fun i => by fin_cases i <;> simp [exE, vec])
  ex_lowCoh.2.2 1e-3 1e-3 (by norm_num) 400 5000

example := c129_yall1_penalised LinearMap.id LinearMap.id ex_lowCoh.2.1 (fun _ => rfl) 1 0 ex_lowCoh.1 exX {0, 2} ex_supp exE 2 0 (by norm_num)
  (fun i => by fin_cases i <;> simp [exE, vec] <;> norm_num) ex_lowCoh.2.2 ex_ne 1 1e-3 one_pos ex_sqrt 100 0 0
end

end Verif.Cvx
