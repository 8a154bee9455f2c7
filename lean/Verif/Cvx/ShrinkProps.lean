import Verif.Cvx.L1AgreeProps

set_option autoImplicit false
/-!
# C157: on an orthonormal system the l1 solvers return soft thresholded coefficients

The operator satisfies `At (A x) = x` (orthonormal columns), as the library's cosine, Fourier, Walsh-Hadamard and wavelet bases do.
-/
noncomputable section
namespace Verif.Cvx
open Verif.Loop Verif.Opt Filter Topology
open Verif.Sls (IstaArgs IstaState FistaState istaCond istaStep istaInit fistaCond fistaStep fistaInit)
open scoped RealInnerProductSpace

variable {m n : ℕ}

/-- Specification: every coefficient moved towards zero by `lam`, and set to zero if its magnitude is at most `lam`. -/
def softArr (lam : ℝ) (v : Vec n) : Vec n := vec fun i => if |v i| ≤ lam then 0 else if 0 < v i then v i - lam else v i + lam

theorem softThreshold_spec {lam : ℝ} (hl : 0 ≤ lam) (a : ℝ) : softThreshold a lam = if |a| ≤ lam then 0 else if 0 < a then a - lam else a + lam := by
  obtain ⟨h1, h2, h3, -⟩ := c36_soft a lam hl
  split_ifs with h h'
  · exact h1.2 h
  · exact h2 (by rw [abs_of_pos h'] at h; linarith)
  · exact h3 (by rw [abs_of_nonpos (by linarith)] at h; linarith)

theorem softArr_eq {lam : ℝ} (hl : 0 ≤ lam) (v : Vec n) : softArr lam v = vec fun i => softThreshold (v i) lam := by
  ext i
  exact (softThreshold_spec hl (v i)).symm

theorem ortho_norm {A : Vec n →ₗ[ℝ] Vec m} {At : Vec m →ₗ[ℝ] Vec n} (hadj : IsAdj A At) (ho : ∀ x, At (A x) = x) (x : Vec n) : ‖A x‖ = ‖x‖ := by
  have : ‖A x‖ ^ 2 = ‖x‖ ^ 2 := by rw [← real_inner_self_eq_norm_sq, hadj, ho, real_inner_self_eq_norm_sq]
  exact (sq_eq_sq₀ (norm_nonneg _) (norm_nonneg _)).mp this

/-- The residual splits into a fixed part and the distance from the analysis coefficients. -/
theorem ortho_split {A : Vec n →ₗ[ℝ] Vec m} {At : Vec m →ₗ[ℝ] Vec n} (hadj : IsAdj A At) (ho : ∀ x, At (A x) = x) (b : Vec m) (x : Vec n) :
    ‖b - A x‖ ^ 2 = ‖b‖ ^ 2 - ‖At b‖ ^ 2 + ‖x - At b‖ ^ 2 := by
  rw [norm_sub_sq_real b (A x), norm_sub_sq_real x (At b), real_inner_comm, hadj, ortho_norm hadj ho]
  ring

/-- **C157** (the problem) the soft thresholded coefficients are the one and only minimiser of `½|b - A x|² + lam |x|₁`. -/
theorem c157_minimizer (A : Vec n →ₗ[ℝ] Vec m) (At : Vec m →ₗ[ℝ] Vec n) (hadj : IsAdj A At) (ho : ∀ x, At (A x) = x) (b : Vec m) {lam : ℝ} (hl : 0 < lam) (u : Vec n) :
    QpMin A b lam u ↔ u = softArr lam (At b) := by
  have hmin : QpMin A b lam (softArr lam (At b)) := fun v => by
    rw [qpObj, qpObj, ortho_split hadj ho, ortho_split hadj ho, norm_sq_sum (softArr lam (At b) - At b), norm_sq_sum (v - At b), l1, l1]
    have : ∀ i, lam * |softArr lam (At b) i| + (softArr lam (At b) i - At b i) ^ 2 / 2 ≤ lam * |v i| + (v i - At b i) ^ 2 / 2 := fun i => by
      rw [softArr_eq hl.le]
      exact (c36_soft (At b i) lam hl.le).2.2.2.2.2 (v i)
    have h := Finset.sum_le_sum fun i (_ : i ∈ Finset.univ) => this i
    simp only [Finset.sum_add_distrib, ← Finset.mul_sum, ← Finset.sum_div] at h
    simp only [PiLp.sub_apply]
    linarith
  refine ⟨fun h => ?_, fun h => h ▸ hmin⟩
  have := (c155_same A b hl h hmin).1
  rw [← ho u, this, ho]

/-- **C157** (the constrained problem) under the bound `|x|₁ ≤ tau` the least squares solution is the projection of the coefficients on the l1 ball. -/
theorem c157_constrained (A : Vec n →ₗ[ℝ] Vec m) (At : Vec m →ₗ[ℝ] Vec n) (hadj : IsAdj A At) (ho : ∀ x, At (A x) = x) (b : Vec m) {tau : ℝ} (ht : 0 ≤ tau) (u : Vec n) :
    (l1 u ≤ tau ∧ ∀ v, l1 v ≤ tau → ‖b - A u‖ ≤ ‖b - A v‖) ↔ u = projectToL1Ball (At b) tau := by
  have hp := project_nearest ht (At b)
  have hle : ∀ u v : Vec n, ‖b - A u‖ ≤ ‖b - A v‖ ↔ ‖At b - u‖ ≤ ‖At b - v‖ := fun u v => by
    rw [← sq_le_sq₀ (norm_nonneg _) (norm_nonneg _), ← sq_le_sq₀ (norm_nonneg (At b - u)) (norm_nonneg _), ortho_split hadj ho, ortho_split hadj ho, norm_sub_rev u, norm_sub_rev v]
    constructor <;> intro h <;> linarith
  constructor
  · rintro ⟨h1, h2⟩
    by_contra hne
    have := hp.2 u h1 hne
    exact absurd ((hle _ _).1 (h2 _ hp.1)) (not_le.2 this)
  · rintro rfl
    refine ⟨hp.1, fun v hv => (hle _ _).2 ?_⟩
    by_cases h : v = projectToL1Ball (At b) tau
    · rw [h]
    · exact (hp.2 v hv h).le

section ista
variable {E F G : Type*} [NormedAddCommGroup E] [InnerProductSpace ℝ E] [NormedAddCommGroup F] [InnerProductSpace ℝ F]

/-- **C157** (ISTA and FISTA) with unit step on an operator with `trans (times x) = x`, whatever the threshold, the sparsifying basis and the start: the `k`-th iterate
is the data analysed, thresholded with the threshold of that iteration and synthesised, both for ISTA and for FISTA. -/
theorem c157_ista_fista (p : IstaArgs E F G) (A : E →ₗ[ℝ] F) (At : F →ₗ[ℝ] E) (hA : p.times = A) (hAt : p.trans = At) (ho : ∀ x, At (A x) = x) (hs : p.step = 1) :
    (∀ s, Reach (istaCond p) (istaStep p) (istaInit p) s → 1 ≤ s.iters → s.x = p.basisTimes (p.thresh (s.iters - 1) (p.basisTrans (At p.b)))) ∧
    (∀ s, Reach (fistaCond p) (fistaStep p) (fistaInit p) s → 1 ≤ s.iters → s.x = p.basisTimes (p.thresh (s.iters - 1) (p.basisTrans (At p.b)))) := by
  have hz : ∀ z, z + p.step • p.trans (p.b - p.times z) = At p.b := fun z => by
    rw [hs, one_smul, hA, hAt, map_sub, ho, add_sub_cancel]
  constructor
  · intro s h
    exact (h.inv (fun s => s.r = p.b - p.times s.x ∧ (1 ≤ s.iters → s.x = p.basisTimes (p.thresh (s.iters - 1) (p.basisTrans (At p.b)))))
      ⟨rfl, fun h => absurd h (by simp [istaInit])⟩ fun s hi _ => ⟨rfl, fun _ => by
        show p.basisTimes (p.thresh s.iters (p.basisTrans (s.x + p.step • p.trans s.r))) = _
        rw [hi.1, hz]; rfl⟩).2
  · intro s h
    exact (h.inv (fun s => s.r = p.b - p.times s.z ∧ (1 ≤ s.iters → s.x = p.basisTimes (p.thresh (s.iters - 1) (p.basisTrans (At p.b)))))
      ⟨rfl, fun h => absurd h (by simp [fistaInit])⟩ fun s hi _ => ⟨rfl, fun _ => by
        show p.basisTimes (p.thresh s.iters (p.basisTrans (s.z + p.step • p.trans s.r))) = _
        rw [hi.1, hz]; rfl⟩).2

/-- **C157** (stopping) with a threshold that does not depend on the iteration and `xtol ≥ 0` both solvers return after at most two iterations. -/
theorem c157_two_iterations (p : IstaArgs E F G) (A : E →ₗ[ℝ] F) (At : F →ₗ[ℝ] E) (hA : p.times = A) (hAt : p.trans = At) (ho : ∀ x, At (A x) = x) (hs : p.step = 1)
    (hx : 0 ≤ p.xtol) (T : G → G) (hT : ∀ i, p.thresh i = T) :
    (∃ s, Out (istaCond p) (istaStep p) (istaInit p) s) ∧ (∃ s, Out (fistaCond p) (fistaStep p) (fistaInit p) s) ∧
    (∀ s, Out (istaCond p) (istaStep p) (istaInit p) s → s.iters ≤ 2 ∧ (1 ≤ s.iters → s.x = p.basisTimes (T (p.basisTrans (At p.b))))) ∧
    (∀ s, Out (fistaCond p) (fistaStep p) (fistaInit p) s → s.iters ≤ 2 ∧ (1 ≤ s.iters → s.x = p.basisTimes (T (p.basisTrans (At p.b))))) := by
  obtain ⟨h1, h2⟩ := c157_ista_fista p A At hA hAt ho hs
  simp only [hT] at h1 h2
  refine ⟨exists_out (fun s : IstaState E F => s.iters) p.maxIters (fun _ h => h.1) (fun _ => Nat.lt_succ_self _),
    exists_out (fun s : FistaState E F => s.iters) p.maxIters (fun _ h => h.1) (fun _ => Nat.lt_succ_self _), fun s hso => ⟨?_, h1 s hso.1⟩, fun s hso => ⟨?_, h2 s hso.1⟩⟩
  · refine (hso.1.inv' (fun s => s.iters ≤ 2 ∧ (s.iters = 2 → s.dx = 0)) ⟨by simp [istaInit], fun h => absurd h (by simp [istaInit])⟩ fun s hr hi hc => ?_).1
    have h3 : s.iters ≠ 2 := fun h => by
      have := hc.2.1
      rw [hi.2 h] at this
      linarith
    refine ⟨by show s.iters + 1 ≤ 2; have := hi.1; omega, fun h => ?_⟩
    have h4 : s.iters = 1 := by have : s.iters + 1 = 2 := h; omega
    show ‖(istaStep p s).x - s.x‖ = 0
    rw [h1 _ (.step hr hc) (by show 1 ≤ s.iters + 1; omega), h1 s hr (by omega), sub_self, norm_zero]
  · refine (hso.1.inv' (fun s => s.iters ≤ 2 ∧ (s.iters = 2 → s.dx = 0)) ⟨by simp [fistaInit], fun h => absurd h (by simp [fistaInit])⟩ fun s hr hi hc => ?_).1
    have h3 : s.iters ≠ 2 := fun h => by
      have := hc.2.1
      rw [hi.2 h] at this
      linarith
    refine ⟨by show s.iters + 1 ≤ 2; have := hi.1; omega, fun h => ?_⟩
    have h4 : s.iters = 1 := by have : s.iters + 1 = 2 := h; omega
    show ‖(fistaStep p s).x - s.x‖ = 0
    rw [h2 _ (.step hr hc) (by show 1 ≤ s.iters + 1; omega), h2 s hr (by omega), sub_self, norm_zero]

end ista

/-- **C157** (the other solvers) the interior point solver, the first order solver `l1rls`, YALL1 and SPGL1 approach the soft thresholded coefficients themselves,
not only their image. -/
theorem c157_solvers (A : Vec n →ₗ[ℝ] Vec m) (At : Vec m →ₗ[ℝ] Vec n) (hadj : IsAdj A At) (ho : ∀ x, At (A x) = x) (b : Vec m) (hb : b ≠ 0) (lam : ℝ) (hl : 0 < lam) :
    (∀ tol : ℝ, 0 < tol → 0 < n → ∃ K : ℕ, ∀ N P : ℕ, K < N → 2 * n < P → ∃ s, L1lsSolve A At b (2 * lam) tol 0 N P s ∧ s.iterations < N ∧
      ‖s.x - softArr lam (At b)‖ ^ 2 ≤ tol * ‖b‖ ^ 2) ∧
    (∀ (x0 : Vec n) (o : FomOptions), o.alpha = 1 → 0 < o.beta → o.beta < 1 → 0 < o.L0 → o.Lexact = none → ∃ c, ∀ (N : ℕ) (tol : ℝ) (s : FomState (Vec n) (Vec m)),
      FomReach (l1rls A At b lam x0 { o with maxIters := N, tol := tol }) s → ‖s.x - softArr lam (At b)‖ ^ 2 ≤ c / (s.iters + 1) ^ 2) ∧
    ((∀ y, A (At y) = y) → ∀ (delta tol : ℝ) (maxIters : ℕ) (x0 z0 : Vec n), Tendsto (fun k => linf b • ((yallIter A At (yallArgs b none false lam delta 1 tol maxIters))^[k]
        (yallInit A At (yallArgs b none false lam delta 1 tol maxIters) x0 z0)).x) atTop (𝓝 (softArr lam (At b)))) ∧
    (∀ (o : Spgl1Opts), 0 < o.memory → ∀ s : LassoState m n, LassoSolve A At b (l1 (softArr lam (At b))) o s → s.iterations < o.maxIters → o.optTol * ‖b‖ ≤ ‖b - A s.x‖ →
      ‖s.x - softArr lam (At b)‖ ^ 2 ≤ 2 * o.optTol * max 1 (‖b - A s.x‖ ^ 2 / 2)) := by
  have hu : QpMin A b lam (softArr lam (At b)) := (c157_minimizer A At hadj ho b hl _).2 rfl
  have hd : ∀ x, ‖A x - A (softArr lam (At b))‖ = ‖x - softArr lam (At b)‖ := fun x => by rw [← map_sub, ortho_norm hadj ho]
  refine ⟨fun tol ht hn => ?_, fun x0 o h1 h2 h3 h4 h5 => ?_, fun hA delta tol N x0 z0 => ?_, fun o hm s hs hi hr => ?_⟩
  · obtain ⟨K, hK⟩ := c155_l1ls A At hadj b hb lam hl hn tol ht
    refine ⟨K, fun N P hN hP => ?_⟩
    obtain ⟨s, h1, h2, h3⟩ := hK N P hN hP
    have := h3 _ hu
    rw [hd] at this
    exact ⟨s, h1, h2, by linarith⟩
  · obtain ⟨c, hc⟩ := c155_l1rls A At hadj b lam hl x0 o h1 h2 h3 h4 h5
    refine ⟨2 * c, fun N tol s hs => ?_⟩
    have := hc N tol s hs _ hu
    rw [hd] at this
    rw [mul_div_assoc]
    linarith
  · obtain ⟨x, hx, hlim⟩ := c155_yall A At hadj hA b hb lam hl delta tol N x0 z0
    rwa [(c157_minimizer A At hadj ho b hl x).1 hx] at hlim
  · have := (c155_spgl1 A At hadj b lam hl.le _ hu o hm s hs hi hr).2
    rw [hd] at this
    linarith

/-! Instances: `A = 1`, `b = 1`, `lam = 1/2`. -/

example := c157_minimizer unit1 unit1 unit1_adj unit1_orth (v1 1) (by norm_num : (0 : ℝ) < 1 / 2)
example : softArr (1 / 2) (v1 1) = v1 (1 / 2) := by
  ext i
  show (if |(1 : ℝ)| ≤ 1 / 2 then (0 : ℝ) else if (0 : ℝ) < 1 then 1 - 1 / 2 else 1 + 1 / 2) = 1 / 2
  norm_num
example := c157_constrained unit1 unit1 unit1_adj unit1_orth (v1 1) (by norm_num : (0 : ℝ) ≤ 1 / 2)
example := c157_two_iterations (scalarIsta 1e-3 1e-3 50) unit1 unit1 rfl rfl unit1_orth rfl (by norm_num [scalarIsta]) _ (fun _ => rfl)
example := c157_ista_fista (scalarIsta 1e-3 1e-3 50) unit1 unit1 rfl rfl unit1_orth rfl
example := c157_solvers unit1 unit1 unit1_adj unit1_orth (v1 1) (v1_ne_zero one_ne_zero) (1 / 2) (by norm_num)

end Verif.Cvx
