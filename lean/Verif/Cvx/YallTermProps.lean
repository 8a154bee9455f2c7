import Verif.Cvx.YallGamma
import Verif.Cvx.YallStopProps

set_option autoImplicit false
/-!
# YALL1 ends by its own stopping test (C116)
-/
noncomputable section
namespace Verif.Cvx
open Verif.Loop Verif.Opt
open Verif.Sls (counted)
open scoped RealInnerProductSpace
open Filter Topology

variable {m n : ℕ}

/-- A quantity that vanishes in the limit passes the relative test against one that does not. -/
theorem eventually_ratio {a b : ℕ → ℝ} {l c : ℝ} (ha : Tendsto a atTop (𝓝 0)) (hb : Tendsto b atTop (𝓝 l)) (hl : 0 < l) (hc : 0 < c) :
    ∀ᶠ k in atTop, ¬ ratioGt (a k) (b k) c := by
  have h1 : Tendsto (fun k => c * b k - a k) atTop (𝓝 (c * l - 0)) := (hb.const_mul c).sub ha
  have h2 : (0 : ℝ) < c * l - 0 := by rw [sub_zero]; exact mul_pos hc hl
  filter_upwards [h1.eventually_const_lt h2, hb.eventually_const_lt hl] with k h3 h4
  rintro (⟨-, h⟩ | ⟨h, -⟩)
  · have := (lt_div_iff₀ h4).mp h
    linarith
  · exact h4.ne' h

theorem iterY_continuous (A : Vec n →ₗ[ℝ] Vec m) (p : YallArgs m n) (hf : p.form.Pos) (hb : p.b ≠ 0) : Continuous fun u : Vec n × Vec n => iterY A p u.1 u.2 := by
  have cA : Continuous A := A.continuous_of_finiteDimensional
  have c1 : Continuous fun u : Vec n × Vec n => (yallMu p.b)⁻¹ • u.1 := by fun_prop
  have c2 : Continuous fun u : Vec n × Vec n => A (u.2 - (yallMu p.b)⁻¹ • u.1) := cA.comp (continuous_snd.sub c1)
  have c3 : Continuous fun u : Vec n × Vec n => A (u.2 - (yallMu p.b)⁻¹ • u.1) + (yallMu p.b)⁻¹ • p.b := c2.add continuous_const
  exact (shrink_continuous hf (yallMu_pos hb)).comp c3

/-- The dual objective of the penalised form when the solution is zero. -/
theorem dual_at_zero {rho : ℝ} (hr : 0 < rho) {b y : Vec m} (h : IsSubgrad (.l1l2 rho) b y) : ⟪b, y⟫ - 0.5 * rho * ⟪y, y⟫ = 0.5 / rho * ⟪b, b⟫ := by
  have h1 : rho / 2 * ‖y‖ ^ 2 + ⟪b, rho⁻¹ • b - y⟫ ≤ rho / 2 * ‖rho⁻¹ • b‖ ^ 2 := h (rho⁻¹ • b)
  rw [← real_inner_self_eq_norm_sq, ← real_inner_self_eq_norm_sq, inner_sub_right, real_inner_smul_right, real_inner_smul_left, real_inner_smul_right] at h1
  have h2 : 0 ≤ ⟪rho • y - b, rho • y - b⟫ := real_inner_self_nonneg
  rw [inner_sub_left, inner_sub_right, inner_sub_right, real_inner_smul_left, real_inner_smul_left, real_inner_smul_right, real_inner_smul_right, real_inner_comm b y] at h2
  obtain ⟨B, hB⟩ : ∃ B, B = ⟪b, b⟫ := ⟨_, rfl⟩
  obtain ⟨C, hC⟩ : ∃ C, C = ⟪b, y⟫ := ⟨_, rfl⟩
  obtain ⟨Y, hY⟩ : ∃ Y, Y = ⟪y, y⟫ := ⟨_, rfl⟩
  rw [← hB, ← hC, ← hY] at h1 h2
  rw [← hB, ← hC, ← hY]
  have h3 : rho / 2 * (rho⁻¹ * (rho⁻¹ * B)) = rho⁻¹ * B / 2 := by field_simp
  have h5 : rho⁻¹ * (rho * (rho * Y) - rho * C - (rho * C - B)) = rho * Y - 2 * C + rho⁻¹ * B := by
    field_simp; ring
  have h6 : 0 ≤ rho⁻¹ * (rho * (rho * Y) - rho * C - (rho * C - B)) := mul_nonneg (inv_pos.mpr hr).le h2
  rw [h5] at h6
  rw [h3] at h1
  have h4 : 0.5 / rho * B = 0.5 * (rho⁻¹ * B) := by ring
  rw [h4]
  linarith

/-- The penalised form with the zero solution: the duality gap and the dual residual vanish in the limit. -/
theorem stop_at_zero (A : Vec n →ₗ[ℝ] Vec m) (At : Vec m →ₗ[ℝ] Vec n) (hA : ∀ y, A (At y) = y) (p : YallArgs m n) (hf : p.form.Pos) (hb : p.b ≠ 0) (ht : 0 < p.tol)
    {rho : ℝ} (hform : p.form = .l1l2 rho) (u : ℕ → YallState m n) (hus : ∀ k, u (k + 1) = yallIter A At p (u k)) {z : Vec n}
    (hkk : Kkt p.form p.nonneg p.w A At p.b 0 z (iterY A p 0 z)) (hx : Tendsto (fun k => (u k).x) atTop (𝓝 0)) (hz : Tendsto (fun k => (u k).z) atTop (𝓝 z)) :
    ∀ᶠ k in atTop, ∀ M, ¬ yallCond { p with maxIters := M } (u (k + 1)) := by
  have cA : Continuous A := A.continuous_of_finiteDimensional
  have cAt : Continuous At := At.continuous_of_finiteDimensional
  have hx1 := (tendsto_add_atTop_iff_nat 1).mpr hx
  have hz1 := (tendsto_add_atTop_iff_nat 1).mpr hz
  have hr : 0 < rho := by rw [hform] at hf; exact hf
  obtain ⟨y, hy⟩ : ∃ y, y = iterY A p 0 z := ⟨_, rfl⟩
  rw [← hy] at hkk
  have cY := iterY_continuous A p hf hb
  have hyk : Tendsto (fun k => iterY A p (u k).x (u k).z) atTop (𝓝 y) := by
    have h1 : Tendsto (fun q : Vec n × Vec n => iterY A p q.1 q.2) (𝓝 (0, z)) (𝓝 y) := by rw [hy]; exact cY.tendsto (0, z)
    have h2 : Tendsto (fun k => ((u k).x, (u k).z)) atTop (𝓝 (0, z)) := hx.prodMk_nhds hz
    have h3 := h1.comp h2
    exact h3
  have hrd : Tendsto (fun k => ‖(u (k + 1)).rd‖) atTop (𝓝 0) := by
    have h1 : Tendsto (fun k => ‖(u (k + 1)).z - At (iterY A p (u k).x (u k).z)‖) atTop (𝓝 ‖z - At y‖) :=
      (hz1.sub ((cAt.tendsto y).comp hyk)).norm
    rw [← hkk.dual, sub_self, norm_zero] at h1
    refine h1.congr fun k => ?_
    rw [hus k]; rfl
  have hpr : Tendsto (fun k => (u (k + 1)).primal) atTop (𝓝 (0.5 / rho * ⟪p.b, p.b⟫)) := by
    have c1 : Continuous fun v : Vec n => yallPrimal p v (p.b - A v) := by
      simp only [yallPrimal, hform]
      fun_prop
    have h1 := (c1.tendsto 0).comp hx1
    have e : yallPrimal p 0 (p.b - A 0) = 0.5 / rho * ⟪p.b, p.b⟫ := by
      simp [yallPrimal, hform]
    rw [e] at h1
    refine h1.congr fun k => ?_
    show yallPrimal p (u (k + 1)).x (p.b - A (u (k + 1)).x) = _
    rw [hus k]; rfl
  have hdu : Tendsto (fun k => (u (k + 1)).dual) atTop (𝓝 (⟪p.b, y⟫ - 0.5 * rho * ⟪y, y⟫)) := by
    have c1 : Continuous fun v : Vec m => ⟪p.b, v⟫ - 0.5 * rho * ⟪v, v⟫ := by fun_prop
    refine ((c1.tendsto y).comp hyk).congr fun k => ?_
    rw [hus k]
    show _ = yallDual p (iterY A p (u k).x (u k).z)
    simp only [yallDual, hform]; rfl
  have hbb : 0 < ⟪p.b, p.b⟫ := by rw [real_inner_self_eq_norm_sq]; exact pow_pos (norm_pos_iff.mpr hb) 2
  have heq : ⟪p.b, y⟫ - 0.5 * rho * ⟪y, y⟫ = 0.5 / rho * ⟪p.b, p.b⟫ :=
    dual_at_zero hr (by have h := hkk.sub; rwa [hform, map_zero, sub_zero] at h)
  have hz0 : 0 < ‖z‖ := by
    rw [norm_pos_iff]
    intro h0
    have : y = 0 := by rw [← hA y, ← hkk.dual, h0, map_zero]
    rw [this, inner_zero_right, inner_zero_left, mul_zero, sub_zero] at heq
    have : 0 < 0.5 / rho * ⟪p.b, p.b⟫ := by positivity
    linarith
  have hgap : Tendsto (fun k => |(u (k + 1)).dual - (u (k + 1)).primal|) atTop (𝓝 0) := by
    have := (hdu.sub hpr).abs
    rwa [heq, sub_self, abs_zero] at this
  filter_upwards [eventually_ratio hgap hpr (by positivity) ht, eventually_ratio hrd hz1.norm hz0 ht] with k h1 h2 M h3
  have h3 : yallCond { p with maxIters := M, form := .l1l2 rho } (u (k + 1)) := by rw [← hform]; exact h3
  rcases h3.2 with h | h
  · exact h1 h
  · exact h2 h

/-- Every state far along the iteration fails the loop condition. -/
theorem yall_eventually_stop (A : Vec n →ₗ[ℝ] Vec m) (At : Vec m →ₗ[ℝ] Vec n) (hadj : IsAdj A At) (hA : ∀ y, A (At y) = y) (p : YallArgs m n) (hf : p.form.Pos)
    (hw : ∀ i, 0 < p.w i) (hb : p.b ≠ 0) (hg : 0 < p.gamma) (hg1 : p.gamma ^ 2 < p.gamma + 1) (hk : ∃ x z y, Kkt p.form p.nonneg p.w A At p.b x z y)
    (ht : 0 < p.tol) (hcon : ∀ delta, p.form = .con delta → delta < ‖p.b‖) (s : YallState m n) :
    ∃ K, ∀ k, K ≤ k → ∀ M, ¬ yallCond { p with maxIters := M } ((yallIter A At p)^[k] s) := by
  obtain ⟨x, z, hkk, hx, hz⟩ := converge_gamma_xz A At hadj hA p hf hw hb hg hg1 hk s
  have hm := yallMu_pos hb
  have cA : Continuous A := A.continuous_of_finiteDimensional
  have cAt : Continuous At := At.continuous_of_finiteDimensional
  obtain ⟨u, hu⟩ : ∃ u : ℕ → YallState m n, u = fun k => (yallIter A At p)^[k] s := ⟨_, rfl⟩
  have hus : ∀ k, u (k + 1) = yallIter A At p (u k) := fun k => by rw [hu]; exact Function.iterate_succ_apply' _ _ _
  have hx : Tendsto (fun k => (u k).x) atTop (𝓝 x) := by rw [hu]; exact hx
  have hz : Tendsto (fun k => (u k).z) atTop (𝓝 z) := by rw [hu]; exact hz
  have hx1 := (tendsto_add_atTop_iff_nat 1).mpr hx
  have hz1 := (tendsto_add_atTop_iff_nat 1).mpr hz
  have key : ∀ᶠ k in atTop, ∀ M, ¬ yallCond { p with maxIters := M } (u (k + 1)) := by
    by_cases hx0 : x = 0
    · subst hx0
      have hsol := hkk.sol hf (fun i => (hw i).le) hadj
      cases hform : p.form with
      | bp =>
        exfalso
        rw [hform] at hsol
        have : A 0 = p.b := hsol.1.2
        rw [map_zero] at this
        exact hb this.symm
      | con delta =>
        exfalso
        rw [hform] at hsol
        have : ‖A 0 - p.b‖ ≤ delta := hsol.1.2
        rw [map_zero, zero_sub, norm_neg] at this
        exact absurd (hcon delta hform) (not_lt.mpr this)
      | l1l2 rho =>
        have h := stop_at_zero A At hA p hf hb ht hform u hus hkk hx hz
        rw [hform] at h
        exact h
    · have hch : Tendsto (fun k => ‖(u (k + 1)).x - (u (k + 1)).xPrev‖) atTop (𝓝 0) := by
        have h1 := (hx1.sub hx).norm
        rw [sub_self, norm_zero] at h1
        refine h1.congr fun k => ?_
        have : (u (k + 1)).xPrev = (u k).x := by rw [hus k]; rfl
        rw [this]
      filter_upwards [eventually_ratio hch hx1.norm (norm_pos_iff.mpr hx0) ht,
        eventually_ratio hch hx1.norm (norm_pos_iff.mpr hx0) (mul_pos ht (by norm_num : (0 : ℝ) < 1 - 0.1))] with k h1 h2 M h3
      unfold yallCond at h3
      split at h3
      · exact h2 h3.2.2
      · exact h2 h3.1.2
      · exact h1 h3.2.2
  obtain ⟨K, hK⟩ := eventually_atTop.mp key
  refine ⟨K + 1, fun k hk M => ?_⟩
  obtain ⟨j, rfl⟩ : ∃ j, k = j + 1 := ⟨k - 1, by omega⟩
  have := hK j (by omega) M
  rw [hu] at this
  exact this

/-- **C116.** With orthonormal rows, `0 < gamma < (1 + √5) / 2` and a positive tolerance, `solve` ends by its own stopping test: there is a number of iterations, the same for
every `max_iters`, that it never exceeds. With a sign constraint the problem must have a nonnegative feasible point, strictly feasible for a residual bound. -/
theorem c116_terminates (A : Vec n →ₗ[ℝ] Vec m) (At : Vec m →ₗ[ℝ] Vec n) (hadj : IsAdj A At) (hA : ∀ y, A (At y) = y) (b : Vec m) (hb : b ≠ 0)
    (weights : Option (Vec n)) (hw : ∀ i, 0 < yallWeights weights i) (nonneg : Bool) (rho delta gamma tol : ℝ) (x0 z0 : Option (Vec n))
    (hg0 : 0 < gamma) (hg1 : gamma < (1 + √5) / 2) (ht : 0 < tol)
    (hbp : nonneg = true → rho ≤ 0 → delta ≤ 0 → ∃ x : Vec n, (∀ i, 0 ≤ x i) ∧ A x = b)
    (hcon : nonneg = true → rho ≤ 0 → 0 < delta → ∃ x : Vec n, (∀ i, 0 ≤ x i) ∧ ‖A x - b‖ < delta) :
    ∃ N, ∀ maxIters res, YallSolve A At b x0 z0 weights nonneg rho delta gamma tol maxIters res → res.iterations ≤ N := by
  have hB := linf_pos hb
  have hb' : (linf b)⁻¹ • b ≠ 0 := smul_ne_zero (inv_ne_zero hB.ne') hb
  have h5 : (√5) ^ 2 = 5 := Real.sq_sqrt (by norm_num)
  have h51 : 1 < √5 := by rw [Real.lt_sqrt (by norm_num)]; norm_num
  have hgg : gamma ^ 2 < gamma + 1 := by
    nlinarith [mul_pos (sub_pos.mpr hg1) (by linarith : 0 < gamma - (1 - √5) / 2)]
  by_cases hz : YallZero b (At b) rho delta
  · refine ⟨0, fun M res h => ?_⟩
    rcases h with ⟨_, rfl⟩ | ⟨h0, _⟩
    · exact le_refl 0
    · exact absurd hz h0
  have hdel : ∀ d, yallSelect rho delta (linf b) = .con d → d < ‖(linf b)⁻¹ • b‖ := by
    intro d hd
    unfold yallSelect at hd
    split at hd
    · cases hd
    split at hd
    · rename_i h1 h2
      cases hd
      rw [YallZero, if_pos h2, not_le] at hz
      rw [norm_smul, norm_inv, Real.norm_eq_abs, abs_of_pos hB, div_eq_inv_mul]
      exact mul_lt_mul_of_pos_left hz (inv_pos.mpr hB)
    · cases hd
  obtain ⟨p, hp⟩ : ∃ p, p = yallArgs b weights nonneg rho delta gamma tol 0 := ⟨_, rfl⟩
  obtain ⟨s0, hs0⟩ : ∃ s0, s0 = yallInit A At p (x0.getD ((linf b)⁻¹ • At b)) (z0.getD 0) := ⟨_, rfl⟩
  obtain ⟨K, hK⟩ := yall_eventually_stop A At hadj hA p (by rw [hp]; exact yallSelect_pos rho delta hB) (by rw [hp]; exact hw) (by rw [hp]; exact hb') (by rw [hp]; exact hg0)
    (by rw [hp]; exact hgg) (by rw [hp]; exact exists_kkt_scaled A At hadj hA b hb weights hw nonneg rho delta hbp hcon) (by rw [hp]; exact ht)
    (by rw [hp]; exact hdel) s0
  refine ⟨K + 1, fun M res h => ?_⟩
  rcases h with ⟨h0, _⟩ | ⟨_, s, hs, rfl⟩
  · exact absurd h0 hz
  have hpM : yallArgs b weights nonneg rho delta gamma tol M = { p with maxIters := M } := by rw [hp]; rfl
  have hs1 : Reach (yallCond { p with maxIters := M }) (yallBody A At p) s0 s := by
    have := hs.1
    rw [hpM] at this
    rw [hs0]
    exact this
  have hinv : s = (yallIter A At p)^[s.iterations] s0 ∧ s.iterations ≤ K + 1 := by
    refine hs1.inv (fun s => s = (yallIter A At p)^[s.iterations] s0 ∧ s.iterations ≤ K + 1) ⟨by rw [hs0]; rfl, by rw [hs0]; exact Nat.zero_le _⟩ ?_
    rintro t ⟨h1, h2⟩ hc
    refine ⟨?_, ?_⟩
    · show yallIter A At p (yallIter A At p t) = (yallIter A At p)^[t.iterations + 1 + 1] s0
      rw [Function.iterate_succ_apply', Function.iterate_succ_apply', ← h1]
    · show t.iterations + 1 + 1 ≤ K + 1
      have : t.iterations < K := by
        by_contra hge
        exact hK t.iterations (by omega) M (h1 ▸ hc)
      omega
  exact hinv.2

/-- The hypotheses are met by the default `gamma`, `tolerance` and a sign constraint; the bound holds for the run with `max_iters = 9999` too. -/
example : ∃ N, ∀ maxIters res, YallSolve unit1 unit1 (v1 1) none none none true 0 0 1 5e-3 maxIters res → res.iterations ≤ N := by
  refine c116_terminates unit1 unit1 unit1_adj unit1_orth (v1 1) (v1_ne_zero one_ne_zero) none (fun i => by norm_num [yallWeights]) true 0 0 1 5e-3 none none
    one_pos ?_ (by norm_num) (fun _ _ _ => ⟨v1 1, fun i => by norm_num [v1], unit1_apply _⟩) (fun _ _ h => absurd h (lt_irrefl _))
  have : (2.21 : ℝ) < √5 := by rw [Real.lt_sqrt (by norm_num)]; norm_num
  linarith

end Verif.Cvx
