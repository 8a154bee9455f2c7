import Verif.Sls.LanLemmas
import Mathlib.Analysis.InnerProductSpace.PiL2
import Mathlib.Tactic.FinCases

set_option autoImplicit false
/-!
# Lanczos bidiagonalisation (C94)
-/
noncomputable section
namespace Verif.Sls
open scoped RealInnerProductSpace

section
variable {E F : Type*} [NormedAddCommGroup E] [InnerProductSpace ℝ E] [NormedAddCommGroup F] [InnerProductSpace ℝ F]

/-- **C94** `lanbpro(A, k, p0)`, when it returns without NaN and no nonzero residual was replaced by a random vector, returns `k` orthonormal columns `u_i`, `k` orthonormal columns `v_i` and non-negative `alpha`, `beta` with
`A v_i = alpha_i u_i + beta_{i+1} u_{i+1}`, `Aᵀ u_0 = alpha_0 v_0`, `Aᵀ u_{i+1} = alpha_{i+1} v_{i+1} + beta_{i+1} v_i`; for the last column the vector `q = A v_{k-1} - alpha_{k-1} u_{k-1}` has norm `beta_k`, is orthogonal to all `u_i`, and is the
returned `p` unless it is zero. This holds whatever the estimates that drive the partial reorthogonalisation.
What is missing from the full statement: NaN is returned when the range of `A` is exhausted (`c94_exhausted_fails`, `c94_one_by_one_fails`), and nothing is claimed once a small nonzero residual has been replaced. -/
theorem c94_bidiagonal_partial {env : LanEnv E F} {A : E →ₗ[ℝ] F} {trans : F → E} {o : LanOptions} (hs : LanSetting env A trans o) (k : ℕ) (hk : 0 < k) (p0 : F) (hp0 : trans p0 ≠ 0)
    (s : LanState E F) (h : lanbpro env A trans k p0 o = some s) (hd : s.dropped = 0) :
    OrthoCols k s.U ∧ OrthoCols k s.V ∧ (∀ i < k, 0 ≤ s.alpha i) ∧ (∀ i ≤ k, 0 ≤ s.beta i) ∧
    (∀ i, i + 1 < k → A (s.V i) = s.alpha i • s.U i + s.beta (i + 1) • s.U (i + 1)) ∧
    trans (s.U 0) = s.alpha 0 • s.V 0 ∧ (∀ i, i + 1 < k → trans (s.U (i + 1)) = s.alpha (i + 1) • s.V (i + 1) + s.beta (i + 1) • s.V i) ∧
    ∃ q, A (s.V (k - 1)) = s.alpha (k - 1) • s.U (k - 1) + q ∧ ‖q‖ = s.beta k ∧ (∀ i < k, ⟪s.U i, q⟫ = 0) ∧ (q ≠ 0 → s.p = some q) := by
  have hi := lanbproFrom_inv hs hp0 (k - 1) (by omega) s h hd.le
  rw [Nat.sub_add_cancel hk] at hi
  obtain ⟨q, h1, h2, h3, h4⟩ := hi.last
  exact ⟨hi.U, hi.V, hi.alpha, hi.beta, hi.ti, hi.tr0, hi.tr, q, h1, h3, h2, h4⟩

/-- **C94** is violated when the range is exhausted: if the columns `u_0, …, u_{j-1}` already span the range of `A`, the replacement vector asked for at a breakdown is NaN. -/
theorem c94_exhausted_fails {env : LanEnv E F} {A : E →ₗ[ℝ] F} (hr : ReorthOk env.reorthF) {k j : ℕ} (hjk : j ≤ k) {U : ℕ → F} (hU : OrthoCols j U) (hz : ∀ i, j ≤ i → U i = 0)
    (hspan : ∀ x, A x = ∑ i ∈ Finset.range j, ⟪U i, A x⟫ • U i) (gamma : ℝ) : newPVec env A k U j gamma = none := by
  have hg : ∀ n, env.reorthF k U (A (env.randE n)) ‖A (env.randE n)‖ (fun i => decide (i < j)) gamma = (0, 0) := by
    intro n
    have := hr k j U (A (env.randE n)) (fun i => decide (i < j)) gamma hU hz
    simp only at this
    have e : ∑ i ∈ Finset.range k, (if decide (i < j) = true then ⟪U i, A (env.randE n)⟫ • U i else 0) = A (env.randE n) := by
      conv_rhs => rw [hspan]
      rw [← Finset.sum_filter]
      refine Finset.sum_congr ?_ fun _ _ => rfl
      ext i
      simp only [Finset.mem_filter, Finset.mem_range, decide_eq_true_eq]
      omega
    rw [e, sub_self, norm_zero] at this
    exact this
  have hP := newVecFrom_spec (fun n => env.reorthF k U (A (env.randE n)) ‖A (env.randE n)‖ (fun i => decide (i < j)) gamma) (fun s => s = (0, 0)) hg 9 1 _ (hg 0)
  unfold newPVec newVec
  simp only
  rw [if_pos (by rw [hP])]

end

/-- **C94** is violated for every `1 × 1` matrix `a ≠ 0`: for `k = 1` the residual vector is NaN, and for every larger `k` the whole result is NaN. -/
theorem c94_one_by_one_fails (env : LanEnv ℝ ℝ) (a : ℝ) (ha : a ≠ 0) (o : LanOptions) (hs : LanSetting env (LinearMap.lsmul ℝ ℝ a) (fun y => a * y) o) :
    (∃ s, lanbpro env (LinearMap.lsmul ℝ ℝ a) (fun y => a * y) 1 1 o = some s ∧ s.p = none ∧ s.dropped = 0) ∧ ∀ k, 2 ≤ k → lanbpro env (LinearMap.lsmul ℝ ℝ a) (fun y => a * y) k 1 o = none := by
  have hu : safeDivS (1 : ℝ) ‖(1 : ℝ)‖ = 1 := by simp [safeDivS]
  have hv : a * safeDivS (a * 1) ‖a * 1‖ = ‖a * 1‖ := by
    have : |a| ≠ 0 := abs_ne_zero.mpr ha
    simp only [safeDivS, mul_one, Real.norm_eq_abs, if_neg this, smul_eq_mul]
    field_simp
    exact (sq_abs a).symm
  have hU : OrthoCols 1 (Function.update (fun _ => (0 : ℝ)) 0 1) := by
    intro x hx y hy
    obtain rfl : x = 0 := by omega
    obtain rfl : y = 0 := by omega
    simp
  have hnew : ∀ k, 1 ≤ k → _ := fun k hk => c94_exhausted_fails (A := LinearMap.lsmul ℝ ℝ a) hs.reorthF hk hU (fun i hi => Function.update_of_ne (by omega) _ _) (fun x => by simp) o.gamma
  have hp : (LinearMap.lsmul ℝ ℝ a) (safeDivS (a * 1) ‖a * 1‖) - ‖a * 1‖ • (1 : ℝ) = 0 := by
    show a * safeDivS (a * 1) ‖a * 1‖ - ‖a * 1‖ * 1 = 0
    rw [hv, mul_one, mul_one, sub_self]
  have he : env.elrF 1 (0 : ℝ) ‖(0 : ℝ)‖ o.gamma = (0, ‖(0 : ℝ)‖, 0) := hs.elrF.fix _ (by simp) (by simp)
  have hsm : ‖(0 : ℝ)‖ < o.maxMN * (fudge * ‖a * 1‖) * o.eps := by
    rw [norm_zero]
    exact mul_pos (mul_pos hs.maxMN (mul_pos (by norm_num [fudge]) (by simpa using ha))) hs.eps
  have hin : ∀ k, 1 ≤ k → (lanInit env (LinearMap.lsmul ℝ ℝ a) (fun y => a * y) k 1 o).p = none := by
    intro k hk
    unfold lanInit
    simp only [hu]
    simp only [hp, he, if_pos hsm, hnew k hk]
  have hdr : (lanInit env (LinearMap.lsmul ℝ ℝ a) (fun y => a * y) 1 1 o).dropped = 0 := by
    unfold lanInit
    simp only [hu]
    simp only [hp, he, if_pos hsm]
    exact norm_zero
  refine ⟨⟨_, rfl, hin 1 le_rfl, hdr⟩, fun k hk => ?_⟩
  have hall : ∀ n, lanbproFrom env (LinearMap.lsmul ℝ ℝ a) (fun y => a * y) k 1 o (n + 1) = none := by
    intro n
    induction n with
    | zero => simp [lanbproFrom, lanIteration, hin k (by omega)]
    | succ n ih => rw [lanbproFrom, ih, Option.bind_none]
  obtain ⟨n, rfl⟩ := Nat.exists_eq_add_of_le hk
  show lanbproFrom _ _ _ _ _ _ (2 + n - 1) = none
  rw [show 2 + n - 1 = n + 1 by omega]
  exact hall n

/-! ## A run that meets the hypotheses -/

/-- External functions that meet their contracts. -/
def exEnv (E F : Type*) [NormedAddCommGroup E] [InnerProductSpace ℝ E] [NormedAddCommGroup F] [InnerProductSpace ℝ F] : LanEnv E F where
  reorthE k Q r _ mask _ := let r' := r - ∑ i ∈ Finset.range k, if mask i then ⟪Q i, r⟫ • Q i else 0; (r', ‖r'‖)
  reorthF k Q r _ mask _ := let r' := r - ∑ i ∈ Finset.range k, if mask i then ⟪Q i, r⟫ • Q i else 0; (r', ‖r'‖)
  elrE w r _ _ := (r - ⟪w, r⟫ • w, ‖r - ⟪w, r⟫ • w‖, ⟪w, r⟫)
  elrF w r _ _ := (r - ⟪w, r⟫ • w, ‖r - ⟪w, r⟫ • w‖, ⟪w, r⟫)
  updateMu mu mumax _ _ _ _ _ := (mu, mumax)
  updateNu nu numax _ _ _ _ _ := (nu, numax)
  computeInd _ _ _ _ := false
  normEst a _ := a 0
  randE _ := 0
  randF _ := 0

theorem exEnv_setting {E F : Type*} [NormedAddCommGroup E] [InnerProductSpace ℝ E] [NormedAddCommGroup F] [InnerProductSpace ℝ F] (A : E →ₗ[ℝ] F) (trans : F → E) (hadj : ∀ x y, ⟪A x, y⟫ = ⟪x, trans y⟫)
    (o : LanOptions) (h1 : 0 < o.eps) (h2 : 0 < o.maxMN) : LanSetting (exEnv E F) A trans o where
  adj := hadj
  reorthE _ _ _ _ _ _ _ _ := rfl
  reorthF _ _ _ _ _ _ _ _ := rfl
  elrE _ _ _ _ := rfl
  elrF _ _ _ _ := rfl
  est _ _ h := h
  eps := h1
  maxMN := h2

/-- Options for the example. -/
def exOptions : LanOptions := { delta := 1, eps := 1 / 1000, gamma := 1 / 2, eta := 1, elr := false, machEps := 1 / 1000, maxMN := 3 }

/-- Two steps on any `A` with orthonormal `e_0, e_1` and `f_0, f_1, f_2` such that `A e_0 = f_0 + f_1`, `A e_1 = f_1 + f_2`, `Aᵀ f_0 = e_0`, `Aᵀ f_1 = e_0 + e_1` run without NaN and replace nothing. -/
theorem ex_run {E F : Type*} [NormedAddCommGroup E] [InnerProductSpace ℝ E] [NormedAddCommGroup F] [InnerProductSpace ℝ F] (A : E →ₗ[ℝ] F) (trans : F → E) (e0 e1 : E) (f0 f1 f2 : F)
    (he0 : ‖e0‖ = 1) (he1 : ‖e1‖ = 1) (hf0 : ‖f0‖ = 1) (hf1 : ‖f1‖ = 1) (hf2 : ‖f2‖ = 1) (h01 : ⟪f0, f1⟫ = 0) (hA0 : A e0 = f0 + f1) (hA1 : A e1 = f1 + f2) (hT0 : trans f0 = e0) (hT1 : trans f1 = e0 + e1) :
    ∃ s, lanbpro (exEnv E F) A trans 2 f0 exOptions = some s ∧ s.dropped = 0 ∧ s.alpha 0 = 1 ∧ s.alpha 1 = 1 ∧ s.beta 1 = 1 ∧ s.beta 2 = 1 := by
  have sdF : ∀ x : F, safeDivS x 1 = x := fun x => by simp [safeDivS]
  have sdE : ∀ x : E, safeDivS x 1 = x := fun x => by simp [safeDivS]
  have hh : hypot 1 1 ≤ 3 / 2 := by
    unfold hypot
    rw [Real.sqrt_le_left (by norm_num)]
    norm_num
  obtain ⟨s, hs, hp, hU, hV, ha, hb0, hb, hnm, han, hbf, hbo, hbe, hit, hdr⟩ : ∃ s, lanInit (exEnv E F) A trans 2 f0 exOptions = s ∧ s.p = some f1 ∧ s.U 0 = f0 ∧ s.V 0 = e0 ∧ s.alpha 0 = 1 ∧ s.beta 0 = 1 ∧ s.beta 1 = 1 ∧
      (s.numax 1 = 0 ∧ s.mumax 1 = 0) ∧ s.anorm ≤ 2 ∧ s.bFro = false ∧ s.bForce = false ∧ s.bEst = true ∧ s.iters = 1 ∧ s.dropped = 0 := by
    have hns : ¬ (1 : ℝ) < exOptions.maxMN * (fudge * 1) * exOptions.eps := by norm_num [exOptions, fudge]
    have hp1 : f0 + f1 - (1 : ℝ) • f0 = f1 := by rw [one_smul]; abel
    have hel : (exEnv E F).elrF f0 f1 1 exOptions.gamma = (f1, 1, 0) := by simp [exEnv, h01, hf1]
    unfold lanInit
    simp only [hf0, sdF, hT0, he0, sdE, hA0, hp1, hf1, hel, if_neg hns]
    refine ⟨_, rfl, rfl, ?_, ?_, ?_, ?_, ?_, ⟨?_, ?_⟩, ?_, ?_, ?_, ?_, ?_, ?_⟩ <;> simp [exOptions, fudge]
    · norm_num
      linarith
    · norm_num
  have h3 : fudge * Real.sqrt 3 ≤ 2 := by
    have : Real.sqrt 3 ≤ 9 / 5 := by
      rw [Real.sqrt_le_left (by norm_num)]
      norm_num
    unfold fudge
    linarith
  obtain ⟨c, hc, cu, cU, cv, ⟨ca0, ca⟩, cb, cb2, crn, can, cbf, cbe, cdr⟩ : ∃ c, lanHalfR (exEnv E F) trans 2 exOptions s f1 = some c ∧ c.u = f1 ∧ c.U 0 = f0 ∧ c.v = e1 ∧ (c.alpha 0 = 1 ∧ c.alpha 1 = 1) ∧ c.beta 1 = 1 ∧ c.beta 0 = 1 ∧ c.rNorm = 1 ∧
      c.anorm ≤ 2 ∧ c.bForce = false ∧ c.bEst = true ∧ c.dropped = 0 := by
    have hr0 : e0 + e1 - (1 : ℝ) • e0 = e1 := by rw [one_smul]; abel
    have hbe' : bEstR s = true := by simp [bEstR, hit, hbe]
    have hN : ∀ a b : ℕ → ℝ, a 0 = 1 → a 1 = 1 → b 1 = 1 → anormR (exEnv E F) s a b ≤ 2 := by
      intro a b h1 h2 h3'
      simp only [anormR, hit, hbe', if_true, h1, h2, h3']
      refine max_le (by simpa using han) ?_
      norm_num
      exact h3
    have hcond : ¬ ((1 : ℝ) < exOptions.gamma * 1 ∧ exOptions.elr = true ∧ ¬ s.bFro = true) := by simp [exOptions]
    unfold lanHalfR
    simp only [hit, hb, sdF, hT1, hV, Nat.sub_self, hr0, he1, if_neg hcond]
    set a1 := Function.update s.alpha 1 1 with ha1
    set b1 := Function.update s.beta 1 (1 + 0) with hb1
    have hN1 := hN a1 b1 (by simp [a1, ha]) (by simp [a1]) (by simp [b1])
    generalize hnn : (if ¬ s.bFro = true ∧ (1 : ℝ) ≠ 0 then (exEnv E F).updateNu s.nu s.numax s.mu 1 a1 b1 (anormR (exEnv E F) s a1 b1) else (s.nu, s.numax)) = nn
    have hnn2 : nn.2 1 = 0 := by
      rw [← hnn]
      simp [exEnv, hbf, hnm.1]
    generalize (if exOptions.elr = true then Function.update nn.1 0 (3 / 2 * exOptions.eps) else nn.1) = nu1
    have hq : reorthR (exEnv E F) 2 exOptions s e1 1 a1 nu1 nn.2 = (e1, 1, s.indices, nu1, false) := by
      unfold reorthR
      rw [if_neg]
      · rw [hbo]
      · rw [hit, hnn2, hbf, hbo]
        norm_num [exOptions]
    have hns : ¬ (1 : ℝ) < exOptions.maxMN * anormR (exEnv E F) s a1 b1 * exOptions.eps := by
      simp only [exOptions]
      linarith
    simp only [hq, if_neg hns, Option.map_some, sdE]
    exact ⟨_, rfl, rfl, by simp [hU], rfl, ⟨by simp [a1, ha], by simp⟩, by simp [b1], by simp [b1, hb0], rfl, hN1, rfl, hbe', hdr⟩
  have hp0 : f1 + f2 - (1 : ℝ) • f1 = f2 := by rw [one_smul]; abel
  have hcond : ¬ ((1 : ℝ) < exOptions.gamma * 1 ∧ exOptions.elr = true ∧ ¬ s.bFro = true) := by simp [exOptions]
  show ∃ t, (lanInit (exEnv E F) A trans 2 f0 exOptions).p.bind (fun p => (lanHalfR (exEnv E F) trans 2 exOptions _ p).map (lanHalfP (exEnv E F) A 2 exOptions _)) = some t ∧ t.dropped = 0 ∧ t.alpha 0 = 1 ∧ t.alpha 1 = 1 ∧ t.beta 1 = 1 ∧ t.beta 2 = 1
  rw [hs, hp, Option.bind_some, hc, Option.map_some]
  refine ⟨_, rfl, ?_⟩
  unfold lanHalfP
  simp only [hit, cv, cu, ca, hA1, hp0, hf2, crn, if_neg hcond, cbe, if_true]
  generalize hN : max c.anorm _ = N
  have hN2 : N ≤ 2 := by
    rw [← hN]
    refine max_le can ?_
    simp [cb]
    norm_num
    exact h3
  generalize hmm : (if ¬ s.bFro = true ∧ (1 : ℝ) ≠ 0 then (exEnv E F).updateMu s.mu s.mumax c.nu 1 (Function.update c.alpha 1 (1 + 0)) (Function.update c.beta (1 + 1) 1) N else (s.mu, s.mumax)) = mm
  have hmm2 : mm.2 1 = 0 := by
    rw [← hmm]
    simp [exEnv, hbf, hnm.2]
  have hq : reorthP (exEnv E F) 2 exOptions s c f2 1 (Function.update mm.1 1 (3 / 2 * exOptions.eps)) mm.2 = (f2, 1, c.indices, c.nu, false) := by
    unfold reorthP
    rw [if_neg]
    · rw [cbf]
    · rw [hit, hmm2, hbf, cbf]
      norm_num [exOptions]
  have hns : ¬ (1 : ℝ) < exOptions.maxMN * N * exOptions.eps := by
    simp only [exOptions]
    linarith
  simp only [hq, if_neg hns]
  exact ⟨cdr, by simp [ca0], by simp, by simp [cb], by simp⟩

/-- The matrix `[[1, 0], [1, 1], [0, 1]]`. -/
def exA : EuclideanSpace ℝ (Fin 2) →ₗ[ℝ] EuclideanSpace ℝ (Fin 3) where
  toFun x := !₂[x 0, x 0 + x 1, x 1]
  map_add' x y := by ext i; fin_cases i <;> simp <;> ring
  map_smul' c x := by ext i; fin_cases i <;> simp <;> ring

/-- Its transpose. -/
def exT (y : EuclideanSpace ℝ (Fin 3)) : EuclideanSpace ℝ (Fin 2) := !₂[y 0 + y 1, y 1 + y 2]

theorem exA_setting : LanSetting (exEnv _ _) exA exT exOptions := by
  refine exEnv_setting exA exT ?_ _ (by norm_num [exOptions]) (by norm_num [exOptions])
  intro x y
  simp [exA, exT, PiLp.inner_apply, Fin.sum_univ_succ]
  ring

theorem exA_start : exT !₂[1, 0, 0] ≠ 0 := by
  intro h
  have := congrFun (congrArg WithLp.ofLp h) 0
  simp [exT] at this

theorem exA_run : ∃ s, lanbpro (exEnv _ _) exA exT 2 !₂[1, 0, 0] exOptions = some s ∧ s.dropped = 0 ∧ s.alpha 0 = 1 ∧ s.alpha 1 = 1 ∧ s.beta 1 = 1 ∧ s.beta 2 = 1 :=
  ex_run exA exT !₂[1, 0] !₂[0, 1] !₂[1, 0, 0] !₂[0, 1, 0] !₂[0, 0, 1] (by simp [EuclideanSpace.norm_eq, Fin.sum_univ_succ]) (by simp [EuclideanSpace.norm_eq, Fin.sum_univ_succ])
    (by simp [EuclideanSpace.norm_eq, Fin.sum_univ_succ]) (by simp [EuclideanSpace.norm_eq, Fin.sum_univ_succ]) (by simp [EuclideanSpace.norm_eq, Fin.sum_univ_succ]) (by simp [PiLp.inner_apply, Fin.sum_univ_succ])
    (by ext i; fin_cases i <;> simp [exA]) (by ext i; fin_cases i <;> simp [exA]) (by ext i; fin_cases i <;> simp [exT]) (by ext i; fin_cases i <;> simp [exT])

/-- The hypotheses of `c94_bidiagonal_partial` are met by `A = [[1, 0], [1, 1], [0, 1]]`, `k = 2` and the first unit vector. -/
example : ∃ s, LanSetting (exEnv _ _) exA exT exOptions ∧ exT !₂[1, 0, 0] ≠ 0 ∧ lanbpro (exEnv _ _) exA exT 2 !₂[1, 0, 0] exOptions = some s ∧ s.dropped = 0 := by
  obtain ⟨s, h1, h2, -⟩ := exA_run
  exact ⟨s, exA_setting, exA_start, h1, h2⟩

/-- The hypotheses of `c94_one_by_one_fails` are met. -/
example : LanSetting (exEnv ℝ ℝ) (LinearMap.lsmul ℝ ℝ 2) (fun y => 2 * y) exOptions :=
  exEnv_setting _ _ (fun x y => by simp; ring) _ (by norm_num [exOptions]) (by norm_num [exOptions])

/-- **C94** A random restart takes the first of ten draws whose norm is at least `1e-10`, and the tenth if there is none. -/
theorem c94_redraw {G : Type*} [NormedAddCommGroup G] [InnerProductSpace ℝ G] (gen : ℕ → G × ℝ) :
    ∃ k ≤ 9, (∀ i < k, (gen i).2 < 1e-10) ∧ ((gen k).2 < 1e-10 → k = 9) ∧ newVec gen = if (gen k).2 = 0 then none else some ((1 / (gen k).2) • (gen k).1) := by
  classical
  have key : ∀ fuel i, (∀ l < i, (gen l).2 < 1e-10) → ∃ k ≤ i + fuel, (∀ l < k, (gen l).2 < 1e-10) ∧ ((gen k).2 < 1e-10 → k = i + fuel) ∧ newVecFrom gen fuel (i + 1) (gen i) = gen k := by
    intro fuel
    induction fuel with
    | zero => exact fun i hi => ⟨i, le_rfl, hi, fun _ => rfl, rfl⟩
    | succ fuel ih =>
      intro i hi
      unfold newVecFrom
      by_cases h : (gen i).2 < 1e-10
      · obtain ⟨k, h1, h2, h3, h4⟩ := ih (i + 1) fun l hl => by
          rcases Nat.lt_succ_iff_lt_or_eq.mp hl with hl | rfl
          · exact hi l hl
          · exact h
        exact ⟨k, by omega, h2, fun hk => by rw [h3 hk]; omega, by simpa only [if_pos h] using h4⟩
      · exact ⟨i, by omega, hi, fun hk => absurd hk h, by simp only [if_neg h]⟩
  obtain ⟨k, h1, h2, h3, h4⟩ := key 9 0 (by simp)
  refine ⟨k, by omega, h2, fun h => by have := h3 h; omega, ?_⟩
  unfold newVec
  rw [h4]

/-! Instances. -/

example (s) (h1 : lanbpro (exEnv _ _) exA exT 2 !₂[1, 0, 0] exOptions = some s) (h2 : s.dropped = 0) := c94_bidiagonal_partial exA_setting 2 two_pos !₂[1, 0, 0] exA_start s h1 h2
/-- The line: the one left vector already spans the range. -/
example := c94_exhausted_fails (A := LinearMap.lsmul ℝ ℝ 2) (exEnv_setting (LinearMap.lsmul ℝ ℝ 2) (fun y => 2 * y) (fun x y => by simp; ring) exOptions (by norm_num [exOptions]) (by norm_num [exOptions])).reorthF
  (k := 3) (j := 1) (by norm_num) (U := fun i => if i = 0 then 1 else 0) (by intro i hi j hj; interval_cases i; interval_cases j; simp) (fun i hi => if_neg (by omega)) (by simp) (1 / 2)
example := c94_one_by_one_fails (exEnv ℝ ℝ) 2 (by norm_num) exOptions (exEnv_setting _ _ (fun x y => by simp; ring) _ (by norm_num [exOptions]) (by norm_num [exOptions]))

end Verif.Sls
