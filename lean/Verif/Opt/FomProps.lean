import Verif.Opt.FomModel
import Verif.Opt.ProxProps
import Verif.Opt.SmoothProps

set_option autoImplicit false
/-!
# The first order solver (C40)
-/
noncomputable section
namespace Verif.Opt
open Verif.Loop
open scoped RealInnerProductSpace

variable {E F : Type*} [NormedAddCommGroup E] [InnerProductSpace ℝ E] [NormedAddCommGroup F] [InnerProductSpace ℝ F]

/-- The setting: `A` linear with adjoint `trans`; `f` convex with gradient `f.grad` (gradient inequality); `h` a convex prox-capable
function with domain `C`; the algorithm parameters positive. -/
structure FomSetting (p : FomArgs E F) (A : E →ₗ[ℝ] F) (C : Set E) (h : E → ℝ) : Prop where
  times : p.times = A
  adj : ∀ x y, ⟪A x, y⟫ = ⟪x, p.trans y⟫
  pair : ∀ u, p.f.gradVal u = (p.f.grad u, p.f.func u)
  fconv : ∀ u v, p.f.func u + ⟪p.f.grad u, v - u⟫ ≤ p.f.func v
  prox : IsProxCapable p.h C h
  hconv : ConvexOn ℝ C h
  alpha : 0 < p.opts.alpha
  beta : 0 < p.opts.beta
  L0 : 0 < p.opts.L0
  Lexact : ∀ l, p.opts.Lexact = some l → 0 < l

/-- The composite objective `f(A x + b) + h(x)`. -/
def fomObj (p : FomArgs E F) (h : E → ℝ) (x : E) : ℝ := p.f.func (p.times x + p.b) + h x

theorem advanceTheta_pos (t : Option ℝ) (L Lo : ℝ) : 0 < advanceTheta t L Lo := by unfold advanceTheta; positivity

theorem advanceTheta_le_one (t : Option ℝ) (L Lo : ℝ) (hL : 0 < L) (hLo : 0 < Lo) : advanceTheta t L Lo ≤ 1 := by
  have key : ∀ v : ℝ, 0 ≤ v → 2 / (1 + Real.sqrt (1 + v)) ≤ 1 := by
    intro v h0
    rw [div_le_one (by positivity)]
    have : 1 ≤ Real.sqrt (1 + v) := by rw [Real.one_le_sqrt]; linarith
    linarith
  cases t with
  | none => exact key 0 le_rfl
  | some t => exact key (4 * (L / Lo) / t ^ 2) (by positivity)

/-- The recursion of the momentum parameter: `(1 - θ')/(θ'² L') = 1/(θ² L)`, and the first `θ` is 1. -/
theorem advanceTheta_none (L Lo : ℝ) : advanceTheta none L Lo = 1 := by norm_num [advanceTheta]

theorem advanceTheta_some (t L Lo : ℝ) (ht : 0 < t) (hL : 0 < L) (hLo : 0 < Lo) :
    (1 - advanceTheta (some t) L Lo) * (t ^ 2 * Lo) = advanceTheta (some t) L Lo ^ 2 * L := by
  unfold advanceTheta
  simp only
  have h0 : 0 ≤ 1 + 4 * (L / Lo) / t ^ 2 := by positivity
  set r := Real.sqrt (1 + 4 * (L / Lo) / t ^ 2) with hr
  have hsq : r ^ 2 = 1 + 4 * (L / Lo) / t ^ 2 := Real.sq_sqrt h0
  have hr0 : 0 ≤ r := Real.sqrt_nonneg _
  have h1 : (r ^ 2 - 1) * (t ^ 2 * Lo) = 4 * L := by rw [hsq]; field_simp; ring
  have h2 : (1 + r) ≠ 0 := by positivity
  field_simp
  linear_combination h1

theorem minInf_pos {m : Option ℝ} {v : ℝ} (hm : ∀ l, m = some l → 0 < l) (hv : 0 < v) : 0 < minInf m v := by
  cases m with
  | none => exact hv
  | some l => exact lt_min (hm l rfl) hv

theorem backtrackL_pos (x y : E) (Ax gAx Ay gAy : F) {L beta : ℝ} {Lex : Option ℝ} (hL : 0 < L) (hb : 0 < beta)
    (hm : ∀ l, Lex = some l → 0 < l) : 0 < backtrackL x Ax gAx y Ay gAy L Lex beta := by
  unfold backtrackL
  simp only
  split_ifs
  · exact hL
  · exact hL
  · exact minInf_pos hm (lt_max_of_lt_right (by positivity))

/-- **C40** (backtracking) `backtrack_L` either keeps `L`, exactly when `x = y` or twice the measured curvature is at most `L`; or replaces
it by the larger of twice the measured curvature and `L/beta`, capped at `Lexact`. -/
theorem c40_backtrack (x y : E) (Ax gAx Ay gAy : F) (L beta : ℝ) (Lex : Option ℝ) :
    (2 * ⟪Ax - Ay, gAx - gAy⟫ ≤ L * ‖x - y‖ ^ 2 → backtrackL x Ax gAx y Ay gAy L Lex beta = L) ∧
    (x ≠ y → L * ‖x - y‖ ^ 2 < 2 * ⟪Ax - Ay, gAx - gAy⟫ →
      (Lex = none → backtrackL x Ax gAx y Ay gAy L Lex beta = max (2 * ⟪Ax - Ay, gAx - gAy⟫ / ‖x - y‖ ^ 2) (L / beta)) ∧
      ∀ l, Lex = some l → backtrackL x Ax gAx y Ay gAy L Lex beta = min l (max (2 * ⟪Ax - Ay, gAx - gAy⟫ / ‖x - y‖ ^ 2) (L / beta))) := by
  constructor
  · intro h
    unfold backtrackL
    simp only
    split_ifs with h1 h2
    · rfl
    · rfl
    · refine absurd ?_ h2
      rw [div_le_iff₀ (lt_of_le_of_ne (sq_nonneg _) (Ne.symm h1))]; exact h
  · intro hne h
    have h0 : 0 < ‖x - y‖ ^ 2 := by
      have := norm_pos_iff.mpr (sub_ne_zero.mpr hne); positivity
    have h2 : ¬ 2 * ⟪Ax - Ay, gAx - gAy⟫ / ‖x - y‖ ^ 2 ≤ L := by
      rw [not_le, lt_div_iff₀ h0]; exact h
    unfold backtrackL
    simp only [h0.ne', if_false, h2]
    exact ⟨fun e => by rw [e]; rfl, fun l e => by rw [e]; rfl⟩

variable {p : FomArgs E F} {A : E →ₗ[ℝ] F} {C : Set E} {h : E → ℝ}

/-- What holds at every state after an iteration. -/
structure FomInv (p : FomArgs E F) (C : Set E) (h : E → ℝ) (s : FomState E F) : Prop where
  pos : 0 < s.L
  theta : ∃ t, s.theta = some t ∧ 0 < t ∧ t ≤ 1
  x : s.x ∈ C
  z : s.z ∈ C
  Ax : s.Ax = p.times s.x
  Ay : s.Ay = p.times s.y
  Az : s.Az = p.times s.z
  fx : s.fx = p.f.func (p.times s.x + p.b)
  gAx : s.gAx = p.f.grad (p.times s.x + p.b)
  fy : s.fy = p.f.func (p.times s.y + p.b)
  gAy : s.gAy = p.f.grad (p.times s.y + p.b)
  gy : s.gy = p.trans s.gAy
  Cz : s.Cz = h s.z
  nx : s.normX = ‖s.x‖

theorem start_mem (hs : FomSetting p A C h) : (fomStart p).1 ∈ C ∧ (fomStart p).2 = h (fomStart p).1 := by
  unfold fomStart
  split_ifs with h1
  · rw [hs.prox.pair _ _ one_pos]; exact ⟨(hs.prox.prox _ _ one_pos).1, rfl⟩
  · have hm : p.x0 ∈ C := by by_contra hc; exact h1 (hs.prox.outside _ hc)
    exact ⟨hm, hs.prox.value _ hm⟩

theorem body_inv (hs : FomSetting p A C h) (s : FomState E F) (hL : 0 < s.L) (hx : s.x ∈ C) : FomInv p C h (fomBody p s) := by
  have hLa : 0 < s.L * p.opts.alpha := mul_pos hL hs.alpha
  have ht0 := advanceTheta_pos s.theta (s.L * p.opts.alpha) s.L
  have ht1 := advanceTheta_le_one s.theta (s.L * p.opts.alpha) s.L hLa hL
  have hst : 0 < 1 / (advanceTheta s.theta (s.L * p.opts.alpha) s.L * (s.L * p.opts.alpha)) := by positivity
  have hz : (fomBody p s).z ∈ C := by
    simp only [fomBody]
    rw [hs.prox.pair _ _ hst]; exact (hs.prox.prox _ _ hst).1
  refine ⟨backtrackL_pos _ _ _ _ _ _ hLa hs.beta hs.Lexact, ⟨_, rfl, ht0, ht1⟩, ?_, hz, rfl, rfl, rfl, ?_, ?_, ?_, ?_, rfl, ?_, rfl⟩
  · exact hs.hconv.1 hx hz (by linarith) ht0.le (by ring)
  · simp only [fomBody, smoothTranslate]; rw [hs.pair]
  · simp only [fomBody, smoothTranslate]; rw [hs.pair]
  · simp only [fomBody, smoothTranslate]; rw [hs.pair]
  · simp only [fomBody, smoothTranslate]; rw [hs.pair]
  · simp only [fomBody]; rw [hs.prox.pair _ _ hst]

/-- **C40** at every state after an iteration of `fom`: the iterates `x` and `z` lie in the domain of `h`; `θ ∈ (0, 1]` and `L > 0`; the stored
operator values, function values and gradients are those of the stored points; and at least one and at most `max(1, max_iters)` iterations are done. -/
theorem c40_fom_invariants (hs : FomSetting p A C h) (s : FomState E F) (hr : FomReach p s) :
    FomInv p C h s ∧ 1 ≤ s.iters ∧ s.iters ≤ max p.opts.maxIters 1 := by
  have key : FomInv p C h s := by
    refine Reach.inv (FomInv p C h) hr (body_inv hs _ hs.L0 (start_mem hs).1) fun s hi _ => body_inv hs s hi.pos hi.x
  refine ⟨key, ?_, by simpa [fomBody, fomInit] using Reach.cnt_le (fun s => s.iters) p.opts.maxIters hr (fun s hc => hc.1) fun s => rfl⟩
  exact Reach.inv (fun s : FomState E F => 1 ≤ s.iters) hr (by simp [fomBody]) fun s h _ => by simp only [fomBody]; omega

/-- **C40** `fom` returns for every input, and what it returns met one of its two stopping rules. -/
theorem c40_fom_terminates (p : FomArgs E F) : ∃ s, FomOut p s ∧ FomReach p s ∧ (p.opts.maxIters ≤ s.iters ∨ s.normDx < p.opts.tol * max s.normX 1) := by
  obtain ⟨s, hs⟩ : ∃ s, FomOut p s := exists_out (fun s => s.iters) p.opts.maxIters (fun s h => h.1) fun s => Nat.lt_succ_self _
  refine ⟨s, hs, hs.1, ?_⟩
  have := hs.2
  unfold fomCond at this
  by_contra hc
  push Not at hc
  exact this hc

/-- **C40** (upper bound on acceptance) when an iteration keeps its estimate (`L` after is `alpha` times `L` before), the smooth part satisfies
the local quadratic upper bound with that constant: `f(Ax⁺+b) ≤ f(Ay+b) + ⟨Aᵀ∇f(Ay+b), x⁺-y⟩ + (L/2)|x⁺-y|²`. A finite `Lexact` must be a
valid Lipschitz bound. -/
theorem c40_accepted_upper_bound (hs : FomSetting p A C h)
    (hLex : ∀ l, p.opts.Lexact = some l → ∀ u v, p.f.func (A v + p.b) ≤ p.f.func (A u + p.b) + ⟪p.f.grad (A u + p.b), A (v - u)⟫ + l / 2 * ‖v - u‖ ^ 2)
    (s : FomState E F) (hL : 0 < s.L) (hacc : (fomBody p s).L = s.L * p.opts.alpha) :
    (fomBody p s).fx ≤ (fomBody p s).fy + ⟪(fomBody p s).gy, (fomBody p s).x - (fomBody p s).y⟫ +
      (fomBody p s).L / 2 * ‖(fomBody p s).x - (fomBody p s).y‖ ^ 2 := by
  rw [hacc]
  have e1 : (fomBody p s).fx = p.f.func (A (fomBody p s).x + p.b) := by simp only [fomBody, smoothTranslate]; rw [hs.pair, hs.times]
  have e2 : (fomBody p s).fy = p.f.func (A (fomBody p s).y + p.b) := by simp only [fomBody, smoothTranslate]; rw [hs.pair, hs.times]
  have e3 : (fomBody p s).gy = p.trans (p.f.grad (A (fomBody p s).y + p.b)) := by simp only [fomBody, smoothTranslate]; rw [hs.pair, hs.times]
  have e4 : (fomBody p s).L = backtrackL (fomBody p s).x (A (fomBody p s).x) (p.f.grad (A (fomBody p s).x + p.b)) (fomBody p s).y
      (A (fomBody p s).y) (p.f.grad (A (fomBody p s).y + p.b)) (s.L * p.opts.alpha) p.opts.Lexact p.opts.beta := by
    simp only [fomBody, smoothTranslate]; rw [hs.pair, hs.pair, hs.times]
  rw [e1, e2, e3]
  rw [e4] at hacc
  clear e1 e2 e3 e4
  generalize (fomBody p s).x = x at *
  generalize (fomBody p s).y = y at *
  set L := s.L * p.opts.alpha with hLdef
  have hLpos : 0 < L := mul_pos hL hs.alpha
  rw [real_inner_comm, ← hs.adj, real_inner_comm]
  have hcv := hs.fconv (A x + p.b) (A y + p.b)
  have ed : A y + p.b - (A x + p.b) = -(A (x - y)) := by rw [map_sub]; abel
  rw [ed, inner_neg_right] at hcv
  have good : 2 * ⟪A x - A y, p.f.grad (A x + p.b) - p.f.grad (A y + p.b)⟫ ≤ L * ‖x - y‖ ^ 2 →
      p.f.func (A x + p.b) ≤ p.f.func (A y + p.b) + ⟪p.f.grad (A y + p.b), A (x - y)⟫ + L / 2 * ‖x - y‖ ^ 2 := by
    intro hg
    rw [← map_sub, inner_sub_right, real_inner_comm, real_inner_comm _ (A (x - y))] at hg
    linarith
  by_cases hle : 2 * ⟪A x - A y, p.f.grad (A x + p.b) - p.f.grad (A y + p.b)⟫ ≤ L * ‖x - y‖ ^ 2
  · exact good hle
  push Not at hle
  by_cases hxy : x = y
  · subst hxy; simp at hle
  obtain ⟨hn, hsome⟩ := (c40_backtrack x y (A x) (p.f.grad (A x + p.b)) (A y) (p.f.grad (A y + p.b)) L p.opts.beta p.opts.Lexact).2 hxy hle
  have h0 : 0 < ‖x - y‖ ^ 2 := by
    have := norm_pos_iff.mpr (sub_ne_zero.mpr hxy); positivity
  have hgt : L < max (2 * ⟪A x - A y, p.f.grad (A x + p.b) - p.f.grad (A y + p.b)⟫ / ‖x - y‖ ^ 2) (L / p.opts.beta) := by
    refine lt_of_lt_of_le ?_ (le_max_left _ _)
    rw [lt_div_iff₀ h0]; exact hle
  cases hx : p.opts.Lexact with
  | none => rw [hn hx] at hacc; linarith
  | some l =>
    rw [hsome l hx] at hacc
    rcases min_choice l (max (2 * ⟪A x - A y, p.f.grad (A x + p.b) - p.f.grad (A y + p.b)⟫ / ‖x - y‖ ^ 2) (L / p.opts.beta)) with hm | hm
    · rw [hm] at hacc; rw [← hacc]; exact hLex l hx y x
    · rw [hm] at hacc; linarith

/-- One iteration, with an error `e` in the quadratic upper bound. -/
theorem fom_step_err (hs : FomSetting p A C h) (s : FomState E F) (hL : 0 < s.L) (hx : s.x ∈ C) (e : ℝ)
    (hub : (fomBody p s).fx ≤ (fomBody p s).fy + ⟪(fomBody p s).gy, (fomBody p s).x - (fomBody p s).y⟫ +
      s.L * p.opts.alpha / 2 * ‖(fomBody p s).x - (fomBody p s).y‖ ^ 2 + e) (u : E) (hu : u ∈ C) :
    let θ := advanceTheta s.theta (s.L * p.opts.alpha) s.L
    fomObj p h (fomBody p s).x ≤ (1 - θ) * fomObj p h s.x + θ * fomObj p h u +
      θ ^ 2 * (s.L * p.opts.alpha) / 2 * (‖u - s.z‖ ^ 2 - ‖u - (fomBody p s).z‖ ^ 2) + e := by
  intro θ
  set L := s.L * p.opts.alpha with hLdef
  have hLpos : 0 < L := mul_pos hL hs.alpha
  have ht0 : 0 < θ := advanceTheta_pos s.theta L s.L
  have ht1 : θ ≤ 1 := advanceTheta_le_one s.theta L s.L hLpos hL
  have hst : 0 < 1 / (θ * L) := by positivity
  have hinv := body_inv hs s hL hx
  have ey : (fomBody p s).y = (1 - θ) • s.x + θ • s.z := rfl
  have ex : (fomBody p s).x = (1 - θ) • s.x + θ • (fomBody p s).z := rfl
  have ez : (fomBody p s).z = p.h.proxOp (s.z - (1 / (θ * L)) • (fomBody p s).gy) (1 / (θ * L)) := by
    have := hs.prox.pair (s.z - (1 / (θ * L)) • (fomBody p s).gy) _ hst
    change (p.h.proxVecVal (s.z - (1 / (θ * L)) • (fomBody p s).gy) (1 / (θ * L))).1 = _
    rw [this]
  have hpx := (hs.prox.prox (s.z - (1 / (θ * L)) • (fomBody p s).gy) _ hst).subgradient hs.hconv hst hu
  rw [← ez] at hpx
  rw [hinv.fx, hinv.fy] at hub
  have hgy := hinv.gy
  rw [hinv.gAy] at hgy
  have hxc := hs.hconv.2 hx hinv.z (by linarith : 0 ≤ 1 - θ) ht0.le (by ring)
  rw [← ex] at hxc
  simp only [smul_eq_mul] at hxc
  have c1 := hs.fconv (p.times (fomBody p s).y + p.b) (p.times s.x + p.b)
  have c2 := hs.fconv (p.times (fomBody p s).y + p.b) (p.times u + p.b)
  have gl : ∀ v, ⟪p.f.grad (p.times (fomBody p s).y + p.b), p.times v + p.b - (p.times (fomBody p s).y + p.b)⟫ =
      ⟪(fomBody p s).gy, v - (fomBody p s).y⟫ := by
    intro v
    rw [hgy, real_inner_comm, real_inner_comm _ (p.trans _), ← hs.adj, map_sub, hs.times]
    congr 1; abel
  rw [gl] at c1 c2
  generalize (fomBody p s).gy = g at *
  generalize hz' : (fomBody p s).z = z' at *
  generalize (fomBody p s).x = x' at *
  generalize (fomBody p s).y = y at *
  unfold fomObj
  have d1 : x' - y = θ • (z' - s.z) := by rw [ex, ey]; module
  have d2 : ⟪g, x' - y⟫ = (1 - θ) * ⟪g, s.x - y⟫ + θ * ⟪g, u - y⟫ - θ * ⟪g, u - z'⟫ := by
    have e' : x' - y = (1 - θ) • (s.x - y) + (θ • (u - y) - θ • (u - z')) := by rw [ex]; module
    rw [e', inner_add_right, inner_sub_right, inner_smul_right, inner_smul_right, inner_smul_right]; ring
  have d3 : ‖x' - y‖ ^ 2 = θ ^ 2 * ‖z' - s.z‖ ^ 2 := by rw [d1, norm_smul, mul_pow, Real.norm_eq_abs, sq_abs]
  have d4 : ⟪s.z - (1 / (θ * L)) • g - z', u - z'⟫ / (1 / (θ * L)) = θ * L * ⟪s.z - z', u - z'⟫ - ⟪g, u - z'⟫ := by
    rw [show s.z - (1 / (θ * L)) • g - z' = (s.z - z') - (1 / (θ * L)) • g by abel, inner_sub_left, inner_smul_left]
    simp only [conj_trivial]
    field_simp
  have d5 : 2 * ⟪s.z - z', u - z'⟫ = ‖z' - s.z‖ ^ 2 + ‖u - z'‖ ^ 2 - ‖u - s.z‖ ^ 2 := by
    have : u - s.z = (u - z') - (s.z - z') := by abel
    rw [this, norm_sub_sq_real (u - z') (s.z - z'), norm_sub_rev z' s.z, real_inner_comm (u - z')]; ring
  rw [d4] at hpx
  rw [d2, d3] at hub
  have m1 := mul_le_mul_of_nonneg_left c1 (by linarith : 0 ≤ 1 - θ)
  have m2 := mul_le_mul_of_nonneg_left c2 ht0.le
  have m3 := mul_le_mul_of_nonneg_left hpx ht0.le
  have d6 : θ * L * ⟪s.z - z', u - z'⟫ = θ * L / 2 * (‖z' - s.z‖ ^ 2 + ‖u - z'‖ ^ 2 - ‖u - s.z‖ ^ 2) := by rw [← d5]; ring
  rw [d6] at m3
  nlinarith

/-- One accepted iteration. -/
theorem fom_step (hs : FomSetting p A C h) (s : FomState E F) (hL : 0 < s.L) (hx : s.x ∈ C)
    (hub : (fomBody p s).fx ≤ (fomBody p s).fy + ⟪(fomBody p s).gy, (fomBody p s).x - (fomBody p s).y⟫ +
      s.L * p.opts.alpha / 2 * ‖(fomBody p s).x - (fomBody p s).y‖ ^ 2) (u : E) (hu : u ∈ C) :
    let θ := advanceTheta s.theta (s.L * p.opts.alpha) s.L
    fomObj p h (fomBody p s).x ≤ (1 - θ) * fomObj p h s.x + θ * fomObj p h u +
      θ ^ 2 * (s.L * p.opts.alpha) / 2 * (‖u - s.z‖ ^ 2 - ‖u - (fomBody p s).z‖ ^ 2) := by
  have := fom_step_err hs s hL hx 0 (by rw [add_zero]; exact hub) u hu
  simpa only [add_zero] using this

theorem momentum_ineq {a b q T k : ℝ} (ha0 : 0 < a) (hb0 : 0 < b) (hq0 : 0 < q) (hT0 : 0 < T) (hk : 0 ≤ k) (hab : (1 - T) * a ^ 2 = b ^ 2)
    (hbT : b ≤ T * q) (hk4 : a * (k + 1) ≤ 2 * q) : b * (k + 1 + 1) ≤ 2 * q := by
  have hba : b ≤ a := by
    have : b ^ 2 ≤ a ^ 2 := by rw [← hab]; nlinarith [sq_nonneg a]
    exact (pow_le_pow_iff_left₀ hb0.le ha0.le two_ne_zero).mp this
  have h1 : a * b ≤ 2 * q * (a - b) := by
    have e : T * a ^ 2 = (a - b) * (a + b) := by linarith [hab]
    have h2 : T * a ≤ 2 * (a - b) := by
      have h3 : a * (T * a) ≤ a * (2 * (a - b)) := by
        have : (a - b) * (a + b) ≤ (a - b) * (2 * a) := mul_le_mul_of_nonneg_left (by linarith) (by linarith)
        nlinarith
      exact le_of_mul_le_mul_left h3 ha0
    have h3 : b * a ≤ T * q * a := mul_le_mul_of_nonneg_right hbT ha0.le
    have h4 : q * (T * a) ≤ q * (2 * (a - b)) := mul_le_mul_of_nonneg_left h2 hq0.le
    linarith
  have h5 : b * (a * (k + 1)) ≤ b * (2 * q) := mul_le_mul_of_nonneg_left hk4 hb0.le
  have : a * (b * (k + 1 + 1)) ≤ a * (2 * q) := by linarith
  exact le_of_mul_le_mul_left this ha0

/-- A run of `fom` in which every iteration so far kept its estimate of the Lipschitz constant. -/
inductive FomAccepted (p : FomArgs E F) : FomState E F → Prop
  | first : (fomBody p (fomInit p)).L = p.opts.L0 * p.opts.alpha → FomAccepted p (fomBody p (fomInit p))
  | step {s : FomState E F} : FomAccepted p s → fomCond p s → (fomBody p s).L = s.L * p.opts.alpha → FomAccepted p (fomBody p s)

theorem FomAccepted.reach {s : FomState E F} (h : FomAccepted p s) : FomReach p s := by
  induction h with
  | first _ => exact .init
  | step _ hc _ ih => exact .step ih hc

/-- **C40** rate: while every iteration keeps its estimate of the Lipschitz constant and `alpha ≤ 1`, after `k` iterations the objective
`f(A x + b) + h(x)` exceeds its value at any point `u` of the domain by at most `2 L0 |start - u|²/(k+1)²`. -/
theorem c40_fom_rate (hs : FomSetting p A C h) (ha : p.opts.alpha ≤ 1)
    (hLex : ∀ l, p.opts.Lexact = some l → ∀ u v, p.f.func (A v + p.b) ≤ p.f.func (A u + p.b) + ⟪p.f.grad (A u + p.b), A (v - u)⟫ + l / 2 * ‖v - u‖ ^ 2)
    (s : FomState E F) (hr : FomAccepted p s) (u : E) (hu : u ∈ C) :
    fomObj p h s.x - fomObj p h u ≤ 2 * p.opts.L0 * ‖(fomStart p).1 - u‖ ^ 2 / (s.iters + 1) ^ 2 := by
  have key : s.L ≤ p.opts.L0 ∧ 0 < s.L ∧ s.x ∈ C ∧ ∃ t, s.theta = some t ∧ 0 < t ∧ t * (((s.iters : ℝ) + 1)) * Real.sqrt s.L ≤ 2 * Real.sqrt p.opts.L0 ∧
      (fomObj p h s.x - fomObj p h u) + t ^ 2 * s.L / 2 * ‖u - s.z‖ ^ 2 ≤ t ^ 2 * s.L / 2 * ‖(fomStart p).1 - u‖ ^ 2 := by
    induction hr with
    | first hacc =>
      have hL0 : 0 < (fomInit p).L := hs.L0
      have hx0 : (fomInit p).x ∈ C := (start_mem hs).1
      have hub := c40_accepted_upper_bound hs hLex (fomInit p) hL0 hacc
      rw [hacc] at hub
      have hst := fom_step hs (fomInit p) hL0 hx0 hub u hu
      have hth : (fomInit p).theta = none := rfl
      simp only [hth, advanceTheta_none] at hst
      rw [hacc]
      have hpos := mul_pos hs.L0 hs.alpha
      have hle : p.opts.L0 * p.opts.alpha ≤ p.opts.L0 := by nlinarith [hs.L0]
      refine ⟨hle, hpos, (body_inv hs _ hL0 hx0).x, 1, ?_, one_pos, ?_, ?_⟩
      · simp only [fomBody, hth, advanceTheta_none]
      · have : ((fomBody p (fomInit p)).iters : ℝ) = 1 := by simp [fomBody, fomInit]
        rw [this]
        have := Real.sqrt_le_sqrt hle
        linarith
      · have e : ‖(fomStart p).1 - u‖ = ‖u - (fomInit p).z‖ := norm_sub_rev _ _
        have e2 : (fomInit p).L = p.opts.L0 := rfl
        rw [e]; rw [e2] at hst; linarith
    | @step s hr hc hacc ih =>
      obtain ⟨i1, i2, i3, t, ht, ht0, i4, i5⟩ := ih
      have hub := c40_accepted_upper_bound hs hLex s i2 hacc
      rw [hacc] at hub
      have hst := fom_step hs s i2 i3 hub u hu
      have hpos := mul_pos i2 hs.alpha
      have hrec := advanceTheta_some t (s.L * p.opts.alpha) s.L ht0 hpos i2
      have hT0 := advanceTheta_pos (some t) (s.L * p.opts.alpha) s.L
      have hT1 := advanceTheta_le_one (some t) (s.L * p.opts.alpha) s.L hpos i2
      have hthe : (fomBody p s).theta = some (advanceTheta (some t) (s.L * p.opts.alpha) s.L) := by simp only [fomBody, ht]
      simp only [ht] at hst
      set T := advanceTheta (some t) (s.L * p.opts.alpha) s.L with hT
      rw [hacc]
      set L' := s.L * p.opts.alpha with hL'
      have hle : L' ≤ s.L := by nlinarith
      refine ⟨hle.trans i1, hpos, (body_inv hs s i2 i3).x, T, hthe, hT0, ?_, ?_⟩
      · have ek : ((fomBody p s).iters : ℝ) = s.iters + 1 := by simp [fomBody]
        rw [ek]
        -- with a = t √L, b = T √L' : (1 - T) a² = b²
        set a := t * Real.sqrt s.L with hadef
        set b := T * Real.sqrt L' with hbdef
        have sL := Real.sq_sqrt i2.le
        have sL' := Real.sq_sqrt hpos.le
        have hab : (1 - T) * a ^ 2 = b ^ 2 := by
          rw [hadef, hbdef, mul_pow, mul_pow, sL, sL']; exact hrec
        have ha0 : 0 < a := mul_pos ht0 (Real.sqrt_pos.mpr i2)
        have hb0 : 0 < b := mul_pos hT0 (Real.sqrt_pos.mpr hpos)
        have hsq : Real.sqrt L' ≤ Real.sqrt p.opts.L0 := Real.sqrt_le_sqrt (hle.trans i1)
        set q := Real.sqrt p.opts.L0 with hq
        have hsq0 : 0 < Real.sqrt L' := Real.sqrt_pos.mpr hpos
        have hbT : b ≤ T * q := mul_le_mul_of_nonneg_left hsq hT0.le
        have i4' : a * ((s.iters : ℝ) + 1) ≤ 2 * q := by rw [hadef]; linarith
        have goal' := momentum_ineq ha0 hb0 (lt_of_lt_of_le hsq0 hsq) hT0 (Nat.cast_nonneg s.iters) hab hbT i4'
        rw [hbdef] at goal'
        linarith
      · have hrec' : (1 - T) * (t ^ 2 * s.L) = T ^ 2 * L' := hrec
        have m := mul_le_mul_of_nonneg_left i5 (by linarith : 0 ≤ 1 - T)
        have e1 : (1 - T) * ((fomObj p h s.x - fomObj p h u) + t ^ 2 * s.L / 2 * ‖u - s.z‖ ^ 2) =
            (1 - T) * (fomObj p h s.x - fomObj p h u) + T ^ 2 * L' / 2 * ‖u - s.z‖ ^ 2 := by rw [← hrec']; ring
        have e2 : (1 - T) * (t ^ 2 * s.L / 2 * ‖(fomStart p).1 - u‖ ^ 2) = T ^ 2 * L' / 2 * ‖(fomStart p).1 - u‖ ^ 2 := by rw [← hrec']; ring
        rw [e1, e2] at m
        linarith
  obtain ⟨_, k2, _, t, _, ht0, k4, k5⟩ := key
  have n0 : 0 ≤ t ^ 2 * s.L / 2 * ‖u - s.z‖ ^ 2 := by positivity
  have hk : (0 : ℝ) < s.iters + 1 := by positivity
  rw [le_div_iff₀ (by positivity)]
  have k6 : t ^ 2 * (s.iters + 1) ^ 2 * s.L ≤ 4 * p.opts.L0 := by
    have := pow_le_pow_left₀ (by positivity) k4 2
    rw [mul_pow, mul_pow, mul_pow, Real.sq_sqrt k2.le, Real.sq_sqrt hs.L0.le] at this
    linarith
  have k7 : fomObj p h s.x - fomObj p h u ≤ t ^ 2 * s.L / 2 * ‖(fomStart p).1 - u‖ ^ 2 := by linarith
  calc (fomObj p h s.x - fomObj p h u) * (s.iters + 1) ^ 2 ≤ t ^ 2 * s.L / 2 * ‖(fomStart p).1 - u‖ ^ 2 * (s.iters + 1) ^ 2 :=
        mul_le_mul_of_nonneg_right k7 (by positivity)
    _ = (t ^ 2 * (s.iters + 1) ^ 2 * s.L) * (‖(fomStart p).1 - u‖ ^ 2 / 2) := by ring
    _ ≤ 4 * p.opts.L0 * (‖(fomStart p).1 - u‖ ^ 2 / 2) := mul_le_mul_of_nonneg_right k6 (by positivity)
    _ = _ := by ring

/-- **C40** if twice the curvature of the smooth part along `A` is bounded by `K` (`K = 2 |A|²` for a least squares term), the estimate `L` never
exceeds `max(L0, K/beta)`. -/
theorem c40_L_bounded (hs : FomSetting p A C h) (ha : p.opts.alpha ≤ 1) (hb : p.opts.beta ≤ 1) (K : ℝ) (hK0 : 0 ≤ K)
    (hK : ∀ u v, 2 * ⟪A u - A v, p.f.grad (A u + p.b) - p.f.grad (A v + p.b)⟫ ≤ K * ‖u - v‖ ^ 2) (s : FomState E F) (hr : FomReach p s) :
    s.L ≤ max p.opts.L0 (K / p.opts.beta) := by
  have hstep : ∀ s : FomState E F, 0 < s.L → s.L ≤ max p.opts.L0 (K / p.opts.beta) → (fomBody p s).L ≤ max p.opts.L0 (K / p.opts.beta) := by
    intro s h0 hle
    have e4 : (fomBody p s).L = backtrackL (fomBody p s).x (A (fomBody p s).x) (p.f.grad (A (fomBody p s).x + p.b)) (fomBody p s).y
        (A (fomBody p s).y) (p.f.grad (A (fomBody p s).y + p.b)) (s.L * p.opts.alpha) p.opts.Lexact p.opts.beta := by
      simp only [fomBody, smoothTranslate]; rw [hs.pair, hs.pair, hs.times]
    rw [e4]
    have hk := hK (fomBody p s).x (fomBody p s).y
    generalize (fomBody p s).x = x at *
    generalize (fomBody p s).y = y at *
    have hLa : s.L * p.opts.alpha ≤ max p.opts.L0 (K / p.opts.beta) := le_trans (by nlinarith) hle
    by_cases hg : 2 * ⟪A x - A y, p.f.grad (A x + p.b) - p.f.grad (A y + p.b)⟫ ≤ s.L * p.opts.alpha * ‖x - y‖ ^ 2
    · rw [(c40_backtrack x y _ _ _ _ _ _ _).1 hg]; exact hLa
    · push Not at hg
      have hxy : x ≠ y := by rintro rfl; simp at hg
      have hn0 : 0 < ‖x - y‖ ^ 2 := by have := norm_pos_iff.mpr (sub_ne_zero.mpr hxy); positivity
      have hlt : s.L * p.opts.alpha < K := lt_of_mul_lt_mul_right (hg.trans_le hk) hn0.le
      have hKb : K ≤ K / p.opts.beta := by rw [le_div_iff₀ hs.beta]; nlinarith
      have hmax : max (2 * ⟪A x - A y, p.f.grad (A x + p.b) - p.f.grad (A y + p.b)⟫ / ‖x - y‖ ^ 2) (s.L * p.opts.alpha / p.opts.beta) ≤
          max p.opts.L0 (K / p.opts.beta) := by
        refine max_le ?_ ?_
        · refine le_trans ?_ (le_max_right _ _)
          rw [div_le_iff₀ hn0]; exact hk.trans (mul_le_mul_of_nonneg_right hKb hn0.le)
        · exact le_trans (div_le_div_of_nonneg_right hlt.le hs.beta.le) (le_max_right _ _)
      obtain ⟨h1, h2⟩ := (c40_backtrack x y (A x) (p.f.grad (A x + p.b)) (A y) (p.f.grad (A y + p.b)) (s.L * p.opts.alpha) p.opts.beta p.opts.Lexact).2 hxy hg
      cases hx : p.opts.Lexact with
      | none => rw [hx] at h1; rw [h1 rfl]; exact hmax
      | some l => rw [hx] at h2; rw [h2 l rfl]; exact (min_le_right _ _).trans hmax
  refine (Reach.inv (fun s : FomState E F => (0 < s.L ∧ s.x ∈ C) ∧ s.L ≤ max p.opts.L0 (K / p.opts.beta)) hr ?_ ?_).2
  · have hi := body_inv hs (fomInit p) hs.L0 (start_mem hs).1
    exact ⟨⟨hi.pos, hi.x⟩, hstep _ hs.L0 (le_max_left _ _)⟩
  · intro s hi _
    have hi' := body_inv hs s hi.1.1 hi.1.2
    exact ⟨⟨hi'.pos, hi'.x⟩, hstep _ hi.1.1 hi.2⟩

/-- With `alpha = 1` and `L0` at least twice the curvature, every iteration keeps its estimate. -/
theorem accepted_of_L0 (hs : FomSetting p A C h) (ha : p.opts.alpha = 1)
    (hK : ∀ u v, 2 * ⟪A u - A v, p.f.grad (A u + p.b) - p.f.grad (A v + p.b)⟫ ≤ p.opts.L0 * ‖u - v‖ ^ 2) (s : FomState E F) (hr : FomReach p s) :
    FomAccepted p s := by
  have hstep : ∀ s : FomState E F, s.L = p.opts.L0 → (fomBody p s).L = s.L * p.opts.alpha := by
    intro s hL
    have e4 : (fomBody p s).L = backtrackL (fomBody p s).x (A (fomBody p s).x) (p.f.grad (A (fomBody p s).x + p.b)) (fomBody p s).y
        (A (fomBody p s).y) (p.f.grad (A (fomBody p s).y + p.b)) (s.L * p.opts.alpha) p.opts.Lexact p.opts.beta := by
      simp only [fomBody, smoothTranslate]; rw [hs.pair, hs.pair, hs.times]
    rw [e4, (c40_backtrack _ _ _ _ _ _ _ _ _).1]
    rw [hL, ha, mul_one]; exact hK _ _
  refine (Reach.inv (fun s => FomAccepted p s ∧ s.L = p.opts.L0) hr ⟨.first (hstep _ rfl), ?_⟩ fun s hi hc => ⟨.step hi.1 hc (hstep s hi.2), ?_⟩).1
  · rw [hstep _ rfl, ha, mul_one]; rfl
  · rw [hstep s hi.2, ha, mul_one, hi.2]

/-! ## `l1rls` and `lasso` -/

/-- `l1rls(A, b, lambda, x0, options)` (fom/l1rls.py:24-48). -/
def l1rls {m n : ℕ} (times : Vec n → Vec m) (trans : Vec m → Vec n) (b : Vec m) (lam : ℝ) (x0 : Vec n) (o : FomOptions) : FomArgs (Vec n) (Vec m) :=
  { f := smoothQuadMatrix none none none, h := proxL1 (vec fun _ => lam), times := times, trans := trans, b := -b, x0 := x0, opts := o }

/-- `lasso(A, b, tau, x0, options)` (fom/lasso.py:24-50). -/
def lasso {m n : ℕ} (times : Vec n → Vec m) (trans : Vec m → Vec n) (b : Vec m) (tau : ℝ) (x0 : Vec n) (o : FomOptions) : FomArgs (Vec n) (Vec m) :=
  { f := smoothQuadMatrix none none none, h := proxL1Ball n tau, times := times, trans := trans, b := -b, x0 := x0, opts := o }

theorem quad_conv {m : ℕ} (u v : Vec m) : (smoothQuadMatrix (n := m) none none none).func u +
    ⟪(smoothQuadMatrix (n := m) none none none).grad u, v - u⟫ ≤ (smoothQuadMatrix (n := m) none none none).func v := by
  simp only [smoothQuadMatrix, build2]
  have e : v = u + (v - u) := by abel
  have := real_inner_self_nonneg (x := v - u)
  have h2 : ⟪v, v⟫ = ⟪u, u⟫ + 2 * ⟪u, v - u⟫ + ⟪v - u, v - u⟫ := by
    conv_lhs => rw [e, real_inner_add_add_self]
  rw [h2]
  have h3 : (0.5 : ℝ) = 1 / 2 := by norm_num
  rw [h3]; linarith

theorem quad_curv {m n : ℕ} (A : Vec n →ₗ[ℝ] Vec m) (b : Vec m) (K : ℝ) (hA : ∀ d, ‖A d‖ ^ 2 ≤ K * ‖d‖ ^ 2) (u v : Vec n) :
    2 * ⟪A u - A v, (smoothQuadMatrix (n := m) none none none).grad (A u + b) - (smoothQuadMatrix (n := m) none none none).grad (A v + b)⟫ ≤
      2 * K * ‖u - v‖ ^ 2 := by
  simp only [smoothQuadMatrix, build2]
  rw [add_sub_add_right_eq_sub, real_inner_self_eq_norm_sq, ← map_sub]
  have := hA (u - v)
  linarith

theorem l1_weight_convex {n : ℕ} (lam : ℝ) (hl : 0 < lam) : ConvexOn ℝ Set.univ (fun x : Vec n => ∑ i, (vec fun _ => lam : Vec n) i * |x i|) := by
  refine ⟨convex_univ, fun x _ y _ a b ha hb _ => ?_⟩
  simp only [smul_eq_mul, vec_apply]
  rw [Finset.mul_sum, Finset.mul_sum, ← Finset.sum_add_distrib]
  refine Finset.sum_le_sum fun i _ => ?_
  have e : (a • x + b • y) i = a * x i + b * y i := rfl
  rw [e]
  have : |a * x i + b * y i| ≤ a * |x i| + b * |y i| := by
    refine (abs_add_le _ _).trans ?_
    rw [abs_mul, abs_mul, abs_of_nonneg ha, abs_of_nonneg hb]
  nlinarith [mul_le_mul_of_nonneg_left this hl.le]

theorem l1rls_setting {m n : ℕ} (A : Vec n →ₗ[ℝ] Vec m) (At : Vec m → Vec n) (hadj : ∀ x y, ⟪A x, y⟫ = ⟪x, At y⟫) (b : Vec m) (lam : ℝ)
    (hl : 0 < lam) (x0 : Vec n) (o : FomOptions) (ha : 0 < o.alpha) (hb : 0 < o.beta) (hL : 0 < o.L0) (hx : ∀ l, o.Lexact = some l → 0 < l) :
    FomSetting (l1rls A At b lam x0 o) A Set.univ (fun x => ∑ i, (vec fun _ => lam : Vec n) i * |x i|) :=
  ⟨rfl, hadj, fun _ => rfl, quad_conv, c30_prox_l1 _ fun _ => hl, l1_weight_convex lam hl, ha, hb, hL, hx⟩

theorem lasso_setting {m n : ℕ} (A : Vec n →ₗ[ℝ] Vec m) (At : Vec m → Vec n) (hadj : ∀ x y, ⟪A x, y⟫ = ⟪x, At y⟫) (b : Vec m) (tau : ℝ)
    (ht : 0 < tau) (x0 : Vec n) (o : FomOptions) (ha : 0 < o.alpha) (hb : 0 < o.beta) (hL : 0 < o.L0) (hx : ∀ l, o.Lexact = some l → 0 < l) :
    FomSetting (lasso A At b tau x0 o) A (ball1 0 tau) (fun _ => 0) :=
  ⟨rfl, hadj, fun _ => rfl, quad_conv, (c34_hypotheses n tau ht).2.1, (c34_hypotheses n tau ht).2.2, ha, hb, hL, hx⟩

/-- **C40** for the solvers built on `fom`: with `alpha = 1` and `L0 ≥ 2 |A|²`, after `k` iterations `l1rls` is within
`2 L0 |x0 - u|²/(k+1)²` of every value of `½|A x - b|² + lambda |x|₁`, and `lasso` returns a point of the l1 ball within
`2 L0 |start - u|²/(k+1)²` of every value of `½|A x - b|²` on that ball (`start` is `x0`, or its projection when `x0` is outside). -/
theorem c40_l1rls_lasso {m n : ℕ} (A : Vec n →ₗ[ℝ] Vec m) (At : Vec m → Vec n) (hadj : ∀ x y, ⟪A x, y⟫ = ⟪x, At y⟫) (b : Vec m) (lam tau : ℝ)
    (hl : 0 < lam) (ht : 0 < tau) (x0 : Vec n) (o : FomOptions) (ha : o.alpha = 1) (hb : 0 < o.beta) (hL : 0 < o.L0)
    (hA : ∀ d, 2 * ‖A d‖ ^ 2 ≤ o.L0 * ‖d‖ ^ 2) (hx : o.Lexact = none) :
    (∀ s, FomReach (l1rls A At b lam x0 o) s → ∀ u,
      (1 / 2 * ‖A s.x - b‖ ^ 2 + lam * l1 s.x) - (1 / 2 * ‖A u - b‖ ^ 2 + lam * l1 u) ≤ 2 * o.L0 * ‖x0 - u‖ ^ 2 / (s.iters + 1) ^ 2) ∧
    (∀ s, FomReach (lasso A At b tau x0 o) s → l1 s.x ≤ tau ∧ ∀ u, l1 u ≤ tau →
      1 / 2 * ‖A s.x - b‖ ^ 2 - 1 / 2 * ‖A u - b‖ ^ 2 ≤
        2 * o.L0 * ‖(if l1 x0 ≤ tau then x0 else projL1Ball tau none x0) - u‖ ^ 2 / (s.iters + 1) ^ 2) := by
  have hK : ∀ d, ‖A d‖ ^ 2 ≤ o.L0 / 2 * ‖d‖ ^ 2 := fun d => by linarith [hA d]
  have hx' : ∀ l, o.Lexact = some l → 0 < l := by intro l hl; rw [hx] at hl; cases hl
  have ha' : 0 < o.alpha := by rw [ha]; exact one_pos
  have hcurv : ∀ (b : Vec m) (u v : Vec n), 2 * ⟪A u - A v, (smoothQuadMatrix (n := m) none none none).grad (A u + b) -
      (smoothQuadMatrix (n := m) none none none).grad (A v + b)⟫ ≤ o.L0 * ‖u - v‖ ^ 2 := fun b u v => by
    have := quad_curv A b _ hK u v; linarith
  have hq : ∀ v : Vec m, (smoothQuadMatrix (n := m) none none none).func v = 1 / 2 * ‖v‖ ^ 2 := fun v => by
    simp only [smoothQuadMatrix, build2, real_inner_self_eq_norm_sq]; norm_num
  constructor
  · intro s hr u
    have hs := l1rls_setting A At hadj b lam hl x0 o ha' hb hL hx'
    have hacc := accepted_of_L0 hs ha (hcurv _) s hr
    have := c40_fom_rate hs ha.le (fun l hl => by have : o.Lexact = some l := hl; rw [hx] at this; cases this) s hacc u trivial
    have e : ∀ x, fomObj (l1rls A At b lam x0 o) (fun x => ∑ i, (vec fun _ => lam : Vec n) i * |x i|) x = 1 / 2 * ‖A x - b‖ ^ 2 + lam * l1 x := by
      intro x
      simp only [fomObj, l1rls, hq, l1, Finset.mul_sum, vec_apply, sub_eq_add_neg]
    rw [e, e] at this
    have est : (fomStart (l1rls A At b lam x0 o)).1 = x0 := by
      have : (l1rls A At b lam x0 o).h.func (l1rls A At b lam x0 o).x0 = ((∑ i, (vec fun _ => lam : Vec n) i * |x0 i| : ℝ) : EReal) :=
        hs.prox.value x0 trivial
      unfold fomStart
      rw [this, if_neg (EReal.coe_ne_top _)]; rfl
    rw [est] at this
    exact this
  · intro s hr
    have hs := lasso_setting A At hadj b tau ht x0 o ha' hb hL hx'
    have hmem : ∀ u : Vec n, u ∈ ball1 (0 : Vec n) tau ↔ l1 u ≤ tau := fun u => by simp [ball1]
    have hacc := accepted_of_L0 hs ha (hcurv _) s hr
    refine ⟨(hmem _).mp (c40_fom_invariants hs s hr).1.x, fun u hu => ?_⟩
    have := c40_fom_rate hs ha.le (fun l hl => by have : o.Lexact = some l := hl; rw [hx] at this; cases this) s hacc u ((hmem u).mpr hu)
    have e : ∀ x, fomObj (lasso A At b tau x0 o) (fun _ => 0) x = 1 / 2 * ‖A x - b‖ ^ 2 := by
      intro x
      simp only [fomObj, lasso, hq, add_zero, sub_eq_add_neg]
    rw [e, e] at this
    have est : (fomStart (lasso A At b tau x0 o)).1 = if l1 x0 ≤ tau then x0 else projL1Ball tau none x0 := by
      unfold fomStart
      split_ifs with h1 h2 h2
      · have := hs.prox.value x0 ((hmem x0).mpr h2)
        rw [show (lasso A At b tau x0 o).x0 = x0 from rfl, this] at h1
        exact absurd h1 (EReal.coe_ne_top _)
      · rfl
      · rfl
      · exact absurd (hs.prox.outside x0 fun hm => h2 ((hmem x0).mp hm)) h1
    rw [est] at this
    exact this

/-- The hypotheses are met: `A = 2 I` on `ℝ³` with `L0 = 8`. -/
example : ∃ o : FomOptions, o.alpha = 1 ∧ 0 < o.beta ∧ 0 < o.L0 ∧ o.Lexact = none ∧
    ∀ d : Vec 3, 2 * ‖((2 : ℝ) • LinearMap.id : Vec 3 →ₗ[ℝ] Vec 3) d‖ ^ 2 ≤ o.L0 * ‖d‖ ^ 2 := by
  refine ⟨{ alpha := 1, L0 := 8 }, rfl, by norm_num, by norm_num, rfl, fun d => ?_⟩
  simp only [LinearMap.smul_apply, LinearMap.id_apply, norm_smul]
  norm_num; nlinarith

/-- **C40 disproof** (reported value of `h`) the state field documented as the value of `h` at `x` keeps the value of `h` at the starting point. -/
theorem c40_Cx_stale (p : FomArgs E F) (s : FomState E F) (hr : FomReach p s) : s.Cx = (fomStart p).2 :=
  Reach.inv (fun s : FomState E F => s.Cx = (fomStart p).2) hr rfl fun s h _ => h

/-- … so for `l1rls` started at `0` with `A = 1, b = 1, lambda = 1/2, L0 = 1, alpha = 1` the first iterate is `1/2`, where `h` is `1/4`, but the
reported value is 0. -/
theorem c40_Cx_fails : ∃ (p : FomArgs (Vec 1) (Vec 1)) (s : FomState (Vec 1) (Vec 1)), FomReach p s ∧ p = l1rls id id (vec fun _ => 1) (1 / 2) 0
    { alpha := 1 } ∧ s.Cx = 0 ∧ p.h.func s.x ≠ s.Cx := by
  refine ⟨_, _, .init, rfl, ?_, ?_⟩
  · rw [c40_Cx_stale _ _ .init]
    simp [fomStart, l1rls, proxL1, build]
  · rw [c40_Cx_stale _ _ .init]
    have hst : fomStart (l1rls id id (vec fun _ => 1) (1 / 2) (0 : Vec 1) { alpha := 1 }) = (0, 0) := by
      simp [fomStart, l1rls, proxL1, build]
    have hx : (fomBody (l1rls id id (vec fun _ => 1) (1 / 2) (0 : Vec 1) { alpha := 1 })
        (fomInit (l1rls id id (vec fun _ => 1) (1 / 2) (0 : Vec 1) { alpha := 1 }))).x = vec fun _ => 1 / 2 := by
      ext i
      simp only [fomBody, fomInit, hst, advanceTheta_none]
      simp [l1rls, proxL1, build, smoothTranslate, smoothQuadMatrix, build2, minDiv1]
      norm_num
    rw [hst, hx]
    simp [l1rls, proxL1, build]

/-! Instances: `l1rls` and `lasso` with `A = 2 I` on `ℝ³`. -/

/-- `2 I` on `ℝ³`. -/
abbrev exM2 : Vec 3 →ₗ[ℝ] Vec 3 := (2 : ℝ) • LinearMap.id

theorem ex_adj2 (x y : Vec 3) : ⟪exM2 x, y⟫ = ⟪x, (2 : ℝ) • y⟫ := by
  rw [LinearMap.smul_apply, LinearMap.id_apply, inner_smul_left, inner_smul_right]; rfl

theorem ex_bound2 (d : Vec 3) : 2 * ‖exM2 d‖ ^ 2 ≤ 8 * ‖d‖ ^ 2 := by
  simp only [LinearMap.smul_apply, LinearMap.id_apply, norm_smul]
  norm_num; nlinarith

theorem ex_fom_setting (b x0 : Vec 3) : FomSetting (l1rls exM2 (fun y => (2 : ℝ) • y) b 1 x0 { alpha := 1, L0 := 8 })
    exM2 Set.univ (fun x => ∑ i, (vec fun _ => 1 : Vec 3) i * |x i|) :=
  l1rls_setting _ _ ex_adj2 b 1 one_pos x0 { alpha := 1, L0 := 8 } one_pos (by norm_num) (by norm_num) (fun _ h => by cases h)

theorem ex_fom_setting_default (b x0 : Vec 3) : FomSetting (lasso exM2 (fun y => (2 : ℝ) • y) b 1 x0 {})
    exM2 (ball1 0 1) (fun _ => 0) :=
  lasso_setting _ _ ex_adj2 b 1 one_pos x0 {} (by norm_num) (by norm_num) (by norm_num) (fun _ h => by cases h)

example (b x0 : Vec 3) := c40_fom_invariants (ex_fom_setting_default b x0) _ .init

example (b x0 : Vec 3) (s : FomState (Vec 3) (Vec 3)) (hL : 0 < s.L) :=
  c40_accepted_upper_bound (ex_fom_setting b x0) (fun _ h => by cases h) s hL

example (b x0 : Vec 3) (s) (hs : FomAccepted (l1rls exM2 (fun y => (2 : ℝ) • y) b 1 x0 { alpha := 1, L0 := 8 }) s) (u : Vec 3) :=
  c40_fom_rate (ex_fom_setting b x0) le_rfl (fun _ h => by cases h) s hs u trivial

example (b x0 : Vec 3) := c40_L_bounded (ex_fom_setting_default b x0) (by norm_num [lasso]) (by norm_num [lasso]) 8 (by norm_num)
  (fun u v => by have := quad_curv _ (lasso exM2 (fun y => (2 : ℝ) • y) b 1 x0 {}).b 4 (fun d => by linarith [ex_bound2 d]) u v; norm_num at this; exact this) _ .init

example (b x0 : Vec 3) := c40_l1rls_lasso exM2 (fun y => (2 : ℝ) • y) ex_adj2 b 1 1 one_pos one_pos x0 { alpha := 1, L0 := 8 } rfl
  (by norm_num) (by norm_num) ex_bound2 rfl

example (b x0 : Vec 3) := c40_Cx_stale (lasso exM2 (fun y => (2 : ℝ) • y) b 1 x0 {}) _ .init

end Verif.Opt
