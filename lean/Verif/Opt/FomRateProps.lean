import Verif.Opt.FomRateLemmas
import Mathlib.Analysis.Convex.Continuous
import Mathlib.Analysis.InnerProductSpace.PiL2
import Mathlib.Analysis.SpecificLimits.Basic

set_option autoImplicit false
/-!
# Convergence of the first order solver for every initial estimate of the Lipschitz constant (C132)
-/
noncomputable section
namespace Verif.Opt
open Verif.Loop Filter Topology
open scoped RealInnerProductSpace

variable {E F : Type*} [NormedAddCommGroup E] [InnerProductSpace ℝ E] [NormedAddCommGroup F] [InnerProductSpace ℝ F]
variable {p : FomArgs E F} {A : E →ₗ[ℝ] F} {C : Set E} {h : E → ℝ} {K : ℝ}

/-- **C132** for every `alpha ≤ 1` and every `L0`, on a bounded domain of diameter `D`: after `k` iterations the objective exceeds its value at any
point of the domain by at most `M D² θ`, with `M = max(L0, K/beta)` and a momentum parameter `θ` between `1 - alpha` and `1 - alpha + 2 alpha/(k+1)`. -/
theorem c132_any_alpha (hs : FomSetting p A C h) (ha : p.opts.alpha ≤ 1) (hb : p.opts.beta ≤ 1) (hK0 : 0 ≤ K)
    (hK : Curv p A K) (D : ℝ) (hD : ∀ a ∈ C, ∀ b ∈ C, ‖a - b‖ ≤ D)
    (s : FomState E F) (hr : FomReach p s) :
    ∃ t, s.theta = some t ∧ 1 - p.opts.alpha ≤ t ∧ t ≤ 1 - p.opts.alpha + 2 * p.opts.alpha / (s.iters + 1) ∧
      ∀ u ∈ C, fomObj p h s.x - fomObj p h u ≤ t * (max p.opts.L0 (K / p.opts.beta) * D ^ 2) := by
  set M := max p.opts.L0 (K / p.opts.beta) with hM
  have hMK : K ≤ M := le_trans (by rw [le_div_iff₀ hs.beta]; nlinarith) (le_max_right _ _)
  have hsq : ∀ a ∈ C, ∀ b ∈ C, ‖a - b‖ ^ 2 ≤ D ^ 2 := fun a h1 b h2 => pow_le_pow_left₀ (norm_nonneg _) (hD a h1 b h2) 2
  have key : ∀ (L θ : ℝ) (u z z' : E), u ∈ C → z ∈ C → z' ∈ C → 0 < L → L ≤ M →
      θ ^ 2 * L / 2 * (‖u - z‖ ^ 2 - ‖u - z'‖ ^ 2) + θ ^ 2 * (K - L) / 2 * ‖z' - z‖ ^ 2 ≤ θ ^ 2 * (M / 2 * D ^ 2) := by
    intro L θ u z z' hu hz hz' h0 hL
    have h1 := hsq u hu z hz
    have h2 := hsq z' hz' z hz
    have h3 : L / 2 * (‖u - z‖ ^ 2 - ‖u - z'‖ ^ 2) + (K - L) / 2 * ‖z' - z‖ ^ 2 ≤ M / 2 * D ^ 2 := by
      have h4 : L / 2 * (‖u - z‖ ^ 2 - ‖u - z'‖ ^ 2) ≤ L / 2 * D ^ 2 := by
        have := sq_nonneg ‖u - z'‖
        nlinarith
      have h5 : (K - L) / 2 * ‖z' - z‖ ^ 2 ≤ (M - L) / 2 * D ^ 2 :=
        mul_le_mul (by linarith) h2 (sq_nonneg _) (by linarith)
      linarith
    have := mul_le_mul_of_nonneg_left h3 (sq_nonneg θ)
    linarith
  have hbound := c40_L_bounded hs ha hb K hK0 hK
  refine (hr.inv' (fun s => (0 < s.L ∧ s.x ∈ C ∧ s.z ∈ C) ∧ ∃ t, s.theta = some t ∧ 0 < t ∧ 1 - p.opts.alpha ≤ t ∧ t ≤ 1 - p.opts.alpha + 2 * p.opts.alpha / (s.iters + 1) ∧
      ∀ u ∈ C, fomObj p h s.x - fomObj p h u ≤ t * (M * D ^ 2)) ?_ ?_).2.imp fun t ht => ⟨ht.1, ht.2.2⟩
  · have hi := body_inv hs (fomInit p) hs.L0 (start_mem hs).1
    refine ⟨⟨hi.pos, hi.x, hi.z⟩, 1, ?_, one_pos, by linarith [hs.alpha], ?_, fun u hu => ?_⟩
    · simp only [fomBody]
      rw [show (fomInit p).theta = none from rfl, advanceTheta_none]
    · have : ((fomBody p (fomInit p)).iters : ℝ) = 1 := by simp [fomBody, fomInit]
      rw [this]; linarith
    · have h1 := fom_step_any hs hK (fomInit p) hs.L0 (start_mem hs).1 u hu
      have h2 := key (p.opts.L0 * p.opts.alpha) 1 u (fomInit p).z (fomBody p (fomInit p)).z hu (start_mem hs).1 hi.z (mul_pos hs.L0 hs.alpha)
        (le_trans (by nlinarith [hs.L0]) (le_max_left _ _))
      have e : (fomInit p).theta = none := rfl
      have e2 : (fomInit p).L = p.opts.L0 := rfl
      simp only [e, e2, advanceTheta_none] at h1
      have h3 : 0 ≤ M * D ^ 2 := mul_nonneg (hK0.trans hMK) (sq_nonneg _)
      linarith
  · rintro s hr ⟨⟨i1, i2, i3⟩, t, ht, ht0, ht1, ht2, hPhi⟩ hc
    have hi := body_inv hs s i1 i2
    have hpos := mul_pos i1 hs.alpha
    have hrec := advanceTheta_some t (s.L * p.opts.alpha) s.L ht0 hpos i1
    have hT0 := advanceTheta_pos (some t) (s.L * p.opts.alpha) s.L
    have hT1 := advanceTheta_le_one (some t) (s.L * p.opts.alpha) s.L hpos i1
    have hthe : (fomBody p s).theta = some (advanceTheta (some t) (s.L * p.opts.alpha) s.L) := by simp only [fomBody, ht]
    have hst := fun u hu => fom_step_any hs hK s i1 i2 u hu
    simp only [ht] at hst
    set T := advanceTheta (some t) (s.L * p.opts.alpha) s.L with hT
    have hrec' : (1 - T) * t ^ 2 = p.opts.alpha * T ^ 2 := by
      have : (1 - T) * t ^ 2 * s.L = p.opts.alpha * T ^ 2 * s.L := by linarith
      exact mul_right_cancel₀ i1.ne' this
    refine ⟨⟨hi.pos, hi.x, hi.z⟩, T, hthe, hT0, theta_lower hs.alpha hT0 hT1 hrec' ha ht1, ?_, fun u hu => ?_⟩
    · have := theta_upper hs.alpha ha ht0 hT0 (Nat.cast_nonneg s.iters) hrec' ht2
      have e : ((fomBody p s).iters : ℝ) = s.iters + 1 := by simp [fomBody]
      rw [e, add_assoc]
      norm_num
      exact this
    · have h1 := hst u hu
      have h2 := key (s.L * p.opts.alpha) T u s.z (fomBody p s).z hu i3 hi.z hpos (le_trans (by nlinarith) (hbound s hr))
      have h3 := mul_le_mul_of_nonneg_left (hPhi u hu) (by linarith : 0 ≤ 1 - T)
      have h4 : 0 ≤ M / 2 * D ^ 2 := by
        have := hK0.trans hMK
        positivity
      have h5 := mul_le_mul_of_nonneg_right (theta_double ha ht0 hT0 hT1 hrec') h4
      linarith

/-- The states of `fom` if its loop never ended. -/
def fomSeq (p : FomArgs E F) (k : ℕ) : FomState E F := (fomBody p)^[k] (fomInit p)

theorem fomSeq_succ (p : FomArgs E F) (k : ℕ) : fomSeq p (k + 1) = fomBody p (fomSeq p k) := Function.iterate_succ_apply' _ _ _

theorem fomSeq_iters (p : FomArgs E F) (k : ℕ) : (fomSeq p k).iters = k := by
  induction k with
  | zero => rfl
  | succ k ih => rw [fomSeq_succ]; show (fomSeq p k).iters + 1 = _; rw [ih]

theorem fomSeq_mem (hs : FomSetting p A C h) (k : ℕ) : 0 < (fomSeq p k).L ∧ (fomSeq p k).x ∈ C ∧ (fomSeq p k).z ∈ C := by
  induction k with
  | zero => exact ⟨hs.L0, (start_mem hs).1, (start_mem hs).1⟩
  | succ k ih =>
    rw [fomSeq_succ]
    have := body_inv hs _ ih.1 ih.2.1
    exact ⟨this.pos, this.x, this.z⟩

/-- Every reachable state is a member of the sequence. -/
theorem reach_seq {s : FomState E F} (hr : FomReach p s) : 1 ≤ s.iters ∧ s = fomSeq p s.iters := by
  obtain ⟨k, rfl, _⟩ := Reach.iterate hr
  have e : (fomBody p)^[k] (fomBody p (fomInit p)) = fomSeq p (k + 1) := (Function.iterate_succ_apply _ _ _).symm
  rw [e, fomSeq_iters]
  exact ⟨by omega, rfl⟩

/-- The same solver with other limits. -/
def withLimits (p : FomArgs E F) (N : ℕ) (tol : ℝ) : FomArgs E F := { p with opts := { p.opts with maxIters := N, tol := tol } }

theorem withLimits_setting (hs : FomSetting p A C h) (N : ℕ) (tol : ℝ) : FomSetting (withLimits p N tol) A C h :=
  ⟨hs.times, hs.adj, hs.pair, hs.fconv, hs.prox, hs.hconv, hs.alpha, hs.beta, hs.L0, hs.Lexact⟩

theorem fomSeq_L_le (hs : FomSetting p A C h) (ha : p.opts.alpha ≤ 1) (hb : p.opts.beta ≤ 1) (hK0 : 0 ≤ K) (hK : Curv p A K) (j : ℕ) :
    (fomSeq p (j + 1)).L ≤ max p.opts.L0 (K / p.opts.beta) := by
  have e : ∀ i, (fomBody p)^[i] (fomBody p (fomInit p)) = fomSeq p (i + 1) := fun i => (Function.iterate_succ_apply _ _ _).symm
  have hr : FomReach (withLimits p (j + 1) 0) (fomSeq p (j + 1)) := by
    rw [← e]
    refine reach_of_iterate fun i hi => ⟨?_, ?_⟩
    · show ((fomBody p)^[i] (fomBody p (fomInit p))).iters < j + 1
      rw [e, fomSeq_iters]; omega
    · show ((fomBody p)^[i] (fomBody p (fomInit p))).normDx ≥ 0 * _
      rw [e, fomSeq_succ, zero_mul]
      exact norm_nonneg _
  exact c40_L_bounded (withLimits_setting hs (j + 1) 0) ha hb K hK0 hK _ hr

/-- With `alpha = 1`: the rate, if the jumps of `z` in the iterations that raise the estimate are bounded by `D`. -/
theorem rate_of_jumps (hs : FomSetting p A C h) (ha : p.opts.alpha = 1) (hb : p.opts.beta < 1) (hK0 : 0 ≤ K) (hK : Curv p A K)
    (hx : p.opts.Lexact = none) (D : ℝ) (hD : ∀ k, (fomSeq p (k + 1)).L ≠ (fomSeq p k).L → ‖(fomSeq p (k + 1)).z - (fomSeq p k).z‖ ≤ D)
    (u : E) (hu : u ∈ C) (hmin : ∀ v ∈ C, fomObj p h u ≤ fomObj p h v) (k : ℕ) (hk : 1 ≤ k) :
    fomObj p h (fomSeq p k).x - fomObj p h u ≤
      2 * max p.opts.L0 (K / p.opts.beta) * (‖(fomStart p).1 - u‖ ^ 2 + K * D ^ 2 / (p.opts.L0 * (1 - p.opts.beta))) / (k + 1) ^ 2 := by
  have hb' : 0 < 1 - p.opts.beta := by linarith
  set P := K * D ^ 2 / (2 * (1 - p.opts.beta)) with hP
  have hP0 : 0 ≤ P := by positivity
  set R := ‖(fomStart p).1 - u‖ ^ 2 with hR
  have step : ∀ k (θ W : ℝ), advanceTheta (fomSeq p k).theta ((fomSeq p k).L * p.opts.alpha) (fomSeq p k).L = θ →
      (1 - θ) * (fomObj p h (fomSeq p k).x - fomObj p h u) ≤ θ ^ 2 * (fomSeq p k).L * (W - ‖u - (fomSeq p k).z‖ ^ 2 / 2) →
      p.opts.L0 ≤ (fomSeq p k).L →
      p.opts.L0 ≤ (fomSeq p (k + 1)).L ∧
      (fomObj p h (fomSeq p (k + 1)).x - fomObj p h u) ≤
        θ ^ 2 * (fomSeq p (k + 1)).L * (W + P * (1 / (fomSeq p k).L - 1 / (fomSeq p (k + 1)).L) - ‖u - (fomSeq p (k + 1)).z‖ ^ 2 / 2) := by
    intro k θ W hθ hW hL0
    obtain ⟨m1, m2, m3⟩ := fomSeq_mem hs k
    obtain ⟨m1', m2', m3'⟩ := fomSeq_mem hs (k + 1)
    have hjump := hD k
    rw [fomSeq_succ] at m1' m2' m3' hjump ⊢
    set s := fomSeq p k with hsdef
    rcases fom_L_cases hs hK hx s with hacc | ⟨hrej, hlt⟩
    · have hub := c40_accepted_upper_bound hs (fun l hl => by rw [hx] at hl; cases hl) s m1 hacc
      rw [hacc] at hub
      have hst := fom_step hs s m1 m2 hub u hu
      simp only [hθ] at hst
      rw [ha, mul_one] at hst hacc
      rw [hacc]
      refine ⟨hL0, ?_⟩
      rw [sub_self, mul_zero, add_zero]
      linarith
    · have hst := fom_step_any hs hK s m1 m2 u hu
      simp only [hθ] at hst
      rw [ha, mul_one] at hst hrej hlt
      have hge : s.L < (fomBody p s).L := by
        refine lt_of_lt_of_le ?_ hrej
        rw [lt_div_iff₀ hs.beta]
        nlinarith
      refine ⟨hL0.trans hge.le, ?_⟩
      have hj : ‖(fomBody p s).z - s.z‖ ^ 2 ≤ D ^ 2 := pow_le_pow_left₀ (norm_nonneg _) (hjump hge.ne') 2
      have hinv : (1 - p.opts.beta) / s.L ≤ 1 / s.L - 1 / (fomBody p s).L := by
        have h1 : 1 / (fomBody p s).L ≤ p.opts.beta / s.L := by
          rw [div_le_iff₀ hs.beta] at hrej
          rw [div_le_div_iff₀ m1' m1]
          linarith
        have : (1 - p.opts.beta) / s.L = 1 / s.L - p.opts.beta / s.L := by ring
        linarith
      have hpot : K * D ^ 2 / (2 * s.L) ≤ P * (1 / s.L - 1 / (fomBody p s).L) := by
        refine le_trans (le_of_eq ?_) (mul_le_mul_of_nonneg_left hinv hP0)
        rw [hP]
        field_simp
      have herr : θ ^ 2 * (K - s.L) / 2 * ‖(fomBody p s).z - s.z‖ ^ 2 ≤ θ ^ 2 * s.L * (P * (1 / s.L - 1 / (fomBody p s).L)) := by
        have h1 : (K - s.L) / 2 * ‖(fomBody p s).z - s.z‖ ^ 2 ≤ K / 2 * D ^ 2 :=
          mul_le_mul (by linarith) hj (sq_nonneg _) (by linarith)
        have h2 : K / 2 * D ^ 2 = s.L * (K * D ^ 2 / (2 * s.L)) := by field_simp
        have h3 := mul_le_mul_of_nonneg_left hpot m1.le
        have h4 := mul_le_mul_of_nonneg_left ((h1.trans_eq h2).trans h3) (sq_nonneg θ)
        linarith
      have hle : (fomObj p h (fomBody p s).x - fomObj p h u) ≤
          θ ^ 2 * s.L * (W + P * (1 / s.L - 1 / (fomBody p s).L) - ‖u - (fomBody p s).z‖ ^ 2 / 2) := by
        linarith
      refine hle.trans ?_
      have hnn : 0 ≤ θ ^ 2 * s.L * (W + P * (1 / s.L - 1 / (fomBody p s).L) - ‖u - (fomBody p s).z‖ ^ 2 / 2) :=
        le_trans (sub_nonneg.2 (hmin _ m2')) hle
      have hth : 0 < θ := hθ ▸ advanceTheta_pos _ _ _
      have hq : 0 ≤ W + P * (1 / s.L - 1 / (fomBody p s).L) - ‖u - (fomBody p s).z‖ ^ 2 / 2 := by
        by_contra hc
        push Not at hc
        have : θ ^ 2 * s.L * (W + P * (1 / s.L - 1 / (fomBody p s).L) - ‖u - (fomBody p s).z‖ ^ 2 / 2) < 0 :=
          mul_neg_of_pos_of_neg (by positivity) hc
        linarith
      exact mul_le_mul_of_nonneg_right (mul_le_mul_of_nonneg_left hge.le (sq_nonneg θ)) hq
  have key : ∀ k, p.opts.L0 ≤ (fomSeq p (k + 1)).L ∧ ∃ t, (fomSeq p (k + 1)).theta = some t ∧ 0 < t ∧ t ≤ 2 / ((k : ℝ) + 2) ∧
      (fomObj p h (fomSeq p (k + 1)).x - fomObj p h u) ≤
        t ^ 2 * (fomSeq p (k + 1)).L * (R / 2 + P * (1 / p.opts.L0 - 1 / (fomSeq p (k + 1)).L) - ‖u - (fomSeq p (k + 1)).z‖ ^ 2 / 2) := by
    intro k
    induction k with
    | zero =>
      obtain ⟨h1, h2⟩ := step 0 1 (R / 2) (advanceTheta_none _ _) (by
        have e : ‖u - (fomSeq p 0).z‖ ^ 2 = R := by rw [hR, norm_sub_rev]; rfl
        rw [e]
        norm_num) le_rfl
      refine ⟨h1, 1, ?_, one_pos, by norm_num, ?_⟩
      · rw [fomSeq_succ]
        show some (advanceTheta (fomSeq p 0).theta _ _) = _
        rw [show (fomSeq p 0).theta = none from rfl, advanceTheta_none]
      · have e : (fomSeq p 0).L = p.opts.L0 := rfl
        rw [e] at h2
        exact h2
    | succ k ih =>
      obtain ⟨i1, t, ht, ht0, ht2, hPhi⟩ := ih
      obtain ⟨m1, m2, m3⟩ := fomSeq_mem hs (k + 1)
      have hrec := advanceTheta_some t ((fomSeq p (k + 1)).L * p.opts.alpha) (fomSeq p (k + 1)).L ht0 (mul_pos m1 hs.alpha) m1
      have hT0 := advanceTheta_pos (some t) ((fomSeq p (k + 1)).L * p.opts.alpha) (fomSeq p (k + 1)).L
      have hT1 := advanceTheta_le_one (some t) ((fomSeq p (k + 1)).L * p.opts.alpha) (fomSeq p (k + 1)).L (mul_pos m1 hs.alpha) m1
      have hthe : (fomSeq p (k + 1 + 1)).theta = some (advanceTheta (some t) ((fomSeq p (k + 1)).L * p.opts.alpha) (fomSeq p (k + 1)).L) := by
        rw [fomSeq_succ p (k + 1)]; simp only [fomBody, ht]
      have hst := step (k + 1) _ (R / 2 + P * (1 / p.opts.L0 - 1 / (fomSeq p (k + 1)).L)) rfl
      simp only [ht] at hst
      set T := advanceTheta (some t) ((fomSeq p (k + 1)).L * p.opts.alpha) (fomSeq p (k + 1)).L with hT
      have hrec1 : (1 - T) * (t ^ 2 * (fomSeq p (k + 1)).L) = T ^ 2 * (fomSeq p (k + 1)).L := by rw [hrec, ha, mul_one]
      have hrec' : (1 - T) * t ^ 2 = 1 * T ^ 2 := by
        have : (1 - T) * t ^ 2 * (fomSeq p (k + 1)).L = 1 * T ^ 2 * (fomSeq p (k + 1)).L := by linarith
        exact mul_right_cancel₀ m1.ne' this
      obtain ⟨h1, h2⟩ := hst (by
        have := mul_le_mul_of_nonneg_left hPhi (by linarith : 0 ≤ 1 - T)
        refine this.trans (le_of_eq ?_)
        rw [← hrec1]; ring) i1
      refine ⟨h1, T, hthe, hT0, ?_, h2.trans (le_of_eq ?_)⟩
      · have := theta_upper one_pos le_rfl ht0 hT0 (by positivity : (0 : ℝ) ≤ k + 1) hrec' (by
          rw [show (k : ℝ) + 1 + 1 = k + 2 by ring]; linarith)
        push_cast
        linarith
      · ring
  obtain ⟨j, rfl⟩ : ∃ j, k = j + 1 := ⟨k - 1, by omega⟩
  obtain ⟨_, t, ht, ht0, ht2, hPhi⟩ := key j
  obtain ⟨m1, m2, m3⟩ := fomSeq_mem hs (j + 1)
  have hLM := fomSeq_L_le hs ha.le hb.le hK0 hK j
  set M := max p.opts.L0 (K / p.opts.beta)
  have hB : R / 2 + P * (1 / p.opts.L0 - 1 / (fomSeq p (j + 1)).L) - ‖u - (fomSeq p (j + 1)).z‖ ^ 2 / 2 ≤ R / 2 + P * (1 / p.opts.L0) := by
    have h1 : 0 ≤ P * (1 / (fomSeq p (j + 1)).L) := by positivity
    have h2 := sq_nonneg ‖u - (fomSeq p (j + 1)).z‖
    nlinarith
  have hB0 : 0 ≤ R / 2 + P * (1 / p.opts.L0) := by
    have := hs.L0
    positivity
  have ht4 : t ^ 2 ≤ 4 / ((j : ℝ) + 2) ^ 2 := by
    have := pow_le_pow_left₀ ht0.le ht2 2
    rw [div_pow] at this
    linarith
  calc fomObj p h (fomSeq p (j + 1)).x - fomObj p h u ≤ t ^ 2 * (fomSeq p (j + 1)).L * (R / 2 + P * (1 / p.opts.L0)) :=
        hPhi.trans (mul_le_mul_of_nonneg_left hB (by positivity))
    _ ≤ 4 / ((j : ℝ) + 2) ^ 2 * M * (R / 2 + P * (1 / p.opts.L0)) :=
        mul_le_mul_of_nonneg_right (mul_le_mul ht4 hLM m1.le (by positivity)) hB0
    _ = _ := by
      have := hs.L0.ne'
      push_cast
      rw [hP, show (j : ℝ) + 1 + 1 = j + 2 by ring]
      field_simp
      ring

/-- With `alpha = 1` the estimate is raised only finitely often. -/
theorem finitely_many_raises (hs : FomSetting p A C h) (ha : p.opts.alpha = 1) (hb : p.opts.beta < 1) (hK0 : 0 ≤ K) (hK : Curv p A K)
    (hx : p.opts.Lexact = none) : ∃ N, ∀ k, N ≤ k → (fomSeq p (k + 1)).L = (fomSeq p k).L := by
  by_contra hc
  push Not at hc
  have hstep : ∀ k, (fomSeq p (k + 1)).L = (fomSeq p k).L ∨ (fomSeq p k).L / p.opts.beta ≤ (fomSeq p (k + 1)).L := fun k => by
    have := fom_L_cases hs hK hx (fomSeq p k)
    rw [ha, mul_one, ← fomSeq_succ] at this
    exact this.imp_right And.left
  have hmono : Monotone fun k => (fomSeq p k).L := monotone_nat_of_le_succ fun k => by
    rcases hstep k with h1 | h1
    · exact h1.ge
    · refine le_trans ?_ h1
      rw [le_div_iff₀ hs.beta]
      nlinarith [(fomSeq_mem hs k).1]
  have hgrow : ∀ n : ℕ, ∃ k, p.opts.L0 * (1 / p.opts.beta) ^ n ≤ (fomSeq p k).L := by
    intro n
    induction n with
    | zero => exact ⟨0, by rw [pow_zero, mul_one]; exact le_rfl⟩
    | succ n ih =>
      obtain ⟨k, hk⟩ := ih
      obtain ⟨j, hj, hne⟩ := hc k
      refine ⟨j + 1, le_trans ?_ ((hstep j).resolve_left hne)⟩
      rw [pow_succ, ← mul_assoc, mul_one_div]
      exact div_le_div_of_nonneg_right (hk.trans (hmono hj)) hs.beta.le
  obtain ⟨n, hn⟩ := pow_unbounded_of_one_lt (max p.opts.L0 (K / p.opts.beta) / p.opts.L0) (show 1 < 1 / p.opts.beta by rw [lt_div_iff₀ hs.beta]; linarith)
  obtain ⟨k, hk⟩ := hgrow n
  rw [div_lt_iff₀ hs.L0] at hn
  have h1 := (hmono (Nat.le_succ k)).trans (fomSeq_L_le hs ha.le hb.le hK0 hK k)
  have h2 : (fomSeq p k).L ≤ max p.opts.L0 (K / p.opts.beta) := h1
  linarith

/-- **C132** with `alpha = 1`, for every positive `L0` and every `beta < 1`: the objective converges to its minimum at rate `1/k²`. There is a constant,
independent of the limits `max_iters` and `tol`, that bounds `k²` times the error after `k` iterations. -/
theorem c132_rate (hs : FomSetting p A C h) (ha : p.opts.alpha = 1) (hb : p.opts.beta < 1) (hK0 : 0 ≤ K) (hK : Curv p A K)
    (hx : p.opts.Lexact = none) (u : E) (hu : u ∈ C) (hmin : ∀ v ∈ C, fomObj p h u ≤ fomObj p h v) :
    ∃ c, ∀ (N : ℕ) (tol : ℝ) (s : FomState E F), FomReach (withLimits p N tol) s → fomObj p h s.x - fomObj p h u ≤ c / (s.iters + 1) ^ 2 := by
  obtain ⟨N0, hN0⟩ := finitely_many_raises hs ha hb hK0 hK hx
  obtain ⟨D, hD⟩ := ((Finset.range N0).image fun k => ‖(fomSeq p (k + 1)).z - (fomSeq p k).z‖).exists_le
  refine ⟨2 * max p.opts.L0 (K / p.opts.beta) * (‖(fomStart p).1 - u‖ ^ 2 + K * D ^ 2 / (p.opts.L0 * (1 - p.opts.beta))), fun N tol s hr => ?_⟩
  obtain ⟨h1, h2⟩ := reach_seq hr
  have e : fomSeq (withLimits p N tol) s.iters = fomSeq p s.iters := rfl
  rw [e] at h2
  have := rate_of_jumps hs ha hb hK0 hK hx D (fun k hne => ?_) u hu hmin s.iters h1
  · rw [← h2] at this
    exact this
  · refine hD _ (Finset.mem_image.2 ⟨k, ?_, rfl⟩)
    rw [Finset.mem_range]
    by_contra hcon
    exact hne (hN0 k (by omega))

/-! ## `lasso` and `l1rls` -/

section solvers
variable {m n : ℕ}

theorem norm_le_l1 (x : Vec n) : ‖x‖ ≤ l1 x := by
  rw [EuclideanSpace.norm_eq]
  apply Real.sqrt_le_iff.mpr
  refine ⟨Finset.sum_nonneg fun i _ => abs_nonneg _, ?_⟩
  have h0 : ∀ i ∈ Finset.univ, 0 ≤ |x i| := fun i _ => abs_nonneg _
  calc ∑ i, ‖x i‖ ^ 2 = ∑ i, |x i| * |x i| := Finset.sum_congr rfl fun i _ => by rw [Real.norm_eq_abs, sq]
    _ ≤ ∑ i, |x i| * l1 x := Finset.sum_le_sum fun i hi => mul_le_mul_of_nonneg_left (Finset.single_le_sum h0 hi) (abs_nonneg _)
    _ = l1 x ^ 2 := by rw [← Finset.sum_mul, sq]; rfl

theorem l1_cont : Continuous (l1 : Vec n → ℝ) := by
  unfold l1
  fun_prop

theorem ball1_diam (tau : ℝ) : ∀ a ∈ ball1 (0 : Vec n) tau, ∀ b ∈ ball1 (0 : Vec n) tau, ‖a - b‖ ≤ 2 * tau := by
  intro a ha b hb
  have h1 : l1 a ≤ tau := by simpa [ball1] using ha
  have h2 : l1 b ≤ tau := by simpa [ball1] using hb
  have := norm_sub_le a b
  have := norm_le_l1 a
  have := norm_le_l1 b
  linarith

theorem lasso_obj (A : Vec n →ₗ[ℝ] Vec m) (At : Vec m → Vec n) (b : Vec m) (tau : ℝ) (x0 : Vec n) (o : FomOptions) (x : Vec n) :
    fomObj (lasso A At b tau x0 o) (fun _ => 0) x = 1 / 2 * ‖A x - b‖ ^ 2 := by
  simp only [fomObj, lasso, smoothQuadMatrix, build2, real_inner_self_eq_norm_sq, add_zero, sub_eq_add_neg]
  norm_num

theorem l1rls_obj (A : Vec n →ₗ[ℝ] Vec m) (At : Vec m → Vec n) (b : Vec m) (lam : ℝ) (x0 : Vec n) (o : FomOptions) (x : Vec n) :
    fomObj (l1rls A At b lam x0 o) (fun x => ∑ i, (vec fun _ => lam : Vec n) i * |x i|) x = 1 / 2 * ‖A x - b‖ ^ 2 + lam * l1 x := by
  simp only [fomObj, l1rls, smoothQuadMatrix, build2, real_inner_self_eq_norm_sq, l1, Finset.mul_sum, vec_apply, sub_eq_add_neg]
  norm_num

/-- **C132** `lasso` with any `alpha ≤ 1` (0.9 by default) and any `L0`: after `k` iterations the point is in the l1 ball, and its value of `½|A x - b|²` exceeds
the value at any other point of the ball by at most `4 tau² M (1 - alpha + 2 alpha/(k+1))`, where `M = max(L0, 2 |A|²/beta)`. -/
theorem c132_lasso_any_alpha (A : Vec n →ₗ[ℝ] Vec m) (At : Vec m → Vec n) (hadj : ∀ x y, ⟪A x, y⟫ = ⟪x, At y⟫) (b : Vec m) (tau : ℝ) (ht : 0 < tau) (x0 : Vec n)
    (o : FomOptions) (ha0 : 0 < o.alpha) (ha : o.alpha ≤ 1) (hb0 : 0 < o.beta) (hb : o.beta ≤ 1) (hL : 0 < o.L0) (hx : ∀ l, o.Lexact = some l → 0 < l)
    (a : ℝ) (ha' : 0 ≤ a) (hA : ∀ d, ‖A d‖ ^ 2 ≤ a * ‖d‖ ^ 2) (s : FomState (Vec n) (Vec m)) (hr : FomReach (lasso A At b tau x0 o) s) :
    l1 s.x ≤ tau ∧ ∀ u, l1 u ≤ tau →
      1 / 2 * ‖A s.x - b‖ ^ 2 - 1 / 2 * ‖A u - b‖ ^ 2 ≤ 4 * tau ^ 2 * max o.L0 (2 * a / o.beta) * (1 - o.alpha + 2 * o.alpha / (s.iters + 1)) := by
  have hs := lasso_setting A At hadj b tau ht x0 o ha0 hb0 hL hx
  have hmem : ∀ u : Vec n, u ∈ ball1 (0 : Vec n) tau ↔ l1 u ≤ tau := fun u => by simp [ball1]
  refine ⟨(hmem _).1 (c40_fom_invariants hs s hr).1.x, fun u hu => ?_⟩
  obtain ⟨t, _, _, h2, h3⟩ := c132_any_alpha hs ha hb (by positivity) (fun u v => quad_curv A _ a hA u v) (2 * tau) (ball1_diam tau) s hr
  have h4 := h3 u ((hmem u).2 hu)
  rw [lasso_obj, lasso_obj] at h4
  have e : (lasso A At b tau x0 o).opts = o := rfl
  rw [e] at h2 h4
  have h5 : 0 ≤ max o.L0 (2 * a / o.beta) * (2 * tau) ^ 2 := mul_nonneg (hL.le.trans (le_max_left _ _)) (sq_nonneg _)
  have h6 := h4.trans (mul_le_mul_of_nonneg_right h2 h5)
  linarith

/-- **C132** `lasso` with `alpha = 1` and any `L0`: the error after `k` iterations is at most `8 tau² M (1 + 2 |A|²/(L0 (1 - beta)))/(k+1)²`. -/
theorem c132_lasso (A : Vec n →ₗ[ℝ] Vec m) (At : Vec m → Vec n) (hadj : ∀ x y, ⟪A x, y⟫ = ⟪x, At y⟫) (b : Vec m) (tau : ℝ) (ht : 0 < tau) (x0 : Vec n)
    (o : FomOptions) (ha : o.alpha = 1) (hb0 : 0 < o.beta) (hb : o.beta < 1) (hL : 0 < o.L0) (hx : o.Lexact = none)
    (a : ℝ) (ha' : 0 ≤ a) (hA : ∀ d, ‖A d‖ ^ 2 ≤ a * ‖d‖ ^ 2) (s : FomState (Vec n) (Vec m)) (hr : FomReach (lasso A At b tau x0 o) s) :
    l1 s.x ≤ tau ∧ ∀ u, l1 u ≤ tau →
      1 / 2 * ‖A s.x - b‖ ^ 2 - 1 / 2 * ‖A u - b‖ ^ 2 ≤
        8 * tau ^ 2 * max o.L0 (2 * a / o.beta) * (1 + 2 * a / (o.L0 * (1 - o.beta))) / (s.iters + 1) ^ 2 := by
  have hs := lasso_setting A At hadj b tau ht x0 o (by rw [ha]; exact one_pos) hb0 hL (fun l hl => by rw [hx] at hl; cases hl)
  have hmem : ∀ u : Vec n, u ∈ ball1 (0 : Vec n) tau ↔ l1 u ≤ tau := fun u => by simp [ball1]
  refine ⟨(hmem _).1 (c40_fom_invariants hs s hr).1.x, fun u hu => ?_⟩
  have hcont : Continuous fun x : Vec n => 1 / 2 * ‖A x - b‖ ^ 2 := by
    have := A.continuous_of_finiteDimensional
    fun_prop
  have hcomp : IsCompact {x : Vec n | l1 x ≤ tau} := by
    refine Metric.isCompact_of_isClosed_isBounded (isClosed_le l1_cont continuous_const) ?_
    refine (Metric.isBounded_closedBall (x := (0 : Vec n)) (r := tau)).subset fun x hx => ?_
    rw [mem_closedBall_zero_iff]
    exact (norm_le_l1 x).trans hx
  obtain ⟨w, hw, hwm⟩ := hcomp.exists_isMinOn ⟨u, hu⟩ hcont.continuousOn
  obtain ⟨h1, h2⟩ := reach_seq hr
  have h3 := rate_of_jumps hs ha hb (K := 2 * a) (by positivity) (fun u v => quad_curv A _ a hA u v) hx (2 * tau)
    (fun k _ => ball1_diam tau _ (fomSeq_mem hs (k + 1)).2.2 _ (fomSeq_mem hs k).2.2) w ((hmem w).2 hw)
    (fun v hv => by rw [lasso_obj, lasso_obj]; exact hwm ((hmem v).1 hv)) s.iters h1
  rw [← h2, lasso_obj, lasso_obj] at h3
  have h4 : 1 / 2 * ‖A w - b‖ ^ 2 ≤ 1 / 2 * ‖A u - b‖ ^ 2 := hwm hu
  have h5 : ‖(fomStart (lasso A At b tau x0 o)).1 - w‖ ^ 2 ≤ (2 * tau) ^ 2 :=
    pow_le_pow_left₀ (norm_nonneg _) (ball1_diam tau _ (start_mem hs).1 _ ((hmem w).2 hw)) 2
  have e : (lasso A At b tau x0 o).opts = o := rfl
  rw [e] at h3
  have hM : 0 < max o.L0 (2 * a / o.beta) := hL.trans_le (le_max_left _ _)
  refine le_trans (by linarith) (h3.trans (div_le_div_of_nonneg_right ?_ (by positivity)))
  have h6 : 2 * a * (2 * tau) ^ 2 / (o.L0 * (1 - o.beta)) = (2 * tau) ^ 2 * (2 * a / (o.L0 * (1 - o.beta))) := by ring
  rw [h6]
  calc _ ≤ 2 * max o.L0 (2 * a / o.beta) * ((2 * tau) ^ 2 + (2 * tau) ^ 2 * (2 * a / (o.L0 * (1 - o.beta)))) :=
        mul_le_mul_of_nonneg_left (by linarith) (by linarith)
    _ = _ := by ring

/-- **C132** `l1rls` with `alpha = 1` and any `L0`: the values of `½|A x - b|² + lambda |x|₁` converge to the minimum at rate `1/k²`, with a constant that does not depend
on `max_iters` and `tol`. -/
theorem c132_l1rls (A : Vec n →ₗ[ℝ] Vec m) (At : Vec m → Vec n) (hadj : ∀ x y, ⟪A x, y⟫ = ⟪x, At y⟫) (b : Vec m) (lam : ℝ) (hl : 0 < lam) (x0 : Vec n)
    (o : FomOptions) (ha : o.alpha = 1) (hb0 : 0 < o.beta) (hb : o.beta < 1) (hL : 0 < o.L0) (hx : o.Lexact = none) :
    ∃ c, ∀ (N : ℕ) (tol : ℝ) (s : FomState (Vec n) (Vec m)), FomReach (l1rls A At b lam x0 { o with maxIters := N, tol := tol }) s → ∀ u,
      (1 / 2 * ‖A s.x - b‖ ^ 2 + lam * l1 s.x) - (1 / 2 * ‖A u - b‖ ^ 2 + lam * l1 u) ≤ c / (s.iters + 1) ^ 2 := by
  have hs := l1rls_setting A At hadj b lam hl x0 o (by rw [ha]; exact one_pos) hb0 hL (fun l hl => by rw [hx] at hl; cases hl)
  have hcont : Continuous fun x : Vec n => 1 / 2 * ‖A x - b‖ ^ 2 + lam * l1 x := by
    have h1 := A.continuous_of_finiteDimensional
    have h2 := l1_cont (n := n)
    fun_prop
  have hinf : Tendsto (fun x : Vec n => 1 / 2 * ‖A x - b‖ ^ 2 + lam * l1 x) (cocompact (Vec n)) atTop := by
    refine tendsto_atTop_mono (fun x => ?_) (Tendsto.const_mul_atTop hl (tendsto_norm_cocompact_atTop (E := Vec n)))
    have h1 := mul_le_mul_of_nonneg_left (norm_le_l1 x) hl.le
    have h2 : 0 ≤ 1 / 2 * ‖A x - b‖ ^ 2 := by positivity
    linarith
  obtain ⟨w, hw⟩ := hcont.exists_forall_le hinf
  have hA : ∀ d, ‖A d‖ ^ 2 ≤ ‖LinearMap.toContinuousLinearMap A‖ ^ 2 * ‖d‖ ^ 2 := fun d => by
    rw [← mul_pow]
    exact pow_le_pow_left₀ (norm_nonneg _) ((LinearMap.toContinuousLinearMap A).le_opNorm d) 2
  obtain ⟨c, hc⟩ := c132_rate hs ha hb (K := 2 * ‖LinearMap.toContinuousLinearMap A‖ ^ 2) (by positivity) (fun u v => quad_curv A _ _ hA u v) hx w trivial
    (fun v _ => by rw [l1rls_obj, l1rls_obj]; exact hw v)
  refine ⟨c, fun N tol s hr u => ?_⟩
  have h1 := hc N tol s hr
  rw [l1rls_obj, l1rls_obj] at h1
  have h2 := hw u
  linarith

/-- The hypotheses are met with the default options and with `alpha = 1`, by an operator whose curvature 18 is far above `L0 = 1`. -/
example : (∀ d : Vec 3, ‖((3 : ℝ) • LinearMap.id : Vec 3 →ₗ[ℝ] Vec 3) d‖ ^ 2 ≤ 9 * ‖d‖ ^ 2) ∧
    (∀ x y : Vec 3, ⟪((3 : ℝ) • LinearMap.id : Vec 3 →ₗ[ℝ] Vec 3) x, y⟫ = ⟪x, (3 : ℝ) • y⟫) ∧
    (∃ o : FomOptions, o.alpha = 0.9 ∧ o.beta = 0.5 ∧ o.L0 = 1 ∧ o.Lexact = none) ∧ ∃ o : FomOptions, o.alpha = 1 ∧ 0 < o.beta ∧ o.beta < 1 ∧ 0 < o.L0 ∧ o.Lexact = none := by
  refine ⟨fun d => ?_, fun x y => ?_, ⟨{}, rfl, rfl, rfl, rfl⟩, ⟨{ alpha := 1 }, rfl, by norm_num, by norm_num, by norm_num, rfl⟩⟩
  · simp only [LinearMap.smul_apply, LinearMap.id_apply, norm_smul]
    norm_num; nlinarith
  · rw [LinearMap.smul_apply, LinearMap.id_apply, inner_smul_left, inner_smul_right]
    rfl

end solvers

/-! Instances: `lasso` and `l1rls` with `A = 3 I` and the default `beta`. -/

/-- `3 I` on `ℝ³`. -/
abbrev exM3 : Vec 3 →ₗ[ℝ] Vec 3 := (3 : ℝ) • LinearMap.id

theorem ex_adj3 (x y : Vec 3) : ⟪exM3 x, y⟫ = ⟪x, (3 : ℝ) • y⟫ := by
  rw [LinearMap.smul_apply, LinearMap.id_apply, inner_smul_left, inner_smul_right]; rfl

theorem ex_bound3 (d : Vec 3) : ‖exM3 d‖ ^ 2 ≤ 9 * ‖d‖ ^ 2 := by
  simp only [LinearMap.smul_apply, LinearMap.id_apply, norm_smul]
  norm_num; nlinarith

theorem ex_curv3 (b x0 : Vec 3) (o : FomOptions) : Curv (lasso exM3 (fun y => (3 : ℝ) • y) b 1 x0 o) exM3 18 :=
  fun u v => by have := quad_curv _ (lasso exM3 (fun y => (3 : ℝ) • y) b 1 x0 o).b 9 ex_bound3 u v; norm_num at this; exact this

example (b x0 : Vec 3) := c132_any_alpha (lasso_setting _ _ ex_adj3 b 1 one_pos x0 {} (by norm_num) (by norm_num) (by norm_num) (fun _ h => by cases h))
  (by norm_num [lasso]) (by norm_num [lasso]) (by norm_num) (ex_curv3 b x0 {}) 2 (fun a ha b hb => by simpa using ball1_diam 1 a ha b hb) _ .init

/-- `lasso` with `b = 0`: the origin is a minimiser. -/
example (x0 : Vec 3) := c132_rate (u := 0)
  (lasso_setting _ _ ex_adj3 0 1 one_pos x0 { alpha := 1 } (by norm_num) (by norm_num) (by norm_num) (fun _ h => by cases h))
  rfl (by norm_num [lasso]) (by norm_num) (ex_curv3 0 x0 { alpha := 1 }) rfl (by simp [ball1, l1]) (fun v _ => by
    rw [lasso_obj, lasso_obj]; simp)

example (b x0 : Vec 3) := c132_lasso_any_alpha exM3 (fun y => (3 : ℝ) • y) ex_adj3 b 1 one_pos x0 {} (by norm_num) (by norm_num)
  (by norm_num) (by norm_num) (by norm_num) (fun _ h => by cases h) 9 (by norm_num) ex_bound3 _ .init

example (b x0 : Vec 3) := c132_lasso exM3 (fun y => (3 : ℝ) • y) ex_adj3 b 1 one_pos x0 { alpha := 1 } rfl
  (by norm_num) (by norm_num) (by norm_num) rfl 9 (by norm_num) ex_bound3 _ .init

example (b x0 : Vec 3) := c132_l1rls exM3 (fun y => (3 : ℝ) • y) ex_adj3 b 1 one_pos x0 { alpha := 1 } rfl
  (by norm_num) (by norm_num) (by norm_num) rfl

end Verif.Opt
