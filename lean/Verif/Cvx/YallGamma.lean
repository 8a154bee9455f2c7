import Verif.Cvx.YallNonneg
import Mathlib.Analysis.SpecialFunctions.Pow.Real

set_option autoImplicit false
/-!
# C86: convergence of YALL1 for every step parameter `gamma` below the golden ratio
-/
noncomputable section
namespace Verif.Cvx
open Verif.Loop Verif.Opt
open scoped RealInnerProductSpace Topology

variable {m n : ℕ}

open Filter Topology in
theorem fejer_eps {E : Type*} [NormedAddCommGroup E] [ProperSpace E] (T : E → E) (hT : Continuous T) (q : E → ℝ) (hq : Continuous q) (hq0 : q 0 = 0)
    (c eps : ℝ) (hc : 0 < c) (he : 0 < eps) (hqc : ∀ u, c * ‖u‖ ^ 2 ≤ q u) (u : ℕ → E) (hu : ∀ k, u (k + 1) = T (u k))
    (hF : ∀ p, T p = p → ∀ k, q (u (k + 1) - p) ≤ q (u k - p) - eps * q (u (k + 1) - u k)) (p0 : E) (hp0 : T p0 = p0) :
    ∃ p, T p = p ∧ Tendsto u atTop (𝓝 p) := by
  have qnn : ∀ v, 0 ≤ q v := fun v => (by positivity : (0 : ℝ) ≤ c * ‖v‖ ^ 2).trans (hqc v)
  have anti : ∀ p, T p = p → Antitone fun k => q (u k - p) := fun p hp => antitone_nat_of_succ_le fun k => by
    have := hF p hp k
    have := mul_nonneg he.le (qnn (u (k + 1) - u k))
    linarith
  have conv : ∀ p, T p = p → ∃ L, Tendsto (fun k => q (u k - p)) atTop (𝓝 L) := fun p hp =>
    ⟨_, tendsto_atTop_ciInf (anti p hp) ⟨0, by rintro _ ⟨k, rfl⟩; exact qnn _⟩⟩
  -- a sequence whose `q` tends to zero tends to zero
  have small : ∀ v : ℕ → E, Tendsto (fun k => q (v k)) atTop (𝓝 0) → Tendsto v atTop (𝓝 0) := by
    intro v hv
    rw [tendsto_zero_iff_norm_tendsto_zero]
    have h1 : Tendsto (fun k => ‖v k‖ ^ 2) atTop (𝓝 0) := by
      refine squeeze_zero (fun _ => by positivity) (fun k => ?_) (by simpa using hv.const_mul c⁻¹)
      have := hqc (v k)
      rw [← div_eq_inv_mul, le_div_iff₀ hc]
      linarith
    have h2 := h1.sqrt
    simpa [Real.sqrt_sq_eq_abs] using h2
  -- successive differences vanish
  obtain ⟨L, hL⟩ := conv p0 hp0
  have hdiff : Tendsto (fun k => u (k + 1) - u k) atTop (𝓝 0) := by
    apply small
    have h1 : Tendsto (fun k => q (u k - p0) - q (u (k + 1) - p0)) atTop (𝓝 0) := by
      have := hL.sub (hL.comp (tendsto_add_atTop_nat 1))
      simpa using this
    refine squeeze_zero (fun _ => qnn _) (fun k => ?_) (by simpa using h1.const_mul eps⁻¹)
    have := hF p0 hp0 k
    rw [← div_eq_inv_mul, le_div_iff₀ he]
    linarith
  -- a cluster point
  have hbd : ∀ k, u k ∈ Metric.closedBall p0 (Real.sqrt (q (u 0 - p0) / c)) := by
    intro k
    rw [mem_closedBall_iff_norm]
    refine Real.le_sqrt_of_sq_le ?_
    rw [le_div_iff₀ hc]
    have h1 := hqc (u k - p0)
    have h2 := anti p0 hp0 (Nat.zero_le k)
    simp only at h2
    linarith
  obtain ⟨p, -, φ, hφ, hlim⟩ := tendsto_subseq_of_bounded Metric.isBounded_closedBall hbd
  have hp : T p = p := by
    have h1 : Tendsto (fun k => T (u (φ k))) atTop (𝓝 (T p)) := (hT.tendsto p).comp hlim
    have h2 : Tendsto (fun k => (u (φ k + 1) - u (φ k)) + u (φ k)) atTop (𝓝 (0 + p)) := (hdiff.comp hφ.tendsto_atTop).add hlim
    rw [zero_add] at h2
    refine tendsto_nhds_unique h1 (h2.congr fun k => ?_)
    rw [sub_add_cancel, hu]
  refine ⟨p, hp, ?_⟩
  obtain ⟨L', hL'⟩ := conv p hp
  have h3 : Tendsto (fun k => q (u (φ k) - p)) atTop (𝓝 0) := by
    have h4 : Tendsto (fun k => u (φ k) - p) atTop (𝓝 0) := by
      have := hlim.sub (tendsto_const_nhds (x := p))
      simpa using this
    have := (hq.tendsto 0).comp h4
    rwa [hq0] at this
  have h5 : L' = 0 := tendsto_nhds_unique (hL'.comp hφ.tendsto_atTop) h3
  rw [h5] at hL'
  have h6 := small _ hL'
  have h7 := h6.add (tendsto_const_nhds (x := p))
  simpa using h7


/-- The constants of the energy for a step parameter below the golden ratio. -/
theorem gamma_energy {E : Type*} [NormedAddCommGroup E] [InnerProductSpace ℝ E] {g : ℝ} (h0 : 0 < g) (h1 : g ^ 2 < g + 1) :
    ∃ c eps : ℝ, 0 < c ∧ 0 < eps ∧ ∀ (r r' d : E), c * ‖r'‖ ^ 2 + eps * (‖r'‖ ^ 2 + ‖r‖ ^ 2 + ‖d‖ ^ 2) ≤
      (2 - g) * ‖r'‖ ^ 2 + ‖d‖ ^ 2 - 2 * (1 - g) * ⟪r, d⟫ + c * ‖r‖ ^ 2 := by
  rcases le_or_gt g 1 with hg | hg
  · refine ⟨(1 - g) + 1 / 2, min (1 / 2) g, by linarith, lt_min (by norm_num) h0, fun r r' d => ?_⟩
    have e1 : min (1 / 2) g ≤ 1 / 2 := min_le_left _ _
    have e2 : min (1 / 2) g ≤ g := min_le_right _ _
    have h2 : 2 * ⟪r, d⟫ ≤ ‖r‖ ^ 2 + ‖d‖ ^ 2 := by
      have := real_inner_le_norm r d
      nlinarith [sq_nonneg (‖r‖ - ‖d‖)]
    nlinarith [mul_le_mul_of_nonneg_right e1 (sq_nonneg ‖r‖), mul_le_mul_of_nonneg_right e1 (sq_nonneg ‖r'‖), mul_le_mul_of_nonneg_right e2 (sq_nonneg ‖d‖),
      mul_le_mul_of_nonneg_left h2 (sub_nonneg.mpr hg)]
  · obtain ⟨k, hk⟩ : ∃ k, k = (1 + g - g ^ 2) / g := ⟨_, rfl⟩
    have hk0 : 0 < k := by rw [hk]; exact div_pos (by linarith) h0
    have hkg : k * g = 1 + g - g ^ 2 := by rw [hk, div_mul_cancel₀ _ h0.ne']
    obtain ⟨t, ht⟩ : ∃ t, t = (g - 1) / g := ⟨_, rfl⟩
    have htg : t * g = g - 1 := by rw [ht, div_mul_cancel₀ _ h0.ne']
    have ht0 : 0 < t := by rw [ht]; exact div_pos (by linarith) h0
    have hkt : k = 2 - g - t := by
      have : k * g = (2 - g - t) * g := by rw [hkg, sub_mul, htg]; ring
      exact mul_right_cancel₀ h0.ne' this
    refine ⟨t + k / 2, k / 2, by linarith, by linarith, fun r r' d => ?_⟩
    have h2 : -(2 * ⟪r, d⟫) * (g - 1) ≤ t * ‖r‖ ^ 2 + (g - 1) * g * ‖d‖ ^ 2 := by
      have h3 : -⟪r, d⟫ ≤ ‖r‖ * ‖d‖ := by
        have := real_inner_le_norm (-r) d
        rwa [inner_neg_left, norm_neg] at this
      have h4 : 0 ≤ t * (‖r‖ - g * ‖d‖) ^ 2 := by positivity
      have h5 : t * (‖r‖ - g * ‖d‖) ^ 2 = t * ‖r‖ ^ 2 - 2 * (t * g) * (‖r‖ * ‖d‖) + (t * g) * g * ‖d‖ ^ 2 := by ring
      rw [h5, htg] at h4
      nlinarith [mul_le_mul_of_nonneg_left h3 (by linarith : 0 ≤ g - 1)]
    have h6 : 1 - (g - 1) * g = k * g := by rw [hkg]; ring
    have h7 : k / 2 * ‖d‖ ^ 2 ≤ (1 - (g - 1) * g) * ‖d‖ ^ 2 := by
      rw [h6]; exact mul_le_mul_of_nonneg_right (by nlinarith) (sq_nonneg _)
    rw [show 2 - g = k + t by rw [hkt]; ring]
    nlinarith

/-- One iteration with any step parameter: `r` is the previous dual residual. -/
theorem gamma_progress (A : Vec n →ₗ[ℝ] Vec m) (At : Vec m →ₗ[ℝ] Vec n) (p : YallArgs m n) (x z r : Vec n) (hf : p.form.Pos) (hw : ∀ i, 0 < p.w i)
    (hb : p.b ≠ 0) (hg : 0 < p.gamma) (hadj : IsAdj A At) (hA : ∀ y, A (At y) = y)
    (hn : IsNormal p.nonneg p.w (x + ((p.gamma - 1) * yallMu p.b) • r) z) {xs zs : Vec n} {ys : Vec m} (hk : Kkt p.form p.nonneg p.w A At p.b xs zs ys) :
    ‖iterX A At p x z - xs‖ ^ 2 / (p.gamma * yallMu p.b ^ 2) + ‖iterZ A At p x z - zs‖ ^ 2 ≤
      ‖x - xs‖ ^ 2 / (p.gamma * yallMu p.b ^ 2) + ‖z - zs‖ ^ 2 -
      ((2 - p.gamma) * ‖iterZ A At p x z - At (iterY A p x z)‖ ^ 2 + ‖iterZ A At p x z - z‖ ^ 2 - 2 * (1 - p.gamma) * ⟪r, iterZ A At p x z - z⟫) := by
  have hm := yallMu_pos hb
  have n1 := iter_normal A At p x z hw hb
  have s1 := (iter_sub A At p x z hf hb hA).monotone hk.sub
  have m1 := n1.monotone hk.normal
  have m2 := n1.monotone hn
  obtain ⟨mu, hmu⟩ : ∃ t, t = yallMu p.b := ⟨_, rfl⟩
  obtain ⟨g, hgg⟩ : ∃ t, t = p.gamma := ⟨_, rfl⟩
  obtain ⟨y', hy'⟩ : ∃ t, t = iterY A p x z := ⟨_, rfl⟩
  obtain ⟨z', hz'⟩ : ∃ t, t = iterZ A At p x z := ⟨_, rfl⟩
  rw [iterX]
  rw [← hmu, ← hy'] at s1
  rw [← hmu, ← hy', ← hz'] at m1 m2
  rw [← hgg] at m2
  rw [← hmu] at hm
  rw [← hgg] at hg
  rw [← hmu, ← hgg, ← hy', ← hz']
  obtain ⟨q, hq⟩ : ∃ t, t = z' - At y' := ⟨_, rfl⟩
  have hAt : At y' = z' - q := by rw [hq]; abel
  have e2 : p.b - A (x + mu • (At y' - z)) - (p.b - A xs) = A (xs - (x - mu • q + mu • (z' - z))) := by
    rw [sub_sub_sub_cancel_left, ← map_sub, hAt]
    congr 1
    module
  rw [e2, hadj, map_sub, ← hk.dual, hAt] at s1
  rw [hAt] at m1 m2
  obtain ⟨a, ha⟩ : ∃ t, t = x - xs := ⟨_, rfl⟩
  obtain ⟨d, hd⟩ : ∃ t, t = z' - z := ⟨_, rfl⟩
  obtain ⟨c, hc⟩ : ∃ t, t = z' - zs := ⟨_, rfl⟩
  have f1 : xs - (x - mu • q + mu • (z' - z)) = -a + mu • q - mu • d := by rw [ha, hd]; module
  have f2 : z' - q - zs = c - q := by rw [hc]; abel
  have f3 : x + mu • (z' - q - z') - xs = a - mu • q := by rw [ha]; module
  have f4 : x + mu • (z' - q - z') - (x + ((g - 1) * mu) • r) = -(mu • (q + (g - 1) • r)) := by module
  have f5 : x - (g * mu) • (z' - At y') - xs = a - (g * mu) • q := by rw [ha, hq]; abel
  have f6 : z - zs = c - d := by rw [hc, hd]; abel
  rw [f1, f2] at s1
  rw [f3, ← hc] at m1
  rw [f4, ← hd, inner_neg_left, real_inner_smul_left, inner_add_left, real_inner_smul_left] at m2
  rw [f5, f6, ← hq, ← hd, ← hc, ← ha, norm_sub_sq_real a, norm_sub_sq_real c, norm_smul, inner_smul_right, Real.norm_eq_abs, abs_of_pos (mul_pos hg hm)]
  rw [inner_sub_left, inner_add_left, inner_neg_left, inner_sub_right, inner_sub_right, inner_sub_right, real_inner_smul_left, real_inner_smul_left,
    real_inner_smul_left, real_inner_smul_left, real_inner_self_eq_norm_sq] at s1
  rw [inner_sub_left, real_inner_smul_left] at m1
  rw [real_inner_comm d c]
  have m3 : ⟪q, d⟫ + (g - 1) * ⟪r, d⟫ ≤ 0 := by
    by_contra h
    have := mul_pos hm (not_le.mp h)
    linarith
  rw [real_inner_comm q d] at s1
  have k1 : (‖a‖ ^ 2 - 2 * (g * mu * ⟪a, q⟫) + (g * mu * ‖q‖) ^ 2) / (g * mu ^ 2) = ‖a‖ ^ 2 / (g * mu ^ 2) - 2 * (⟪a, q⟫ / mu) + g * ‖q‖ ^ 2 := by
    field_simp
  rw [k1]
  have k2 : mu * ‖q‖ ^ 2 + mu * ⟪d, c⟫ - mu * ⟪q, d⟫ ≤ ⟪a, q⟫ := by linarith
  have k3 : ‖q‖ ^ 2 + ⟪d, c⟫ - ⟪q, d⟫ ≤ ⟪a, q⟫ / mu := by
    rw [le_div_iff₀ hm]; linarith
  linarith

/-- One iteration on `(x, z)` and the dual residual. -/
def iterXZR (A : Vec n →ₗ[ℝ] Vec m) (At : Vec m →ₗ[ℝ] Vec n) (p : YallArgs m n) (u : (Vec n × Vec n) × Vec n) : (Vec n × Vec n) × Vec n :=
  (iterXZ A At p u.1, iterZ A At p u.1.1 u.1.2 - At (iterY A p u.1.1 u.1.2))

/-- The energy. -/
def distXZR (mu g c : ℝ) (u : (Vec n × Vec n) × Vec n) : ℝ := ‖u.1.1‖ ^ 2 / (g * mu ^ 2) + ‖u.1.2‖ ^ 2 + c * ‖u.2‖ ^ 2

theorem le_distXZR {mu g c : ℝ} (hm : 0 < mu) (hg : 0 < g) (hc : 0 < c) (v : (Vec n × Vec n) × Vec n) :
    min (min (1 / (g * mu ^ 2)) 1) c * ‖v‖ ^ 2 ≤ distXZR mu g c v := by
  obtain ⟨⟨x, z⟩, r⟩ := v
  show _ ≤ ‖x‖ ^ 2 / (g * mu ^ 2) + ‖z‖ ^ 2 + c * ‖r‖ ^ 2
  obtain ⟨k, hk⟩ : ∃ k, k = min (min (1 / (g * mu ^ 2)) 1) c := ⟨_, rfl⟩
  rw [← hk]
  have k0 : 0 < k := by rw [hk]; exact lt_min (lt_min (by positivity) one_pos) hc
  have k1 : k ≤ 1 / (g * mu ^ 2) := by rw [hk]; exact (min_le_left _ _).trans (min_le_left _ _)
  have k2 : k ≤ 1 := by rw [hk]; exact (min_le_left _ _).trans (min_le_right _ _)
  have k3 : k ≤ c := by rw [hk]; exact min_le_right _ _
  have h1 : k * ‖x‖ ^ 2 ≤ ‖x‖ ^ 2 / (g * mu ^ 2) := by
    rw [div_eq_mul_one_div, mul_comm]; exact mul_le_mul_of_nonneg_left k1 (sq_nonneg _)
  have h2 : k * ‖z‖ ^ 2 ≤ ‖z‖ ^ 2 := by nlinarith [sq_nonneg ‖z‖]
  have h3 : k * ‖r‖ ^ 2 ≤ c * ‖r‖ ^ 2 := mul_le_mul_of_nonneg_right k3 (sq_nonneg _)
  have e1 := mul_nonneg k0.le (sq_nonneg ‖x‖)
  have e2 := mul_nonneg k0.le (sq_nonneg ‖z‖)
  have e3 := mul_nonneg k0.le (sq_nonneg ‖r‖)
  have h : ‖((x, z), r)‖ = ‖x‖ ∨ ‖((x, z), r)‖ = ‖z‖ ∨ ‖((x, z), r)‖ = ‖r‖ := by
    rw [Prod.norm_def, Prod.norm_def]
    rcases max_choice (max ‖x‖ ‖z‖) ‖r‖ with h | h
    · rcases max_choice ‖x‖ ‖z‖ with h' | h'
      · exact Or.inl (h.trans h')
      · exact Or.inr (Or.inl (h.trans h'))
    · exact Or.inr (Or.inr h)
  rcases h with h | h | h <;> rw [h] <;> linarith

theorem iterXZR_continuous (A : Vec n →ₗ[ℝ] Vec m) (At : Vec m →ₗ[ℝ] Vec n) (p : YallArgs m n) (hf : p.form.Pos) (hw : ∀ i, 0 < p.w i) (hb : p.b ≠ 0) :
    Continuous (iterXZR A At p) := by
  have cA : Continuous A := A.continuous_of_finiteDimensional
  have cAt : Continuous At := At.continuous_of_finiteDimensional
  have cX := iterXZ_continuous A At p hf hw hb
  have c1 : Continuous fun u : Vec n × Vec n => (yallMu p.b)⁻¹ • u.1 := by fun_prop
  have c2 : Continuous fun u : Vec n × Vec n => A (u.2 - (yallMu p.b)⁻¹ • u.1) := cA.comp (continuous_snd.sub c1)
  have c3 : Continuous fun u : Vec n × Vec n => A (u.2 - (yallMu p.b)⁻¹ • u.1) + (yallMu p.b)⁻¹ • p.b := c2.add continuous_const
  have cY : Continuous fun u : Vec n × Vec n => iterY A p u.1 u.2 := (shrink_continuous hf (yallMu_pos hb)).comp c3
  have c4 : Continuous fun u : Vec n × Vec n => At (iterY A p u.1 u.2) := cAt.comp cY
  have c5 : Continuous fun u : Vec n × Vec n => At (iterY A p u.1 u.2) + (yallMu p.b)⁻¹ • u.1 := c4.add c1
  have cZ : Continuous fun u : Vec n × Vec n => iterZ A At p u.1 u.2 := (proj_continuous (nonneg := p.nonneg) hw).comp c5
  have cR : Continuous fun u : Vec n × Vec n => iterZ A At p u.1 u.2 - At (iterY A p u.1 u.2) := cZ.sub c4
  exact (cX.comp continuous_fst).prodMk (cR.comp continuous_fst)

theorem iterate_xzr (A : Vec n →ₗ[ℝ] Vec m) (At : Vec m →ₗ[ℝ] Vec n) (p : YallArgs m n) (u : (Vec n × Vec n) × Vec n) (k : ℕ) :
    ((iterXZR A At p)^[k] u).1 = (iterXZ A At p)^[k] u.1 := by
  induction k with
  | zero => rfl
  | succ k ih => rw [Function.iterate_succ_apply', Function.iterate_succ_apply', ← ih]; rfl

theorem iterXZR_normal (A : Vec n →ₗ[ℝ] Vec m) (At : Vec m →ₗ[ℝ] Vec n) (p : YallArgs m n) (hw : ∀ i, 0 < p.w i) (hb : p.b ≠ 0)
    (u : (Vec n × Vec n) × Vec n) :
    IsNormal p.nonneg p.w ((iterXZR A At p u).1.1 + ((p.gamma - 1) * yallMu p.b) • (iterXZR A At p u).2) (iterXZR A At p u).1.2 := by
  have h := iter_normal A At p u.1.1 u.1.2 hw hb
  have e : ∀ (x a z : Vec n) (g mu : ℝ), x - (g * mu) • (z - a) + ((g - 1) * mu) • (z - a) = x + mu • (a - z) := fun x a z g mu => by module
  have e2 : (iterXZR A At p u).1.1 + ((p.gamma - 1) * yallMu p.b) • (iterXZR A At p u).2 =
      u.1.1 + yallMu p.b • (At (iterY A p u.1.1 u.1.2) - iterZ A At p u.1.1 u.1.2) := e _ _ _ _ _
  rw [e2]; exact h

theorem xzr_decrease (A : Vec n →ₗ[ℝ] Vec m) (At : Vec m →ₗ[ℝ] Vec n) (p : YallArgs m n) (hf : p.form.Pos)
    (hw : ∀ i, 0 < p.w i) (hb : p.b ≠ 0) (hg : 0 < p.gamma) (hadj : IsAdj A At) (hA : ∀ y, A (At y) = y) {c eps K : ℝ} (hc : 0 < c) (heps : 0 < eps)
    (hen : ∀ (r r' d : Vec n), c * ‖r'‖ ^ 2 + eps * (‖r'‖ ^ 2 + ‖r‖ ^ 2 + ‖d‖ ^ 2) ≤
      (2 - p.gamma) * ‖r'‖ ^ 2 + ‖d‖ ^ 2 - 2 * (1 - p.gamma) * ⟪r, d⟫ + c * ‖r‖ ^ 2) (hK : K = p.gamma + 2 * c + 1)
    (u pt : (Vec n × Vec n) × Vec n) (hn : IsNormal p.nonneg p.w (u.1.1 + ((p.gamma - 1) * yallMu p.b) • u.2) u.1.2)
    (kk : Kkt p.form p.nonneg p.w A At p.b pt.1.1 pt.1.2 (iterY A p pt.1.1 pt.1.2)) (k0 : pt.2 = 0) :
    distXZR (yallMu p.b) p.gamma c (iterXZR A At p u - pt) ≤ distXZR (yallMu p.b) p.gamma c (u - pt) -
      eps / K * distXZR (yallMu p.b) p.gamma c (iterXZR A At p u - u) := by
  have hm := yallMu_pos hb
  have hK0 : 0 < K := by rw [hK]; linarith
  obtain ⟨⟨x, z⟩, r⟩ := u
  obtain ⟨⟨px, pz⟩, pr⟩ := pt
  have k0 : pr = 0 := k0
  subst k0
  have h := gamma_progress A At p x z r hf hw hb hg hadj hA hn kk
  have h2 := hen r (iterZ A At p x z - At (iterY A p x z)) (iterZ A At p x z - z)
  have hx : ‖iterX A At p x z - x‖ ^ 2 / (p.gamma * yallMu p.b ^ 2) = p.gamma * ‖iterZ A At p x z - At (iterY A p x z)‖ ^ 2 := by
    rw [iterX, sub_sub_cancel_left, norm_neg, norm_smul, Real.norm_eq_abs, abs_of_pos (mul_pos hg hm)]
    field_simp
  show ‖iterX A At p x z - px‖ ^ 2 / (p.gamma * yallMu p.b ^ 2) + ‖iterZ A At p x z - pz‖ ^ 2 +
      c * ‖iterZ A At p x z - At (iterY A p x z) - 0‖ ^ 2 ≤ ‖x - px‖ ^ 2 / (p.gamma * yallMu p.b ^ 2) + ‖z - pz‖ ^ 2 + c * ‖r - 0‖ ^ 2 -
      eps / K * (‖iterX A At p x z - x‖ ^ 2 / (p.gamma * yallMu p.b ^ 2) + ‖iterZ A At p x z - z‖ ^ 2 +
        c * ‖iterZ A At p x z - At (iterY A p x z) - r‖ ^ 2)
  rw [hx, sub_zero, sub_zero]
  obtain ⟨r', hr'⟩ : ∃ r', r' = iterZ A At p x z - At (iterY A p x z) := ⟨_, rfl⟩
  obtain ⟨d, hd⟩ : ∃ d, d = iterZ A At p x z - z := ⟨_, rfl⟩
  rw [← hr', ← hd] at h h2 ⊢
  have h3 : ‖r' - r‖ ^ 2 ≤ 2 * ‖r'‖ ^ 2 + 2 * ‖r‖ ^ 2 := by
    have h4 := norm_sub_le r' r
    have h5 : ‖r' - r‖ ^ 2 ≤ (‖r'‖ + ‖r‖) ^ 2 := pow_le_pow_left₀ (norm_nonneg _) h4 2
    nlinarith [sq_nonneg (‖r'‖ - ‖r‖)]
  have h6 : p.gamma * ‖r'‖ ^ 2 + ‖d‖ ^ 2 + c * ‖r' - r‖ ^ 2 ≤ K * (‖r'‖ ^ 2 + ‖r‖ ^ 2 + ‖d‖ ^ 2) := by
    have h7 := mul_le_mul_of_nonneg_left h3 hc.le
    have a1 := mul_nonneg hg.le (sq_nonneg ‖r‖)
    have a2 := mul_nonneg hg.le (sq_nonneg ‖d‖)
    have a3 := mul_nonneg hc.le (sq_nonneg ‖d‖)
    have a4 := sq_nonneg ‖r‖
    have a5 := sq_nonneg ‖r'‖
    rw [hK]
    linarith
  have h8 : eps / K * (p.gamma * ‖r'‖ ^ 2 + ‖d‖ ^ 2 + c * ‖r' - r‖ ^ 2) ≤ eps * (‖r'‖ ^ 2 + ‖r‖ ^ 2 + ‖d‖ ^ 2) := by
    refine (mul_le_mul_of_nonneg_left h6 (div_pos heps hK0).le).trans (le_of_eq ?_)
    field_simp
  linarith

open Filter Topology in
/-- Convergence for the scaled problem and a step parameter below the golden ratio. -/
theorem converge_gamma_xz (A : Vec n →ₗ[ℝ] Vec m) (At : Vec m →ₗ[ℝ] Vec n) (hadj : IsAdj A At) (hA : ∀ y, A (At y) = y) (p : YallArgs m n) (hf : p.form.Pos)
    (hw : ∀ i, 0 < p.w i) (hb : p.b ≠ 0) (hg : 0 < p.gamma) (hg1 : p.gamma ^ 2 < p.gamma + 1) (hk : ∃ x z y, Kkt p.form p.nonneg p.w A At p.b x z y)
    (s : YallState m n) :
    ∃ x z, Kkt p.form p.nonneg p.w A At p.b x z (iterY A p x z) ∧ Tendsto (fun k => ((yallIter A At p)^[k] s).x) atTop (𝓝 x) ∧
      Tendsto (fun k => ((yallIter A At p)^[k] s).z) atTop (𝓝 z) := by
  have hm := yallMu_pos hb
  obtain ⟨xs, zs, ys, hk⟩ := hk
  obtain ⟨c, eps, hc, heps, hen⟩ := gamma_energy (E := Vec n) hg hg1
  have hfix := kkt_fixed A At p hf hw hb hA hk
  have kkt : ∀ pt, iterXZR A At p pt = pt → Kkt p.form p.nonneg p.w A At p.b pt.1.1 pt.1.2 (iterY A p pt.1.1 pt.1.2) ∧ pt.2 = 0 := fun pt hpt => by
    have h := fixed_kkt A At p pt.1.1 pt.1.2 hf hw hb hg.ne' hA (congrArg (fun q => q.1.1) hpt) (congrArg (fun q => q.1.2) hpt)
    refine ⟨h, ?_⟩
    have h2 : iterZ A At p pt.1.1 pt.1.2 - At (iterY A p pt.1.1 pt.1.2) = pt.2 := congrArg Prod.snd hpt
    have h3 : iterZ A At p pt.1.1 pt.1.2 = pt.1.2 := congrArg (fun q => q.1.2) hpt
    rw [← h2, h3, ← h.dual, sub_self]
  have hus : ∀ k, (iterXZR A At p)^[k + 1 + 1] ((s.x, s.z), 0) = iterXZR A At p ((iterXZR A At p)^[k + 1] ((s.x, s.z), 0)) := fun k => by
    rw [Function.iterate_succ_apply']
  have hnorm := iterXZR_normal A At p hw hb
  obtain ⟨K, hK⟩ : ∃ K, K = p.gamma + 2 * c + 1 := ⟨_, rfl⟩
  have hK0 : 0 < K := by rw [hK]; linarith
  obtain ⟨pt, hpt, hlim⟩ := fejer_eps (iterXZR A At p) (iterXZR_continuous A At p hf hw hb) (distXZR (yallMu p.b) p.gamma c)
    (by unfold distXZR; fun_prop) (by simp [distXZR]) (min (min (1 / (p.gamma * yallMu p.b ^ 2)) 1) c) (eps / K)
    (lt_min (lt_min (by positivity) one_pos) hc) (div_pos heps hK0) (le_distXZR hm hg hc)
    (fun k => (iterXZR A At p)^[k + 1] ((s.x, s.z), 0)) hus
    (fun pt hpt k => by
      obtain ⟨kk, k0⟩ := kkt pt hpt
      rw [hus k]
      have hn : IsNormal p.nonneg p.w (((iterXZR A At p)^[k + 1] ((s.x, s.z), 0)).1.1 +
          ((p.gamma - 1) * yallMu p.b) • ((iterXZR A At p)^[k + 1] ((s.x, s.z), 0)).2) ((iterXZR A At p)^[k + 1] ((s.x, s.z), 0)).1.2 := by
        rw [Function.iterate_succ_apply']; exact hnorm _
      obtain ⟨u, hu⟩ : ∃ u, u = (iterXZR A At p)^[k + 1] ((s.x, s.z), 0) := ⟨_, rfl⟩
      rw [← hu] at hn ⊢
      exact xzr_decrease A At p hf hw hb hg hadj hA hc heps hen hK u pt hn kk k0)
    ((xs, zs), 0) (by
      refine Prod.ext (Prod.ext hfix.1 hfix.2) ?_
      show iterZ A At p xs zs - At (iterY A p xs zs) = 0
      have h := fixed_kkt A At p xs zs hf hw hb hg.ne' hA hfix.1 hfix.2
      rw [hfix.2, ← h.dual, sub_self])
  refine ⟨pt.1.1, pt.1.2, (kkt pt hpt).1, ?_, ?_⟩
  · have h1 : Tendsto (fun k => ((iterXZR A At p)^[k + 1] ((s.x, s.z), 0)).1.1) atTop (𝓝 pt.1.1) :=
      ((continuous_fst.comp continuous_fst).tendsto pt).comp hlim
    rw [← tendsto_add_atTop_iff_nat 1]
    refine h1.congr fun k => ?_
    rw [iterate_xzr]
    exact (congrArg Prod.fst (iterate_xz A At p s (k + 1))).symm
  · have h1 : Tendsto (fun k => ((iterXZR A At p)^[k + 1] ((s.x, s.z), 0)).1.2) atTop (𝓝 pt.1.2) :=
      ((continuous_snd.comp continuous_fst).tendsto pt).comp hlim
    rw [← tendsto_add_atTop_iff_nat 1]
    refine h1.congr fun k => ?_
    rw [iterate_xzr]
    exact (congrArg Prod.snd (iterate_xz A At p s (k + 1))).symm

/-- The optimality conditions of the scaled problem can be met. -/
theorem exists_kkt_scaled (A : Vec n →ₗ[ℝ] Vec m) (At : Vec m →ₗ[ℝ] Vec n) (hadj : IsAdj A At) (hA : ∀ y, A (At y) = y) (b : Vec m) (hb : b ≠ 0)
    (weights : Option (Vec n)) (hw : ∀ i, 0 < yallWeights weights i) (nonneg : Bool) (rho delta : ℝ)
    (hbp : nonneg = true → rho ≤ 0 → delta ≤ 0 → ∃ x : Vec n, (∀ i, 0 ≤ x i) ∧ A x = b)
    (hcon : nonneg = true → rho ≤ 0 → 0 < delta → ∃ x : Vec n, (∀ i, 0 ≤ x i) ∧ ‖A x - b‖ < delta) :
    ∃ x z y, Kkt (yallSelect rho delta (linf b)) nonneg (yallWeights weights) A At ((linf b)⁻¹ • b) x z y := by
  have hB := linf_pos hb
  rcases lt_or_ge 0 rho with hr | hr
  · exact exists_kkt _ (yallSelect_pos rho delta hB) nonneg (fun _ => ⟨rho / linf b, if_pos hr⟩) _ hw A At hadj hA _
  cases nonneg with
  | false => exact exists_kkt _ (yallSelect_pos rho delta hB) false (fun h => absurd h (by simp)) _ hw A At hadj hA _
  | true =>
    obtain ⟨xs, ys, h1, h2, h3⟩ := exists_certificate_sign A At hadj b _ hw rho delta hr (hbp rfl hr) (hcon rfl hr)
    have hpos : (yallProblem rho delta).Pos := by
      unfold yallProblem
      split
      · assumption
      split
      · assumption
      · trivial
    have he' : yallObj (yallProblem rho delta) (yallWeights weights) A b xs = ⟪b, ys⟫ - dualPen (yallProblem rho delta) ys := by
      rw [h3]
      cases yallProblem rho delta with
      | bp => exact (sub_zero _).symm
      | l1l2 rho => rfl
      | con delta => rfl
    have hk := (kkt_of_certificate hpos hadj h1 (fun i => ⟨h2 i, fun h => absurd h (by simp)⟩) he').scaled hB
    rw [← yallSelect_eq] at hk
    exact ⟨_, _, _, hk⟩

/-! ## The theorem -/

open Filter Topology in
/-- **C86.** For every step parameter `gamma` strictly between 0 and the golden ratio: when the rows of `A` are orthonormal the iterates of `solve` converge to a
solution of the problem from every starting point, for the three forms, all positive weights, and with the sign constraint as long as the constraints can be
met by a nonnegative point (strictly, for a residual bound). -/
theorem c86_converges_gamma (A : Vec n →ₗ[ℝ] Vec m) (At : Vec m →ₗ[ℝ] Vec n) (hadj : IsAdj A At) (hA : ∀ y, A (At y) = y) (b : Vec m) (hb : b ≠ 0)
    (weights : Option (Vec n)) (hw : ∀ i, 0 < yallWeights weights i) (nonneg : Bool) (rho delta gamma tol : ℝ) (maxIters : ℕ) (x0 z0 : Vec n)
    (hg0 : 0 < gamma) (hg1 : gamma < (1 + √5) / 2)
    (hbp : nonneg = true → rho ≤ 0 → delta ≤ 0 → ∃ x : Vec n, (∀ i, 0 ≤ x i) ∧ A x = b)
    (hcon : nonneg = true → rho ≤ 0 → 0 < delta → ∃ x : Vec n, (∀ i, 0 ≤ x i) ∧ ‖A x - b‖ < delta) :
    ∃ x, YallSol (yallProblem rho delta) nonneg (yallWeights weights) A b x ∧
      Tendsto (fun k => linf b • ((yallIter A At (yallArgs b weights nonneg rho delta gamma tol maxIters))^[k]
        (yallInit A At (yallArgs b weights nonneg rho delta gamma tol maxIters) x0 z0)).x) atTop (𝓝 x) := by
  have hB := linf_pos hb
  have hb' : (linf b)⁻¹ • b ≠ 0 := smul_ne_zero (inv_ne_zero hB.ne') hb
  have h5 : (√5) ^ 2 = 5 := Real.sq_sqrt (by norm_num)
  have h51 : 1 < √5 := by rw [Real.lt_sqrt (by norm_num)]; norm_num
  have hgg : gamma ^ 2 < gamma + 1 := by
    nlinarith [mul_pos (sub_pos.mpr hg1) (by linarith : 0 < gamma - (1 - √5) / 2)]
  obtain ⟨x, z, hx, hlim, -⟩ := converge_gamma_xz A At hadj hA (yallArgs b weights nonneg rho delta gamma tol maxIters) (yallSelect_pos rho delta hB) hw hb' hg0 hgg
    (exists_kkt_scaled A At hadj hA b hb weights hw nonneg rho delta hbp hcon) (yallInit A At (yallArgs b weights nonneg rho delta gamma tol maxIters) x0 z0)
  exact ⟨linf b • x, yallSelect_scale rho delta hB (hx.sol (yallSelect_pos rho delta hB) (fun i => (hw i).le) hadj), hlim.const_smul _⟩

/-- The hypotheses are met by `gamma = 1.6`, a sign constraint and one equation with a nonnegative solution. -/
example : ∃ x, YallSol (yallProblem 0 0) true (yallWeights none) unit1 (v1 1) x ∧
    Filter.Tendsto (fun k => linf (v1 1) • ((yallIter unit1 unit1 (yallArgs (v1 1) none true 0 0 1.6 5e-3 10))^[k]
      (yallInit unit1 unit1 (yallArgs (v1 1) none true 0 0 1.6 5e-3 10) 0 0)).x) Filter.atTop (𝓝 x) := by
  refine c86_converges_gamma unit1 unit1 unit1_adj unit1_orth (v1 1) (v1_ne_zero one_ne_zero) none (fun i => by norm_num [yallWeights]) true 0 0 1.6 5e-3 10 0 0
    (by norm_num) ?_ (fun _ _ _ => ⟨v1 1, fun i => by norm_num [v1], unit1_apply _⟩) (fun _ _ h => absurd h (lt_irrefl _))
  have : (2.21 : ℝ) < √5 := by rw [Real.lt_sqrt (by norm_num)]; norm_num
  linarith

/-- One iteration of the basis pursuit `min |x|` subject to `x = 1` once `z = 1`. -/
theorem gamma_step (g tol : ℝ) (maxIters : ℕ) (s : YallState 1 1) {a : ℝ} (hx : s.x = v1 a) (hz : s.z = v1 1) :
    (yallIter unit1 unit1 (yallArgs (v1 1) none false 0 0 g tol maxIters) s).z = v1 1 ∧
    (yallIter unit1 unit1 (yallArgs (v1 1) none false 0 0 g tol maxIters) s).x = v1 (1 + (1 - g) * (a - 1)) := by
  have hbb : (yallArgs (v1 1) none false 0 0 g tol maxIters : YallArgs 1 1).b = v1 1 := by
    show (linf (v1 1))⁻¹ • v1 1 = v1 1
    rw [v1_linf, v1_smul]; norm_num
  have hform : (yallArgs (v1 1) none false 0 0 g tol maxIters : YallArgs 1 1).form = .bp := by simp [yallArgs, yallSelect]
  obtain ⟨p, hp⟩ : ∃ p, p = (yallArgs (v1 1) none false 0 0 g tol maxIters : YallArgs 1 1) := ⟨_, rfl⟩
  have hnn : p.nonneg = false := by rw [hp]; rfl
  have hw : p.w = v1 1 := by rw [hp]; rfl
  have hgg : p.gamma = g := by rw [hp]; rfl
  rw [← hp] at hbb hform ⊢
  have hy : iterY unit1 p s.x s.z = v1 (2 - a) := by
    rw [iterY, hform, hbb, v1_mu, hx, hz, v1_smul, v1_smul, v1_sub, unit1_apply, v1_add]
    show v1 _ = v1 _
    congr 1
    norm_num; ring
  have h1 : (yallIter unit1 unit1 p s).z = v1 1 := by
    rw [yallIter_z, iterZ, hy, unit1_apply, hbb, v1_mu, hx, v1_smul, v1_add, hnn, hw]
    show projectToBox (v1 _) (v1 1) = _
    rw [v1_box]
    have : 2 - a + |(1 : ℝ)|⁻¹ * a = 2 := by norm_num
    rw [this]; norm_num
  refine ⟨h1, ?_⟩
  rw [yallIter_x, iterX, ← yallIter_z, h1, hy, unit1_apply, hbb, v1_mu, hx, v1_sub, v1_smul, v1_sub, hgg]
  congr 1
  norm_num; ring

/-- **C86.** From `gamma = 2` on the method need not converge: for `min |x|` subject to `x = 1` and the starting point `x = 2`, `z = 1` every
iterate keeps a distance of at least 1 from the only feasible point. -/
theorem c86_gamma_two_fails (g tol : ℝ) (hg : 2 ≤ g) (maxIters k : ℕ) :
    1 ≤ ‖linf (v1 1) • ((yallIter unit1 unit1 (yallArgs (v1 1) none false 0 0 g tol maxIters))^[k]
        (yallInit unit1 unit1 (yallArgs (v1 1) none false 0 0 g tol maxIters) (v1 2) (v1 1))).x - v1 1‖ ∧
      ∀ x, yallFeas (yallProblem 0 0) false unit1 (v1 1) x → x = v1 1 := by
  refine ⟨?_, fun x hx => ?_⟩
  · have h : ∀ k, ((yallIter unit1 unit1 (yallArgs (v1 1) none false 0 0 g tol maxIters))^[k]
          (yallInit unit1 unit1 (yallArgs (v1 1) none false 0 0 g tol maxIters) (v1 2) (v1 1))).z = v1 1 ∧
        ((yallIter unit1 unit1 (yallArgs (v1 1) none false 0 0 g tol maxIters))^[k]
          (yallInit unit1 unit1 (yallArgs (v1 1) none false 0 0 g tol maxIters) (v1 2) (v1 1))).x = v1 (1 + (1 - g) ^ k) := by
      intro k
      induction k with
      | zero => exact ⟨rfl, by show v1 2 = _; norm_num⟩
      | succ k ih =>
        rw [Function.iterate_succ_apply']
        obtain ⟨a, c⟩ := gamma_step g tol maxIters _ ih.2 ih.1
        refine ⟨a, c.trans ?_⟩
        congr 1
        ring
    rw [(h k).2, v1_linf, v1_smul, v1_sub, v1_norm]
    have e : |(1 : ℝ)| * (1 + (1 - g) ^ k) - 1 = (1 - g) ^ k := by norm_num
    rw [e, abs_pow]
    exact one_le_pow₀ (by rw [abs_of_nonpos (by linarith)]; linarith)
  · have h1 : yallProblem 0 0 = .bp := by simp [yallProblem]
    rw [h1] at hx
    have h2 : unit1 x = v1 1 := hx.2
    rwa [unit1_apply] at h2

example := c86_gamma_two_fails 2 5e-3 le_rfl 9999

end Verif.Cvx
