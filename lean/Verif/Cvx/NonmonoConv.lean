import Mathlib.Topology.Order.MonotoneConvergence
import Mathlib.Topology.Algebra.Order.Field
import Mathlib.Topology.Instances.Real.Lemmas
import Mathlib.Topology.MetricSpace.Pseudo.Real
import Mathlib.Analysis.Normed.Field.Lemmas
import Mathlib.Analysis.Real.Sqrt
import Mathlib.Tactic.Linarith
import Mathlib.Tactic.Positivity

set_option autoImplicit false
/-!
# Convergence of a nonmonotone line search (helper)

`f k` are the values of the iterates, `d k` the lengths of the moves, `M k` the largest remembered value.
-/
namespace Verif.Cvx
open Filter Topology

/-- If from some round on every value is below the largest remembered value by `γ d²`, the remembered values are among the last `m + 1`, and values change continuously
with the move, then the moves tend to zero. -/
theorem nonmono_tendsto (f d M : ℕ → ℝ) (γ C B : ℝ) (m K : ℕ) (hγ : 0 < γ) (hd : ∀ k, 0 ≤ d k) (hf : ∀ k, B ≤ f k)
    (hM : ∀ k, K ≤ k → M (k + 1) ≤ M k) (hdec : ∀ k, K ≤ k → f (k + 1) ≤ M k - γ * d k ^ 2)
    (hatt : ∀ k, K ≤ k → ∃ j, j ≤ m ∧ M k = f (k - j)) (hcont : ∀ k, |f (k + 1) - f k| ≤ C * (d k + d k ^ 2)) :
    Tendsto d atTop (𝓝 0) := by
  have hMnn : ∀ k, K ≤ k → B ≤ M k := fun k hk => by obtain ⟨j, _, e⟩ := hatt k hk; rw [e]; exact hf _
  have hanti : Antitone fun k => M (k + K) := antitone_nat_of_succ_le fun k => by
    have := hM (k + K) (Nat.le_add_left _ _)
    rwa [show k + 1 + K = k + K + 1 from by omega]
  obtain ⟨Ms, hMs⟩ : ∃ Ms, Tendsto (fun k => M (k + K)) atTop (𝓝 Ms) :=
    ⟨_, tendsto_atTop_ciInf hanti ⟨B, by rintro _ ⟨k, rfl⟩; exact hMnn _ (Nat.le_add_left _ _)⟩⟩
  have hMt : Tendsto M atTop (𝓝 Ms) := (tendsto_add_atTop_iff_nat K).1 hMs
  choose j hj using fun k => (show ∃ j, j ≤ m ∧ (K ≤ k → M k = f (k - j)) from by
    by_cases h : K ≤ k
    · obtain ⟨j, h1, h2⟩ := hatt k h; exact ⟨j, h1, fun _ => h2⟩
    · exact ⟨0, Nat.zero_le _, fun h' => absurd h' h⟩)
  obtain ⟨l, hl⟩ : ∃ l : ℕ → ℕ, ∀ k, l k = k - j k := ⟨_, fun _ => rfl⟩
  have hlat : ∀ i, Tendsto (fun k => l k - i) atTop atTop := fun i => tendsto_atTop_atTop.2 fun B => ⟨B + m + i, fun k hk => by
    have := (hj k).1; rw [hl]; omega⟩
  -- a move after which the value is close to the limit is short, so the value before it is close to the limit
  have hprev : ∀ u : ℕ → ℕ, Tendsto u atTop atTop → Tendsto (fun k => f (u k + 1)) atTop (𝓝 Ms) →
      Tendsto (fun k => d (u k)) atTop (𝓝 0) ∧ Tendsto (fun k => f (u k)) atTop (𝓝 Ms) := by
    intro u hu hfu
    have h1 : Tendsto (fun k => (M (u k) - f (u k + 1)) / γ) atTop (𝓝 0) := by
      have := ((hMt.comp hu).sub hfu).div_const γ
      simpa using this
    have h2 : Tendsto (fun k => d (u k) ^ 2) atTop (𝓝 0) := by
      refine tendsto_of_tendsto_of_tendsto_of_le_of_le' tendsto_const_nhds h1 (Eventually.of_forall fun k => sq_nonneg _) ?_
      filter_upwards [hu.eventually_ge_atTop K] with k hk
      rw [le_div_iff₀ hγ]
      have := hdec (u k) hk
      linarith
    have h3 : Tendsto (fun k => d (u k)) atTop (𝓝 0) := by
      have := (Real.continuous_sqrt.tendsto 0).comp h2
      rw [Real.sqrt_zero] at this
      refine this.congr fun k => ?_
      show Real.sqrt (d (u k) ^ 2) = _
      rw [Real.sqrt_sq (hd _)]
    refine ⟨h3, ?_⟩
    have h4 : Tendsto (fun k => C * (d (u k) + d (u k) ^ 2)) atTop (𝓝 0) := by
      have := (h3.add h2).const_mul C
      simpa using this
    have h5 : Tendsto (fun k => f (u k + 1) - f (u k)) atTop (𝓝 0) :=
      squeeze_zero_norm (fun k => by rw [Real.norm_eq_abs]; exact hcont (u k)) h4
    have h6 := hfu.sub h5
    simpa using h6
  have hind : ∀ i, Tendsto (fun k => f (l k - i)) atTop (𝓝 Ms) := by
    intro i
    induction i with
    | zero =>
      refine hMt.congr' ?_
      filter_upwards [eventually_ge_atTop K] with k hk
      rw [(hj k).2 hk, Nat.sub_zero, hl]
    | succ i ih =>
      refine (hprev (fun k => l k - (i + 1)) (hlat _) (ih.congr' ?_)).2
      filter_upwards [(hlat i).eventually_ge_atTop 1] with k hk
      have : l k - i = l k - (i + 1) + 1 := by omega
      rw [this]
  -- every iterate is among these
  have hall : Tendsto f atTop (𝓝 Ms) := by
    rw [Metric.tendsto_atTop]
    intro ε hε
    have h1 : ∀ᶠ k in atTop, ∀ i ∈ Finset.range (m + 2), dist (f (l k - i)) Ms < ε := by
      rw [eventually_all_finset]
      intro i _
      exact (Metric.tendsto_nhds.1 (hind i)) ε hε
    obtain ⟨N, hN⟩ := eventually_atTop.1 h1
    refine ⟨N, fun k hk => ?_⟩
    have h2 := (hj (k + m)).1
    have h3 : l (k + m) - (l (k + m) - k) = k := by rw [hl]; omega
    have h4 := hN (k + m) (by omega) (l (k + m) - k) (by rw [Finset.mem_range, hl]; omega)
    rwa [h3] at h4
  exact (hprev id tendsto_id ((tendsto_add_atTop_iff_nat 1).2 hall)).1

end Verif.Cvx
