import Verif.Cvx.FocussProps
import Mathlib.Topology.Instances.Matrix
import Mathlib.Topology.MetricSpace.Bounded
import Mathlib.Topology.MetricSpace.Sequences
import Mathlib.Analysis.SpecialFunctions.Pow.Continuity
import Mathlib.Topology.MetricSpace.ProperSpace.Real
import Mathlib.Data.Sign.Basic

set_option autoImplicit false
/-!
# Convergence of FOCUSS: lemmas
-/
noncomputable section
namespace Verif.Cvx
open Verif.Loop Matrix
open Filter Topology

variable {m n : ℕ}

/-! ## Fixed point iterations with a strictly decreasing function -/

section abstract
variable {E : Type*} [MetricSpace E]

/-- A limit point of `u`. -/
def ClusterSeq (u : ℕ → E) (l : E) : Prop := ∃ φ : ℕ → ℕ, StrictMono φ ∧ Tendsto (u ∘ φ) atTop (𝓝 l)

theorem cluster_fixed {u : ℕ → E} {T : E → E} {f : E → ℝ} (hu : ∀ k, u (k + 1) = T (u k)) (hf : Continuous f) (hf0 : ∀ x, 0 ≤ f x)
    (hd : ∀ k, f (u (k + 1)) ≤ f (u k)) {l : E} (hl : ClusterSeq u l) (hT : ContinuousAt T l) (hs : T l ≠ l → f (T l) < f l) : T l = l := by
  obtain ⟨φ, hφ, hlim⟩ := hl
  obtain ⟨L, hL⟩ : ∃ L, Tendsto (fun k => f (u k)) atTop (𝓝 L) :=
    ⟨_, tendsto_atTop_ciInf (antitone_nat_of_succ_le hd) ⟨0, by rintro _ ⟨k, rfl⟩; exact hf0 _⟩⟩
  have h1 : Tendsto (fun k => f (u (φ k))) atTop (𝓝 L) := hL.comp hφ.tendsto_atTop
  have h2 : Tendsto (fun k => f (u (φ k))) atTop (𝓝 (f l)) := (hf.tendsto l).comp hlim
  have h3 : Tendsto (fun k => f (u (φ k + 1))) atTop (𝓝 L) := hL.comp ((tendsto_add_atTop_nat 1).comp hφ.tendsto_atTop)
  have h4 : Tendsto (fun k => f (u (φ k + 1))) atTop (𝓝 (f (T l))) := by
    have h5 : Tendsto (fun k => T (u (φ k))) atTop (𝓝 (T l)) := hT.tendsto.comp hlim
    refine ((hf.tendsto (T l)).comp h5).congr fun k => ?_
    show f (T (u (φ k))) = _
    rw [hu]
  by_contra hne
  have e1 := tendsto_nhds_unique h1 h2
  have e2 := tendsto_nhds_unique h3 h4
  exact absurd (hs hne) (by rw [← e1, ← e2]; exact lt_irrefl _)

theorem steps_vanish [ProperSpace E] {u : ℕ → E} {T : E → E} (hu : ∀ k, u (k + 1) = T (u k)) (hb : Bornology.IsBounded (Set.range u))
    (hT : ∀ l, ClusterSeq u l → ContinuousAt T l ∧ T l = l) : Tendsto (fun k => dist (u (k + 1)) (u k)) atTop (𝓝 0) := by
  by_contra hno
  rw [Metric.tendsto_atTop] at hno
  push Not at hno
  obtain ⟨ε, hε, hno⟩ := hno
  obtain ⟨ψ, hψ, hψ2⟩ : ∃ ψ : ℕ → ℕ, StrictMono ψ ∧ ∀ k, ε ≤ dist (u (ψ k + 1)) (u (ψ k)) := by
    have hfr : ∃ᶠ k in atTop, ε ≤ dist (u (k + 1)) (u k) := by
      rw [frequently_atTop]
      intro N
      obtain ⟨k, hk, h⟩ := hno N
      refine ⟨k, hk, ?_⟩
      rwa [Real.dist_eq, sub_zero, abs_of_nonneg dist_nonneg] at h
    exact extraction_of_frequently_atTop hfr
  obtain ⟨l, -, φ, hφ, hlim⟩ := tendsto_subseq_of_bounded (x := u ∘ ψ) hb fun k => Set.mem_range_self _
  have hcl : ClusterSeq u l := ⟨ψ ∘ φ, hψ.comp hφ, hlim⟩
  obtain ⟨hc, hfix⟩ := hT l hcl
  have h1 : Tendsto (fun k => T (u (ψ (φ k)))) atTop (𝓝 (T l)) := hc.tendsto.comp hlim
  have h2 : Tendsto (fun k => dist (T (u (ψ (φ k)))) (u (ψ (φ k)))) atTop (𝓝 (dist (T l) l)) := h1.dist hlim
  rw [hfix, dist_self] at h2
  have h3 : ε ≤ 0 := ge_of_tendsto' h2 fun k => by rw [← hu]; exact hψ2 _
  linarith

/-- A bounded sequence with vanishing steps and finitely many limit points converges. -/
theorem converge_finite [ProperSpace E] {u : ℕ → E} (hb : Bornology.IsBounded (Set.range u)) (hst : Tendsto (fun k => dist (u (k + 1)) (u k)) atTop (𝓝 0))
    (F : Set E) (hF : F.Finite) (hcl : ∀ l, ClusterSeq u l → l ∈ F) : ∃ l, ClusterSeq u l ∧ Tendsto u atTop (𝓝 l) := by
  have near : ∀ ε > 0, ∀ᶠ k in atTop, ∃ l ∈ F, dist (u k) l < ε := by
    intro ε hε
    by_contra hno
    obtain ⟨ψ, hψ, h2⟩ := extraction_of_frequently_atTop (not_eventually.mp hno)
    obtain ⟨l, -, φ, hφ, hlim⟩ := tendsto_subseq_of_bounded (x := u ∘ ψ) hb fun k => Set.mem_range_self _
    have hl := hcl l ⟨ψ ∘ φ, hψ.comp hφ, hlim⟩
    obtain ⟨k, hk⟩ := ((Metric.tendsto_nhds.mp hlim) ε hε).exists
    exact h2 (φ k) ⟨l, hl, hk⟩
  obtain ⟨δ, hδ, hsep⟩ : ∃ δ > 0, ∀ a ∈ F, ∀ b ∈ F, dist a b < δ → a = b := by
    by_cases hne : ∃ a ∈ F, ∃ b ∈ F, a ≠ b
    · classical
      have hfin : ((hF.toFinset ×ˢ hF.toFinset).filter fun q => q.1 ≠ q.2).Nonempty := by
        obtain ⟨a, ha, b, hb, hab⟩ := hne
        exact ⟨(a, b), by simp [ha, hb, hab]⟩
      obtain ⟨q, hq, hmin⟩ := Finset.exists_min_image ((hF.toFinset ×ˢ hF.toFinset).filter fun q => q.1 ≠ q.2) (fun q => dist q.1 q.2) hfin
      have hq2 : q.1 ≠ q.2 := (Finset.mem_filter.mp hq).2
      refine ⟨dist q.1 q.2, dist_pos.mpr hq2, fun a ha b hb h => ?_⟩
      by_contra hab
      exact absurd (hmin (a, b) (by simp [ha, hb, hab])) (not_le.mpr h)
    · push Not at hne
      exact ⟨1, one_pos, fun a ha b hb _ => hne a ha b hb⟩
  have hev : ∀ᶠ k in atTop, (∃ l ∈ F, dist (u k) l < δ / 3) ∧ dist (u (k + 1)) (u k) < δ / 3 := by
    refine (near (δ / 3) (by linarith)).and ?_
    filter_upwards [(Metric.tendsto_nhds.mp hst) (δ / 3) (by linarith)] with k hk
    rwa [Real.dist_eq, sub_zero, abs_of_nonneg dist_nonneg] at hk
  obtain ⟨K, hK⟩ := eventually_atTop.mp hev
  obtain ⟨⟨l, hl, hlK⟩, -⟩ := hK K le_rfl
  have stay : ∀ k, K ≤ k → dist (u k) l < δ / 3 := by
    intro k hk
    induction k, hk using Nat.le_induction with
    | base => exact hlK
    | succ k hk ih =>
      obtain ⟨⟨l', hl', h'⟩, -⟩ := hK (k + 1) (by omega)
      have h2 := (hK k hk).2
      have : l' = l := hsep l' hl' l hl (by
        have t1 := dist_triangle l' (u (k + 1)) l
        have t2 := dist_triangle (u (k + 1)) (u k) l
        rw [dist_comm l' (u (k + 1))] at t1
        linarith)
      rwa [this] at h'
  have hlim : Tendsto u atTop (𝓝 l) := by
    rw [Metric.tendsto_nhds]
    intro ε hε
    filter_upwards [near (min ε (δ / 3)) (lt_min hε (by linarith)), eventually_ge_atTop K] with k ⟨l', hl', h⟩ hk
    have : l' = l := hsep l' hl' l hl (by
      have t1 := dist_triangle l' (u k) l
      rw [dist_comm l' (u k)] at t1
      have := stay k hk
      have := lt_of_lt_of_le h (min_le_right _ _)
      linarith)
    rw [← this]
    exact lt_of_lt_of_le h (min_le_left _ _)
  exact ⟨l, ⟨id, strictMono_id, hlim⟩, hlim⟩

end abstract

/-! ## The FOCUSS map -/

/-- The multipliers of an iteration. -/
def focussV (Phi : Matrix (Fin m) (Fin n) ℝ) (y : Fin m → ℝ) (p : ℝ) (x : Fin n → ℝ) : Fin m → ℝ := (Phi * focussA Phi p x)⁻¹ *ᵥ y

/-- An iteration with a regular matrix. -/
def focussT (Phi : Matrix (Fin m) (Fin n) ℝ) (y : Fin m → ℝ) (p : ℝ) (x : Fin n → ℝ) : Fin n → ℝ := focussA Phi p x *ᵥ focussV Phi y p x

theorem focussT_apply (Phi : Matrix (Fin m) (Fin n) ℝ) (y : Fin m → ℝ) (p : ℝ) (x : Fin n → ℝ) (i : Fin n) :
    focussT Phi y p x i = xp2 p x i * (Phiᵀ *ᵥ focussV Phi y p x) i := by
  show ∑ j, xp2 p x i * Phi j i * focussV Phi y p x j = xp2 p x i * ∑ j, Phi j i * focussV Phi y p x j
  rw [Finset.mul_sum]
  exact Finset.sum_congr rfl fun j _ => mul_assoc _ _ _

theorem step_eq {Phi : Matrix (Fin m) (Fin n) ℝ} {y : Fin m → ℝ} {p : ℝ} {x : Fin n → ℝ} (h : (Phi * focussA Phi p x).det ≠ 0) :
    stepNoiseless Phi y x p = some (focussT Phi y p x) := by
  show (linSolve (Phi * focussA Phi p x) y).map _ = _
  rw [linSolve, if_pos h]
  rfl

theorem step_eq_iff {Phi : Matrix (Fin m) (Fin n) ℝ} {y : Fin m → ℝ} {p : ℝ} {x x' : Fin n → ℝ} (h : stepNoiseless Phi y x p = some x') :
    (Phi * focussA Phi p x).det ≠ 0 ∧ x' = focussT Phi y p x := by
  by_cases hd : (Phi * focussA Phi p x).det ≠ 0
  · rw [step_eq hd, Option.some.injEq] at h
    exact ⟨hd, h.symm⟩
  · have h2 : (linSolve (Phi * focussA Phi p x) y).map (fun v => focussA Phi p x *ᵥ v) = some x' := h
    rw [linSolve, if_neg hd] at h2
    exact absurd h2 (by simp)

theorem det_of_spark {Phi : Matrix (Fin m) (Fin n) ℝ} (hspark : ∀ v : Fin m → ℝ, v ≠ 0 → (Finset.univ.filter fun i => (Phiᵀ *ᵥ v) i = 0).card < m) (p : ℝ)
    {x : Fin n → ℝ} (hx : m ≤ nnz x) : (Phi * focussA Phi p x).det ≠ 0 := by
  intro hd
  obtain ⟨v, hv, h0⟩ := Matrix.exists_mulVec_eq_zero_iff.mpr hd
  have h1 := hspark v hv
  have h2 : nnz x ≤ (Finset.univ.filter fun i => (Phiᵀ *ᵥ v) i = 0).card :=
    Finset.card_le_card fun i hi => by
      rw [Finset.mem_filter] at hi ⊢
      exact ⟨Finset.mem_univ _, gram_zero h0 i hi.2⟩
  omega

theorem focussA_continuous (Phi : Matrix (Fin m) (Fin n) ℝ) {p : ℝ} (hp : 0 < p) : Continuous (focussA Phi p) := by
  refine continuous_matrix fun i j => ?_
  have h1 : Continuous fun x : Fin n → ℝ => |x i| ^ p := ((continuous_apply i).abs).rpow_const fun _ => Or.inr hp.le
  exact (h1.mul h1).mul continuous_const

theorem focussV_continuousAt {Phi : Matrix (Fin m) (Fin n) ℝ} (y : Fin m → ℝ) {p : ℝ} (hp : 0 < p) {l : Fin n → ℝ} (h : (Phi * focussA Phi p l).det ≠ 0) :
    ContinuousAt (focussV Phi y p) l := by
  have cG : Continuous fun x : Fin n → ℝ => Phi * focussA Phi p x := continuous_const.matrix_mul (focussA_continuous Phi hp)
  have e : focussV Phi y p = fun x => ((Phi * focussA Phi p x).det)⁻¹ • ((Phi * focussA Phi p x).adjugate *ᵥ y) := by
    funext x
    rw [focussV, Matrix.inv_def, Ring.inverse_eq_inv', smul_mulVec]
  rw [e]
  refine ContinuousAt.smul (ContinuousAt.inv₀ cG.matrix_det.continuousAt h) ?_
  exact (cG.matrix_adjugate.matrix_mulVec continuous_const).continuousAt

theorem focussT_continuousAt {Phi : Matrix (Fin m) (Fin n) ℝ} (y : Fin m → ℝ) {p : ℝ} (hp : 0 < p) {l : Fin n → ℝ} (h : (Phi * focussA Phi p l).det ≠ 0) :
    ContinuousAt (focussT Phi y p) l := by
  have cA := (focussA_continuous Phi hp).continuousAt (x := l)
  have cV := focussV_continuousAt y hp h
  rw [continuousAt_pi]
  intro i
  have e : (fun x => focussT Phi y p x i) = fun x => ∑ j, focussA Phi p x i j * focussV Phi y p x j := rfl
  rw [e]
  exact tendsto_finset_sum _ fun j _ => ((continuousAt_pi.mp (continuousAt_pi.mp cA i) j).mul (continuousAt_pi.mp cV j))

end Verif.Cvx
