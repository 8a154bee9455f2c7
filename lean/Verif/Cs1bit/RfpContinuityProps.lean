import Verif.Cs1bit.Props
import Mathlib.Analysis.InnerProductSpace.Continuous
import Mathlib.Topology.Algebra.Order.Group

set_option autoImplicit false
/-!
# C176: renormalised fixed point iterations depend continuously on everything
-/
noncomputable section
namespace Verif.Cs1bit
open Verif.Pursuit Filter Topology

variable {M n : ℕ}

theorem wrong_bits (b : ℝ) : (if b ≤ 0 then -b else 0) = max 0 (-b) := by
  split_ifs with h
  · rw [max_eq_right (by linarith)]
  · rw [max_eq_left (by linarith [not_le.1 h])]

section helpers
variable {A : Type*} [TopologicalSpace A] {a0 : A}

theorem toLp_cont {m : ℕ} {f : A → Fin m → ℝ} (h : ∀ j, ContinuousAt (fun a => f a j) a0) : ContinuousAt (fun a => (WithLp.toLp 2 (f a) : EuclideanSpace ℝ (Fin m))) a0 :=
  (PiLp.continuous_toLp 2 _).continuousAt.comp (continuousAt_pi.2 h)

theorem entry_cont {m : ℕ} {f : A → EuclideanSpace ℝ (Fin m)} (h : ContinuousAt f a0) (j : Fin m) : ContinuousAt (fun a => f a j) a0 := (PiLp.continuous_apply 2 _ j).continuousAt.comp h

theorem fbar_cont {phi : A → Fin n → Meas M} {y : A → Meas M} {x : A → EuclideanSpace ℝ (Fin n)} (hphi : ContinuousAt phi a0) (hy : ContinuousAt y a0) (hx : ContinuousAt x a0) : ContinuousAt (fun a => rfpFbar (phi a) (y a) (x a)) a0 := by
  have hj : ∀ j, ContinuousAt (fun a => phi a j) a0 := fun j => (continuousAt_pi.1 hphi) j
  have hm : ContinuousAt (fun a => (∑ j, x a j • phi a j : Meas M)) a0 := tendsto_finset_sum _ fun j _ => (entry_cont hx j).smul (hj j)
  unfold rfpFbar
  simp only [wrong_bits]
  refine toLp_cont fun j => (hj j).inner (𝕜 := ℝ) (toLp_cont fun i => ?_)
  exact (entry_cont hy i).mul (continuousAt_const.max ((entry_cont hy i).mul (entry_cont hm i)).neg)

theorem shrink1_cont {k f : A → ℝ} (hk : ContinuousAt k a0) (hf : ContinuousAt f a0) : ContinuousAt (fun a => Verif.Opt.shrink1 (k a) (f a)) a0 :=
  (continuousAt_const.max (hf.sub hk)).add (continuousAt_const.min (hf.add hk))

/-- A result depending on a parameter: near `a0` there is one, and it is continuous at `a0`. -/
def OCont (g : A → Option (EuclideanSpace ℝ (Fin n))) (a0 : A) : Prop := ∃ f : A → EuclideanSpace ℝ (Fin n), ContinuousAt f a0 ∧ g a0 = some (f a0) ∧ ∀ᶠ a in 𝓝 a0, g a = some (f a)

theorem body_cont {phi : A → Fin n → Meas M} {y : A → Meas M} {delta tau : A → ℝ} (hphi : ContinuousAt phi a0) (hy : ContinuousAt y a0) (hd : ContinuousAt delta a0) (ht : ContinuousAt tau a0)
    {g : A → Option (EuclideanSpace ℝ (Fin n))} (hg : OCont g a0) (hs : rfpBody (phi a0) (y a0) (delta a0) (tau a0) (g a0) ≠ none) : OCont (fun a => rfpBody (phi a) (y a) (delta a) (tau a) (g a)) a0 := by
  obtain ⟨f, hf, h0, hn⟩ := hg
  let u : A → EuclideanSpace ℝ (Fin n) := fun a => WithLp.toLp 2 fun j => Verif.Opt.shrink1 (tau a) (rfpGradStep (phi a) (y a) (delta a) (f a) j)
  have hF := fbar_cont hphi hy hf
  have hG : ContinuousAt (fun a => rfpGradStep (phi a) (y a) (delta a) (f a)) a0 := hf.sub (hd.smul (hF.sub ((hF.inner (𝕜 := ℝ) hf).smul hf)))
  have hu : ContinuousAt u a0 := toLp_cont fun j => shrink1_cont ht (entry_cont hG j)
  have hu0 : ‖u a0‖ ≠ 0 := fun e => hs (by rw [h0]; exact if_pos e)
  refine ⟨fun a => ‖u a‖⁻¹ • u a, (hu.norm.inv₀ hu0).smul hu, by show rfpBody (phi a0) (y a0) (delta a0) (tau a0) (g a0) = _; rw [h0]; exact if_neg hu0, ?_⟩
  filter_upwards [hn, hu.norm.eventually_ne hu0] with a h1 h2
  rw [h1]
  exact if_neg h2

theorem rfpBody_none (phi : Fin n → Meas M) (y : Meas M) (delta tau : ℝ) (N : ℕ) : (rfpBody phi y delta tau)^[N] none = none := by
  induction N with
  | zero => rfl
  | succ N ih => rw [Function.iterate_succ_apply', ih]; rfl

theorem iterate_cont {phi : A → Fin n → Meas M} {y : A → Meas M} {delta tau : A → ℝ} {x0 : A → EuclideanSpace ℝ (Fin n)} (hphi : ContinuousAt phi a0) (hy : ContinuousAt y a0) (hd : ContinuousAt delta a0) (ht : ContinuousAt tau a0) (hx : ContinuousAt x0 a0) :
    ∀ N : ℕ, (rfpBody (phi a0) (y a0) (delta a0) (tau a0))^[N] (some (x0 a0)) ≠ none → OCont (fun a => (rfpBody (phi a) (y a) (delta a) (tau a))^[N] (some (x0 a))) a0
  | 0, _ => ⟨x0, hx, rfl, Eventually.of_forall fun _ => rfl⟩
  | N + 1, h => by
    simp only [Function.iterate_succ_apply'] at h ⊢
    refine body_cont hphi hy hd ht (iterate_cont hphi hy hd ht hx N fun e => h ?_) h
    rw [e]; rfl

end helpers

/-- **C176** where RFP returns a vector, it does so for all dictionaries, bits (real vectors), initial guesses, weights and steps near by, and the result depends continuously on all of them; no condition on ties is needed. -/
theorem c176_rfp (phi : Fin n → Meas M) (y : Meas M) (x0 : EuclideanSpace ℝ (Fin n)) (lambda delta : ℝ) (inner outer : ℕ) (z : EuclideanSpace ℝ (Fin n)) (h : rfp phi y x0 lambda delta inner outer = some z) (ε : ℝ) (he : 0 < ε) :
    ∀ᶠ p : (Fin n → Meas M) × Meas M × EuclideanSpace ℝ (Fin n) × ℝ × ℝ in 𝓝 (phi, y, x0, lambda, delta), ∃ z', rfp p.1 p.2.1 p.2.2.1 p.2.2.2.1 p.2.2.2.2 inner outer = some z' ∧ ‖z' - z‖ < ε := by
  unfold rfp at h
  split_ifs at h with hc
  push Not at hc
  rw [foldl_iterate] at h
  have c1 : Continuous fun p : (Fin n → Meas M) × Meas M × EuclideanSpace ℝ (Fin n) × ℝ × ℝ => p.2.2.2.1 := by fun_prop
  have c2 : Continuous fun p : (Fin n → Meas M) × Meas M × EuclideanSpace ℝ (Fin n) × ℝ × ℝ => p.2.2.2.2 := by fun_prop
  obtain ⟨f, hf, h0, hn⟩ := iterate_cont (a0 := (phi, y, x0, lambda, delta)) (phi := fun p : (Fin n → Meas M) × Meas M × EuclideanSpace ℝ (Fin n) × ℝ × ℝ => p.1) (y := fun p => p.2.1) (delta := fun p => p.2.2.2.2)
    (tau := fun p => p.2.2.2.2 / p.2.2.2.1) (x0 := fun p => p.2.2.1) continuous_fst.continuousAt (continuous_fst.comp continuous_snd).continuousAt c2.continuousAt (c2.continuousAt.div c1.continuousAt hc.2)
    (continuous_fst.comp (continuous_snd.comp continuous_snd)).continuousAt (outer * inner) (by simp only [h]; exact Option.some_ne_none z)
  have hz : f (phi, y, x0, lambda, delta) = z := by
    simp only [h] at h0
    exact (Option.some_inj.1 h0).symm
  filter_upwards [hn, c1.continuousAt.eventually_ne hc.2, (Metric.tendsto_nhds.1 hf) ε he] with p h1 h2 h3
  refine ⟨f p, ?_, by rwa [hz, dist_eq_norm] at h3⟩
  unfold rfp
  rw [if_neg (by push Not; exact ⟨hc.1, h2⟩), foldl_iterate]
  exact h1

/-- **C176** the other direction does not hold: RFP can be undefined (the threshold wipes out the whole vector) and yet return a vector for weights arbitrarily near. -/
theorem c176_undefined_fails : ¬ ∀ (phi : Fin 1 → Meas 1) (y : Meas 1) (x0 : EuclideanSpace ℝ (Fin 1)) (lambda delta : ℝ), lambda ≠ 0 → rfp phi y x0 lambda delta 1 1 = none → ∀ᶠ l in 𝓝 lambda, rfp phi y x0 l delta 1 1 = none := by
  intro h
  have hf : rfpFbar (n := 1) (M := 1) (fun _ => WithLp.toLp 2 ![1]) (WithLp.toLp 2 ![1]) (WithLp.toLp 2 ![1]) = 0 := by
    ext j
    simp [rfpFbar, PiLp.inner_apply]
  have hr : ∀ l : ℝ, l ≠ 0 → (rfp (n := 1) (M := 1) (fun _ => WithLp.toLp 2 ![1]) (WithLp.toLp 2 ![1]) (WithLp.toLp 2 ![1]) l 1 1 1 = none ↔ Verif.Opt.shrink1 (1 / l) 1 = 0) := by
    intro l hl
    rw [rfp, if_neg (by simpa using hl)]
    show rfpBody _ _ _ _ (some _) = none ↔ _
    simp only [rfpBody]
    have e : (WithLp.toLp 2 fun j => Verif.Opt.shrink1 (1 / l) (rfpGradStep (n := 1) (M := 1) (fun _ => WithLp.toLp 2 ![1]) (WithLp.toLp 2 ![1]) 1 (WithLp.toLp 2 ![1]) j) : EuclideanSpace ℝ (Fin 1)) =
        WithLp.toLp 2 fun _ => Verif.Opt.shrink1 (1 / l) 1 := by
      ext j
      fin_cases j
      simp [rfpGradStep, hf]
    rw [e]
    have e2 : ‖(WithLp.toLp 2 fun _ => Verif.Opt.shrink1 (1 / l) 1 : EuclideanSpace ℝ (Fin 1))‖ = 0 ↔ Verif.Opt.shrink1 (1 / l) 1 = 0 := by
      rw [norm_eq_zero]
      constructor
      · intro h0
        exact congrArg (fun v : EuclideanSpace ℝ (Fin 1) => v 0) h0
      · intro h0
        ext j
        simpa using h0
    rw [← e2]
    split_ifs with h0
    · exact ⟨fun _ => h0, fun _ => rfl⟩
    · exact ⟨fun hh => (by simp at hh), fun hh => absurd hh h0⟩
  have h1 := h _ _ _ 1 1 one_ne_zero ((hr 1 one_ne_zero).2 (by norm_num [Verif.Opt.shrink1]))
  obtain ⟨l, hl, hpos⟩ := ((h1.filter_mono nhdsWithin_le_nhds).and (self_mem_nhdsWithin (a := (1 : ℝ)) (s := Set.Ioi 1))).exists
  have hpos' : (1 : ℝ) < l := hpos
  have := (hr l (by linarith)).1 hl
  have hlt : 1 / l < 1 := (div_lt_one (by linarith)).2 hpos'
  have hp : 0 < 1 / l := by positivity
  rw [Verif.Opt.shrink1, max_eq_right (by linarith), min_eq_left (by linarith)] at this
  linarith

/-- One measurement, one step; an example of Props.lean shows that such a `z` exists. -/
example (z : EuclideanSpace ℝ (Fin 1)) (h : rfp (n := 1) (M := 1) (fun _ => WithLp.toLp 2 ![1]) (WithLp.toLp 2 ![1]) (WithLp.toLp 2 ![1]) 1 (1 / 10) 1 1 = some z) :=
  c176_rfp _ _ _ _ _ _ _ z h (1 / 100) (by norm_num)

end Verif.Cs1bit
