import Verif.Cvx.FocussModel
import Mathlib.Topology.Instances.Matrix
import Mathlib.Analysis.SpecialFunctions.Pow.Continuity

set_option autoImplicit false
/-!
# C182: where FOCUSS returns finite values, they depend continuously on dictionary, measurements and exponent

`cvx/focuss.py:24-136`.
-/
noncomputable section
namespace Verif.Cvx
open Verif.Loop Matrix Filter Topology

variable {m n : ℕ}

section helpers
variable {P : Type*} [TopologicalSpace P] {a0 : P}

/-- A result depending on a parameter: near `a0` there is one, and it is continuous at `a0`. -/
def FCont (g : P → Option (Fin n → ℝ)) (a0 : P) : Prop := ∃ f : P → Fin n → ℝ, ContinuousAt f a0 ∧ g a0 = some (f a0) ∧ ∀ᶠ a in 𝓝 a0, g a = some (f a)

theorem mulVec_cont {k l : ℕ} {G : P → Matrix (Fin k) (Fin l) ℝ} {v : P → Fin l → ℝ} (hG : ContinuousAt G a0) (hv : ContinuousAt v a0) : ContinuousAt (fun a => G a *ᵥ v a) a0 :=
  ((continuous_fst.matrix_mulVec continuous_snd : Continuous fun q : Matrix (Fin k) (Fin l) ℝ × (Fin l → ℝ) => q.1 *ᵥ q.2).continuousAt (x := (G a0, v a0))).comp (f := fun a => (G a, v a)) (hG.prodMk hv)

theorem matMul_cont {k l r : ℕ} {G : P → Matrix (Fin k) (Fin l) ℝ} {H : P → Matrix (Fin l) (Fin r) ℝ} (hG : ContinuousAt G a0) (hH : ContinuousAt H a0) : ContinuousAt (fun a => G a * H a) a0 :=
  ((continuous_fst.matrix_mul continuous_snd : Continuous fun q : Matrix (Fin k) (Fin l) ℝ × Matrix (Fin l) (Fin r) ℝ => q.1 * q.2).continuousAt (x := (G a0, H a0))).comp (f := fun a => (G a, H a)) (hG.prodMk hH)

theorem focussA_cont {Phi : P → Matrix (Fin m) (Fin n) ℝ} {p : P → ℝ} {x : P → Fin n → ℝ} (hPhi : ContinuousAt Phi a0) (hp : ContinuousAt p a0) (hx : ContinuousAt x a0) (h0 : 0 < p a0) : ContinuousAt (fun a => focussA (Phi a) (p a) (x a)) a0 := by
  refine continuousAt_pi.2 fun i => continuousAt_pi.2 fun j => ?_
  have h1 : ContinuousAt (fun a => |x a i| ^ p a) a0 := ((continuousAt_pi.1 hx i).abs).rpow hp (Or.inr h0)
  exact (h1.mul h1).mul (continuousAt_pi.1 (continuousAt_pi.1 hPhi j) i)

theorem step_cont {Phi : P → Matrix (Fin m) (Fin n) ℝ} {y : P → Fin m → ℝ} {p : P → ℝ} {x : P → Fin n → ℝ} (hPhi : ContinuousAt Phi a0) (hy : ContinuousAt y a0) (hp : ContinuousAt p a0) (hx : ContinuousAt x a0) (h0 : 0 < p a0)
    (hs : stepNoiseless (Phi a0) (y a0) (x a0) (p a0) ≠ none) : FCont (fun a => stepNoiseless (Phi a) (y a) (x a) (p a)) a0 := by
  have hA := focussA_cont hPhi hp hx h0
  have hG := matMul_cont hPhi hA
  have hdet : ContinuousAt (fun a => (Phi a * focussA (Phi a) (p a) (x a)).det) a0 := (continuous_id.matrix_det).continuousAt.comp hG
  have hd0 : (Phi a0 * focussA (Phi a0) (p a0) (x a0)).det ≠ 0 := by
    intro e
    apply hs
    simp [stepNoiseless, linSolve, e]
  have key : ∀ a, (Phi a * focussA (Phi a) (p a) (x a)).det ≠ 0 → stepNoiseless (Phi a) (y a) (x a) (p a) = some (focussA (Phi a) (p a) (x a) *ᵥ ((Phi a * focussA (Phi a) (p a) (x a)).det⁻¹ • ((Phi a * focussA (Phi a) (p a) (x a)).adjugate *ᵥ y a))) := by
    intro a ha
    simp only [stepNoiseless, linSolve, if_pos ha, Option.map_some]
    rw [Matrix.inv_def, Ring.inverse_eq_inv', Matrix.smul_mulVec]
  refine ⟨_, mulVec_cont hA ((hdet.inv₀ hd0).smul (mulVec_cont ((continuous_id.matrix_adjugate).continuousAt.comp hG) hy)), key a0 hd0, ?_⟩
  filter_upwards [hdet.eventually_ne hd0] with a ha
  exact key a ha

theorem focuss_iterate_iters (Phi : Matrix (Fin m) (Fin n) ℝ) (y : Fin m → ℝ) (p : ℝ) (k : ℕ) : ((focussBody Phi y p)^[k] (focussInit Phi y)).iterations = k := by
  induction k with
  | zero => rfl
  | succ k ih => rw [Function.iterate_succ_apply']; simp [focussBody, focussState, ih]

theorem focuss_iterate_cont {Phi : P → Matrix (Fin m) (Fin n) ℝ} {y : P → Fin m → ℝ} {p : P → ℝ} (hPhi : ContinuousAt Phi a0) (hy : ContinuousAt y a0) (hp : ContinuousAt p a0) (h0 : 0 < p a0) :
    ∀ k : ℕ, ((focussBody (Phi a0) (y a0) (p a0))^[k] (focussInit (Phi a0) (y a0))).x ≠ none → FCont (fun a => ((focussBody (Phi a) (y a) (p a))^[k] (focussInit (Phi a) (y a))).x) a0
  | 0, _ => ⟨fun _ _ => 1, continuousAt_const, rfl, Eventually.of_forall fun _ => rfl⟩
  | k + 1, h => by
    have e : ∀ a, ((focussBody (Phi a) (y a) (p a))^[k + 1] (focussInit (Phi a) (y a))).x = ((focussBody (Phi a) (y a) (p a))^[k] (focussInit (Phi a) (y a))).x.bind fun x => stepNoiseless (Phi a) (y a) x (p a) := by
      intro a; rw [Function.iterate_succ_apply']; rfl
    obtain ⟨f, hf, h1, h2⟩ := focuss_iterate_cont hPhi hy hp h0 k fun e' => h (by rw [e, e']; rfl)
    beta_reduce at h1
    have h3 : stepNoiseless (Phi a0) (y a0) (f a0) (p a0) ≠ none := fun e' => h (by rw [e, h1]; exact e')
    obtain ⟨g, hg, h4, h5⟩ := step_cont hPhi hy hp hf h0 h3
    refine ⟨g, hg, by show ((focussBody (Phi a0) (y a0) (p a0))^[k + 1] (focussInit (Phi a0) (y a0))).x = _; rw [e, h1]; exact h4, ?_⟩
    filter_upwards [h2, h5] with a e1 e2
    rw [e, e1]; exact e2

theorem focuss_out (Phi : Matrix (Fin m) (Fin n) ℝ) (y : Fin m → ℝ) (p : ℝ) (N : ℕ) : FocussSolve Phi y p N ((focussBody Phi y p)^[N] (focussInit Phi y)) :=
  ⟨reach_of_iterate fun j hj => by show ((focussBody Phi y p)^[j] (focussInit Phi y)).iterations < N; rwa [focuss_iterate_iters], by show ¬ ((focussBody Phi y p)^[N] (focussInit Phi y)).iterations < N; rw [focuss_iterate_iters]; exact lt_irrefl N⟩

end helpers

/-- **C182** if FOCUSS returns finite values `z` for an exponent `p > 0`, then it returns finite values for all dictionaries, measurements and exponents near by, and they are as close to `z` as wanted; entries that
have become zero do no harm. -/
theorem c182_focuss (Phi : Matrix (Fin m) (Fin n) ℝ) (y : Fin m → ℝ) (p : ℝ) (hp : 0 < p) (N : ℕ) (s : FocussState m n) (h : FocussSolve Phi y p N s) (z : Fin n → ℝ) (hz : s.x = some z) (ε : ℝ) (hε : 0 < ε) :
    ∀ᶠ q : Matrix (Fin m) (Fin n) ℝ × (Fin m → ℝ) × ℝ in 𝓝 (Phi, y, p), ∃ t z', FocussSolve q.1 q.2.1 q.2.2 N t ∧ t.x = some z' ∧ ∀ i, |z' i - z i| < ε := by
  rw [Out.unique h (focuss_out Phi y p N)] at hz
  obtain ⟨f, hf, h1, h2⟩ := focuss_iterate_cont (a0 := (Phi, y, p)) (Phi := fun q : Matrix (Fin m) (Fin n) ℝ × (Fin m → ℝ) × ℝ => q.1) (y := fun q => q.2.1) (p := fun q => q.2.2) continuousAt_fst
    (continuous_fst.comp continuous_snd).continuousAt (continuous_snd.comp continuous_snd).continuousAt hp N (by rw [hz]; exact Option.some_ne_none z)
  have h1' : ((focussBody Phi y p)^[N] (focussInit Phi y)).x = some (f (Phi, y, p)) := h1
  rw [hz] at h1'
  have e : z = f (Phi, y, p) := Option.some.inj h1'
  have hn := Metric.continuousAt_iff'.1 hf ε hε
  filter_upwards [h2, hn] with q h3 h4
  refine ⟨_, f q, focuss_out q.1 q.2.1 q.2.2 N, h3, fun i => ?_⟩
  rw [e, ← Real.dist_eq]
  exact lt_of_le_of_lt (dist_le_pi_dist _ _ i) h4

/-- **C182** (singular systems) values that are not finite are not stable: with the dictionary `0` one iteration gives no finite values, with `δ ≠ 0` it gives `1 / δ`. -/
theorem c182_singular_fails (p : ℝ) : (∀ s, FocussSolve (0 : Matrix (Fin 1) (Fin 1) ℝ) (fun _ => 1) p 1 s → s.x = none) ∧
    ∀ δ : ℝ, δ ≠ 0 → ∀ s, FocussSolve (Matrix.of fun _ _ => δ : Matrix (Fin 1) (Fin 1) ℝ) (fun _ => 1) p 1 s → s.x = some fun _ => 1 / δ := by
  constructor
  · intro s hs
    rw [Out.unique hs (focuss_out _ _ p 1)]
    simp [focussBody, focussState, focussInit, stepNoiseless, linSolve]
  · intro δ hδ s hs
    rw [Out.unique hs (focuss_out _ _ p 1)]
    have hd : ((Matrix.of fun _ _ => δ : Matrix (Fin 1) (Fin 1) ℝ) * focussA (Matrix.of fun _ _ => δ) p (fun _ => 1)).det = δ * δ := by
      simp [Matrix.det_fin_one, Matrix.mul_apply, focussA, xp2]
    have hx : ((focussBody (Matrix.of fun _ _ => δ : Matrix (Fin 1) (Fin 1) ℝ) (fun _ => 1) p)^[1] (focussInit (Matrix.of fun _ _ => δ) (fun _ => 1))).x = stepNoiseless (Matrix.of fun _ _ => δ) (fun _ => 1) (fun _ => 1) p := rfl
    rw [hx]
    simp only [stepNoiseless, linSolve]
    rw [if_pos (by rw [hd]; exact mul_ne_zero hδ hδ), Matrix.inv_def, Ring.inverse_eq_inv', hd]
    simp only [Option.map_some, Option.some.injEq]
    funext i
    simp [Matrix.mulVec, dotProduct, focussA, xp2, Matrix.adjugate_fin_one, Subsingleton.elim i 0]
    field_simp

/-- Instance: the dictionary `2`, measurement 1. -/
example (s) (hs : FocussSolve (Matrix.of fun _ _ => 2 : Matrix (Fin 1) (Fin 1) ℝ) (fun _ => 1) (1 / 2) 1 s) (ε : ℝ) (hε : 0 < ε) :=
  c182_focuss _ _ (1 / 2) (by norm_num) 1 s hs _ ((c182_singular_fails (1 / 2)).2 2 two_ne_zero s hs) ε hε

end Verif.Cvx
