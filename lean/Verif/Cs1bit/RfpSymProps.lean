import Verif.Cs1bit.Props
import Mathlib.Tactic.FinCases

set_option autoImplicit false
/-!
# C177: signs and order of the measurements and of the unknowns do not matter to RFP
-/
noncomputable section
namespace Verif.Cs1bit
open Verif.Pursuit

variable {M n : ℕ}

/-- A change of signs and of order: entry `i` of the result is `e i` times entry `σ i`. -/
def relabel {m : ℕ} (e : Fin m → ℝ) (σ : Equiv.Perm (Fin m)) (x : EuclideanSpace ℝ (Fin m)) : EuclideanSpace ℝ (Fin m) := WithLp.toLp 2 fun i => e i * x (σ i)

theorem relabel_apply {m : ℕ} (e : Fin m → ℝ) (σ : Equiv.Perm (Fin m)) (x : EuclideanSpace ℝ (Fin m)) (i : Fin m) : relabel e σ x i = e i * x (σ i) := rfl

theorem sq_of_sign {a : ℝ} (h : a = 1 ∨ a = -1) : a * a = 1 := by rcases h with rfl | rfl <;> norm_num

theorem relabel_inner {m : ℕ} {e : Fin m → ℝ} (he : ∀ i, e i = 1 ∨ e i = -1) (σ : Equiv.Perm (Fin m)) (x z : EuclideanSpace ℝ (Fin m)) : inner ℝ (relabel e σ x) (relabel e σ z) = inner ℝ x z := by
  rw [PiLp.inner_apply, PiLp.inner_apply, ← Equiv.sum_comp σ fun i => inner ℝ (x i) (z i)]
  refine Finset.sum_congr rfl fun i _ => ?_
  simp only [relabel_apply, RCLike.inner_apply, conj_trivial]
  linear_combination (z (σ i) * x (σ i)) * sq_of_sign (he i)

theorem relabel_norm {m : ℕ} {e : Fin m → ℝ} (he : ∀ i, e i = 1 ∨ e i = -1) (σ : Equiv.Perm (Fin m)) (x : EuclideanSpace ℝ (Fin m)) : ‖relabel e σ x‖ = ‖x‖ := by
  have := relabel_inner he σ x x
  rw [real_inner_self_eq_norm_sq, real_inner_self_eq_norm_sq] at this
  exact (pow_left_inj₀ (norm_nonneg _) (norm_nonneg _) two_ne_zero).1 this

theorem relabel_sub {m : ℕ} (e : Fin m → ℝ) (σ : Equiv.Perm (Fin m)) (x z : EuclideanSpace ℝ (Fin m)) : relabel e σ (x - z) = relabel e σ x - relabel e σ z := by
  ext i
  simp only [relabel_apply, PiLp.sub_apply]
  ring

theorem relabel_smul {m : ℕ} (e : Fin m → ℝ) (σ : Equiv.Perm (Fin m)) (c : ℝ) (x : EuclideanSpace ℝ (Fin m)) : relabel e σ (c • x) = c • relabel e σ x := by
  ext i
  simp only [relabel_apply, PiLp.smul_apply, smul_eq_mul]
  ring

theorem shrink_sign {a : ℝ} (ha : a = 1 ∨ a = -1) (k b : ℝ) : Verif.Opt.shrink1 k (a * b) = a * Verif.Opt.shrink1 k b := by
  rcases ha with rfl | rfl
  · simp
  · simp only [Verif.Opt.shrink1]
    have e1 : max 0 (-1 * b - k) = -min 0 (b + k) := by rw [← max_neg_neg, neg_zero]; congr 1; ring
    have e2 : min 0 (-1 * b + k) = -max 0 (b - k) := by rw [← min_neg_neg, neg_zero]; congr 1; ring
    rw [e1, e2]; ring

/-- The dictionary with atoms relabelled by `e`, `σ` and measurements by `f`, `τ`. -/
def relabelDict (e : Fin n → ℝ) (σ : Equiv.Perm (Fin n)) (f : Fin M → ℝ) (τ : Equiv.Perm (Fin M)) (phi : Fin n → Meas M) : Fin n → Meas M := fun j => e j • relabel f τ (phi (σ j))

section
variable {e : Fin n → ℝ} (he : ∀ i, e i = 1 ∨ e i = -1) (σ : Equiv.Perm (Fin n)) {f : Fin M → ℝ} (hf : ∀ i, f i = 1 ∨ f i = -1) (τ : Equiv.Perm (Fin M))
include he

theorem relabel_synth (phi : Fin n → Meas M) (x : EuclideanSpace ℝ (Fin n)) : (∑ j, relabel e σ x j • relabelDict e σ f τ phi j : Meas M) = relabel f τ (∑ j, x j • phi j) := by
  ext i
  simp only [WithLp.ofLp_sum, Finset.sum_apply, relabel_apply, relabelDict, PiLp.smul_apply, smul_eq_mul]
  rw [Finset.mul_sum, ← Equiv.sum_comp σ (fun j => f i * (x j * phi j (τ i)))]
  refine Finset.sum_congr rfl fun j _ => ?_
  linear_combination (f i * x (σ j) * phi (σ j) (τ i)) * sq_of_sign (he j)

include hf

theorem relabel_fbar (phi : Fin n → Meas M) (y : Meas M) (x : EuclideanSpace ℝ (Fin n)) : rfpFbar (relabelDict e σ f τ phi) (relabel f τ y) (relabel e σ x) = relabel e σ (rfpFbar phi y x) := by
  ext j
  have hp : (WithLp.toLp 2 fun i => relabel f τ y i * (if relabel f τ y i * (∑ j, relabel e σ x j • relabelDict e σ f τ phi j : Meas M) i ≤ 0 then -(relabel f τ y i * (∑ j, relabel e σ x j • relabelDict e σ f τ phi j : Meas M) i) else 0) : Meas M) =
      relabel f τ (WithLp.toLp 2 fun i => y i * (if y i * (∑ j, x j • phi j : Meas M) i ≤ 0 then -(y i * (∑ j, x j • phi j : Meas M) i) else 0)) := by
    rw [relabel_synth he]
    ext i
    have hb : f i * y (τ i) * (f i * (∑ j, x j • phi j : Meas M) (τ i)) = y (τ i) * (∑ j, x j • phi j : Meas M) (τ i) := by
      linear_combination (y (τ i) * (∑ j, x j • phi j : Meas M) (τ i)) * sq_of_sign (hf i)
    simp only [relabel_apply]
    rw [hb]
    ring
  show inner ℝ (relabelDict e σ f τ phi j) (WithLp.toLp 2 fun i => relabel f τ y i * (if relabel f τ y i * (∑ j, relabel e σ x j • relabelDict e σ f τ phi j : Meas M) i ≤ 0 then -(relabel f τ y i * (∑ j, relabel e σ x j • relabelDict e σ f τ phi j : Meas M) i) else 0) : Meas M) = _
  rw [hp, relabelDict, inner_smul_left, relabel_inner hf]
  rfl

theorem relabel_body (phi : Fin n → Meas M) (y : Meas M) (delta tau : ℝ) (o : Option (EuclideanSpace ℝ (Fin n))) :
    rfpBody (relabelDict e σ f τ phi) (relabel f τ y) delta tau (o.map (relabel e σ)) = (rfpBody phi y delta tau o).map (relabel e σ) := by
  cases o with
  | none => rfl
  | some x =>
    have hg : rfpGradStep (relabelDict e σ f τ phi) (relabel f τ y) delta (relabel e σ x) = relabel e σ (rfpGradStep phi y delta x) := by
      unfold rfpGradStep
      rw [relabel_fbar he σ hf τ, relabel_inner he, relabel_sub, relabel_smul, relabel_sub, relabel_smul]
    have hu : (WithLp.toLp 2 fun j => Verif.Opt.shrink1 tau (rfpGradStep (relabelDict e σ f τ phi) (relabel f τ y) delta (relabel e σ x) j) : EuclideanSpace ℝ (Fin n)) =
        relabel e σ (WithLp.toLp 2 fun j => Verif.Opt.shrink1 tau (rfpGradStep phi y delta x j)) := by
      ext j
      rw [hg]
      exact shrink_sign (he j) tau _
    show (if ‖_‖ = 0 then none else some (‖_‖⁻¹ • _)) = Option.map _ (if ‖_‖ = 0 then none else some (‖_‖⁻¹ • _))
    rw [hu, relabel_norm he]
    split_ifs
    · rfl
    · rw [Option.map_some, relabel_smul]

/-- **C177** negating and reordering measurements (rows of the dictionary with their bits) does not change the result of RFP; negating and reordering unknowns (atoms with the entries of the initial guess) negates and reorders the entries of the result in
the same way. In particular one is defined exactly when the other is. -/
theorem c177_rfp (phi : Fin n → Meas M) (y : Meas M) (x0 : EuclideanSpace ℝ (Fin n)) (lambda delta : ℝ) (inner outer : ℕ) :
    rfp (relabelDict e σ f τ phi) (relabel f τ y) (relabel e σ x0) lambda delta inner outer = (rfp phi y x0 lambda delta inner outer).map (relabel e σ) := by
  have hit : ∀ N, (rfpBody (relabelDict e σ f τ phi) (relabel f τ y) delta (delta / lambda))^[N] (some (relabel e σ x0)) = ((rfpBody phi y delta (delta / lambda))^[N] (some x0)).map (relabel e σ) := by
    intro N
    induction N with
    | zero => rfl
    | succ N ih => rw [Function.iterate_succ_apply', Function.iterate_succ_apply', ih, relabel_body he σ hf τ]
  unfold rfp
  split_ifs with hc
  · rfl
  · rw [foldl_iterate, foldl_iterate, hit]

omit hf in
/-- **C177** the initial guesses follow: the guess computed from relabelled draws (or a relabelled least squares solution) is the relabelled guess. -/
theorem c177_guess (v : EuclideanSpace ℝ (Fin n)) : rfpGuess (relabel e σ v) = (rfpGuess v).map (relabel e σ) := by
  unfold rfpGuess
  rw [relabel_norm he]
  split_ifs
  · rfl
  · rw [Option.map_some, relabel_smul]

end

/-- Two atoms exchanged, the first negated; the first of three bits flipped. -/
example (phi : Fin 2 → Meas 3) (y : Meas 3) (x0 : EuclideanSpace ℝ (Fin 2)) := c177_rfp (e := ![-1, 1]) (f := ![-1, 1, 1]) (fun i => by fin_cases i <;> simp) (Equiv.swap 0 1) (fun i => by fin_cases i <;> simp) 1 phi y x0 1 (1 / 10) 200 20

example (v : EuclideanSpace ℝ (Fin 2)) := c177_guess (e := ![-1, 1]) (fun i => by fin_cases i <;> simp) (Equiv.swap 0 1) v

end Verif.Cs1bit
