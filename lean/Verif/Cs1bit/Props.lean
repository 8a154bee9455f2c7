import Verif.Cs1bit.Model
import Verif.Pursuit.GreedyLemmas
import Verif.Pursuit.UtilProps
import Mathlib.Tactic.NormNum
import Mathlib.Tactic.Linarith

set_option autoImplicit false
/-!
# One-bit compressive sensing (C77)
-/
noncomputable section
namespace Verif.Cs1bit
open Verif.Loop Verif.Pursuit

variable {M : ℕ}

theorem signV_apply (v : Meas M) (i : Fin M) : signV v i = Real.sign (v i) := rfl

/-- **C77** a one-bit measurement is the sign of the linear one: `1` for positive, `-1` for negative, `0` exactly for zero measurements. -/
theorem c77_measure_values_partial (phi : ℕ → Meas M) (n : ℕ) (x : ℕ → ℝ) (i : Fin M) :
    (measure1bit phi n x i = 1 ↔ 0 < ∑ j ∈ Finset.range n, x j * phi j i) ∧ (measure1bit phi n x i = -1 ↔ ∑ j ∈ Finset.range n, x j * phi j i < 0) ∧
    (measure1bit phi n x i = 0 ↔ ∑ j ∈ Finset.range n, x j * phi j i = 0) := by
  have e : (applyPhi phi n x) i = ∑ j ∈ Finset.range n, x j * phi j i := by simp [applyPhi]
  unfold measure1bit
  rw [signV_apply, e]
  generalize ∑ j ∈ Finset.range n, x j * phi j i = a
  rcases lt_trichotomy a 0 with h | h | h
  · rw [Real.sign_of_neg h]; refine ⟨⟨fun h => by norm_num at h, fun h' => by linarith⟩, by simp [h], ⟨fun h => by norm_num at h, fun h' => by linarith⟩⟩
  · rw [h]; simp
  · rw [Real.sign_of_pos h]; refine ⟨by simp [h], ⟨fun h => by norm_num at h, fun h' => by linarith⟩, ⟨fun h => by norm_num at h, fun h' => by linarith⟩⟩

/-- **C77** the values are not always in `{-1, +1}`: the zero signal gives zeros. -/
theorem c77_measure_values_fails : ¬ ∀ (phi : ℕ → Meas 1) (n : ℕ) (x : ℕ → ℝ) (i : Fin 1), measure1bit phi n x i = 1 ∨ measure1bit phi n x i = -1 := by
  intro h
  have h0 := (c77_measure_values_partial (fun _ => (0 : Meas 1)) 1 (fun _ => 1) 0).2.2.mpr (by simp)
  rcases h (fun _ => (0 : Meas 1)) 1 (fun _ => 1) 0 with h1 | h1 <;> rw [h0] at h1 <;> norm_num at h1

theorem sign_mul_pos (c a : ℝ) (hc : 0 < c) : Real.sign (c * a) = Real.sign a := by
  rcases lt_trichotomy a 0 with h | h | h
  · rw [Real.sign_of_neg h, Real.sign_of_neg (mul_neg_of_pos_of_neg hc h)]
  · rw [h, mul_zero]
  · rw [Real.sign_of_pos h, Real.sign_of_pos (mul_pos hc h)]

/-- **C77** measurements, hence every BIHT run on them, are the same for a signal and its positive multiples. -/
theorem c77_scaling (phi : ℕ → Meas M) (n : ℕ) (x : ℕ → ℝ) (c : ℝ) (hc : 0 < c) :
    measure1bit phi n (fun i => c * x i) = measure1bit phi n x ∧
    ∀ K tau maxIters s, Biht phi n (measure1bit phi n fun i => c * x i) K tau maxIters s ↔ Biht phi n (measure1bit phi n x) K tau maxIters s := by
  have e : measure1bit phi n (fun i => c * x i) = measure1bit phi n x := by
    unfold measure1bit
    have : applyPhi phi n (fun i => c * x i) = c • applyPhi phi n x := by
      unfold applyPhi
      rw [Finset.smul_sum]
      exact Finset.sum_congr rfl fun i _ => (smul_smul _ _ _).symm
    rw [this]
    ext i
    rw [signV_apply, signV_apply]
    exact sign_mul_pos c _ hc
  exact ⟨e, fun K tau maxIters s => by rw [e]⟩

/-- What every state of BIHT satisfies. -/
structure BGood (phi : ℕ → Meas M) (n : ℕ) (y : Meas M) (K : ℕ) (s : BState M) : Prop where
  nodup : s.I.Nodup
  len : s.I.length = K
  range : ∀ i ∈ s.I, i < n
  xlen : s.x.length = K
  res : s.r = y - measure1bit phi n (buildSignal s.I s.x)
  mis : s.mismatched = (Finset.univ.filter fun i => y i ≠ measure1bit phi n (buildSignal s.I s.x) i).card

theorem mkB_good (phi : ℕ → Meas M) (n : ℕ) (y : Meas M) (K : ℕ) (I : List ℕ) (x : List ℝ) (it : ℕ) (h1 : I.Nodup) (h2 : I.length = K) (h3 : ∀ i ∈ I, i < n) (h4 : x.length = K) :
    BGood phi n y K (mkB phi y I x it) := by
  have e : signV (lin phi I x) = measure1bit phi n (buildSignal I x) := by
    unfold measure1bit
    rw [lin_eq_synth phi n I x h1 h3 (by omega)]
    rfl
  refine ⟨h1, h2, h3, h4, ?_, ?_⟩
  · show y - signV (lin phi I x) = _
    rw [e]; rfl
  · show countNonzero (y - signV (lin phi I x)) = _
    rw [e]
    unfold countNonzero
    congr 1
    refine Finset.filter_congr fun i _ => ?_
    show (y i - measure1bit phi n (buildSignal I x) i ≠ 0) ↔ _
    rw [sub_ne_zero]
    rfl

/-- **C77** every state of a BIHT run has `K` distinct atoms and as many coefficients; the residual is the difference between the given bits and the bits of the current sparse signal, the count is the number of bits that differ; the first state is the zero signal. -/
theorem c77_biht_state (phi : ℕ → Meas M) (n : ℕ) (y : Meas M) (K : ℕ) (hK : K ≤ n) (tau : ℝ) (maxIters : ℕ) (s : BState M)
    (h : Reach (bihtCond maxIters) (bihtBody phi n y K tau) (bihtInit phi y K) s) : BGood phi n y K s := by
  refine h.inv (BGood phi n y K) ?_ ?_
  · exact mkB_good phi n y K _ _ 0 List.nodup_range (by simp) (fun i hi => by rw [List.mem_range] at hi; omega) (by simp)
  · intro s _ _
    set x := (List.range n).map fun i => buildSignal s.I s.x i + tau / 2 * (corr ℝ phi n s.r).getD i 0 with hx
    obtain ⟨h1, h2, h3, -⟩ := c51_largest_indices x K
    have hl : x.length = n := by simp [hx]
    rw [hl] at h2 h3
    exact mkB_good phi n y K _ _ _ h1 (by show (largestIndices x K).length = K; omega) h3 (by show (gather 0 x (largestIndices x K)).length = K; rw [gather_length]; omega)

/-- **C77** one step keeps the `K` largest entries of `x + (tau/2) Phiᵀ r` and sets the others to zero. -/
theorem c77_biht_step (phi : ℕ → Meas M) (n : ℕ) (y : Meas M) (K : ℕ) (tau : ℝ) (s : BState M) :
    let z := fun i => buildSignal s.I s.x i + tau / 2 * inner ℝ (phi i) s.r
    let t := bihtBody phi n y K tau s
    (∀ i < n, buildSignal t.I t.x i = if i ∈ t.I then z i else 0) ∧ (∀ i ∈ t.I, ∀ j < n, j ∉ t.I → |z j| ≤ |z i|) ∧ t.iters = s.iters + 1 := by
  intro z t
  set x := (List.range n).map fun i => buildSignal s.I s.x i + tau / 2 * (corr ℝ phi n s.r).getD i 0 with hx
  obtain ⟨h1, h2, h3, -, h5⟩ := c51_largest_indices x K
  have hl : x.length = n := by simp [hx]
  rw [hl] at h2 h3 h5
  have hz : ∀ i < n, x.getD i 0 = z i := by
    intro i hi
    show _ = buildSignal s.I s.x i + tau / 2 * inner ℝ (phi i) s.r
    rw [← corr_getD' (𝕜 := ℝ) phi n s.r hi]
    simp [hx, List.getD_eq_getElem?_getD, hi]
  have hI : t.I = largestIndices x K := rfl
  have hX : t.x = gather 0 x (largestIndices x K) := rfl
  refine ⟨fun i hi => ?_, fun i hi j hj hjn => ?_, rfl⟩
  · rw [hX, hI, buildSignal_gather]
    split_ifs
    · exact hz i hi
    · rfl
  · rw [← hz i (h3 i hi), ← hz j hj]
    exact h5 i hi j hj hjn

/-- **C77** BIHT always stops, after at most `max_iters` steps; it stops early only with a sparse signal whose one-bit measurements are exactly the given ones. -/
theorem c77_biht_stop (phi : ℕ → Meas M) (n : ℕ) (y : Meas M) (K : ℕ) (hK : K ≤ n) (tau : ℝ) (maxIters : ℕ) :
    (∃ s, Biht phi n y K tau maxIters s) ∧
    ∀ s, Biht phi n y K tau maxIters s → s.iters ≤ maxIters ∧ (s.iters < maxIters → measure1bit phi n (buildSignal s.I s.x) = y) ∧
      (s.mismatched = 0 ↔ measure1bit phi n (buildSignal s.I s.x) = y) := by
  refine ⟨exists_out (fun s => s.iters) maxIters (fun s h => h.2) fun s => Nat.lt_succ_self _, fun s hs => ?_⟩
  have hg := c77_biht_state phi n y K hK tau maxIters s hs.1
  have hm : s.mismatched = 0 ↔ measure1bit phi n (buildSignal s.I s.x) = y := by
    rw [hg.mis, Finset.card_eq_zero, Finset.filter_eq_empty_iff]
    constructor
    · intro h; ext i; exact (not_not.mp (h (Finset.mem_univ i))).symm
    · intro h i _; rw [h]; simp
  refine ⟨?_, ?_, hm⟩
  · refine hs.1.inv' (fun s => s.iters ≤ maxIters) (Nat.zero_le _) ?_
    intro s _ _ hc
    exact hc.2
  · intro hlt
    rw [← hm]
    by_contra hne
    exact hs.2 ⟨Nat.pos_of_ne_zero hne, hlt⟩

/-! ## Renormalised fixed points -/

section rfp
variable {n : ℕ}

theorem rfpBody_unit (phi : Fin n → Meas M) (y : Meas M) (delta tau : ℝ) : ∀ o x, rfpBody phi y delta tau o = some x → ‖x‖ = 1 := by
  intro o x h
  cases o with
  | none => cases h
  | some z =>
    simp only [rfpBody] at h
    split_ifs at h with h0
    rw [Option.some_inj] at h
    rw [← h, norm_smul, norm_inv, norm_norm]
    exact inv_mul_cancel₀ h0

/-- **C77** whenever at least one inner step is asked for, the result of RFP is a unit vector or not defined (a `nan` vector; `outer_iters = 0`; `lambda_ = 0`). -/
theorem c77_rfp_unit (phi : Fin n → Meas M) (y : Meas M) (x0 : EuclideanSpace ℝ (Fin n)) (lambda delta : ℝ) (inner outer : ℕ) (hi : 0 < inner)
    (x : EuclideanSpace ℝ (Fin n)) (h : rfp phi y x0 lambda delta inner outer = some x) : ‖x‖ = 1 := by
  unfold rfp at h
  split_ifs at h with hc
  push Not at hc
  obtain ⟨o, rfl⟩ : ∃ o, outer = o + 1 := ⟨outer - 1, by omega⟩
  obtain ⟨k, rfl⟩ : ∃ k, inner = k + 1 := ⟨inner - 1, by omega⟩
  rw [List.range_succ, List.foldl_append, List.foldl_cons, List.foldl_nil, Function.iterate_succ_apply'] at h
  exact rfpBody_unit phi y delta _ _ _ h

/-- One step of RFP from `x` to `x'` with threshold `tau`: `u` is `x - delta (f - ⟨f, x⟩ x)` with every entry moved `tau` towards zero (entries below `tau` become zero), and `x'` is `u` divided by its norm, which must not be zero. -/
def RfpStep (phi : Fin n → Meas M) (y : Meas M) (delta tau : ℝ) (x x' : EuclideanSpace ℝ (Fin n)) : Prop :=
  ∃ u : EuclideanSpace ℝ (Fin n), (∀ j, u j = Verif.Opt.shrink1 tau (x j - delta * (rfpFbar phi y x j - inner ℝ (rfpFbar phi y x) x * x j))) ∧ u ≠ 0 ∧ x' = ‖u‖⁻¹ • u

theorem rfpBody_some (phi : Fin n → Meas M) (y : Meas M) (delta tau : ℝ) (x z : EuclideanSpace ℝ (Fin n)) : rfpBody phi y delta tau (some x) = some z ↔ RfpStep phi y delta tau x z := by
  have hu : ∀ u : EuclideanSpace ℝ (Fin n), (∀ j, u j = Verif.Opt.shrink1 tau (x j - delta * (rfpFbar phi y x j - inner ℝ (rfpFbar phi y x) x * x j))) →
      u = WithLp.toLp 2 fun j => Verif.Opt.shrink1 tau (rfpGradStep phi y delta x j) := fun u h => by
    ext j
    rw [h j]
    simp [rfpGradStep]
  simp only [rfpBody]
  constructor
  · intro h
    split_ifs at h with h0
    rw [Option.some_inj] at h
    exact ⟨_, fun j => by simp [rfpGradStep], fun e => h0 (by rw [e, norm_zero]), h.symm⟩
  · rintro ⟨u, h1, h2, rfl⟩
    rw [← hu u h1, if_neg (norm_ne_zero_iff.2 h2)]

theorem rfp_iterate (phi : Fin n → Meas M) (y : Meas M) (delta tau : ℝ) (x0 : EuclideanSpace ℝ (Fin n)) : ∀ (N : ℕ) (z : EuclideanSpace ℝ (Fin n)), (rfpBody phi y delta tau)^[N] (some x0) = some z ↔
    ∃ x : ℕ → EuclideanSpace ℝ (Fin n), x 0 = x0 ∧ x N = z ∧ ∀ k < N, RfpStep phi y delta tau (x k) (x (k + 1))
  | 0, z => ⟨fun h => ⟨fun _ => x0, rfl, Option.some_inj.1 h, fun k hk => absurd hk (Nat.not_lt_zero k)⟩, fun ⟨x, h0, h1, _⟩ => by rw [← h0, ← h1]; rfl⟩
  | N + 1, z => by
    rw [Function.iterate_succ_apply']
    constructor
    · intro h
      cases hp : (rfpBody phi y delta tau)^[N] (some x0) with
      | none => rw [hp] at h; cases h
      | some w =>
        rw [hp, rfpBody_some] at h
        obtain ⟨x, h0, h1, h2⟩ := (rfp_iterate phi y delta tau x0 N w).1 hp
        refine ⟨fun k => if k ≤ N then x k else z, by simpa using h0, by simp, fun k hk => ?_⟩
        rcases Nat.lt_succ_iff_lt_or_eq.1 hk with hk' | rfl
        · simp only [if_pos hk'.le, if_pos (Nat.succ_le_of_lt hk')]
          exact h2 k hk'
        · simp only [le_refl, if_true, Nat.not_succ_le_self, if_false]
          rwa [h1]
    · rintro ⟨x, h0, h1, h2⟩
      rw [(rfp_iterate phi y delta tau x0 N (x N)).2 ⟨x, h0, rfl, fun k hk => h2 k (hk.trans N.lt_succ_self)⟩, rfpBody_some, ← h1]
      exact h2 N N.lt_succ_self

theorem foldl_iterate {α : Type*} (f : α → α) (m : ℕ) (a : α) : ∀ N : ℕ, (List.range N).foldl (fun x _ => f^[m] x) a = f^[N * m] a
  | 0 => by simp
  | N + 1 => by rw [List.range_succ, List.foldl_append, foldl_iterate f m a N, List.foldl_cons, List.foldl_nil, Nat.succ_mul, Nat.add_comm, Function.iterate_add_apply]

/-- **C77** RFP returns `z` exactly when `outer_iters` and `lambda_` are not zero and `outer_iters * inner_iters` steps with the one threshold `delta / lambda_` lead from the initial guess to `z`; a vector shrunk to zero on the way, `lambda_ = 0` and
`outer_iters = 0` leave no result. -/
theorem c77_rfp_run (phi : Fin n → Meas M) (y : Meas M) (x0 z : EuclideanSpace ℝ (Fin n)) (lambda delta : ℝ) (inner outer : ℕ) : rfp phi y x0 lambda delta inner outer = some z ↔
    outer ≠ 0 ∧ lambda ≠ 0 ∧ ∃ x : ℕ → EuclideanSpace ℝ (Fin n), x 0 = x0 ∧ x (outer * inner) = z ∧ ∀ k < outer * inner, RfpStep phi y delta (delta / lambda) (x k) (x (k + 1)) := by
  unfold rfp
  split_ifs with hc
  · exact ⟨fun h => (by cases h), fun ⟨h1, h2, _⟩ => (by rcases hc with h | h <;> contradiction)⟩
  · push Not at hc
    rw [foldl_iterate, rfp_iterate]
    exact ⟨fun h => ⟨hc.1, hc.2, h⟩, fun h => h.2.2⟩

/-- **C77** the two initial guesses are defined exactly when the drawn vector (the least squares solution) is not zero, and are its positive multiple of unit norm. -/
theorem c77_guess (v : EuclideanSpace ℝ (Fin n)) : (rfpGuess v = none ↔ v = 0) ∧ ∀ x, rfpGuess v = some x → ‖x‖ = 1 ∧ ∃ c : ℝ, 0 < c ∧ x = c • v := by
  unfold rfpGuess
  split_ifs with h0
  · exact ⟨⟨fun _ => norm_eq_zero.mp h0, fun _ => rfl⟩, fun x hx => by cases hx⟩
  · refine ⟨⟨fun hx => (by cases hx), fun hv => absurd (norm_eq_zero.mpr hv) h0⟩, fun x hx => ?_⟩
    rw [Option.some_inj] at hx
    subst hx
    exact ⟨by rw [norm_smul, norm_inv, norm_norm]; exact inv_mul_cancel₀ h0, ‖v‖⁻¹, inv_pos.mpr (lt_of_le_of_ne (norm_nonneg v) (Ne.symm h0)), rfl⟩

/-- The one-sided quadratic cost that RFP is meant to decrease (cs/cs1bit/rfp.py:49-61, 107): half the squares of the violated bits. -/
def violation (phi : Fin n → Meas M) (y : Meas M) (x : EuclideanSpace ℝ (Fin n)) : ℝ := ∑ i, (min 0 (y i * (∑ j, x j • phi j : Meas M) i)) ^ 2 / 2

theorem min_sq (a b : ℝ) : (min 0 a) ^ 2 / 2 + min 0 a * (b - a) ≤ (min 0 b) ^ 2 / 2 := by
  rcases le_total 0 a with ha | ha <;> rcases le_total 0 b with hb | hb
  · rw [min_eq_left ha, min_eq_left hb]; simp
  · rw [min_eq_left ha]; nlinarith [sq_nonneg (min 0 b)]
  · rw [min_eq_right ha, min_eq_left hb]; nlinarith
  · rw [min_eq_right ha, min_eq_right hb]; nlinarith [sq_nonneg (a - b)]

theorem violation_grad (phi : Fin n → Meas M) (y : Meas M) (x z : EuclideanSpace ℝ (Fin n)) :
    violation phi y x - inner ℝ (rfpFbar phi y x) (z - x) ≤ violation phi y z := by
  have e1 : inner ℝ (rfpFbar phi y x) (z - x) = -∑ i, min 0 (y i * (∑ j, x j • phi j : Meas M) i) * (y i * (∑ j, z j • phi j : Meas M) i - y i * (∑ j, x j • phi j : Meas M) i) := by
    have e2 : inner ℝ (rfpFbar phi y x) (z - x) = inner ℝ (WithLp.toLp 2 fun i => y i * (if y i * (∑ j, x j • phi j : Meas M) i ≤ 0 then -(y i * (∑ j, x j • phi j : Meas M) i) else 0) : Meas M) (∑ j, (z j - x j) • phi j) := by
      rw [inner_sum]
      simp only [inner_smul_right]
      rw [PiLp.inner_apply]
      refine Finset.sum_congr rfl fun j _ => ?_
      simp only [rfpFbar, PiLp.sub_apply, RCLike.inner_apply, conj_trivial]
      rw [real_inner_comm]
    rw [e2, PiLp.inner_apply, ← Finset.sum_neg_distrib]
    refine Finset.sum_congr rfl fun i _ => ?_
    simp only [RCLike.inner_apply, conj_trivial]
    have e3 : (∑ j, (z j - x j) • phi j : Meas M) i = (∑ j, z j • phi j : Meas M) i - (∑ j, x j • phi j : Meas M) i := by
      simp only [sub_smul, Finset.sum_sub_distrib, PiLp.sub_apply]
    rw [e3]
    split_ifs with hc
    · rw [min_eq_right hc]; ring
    · rw [min_eq_left (not_le.mp hc).le]; ring
  rw [e1]
  unfold violation
  rw [sub_neg_eq_add, ← Finset.sum_add_distrib]
  exact Finset.sum_le_sum fun i _ => min_sq _ _

/-- **C77** the gradient step of RFP goes the wrong way: from every unit vector it increases the one-sided quadratic cost, by at least `delta |f_tilde|²`. -/
theorem c77_rfp_descent_fails (phi : Fin n → Meas M) (y : Meas M) (delta : ℝ) (x : EuclideanSpace ℝ (Fin n)) (hx : ‖x‖ = 1) :
    violation phi y x + delta * ‖rfpFbar phi y x - inner ℝ (rfpFbar phi y x) x • x‖ ^ 2 ≤ violation phi y (rfpGradStep phi y delta x) := by
  have h := violation_grad phi y x (rfpGradStep phi y delta x)
  set f := rfpFbar phi y x with hf
  have e : rfpGradStep phi y delta x - x = -(delta • (f - inner ℝ f x • x)) := by unfold rfpGradStep; abel
  rw [e, inner_neg_right, inner_smul_right] at h
  have e2 : inner ℝ f (f - inner ℝ f x • x) = ‖f - inner ℝ f x • x‖ ^ 2 := by
    rw [← real_inner_self_eq_norm_sq]
    have : inner ℝ (inner ℝ f x • x) (f - inner ℝ f x • x) = 0 := by
      rw [inner_smul_left, inner_sub_right, inner_smul_right, real_inner_self_eq_norm_sq, hx, real_inner_comm f x]
      simp
    conv_rhs => rw [inner_sub_left, this, sub_zero]
  rw [e2] at h
  linarith

end rfp

/-- A dictionary with two atoms and a one-sparse run. -/
example : ∃ s, Biht (fun i => WithLp.toLp 2 ![if i = 0 then (1 : ℝ) else 0, 1]) 2 (WithLp.toLp 2 ![1, 1]) 1 1 5 s := (c77_biht_stop _ 2 _ 1 (by norm_num) 1 5).1

/-- One step of RFP for the single measurement `x ↦ x` with bit `1`, from the estimate `1`: the bit is right, the shrunk vector is `9/10`. -/
example : ∃ x, rfp (n := 1) (M := 1) (fun _ => WithLp.toLp 2 ![1]) (WithLp.toLp 2 ![1]) (WithLp.toLp 2 ![1]) 1 (1 / 10) 1 1 = some x := by
  have hf : rfpFbar (n := 1) (M := 1) (fun _ => WithLp.toLp 2 ![1]) (WithLp.toLp 2 ![1]) (WithLp.toLp 2 ![1]) = 0 := by
    ext j
    simp [rfpFbar, PiLp.inner_apply]
  have hu : ‖(WithLp.toLp 2 fun j => Verif.Opt.shrink1 (1 / 10 / 1) ((rfpGradStep (n := 1) (M := 1) (fun _ => WithLp.toLp 2 ![1]) (WithLp.toLp 2 ![1]) (1 / 10) (WithLp.toLp 2 ![1])) j) : EuclideanSpace ℝ (Fin 1))‖ ≠ 0 := by
    rw [norm_ne_zero_iff]
    intro h0
    have := congrArg (fun v : EuclideanSpace ℝ (Fin 1) => v 0) h0
    simp only [rfpGradStep, hf, Verif.Opt.shrink1] at this
    norm_num at this
  rw [rfp, if_neg (by norm_num)]
  exact ⟨_, if_neg hu⟩

/-- With the threshold equal to the entry the vector is shrunk to zero: no result. -/
example (z : EuclideanSpace ℝ (Fin 1)) : rfp (n := 1) (M := 1) (fun _ => WithLp.toLp 2 ![1]) (WithLp.toLp 2 ![1]) (WithLp.toLp 2 ![1]) 1 1 1 1 ≠ some z := by
  intro h
  obtain ⟨-, -, x, h0, -, hs⟩ := (c77_rfp_run _ _ _ _ _ _ _ _).1 h
  obtain ⟨u, hu, hne, -⟩ := hs 0 (by norm_num)
  have hf : rfpFbar (n := 1) (M := 1) (fun _ => WithLp.toLp 2 ![1]) (WithLp.toLp 2 ![1]) (WithLp.toLp 2 ![1]) = 0 := by
    ext j
    simp [rfpFbar, PiLp.inner_apply]
  refine hne ?_
  ext j
  rw [hu j, h0, hf]
  fin_cases j
  simp [Verif.Opt.shrink1]

/-- Two measurements with the vectors `(1, 1)` and `(0, 1)`. -/
example := c77_scaling (M := 2) (fun i => WithLp.toLp 2 ![if i = 0 then (1 : ℝ) else 0, 1]) 2 (fun i => (i : ℝ) - 3) 7 (by norm_num)

example (s : BState 2) (h : Biht (fun i => WithLp.toLp 2 ![if i = 0 then (1 : ℝ) else 0, 1]) 2 (WithLp.toLp 2 ![1, 1]) 1 1 5 s) :=
  c77_biht_state (fun i => WithLp.toLp 2 ![if i = 0 then (1 : ℝ) else 0, 1]) 2 (WithLp.toLp 2 ![1, 1]) 1 (by norm_num) 1 5 s h.1

/-- The previous example shows that such an `x` exists. -/
example (x : EuclideanSpace ℝ (Fin 1)) (h : rfp (n := 1) (M := 1) (fun _ => WithLp.toLp 2 ![1]) (WithLp.toLp 2 ![1]) (WithLp.toLp 2 ![1]) 1 (1 / 10) 1 1 = some x) :=
  c77_rfp_unit _ _ _ 1 (1 / 10) 1 1 (by norm_num) x h

example (phi : Fin 2 → Meas 3) (y : Meas 3) := c77_rfp_descent_fails phi y (1 / 2) (EuclideanSpace.single 1 1) (by simp)

end Verif.Cs1bit
