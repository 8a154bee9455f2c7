import Verif.Pursuit.GreedyProps

set_option autoImplicit false
/-!
# Recovery by iterative hard thresholding and hard thresholding pursuit under a restricted isometry property (C110, C111)
-/
noncomputable section
namespace Verif.Pursuit
open Verif.Loop

variable {𝕜 : Type*} [RCLike 𝕜] {E : Type*} [NormedAddCommGroup E] [InnerProductSpace 𝕜 E]

/-! ## Specification -/

/-- The Euclidean norm of the first `n` entries. -/
def l2 (n : ℕ) (z : ℕ → 𝕜) : ℝ := Real.sqrt (∑ i ∈ Finset.range n, ‖z i‖ ^ 2)

/-- The entries of `z` below `n` vanish outside `T`. -/
def SuppIn (n : ℕ) (T : Finset ℕ) (z : ℕ → 𝕜) : Prop := ∀ i, i < n → i ∉ T → z i = 0

/-- Restricted isometry property of order `s` with constant `δ` of the dictionary scaled by `√mu`: `mu |Phi z|²` differs from `|z|²` by at most
`δ |z|²` for every `z` with at most `s` non-zero entries. -/
def Rip (𝕜 : Type*) [RCLike 𝕜] {E : Type*} [NormedAddCommGroup E] [InnerProductSpace 𝕜 E] (phi : ℕ → E) (n : ℕ) (mu : ℝ) (s : ℕ) (δ : ℝ) : Prop :=
  ∀ (z : ℕ → 𝕜) (T : Finset ℕ), T.card ≤ s → SuppIn n T z → |mu * ‖synth phi n z‖ ^ 2 - l2 n z ^ 2| ≤ δ * l2 n z ^ 2

/-! ## Vectors -/

/-- The first `n` entries as a Euclidean vector. -/
def ev (n : ℕ) (z : ℕ → 𝕜) : EuclideanSpace 𝕜 (Fin n) := WithLp.toLp 2 fun i => z i

theorem l2_eq (n : ℕ) (z : ℕ → 𝕜) : l2 n z = ‖ev n z‖ := by
  rw [EuclideanSpace.norm_eq, l2, ← Fin.sum_univ_eq_sum_range (fun i => ‖z i‖ ^ 2) n]; rfl

theorem l2_sq (n : ℕ) (z : ℕ → 𝕜) : l2 n z ^ 2 = ∑ i ∈ Finset.range n, ‖z i‖ ^ 2 :=
  Real.sq_sqrt (Finset.sum_nonneg fun _ _ => sq_nonneg _)

theorem l2_nonneg (n : ℕ) (z : ℕ → 𝕜) : 0 ≤ l2 n z := Real.sqrt_nonneg _

theorem ev_add (n : ℕ) (a b : ℕ → 𝕜) : ev n (fun i => a i + b i) = ev n a + ev n b := rfl
theorem ev_sub (n : ℕ) (a b : ℕ → 𝕜) : ev n (fun i => a i - b i) = ev n a - ev n b := rfl
theorem ev_smul (n : ℕ) (c : 𝕜) (a : ℕ → 𝕜) : ev n (fun i => c * a i) = c • ev n a := rfl

theorem ev_inner (n : ℕ) (a b : ℕ → 𝕜) : inner 𝕜 (ev n a) (ev n b) = ∑ i ∈ Finset.range n, inner 𝕜 (a i) (b i) := by
  rw [PiLp.inner_apply, ← Fin.sum_univ_eq_sum_range (fun i => inner 𝕜 (a i) (b i)) n]; rfl

theorem synth_add (phi : ℕ → E) (n : ℕ) (a b : ℕ → 𝕜) : synth phi n (fun i => a i + b i) = synth phi n a + synth phi n b := by
  simp [synth, add_smul, Finset.sum_add_distrib]

theorem synth_smul (phi : ℕ → E) (n : ℕ) (c : 𝕜) (a : ℕ → 𝕜) : synth phi n (fun i => c * a i) = c • synth phi n a := by
  simp [synth, mul_smul, Finset.smul_sum]

/-- Correlating with the atoms is the adjoint of the synthesis. -/
theorem ev_inner_corr (phi : ℕ → E) (n : ℕ) (w : ℕ → 𝕜) (r : E) :
    inner 𝕜 (ev n w) (ev n fun i => inner 𝕜 (phi i) r) = inner 𝕜 (synth phi n w) r := by
  rw [ev_inner, synth, sum_inner]
  refine Finset.sum_congr rfl fun i _ => ?_
  rw [inner_smul_left, RCLike.inner_apply, mul_comm]

theorem SuppIn.mono {n : ℕ} {T U : Finset ℕ} {z : ℕ → 𝕜} (h : SuppIn n T z) (hTU : T ⊆ U) : SuppIn n U z :=
  fun i hi hU => h i hi fun hT => hU (hTU hT)

open Classical in
/-- `z` restricted to `T`. -/
def restr (T : Finset ℕ) (z : ℕ → 𝕜) : ℕ → 𝕜 := fun i => if i ∈ T then z i else 0

theorem restr_supp (n : ℕ) (T : Finset ℕ) (z : ℕ → 𝕜) : SuppIn n T (restr T z) := fun i _ h => by simp [restr, h]

theorem restr_inner (n : ℕ) (T : Finset ℕ) (z : ℕ → 𝕜) : RCLike.re (inner 𝕜 (ev n (restr T z)) (ev n z)) = l2 n (restr T z) ^ 2 := by
  rw [ev_inner, map_sum, l2_sq]
  refine Finset.sum_congr rfl fun i _ => ?_
  by_cases h : i ∈ T
  · simp only [restr, h, if_true]
    rw [inner_self_eq_norm_sq_to_K]; norm_cast
  · simp [restr, h]

/-! ## Consequences of the restricted isometry property -/

/-- Polarisation: on vectors with a common support of at most `s` entries `mu Phi* Phi` is within `δ` of the identity. -/
theorem Rip.re_bilin {phi : ℕ → E} {n : ℕ} {mu : ℝ} {s : ℕ} {δ : ℝ} (h : Rip 𝕜 phi n mu s δ) (T : Finset ℕ) (hT : T.card ≤ s)
    (w v : ℕ → 𝕜) (hw : SuppIn n T w) (hv : SuppIn n T v) :
    |RCLike.re (inner 𝕜 (ev n w) (ev n v)) - mu * RCLike.re (inner 𝕜 (synth phi n w) (synth phi n v))| ≤ δ * (l2 n w * l2 n v) := by
  -- first with the arithmetic mean instead of the product
  have key : ∀ w v : ℕ → 𝕜, SuppIn n T w → SuppIn n T v →
      |RCLike.re (inner 𝕜 (ev n w) (ev n v)) - mu * RCLike.re (inner 𝕜 (synth phi n w) (synth phi n v))| ≤ δ * ((l2 n w ^ 2 + l2 n v ^ 2) / 2) := by
    intro w v hw hv
    have hp := h (fun i => w i + v i) T hT fun i hi hn => by simp [hw i hi hn, hv i hi hn]
    have hm := h (fun i => w i - v i) T hT fun i hi hn => by simp [hw i hi hn, hv i hi hn]
    rw [l2_eq, ev_add, synth_add, @norm_add_sq 𝕜, @norm_add_sq 𝕜] at hp
    rw [l2_eq, ev_sub, synth_sub, @norm_sub_sq 𝕜, @norm_sub_sq 𝕜] at hm
    rw [l2_eq, l2_eq]
    rw [abs_le] at hp hm ⊢
    constructor <;> nlinarith
  rcases eq_or_lt_of_le (l2_nonneg n w) with h0 | hwp
  · have e : ev n w = 0 := by rw [← norm_eq_zero, ← l2_eq]; exact h0.symm
    have e2 : synth phi n w = 0 := by
      have hz := h w T hT hw
      rw [← h0] at hz
      -- `|w| = 0` makes every entry vanish
      have hall : ∀ i, i < n → w i = 0 := fun i hi => by
        have := congrFun (congrArg WithLp.ofLp e) ⟨i, hi⟩
        exact this
      exact Finset.sum_eq_zero fun i hi => by rw [hall i (Finset.mem_range.1 hi), zero_smul]
    rw [e, e2, ← h0]; simp
  rcases eq_or_lt_of_le (l2_nonneg n v) with h0 | hvp
  · have e : ev n v = 0 := by rw [← norm_eq_zero, ← l2_eq]; exact h0.symm
    have e2 : synth phi n v = 0 := by
      have hall : ∀ i, i < n → v i = 0 := fun i hi => by
        have := congrFun (congrArg WithLp.ofLp e) ⟨i, hi⟩
        exact this
      exact Finset.sum_eq_zero fun i hi => by rw [hall i (Finset.mem_range.1 hi), zero_smul]
    rw [e, e2, ← h0]; simp
  set p := l2 n w with hpd
  set q := l2 n v with hqd
  have hk := key (fun i => (q : 𝕜) * w i) (fun i => (p : 𝕜) * v i) (fun i hi hn => by simp [hw i hi hn])
    (fun i hi hn => by simp [hv i hi hn])
  have n1 : l2 n (fun i => (q : 𝕜) * w i) = q * p := by
    rw [l2_eq, ev_smul, norm_smul, RCLike.norm_ofReal, abs_of_pos hvp, ← l2_eq]
  have n2 : l2 n (fun i => (p : 𝕜) * v i) = p * q := by
    rw [l2_eq, ev_smul, norm_smul, RCLike.norm_ofReal, abs_of_pos hwp, ← l2_eq]
  rw [n1, n2, ev_smul, ev_smul, synth_smul, synth_smul] at hk
  simp only [inner_smul_left, inner_smul_right, RCLike.conj_ofReal] at hk
  simp only [RCLike.re_ofReal_mul] at hk
  have e : q * (p * RCLike.re (inner 𝕜 (ev n w) (ev n v))) - mu * (q * (p * RCLike.re (inner 𝕜 (synth phi n w) (synth phi n v))))
      = (p * q) * (RCLike.re (inner 𝕜 (ev n w) (ev n v)) - mu * RCLike.re (inner 𝕜 (synth phi n w) (synth phi n v))) := by ring
  have hpq : 0 < p * q := mul_pos hwp hvp
  have hk' : (p * q) * |RCLike.re (inner 𝕜 (ev n w) (ev n v)) - mu * RCLike.re (inner 𝕜 (synth phi n w) (synth phi n v))| ≤ (p * q) * (δ * (p * q)) := by
    rw [← abs_of_pos hpq, ← abs_mul, abs_of_pos hpq, ← e]
    refine le_trans (le_of_eq ?_) (hk.trans (le_of_eq (by ring)))
    congr 1
    ring
  exact le_of_mul_le_mul_left hk' hpq

/-- The gradient step on a signal supported on `U`, read off on `T`. -/
theorem Rip.grad_bound {phi : ℕ → E} {n : ℕ} {mu : ℝ} {s : ℕ} {δ : ℝ} (h : Rip 𝕜 phi n mu s δ) (T U : Finset ℕ)
    (hTU : (T ∪ U).card ≤ s) (v : ℕ → 𝕜) (hv : SuppIn n U v) :
    l2 n (restr T fun i => v i - (mu : 𝕜) * inner 𝕜 (phi i) (synth phi n v)) ≤ δ * l2 n v := by
  set u : ℕ → 𝕜 := fun i => v i - (mu : 𝕜) * inner 𝕜 (phi i) (synth phi n v) with hu
  set w := restr T u with hw
  have hws : SuppIn n (T ∪ U) w := (restr_supp n T u).mono Finset.subset_union_left
  have h1 := (abs_le.1 (h.re_bilin (T ∪ U) hTU w v hws (hv.mono Finset.subset_union_right))).2
  have h2 := restr_inner n T u
  rw [← hw] at h2
  have h3 : inner 𝕜 (ev n w) (ev n u) = inner 𝕜 (ev n w) (ev n v) - (mu : 𝕜) * inner 𝕜 (synth phi n w) (synth phi n v) := by
    rw [hu, ev_sub, inner_sub_right, ev_smul, inner_smul_right, ev_inner_corr]
  rw [h3, map_sub, RCLike.re_ofReal_mul] at h2
  rw [h2] at h1
  rcases eq_or_lt_of_le (l2_nonneg n w) with h0 | hp
  · rw [← h0]
    have hd : 0 ≤ δ * l2 n v ^ 2 := (abs_nonneg _).trans (h v (T ∪ U) hTU (hv.mono Finset.subset_union_right))
    rcases eq_or_lt_of_le (l2_nonneg n v) with h00 | hvp
    · rw [← h00, mul_zero]
    · have : 0 ≤ δ * l2 n v * l2 n v := by rw [mul_assoc, ← sq]; exact hd
      exact nonneg_of_mul_nonneg_left this hvp
  · have : l2 n w * l2 n w ≤ l2 n w * (δ * l2 n v) := by nlinarith
    exact le_of_mul_le_mul_left this hp

/-- The correlations of noise read off on `T`. -/
theorem Rip.noise_bound {phi : ℕ → E} {n : ℕ} {mu : ℝ} (hmu : 0 ≤ mu) {s : ℕ} {δ : ℝ} (h : Rip 𝕜 phi n mu s δ) (hδ : 0 ≤ δ) (T : Finset ℕ)
    (hT : T.card ≤ s) (e : E) :
    l2 n (restr T fun i => (mu : 𝕜) * inner 𝕜 (phi i) e) ≤ Real.sqrt (mu * (1 + δ)) * ‖e‖ := by
  set u : ℕ → 𝕜 := fun i => (mu : 𝕜) * inner 𝕜 (phi i) e with hu
  set w := restr T u with hw
  have h2 := restr_inner n T u
  rw [← hw] at h2
  have h3 : inner 𝕜 (ev n w) (ev n u) = (mu : 𝕜) * inner 𝕜 (synth phi n w) e := by
    rw [hu, ev_smul, inner_smul_right, ev_inner_corr]
  rw [h3, RCLike.re_ofReal_mul] at h2
  have h4 : RCLike.re (inner 𝕜 (synth phi n w) e) ≤ ‖synth phi n w‖ * ‖e‖ := re_inner_le_norm _ _
  have h5 := (abs_le.1 (h w T hT (restr_supp n T u))).2
  have h6 : mu * ‖synth phi n w‖ ≤ Real.sqrt (mu * (1 + δ)) * l2 n w := by
    rw [← Real.sqrt_sq (l2_nonneg n w), ← Real.sqrt_mul (by positivity)]
    refine Real.le_sqrt_of_sq_le ?_
    have : mu * (mu * ‖synth phi n w‖ ^ 2) ≤ mu * ((1 + δ) * l2 n w ^ 2) := mul_le_mul_of_nonneg_left (by linarith) hmu
    nlinarith
  have h7 : l2 n w ^ 2 ≤ l2 n w * (Real.sqrt (mu * (1 + δ)) * ‖e‖) := by
    rw [← h2]
    calc mu * RCLike.re (inner 𝕜 (synth phi n w) e) ≤ mu * (‖synth phi n w‖ * ‖e‖) := mul_le_mul_of_nonneg_left h4 hmu
      _ = (mu * ‖synth phi n w‖) * ‖e‖ := by ring
      _ ≤ (Real.sqrt (mu * (1 + δ)) * l2 n w) * ‖e‖ := mul_le_mul_of_nonneg_right h6 (norm_nonneg _)
      _ = _ := by ring
  rcases eq_or_lt_of_le (l2_nonneg n w) with h0 | hp
  · rw [← h0]; positivity
  · rw [sq] at h7; exact le_of_mul_le_mul_left h7 hp

/-! ## Thresholding -/

theorem l2_congr {n : ℕ} {a b : ℕ → 𝕜} (h : ∀ i, i < n → a i = b i) : l2 n a = l2 n b := by
  unfold l2
  rw [Finset.sum_congr rfl fun i hi => by rw [h i (Finset.mem_range.1 hi)]]

theorem l2_add_le (n : ℕ) (a b : ℕ → 𝕜) : l2 n (fun i => a i + b i) ≤ l2 n a + l2 n b := by
  rw [l2_eq, l2_eq, l2_eq, ev_add]; exact norm_add_le _ _

theorem l2_sub_le (n : ℕ) (a b : ℕ → 𝕜) : l2 n (fun i => a i - b i) ≤ l2 n a + l2 n b := by
  rw [l2_eq, l2_eq, l2_eq, ev_sub]; exact norm_sub_le _ _

theorem l2_le_of_sq {n : ℕ} {a b : ℕ → 𝕜} (h : l2 n a ^ 2 ≤ l2 n b ^ 2) : l2 n a ≤ l2 n b :=
  (pow_le_pow_iff_left₀ (l2_nonneg _ _) (l2_nonneg _ _) two_ne_zero).1 h

theorem restr_sq (n : ℕ) (T : Finset ℕ) (z : ℕ → 𝕜) : l2 n (restr T z) ^ 2 = ∑ i ∈ (Finset.range n).filter (· ∈ T), ‖z i‖ ^ 2 := by
  classical
  rw [l2_sq, Finset.sum_filter]
  refine Finset.sum_congr rfl fun i _ => ?_
  by_cases h : i ∈ T <;> simp [restr, h]

/-- A signal splits into its parts inside and outside of `T`. -/
theorem restr_split (n : ℕ) (T : Finset ℕ) (z : ℕ → 𝕜) :
    l2 n z ^ 2 = l2 n (restr T z) ^ 2 + ∑ i ∈ (Finset.range n).filter (· ∉ T), ‖z i‖ ^ 2 := by
  classical
  rw [restr_sq, l2_sq, Finset.sum_filter_add_sum_filter_not]

theorem restr_mono (n : ℕ) {T U : Finset ℕ} (h : T ⊆ U) (z : ℕ → 𝕜) : l2 n (restr T z) ≤ l2 n (restr U z) := by
  classical
  apply l2_le_of_sq
  rw [restr_sq, restr_sq]
  exact Finset.sum_le_sum_of_subset_of_nonneg (fun i hi => by
    simp only [Finset.mem_filter] at hi ⊢; exact ⟨hi.1, h hi.2⟩) fun _ _ _ => sq_nonneg _

/-- The `K` largest entries of `g` as a signal: its distance to any `K`-sparse `a` is at most twice the distance of `g` and `a` on the two supports. -/
theorem thresh_bound (g : List 𝕜) (n K : ℕ) (hg : g.length = n) (a : ℕ → 𝕜) (S : Finset ℕ) (hS : S.card ≤ K) (ha : SuppIn n S a) :
    l2 n (fun i => (if i ∈ largestIndices g K then g.getD i 0 else 0) - a i) ≤
      2 * l2 n (restr ((largestIndices g K).toFinset ∪ S) fun i => g.getD i 0 - a i) := by
  classical
  set I := largestIndices g K with hI
  set x' : ℕ → 𝕜 := fun i => if i ∈ I then g.getD i 0 else 0 with hx'
  set T := I.toFinset ∪ S with hT
  have hbest := c51_best_K_term g K a S hS (by rw [hg]; exact ha)
  rw [hg] at hbest
  have h1 : l2 n (restr T fun i => g.getD i 0 - x' i) ≤ l2 n (restr T fun i => g.getD i 0 - a i) := by
    apply l2_le_of_sq
    have s1 := restr_split n T fun i => g.getD i 0 - x' i
    have s2 := restr_split n T fun i => g.getD i 0 - a i
    rw [l2_sq] at s1 s2
    have hout : ∑ i ∈ (Finset.range n).filter (· ∉ T), ‖g.getD i 0 - x' i‖ ^ 2 = ∑ i ∈ (Finset.range n).filter (· ∉ T), ‖g.getD i 0 - a i‖ ^ 2 := by
      refine Finset.sum_congr rfl fun i hi => ?_
      simp only [Finset.mem_filter, Finset.mem_range, hT, Finset.mem_union, List.mem_toFinset, not_or] at hi
      rw [ha i hi.1 hi.2.2]; simp [hx', hi.2.1]
    have hbest' : ∑ i ∈ Finset.range n, ‖g.getD i 0 - x' i‖ ^ 2 ≤ ∑ i ∈ Finset.range n, ‖g.getD i 0 - a i‖ ^ 2 := hbest
    linarith
  have h2 : l2 n (fun i => x' i - a i) = l2 n (fun i => restr T (fun i => g.getD i 0 - a i) i - restr T (fun i => g.getD i 0 - x' i) i) := by
    apply l2_congr
    intro i hi
    by_cases hiT : i ∈ T
    · simp only [restr, hiT, if_true]; ring
    · simp only [restr, hiT, if_false]
      simp only [hT, Finset.mem_union, List.mem_toFinset, not_or] at hiT
      rw [ha i hi hiT.2]; simp [hx', hiT.1]
  rw [h2]
  refine (l2_sub_le n _ _).trans ?_
  linarith

/-- The part of `a` missed by a set `I` of positions, at least as many as the support of `a`, on which `g` dominates. -/
theorem missed_bound_of (g : ℕ → 𝕜) (n : ℕ) (I : Finset ℕ) (hIn : ∀ i ∈ I, i < n) (a : ℕ → 𝕜) (S : Finset ℕ) (hSn : ∀ i ∈ S, i < n) (ha : SuppIn n S a)
    (hcard : S.card ≤ I.card) (hdom : ∀ i ∈ I, ∀ j ∈ S, j ∉ I → ‖g j‖ ≤ ‖g i‖) :
    l2 n (restr (S \ I) a) ≤ Real.sqrt 2 * l2 n (restr (I ∪ S) fun i => g i - a i) := by
  classical
  have hsum : ∑ i ∈ S, ‖g i‖ ^ 2 ≤ ∑ i ∈ I, ‖g i‖ ^ 2 := by
    refine sum_le_of_dominates (a := fun i => ‖g i‖ ^ 2) (fun i => sq_nonneg _) S I hcard fun i hi j hj hjI => ?_
    exact pow_le_pow_left₀ (norm_nonneg _) (hdom i hi j hj hjI) 2
  have hdiff : ∑ i ∈ S \ I, ‖g i‖ ^ 2 ≤ ∑ i ∈ I \ S, ‖g i‖ ^ 2 := by
    have e1 := Finset.sum_inter_add_sum_sdiff S I fun i => ‖g i‖ ^ 2
    have e2 := Finset.sum_inter_add_sum_sdiff I S fun i => ‖g i‖ ^ 2
    rw [Finset.inter_comm] at e2
    linarith
  set u : ℕ → 𝕜 := fun i => g i - a i with hu
  have hq : l2 n (restr (S \ I) fun i => g i) ^ 2 ≤ l2 n (restr (I \ S) u) ^ 2 := by
    rw [restr_sq, restr_sq]
    have f1 : (Finset.range n).filter (· ∈ S \ I) = S \ I := by
      ext i; simp only [Finset.mem_filter, Finset.mem_range, Finset.mem_sdiff]
      exact ⟨fun h => h.2, fun h => ⟨hSn i h.1, h⟩⟩
    have f2 : (Finset.range n).filter (· ∈ I \ S) = I \ S := by
      ext i; simp only [Finset.mem_filter, Finset.mem_range, Finset.mem_sdiff]
      exact ⟨fun h => h.2, fun h => ⟨hIn i h.1, h⟩⟩
    rw [f1, f2]
    refine hdiff.trans_eq (Finset.sum_congr rfl fun i hi => ?_)
    obtain ⟨hi1, hi2⟩ := Finset.mem_sdiff.1 hi
    rw [hu]; simp only []; rw [ha i (hIn i hi1) hi2, sub_zero]
  have hpq : l2 n (restr (S \ I) u) ^ 2 + l2 n (restr (I \ S) u) ^ 2 ≤ l2 n (restr (I ∪ S) u) ^ 2 := by
    rw [restr_sq, restr_sq, restr_sq, ← Finset.sum_union]
    · refine Finset.sum_le_sum_of_subset_of_nonneg (fun i hi => ?_) fun _ _ _ => sq_nonneg _
      simp only [Finset.mem_union, Finset.mem_filter, Finset.mem_sdiff] at hi ⊢
      tauto
    · rw [Finset.disjoint_left]
      intro i hi hi'
      simp only [Finset.mem_filter, Finset.mem_sdiff] at hi hi'
      exact hi.2.2 hi'.2.1
  have hle : l2 n (restr (S \ I) a) ≤ l2 n (restr (S \ I) fun i => g i) + l2 n (restr (S \ I) u) := by
    have e : l2 n (restr (S \ I) a) = l2 n (fun i => restr (S \ I) (fun i => g i) i - restr (S \ I) u i) := by
      apply l2_congr
      intro i _
      by_cases h : i ∈ S \ I
      · simp only [restr, h, if_true, hu]; ring
      · simp only [restr, h, if_false, sub_zero]
    rw [e]; exact l2_sub_le n _ _
  set p := l2 n (restr (S \ I) u)
  set q := l2 n (restr (S \ I) fun i => g i)
  set D := l2 n (restr (I ∪ S) u)
  have hD : 0 ≤ D := l2_nonneg _ _
  refine hle.trans ?_
  refine (abs_le_of_sq_le_sq' ?_ (by positivity)).2
  rw [mul_pow, Real.sq_sqrt (by norm_num)]
  nlinarith [sq_nonneg (p - q)]

/-- The part of a `K`-sparse `a` missed by the `K` largest entries of `g`. -/
theorem missed_bound (g : List 𝕜) (n K : ℕ) (hg : g.length = n) (a : ℕ → 𝕜) (S : Finset ℕ) (hS : S.card ≤ K) (hSn : ∀ i ∈ S, i < n) (ha : SuppIn n S a) :
    l2 n (restr (S \ (largestIndices g K).toFinset) a) ≤
      Real.sqrt 2 * l2 n (restr ((largestIndices g K).toFinset ∪ S) fun i => g.getD i 0 - a i) := by
  classical
  obtain ⟨h1, h2, h3, -, h5⟩ := c51_largest_indices g K
  rw [hg] at h2 h3 h5
  set I := (largestIndices g K).toFinset with hI
  have hIn : ∀ i ∈ I, i < n := fun i hi => h3 i (by simpa [hI] using hi)
  have hcard : S.card ≤ I.card := by
    rw [hI, List.toFinset_card_of_nodup h1, h2]
    refine le_min hS ?_
    have := Finset.card_le_card (show S ⊆ Finset.range n from fun i hi => Finset.mem_range.2 (hSn i hi))
    simpa using this
  exact missed_bound_of (fun i => g.getD i 0) n I hIn a S hSn ha hcard fun i hi j hj hjI =>
    h5 i (by simpa [hI] using hi) j (hSn j hj) (by simpa [hI] using hjI)

end Verif.Pursuit
