import Verif.Cluster.SscOmpProps
import Verif.Cluster.SpectralClusterProps
import Mathlib.Analysis.InnerProductSpace.PiL2
import Mathlib.Tactic.IntervalCases

set_option autoImplicit false
/-!
# SSC-OMP on points of several subspaces (C130)

The subspaces need not be orthogonal. What is assumed is the usual condition of the theory of SSC-OMP: the points of a subspace are spread well compared with how near the subspaces are to each other.
-/
noncomputable section
namespace Verif.Cluster
open Verif.Pursuit Verif.Loop
open scoped RealInnerProductSpace

variable {E : Type*} [NormedAddCommGroup E] [InnerProductSpace ℝ E]

/-- Nonzero points `X 0, …, X (N-1)`, point `i` in the subspace `S (labels i)`. The cosine between vectors of two of the subspaces is at most `c`; every vector of the subspace of point `j` has a cosine of at least `rho > c` (up to sign)
with another point of this subspace. -/
structure SpreadOut (X : ℕ → E) (N : ℕ) (labels : ℕ → ℕ) (S : ℕ → Submodule ℝ E) (c rho : ℝ) : Prop where
  nz : ∀ i < N, X i ≠ 0
  mem : ∀ i < N, X i ∈ S (labels i)
  apart : ∀ a < N, ∀ b < N, labels a ≠ labels b → ∀ u ∈ S (labels a), ∀ v ∈ S (labels b), |⟪u, v⟫| ≤ c * (‖u‖ * ‖v‖)
  spread : ∀ j < N, ∀ w ∈ S (labels j), ∃ i < N, i ≠ j ∧ labels i = labels j ∧ rho * (‖X i‖ * ‖w‖) ≤ |⟪X i, w⟫|
  gap : 0 ≤ c ∧ c < rho

/-! ## Helper lemmas -/

theorem lin_append_single (phi : ℕ → E) (b : ℕ) (d : ℝ) : ∀ (I : List ℕ) (z : List ℝ), z.length = I.length → lin phi (I ++ [b]) (z ++ [d]) = lin phi I z + d • phi b
  | [], [], _ => by simp [lin]
  | [], _ :: _, h => by simp at h
  | _ :: _, [], h => by simp at h
  | i :: I, c :: z, h => by
    simp only [List.cons_append, lin]
    rw [lin_append_single phi b d I z (by simpa using h), add_assoc]

theorem lin_mem (phi : ℕ → E) (S : Submodule ℝ E) : ∀ (I : List ℕ) (z : List ℝ), (∀ i ∈ I, phi i ∈ S) → lin phi I z ∈ S
  | [], z, _ => by cases z <;> simp [lin]
  | i :: I, [], _ => by simp [lin]
  | i :: I, c :: z, h => S.add_mem (S.smul_mem _ (h i (by simp))) (lin_mem phi S I z fun i hi => h i (by simp [hi]))

/-- The coefficients with those of other groups replaced by zero. -/
def keepOwn (labels : ℕ → ℕ) (a : ℕ) (I : List ℕ) (z : List ℝ) : List ℝ := List.zipWith (fun i c => if labels i = a then c else 0) I z

theorem keepOwn_length (labels : ℕ → ℕ) (a : ℕ) (I : List ℕ) (z : List ℝ) (h : z.length = I.length) : (keepOwn labels a I z).length = I.length := by
  simp [keepOwn, h]

theorem lin_keepOwn_mem (phi : ℕ → E) (labels : ℕ → ℕ) (a : ℕ) (S : Submodule ℝ E) : ∀ (I : List ℕ) (z : List ℝ), (∀ i ∈ I, labels i = a → phi i ∈ S) → lin phi I (keepOwn labels a I z) ∈ S
  | [], z, _ => by simp [lin]
  | i :: I, [], _ => by simp [keepOwn, lin]
  | i :: I, c :: z, h => by
    simp only [keepOwn, List.zipWith_cons_cons, lin]
    refine S.add_mem ?_ (lin_keepOwn_mem phi labels a S I z fun i hi => h i (by simp [hi]))
    split_ifs with hi
    · exact S.smul_mem _ (h i (by simp) hi)
    · rw [zero_smul]; exact S.zero_mem

theorem lin_sub_keepOwn_mem (phi : ℕ → E) (labels : ℕ → ℕ) (a : ℕ) (S : Submodule ℝ E) : ∀ (I : List ℕ) (z : List ℝ), (∀ i ∈ I, labels i ≠ a → phi i ∈ S) → lin phi I z - lin phi I (keepOwn labels a I z) ∈ S
  | [], z, _ => by simp [lin]
  | i :: I, [], _ => by simp [keepOwn, lin]
  | i :: I, c :: z, h => by
    simp only [keepOwn, List.zipWith_cons_cons, lin]
    have ih := lin_sub_keepOwn_mem phi labels a S I z fun i hi => h i (by simp [hi])
    rw [add_sub_add_comm]
    refine S.add_mem ?_ ih
    split_ifs with hi
    · rw [sub_self]; exact S.zero_mem
    · rw [zero_smul, sub_zero]; exact S.smul_mem _ (h i (by simp) hi)

/-- When the kept coefficients carry all of the energy, the others are zero. -/
theorem keepOwn_energy (labels : ℕ → ℕ) (a : ℕ) : ∀ (I : List ℕ) (z : List ℝ), z.length = I.length →
    ((keepOwn labels a I z).map fun c => ‖c‖ ^ 2).sum ≤ (z.map fun c => ‖c‖ ^ 2).sum ∧
    ((z.map fun c => ‖c‖ ^ 2).sum ≤ ((keepOwn labels a I z).map fun c => ‖c‖ ^ 2).sum → ∀ r (h : r < I.length), labels I[r] ≠ a → z.getD r 0 = 0)
  | [], [], _ => by simp [keepOwn]
  | [], _ :: _, h => by simp at h
  | _ :: _, [], h => by simp at h
  | i :: I, c :: z, h => by
    obtain ⟨h1, h2⟩ := keepOwn_energy labels a I z (by simpa using h)
    have e : keepOwn labels a (i :: I) (c :: z) = (if labels i = a then c else 0) :: keepOwn labels a I z := rfl
    rw [e]
    simp only [List.map_cons, List.sum_cons]
    have hc : ‖(if labels i = a then c else 0 : ℝ)‖ ^ 2 ≤ ‖c‖ ^ 2 := by
      split_ifs
      · exact le_rfl
      · rw [norm_zero, zero_pow two_ne_zero]; positivity
    refine ⟨add_le_add hc h1, fun hle r hr hne => ?_⟩
    cases r with
    | zero =>
      simp only [List.getElem_cons_zero] at hne
      rw [if_neg hne, norm_zero, zero_pow two_ne_zero] at hle
      have : ‖c‖ ^ 2 ≤ 0 := by linarith
      simpa using this.antisymm (by positivity)
    | succ r =>
      simp only [List.getElem_cons_succ] at hne
      rw [List.getD_cons_succ]
      exact h2 (by linarith) r (by simpa using hr) hne

theorem buildSignal_zero : ∀ (I : List ℕ) (z : List ℝ) (j : ℕ), (∀ r (h : r < I.length), I[r] = j → z.getD r 0 = 0) → buildSignal I z j = 0
  | [], z, j, _ => by cases z <;> rfl
  | i :: I, [], j, _ => rfl
  | i :: I, c :: z, j, h => by
    simp only [buildSignal]
    split_ifs with hi
    · simpa using h 0 (by simp) hi.1
    · exact buildSignal_zero I z j fun r hr e => by simpa using h (r + 1) (by simpa using hr) (by simpa using e)

theorem norm_normalizeCw (X : ℕ → E) {i : ℕ} (h : X i ≠ 0) : ‖normalizeCw X i‖ = 1 := by
  rw [normalizeCw, norm_smul, norm_inv, norm_norm, inv_mul_cancel₀ (norm_ne_zero_iff.2 h)]

section
variable {X : ℕ → E} {N : ℕ} {labels : ℕ → ℕ} {S : ℕ → Submodule ℝ E} {c rho : ℝ}

theorem SpreadOut.normalize_mem (h : SpreadOut X N labels S c rho) {i : ℕ} (hi : i < N) : normalizeCw X i ∈ S (labels i) :=
  (S _).smul_mem _ (h.mem i hi)

/-- Two of the subspaces have only zero in common. -/
theorem SpreadOut.inter (h : SpreadOut X N labels S c rho) {a b : ℕ} (ha : a < N) (hb : b < N) (hne : labels a ≠ labels b) {u : E} (hu : u ∈ S (labels a)) (hv : u ∈ S (labels b)) : u = 0 := by
  by_contra h0
  have h1 := h.apart a ha b hb hne u hu u hv
  rw [real_inner_self_eq_norm_mul_norm, abs_of_nonneg (by positivity)] at h1
  have hp : 0 < ‖u‖ := norm_pos_iff.2 h0
  obtain ⟨i, hi, -, hl, hs⟩ := h.spread a ha u hu
  have h2 := hs.trans (abs_real_inner_le_norm (X i) u)
  have hpi : 0 < ‖X i‖ := norm_pos_iff.2 (h.nz i hi)
  have : rho ≤ 1 := by
    by_contra hc
    push Not at hc
    nlinarith [mul_pos hpi hp]
  have := h.gap.2
  nlinarith [mul_pos hp hp]

/-- The choice for a residual in the subspace of point `j`. -/
theorem SpreadOut.choice (h : SpreadOut X N labels S c rho) {j : ℕ} (hj : j < N) {r : E} (hr : r ∈ S (labels j)) (h0 : r ≠ 0) :
    let b := absMaxIdx (zeroAt (corr ℝ (normalizeCw X) N r) [j])
    b < N ∧ labels b = labels j ∧ rho * ‖r‖ ≤ |⟪normalizeCw X b, r⟫| := by
  intro b
  obtain ⟨hb, hmax, -⟩ := chosen_spec X (N := N) (j := j) (by omega) r
  obtain ⟨i, hi, hij, -, hs⟩ := h.spread j hj r hr
  have hpi : 0 < ‖X i‖ := norm_pos_iff.2 (h.nz i hi)
  have h1 : rho * ‖r‖ ≤ |⟪normalizeCw X i, r⟫| := by
    rw [inner_normalizeCw, abs_mul, abs_of_nonneg (by positivity), inv_mul_eq_div]
    exact (le_div_iff₀ hpi).2 (by linarith)
  have h2 := h1.trans (hmax i hi hij)
  refine ⟨hb, ?_, h2⟩
  by_contra hne
  have h3 := h.apart b hb j hj hne _ (h.normalize_mem hb) r hr
  rw [norm_normalizeCw X (h.nz b hb), one_mul] at h3
  have := h.gap.2
  nlinarith [norm_pos_iff.2 h0]

/-- With a zero residual index 0 is chosen. -/
theorem choice_zero {j : ℕ} (hN : 0 < N) : absMaxIdx (zeroAt (corr ℝ (normalizeCw X) N 0) [j]) = 0 := by
  have hl : (zeroAt (corr ℝ (normalizeCw X) N (0 : E)) [j]).length = N := by rw [zeroAt_length, corr_length']
  obtain ⟨h1, -, h3⟩ := c51_abs_max_idx (zeroAt (corr ℝ (normalizeCw X) N (0 : E)) [j]) (by intro h; rw [h] at hl; simp at hl; omega)
  by_contra hne
  have := h3 0 (by omega)
  rw [hl] at h1
  rw [zeroAt_getD _ _ (i := absMaxIdx _) (by rw [corr_length']; exact h1), corr_getD' _ _ _ h1, inner_zero_right, ite_self, norm_zero] at this
  exact absurd this (not_lt.2 (norm_nonneg _))

theorem SpreadOut.rho_le_one (h : SpreadOut X N labels S c rho) {j : ℕ} (hj : j < N) : rho ≤ 1 := by
  obtain ⟨i, hi, -, -, hs⟩ := h.spread j hj (X j) (h.mem j hj)
  have h2 := hs.trans (abs_real_inner_le_norm (X i) (X j))
  have hpi : 0 < ‖X i‖ * ‖X j‖ := mul_pos (norm_pos_iff.2 (h.nz i hi)) (norm_pos_iff.2 (h.nz j hj))
  by_contra hc
  push Not at hc
  nlinarith

theorem norm_sub_proj_sq {p r : E} (hp : ‖p‖ = 1) : ‖r - ⟪p, r⟫ • p‖ ^ 2 = ‖r‖ ^ 2 - ⟪p, r⟫ ^ 2 := by
  rw [norm_sub_sq_real, norm_smul, hp, real_inner_smul_right, real_inner_comm p r, Real.norm_eq_abs, mul_one, sq_abs]
  ring

/-- The least squares residual after one more index is not larger than that of any multiple of the new column. -/
theorem sscStep_le {lstsq : List ℕ → E → List ℝ} (hl : ∀ I y, IsLstsq (normalizeCw X) I y (lstsq I y)) (j : ℕ) (y : E) (s : SscState E) (hz : s.z.length = s.I.length) (d : ℝ) :
    ‖(sscStep (normalizeCw X) N lstsq j y s).r‖ ≤ ‖y - lin (normalizeCw X) s.I s.z - d • normalizeCw X (absMaxIdx (zeroAt (corr ℝ (normalizeCw X) N s.r) [j]))‖ := by
  have := least_of_orth (normalizeCw X) y (s.I ++ [absMaxIdx (zeroAt (corr ℝ (normalizeCw X) N s.r) [j])]) _ (s.z ++ [d]) (hl _ y).normal
  rw [lin_append_single _ _ _ _ _ hz, ← sub_sub] at this
  exact this

/-- What holds before every iteration: the indices are those of the own group, or index 0 once the residual is zero. -/
theorem SpreadOut.inv (h : SpreadOut X N labels S c rho) {lstsq : List ℕ → E → List ℝ} (hl : ∀ I y, IsLstsq (normalizeCw X) I y (lstsq I y)) {j : ℕ} (hj : j < N) (k : ℕ) :
    let s := sscSeq X N lstsq j k
    (∀ i ∈ s.I, labels i = labels j ∨ i = 0) ∧ ((∃ i ∈ s.I, labels i ≠ labels j) → s.r = 0) ∧ s.r ∈ S (labels j) ∧ (0 < k → ‖s.r‖ ^ 2 ≤ (1 - rho ^ 2) ^ k * ‖X j‖ ^ 2) ∧
    ((∀ m < k, (sscSeq X N lstsq j m).r ≠ 0) → ∀ i ∈ s.I, labels i = labels j) := by
  have hpj : 0 < ‖X j‖ := norm_pos_iff.2 (h.nz j hj)
  have hr1 := h.rho_le_one hj
  have hr0 : 0 < rho := h.gap.1.trans_lt h.gap.2
  have hq : 0 ≤ 1 - rho ^ 2 := by nlinarith
  induction k with
  | zero => exact ⟨by simp [sscSeq], by simp [sscSeq], h.normalize_mem hj, by simp, by simp [sscSeq]⟩
  | succ k ih =>
    obtain ⟨i1, i2, i3, i4, i5⟩ := ih
    obtain ⟨n1, n2, -, n4⟩ := sscSeq_inv X N lstsq hl j (by omega) k
    have hI : (sscSeq X N lstsq j (k + 1)).I =
        (sscSeq X N lstsq j k).I ++ [absMaxIdx (zeroAt (corr ℝ (normalizeCw X) N (sscSeq X N lstsq j k).r) [j])] := by rw [sscSeq_succ]; rfl
    have hR : (sscSeq X N lstsq j (k + 1)).r = X j - lin (normalizeCw X) (sscSeq X N lstsq j (k + 1)).I (sscSeq X N lstsq j (k + 1)).z := by rw [sscSeq_succ]; rfl
    have hz : (sscSeq X N lstsq j k).z.length = (sscSeq X N lstsq j k).I.length := by
      rcases Nat.eq_zero_or_pos k with rfl | hk
      · rfl
      · rw [n1, (n4 hk).1]
    have hle := fun d => sscStep_le (N := N) hl j (X j) (sscSeq X N lstsq j k) hz d
    rw [← sscSeq_succ] at hle
    generalize hs : sscSeq X N lstsq j k = s at *
    by_cases h0 : s.r = 0
    · have hk : 0 < k := by
        rcases Nat.eq_zero_or_pos k with rfl | hk
        · exfalso
          rw [← hs] at h0
          have : ‖normalizeCw X j‖ = 0 := by rw [norm_eq_zero]; exact h0
          rw [norm_normalizeCw X (h.nz j hj)] at this
          exact one_ne_zero this
        · exact hk
      have hzero : (sscSeq X N lstsq j (k + 1)).r = 0 := by
        have := hle 0
        rw [zero_smul, sub_zero, ← (n4 hk).2, h0, norm_zero] at this
        exact norm_eq_zero.1 (this.antisymm (norm_nonneg _))
      rw [h0, choice_zero (by omega)] at hI
      refine ⟨?_, fun _ => hzero, by rw [hzero]; exact (S _).zero_mem, fun _ => ?_, fun hm => absurd (by rw [hs]; exact h0) (hm k (by omega))⟩
      · intro i hi
        rw [hI, List.mem_append, List.mem_singleton] at hi
        exact hi.elim (i1 i) Or.inr
      · rw [hzero, norm_zero, zero_pow two_ne_zero]; positivity
    · obtain ⟨b1, b2, b3⟩ := h.choice hj i3 h0
      set b := absMaxIdx (zeroAt (corr ℝ (normalizeCw X) N s.r) [j])
      have hown : ∀ i ∈ (sscSeq X N lstsq j (k + 1)).I, labels i = labels j := by
        intro i hi
        rw [hI, List.mem_append, List.mem_singleton] at hi
        rcases hi with hi | rfl
        · by_contra hne
          exact h0 (i2 ⟨i, hi, hne⟩)
        · exact b2
      have hmem : ∀ i ∈ (sscSeq X N lstsq j (k + 1)).I, normalizeCw X i ∈ S (labels j) := by
        intro i hi
        rw [← hown i hi]
        refine h.normalize_mem ?_
        rw [hI, List.mem_append, List.mem_singleton] at hi
        rcases hi with hi | rfl
        · exact n2 i hi
        · exact b1
      refine ⟨fun i hi => Or.inl (hown i hi), fun ⟨i, hi, hne⟩ => absurd (hown i hi) hne, ?_, fun _ => ?_, fun _ => hown⟩
      · rw [hR]
        exact (S _).sub_mem (h.mem j hj) (lin_mem _ _ _ _ hmem)
      · have hb3 : rho ^ 2 * ‖s.r‖ ^ 2 ≤ ⟪normalizeCw X b, s.r⟫ ^ 2 := by
          rw [← mul_pow, ← sq_abs ⟪normalizeCw X b, s.r⟫]
          exact pow_le_pow_left₀ (by positivity) b3 2
        have hpb := norm_normalizeCw X (h.nz b b1)
        rcases Nat.eq_zero_or_pos k with rfl | hk
        · have hs0 : s = { I := [], z := [], r := normalizeCw X j } := by rw [← hs]; rfl
          have e : X j = ‖X j‖ • s.r := by
            rw [hs0]
            show X j = ‖X j‖ • (‖X j‖⁻¹ • X j)
            rw [smul_smul, mul_inv_cancel₀ hpj.ne', one_smul]
          have hn : ‖s.r‖ = 1 := by rw [hs0]; exact norm_normalizeCw X (h.nz j hj)
          have h1 := hle (‖X j‖ * ⟪normalizeCw X b, s.r⟫)
          have e2 : X j - lin (normalizeCw X) s.I s.z - (‖X j‖ * ⟪normalizeCw X b, s.r⟫) • normalizeCw X b = ‖X j‖ • (s.r - ⟪normalizeCw X b, s.r⟫ • normalizeCw X b) := by
            rw [smul_sub, ← e, smul_smul, hs0]
            simp [lin]
          rw [e2, norm_smul, norm_norm] at h1
          calc _ ≤ (‖X j‖ * ‖s.r - ⟪normalizeCw X b, s.r⟫ • normalizeCw X b‖) ^ 2 := pow_le_pow_left₀ (norm_nonneg _) h1 2
            _ = ‖X j‖ ^ 2 * (1 - ⟪normalizeCw X b, s.r⟫ ^ 2) := by rw [mul_pow, norm_sub_proj_sq hpb, hn, one_pow]
            _ ≤ (1 - rho ^ 2) ^ (0 + 1) * ‖X j‖ ^ 2 := by
              rw [hn, one_pow, mul_one] at hb3
              rw [zero_add, pow_one, mul_comm]
              exact mul_le_mul_of_nonneg_right (by linarith) (by positivity)
        · have h1 := hle ⟪normalizeCw X b, s.r⟫
          rw [← (n4 hk).2] at h1
          calc _ ≤ ‖s.r - ⟪normalizeCw X b, s.r⟫ • normalizeCw X b‖ ^ 2 := pow_le_pow_left₀ (norm_nonneg _) h1 2
            _ = ‖s.r‖ ^ 2 - ⟪normalizeCw X b, s.r⟫ ^ 2 := norm_sub_proj_sq hpb
            _ ≤ (1 - rho ^ 2) * ‖s.r‖ ^ 2 := by linarith
            _ ≤ (1 - rho ^ 2) * ((1 - rho ^ 2) ^ k * ‖X j‖ ^ 2) := mul_le_mul_of_nonneg_left (i4 hk) hq
            _ = _ := by ring
end

/-- The coefficients and indices of all columns, as the two `(K, N)` arrays `Z` and `I` that `build_representation_omp` returns (cluster/ssc/omp.py:24-59). -/
def repZ (X : ℕ → E) (N : ℕ) (lstsq : List ℕ → E → List ℝ) (K r j : ℕ) : ℝ := (buildRepresentationOmp X N lstsq K j).z.getD r 0
def repI (X : ℕ → E) (N : ℕ) (lstsq : List ℕ → E → List ℝ) (K r j : ℕ) : ℕ := (buildRepresentationOmp X N lstsq K j).I.getD r 0

/-- The affinity of the representation: `rep_to_affinity(sparse_to_full_rep(Z, I))`. -/
def sscAffinity (X : ℕ → E) (N : ℕ) (lstsq : List ℕ → E → List ℝ) (K : ℕ) : ℕ → ℕ → ℝ := repToAffinity (sparseToFullRep K (repZ X N lstsq K) (repI X N lstsq K))

theorem lin_zero_coeff (phi : ℕ → E) : ∀ (I : List ℕ) (z : List ℝ), (∀ r, r < z.length → z.getD r 0 = 0) → lin phi I z = 0
  | [], z, _ => by simp [lin]
  | _ :: _, [], _ => by simp [lin]
  | i :: I, c :: z, h => by
    have h0 := h 0 (by simp)
    rw [List.getD_cons_zero] at h0
    rw [lin, h0, zero_smul, zero_add]
    exact lin_zero_coeff phi I z fun r hr => by simpa using h (r + 1) (by simpa using hr)

/-- **C130** (selection) for points that are spread out over their subspaces: as long as the residual is not zero only other points of the point's own subspace are selected, each at most once; the squared residual after `K` iterations is at most
`(1 - rho²)^K` times the squared norm of the point, and once it is zero it stays zero. -/
theorem c130_selection {X : ℕ → E} {N : ℕ} {labels : ℕ → ℕ} {S : ℕ → Submodule ℝ E} {c rho : ℝ} (h : SpreadOut X N labels S c rho) {lstsq : List ℕ → E → List ℝ}
    (hl : ∀ I y, IsLstsq (normalizeCw X) I y (lstsq I y)) {j : ℕ} (hj : j < N) (K : ℕ) (hK : 0 < K) :
    ((∀ k, 0 < k → k < K → (buildRepresentationOmp X N lstsq k j).r ≠ 0) →
      (buildRepresentationOmp X N lstsq K j).I.Nodup ∧ ∀ i ∈ (buildRepresentationOmp X N lstsq K j).I, i ≠ j ∧ labels i = labels j) ∧
    ‖(buildRepresentationOmp X N lstsq K j).r‖ ^ 2 ≤ (1 - rho ^ 2) ^ K * ‖X j‖ ^ 2 ∧
    ∀ m, K ≤ m → (buildRepresentationOmp X N lstsq K j).r = 0 → (buildRepresentationOmp X N lstsq m j).r = 0 := by
  have hr0 : 0 < rho := h.gap.1.trans_lt h.gap.2
  refine ⟨fun hne => ?_, (h.inv hl hj K).2.2.2.1 hK, fun m hm h0 => ?_⟩
  · have hne' : ∀ k < K, (sscSeq X N lstsq j k).r ≠ 0 := by
      intro k hk
      rcases Nat.eq_zero_or_pos k with rfl | hk0
      · intro e
        have : ‖normalizeCw X j‖ = 0 := by rw [norm_eq_zero]; exact e
        rw [norm_normalizeCw X (h.nz j hj)] at this
        exact one_ne_zero this
      · exact hne k hk0 hk
    have himp : Improvable X N lstsq K j := by
      intro k hk
      obtain ⟨i, hi, hij, -, hs⟩ := h.spread j hj _ (h.inv hl hj k).2.2.1
      refine ⟨i, hi, hij, fun e => ?_⟩
      rw [e, abs_zero] at hs
      have : 0 < rho * (‖X i‖ * ‖(sscSeq X N lstsq j k).r‖) := mul_pos hr0 (mul_pos (norm_pos_iff.2 (h.nz i hi)) (norm_pos_iff.2 (hne' k hk)))
      linarith
    obtain ⟨d1, d2⟩ := c91_self_distinct_partial X N lstsq hl K j hj h.nz himp
    exact ⟨d1, fun i hi => ⟨fun e => d2 (e ▸ hi), (h.inv hl hj K).2.2.2.2 hne' i hi⟩⟩
  · induction m, hm using Nat.le_induction with
    | base => exact h0
    | succ m hm ih =>
      have n4 := (sscSeq_inv X N lstsq hl j (by omega : 0 < N) m)
      have e : X j - lin (normalizeCw X) (sscSeq X N lstsq j m).I (sscSeq X N lstsq j m).z = 0 := by rw [← (n4.2.2.2 (by omega)).2]; exact ih
      have := sscStep_le (N := N) hl j (X j) (sscSeq X N lstsq j m) (by rw [n4.1, (n4.2.2.2 (by omega)).1]) 0
      rw [e, zero_smul, sub_zero, norm_zero, ← sscSeq_succ] at this
      exact norm_eq_zero.1 (this.antisymm (norm_nonneg _))

/-- **C130** (subspace preserving) for every `K`, also when `K` is larger than the number of iterations after which the residual vanishes: every stored coefficient of a point outside the group is exactly zero. So the flag of
`sparse_subspace_preservation_stats` is set, its error is 0, and the affinity of points of different subspaces is zero. -/
theorem c130_preserving {X : ℕ → E} {N : ℕ} {labels : ℕ → ℕ} {S : ℕ → Submodule ℝ E} {c rho : ℝ} (h : SpreadOut X N labels S c rho) {lstsq : List ℕ → E → List ℝ}
    (hl : ∀ I y, IsLstsq (normalizeCw X) I y (lstsq I y)) (K : ℕ) (hK : 0 < K) :
    (∀ j < N, ∀ r < K, labels (repI X N lstsq K r j) ≠ labels j → repZ X N lstsq K r j = 0) ∧
    (∀ j < N, sparseFlag K (repZ X N lstsq K) (repI X N lstsq K) labels j) ∧
    (∀ j < N, sparseError K (repZ X N lstsq K) (repI X N lstsq K) labels j = some 0) ∧
    ∀ i < N, ∀ j < N, labels i ≠ labels j → sscAffinity X N lstsq K i j = 0 := by
  have hr0 : 0 < rho := h.gap.1.trans_lt h.gap.2
  have main : ∀ j < N, ∀ r < K, labels (repI X N lstsq K r j) ≠ labels j → repZ X N lstsq K r j = 0 := by
    intro j hj r hr hne
    have hlen := (sscSeq_inv X N lstsq hl j (by omega : 0 < N) K).1
    have hrI : r < (sscSeq X N lstsq j K).I.length := by omega
    have eI : repI X N lstsq K r j = (sscSeq X N lstsq j K).I[r] := List.getD_eq_getElem _ _ hrI
    rw [eI] at hne
    obtain ⟨i1, i2, -, -, -⟩ := h.inv hl hj K
    have hr := i2 ⟨_, List.getElem_mem hrI, hne⟩
    obtain ⟨-, n2, -, n4⟩ := sscSeq_inv X N lstsq hl j (by omega : 0 < N) K
    have h0 : labels 0 ≠ labels j := by
      rcases i1 _ (List.getElem_mem hrI) with e | e
      · exact absurd e hne
      · rw [← e]; exact hne
    have hls : IsLstsq (normalizeCw X) (sscSeq X N lstsq j K).I (X j) (sscSeq X N lstsq j K).z := by
      obtain ⟨k, rfl⟩ : ∃ k, K = k + 1 := ⟨K - 1, by omega⟩
      rw [sscSeq_succ]
      exact hl _ _
    set s := sscSeq X N lstsq j K with hs
    have hres := (n4 hK).2
    rw [hr] at hres
    have hx : X j = lin (normalizeCw X) s.I s.z := (sub_eq_zero.1 hres.symm)
    have hv : lin (normalizeCw X) s.I s.z - lin (normalizeCw X) s.I (keepOwn labels (labels j) s.I s.z) = 0 := by
      refine h.inter (a := 0) (b := j) (by omega) hj h0 ?_ ?_
      · refine lin_sub_keepOwn_mem _ _ _ _ _ _ fun i hi hne => ?_
        rcases i1 i hi with e | e
        · exact absurd e hne
        · rw [e]; exact h.normalize_mem (by omega)
      · rw [← hx]
        refine (S _).sub_mem (h.mem j hj) (lin_keepOwn_mem _ _ _ _ _ _ fun i hi e => ?_)
        rw [← e]; exact h.normalize_mem (n2 i hi)
    have hmin := hls.minNorm (keepOwn labels (labels j) s.I s.z) (keepOwn_length _ _ _ _ hls.length) (by
      intro i _
      rw [← sub_eq_zero.1 hv, ← hx, sub_self, inner_zero_right])
    exact (keepOwn_energy labels (labels j) s.I s.z hls.length).2 hmin r hrI hne
  refine ⟨main, fun j hj r hr => ?_, fun j hj => ?_, ?_⟩
  · unfold storedLabel
    split_ifs with hlt
    · rfl
    · by_contra hne
      rw [main j hj r hr hne, abs_zero] at hlt
      norm_num at hlt
  · have hsum : ∑ r ∈ Finset.range K, |repZ X N lstsq K r j| ≠ 0 := by
      intro e
      rw [Finset.sum_eq_zero_iff_of_nonneg fun _ _ => abs_nonneg _] at e
      obtain ⟨-, -, -, n4⟩ := sscSeq_inv X N lstsq hl j (by omega : 0 < N) K
      obtain ⟨n4, n5⟩ := n4 hK
      have hb := (h.inv hl hj K).2.2.2.1 hK
      rw [n5, lin_zero_coeff _ (sscSeq X N lstsq j K).I (sscSeq X N lstsq j K).z (fun r hr => abs_eq_zero.1 (e r (Finset.mem_range.2 (by omega)))), sub_zero] at hb
      have hpj : 0 < ‖X j‖ ^ 2 := pow_pos (norm_pos_iff.2 (h.nz j hj)) 2
      have hr1 := h.rho_le_one hj
      have : (1 - rho ^ 2) ^ K < 1 := pow_lt_one₀ (by nlinarith) (by nlinarith) hK.ne'
      nlinarith
    have e : ∑ r ∈ Finset.range K, (if storedLabel (repZ X N lstsq K) (repI X N lstsq K) labels j r = labels j then |repZ X N lstsq K r j| else 0) = ∑ r ∈ Finset.range K, |repZ X N lstsq K r j| := by
      refine Finset.sum_congr rfl fun r hr => ?_
      split_ifs with hst
      · rfl
      · have : repZ X N lstsq K r j = 0 := by
          refine main j hj r (Finset.mem_range.1 hr) fun e => hst ?_
          unfold storedLabel
          rw [e, ite_self]
        rw [this, abs_zero]
    rw [sparseError, e, fdiv, if_neg hsum, div_self hsum]
    simp
  · have key : ∀ i < N, ∀ j < N, labels i ≠ labels j → sparseToFullRep K (repZ X N lstsq K) (repI X N lstsq K) i j = 0 := by
      intro i hi j hj hne
      refine buildSignal_zero _ _ _ fun r hr e => ?_
      have hr' : r < K := by simpa [column] using hr
      have e' : repI X N lstsq K r j = i := by simpa [column] using e
      have : (column K (repZ X N lstsq K) j).getD r 0 = repZ X N lstsq K r j := by
        rw [List.getD_eq_getElem _ _ (by simpa [column] using hr')]; simp [column]
      rw [this]
      exact main j hj r hr' (by rw [e']; exact hne)
    intro i hi j hj hne
    show |_| + |_| = 0
    rw [key i hi j hj hne, key j hj i hi hne.symm]
    simp

/-- **C130** (batched) the same for `batch_build_representation_omp` with any batch size: coefficients of points of other subspaces are exactly zero. -/
theorem c130_batch {X : ℕ → E} {N : ℕ} {labels : ℕ → ℕ} {S : ℕ → Submodule ℝ E} {c rho : ℝ} (h : SpreadOut X N labels S c rho) {lstsq : List ℕ → E → List ℝ}
    (hl : ∀ I y, IsLstsq (normalizeCw X) I y (lstsq I y)) (K bs : ℕ) (hK : 0 < K) (hbs : 0 < bs) {j : ℕ} (hj : j < N) :
    ∃ t, batchBuildRepresentationOmp X N lstsq K bs j = some t ∧ t.I.length = K ∧ ∀ r < K, labels (t.I.getD r 0) ≠ labels j → t.z.getD r 0 = 0 := by
  obtain ⟨t, h1, h2, h3, -⟩ := c59_batch_partial X N lstsq hl K bs j hK hbs hj h.nz
  refine ⟨t, h1, by rw [← h2]; exact (sscSeq_inv X N lstsq hl j (by omega : 0 < N) K).1, fun r hr hne => ?_⟩
  have := (c130_preserving h hl K hK).1 j hj r hr (by rw [repI, h2]; exact hne)
  rw [repZ, h3] at this
  have hlen : t.z.length = K := by
    have := ((sscSeq_inv X N lstsq hl j (by omega : 0 < N) K).2.2.2 hK).1
    change (buildRepresentationOmp X N lstsq K j).z.length = K at this
    rw [h3, List.length_map] at this
    exact this
  rw [List.getD_eq_getElem _ _ (by rw [List.length_map]; omega), List.getElem_map] at this
  rw [List.getD_eq_getElem _ _ (by omega)]
  exact (mul_eq_zero.1 this).resolve_left (norm_ne_zero_iff.2 (h.nz j hj))

/-- **C130** (no isolated points) when the residual of a point is not zero before any of its `K` iterations, another point of its subspace has a positive affinity with it. -/
theorem c130_neighbour {X : ℕ → E} {N : ℕ} {labels : ℕ → ℕ} {S : ℕ → Submodule ℝ E} {c rho : ℝ} (h : SpreadOut X N labels S c rho) {lstsq : List ℕ → E → List ℝ}
    (hl : ∀ I y, IsLstsq (normalizeCw X) I y (lstsq I y)) {j : ℕ} (hj : j < N) (K : ℕ) (hK : 0 < K) (hne : ∀ k, 0 < k → k < K → (buildRepresentationOmp X N lstsq k j).r ≠ 0) :
    ∃ i < N, i ≠ j ∧ labels i = labels j ∧ 0 < sscAffinity X N lstsq K i j := by
  obtain ⟨d1, d2⟩ := (c130_selection h hl hj K hK).1 hne
  obtain ⟨n1, n2, -, n4⟩ := sscSeq_inv X N lstsq hl j (by omega : 0 < N) K
  have hex : ∃ r < K, repZ X N lstsq K r j ≠ 0 := by
    by_contra hno
    push Not at hno
    have := (c130_preserving h hl K hK).2.2.1 j hj
    rw [sparseError, fdiv, if_pos] at this
    · simp at this
    · exact Finset.sum_eq_zero fun r hr => by rw [hno r (Finset.mem_range.1 hr), abs_zero]
  obtain ⟨r, hr, hz⟩ := hex
  have hrI : r < (buildRepresentationOmp X N lstsq K j).I.length := by
    show r < (sscSeq X N lstsq j K).I.length
    omega
  have eI : repI X N lstsq K r j = (buildRepresentationOmp X N lstsq K j).I[r] := List.getD_eq_getElem _ _ hrI
  have hm := List.getElem_mem hrI
  refine ⟨(buildRepresentationOmp X N lstsq K j).I[r], n2 _ hm, (d2 _ hm).1, (d2 _ hm).2, ?_⟩
  have hcol : column K (repI X N lstsq K) j = (buildRepresentationOmp X N lstsq K j).I := by
    refine List.ext_getElem (by simp only [column_length]; exact n1.symm) fun q hq hq' => ?_
    simp only [column, List.getElem_map, List.getElem_range]
    exact List.getD_eq_getElem _ _ hq'
  have e : sparseToFullRep K (repZ X N lstsq K) (repI X N lstsq K) (buildRepresentationOmp X N lstsq K j).I[r] j = repZ X N lstsq K r j := by
    rw [sparseToFullRep, hcol, buildSignal_get _ _ d1 (by rw [column_length]; exact n1.symm) r hrI, List.getD_eq_getElem _ _ (by rw [column_length]; exact hr)]
    simp [column]
  refine lt_of_lt_of_le (abs_pos.2 hz) ?_
  show _ ≤ |_| + |_|
  rw [e]
  exact le_add_of_nonneg_right (abs_nonneg _)

theorem sscComponents {X : ℕ → E} {N : ℕ} {labels : ℕ → ℕ} {S : ℕ → Submodule ℝ E} {c rho : ℝ} (h : SpreadOut X N labels S c rho) {lstsq : List ℕ → E → List ℝ}
    (hl : ∀ I y, IsLstsq (normalizeCw X) I y (lstsq I y)) (K : ℕ) (hK : 0 < K) {k : ℕ} (hlab : ∀ i < N, labels i < k) (hex : ∀ a < k, ∃ i < N, labels i = a)
    (W : Matrix (Fin N) (Fin N) ℝ) (hW : ∀ i j, W i j = sscAffinity X N lstsq K i j) (hcon : ∀ i j : Fin N, labels i = labels j → Relation.ReflTransGen (fun a b => 0 < W a b) i j) :
    IsAffinity W ∧ Components W k (fun i : Fin N => (⟨labels i, hlab i i.2⟩ : Fin k)) := by
  refine ⟨⟨fun i j => ?_, fun i j => ?_⟩, ⟨fun a => ?_, fun i j hij => ?_, fun i j e => ?_⟩⟩
  · rw [hW, hW]; exact (c58_affinity _ i j).1
  · rw [hW]; exact (c58_affinity _ i j).2.1
  · obtain ⟨i, hi, e⟩ := hex a a.2
    exact ⟨⟨i, hi⟩, Fin.ext e⟩
  · refine Fin.ext ?_
    by_contra hne
    rw [hW, (c130_preserving h hl K hK).2.2.2 i i.2 j j.2 hne] at hij
    exact lt_irrefl _ hij
  · exact hcon i j (by simpa using e)

/-- **C130** (clustering) `unnormalized_k` applied to the affinity of the representation: when in addition the points of every subspace are connected with each other by their affinities, points of the same subspace get the same label, and
if one of the restarts of k-means starts with a point of each subspace, two points get the same label exactly when they are in the same subspace. -/
theorem c130_clustering {X : ℕ → E} {N : ℕ} {labels : ℕ → ℕ} {S : ℕ → Submodule ℝ E} {c rho : ℝ} (h : SpreadOut X N labels S c rho) {lstsq : List ℕ → E → List ℝ}
    (hl : ∀ I y, IsLstsq (normalizeCw X) I y (lstsq I y)) (K : ℕ) (hK : 0 < K) {k : ℕ} (hk : 0 < k) (hlab : ∀ i < N, labels i < k) (hex : ∀ a < k, ∃ i < N, labels i = a)
    (W : Matrix (Fin N) (Fin N) ℝ) (hW : ∀ i j, W i j = sscAffinity X N lstsq K i j) (hcon : ∀ i j : Fin N, labels i = labels j → Relation.ReflTransGen (fun a b => 0 < W a b) i j)
    (hkN : k ≤ N) {svd : Matrix (Fin N) (Fin N) ℝ → SquareSvd N} (hsvd : IsSquareSvd (unnormalizedLaplacian W) (svd (unnormalizedLaplacian W)))
    {seeds : List (ℕ → ℕ)} {sol : SpecSolution N} (hsol : UnnormalizedK svd W k hkN seeds sol) :
    (∀ a, sol.singularValues a = 0 ↔ N - k ≤ a.1) ∧ (∀ i j : Fin N, labels i = labels j → sol.assignment i = sol.assignment j) ∧
    ((∃ seed ∈ seeds, ∀ a < k, ∃ t < k, seed t < N ∧ labels (seed t) = a) → ∀ i j : Fin N, sol.assignment i = sol.assignment j ↔ labels i = labels j) := by
  obtain ⟨hA, hC⟩ := sscComponents h hl K hK hlab hex W hW hcon
  obtain ⟨r1, -, -, r4, r5⟩ := c96_unnormalized_k hA hk hC hsvd hsol
  refine ⟨r1, fun i j e => r4 i j (Fin.ext e), fun ⟨seed, hs, hall⟩ i j => ?_⟩
  rw [r5 ⟨seed, hs, fun a => ?_⟩ i j]
  · simp
  · obtain ⟨t, ht, hN, e⟩ := hall a a.2
    exact ⟨t, ht, ⟨seed t, hN⟩, rfl, Fin.ext e⟩

/-- **C130** (clustering) the same for `normalized_random_walk_k`, when no residual is zero before any of the `K` iterations (so that no point is isolated). -/
theorem c130_clustering_random_walk {X : ℕ → E} {N : ℕ} {labels : ℕ → ℕ} {S : ℕ → Submodule ℝ E} {c rho : ℝ} (h : SpreadOut X N labels S c rho) {lstsq : List ℕ → E → List ℝ}
    (hl : ∀ I y, IsLstsq (normalizeCw X) I y (lstsq I y)) (K : ℕ) (hK : 0 < K) (hne : ∀ j < N, ∀ k, 0 < k → k < K → (buildRepresentationOmp X N lstsq k j).r ≠ 0) {k : ℕ} (hk : 0 < k)
    (hlab : ∀ i < N, labels i < k) (hex : ∀ a < k, ∃ i < N, labels i = a)
    (W : Matrix (Fin N) (Fin N) ℝ) (hW : ∀ i j, W i j = sscAffinity X N lstsq K i j) (hcon : ∀ i j : Fin N, labels i = labels j → Relation.ReflTransGen (fun a b => 0 < W a b) i j)
    (hkN : k ≤ N) {svd : Matrix (Fin N) (Fin N) ℝ → SquareSvd N} (hsvd : IsSquareSvd (randomWalkLaplacian W) (svd (randomWalkLaplacian W)))
    {seeds : List (ℕ → ℕ)} {sol : SpecSolution N} (hsol : RandomWalkK svd W k hkN seeds sol) :
    (∀ a, sol.singularValues a = 0 ↔ N - k ≤ a.1) ∧ (∀ i j : Fin N, labels i = labels j → sol.assignment i = sol.assignment j) ∧
    ((∃ seed ∈ seeds, ∀ a < k, ∃ t < k, seed t < N ∧ labels (seed t) = a) → ∀ i j : Fin N, sol.assignment i = sol.assignment j ↔ labels i = labels j) := by
  obtain ⟨hA, hC⟩ := sscComponents h hl K hK hlab hex W hW hcon
  have hd : ∀ i, 0 < degrees W i := by
    intro j
    obtain ⟨i, hi, -, -, hp⟩ := c130_neighbour h hl j.2 K hK (hne j j.2)
    refine Finset.sum_pos' (fun a _ => hA.nonneg _ _) ⟨⟨i, hi⟩, Finset.mem_univ _, ?_⟩
    rw [hW]
    exact hp
  obtain ⟨r1, -, -, r4, r5⟩ := c96_random_walk_k hA hd hk hC hsvd hsol
  refine ⟨r1, fun i j e => r4 i j (Fin.ext e), fun ⟨seed, hs, hall⟩ i j => ?_⟩
  rw [r5 ⟨seed, hs, fun a => ?_⟩ i j]
  · simp
  · obtain ⟨t, ht, hN, e⟩ := hall a a.2
    exact ⟨t, ht, ⟨seed t, hN⟩, rfl, Fin.ext e⟩

/-! ## A plane and a line in space at an angle with cosine 3/5 -/

/-- The plane of the first two coordinates and the line through `(3, 0, 4)`. -/
def exSub (a : ℕ) : Submodule ℝ (EuclideanSpace ℝ (Fin 3)) where
  carrier := {x | if a = 0 then x 2 = 0 else x 1 = 0 ∧ 4 * x 0 = 3 * x 2}
  add_mem' := by
    intro x y hx hy
    simp only [Set.mem_setOf_eq] at *
    split_ifs at * with h
    · simp [hx, hy]
    · simp only [PiLp.add_apply]; exact ⟨by rw [hx.1, hy.1, add_zero], by linarith [hx.2, hy.2]⟩
  zero_mem' := by simp
  smul_mem' := by
    intro t x hx
    simp only [Set.mem_setOf_eq] at *
    split_ifs at * with h
    · simp [hx]
    · simp only [PiLp.smul_apply, smul_eq_mul]; exact ⟨by rw [hx.1, mul_zero], by linear_combination t * hx.2⟩

/-- Four points of the plane and two of the line. -/
def exPts : ℕ → EuclideanSpace ℝ (Fin 3)
  | 0 => !₂[1, 0, 0]
  | 1 => !₂[0, 2, 0]
  | 2 => !₂[1, 1, 0]
  | 3 => !₂[3, -3, 0]
  | 4 => !₂[3, 0, 4]
  | _ => !₂[-3, 0, -4]

theorem ip3 (x y : EuclideanSpace ℝ (Fin 3)) : ⟪x, y⟫ = x 0 * y 0 + x 1 * y 1 + x 2 * y 2 := by
  simp [PiLp.inner_apply, Fin.sum_univ_three]
  ring

theorem nsq3 (x : EuclideanSpace ℝ (Fin 3)) : ‖x‖ ^ 2 = x 0 ^ 2 + x 1 ^ 2 + x 2 ^ 2 := by
  rw [← real_inner_self_eq_norm_sq, ip3]; ring

theorem exPts_spread : SpreadOut exPts 6 (fun i => i / 4) exSub (3 / 5) (7 / 10) := by
  have hge : ∀ (q : ℝ) (u v : EuclideanSpace ℝ (Fin 3)), 0 ≤ q → q ^ 2 * (‖u‖ ^ 2 * ‖v‖ ^ 2) ≤ ⟪u, v⟫ ^ 2 → q * (‖u‖ * ‖v‖) ≤ |⟪u, v⟫| := by
    intro q u v hq h
    have : (q * (‖u‖ * ‖v‖)) ^ 2 ≤ ⟪u, v⟫ ^ 2 := by rw [mul_pow, mul_pow]; exact h
    exact (le_abs_self _).trans (sq_le_sq.1 this)
  have hle : ∀ (q : ℝ) (u v : EuclideanSpace ℝ (Fin 3)), 0 ≤ q → ⟪u, v⟫ ^ 2 ≤ q ^ 2 * (‖u‖ ^ 2 * ‖v‖ ^ 2) → |⟪u, v⟫| ≤ q * (‖u‖ * ‖v‖) := by
    intro q u v hq h
    have : ⟪u, v⟫ ^ 2 ≤ (q * (‖u‖ * ‖v‖)) ^ 2 := by rw [mul_pow, mul_pow]; exact h
    exact abs_le_of_sq_le_sq this (by positivity)
  have h0 : ∀ x, x ∈ exSub 0 ↔ x 2 = 0 := fun x => by
    show (if (0 : ℕ) = 0 then x 2 = 0 else x 1 = 0 ∧ 4 * x 0 = 3 * x 2) ↔ _
    rw [if_pos rfl]
  have h1 : ∀ x, x ∈ exSub 1 ↔ x 1 = 0 ∧ 4 * x 0 = 3 * x 2 := fun x => by
    show (if (1 : ℕ) = 0 then x 2 = 0 else x 1 = 0 ∧ 4 * x 0 = 3 * x 2) ↔ _
    rw [if_neg one_ne_zero]
  have hcross : ∀ u ∈ exSub 0, ∀ v ∈ exSub 1, |⟪u, v⟫| ≤ 3 / 5 * (‖u‖ * ‖v‖) := by
    intro u hu v hv
    refine hle _ _ _ (by norm_num) ?_
    rw [h0] at hu
    rw [h1] at hv
    have hv2 : v 2 = 4 / 3 * v 0 := by linarith [hv.2]
    rw [ip3, nsq3, nsq3, hu, hv.1, hv2]
    nlinarith [mul_nonneg (sq_nonneg (u 1)) (sq_nonneg (v 0))]
  refine ⟨?_, ?_, ?_, ?_, by norm_num⟩
  · intro i hi e
    have e0 := congrFun (congrArg WithLp.ofLp e) 0
    have e1 := congrFun (congrArg WithLp.ofLp e) 1
    interval_cases i <;> simp [exPts] at e0 e1
  · intro i hi
    interval_cases i
    · exact (h0 _).2 (by simp [exPts])
    · exact (h0 _).2 (by simp [exPts])
    · exact (h0 _).2 (by simp [exPts])
    · exact (h0 _).2 (by simp [exPts])
    · exact (h1 _).2 ⟨by simp [exPts], by simp [exPts]; norm_num⟩
    · exact (h1 _).2 ⟨by simp [exPts], by simp [exPts]; norm_num⟩
  · intro a ha b hb hne u hu v hv
    beta_reduce at hne hu hv
    have hab : a / 4 = 0 ∧ b / 4 = 1 ∨ a / 4 = 1 ∧ b / 4 = 0 := by omega
    rcases hab with ⟨ea, eb⟩ | ⟨ea, eb⟩
    · rw [ea] at hu; rw [eb] at hv
      exact hcross u hu v hv
    · rw [ea] at hu; rw [eb] at hv
      rw [real_inner_comm, mul_comm ‖u‖]
      exact hcross v hv u hu
  · intro j hj w hw
    beta_reduce at hw
    by_cases hj4 : j < 4
    · have e : j / 4 = 0 := by omega
      rw [e, h0] at hw
      have pick : ∀ i < 4, i ≠ j → (7 / 10 : ℝ) ^ 2 * (‖exPts i‖ ^ 2 * ‖w‖ ^ 2) ≤ ⟪exPts i, w⟫ ^ 2 →
          ∃ i < 6, i ≠ j ∧ i / 4 = j / 4 ∧ 7 / 10 * (‖exPts i‖ * ‖w‖) ≤ |⟪exPts i, w⟫| :=
        fun i hi hij h => ⟨i, by omega, hij, by omega, hge _ _ _ (by norm_num) h⟩
      by_cases hj2 : j < 2
      · rcases le_total 0 (w 0 * w 1) with hs | hs
        · refine pick 2 (by norm_num) (by omega) ?_
          rw [ip3, nsq3, nsq3, hw]
          simp [exPts]
          nlinarith [sq_nonneg (w 0), sq_nonneg (w 1)]
        · refine pick 3 (by norm_num) (by omega) ?_
          rw [ip3, nsq3, nsq3, hw]
          simp [exPts]
          nlinarith [sq_nonneg (w 0), sq_nonneg (w 1)]
      · rcases le_total (w 0 ^ 2) (w 1 ^ 2) with hs | hs
        · refine pick 1 (by norm_num) (by omega) ?_
          rw [ip3, nsq3, nsq3, hw]
          simp [exPts]
          nlinarith [sq_nonneg (w 0), sq_nonneg (w 1)]
        · refine pick 0 (by norm_num) (by omega) ?_
          rw [ip3, nsq3, nsq3, hw]
          simp [exPts]
          nlinarith [sq_nonneg (w 0), sq_nonneg (w 1)]
    · have e : j / 4 = 1 := by omega
      rw [e, h1] at hw
      have hw2 : w 2 = 4 / 3 * w 0 := by linarith [hw.2]
      refine ⟨9 - j, by omega, by omega, by show (9 - j) / 4 = j / 4; omega, hge _ _ _ (by norm_num) ?_⟩
      have : 9 - j = 4 ∨ 9 - j = 5 := by omega
      rcases this with e | e <;> rw [e, ip3, nsq3, nsq3, hw2, hw.1] <;> simp [exPts] <;> nlinarith [sq_nonneg (w 0)]

/-- So SSC-OMP with any number of iterations separates the plane from the line. -/
example (lstsq : List ℕ → EuclideanSpace ℝ (Fin 3) → List ℝ) (hl : ∀ I y, IsLstsq (normalizeCw exPts) I y (lstsq I y)) (K : ℕ) (hK : 0 < K) : sscAffinity exPts 6 lstsq K 1 4 = 0 :=
  (c130_preserving exPts_spread hl K hK).2.2.2 1 (by norm_num) 4 (by norm_num) (by norm_num)

example (lstsq : List ℕ → EuclideanSpace ℝ (Fin 3) → List ℝ) (hl : ∀ I y, IsLstsq (normalizeCw exPts) I y (lstsq I y)) : ‖(buildRepresentationOmp exPts 6 lstsq 3 4).r‖ ^ 2 ≤ (51 / 100) ^ 3 * ‖exPts 4‖ ^ 2 := by
  have := (c130_selection exPts_spread hl (j := 4) (by norm_num) 3 (by norm_num)).2.1
  norm_num at this ⊢
  exact this

/-! ## Two lines of the plane with two points each -/

/-- The real axis and the line through `3 + 4i`. -/
def exLine (a : ℕ) : Submodule ℝ ℂ := Submodule.span ℝ {if a = 0 then (1 : ℂ) else ⟨3, 4⟩}

def exLinePts : ℕ → ℂ
  | 0 => 1
  | 1 => -2
  | 2 => ⟨3, 4⟩
  | _ => ⟨6, 8⟩

theorem exLine_spread : SpreadOut exLinePts 4 (fun i => i / 2) exLine (3 / 5) 1 := by
  have hn : ‖(⟨3, 4⟩ : ℂ)‖ = 5 := by
    rw [Complex.norm_def, Complex.normSq_mk, show (3 : ℝ) * 3 + 4 * 4 = 5 * 5 by norm_num, Real.sqrt_mul_self (by norm_num)]
  have hcross : ∀ u ∈ exLine 0, ∀ v ∈ exLine 1, |⟪u, v⟫| ≤ 3 / 5 * (‖u‖ * ‖v‖) := by
    intro u hu v hv
    obtain ⟨a, rfl⟩ := Submodule.mem_span_singleton.1 hu
    obtain ⟨b, rfl⟩ := Submodule.mem_span_singleton.1 hv
    rw [if_pos rfl, if_neg one_ne_zero, real_inner_smul_left, real_inner_smul_right, norm_smul, norm_smul, hn, norm_one, abs_mul, abs_mul, Real.norm_eq_abs, Real.norm_eq_abs]
    have : ⟪(1 : ℂ), (⟨3, 4⟩ : ℂ)⟫ = 3 := by simp [Complex.inner]
    rw [this, abs_of_pos (by norm_num : (0 : ℝ) < 3)]
    linarith [mul_nonneg (abs_nonneg a) (abs_nonneg b)]
  have hmem : ∀ i < 4, exLinePts i ∈ exLine (i / 2) := by
    intro i hi
    interval_cases i
    · exact Submodule.mem_span_singleton.2 ⟨1, by simp [exLinePts]⟩
    · exact Submodule.mem_span_singleton.2 ⟨-2, by simp [exLinePts]⟩
    · exact Submodule.mem_span_singleton.2 ⟨1, by simp [exLinePts]⟩
    · exact Submodule.mem_span_singleton.2 ⟨2, by apply Complex.ext <;> simp [exLinePts] <;> norm_num⟩
  refine ⟨?_, hmem, ?_, ?_, by norm_num⟩
  · intro i hi e
    have e0 := congrArg Complex.re e
    interval_cases i <;> simp [exLinePts] at e0
  · intro a ha b hb hne u hu v hv
    beta_reduce at hne hu hv
    have hab : a / 2 = 0 ∧ b / 2 = 1 ∨ a / 2 = 1 ∧ b / 2 = 0 := by omega
    rcases hab with ⟨ea, eb⟩ | ⟨ea, eb⟩
    · rw [ea] at hu; rw [eb] at hv
      exact hcross u hu v hv
    · rw [ea] at hu; rw [eb] at hv
      rw [real_inner_comm, mul_comm ‖u‖]
      exact hcross v hv u hu
  · intro j hj w hw
    obtain ⟨i, hi, hij, e⟩ : ∃ i < 4, i ≠ j ∧ i / 2 = j / 2 := by
      rcases Nat.even_or_odd' j with ⟨q, rfl | rfl⟩
      · exact ⟨2 * q + 1, by omega, by omega, by omega⟩
      · exact ⟨2 * q, by omega, by omega, by omega⟩
    refine ⟨i, hi, hij, e, ?_⟩
    have hx := hmem i hi
    rw [e] at hx
    obtain ⟨a, ha⟩ := Submodule.mem_span_singleton.1 hx
    obtain ⟨b, hb⟩ := Submodule.mem_span_singleton.1 hw
    rw [← ha, ← hb, real_inner_smul_left, real_inner_smul_right, norm_smul, norm_smul, real_inner_self_eq_norm_mul_norm, abs_mul, abs_mul, abs_mul, abs_norm, Real.norm_eq_abs, Real.norm_eq_abs]
    exact le_of_eq (by ring)

/-- With one iteration the points of a line are connected, so that the hypotheses of the clustering theorems hold. -/
example (lstsq : List ℕ → ℂ → List ℝ) (hl : ∀ I y, IsLstsq (normalizeCw exLinePts) I y (lstsq I y)) (i j : Fin 4) (e : i.1 / 2 = j.1 / 2) :
    Relation.ReflTransGen (fun a b : Fin 4 => 0 < sscAffinity exLinePts 4 lstsq 1 a b) i j := by
  by_cases hij : i = j
  · rw [hij]
  · obtain ⟨m, hm, hmj, el, hp⟩ := c130_neighbour exLine_spread hl j.2 1 one_pos (by omega)
    have : m = i.1 := by omega
    subst this
    exact Relation.ReflTransGen.single hp

example (lstsq : List ℕ → EuclideanSpace ℝ (Fin 3) → List ℝ) (hl : ∀ I y, IsLstsq (normalizeCw exPts) I y (lstsq I y)) :=
  c130_batch exPts_spread hl 2 4 (by norm_num) (by norm_num) (j := 4) (by norm_num)

theorem exLine_connected (lstsq : List ℕ → ℂ → List ℝ) (hl : ∀ I y, IsLstsq (normalizeCw exLinePts) I y (lstsq I y)) (i j : Fin 4) (e : i.1 / 2 = j.1 / 2) :
    Relation.ReflTransGen (fun a b : Fin 4 => 0 < sscAffinity exLinePts 4 lstsq 1 a b) i j := by
  by_cases hij : i = j
  · rw [hij]
  · obtain ⟨m, hm, hmj, el, hp⟩ := c130_neighbour exLine_spread hl j.2 1 one_pos (by omega)
    have : m = i.1 := by omega
    subst this
    exact Relation.ReflTransGen.single hp

/-- The four points on two lines: all hypotheses hold for every least squares solver and every singular value decomposition. -/
example (lstsq : List ℕ → ℂ → List ℝ) (hl : ∀ I y, IsLstsq (normalizeCw exLinePts) I y (lstsq I y)) (svd : Matrix (Fin 4) (Fin 4) ℝ → SquareSvd 4)
    (hsvd : ∀ M, IsSquareSvd M (svd M)) (seeds : List (ℕ → ℕ)) (sol : SpecSolution 4)
    (hsol : UnnormalizedK svd (fun i j => sscAffinity exLinePts 4 lstsq 1 i j) 2 (by norm_num) seeds sol) :=
  c130_clustering exLine_spread hl 1 one_pos (k := 2) (by norm_num) (fun i hi => by omega) (fun a ha => ⟨2 * a, by omega, by omega⟩) _ (fun _ _ => rfl) (exLine_connected lstsq hl) _ (hsvd _) hsol

example (lstsq : List ℕ → ℂ → List ℝ) (hl : ∀ I y, IsLstsq (normalizeCw exLinePts) I y (lstsq I y)) (svd : Matrix (Fin 4) (Fin 4) ℝ → SquareSvd 4)
    (hsvd : ∀ M, IsSquareSvd M (svd M)) (seeds : List (ℕ → ℕ)) (sol : SpecSolution 4)
    (hsol : RandomWalkK svd (fun i j => sscAffinity exLinePts 4 lstsq 1 i j) 2 (by norm_num) seeds sol) :=
  c130_clustering_random_walk exLine_spread hl 1 one_pos (fun j _ k h0 h1 => by omega) (k := 2) (by norm_num) (fun i hi => by omega) (fun a ha => ⟨2 * a, by omega, by omega⟩) _ (fun _ _ => rfl)
    (exLine_connected lstsq hl) _ (hsvd _) hsol

end Verif.Cluster
