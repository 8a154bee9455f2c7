import Verif.Cluster.SscProps
import Verif.Pursuit.GreedyProps
import Mathlib.Data.List.GetD

set_option autoImplicit false
/-!
# The representations built by SSC-OMP (C91)

A zero column becomes `0/0` when it is normalised, and then all results are not numbers. The theorems are about data without zero columns.
-/
noncomputable section
namespace Verif.Cluster
open Verif.Pursuit
open scoped RealInnerProductSpace

variable {E : Type*} [NormedAddCommGroup E] [InnerProductSpace ℝ E]

/-- The state of column `j` before iteration `k` (`k = 0` is the normalised column as residual). -/
def sscSeq (X : ℕ → E) (N : ℕ) (lstsq : List ℕ → E → List ℝ) (j k : ℕ) : SscState E :=
  (sscStep (normalizeCw X) N lstsq j (X j))^[k] { I := [], z := [], r := normalizeCw X j }

theorem sscSeq_succ (X : ℕ → E) (N : ℕ) (lstsq : List ℕ → E → List ℝ) (j k : ℕ) :
    sscSeq X N lstsq j (k + 1) = sscStep (normalizeCw X) N lstsq j (X j) (sscSeq X N lstsq j k) := Function.iterate_succ_apply' _ _ _

theorem inner_normalizeCw (X : ℕ → E) (i : ℕ) (r : E) : ⟪normalizeCw X i, r⟫ = ‖X i‖⁻¹ * ⟪X i, r⟫ := by
  rw [normalizeCw, real_inner_smul_left]

theorem inner_normalizeCw_eq_zero (X : ℕ → E) (i : ℕ) (r : E) : ⟪normalizeCw X i, r⟫ = 0 ↔ ⟪X i, r⟫ = 0 := by
  rw [inner_normalizeCw, mul_eq_zero, inv_eq_zero, norm_eq_zero]
  constructor
  · rintro (h | h)
    · rw [h, inner_zero_left]
    · exact h
  · exact Or.inr

/-- The index chosen for column `j` when the residual is `r`. -/
theorem chosen_spec (X : ℕ → E) {N j : ℕ} (hN : 0 < N) (r : E) :
    absMaxIdx (zeroAt (corr ℝ (normalizeCw X) N r) [j]) < N ∧
    (∀ i < N, i ≠ j → |⟪normalizeCw X i, r⟫| ≤ |⟪normalizeCw X (absMaxIdx (zeroAt (corr ℝ (normalizeCw X) N r) [j])), r⟫|) ∧
    ((∃ i < N, i ≠ j ∧ ⟪X i, r⟫ ≠ 0) → absMaxIdx (zeroAt (corr ℝ (normalizeCw X) N r) [j]) ≠ j ∧
      ⟪X (absMaxIdx (zeroAt (corr ℝ (normalizeCw X) N r) [j])), r⟫ ≠ 0) := by
  set b := absMaxIdx (zeroAt (corr ℝ (normalizeCw X) N r) [j]) with hb
  have hl : (zeroAt (corr ℝ (normalizeCw X) N r) [j]).length = N := by rw [zeroAt_length, corr_length']
  obtain ⟨h1, h2, -⟩ := c51_abs_max_idx (zeroAt (corr ℝ (normalizeCw X) N r) [j]) (by intro h; rw [h] at hl; simp at hl; omega)
  rw [← hb, hl] at h1
  rw [← hb, hl] at h2
  have hg : ∀ i < N, (zeroAt (corr ℝ (normalizeCw X) N r) [j]).getD i 0 = if i = j then 0 else ⟪normalizeCw X i, r⟫ := by
    intro i hi
    rw [zeroAt_getD _ _ (by rw [corr_length']; exact hi), corr_getD' _ _ _ hi]
    simp
  refine ⟨h1, fun i hi hij => ?_, ?_⟩
  · have := h2 i hi
    rw [hg i hi, hg b h1, if_neg hij] at this
    by_cases hbj : b = j
    · rw [if_pos hbj, norm_zero] at this
      rw [Real.norm_eq_abs] at this
      exact this.trans (abs_nonneg _)
    · rwa [if_neg hbj, Real.norm_eq_abs, Real.norm_eq_abs] at this
  · rintro ⟨i, hi, hij, hne⟩
    have := h2 i hi
    rw [hg i hi, hg b h1, if_neg hij, Real.norm_eq_abs] at this
    have hp : 0 < |⟪normalizeCw X i, r⟫| := abs_pos.mpr fun h => hne ((inner_normalizeCw_eq_zero X i r).mp h)
    by_cases hbj : b = j
    · rw [if_pos hbj, norm_zero] at this; linarith
    · rw [if_neg hbj, Real.norm_eq_abs] at this
      refine ⟨hbj, fun h => ?_⟩
      rw [(inner_normalizeCw_eq_zero X b r).mpr h, abs_zero] at this
      linarith

theorem sscSeq_inv (X : ℕ → E) (N : ℕ) (lstsq : List ℕ → E → List ℝ) (hl : ∀ I y, IsLstsq (normalizeCw X) I y (lstsq I y)) (j : ℕ) (hN : 0 < N) (k : ℕ) :
    (sscSeq X N lstsq j k).I.length = k ∧ (∀ i ∈ (sscSeq X N lstsq j k).I, i < N) ∧
    (∀ i ∈ (sscSeq X N lstsq j k).I, ⟪normalizeCw X i, (sscSeq X N lstsq j k).r⟫ = 0) ∧
    (0 < k → (sscSeq X N lstsq j k).z.length = k ∧ (sscSeq X N lstsq j k).r = X j - lin (normalizeCw X) (sscSeq X N lstsq j k).I (sscSeq X N lstsq j k).z) := by
  induction k with
  | zero => exact ⟨rfl, by simp [sscSeq], by simp [sscSeq], by simp⟩
  | succ k ih =>
    rw [sscSeq_succ]
    generalize sscSeq X N lstsq j k = s at ih
    obtain ⟨i1, i2, -, -⟩ := ih
    have hc := (chosen_spec X (j := j) hN s.r).1
    have hI : (sscStep (normalizeCw X) N lstsq j (X j) s).I = s.I ++ [absMaxIdx (zeroAt (corr ℝ (normalizeCw X) N s.r) [j])] := rfl
    have hlen : (sscStep (normalizeCw X) N lstsq j (X j) s).I.length = k + 1 := by rw [hI, List.length_append, i1]; rfl
    refine ⟨hlen, ?_, ?_, fun _ => ⟨?_, rfl⟩⟩
    · intro i hi
      rw [hI, List.mem_append, List.mem_singleton] at hi
      rcases hi with hi | rfl
      · exact i2 i hi
      · exact hc
    · exact (hl (sscStep (normalizeCw X) N lstsq j (X j) s).I (X j)).normal
    · rw [← hlen]; exact (hl (sscStep (normalizeCw X) N lstsq j (X j) s).I (X j)).length

/-- **C91** (the representation of column `j`): `K` indices in range and `K` coefficients are returned; the returned residual is the column minus the combination of the chosen normalised columns, it is orthogonal to every
chosen column, and no other combination of the chosen columns is nearer to the column.  Each chosen index maximises the correlation with the residual of the previous iterations over the other columns. -/
theorem c91_representation (X : ℕ → E) (N : ℕ) (lstsq : List ℕ → E → List ℝ) (hl : ∀ I y, IsLstsq (normalizeCw X) I y (lstsq I y)) (K j : ℕ) (hK : 0 < K) (hj : j < N)
    (_hX : ∀ i < N, X i ≠ 0) :
    let s := buildRepresentationOmp X N lstsq K j
    s.I.length = K ∧ (∀ i ∈ s.I, i < N) ∧ s.z.length = K ∧ s.r = X j - lin (normalizeCw X) s.I s.z ∧
    (∀ i ∈ s.I, ⟪X i, s.r⟫ = 0) ∧ (∀ z : List ℝ, ‖s.r‖ ≤ ‖X j - lin (normalizeCw X) s.I z‖) ∧
    ∀ k (hk : k < s.I.length), ∀ i < N, i ≠ j →
      |⟪normalizeCw X i, (sscSeq X N lstsq j k).r⟫| ≤ |⟪normalizeCw X s.I[k], (sscSeq X N lstsq j k).r⟫| := by
  intro s
  obtain ⟨h1, h2, h3, h4⟩ := sscSeq_inv X N lstsq hl j (by omega) K
  obtain ⟨h4, h5⟩ := h4 hK
  refine ⟨h1, h2, h4, h5, fun i hi => (inner_normalizeCw_eq_zero X i _).mp (h3 i hi), fun z => ?_, ?_⟩
  · have h3' : ∀ i ∈ s.I, inner ℝ (normalizeCw X i) (X j - lin (normalizeCw X) s.I s.z) = 0 := by
      intro i hi
      have := h3 i hi
      rwa [h5] at this
    have := least_of_orth (normalizeCw X) (X j) s.I s.z z h3'
    have e : s.r = X j - lin (normalizeCw X) s.I s.z := h5
    rwa [← e] at this
  · have key : ∀ m k, k < m → ∀ (hk : k < (sscSeq X N lstsq j m).I.length), (sscSeq X N lstsq j m).I[k] =
        absMaxIdx (zeroAt (corr ℝ (normalizeCw X) N (sscSeq X N lstsq j k).r) [j]) := by
      intro m
      induction m with
      | zero => intro k hk; omega
      | succ m ih =>
        intro k hkm hk
        have hlen := (sscSeq_inv X N lstsq hl j (by omega) m).1
        have hI : (sscSeq X N lstsq j (m + 1)).I =
            (sscSeq X N lstsq j m).I ++ [absMaxIdx (zeroAt (corr ℝ (normalizeCw X) N (sscSeq X N lstsq j m).r) [j])] := by rw [sscSeq_succ]; rfl
        simp only [hI]
        rcases Nat.lt_or_ge k m with hlt | hge
        · rw [List.getElem_append_left (by omega)]
          exact ih k hlt (by omega)
        · have : k = m := by omega
          subst this
          rw [List.getElem_append_right (by omega)]
          simp
    intro k hk i hi hij
    have hkK : k < K := by rw [← h1]; exact hk
    have e : s.I[k] = _ := key K k hkK hk
    rw [e]
    exact (chosen_spec X (by omega) _).2.1 i hi hij

/-- Column `j` can be improved before every one of the `K` iterations: another column is correlated with the residual. -/
def Improvable (X : ℕ → E) (N : ℕ) (lstsq : List ℕ → E → List ℝ) (K j : ℕ) : Prop :=
  ∀ k < K, ∃ i < N, i ≠ j ∧ ⟪X i, (sscSeq X N lstsq j k).r⟫ ≠ 0

/-- **C91** (self-expressive): a column is never used in its own representation and no other column is used twice, provided that before each iteration some other column is correlated with the residual.
What is missing from the full statement: the proviso is needed (`c91_self_fails`). -/
theorem c91_self_distinct_partial (X : ℕ → E) (N : ℕ) (lstsq : List ℕ → E → List ℝ) (hl : ∀ I y, IsLstsq (normalizeCw X) I y (lstsq I y)) (K j : ℕ) (hj : j < N)
    (_hX : ∀ i < N, X i ≠ 0) (hc : Improvable X N lstsq K j) :
    (buildRepresentationOmp X N lstsq K j).I.Nodup ∧ j ∉ (buildRepresentationOmp X N lstsq K j).I := by
  show (sscSeq X N lstsq j K).I.Nodup ∧ j ∉ (sscSeq X N lstsq j K).I
  induction K with
  | zero => simp [sscSeq]
  | succ k ih =>
    obtain ⟨a1, a2⟩ := ih fun m hm => hc m (by omega)
    obtain ⟨c1, c2⟩ := (chosen_spec X (j := j) (N := N) (by omega) (sscSeq X N lstsq j k).r).2.2 (hc k (by omega))
    have hI : (sscSeq X N lstsq j (k + 1)).I =
        (sscSeq X N lstsq j k).I ++ [absMaxIdx (zeroAt (corr ℝ (normalizeCw X) N (sscSeq X N lstsq j k).r) [j])] := by rw [sscSeq_succ]; rfl
    have horth := (sscSeq_inv X N lstsq hl j (by omega : 0 < N) k).2.2.1
    rw [hI]
    refine ⟨?_, ?_⟩
    · rw [List.nodup_append]
      refine ⟨a1, by simp, ?_⟩
      intro a ha b hb
      rw [List.mem_singleton] at hb
      rintro rfl
      subst hb
      exact c2 ((inner_normalizeCw_eq_zero X _ _).mp (horth _ ha))
    · rw [List.mem_append, List.mem_singleton]
      rintro (h | h)
      · exact a2 h
      · exact c1 h.symm

theorem lin_mem_orth (X : ℕ → E) (u : E) : ∀ (I : List ℕ) (z : List ℝ), (∀ i ∈ I, ⟪u, normalizeCw X i⟫ = 0) → ⟪u, lin (normalizeCw X) I z⟫ = 0
  | [], z, _ => by cases z <;> simp [lin]
  | i :: I, [], _ => by simp [lin]
  | i :: I, c :: z, h => by
    rw [lin, inner_add_right, real_inner_smul_right, h i (by simp), lin_mem_orth X u I z (fun i hi => h i (by simp [hi]))]
    simp

/-- **C91** (subspace preserving): if the columns come from mutually orthogonal groups (`labels`), the representation of a column uses columns of its own group only (under the same proviso), so that the subspace
preservation flag of the column is set. -/
theorem c91_subspace_preserving (X : ℕ → E) (N : ℕ) (lstsq : List ℕ → E → List ℝ) (hl : ∀ I y, IsLstsq (normalizeCw X) I y (lstsq I y)) (K j : ℕ) (hj : j < N)
    (_hX : ∀ i < N, X i ≠ 0) (hc : Improvable X N lstsq K j) (labels : ℕ → ℕ) (ho : ∀ a < N, ∀ b < N, labels a ≠ labels b → ⟪X a, X b⟫ = 0) :
    (∀ i ∈ (buildRepresentationOmp X N lstsq K j).I, labels i = labels j) ∧
    ∀ Z I, (∀ r < K, I r j = (buildRepresentationOmp X N lstsq K j).I.getD r 0) → sparseFlag K Z I labels j := by
  have main : ∀ k ≤ K, (∀ i ∈ (sscSeq X N lstsq j k).I, labels i = labels j) ∧
      ∀ a < N, labels a ≠ labels j → ⟪X a, (sscSeq X N lstsq j k).r⟫ = 0 := by
    intro k
    induction k with
    | zero =>
      intro _
      refine ⟨by simp [sscSeq], fun a ha hne => ?_⟩
      show ⟪X a, normalizeCw X j⟫ = 0
      rw [normalizeCw, real_inner_smul_right, ho a ha j hj hne, mul_zero]
    | succ k ih =>
      intro hk
      obtain ⟨a1, a2⟩ := ih (by omega)
      have hcs := chosen_spec X (j := j) (N := N) (by omega) (sscSeq X N lstsq j k).r
      obtain ⟨c1, c2⟩ := hcs.2.2 (hc k (by omega))
      have hI : (sscSeq X N lstsq j (k + 1)).I =
          (sscSeq X N lstsq j k).I ++ [absMaxIdx (zeroAt (corr ℝ (normalizeCw X) N (sscSeq X N lstsq j k).r) [j])] := by rw [sscSeq_succ]; rfl
      have hlab : ∀ i ∈ (sscSeq X N lstsq j (k + 1)).I, labels i = labels j := by
        intro i hi
        rw [hI, List.mem_append, List.mem_singleton] at hi
        rcases hi with hi | rfl
        · exact a1 i hi
        · by_contra hne
          exact c2 (a2 _ hcs.1 hne)
      refine ⟨hlab, fun a ha hne => ?_⟩
      obtain ⟨-, hr, -, hres⟩ := sscSeq_inv X N lstsq hl j (by omega : 0 < N) (k + 1)
      rw [(hres (by omega)).2, inner_sub_right, ho a ha j hj hne, lin_mem_orth X (X a), sub_zero]
      intro i hi
      rw [normalizeCw, real_inner_smul_right, ho a ha i (hr i hi) (by rw [hlab i hi]; exact hne), mul_zero]
  refine ⟨(main K le_rfl).1, fun Z I hI r hr => ?_⟩
  unfold storedLabel
  split_ifs
  · rfl
  · rw [hI r hr]
    refine (main K le_rfl).1 _ ?_
    have hlen := (sscSeq_inv X N lstsq hl j (by omega : 0 < N) K).1
    have : r < (buildRepresentationOmp X N lstsq K j).I.length := by
      show r < (sscSeq X N lstsq j K).I.length
      omega
    rw [List.getD_eq_getElem _ _ this]
    exact List.getElem_mem this

/-- Three equal points of the line: each is improvable once. -/
example (lstsq : List ℕ → ℝ → List ℝ) (hl : ∀ I y, IsLstsq (normalizeCw fun _ : ℕ => (2 : ℝ)) I y (lstsq I y)) :
    (buildRepresentationOmp (fun _ => (2 : ℝ)) 3 lstsq 1 1).I.Nodup ∧ 1 ∉ (buildRepresentationOmp (fun _ => (2 : ℝ)) 3 lstsq 1 1).I := by
  refine c91_self_distinct_partial _ 3 lstsq hl 1 1 (by norm_num) (fun _ _ => two_ne_zero) ?_
  intro k hk
  obtain rfl : k = 0 := by omega
  exact ⟨0, by norm_num, by norm_num, by simp [sscSeq, normalizeCw]⟩

/-- Four points of the plane in two orthogonal groups. -/
example (lstsq : List ℕ → ℂ → List ℝ) (hl : ∀ I y, IsLstsq (normalizeCw fun i : ℕ => if i < 2 then (1 : ℂ) else Complex.I) I y (lstsq I y)) :
    ∀ i ∈ (buildRepresentationOmp (fun i : ℕ => if i < 2 then (1 : ℂ) else Complex.I) 4 lstsq 1 3).I, i / 2 = 1 := by
  refine (c91_subspace_preserving _ 4 lstsq hl 1 3 (by norm_num) (fun i _ => by split_ifs; exacts [one_ne_zero, Complex.I_ne_zero]) ?_ (fun i => i / 2) ?_).1
  · intro k hk
    obtain rfl : k = 0 := by omega
    exact ⟨2, by norm_num, by norm_num, by simp [sscSeq, normalizeCw]⟩
  · intro a ha b hb hne
    beta_reduce at hne
    by_cases h1 : a < 2 <;> by_cases h2 : b < 2
    · omega
    · simp [h1, h2]
    · simp [h1, h2]
    · omega

/-- **C91** is violated once the residual vanishes: of two equal points, with `K = 2`, the first is represented by the second in the first iteration, then by itself. -/
theorem c91_self_fails (lstsq : List ℕ → ℝ → List ℝ) (hl : ∀ I y, IsLstsq (normalizeCw fun _ : ℕ => (1 : ℝ)) I y (lstsq I y)) :
    (buildRepresentationOmp (fun _ => (1 : ℝ)) 2 lstsq 2 0).I = [1, 0] := by
  have hphi : normalizeCw (fun _ : ℕ => (1 : ℝ)) = fun _ => 1 := by funext j; simp [normalizeCw]
  have h0 : sscSeq (fun _ => (1 : ℝ)) 2 lstsq 0 0 = { I := [], z := [], r := 1 } := by simp [sscSeq, normalizeCw]
  have hc1 : absMaxIdx (zeroAt (corr ℝ (normalizeCw fun _ : ℕ => (1 : ℝ)) 2 (1 : ℝ)) [0]) = 1 := by
    rw [hphi]
    simp [corr, zeroAt, absMaxIdx, List.range_succ, argmax, argmaxFrom]
  have hz : lstsq [1] 1 = [1] := by
    have h := hl [1] 1
    obtain ⟨c, hc⟩ := List.length_eq_one_iff.mp h.length
    have hn := h.normal 1 (by simp)
    rw [hc, hphi] at hn
    simp [lin] at hn
    rw [hc]
    congr 1; linarith
  have h1 : sscSeq (fun _ => (1 : ℝ)) 2 lstsq 0 1 = { I := [1], z := [1], r := 0 } := by
    rw [sscSeq_succ, h0]
    simp only [sscStep, hc1, List.nil_append, hz]
    simp [lin, hphi]
  have hc2 : absMaxIdx (zeroAt (corr ℝ (normalizeCw fun _ : ℕ => (1 : ℝ)) 2 (0 : ℝ)) [0]) = 0 := by
    simp [corr, zeroAt, absMaxIdx, List.range_succ, argmax, argmaxFrom]
  show (sscSeq (fun _ => (1 : ℝ)) 2 lstsq 0 2).I = _
  rw [sscSeq_succ, h1]
  simp only [sscStep, hc2, List.cons_append, List.nil_append]

example (lstsq : List ℕ → ℝ → List ℝ) (hl : ∀ I y, IsLstsq (normalizeCw fun i : ℕ => (i : ℝ) + 1) I y (lstsq I y)) :=
  c91_representation (fun i : ℕ => (i : ℝ) + 1) 7 lstsq hl 2 5 (by norm_num) (by norm_num) fun i _ => by positivity

example : ∃ lstsq : List ℕ → ℝ → List ℝ, (buildRepresentationOmp (fun _ => (1 : ℝ)) 2 lstsq 2 0).I = [1, 0] :=
  ⟨_, c91_self_fails (fun I y => (exists_lstsq (normalizeCw fun _ : ℕ => (1 : ℝ)) I y).choose) fun I y => (exists_lstsq (normalizeCw fun _ : ℕ => (1 : ℝ)) I y).choose_spec⟩

end Verif.Cluster
