import Verif.Cluster.SscPreserveProps
import Verif.Pursuit.ContinuityProps

set_option autoImplicit false
/-!
# C172: SSC-OMP and the clustering built on it tolerate small noise in the points
-/
noncomputable section
namespace Verif.Cluster
open Verif.Pursuit Filter Topology
open scoped RealInnerProductSpace

variable {E : Type*} [NormedAddCommGroup E] [InnerProductSpace ℝ E]

/-- Specification: before each of the `K` iterations for column `j` one other column has a larger correlation (in magnitude) with the residual than all the rest. -/
def ClearSelections (X : ℕ → E) (N : ℕ) (lstsq : List ℕ → E → List ℝ) (K j : ℕ) : Prop :=
  ∀ k < K, ∃ i < N, i ≠ j ∧ ⟪normalizeCw X i, (sscSeq X N lstsq j k).r⟫ ≠ 0 ∧
    ∀ i' < N, i' ≠ j → i' ≠ i → |⟪normalizeCw X i', (sscSeq X N lstsq j k).r⟫| < |⟪normalizeCw X i, (sscSeq X N lstsq j k).r⟫|

/-! ## Least squares depends continuously on independent atoms and on the data -/

theorem lstsq_tendsto {ι : Type*} {l : Filter ι} {phi : ι → ℕ → E} {phi0 : ℕ → E} {I : List ℕ} (hphi : ∀ i ∈ I, Tendsto (fun a => phi a i) l (𝓝 (phi0 i))) {y : ι → E} {y0 : E} (hy : Tendsto y l (𝓝 y0))
    {x : ι → List ℝ} {x0 : List ℝ} (hx : ∀ a, IsLstsq (phi a) I (y a) (x a)) (hx0 : IsLstsq phi0 I y0 x0) (hI : Indep ℝ phi0 I) (k : ℕ) : Tendsto (fun a => (x a).getD k 0) l (𝓝 (x0.getD k 0)) := by
  let T : (ℕ → E) → (Fin I.length → ℝ) →ₗ[ℝ] E := fun phi =>
    { toFun := fun x => ∑ k, x k • phi (I.get k)
      map_add' := fun x z => by simp [add_smul, Finset.sum_add_distrib]
      map_smul' := fun a x => by simp [mul_smul, Finset.smul_sum] }
  have hT : ∀ phi w, T phi w = ∑ k, w k • phi (I.get k) := fun _ _ => rfl
  obtain ⟨C, hC0, hC⟩ := (T phi0).exists_antilipschitzWith (LinearMap.ker_eq_bot'.2 fun c hc => hI c hc)
  have hC' : ∀ w, ‖w‖ ≤ C * ‖T phi0 w‖ := fun w => by
    have := hC.le_mul_dist w 0
    rwa [map_zero, dist_zero_right, dist_zero_right] at this
  let v : List ℝ → Fin I.length → ℝ := fun x k => x.getD k 0
  have hv : ∀ (psi : ℕ → E) (x : List ℝ), x.length = I.length → lin psi I x = T psi (v x) := fun psi x hx => by
    have e : x = List.ofFn (v x) := by
      apply List.ext_getElem
      · rw [hx, List.length_ofFn]
      · intro k h1 h2
        simp [v, List.getD_eq_getElem?_getD, List.getElem?_eq_getElem h1]
    conv_lhs => rw [e]
    exact lin_ofFn psi I _
  let e : ι → ℝ := fun a => ∑ k : Fin I.length, ‖phi a (I.get k) - phi0 (I.get k)‖
  have he0 : ∀ a, 0 ≤ e a := fun a => Finset.sum_nonneg fun _ _ => norm_nonneg _
  have hTe : ∀ a w, ‖T (phi a) w - T phi0 w‖ ≤ e a * ‖w‖ := fun a w => by
    rw [hT, hT, ← Finset.sum_sub_distrib, Finset.sum_mul]
    refine (norm_sum_le _ _).trans (Finset.sum_le_sum fun k _ => ?_)
    rw [← smul_sub, norm_smul, mul_comm]
    exact mul_le_mul_of_nonneg_left (norm_le_pi_norm w k) (norm_nonneg _)
  have he : Tendsto e l (𝓝 0) := by
    have : Tendsto e l (𝓝 (∑ k : Fin I.length, ‖phi0 (I.get k) - phi0 (I.get k)‖)) :=
      tendsto_finset_sum _ fun k _ => ((hphi _ (List.get_mem I k)).sub tendsto_const_nhds).norm
    simpa using this
  have horth : ∀ (psi : ℕ → E) (z : E) (x : List ℝ), IsLstsq psi I z x → ∀ w, ⟪T psi w, z - T psi (v x)⟫ = 0 := fun psi z x h w => by
    rw [hT, sum_inner]
    refine Finset.sum_eq_zero fun k _ => ?_
    have := h.normal _ (List.get_mem I k)
    rw [hv psi x h.length] at this
    rw [real_inner_smul_left, this, mul_zero]
  set r0 := y0 - T phi0 (v x0) with hr0
  let d : ι → E := fun a => (y a - T (phi a) (v x0)) - r0
  have hd : Tendsto (fun a => ‖d a‖) l (𝓝 0) := by
    have h1 : Tendsto (fun a => T (phi a) (v x0)) l (𝓝 (T phi0 (v x0))) := by
      simp only [hT]
      exact tendsto_finset_sum _ fun k _ => (hphi _ (List.get_mem I k)).const_smul _
    have := ((hy.sub h1).sub (tendsto_const_nhds (x := r0))).norm
    rwa [← hr0, sub_self, norm_zero] at this
  have key : ∀ᶠ a in l, ‖v (x a) - v x0‖ ≤ 2 * C * (‖d a‖ + 2 * C * e a * ‖r0‖) := by
    have hs : ∀ᶠ a in l, C * e a < 1 / 2 := by
      have := he.const_mul (C : ℝ)
      rw [mul_zero] at this
      exact this.eventually_lt_const (by norm_num)
    filter_upwards [hs] with a ha
    set w := v (x a) - v x0 with hw
    set P := ‖T (phi a) w‖ with hP
    have h1 : ‖w‖ ≤ 2 * C * P := by
      have a1 := hC' w
      have a2 : ‖T phi0 w‖ ≤ P + e a * ‖w‖ := by
        have := norm_sub_norm_le (T phi0 w) (T (phi a) w)
        rw [norm_sub_rev] at this
        linarith [hTe a w]
      have a3 : C * ‖T phi0 w‖ ≤ C * P + C * e a * ‖w‖ := by
        have := mul_le_mul_of_nonneg_left a2 C.coe_nonneg
        calc _ ≤ _ := this
          _ = _ := by ring
      have a4 : C * e a * ‖w‖ ≤ 1 / 2 * ‖w‖ := mul_le_mul_of_nonneg_right ha.le (norm_nonneg _)
      linarith
    have h2 : P ^ 2 ≤ P * (‖d a‖ + 2 * C * e a * ‖r0‖) := by
      have b1 : P ^ 2 = ⟪T (phi a) w, y a - T (phi a) (v x0)⟫ := by
        have e1 : y a - T (phi a) (v x0) = (y a - T (phi a) (v (x a))) + T (phi a) w := by rw [hw, map_sub]; abel
        rw [e1, inner_add_right, horth _ _ _ (hx a), zero_add, real_inner_self_eq_norm_sq]
      have b2 : ⟪T (phi a) w, y a - T (phi a) (v x0)⟫ = ⟪T (phi a) w, d a⟫ + ⟪T (phi a) w - T phi0 w, r0⟫ := by
        have e2 : y a - T (phi a) (v x0) = d a + r0 := by simp only [d]; abel
        rw [e2, inner_add_right, inner_sub_left, hr0, horth _ _ _ hx0 w, sub_zero]
      have b3 := real_inner_le_norm (T (phi a) w) (d a)
      have b4 := real_inner_le_norm (T (phi a) w - T phi0 w) r0
      have b5 : ‖T (phi a) w - T phi0 w‖ * ‖r0‖ ≤ e a * (2 * C * P) * ‖r0‖ :=
        mul_le_mul_of_nonneg_right ((hTe a w).trans (mul_le_mul_of_nonneg_left h1 (he0 a))) (norm_nonneg _)
      rw [b1, b2]
      calc _ ≤ P * ‖d a‖ + e a * (2 * C * P) * ‖r0‖ := by linarith
        _ = _ := by ring
    have h3 : P ≤ ‖d a‖ + 2 * C * e a * ‖r0‖ := by
      rcases (norm_nonneg (T (phi a) w)).eq_or_lt with h0 | h0
      · rw [hP, ← h0]
        have := he0 a
        positivity
      · rw [pow_two] at h2
        exact le_of_mul_le_mul_left h2 h0
    exact h1.trans (mul_le_mul_of_nonneg_left h3 (by positivity))
  have hconv : Tendsto (fun a => v (x a)) l (𝓝 (v x0)) := by
    rw [tendsto_iff_norm_sub_tendsto_zero]
    refine squeeze_zero' (Eventually.of_forall fun _ => norm_nonneg _) key ?_
    have : Tendsto (fun a => 2 * (C : ℝ) * (‖d a‖ + 2 * C * e a * ‖r0‖)) l (𝓝 (2 * C * (0 + 2 * C * 0 * ‖r0‖))) :=
      (hd.add ((he.const_mul (2 * (C : ℝ))).mul_const _)).const_mul _
    simpa using this
  by_cases hk : k < I.length
  · exact (tendsto_pi_nhds.1 hconv) ⟨k, hk⟩
  · have h1 : ∀ x : List ℝ, x.length = I.length → x.getD k 0 = 0 := fun x hx => by
      rw [List.getD_eq_getElem?_getD, List.getElem?_eq_none (by omega)]; rfl
    simp only [h1 _ (hx _).length, h1 _ hx0.length]
    exact tendsto_const_nhds

theorem indep_nil (phi : ℕ → E) : Indep ℝ phi [] := fun c _ => by funext k; exact k.elim0

/-- An atom correlated with a vector orthogonal to independent atoms is independent of them. -/
theorem indep_append {phi : ℕ → E} {I : List ℕ} (hI : Indep ℝ phi I) {r : E} (horth : ∀ i ∈ I, ⟪phi i, r⟫ = 0) {b : ℕ} (hb : ⟪phi b, r⟫ ≠ 0) : Indep ℝ phi (I ++ [b]) := by
  intro c hc
  have hlen : (I ++ [b]).length = I.length + 1 := by simp
  let z : List ℝ := List.ofFn fun k : Fin I.length => c (Fin.cast hlen.symm k.castSucc)
  let t : ℝ := c (Fin.cast hlen.symm (Fin.last I.length))
  have hz : z.length = I.length := by simp [z]
  have e : List.ofFn c = z ++ [t] := by
    apply List.ext_getElem
    · simp [z]
    · intro k h1 h2
      rw [List.getElem_ofFn]
      by_cases hk : k < I.length
      · rw [List.getElem_append_left (by omega), List.getElem_ofFn]; rfl
      · have : k = I.length := by simp at h1; omega
        subst this
        rw [List.getElem_append_right (by omega)]
        simp [t, hz]; rfl
  rw [← lin_ofFn phi (I ++ [b]) c, e, lin_append_single phi b t I z hz] at hc
  have h1 := congrArg (fun w => ⟪w, r⟫) hc
  simp only [inner_add_left, inner_zero_left, lin_inner_zero phi r I z horth, zero_add, real_inner_smul_left, mul_eq_zero, hb, or_false] at h1
  rw [h1, zero_smul, add_zero, lin_ofFn] at hc
  have h2 := hI _ hc
  funext k
  by_cases hk : k.1 < I.length
  · exact congrFun h2 ⟨k.1, hk⟩
  · have : k = Fin.cast hlen.symm (Fin.last I.length) := Fin.ext (by have := k.2; simp at this ⊢; omega)
    rw [this]; exact h1

/-! ## Runs -/

theorem chosen_eq (X : ℕ → E) {N j i : ℕ} (r : E) (hi : i < N) (hij : i ≠ j) (h0 : ⟪normalizeCw X i, r⟫ ≠ 0) (hlt : ∀ i' < N, i' ≠ j → i' ≠ i → |⟪normalizeCw X i', r⟫| < |⟪normalizeCw X i, r⟫|) :
    absMaxIdx (zeroAt (corr ℝ (normalizeCw X) N r) [j]) = i := by
  obtain ⟨h1, h2, h3⟩ := chosen_spec X (j := j) (N := N) (by omega) r
  have h4 := h3 ⟨i, hi, hij, fun h => h0 ((inner_normalizeCw_eq_zero X i r).2 h)⟩
  by_contra hne
  exact absurd (h2 i hi hij) (not_le.2 (hlt _ h1 h4.1 hne))

theorem normalize_tendsto {ι : Type*} {l : Filter ι} {X : ι → ℕ → E} {X0 : ℕ → E} {i : ℕ} (h : Tendsto (fun a => X a i) l (𝓝 (X0 i))) (h0 : X0 i ≠ 0) :
    Tendsto (fun a => normalizeCw (X a) i) l (𝓝 (normalizeCw X0 i)) := (h.norm.inv₀ (norm_ne_zero_iff.2 h0)).smul h

theorem lin_tendsto {ι : Type*} {l : Filter ι} {phi : ι → ℕ → E} {phi0 : ℕ → E} : ∀ {I : List ℕ} {x : ι → List ℝ} {x0 : List ℝ}, (∀ i ∈ I, Tendsto (fun a => phi a i) l (𝓝 (phi0 i))) →
    (∀ a, (x a).length = I.length) → x0.length = I.length → (∀ k, Tendsto (fun a => (x a).getD k 0) l (𝓝 (x0.getD k 0))) → Tendsto (fun a => lin (phi a) I (x a)) l (𝓝 (lin phi0 I x0)) := by
  intro I x x0 hphi hl hl0 hx
  have e : ∀ (psi : ℕ → E) (x : List ℝ), x.length = I.length → lin psi I x = ∑ k : Fin I.length, x.getD k 0 • psi (I.get k) := fun psi x hx => by
    have e : x = List.ofFn fun k : Fin I.length => x.getD k 0 := by
      apply List.ext_getElem
      · rw [hx, List.length_ofFn]
      · intro k h1 h2
        simp [List.getD_eq_getElem?_getD, List.getElem?_eq_getElem h1]
    conv_lhs => rw [e]
    exact lin_ofFn psi I _
  simp only [e _ _ (hl _), e _ _ hl0]
  exact tendsto_finset_sum _ fun k _ => (hx k).smul (hphi _ (List.get_mem I k))

/-- Points converging to `X0`: from some point on the same indices are chosen; coefficients and residual converge. -/
theorem seq_tendsto {ι : Type*} {l : Filter ι} {X : ι → ℕ → E} {X0 : ℕ → E} {N : ℕ} (hX : ∀ i < N, Tendsto (fun a => X a i) l (𝓝 (X0 i))) (h0 : ∀ i < N, X0 i ≠ 0)
    {lst : ι → List ℕ → E → List ℝ} (hl : ∀ a I y, IsLstsq (normalizeCw (X a)) I y (lst a I y)) {lst0 : List ℕ → E → List ℝ} (hl0 : ∀ I y, IsLstsq (normalizeCw X0) I y (lst0 I y)) {j : ℕ} (hj : j < N) :
    ∀ K : ℕ, ClearSelections X0 N lst0 K j → Indep ℝ (normalizeCw X0) (sscSeq X0 N lst0 j K).I ∧ (∀ᶠ a in l, (sscSeq (X a) N (lst a) j K).I = (sscSeq X0 N lst0 j K).I) ∧
      (∀ k, Tendsto (fun a => (sscSeq (X a) N (lst a) j K).z.getD k 0) l (𝓝 ((sscSeq X0 N lst0 j K).z.getD k 0))) ∧
      Tendsto (fun a => (sscSeq (X a) N (lst a) j K).r) l (𝓝 (sscSeq X0 N lst0 j K).r) := by
  intro K
  induction K with
  | zero => exact fun _ => ⟨indep_nil _, Eventually.of_forall fun _ => rfl, fun k => tendsto_const_nhds, normalize_tendsto (hX j hj) (h0 j hj)⟩
  | succ K ih =>
    intro hc
    obtain ⟨i1, i2, i3, i4⟩ := ih fun k hk => hc k (by omega)
    obtain ⟨b, hb, hbj, hb0, hlt⟩ := hc K (by omega)
    have e0 := chosen_eq X0 _ hb hbj hb0 hlt
    obtain ⟨-, n2, n3, -⟩ := sscSeq_inv X0 N lst0 hl0 j (by omega) K
    have hin : ∀ i < N, Tendsto (fun a => ⟪normalizeCw (X a) i, (sscSeq (X a) N (lst a) j K).r⟫) l (𝓝 ⟪normalizeCw X0 i, (sscSeq X0 N lst0 j K).r⟫) :=
      fun i hi => (normalize_tendsto (hX i hi) (h0 i hi)).inner i4
    have hsel : ∀ᶠ a in l, absMaxIdx (zeroAt (corr ℝ (normalizeCw (X a)) N (sscSeq (X a) N (lst a) j K).r) [j]) = b := by
      have h1 : ∀ᶠ a in l, ∀ i' ∈ Finset.range N, i' ≠ j → i' ≠ b → |⟪normalizeCw (X a) i', (sscSeq (X a) N (lst a) j K).r⟫| < |⟪normalizeCw (X a) b, (sscSeq (X a) N (lst a) j K).r⟫| := by
        rw [Filter.eventually_all_finset]
        intro i' hi'
        by_cases hne : i' ≠ j ∧ i' ≠ b
        · exact ((hin i' (Finset.mem_range.1 hi')).abs.eventually_lt (hin b hb).abs (hlt i' (Finset.mem_range.1 hi') hne.1 hne.2)).mono fun a ha _ _ => ha
        · exact Eventually.of_forall fun a h1 h2 => absurd ⟨h1, h2⟩ hne
      filter_upwards [h1, (hin b hb).eventually_ne hb0] with a a1 a2
      exact chosen_eq (X a) _ hb hbj a2 fun i' hi' => a1 i' (Finset.mem_range.2 hi')
    have hI0 : (sscSeq X0 N lst0 j (K + 1)).I = (sscSeq X0 N lst0 j K).I ++ [b] := by rw [sscSeq_succ]; show _ ++ [_] = _; rw [e0]
    have hz0 : (sscSeq X0 N lst0 j (K + 1)).z = lst0 ((sscSeq X0 N lst0 j K).I ++ [b]) (X0 j) := by rw [sscSeq_succ]; show lst0 (_ ++ [_]) _ = _; rw [e0]
    have hr0 : (sscSeq X0 N lst0 j (K + 1)).r = X0 j - lin (normalizeCw X0) ((sscSeq X0 N lst0 j K).I ++ [b]) (lst0 ((sscSeq X0 N lst0 j K).I ++ [b]) (X0 j)) := by
      rw [sscSeq_succ]; show _ - lin _ (_ ++ [_]) (lst0 (_ ++ [_]) _) = _; rw [e0]
    set J := (sscSeq X0 N lst0 j K).I ++ [b] with hJ
    have hind : Indep ℝ (normalizeCw X0) J := indep_append i1 n3 hb0
    have hJN : ∀ i ∈ J, i < N := fun i hi => by
      rw [hJ, List.mem_append, List.mem_singleton] at hi
      rcases hi with hi | rfl
      · exact n2 i hi
      · exact hb
    have hphi : ∀ i ∈ J, Tendsto (fun a => normalizeCw (X a) i) l (𝓝 (normalizeCw X0 i)) := fun i hi => normalize_tendsto (hX i (hJN i hi)) (h0 i (hJN i hi))
    have hEq : ∀ᶠ a in l, sscSeq (X a) N (lst a) j (K + 1) = { I := J, z := lst a J (X a j), r := X a j - lin (normalizeCw (X a)) J (lst a J (X a j)) } := by
      filter_upwards [i2, hsel] with a a1 a2
      rw [sscSeq_succ, sscStep]
      simp only [a1, a2, ← hJ]
    have hzt := lstsq_tendsto hphi (hX j hj) (fun a => hl a J (X a j)) (hl0 J (X0 j)) hind
    refine ⟨hI0 ▸ hind, ?_, fun k => ?_, ?_⟩
    · filter_upwards [hEq] with a ha
      rw [ha, hI0]
    · rw [hz0]
      exact (hzt k).congr' (hEq.mono fun a ha => by simp only [ha])
    · rw [hr0]
      exact ((hX j hj).sub (lin_tendsto hphi (fun a => (hl a J (X a j)).length) (hl0 J (X0 j)).length hzt)).congr' (hEq.mono fun a ha => by simp only [ha])

/-- From convergent sequences of points to a tolerance. -/
theorem tolerance {X : ℕ → E} {N : ℕ} {Q : (ℕ → E) → (List ℕ → E → List ℝ) → Prop}
    (h : ∀ (X' : ℕ → ℕ → E) (lst : ℕ → List ℕ → E → List ℝ), (∀ a I y, IsLstsq (normalizeCw (X' a)) I y (lst a I y)) → (∀ i < N, Tendsto (fun a => X' a i) atTop (𝓝 (X i))) → ∀ᶠ a in atTop, Q (X' a) (lst a)) :
    ∃ δ > 0, ∀ (X' : ℕ → E) (lstsq' : List ℕ → E → List ℝ), (∀ I y, IsLstsq (normalizeCw X') I y (lstsq' I y)) → (∀ i < N, ‖X' i - X i‖ < δ) → Q X' lstsq' := by
  by_contra hno
  push Not at hno
  choose X' lst hl hX hQ using fun a : ℕ => hno (1 / (a + 1 : ℝ)) (by positivity)
  obtain ⟨a, ha⟩ := (h X' lst hl fun i hi => by
    rw [tendsto_iff_norm_sub_tendsto_zero]
    exact squeeze_zero (fun _ => norm_nonneg _) (fun a => (hX a i hi).le) tendsto_one_div_add_atTop_nhds_zero_nat).exists
  exact hQ a ha

/-- **C172** (representation) suppose that for column `j` no selection on the points `X` has a tie. Then for all points near enough to `X` the same columns are chosen, in the same order, with coefficients and residual as near as one likes. -/
theorem c172_representation (X : ℕ → E) (N : ℕ) (hX : ∀ i < N, X i ≠ 0) (lstsq : List ℕ → E → List ℝ) (hl : ∀ I y, IsLstsq (normalizeCw X) I y (lstsq I y)) (K j : ℕ) (hj : j < N) (hc : ClearSelections X N lstsq K j)
    (ε : ℝ) (he : 0 < ε) : ∃ δ > 0, ∀ (X' : ℕ → E) (lstsq' : List ℕ → E → List ℝ), (∀ I y, IsLstsq (normalizeCw X') I y (lstsq' I y)) → (∀ i < N, ‖X' i - X i‖ < δ) →
      (buildRepresentationOmp X' N lstsq' K j).I = (buildRepresentationOmp X N lstsq K j).I ∧
      (∀ r < K, |(buildRepresentationOmp X' N lstsq' K j).z.getD r 0 - (buildRepresentationOmp X N lstsq K j).z.getD r 0| < ε) ∧
      ‖(buildRepresentationOmp X' N lstsq' K j).r - (buildRepresentationOmp X N lstsq K j).r‖ < ε := by
  refine tolerance fun X' lst hl' hX' => ?_
  obtain ⟨-, h1, h2, h3⟩ := seq_tendsto hX' hX hl' hl hj K hc
  have h4 : ∀ᶠ a in atTop, ∀ r ∈ Finset.range K, |(sscSeq (X' a) N (lst a) j K).z.getD r 0 - (sscSeq X N lstsq j K).z.getD r 0| < ε := by
    rw [Filter.eventually_all_finset]
    intro r _
    filter_upwards [Metric.tendsto_nhds.1 (h2 r) ε he] with a ha
    rwa [Real.dist_eq] at ha
  filter_upwards [h1, h4, Metric.tendsto_nhds.1 h3 ε he] with a a1 a2 a3
  exact ⟨a1, fun r hr => a2 r (Finset.mem_range.2 hr), by rwa [dist_eq_norm] at a3⟩

/-- **C172** (batched) the same for `batch_build_representation_omp` with any batch size. -/
theorem c172_batch (X : ℕ → E) (N : ℕ) (hX : ∀ i < N, X i ≠ 0) (lstsq : List ℕ → E → List ℝ) (hl : ∀ I y, IsLstsq (normalizeCw X) I y (lstsq I y)) (K bs j : ℕ) (hK : 0 < K) (hbs : 0 < bs) (hj : j < N) (hc : ClearSelections X N lstsq K j)
    (ε : ℝ) (he : 0 < ε) : ∃ δ > 0, ∀ (X' : ℕ → E) (lstsq' : List ℕ → E → List ℝ), (∀ I y, IsLstsq (normalizeCw X') I y (lstsq' I y)) → (∀ i < N, ‖X' i - X i‖ < δ) →
      ∃ t t', batchBuildRepresentationOmp X N lstsq K bs j = some t ∧ batchBuildRepresentationOmp X' N lstsq' K bs j = some t' ∧ t'.I = t.I ∧ (∀ r < K, |t'.z.getD r 0 - t.z.getD r 0| < ε) ∧ ‖t'.r - t.r‖ < ε := by
  refine tolerance fun X' lst hl' hX' => ?_
  obtain ⟨-, h1, h2, h3⟩ := seq_tendsto hX' hX hl' hl hj K hc
  have hinv : Tendsto (fun a => ‖X' a j‖⁻¹) atTop (𝓝 ‖X j‖⁻¹) := (hX' j hj).norm.inv₀ (norm_ne_zero_iff.2 (hX j hj))
  have h4 : ∀ᶠ a in atTop, ∀ r ∈ Finset.range K, |‖X' a j‖⁻¹ * (sscSeq (X' a) N (lst a) j K).z.getD r 0 - ‖X j‖⁻¹ * (sscSeq X N lstsq j K).z.getD r 0| < ε := by
    rw [Filter.eventually_all_finset]
    intro r _
    filter_upwards [Metric.tendsto_nhds.1 (hinv.mul (h2 r)) ε he] with a ha
    rwa [Real.dist_eq] at ha
  have h5 : ∀ᶠ a in atTop, ∀ i ∈ Finset.range N, X' a i ≠ 0 := by
    rw [Filter.eventually_all_finset]
    exact fun i hi => (hX' i (Finset.mem_range.1 hi)).eventually_ne (hX i (Finset.mem_range.1 hi))
  filter_upwards [h1, h4, Metric.tendsto_nhds.1 (hinv.smul h3) ε he, h5] with a a1 a2 a3 a4
  have aX : ∀ i < N, X' a i ≠ 0 := fun i hi => a4 i (Finset.mem_range.2 hi)
  obtain ⟨t, b1, b2, b3, b4⟩ := c59_batch_partial X N lstsq hl K bs j hK hbs hj hX
  obtain ⟨t', c1, c2, c3, c4⟩ := c59_batch_partial (X' a) N (lst a) (hl' a) K bs j hK hbs hj aX
  have hz : ∀ (n : ℝ) (_ : n ≠ 0) (z : List ℝ) (r : ℕ), n⁻¹ * (z.map fun c => n * c).getD r 0 = z.getD r 0 := fun n hn z r => by
    rw [List.getD_eq_getElem?_getD, List.getD_eq_getElem?_getD, List.getElem?_map]
    cases z[r]? with
    | none => simp
    | some c => simp [hn]
  have n0 := norm_ne_zero_iff.2 (hX j hj)
  have n1 := norm_ne_zero_iff.2 (aX j hj)
  refine ⟨t, t', b1, c1, by rw [← b2, ← c2]; exact a1, fun r hr => ?_, ?_⟩
  · have := a2 r (Finset.mem_range.2 hr)
    have eb : (sscSeq X N lstsq j K).z = _ := b3
    have ec : (sscSeq (X' a) N (lst a) j K).z = _ := c3
    rwa [eb, ec, hz _ n0, hz _ n1] at this
  · have eb : (sscSeq X N lstsq j K).r = _ := b4
    have ec : (sscSeq (X' a) N (lst a) j K).r = _ := c4
    rwa [eb, ec, dist_eq_norm, smul_smul, smul_smul, inv_mul_cancel₀ n0, inv_mul_cancel₀ n1, one_smul, one_smul] at a3

theorem ClearSelections.residual {X : ℕ → E} {N : ℕ} {lstsq : List ℕ → E → List ℝ} {K j : ℕ} (hc : ClearSelections X N lstsq K j) (k : ℕ) (hk : k < K) : (sscSeq X N lstsq j k).r ≠ 0 := fun e => by
  obtain ⟨i, -, -, h, -⟩ := hc k hk
  rw [e, inner_zero_right] at h
  exact h rfl

theorem full_congr {K : ℕ} {Z : ℕ → ℕ → ℝ} {I I' : ℕ → ℕ → ℕ} {j : ℕ} (h : ∀ r < K, I r j = I' r j) (i : ℕ) : sparseToFullRep K Z I i j = sparseToFullRep K Z I' i j := by
  have : column K I j = column K I' j := List.map_congr_left fun r hr => h r (List.mem_range.1 hr)
  rw [sparseToFullRep, sparseToFullRep, this]

/-- The full representation of near points is near. -/
theorem full_tendsto {ι : Type*} {l : Filter ι} {K : ℕ} {Z : ι → ℕ → ℕ → ℝ} {Z0 : ℕ → ℕ → ℝ} {I : ι → ℕ → ℕ → ℕ} {I0 : ℕ → ℕ → ℕ} {j : ℕ} (hI : ∀ᶠ a in l, ∀ r < K, I a r j = I0 r j)
    (hZ : ∀ r, Tendsto (fun a => Z a r j) l (𝓝 (Z0 r j))) (i : ℕ) : Tendsto (fun a => sparseToFullRep K (Z a) (I a) i j) l (𝓝 (sparseToFullRep K Z0 I0 i j)) := by
  obtain ⟨p, hp⟩ := buildSignal_entry (𝕜 := ℝ) (column K I0 j) K i
  have e : ∀ Z : ℕ → ℕ → ℝ, sparseToFullRep K Z I0 i j = p.elim 0 fun p => if p < K then Z p j else 0 := fun Z => by
    rw [sparseToFullRep, hp _ (column_length K Z j)]
    cases p with
    | none => rfl
    | some p => exact getD_map_range (𝕜 := ℝ) (fun r => Z r j) K p
  refine Tendsto.congr' (hI.mono fun a ha => (full_congr ha i).symm) ?_
  simp only [e]
  cases p with
  | none => exact tendsto_const_nhds
  | some p =>
    by_cases hK : p < K
    · simpa [hK] using hZ p
    · simp only [Option.elim, hK, if_false]
      exact tendsto_const_nhds

/-- **C172** (affinity) points spread out over their subspaces, no ties. For all points near enough, on the subspaces or not, only points of the own group are chosen, so that the affinity of points of different groups is exactly zero, and every
positive affinity stays positive. -/
theorem c172_affinity {X : ℕ → E} {N : ℕ} {labels : ℕ → ℕ} {S : ℕ → Submodule ℝ E} {c rho : ℝ} (h : SpreadOut X N labels S c rho) {lstsq : List ℕ → E → List ℝ}
    (hl : ∀ I y, IsLstsq (normalizeCw X) I y (lstsq I y)) (K : ℕ) (hK : 0 < K) (hc : ∀ j < N, ClearSelections X N lstsq K j) :
    ∃ δ > 0, ∀ (X' : ℕ → E) (lstsq' : List ℕ → E → List ℝ), (∀ I y, IsLstsq (normalizeCw X') I y (lstsq' I y)) → (∀ i < N, ‖X' i - X i‖ < δ) →
      (∀ j < N, ∀ i ∈ (buildRepresentationOmp X' N lstsq' K j).I, i ≠ j ∧ labels i = labels j) ∧
      (∀ j < N, sparseFlag K (repZ X' N lstsq' K) (repI X' N lstsq' K) labels j) ∧
      (∀ i < N, ∀ j < N, labels i ≠ labels j → sscAffinity X' N lstsq' K i j = 0) ∧
      ∀ i < N, ∀ j < N, 0 < sscAffinity X N lstsq K i j → 0 < sscAffinity X' N lstsq' K i j := by
  refine tolerance fun X' lst hl' hX' => ?_
  have hrun := fun j (hj : j < N) => seq_tendsto hX' h.nz hl' hl hj K (hc j hj)
  have hI : ∀ᶠ a in atTop, ∀ j ∈ Finset.range N, (sscSeq (X' a) N (lst a) j K).I = (sscSeq X N lstsq j K).I := by
    rw [Filter.eventually_all_finset]
    exact fun j hj => (hrun j (Finset.mem_range.1 hj)).2.1
  have hfull : ∀ i, ∀ j < N, Tendsto (fun a => sparseToFullRep K (repZ (X' a) N (lst a) K) (repI (X' a) N (lst a) K) i j) atTop (𝓝 (sparseToFullRep K (repZ X N lstsq K) (repI X N lstsq K) i j)) :=
    fun i j hj => full_tendsto (hI.mono fun a ha r _ => by
      show (sscSeq (X' a) N (lst a) j K).I.getD r 0 = (sscSeq X N lstsq j K).I.getD r 0
      rw [ha j (Finset.mem_range.2 hj)]) (fun r => (hrun j hj).2.2.1 r) i
  have hpos : ∀ᶠ a in atTop, ∀ i ∈ Finset.range N, ∀ j ∈ Finset.range N, 0 < sscAffinity X N lstsq K i j → 0 < sscAffinity (X' a) N (lst a) K i j := by
    rw [Filter.eventually_all_finset]
    intro i hi
    rw [Filter.eventually_all_finset]
    intro j hj
    by_cases hp : 0 < sscAffinity X N lstsq K i j
    · have ht : Tendsto (fun a => sscAffinity (X' a) N (lst a) K i j) atTop (𝓝 (sscAffinity X N lstsq K i j)) :=
        (hfull i j (Finset.mem_range.1 hj)).abs.add (hfull j i (Finset.mem_range.1 hi)).abs
      exact (ht.eventually_const_lt hp).mono fun a ha _ => ha
    · exact Eventually.of_forall fun a hp' => absurd hp' hp
  filter_upwards [hI, hpos] with a a1 a2
  have own : ∀ j < N, ∀ i ∈ (buildRepresentationOmp (X' a) N (lst a) K j).I, i ≠ j ∧ labels i = labels j := fun j hj i hi => by
    have e : (buildRepresentationOmp (X' a) N (lst a) K j).I = (buildRepresentationOmp X N lstsq K j).I := a1 j (Finset.mem_range.2 hj)
    rw [e] at hi
    exact ((c130_selection h hl hj K hK).1 fun k _ hk => (hc j hj).residual k hk).2 i hi
  have hlen : ∀ j < N, (buildRepresentationOmp (X' a) N (lst a) K j).I.length = K := fun j hj => (sscSeq_inv (X' a) N (lst a) (hl' a) j (by omega) K).1
  have hrep : ∀ j < N, ∀ r < K, labels (repI (X' a) N (lst a) K r j) = labels j := fun j hj r hr => by
    have hrI : r < (buildRepresentationOmp (X' a) N (lst a) K j).I.length := by rw [hlen j hj]; exact hr
    rw [repI, List.getD_eq_getElem _ _ hrI]
    exact (own j hj _ (List.getElem_mem hrI)).2
  have hz : ∀ i < N, ∀ j < N, labels i ≠ labels j → sparseToFullRep K (repZ (X' a) N (lst a) K) (repI (X' a) N (lst a) K) i j = 0 := fun i _ j hj hne => by
    have hni : i ∉ column K (repI (X' a) N (lst a) K) j := fun hm => by
      obtain ⟨r, hr, e⟩ := List.mem_map.1 hm
      exact hne (e ▸ hrep j hj r (List.mem_range.1 hr))
    exact buildSignal_not_mem _ _ _ hni
  refine ⟨own, fun j hj r hr => ?_, fun i hi j hj hne => ?_, fun i hi j hj hp => a2 i (Finset.mem_range.2 hi) j (Finset.mem_range.2 hj) hp⟩
  · unfold storedLabel
    split_ifs
    · rfl
    · exact hrep j hj r hr
  · show |_| + |_| = 0
    rw [hz i hi j hj hne, hz j hj i hi hne.symm]
    simp

theorem noisyComponents {X X' : ℕ → E} {N : ℕ} {labels : ℕ → ℕ} {lstsq lstsq' : List ℕ → E → List ℝ} {K k : ℕ} (hlab : ∀ i < N, labels i < k) (hex : ∀ a < k, ∃ i < N, labels i = a)
    (hcon : ∀ i j : Fin N, labels i = labels j → Relation.ReflTransGen (fun a b : Fin N => 0 < sscAffinity X N lstsq K a b) i j) (p3 : ∀ i < N, ∀ j < N, labels i ≠ labels j → sscAffinity X' N lstsq' K i j = 0)
    (p4 : ∀ i < N, ∀ j < N, 0 < sscAffinity X N lstsq K i j → 0 < sscAffinity X' N lstsq' K i j) (W : Matrix (Fin N) (Fin N) ℝ) (hW : ∀ i j, W i j = sscAffinity X' N lstsq' K i j) :
    IsAffinity W ∧ Components W k (fun i : Fin N => (⟨labels i, hlab i i.2⟩ : Fin k)) := by
  refine ⟨⟨fun i j => by rw [hW, hW]; exact (c58_affinity _ i j).1, fun i j => by rw [hW]; exact (c58_affinity _ i j).2.1⟩, fun a => ?_, fun i j hij => Fin.ext ?_, fun i j e => ?_⟩
  · obtain ⟨i, hi, e⟩ := hex a a.2
    exact ⟨⟨i, hi⟩, Fin.ext e⟩
  · by_contra hne
    rw [hW, p3 i i.2 j j.2 hne] at hij
    exact lt_irrefl _ hij
  · have e' : labels i = labels j := by simpa using e
    refine Relation.ReflTransGen.mono (fun a b hab => ?_) _ _ (hcon i j e')
    show 0 < W a b
    rw [hW]
    exact p4 a a.2 b b.2 hab

/-- **C172** (clustering) in that situation, when the affinities of the points `X` connect the points of every group: `unnormalized_k` applied to the affinities of any points near enough to `X` gives points of the same group the same label, and if one
of the restarts of k-means starts with a point of each group, two points get the same label exactly when they are in the same group. -/
theorem c172_clustering {X : ℕ → E} {N : ℕ} {labels : ℕ → ℕ} {S : ℕ → Submodule ℝ E} {c rho : ℝ} (h : SpreadOut X N labels S c rho) {lstsq : List ℕ → E → List ℝ}
    (hl : ∀ I y, IsLstsq (normalizeCw X) I y (lstsq I y)) (K : ℕ) (hK : 0 < K) (hc : ∀ j < N, ClearSelections X N lstsq K j) {k : ℕ} (hk : 0 < k) (hlab : ∀ i < N, labels i < k) (hex : ∀ a < k, ∃ i < N, labels i = a)
    (hcon : ∀ i j : Fin N, labels i = labels j → Relation.ReflTransGen (fun a b : Fin N => 0 < sscAffinity X N lstsq K a b) i j) (hkN : k ≤ N) :
    ∃ δ > 0, ∀ (X' : ℕ → E) (lstsq' : List ℕ → E → List ℝ), (∀ I y, IsLstsq (normalizeCw X') I y (lstsq' I y)) → (∀ i < N, ‖X' i - X i‖ < δ) →
      ∀ (W : Matrix (Fin N) (Fin N) ℝ), (∀ i j, W i j = sscAffinity X' N lstsq' K i j) →
      ∀ (svd : Matrix (Fin N) (Fin N) ℝ → SquareSvd N), IsSquareSvd (unnormalizedLaplacian W) (svd (unnormalizedLaplacian W)) →
      ∀ (seeds : List (ℕ → ℕ)) (sol : SpecSolution N), UnnormalizedK svd W k hkN seeds sol →
        (∀ i j : Fin N, labels i = labels j → sol.assignment i = sol.assignment j) ∧
        ((∃ seed ∈ seeds, ∀ a < k, ∃ t < k, seed t < N ∧ labels (seed t) = a) → ∀ i j : Fin N, sol.assignment i = sol.assignment j ↔ labels i = labels j) := by
  obtain ⟨δ, hδ, H⟩ := c172_affinity h hl K hK hc
  refine ⟨δ, hδ, fun X' lstsq' hl' hX' W hW svd hsvd seeds sol hsol => ?_⟩
  obtain ⟨-, -, p3, p4⟩ := H X' lstsq' hl' hX'
  obtain ⟨hA, hC⟩ := noisyComponents hlab hex hcon p3 p4 W hW
  obtain ⟨-, -, -, r4, r5⟩ := c96_unnormalized_k hA hk hC hsvd hsol
  refine ⟨fun i j e => r4 i j (Fin.ext e), fun ⟨seed, hs, hall⟩ i j => ?_⟩
  rw [r5 ⟨seed, hs, fun a => ?_⟩ i j]
  · simp
  · obtain ⟨t, ht, hN, e⟩ := hall a a.2
    exact ⟨t, ht, ⟨seed t, hN⟩, rfl, Fin.ext e⟩

/-- **C172** (clustering) the same for `normalized_random_walk_k`. -/
theorem c172_clustering_random_walk {X : ℕ → E} {N : ℕ} {labels : ℕ → ℕ} {S : ℕ → Submodule ℝ E} {c rho : ℝ} (h : SpreadOut X N labels S c rho) {lstsq : List ℕ → E → List ℝ}
    (hl : ∀ I y, IsLstsq (normalizeCw X) I y (lstsq I y)) (K : ℕ) (hK : 0 < K) (hc : ∀ j < N, ClearSelections X N lstsq K j) {k : ℕ} (hk : 0 < k) (hlab : ∀ i < N, labels i < k) (hex : ∀ a < k, ∃ i < N, labels i = a)
    (hcon : ∀ i j : Fin N, labels i = labels j → Relation.ReflTransGen (fun a b : Fin N => 0 < sscAffinity X N lstsq K a b) i j) (hkN : k ≤ N) :
    ∃ δ > 0, ∀ (X' : ℕ → E) (lstsq' : List ℕ → E → List ℝ), (∀ I y, IsLstsq (normalizeCw X') I y (lstsq' I y)) → (∀ i < N, ‖X' i - X i‖ < δ) →
      ∀ (W : Matrix (Fin N) (Fin N) ℝ), (∀ i j, W i j = sscAffinity X' N lstsq' K i j) →
      ∀ (svd : Matrix (Fin N) (Fin N) ℝ → SquareSvd N), IsSquareSvd (randomWalkLaplacian W) (svd (randomWalkLaplacian W)) →
      ∀ (seeds : List (ℕ → ℕ)) (sol : SpecSolution N), RandomWalkK svd W k hkN seeds sol →
        (∀ i j : Fin N, labels i = labels j → sol.assignment i = sol.assignment j) ∧
        ((∃ seed ∈ seeds, ∀ a < k, ∃ t < k, seed t < N ∧ labels (seed t) = a) → ∀ i j : Fin N, sol.assignment i = sol.assignment j ↔ labels i = labels j) := by
  obtain ⟨δ, hδ, H⟩ := c172_affinity h hl K hK hc
  refine ⟨δ, hδ, fun X' lstsq' hl' hX' W hW svd hsvd seeds sol hsol => ?_⟩
  obtain ⟨-, -, p3, p4⟩ := H X' lstsq' hl' hX'
  obtain ⟨hA, hC⟩ := noisyComponents hlab hex hcon p3 p4 W hW
  have hd : ∀ i, 0 < degrees W i := by
    intro j
    obtain ⟨i, hi, -, -, hp⟩ := c130_neighbour h hl j.2 K hK fun k _ hk => (hc j j.2).residual k hk
    refine Finset.sum_pos' (fun a _ => hA.nonneg _ _) ⟨⟨i, hi⟩, Finset.mem_univ _, ?_⟩
    rw [hW]
    exact p4 i hi j j.2 hp
  obtain ⟨-, -, -, r4, r5⟩ := c96_random_walk_k hA hd hk hC hsvd hsol
  refine ⟨fun i j e => r4 i j (Fin.ext e), fun ⟨seed, hs, hall⟩ i j => ?_⟩
  rw [r5 ⟨seed, hs, fun a => ?_⟩ i j]
  · simp
  · obtain ⟨t, ht, hN, e⟩ := hall a a.2
    exact ⟨t, ht, ⟨seed t, hN⟩, rfl, Fin.ext e⟩

/-! ## At a tie -/

/-- Column 0 is equally correlated with columns 1 and 2. -/
def sscTiePts : ℕ → ℂ
  | 0 => ⟨1, 0⟩
  | 1 => ⟨3, 4⟩
  | _ => ⟨3, -4⟩

theorem sscTie_first (X : ℕ → ℂ) (lstsq : List ℕ → ℂ → List ℝ) (h0 : X 0 = ⟨1, 0⟩) {b c : ℕ} (hb : b < 3) (hb0 : b ≠ 0) (hbc : ∀ i < 3, i ≠ 0 → i ≠ b → i = c) {u v : ℝ} (eb : X b = ⟨3, u⟩) (ec : X c = ⟨3, v⟩) (huv : u ^ 2 < v ^ 2) :
    (buildRepresentationOmp X 3 lstsq 1 0).I = [b] := by
  have hr : normalizeCw X 0 = ⟨1, 0⟩ := by rw [normalizeCw, h0]; apply Complex.ext <;> simp [Complex.norm_def, Complex.normSq_mk]
  have hn : ∀ w : ℝ, 0 < ‖(⟨3, w⟩ : ℂ)‖ := fun w => norm_pos_iff.2 fun h => by simpa using congrArg Complex.re h
  have hin : ∀ i w, X i = ⟨3, w⟩ → |⟪normalizeCw X i, normalizeCw X 0⟫| = 3 * ‖(⟨3, w⟩ : ℂ)‖⁻¹ := fun i w e => by
    rw [inner_normalizeCw, hr, e, Complex.inner]
    have := inv_pos.2 (hn w)
    have e2 : ‖(⟨3, w⟩ : ℂ)‖⁻¹ * ((⟨1, 0⟩ : ℂ) * (starRingEnd ℂ) ⟨3, w⟩).re = 3 * ‖(⟨3, w⟩ : ℂ)‖⁻¹ := by rw [Complex.mul_re, Complex.conj_re, Complex.conj_im]; ring
    rw [e2, abs_of_pos (by linarith)]
  have hlt : ‖(⟨3, u⟩ : ℂ)‖ < ‖(⟨3, v⟩ : ℂ)‖ := by
    rw [Complex.norm_def, Complex.norm_def, Complex.normSq_mk, Complex.normSq_mk]
    exact Real.sqrt_lt_sqrt (by nlinarith [sq_nonneg u]) (by nlinarith)
  have := chosen_eq X (N := 3) (j := 0) (i := b) (normalizeCw X 0) hb hb0 (fun h => by
    have e := hin b u eb
    rw [h, abs_zero] at e
    have := inv_pos.2 (hn u)
    linarith) fun i' hi' h1 h2 => by
      rw [hbc i' hi' h1 h2, hin b u eb, hin c v ec]
      have := (inv_lt_inv₀ (hn v) (hn u)).2 hlt
      linarith
  show [] ++ [_] = _
  rw [this]; rfl

/-- **C172** the condition on ties is needed: points arbitrarily near the points (1,0), (3,4), (3,-4) give another representation of the first. -/
theorem c172_tie_fails (lstsq : List ℕ → ℂ → List ℝ) (δ : ℝ) (hδ : 0 < δ) : ∃ X' : ℕ → ℂ, (∀ i, ‖X' i - sscTiePts i‖ < δ) ∧
    ∀ lstsq' : List ℕ → ℂ → List ℝ, (buildRepresentationOmp X' 3 lstsq' 1 0).I ≠ (buildRepresentationOmp sscTiePts 3 lstsq 1 0).I := by
  set t := min (δ / 2) 1 with ht
  have t0 : 0 < t := by rw [ht]; positivity
  have t1 : t ≤ 1 := min_le_right _ _
  have t2 : t < δ := (min_le_left _ _).trans_lt (by linarith)
  let A : ℕ → ℂ := fun i => if i = 1 then ⟨3, 4 - t⟩ else sscTiePts i
  let B : ℕ → ℂ := fun i => if i = 2 then ⟨3, -4 + t⟩ else sscTiePts i
  have hA : ∀ i, ‖A i - sscTiePts i‖ < δ := fun i => by
    by_cases h : i = 1
    · subst h
      have e : A 1 - sscTiePts 1 = ((-t : ℝ) : ℂ) * Complex.I := by apply Complex.ext <;> simp [A, sscTiePts]
      rw [e, norm_mul, Complex.norm_I, mul_one, Complex.norm_real, Real.norm_eq_abs, abs_neg, abs_of_pos t0]
      exact t2
    · simp [A, h, hδ]
  have hB : ∀ i, ‖B i - sscTiePts i‖ < δ := fun i => by
    by_cases h : i = 2
    · subst h
      have e : B 2 - sscTiePts 2 = ((t : ℝ) : ℂ) * Complex.I := by apply Complex.ext <;> simp [B, sscTiePts]
      rw [e, norm_mul, Complex.norm_I, mul_one, Complex.norm_real, Real.norm_eq_abs, abs_of_pos t0]
      exact t2
    · simp [B, h, hδ]
  have eA : ∀ l, (buildRepresentationOmp A 3 l 1 0).I = [1] := fun l => sscTie_first A l (by simp [A, sscTiePts]) (by norm_num) (by norm_num) (c := 2) (by omega) (u := 4 - t) (v := -4) (by simp [A]) (by simp [A, sscTiePts]) (by nlinarith)
  have eB : ∀ l, (buildRepresentationOmp B 3 l 1 0).I = [2] := fun l => sscTie_first B l (by simp [B, sscTiePts]) (by norm_num) (by norm_num) (c := 1) (by omega) (u := -4 + t) (v := 4) (by simp [B]) (by simp [B, sscTiePts]) (by nlinarith)
  by_cases h : (buildRepresentationOmp sscTiePts 3 lstsq 1 0).I = [1]
  · exact ⟨B, hB, fun l => by rw [eB, h]; simp⟩
  · exact ⟨A, hA, fun l => by rw [eA]; exact fun e => h e.symm⟩

/-! ## The hypotheses are met -/

theorem exLine_clear (lstsq : List ℕ → ℂ → List ℝ) (j : ℕ) (hj : j < 4) : ClearSelections exLinePts 4 lstsq 1 j := by
  have n2 : ‖(⟨3, 4⟩ : ℂ)‖ = 5 := by
    rw [Complex.norm_def, Complex.normSq_mk, show (3 : ℝ) * 3 + 4 * 4 = 5 * 5 by norm_num, Real.sqrt_mul_self (by norm_num)]
  have n3 : ‖(⟨6, 8⟩ : ℂ)‖ = 10 := by
    rw [Complex.norm_def, Complex.normSq_mk, show (6 : ℝ) * 6 + 8 * 8 = 10 * 10 by norm_num, Real.sqrt_mul_self (by norm_num)]
  have e0 : normalizeCw exLinePts 0 = ⟨1, 0⟩ := by apply Complex.ext <;> simp [normalizeCw, exLinePts]
  have e1 : normalizeCw exLinePts 1 = ⟨-1, 0⟩ := by apply Complex.ext <;> simp [normalizeCw, exLinePts]
  have e2 : normalizeCw exLinePts 2 = ⟨3 / 5, 4 / 5⟩ := by apply Complex.ext <;> simp [normalizeCw, exLinePts, n2] <;> ring
  have e3 : normalizeCw exLinePts 3 = ⟨3 / 5, 4 / 5⟩ := by apply Complex.ext <;> simp [normalizeCw, exLinePts, n3] <;> ring
  intro k hk
  obtain rfl : k = 0 := by omega
  have hr : (sscSeq exLinePts 4 lstsq j 0).r = normalizeCw exLinePts j := rfl
  rw [hr]
  interval_cases j
  · refine ⟨1, by norm_num, by norm_num, by rw [e0, e1]; norm_num [Complex.inner], fun i' hi' h1 h2 => ?_⟩
    interval_cases i' <;> first | omega | (simp only [e0, e1, e2, e3, Complex.inner]; norm_num [abs_of_pos])
  · refine ⟨0, by norm_num, by norm_num, by rw [e0, e1]; norm_num [Complex.inner], fun i' hi' h1 h2 => ?_⟩
    interval_cases i' <;> first | omega | (simp only [e0, e1, e2, e3, Complex.inner]; norm_num [abs_of_pos])
  · refine ⟨3, by norm_num, by norm_num, by rw [e2, e3, Complex.inner]; norm_num, fun i' hi' h1 h2 => ?_⟩
    interval_cases i' <;> first | omega | (simp only [e0, e1, e2, e3, Complex.inner]; norm_num [abs_of_pos])
  · refine ⟨2, by norm_num, by norm_num, by rw [e2, e3, Complex.inner]; norm_num, fun i' hi' h1 h2 => ?_⟩
    interval_cases i' <;> first | omega | (simp only [e0, e1, e2, e3, Complex.inner]; norm_num [abs_of_pos])

example (lstsq : List ℕ → ℂ → List ℝ) (hl : ∀ I y, IsLstsq (normalizeCw exLinePts) I y (lstsq I y)) :=
  c172_representation exLinePts 4 exLine_spread.nz lstsq hl 1 2 (by norm_num) (exLine_clear lstsq 2 (by norm_num)) (1 / 100) (by norm_num)

example (lstsq : List ℕ → ℂ → List ℝ) (hl : ∀ I y, IsLstsq (normalizeCw exLinePts) I y (lstsq I y)) :=
  c172_batch exLinePts 4 exLine_spread.nz lstsq hl 1 3 2 (by norm_num) (by norm_num) (by norm_num) (exLine_clear lstsq 2 (by norm_num)) (1 / 100) (by norm_num)

example (lstsq : List ℕ → ℂ → List ℝ) (hl : ∀ I y, IsLstsq (normalizeCw exLinePts) I y (lstsq I y)) := c172_affinity exLine_spread hl 1 one_pos (exLine_clear lstsq)

/-- Two points on each of two lines, moved a little: they are still separated. -/
example (lstsq : List ℕ → ℂ → List ℝ) (hl : ∀ I y, IsLstsq (normalizeCw exLinePts) I y (lstsq I y)) :=
  c172_clustering exLine_spread hl 1 one_pos (exLine_clear lstsq) (k := 2) (by norm_num) (fun i hi => by omega) (fun a ha => ⟨2 * a, by omega, by omega⟩) (exLine_connected lstsq hl) (by norm_num)

example (lstsq : List ℕ → ℂ → List ℝ) (hl : ∀ I y, IsLstsq (normalizeCw exLinePts) I y (lstsq I y)) :=
  c172_clustering_random_walk exLine_spread hl 1 one_pos (exLine_clear lstsq) (k := 2) (by norm_num) (fun i hi => by omega) (fun a ha => ⟨2 * a, by omega, by omega⟩) (exLine_connected lstsq hl) (by norm_num)

end Verif.Cluster
