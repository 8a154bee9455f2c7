import Verif.Cvx.NoiseRecovery

set_option autoImplicit false
/-!
# The restricted isometry property and the error of points in the cone (C133)
-/
noncomputable section
namespace Verif.Cvx
open Verif.Opt
open scoped RealInnerProductSpace

variable {m n : ℕ}

/-- Specification: the restricted isometry property of order `s` with constant `δ` of `A`, up to the scale `c`: on the vectors with at most `s` non-zero
entries the squared norm of `A v` is `c` times the one of `v` up to the factor `1 ± δ`. -/
structure RipC (A : Vec n →ₗ[ℝ] Vec m) (c : ℝ) (s : ℕ) (δ : ℝ) : Prop where
  pos : 0 < c
  lower : ∀ v : Vec n, (Finset.univ.filter fun i => v i ≠ 0).card ≤ s → c * (1 - δ) * ‖v‖ ^ 2 ≤ ‖A v‖ ^ 2
  upper : ∀ v : Vec n, (Finset.univ.filter fun i => v i ≠ 0).card ≤ s → ‖A v‖ ^ 2 ≤ c * (1 + δ) * ‖v‖ ^ 2

/-- The entries of `h` on `T`. -/
def onV (T : Finset (Fin n)) (h : Vec n) : Vec n := vec fun i => if i ∈ T then h i else 0

theorem onV_apply (T : Finset (Fin n)) (h : Vec n) (i : Fin n) : onV T h i = if i ∈ T then h i else 0 := rfl

theorem onV_normsq (T : Finset (Fin n)) (h : Vec n) : ‖onV T h‖ ^ 2 = ∑ i ∈ T, (h i) ^ 2 := by
  rw [normsq_sum]
  simp only [onV_apply, ite_pow, ne_eq, OfNat.ofNat_ne_zero, not_false_eq_true, zero_pow]
  rw [Finset.sum_ite_mem, Finset.univ_inter]

theorem onV_card (T : Finset (Fin n)) (h : Vec n) : (Finset.univ.filter fun i => onV T h i ≠ 0).card ≤ T.card := by
  refine Finset.card_le_card fun i hi => ?_
  by_contra hn
  exact (Finset.mem_filter.1 hi).2 (by rw [onV_apply, if_neg hn])

theorem onV_union (T U : Finset (Fin n)) (hd : Disjoint T U) (h : Vec n) : onV (T ∪ U) h = onV T h + onV U h := by
  ext i
  show onV (T ∪ U) h i = onV T h i + onV U h i
  simp only [onV_apply, Finset.mem_union]
  by_cases h1 : i ∈ T
  · simp [h1, Finset.disjoint_left.1 hd h1]
  · simp [h1]

theorem onV_univ (h : Vec n) : onV Finset.univ h = h := by
  ext i
  show onV _ h i = _
  rw [onV_apply, if_pos (Finset.mem_univ i)]

theorem onV_empty (h : Vec n) : onV ∅ h = 0 := by
  ext i
  show onV _ h i = _
  rw [onV_apply, if_neg (Finset.notMem_empty i)]; rfl

theorem onV_norm_le (T : Finset (Fin n)) (h : Vec n) (M : ℝ) (hM : 0 ≤ M) (hb : ∀ i ∈ T, |h i| ≤ M) : ‖onV T h‖ ≤ √T.card * M := by
  have h1 : ‖onV T h‖ ^ 2 ≤ T.card * M ^ 2 := by
    rw [onV_normsq, ← nsmul_eq_mul]
    exact Finset.sum_le_card_nsmul _ _ _ fun i hi => by
      rw [← sq_abs]; exact pow_le_pow_left₀ (abs_nonneg _) (hb i hi) 2
  have h2 := Real.sqrt_le_sqrt h1
  rwa [Real.sqrt_sq (norm_nonneg _), Real.sqrt_mul (Nat.cast_nonneg _), Real.sqrt_sq hM] at h2

theorem onV_l1_le (T : Finset (Fin n)) (h : Vec n) : ∑ i ∈ T, |h i| ≤ √T.card * ‖onV T h‖ := by
  have h1 : (∑ i ∈ T, |h i|) ^ 2 ≤ T.card * ‖onV T h‖ ^ 2 := by
    rw [onV_normsq]
    refine (sq_sum_le_card_mul_sum_sq).trans_eq ?_
    simp only [sq_abs]
  have h2 := Real.sqrt_le_sqrt h1
  rwa [Real.sqrt_sq (Finset.sum_nonneg fun _ _ => abs_nonneg _), Real.sqrt_mul (Nat.cast_nonneg _), Real.sqrt_sq (norm_nonneg _)] at h2

/-- The restricted isometry property makes vectors with disjoint supports nearly orthogonal after `A`. -/
theorem rip_inner {A : Vec n →ₗ[ℝ] Vec m} {c δ : ℝ} {s : ℕ} (hA : RipC A c s δ) (T U : Finset (Fin n)) (hd : Disjoint T U)
    (hc : T.card + U.card ≤ s) (g h : Vec n) : |⟪A (onV T g), A (onV U h)⟫| ≤ c * δ * (‖onV T g‖ * ‖onV U h‖) := by
  -- the polarised inequality for every factor
  have horth : ⟪onV T g, onV U h⟫ = 0 := by
    rw [PiLp.inner_apply]
    refine Finset.sum_eq_zero fun i _ => ?_
    show onV U h i * onV T g i = 0
    rw [onV_apply, onV_apply]
    by_cases h1 : i ∈ T
    · rw [if_neg (Finset.disjoint_left.1 hd h1), zero_mul]
    · rw [if_neg h1, mul_zero]
  have hsup : ∀ t : ℝ, (Finset.univ.filter fun i => (onV T g + t • onV U h) i ≠ 0).card ≤ s := by
    intro t
    refine le_trans (Finset.card_le_card fun i hi => ?_) ((Finset.card_union_le T U).trans hc)
    by_contra hn
    rw [Finset.mem_union, not_or] at hn
    refine (Finset.mem_filter.1 hi).2 ?_
    show onV T g i + t * onV U h i = 0
    rw [onV_apply, onV_apply, if_neg hn.1, if_neg hn.2]; ring
  have hn : ∀ t : ℝ, ‖onV T g + t • onV U h‖ ^ 2 = ‖onV T g‖ ^ 2 + t ^ 2 * ‖onV U h‖ ^ 2 := by
    intro t
    rw [norm_add_sq_real, inner_smul_right, horth, norm_smul, mul_pow, Real.norm_eq_abs, sq_abs]; ring
  have hAn : ∀ t : ℝ, ‖A (onV T g + t • onV U h)‖ ^ 2 = ‖A (onV T g)‖ ^ 2 + 2 * (t * ⟪A (onV T g), A (onV U h)⟫) + t ^ 2 * ‖A (onV U h)‖ ^ 2 := by
    intro t
    rw [map_add, map_smul, norm_add_sq_real, inner_smul_right, norm_smul, mul_pow, Real.norm_eq_abs, sq_abs]
  have key : ∀ t : ℝ, 2 * (t * ⟪A (onV T g), A (onV U h)⟫) ≤ c * δ * (‖onV T g‖ ^ 2 + t ^ 2 * ‖onV U h‖ ^ 2) := by
    intro t
    have h1 := hA.upper _ (hsup t)
    have h2 := hA.lower _ (hsup (-t))
    rw [hAn, hn] at h1 h2
    nlinarith
  set p := ‖onV T g‖ with hp
  set q := ‖onV U h‖ with hq
  set z := ⟪A (onV T g), A (onV U h)⟫ with hz
  have hp0 : 0 ≤ p := norm_nonneg _
  have hq0 : 0 ≤ q := norm_nonneg _
  rcases hq0.eq_or_lt with h0 | h0
  · have : onV U h = 0 := norm_eq_zero.1 h0.symm
    rw [← h0, mul_zero, mul_zero, hz, this, map_zero, inner_zero_right, abs_zero]
  rcases hp0.eq_or_lt with h0' | h0'
  · have : onV T g = 0 := norm_eq_zero.1 h0'.symm
    rw [← h0', zero_mul, mul_zero, hz, this, map_zero, inner_zero_left, abs_zero]
  have e : (p / q) ^ 2 * q ^ 2 = p ^ 2 := by field_simp
  have h1 := key (p / q)
  have h2 := key (-(p / q))
  rw [neg_sq, e] at h2
  rw [e] at h1
  have hpq : 0 < p / q := div_pos h0' h0
  have e2 : c * δ * (p * q) * (p / q) = c * δ * p ^ 2 := by field_simp
  rw [abs_le]
  constructor
  · refine le_of_mul_le_mul_right ?_ hpq
    linarith
  · refine le_of_mul_le_mul_right ?_ hpq
    linarith

/-- A set of the `K` largest entries. -/
theorem exists_top (h : Vec n) (U : Finset (Fin n)) (K : ℕ) (hK : K ≤ U.card) :
    ∃ V ⊆ U, V.card = K ∧ ∀ i ∈ V, ∀ j ∈ U \ V, |h j| ≤ |h i| := by
  induction K with
  | zero => exact ⟨∅, Finset.empty_subset _, rfl, fun i hi => absurd hi (Finset.notMem_empty i)⟩
  | succ K ih =>
    obtain ⟨V, hV, hc, ht⟩ := ih (Nat.le_of_succ_le hK)
    have hne : (U \ V).Nonempty := by
      rw [← Finset.card_pos, Finset.card_sdiff_of_subset hV, hc]; omega
    obtain ⟨a, ha, hmax⟩ := Finset.exists_max_image (U \ V) (fun i => |h i|) hne
    have ha' := Finset.mem_sdiff.1 ha
    refine ⟨insert a V, Finset.insert_subset ha'.1 hV, by rw [Finset.card_insert_of_notMem ha'.2, hc], fun i hi j hj => ?_⟩
    rw [Finset.mem_sdiff, Finset.mem_insert, not_or] at hj
    have hj' : j ∈ U \ V := Finset.mem_sdiff.2 ⟨hj.1, hj.2.2⟩
    rcases Finset.mem_insert.1 hi with rfl | hi
    · exact hmax j hj'
    · exact ht i hi j hj'

/-- The entries on `U`, all at most `M`, split in blocks of `K` by magnitude. -/
theorem tail_bound {A : Vec n →ₗ[ℝ] Vec m} {c δ : ℝ} {K : ℕ} (hδ : 0 ≤ δ) (hK : 0 < K) (hA : RipC A c (2 * K) δ) (T : Finset (Fin n)) (hT : T.card ≤ K)
    (g h : Vec n) (U : Finset (Fin n)) (hd : Disjoint T U) (M : ℝ) (hM : 0 ≤ M) (hb : ∀ i ∈ U, |h i| ≤ M) :
    ‖onV U h‖ ≤ √K * M + (∑ i ∈ U, |h i|) / √K ∧
    |⟪A (onV T g), A (onV U h)⟫| ≤ c * δ * ‖onV T g‖ * (√K * M + (∑ i ∈ U, |h i|) / √K) := by
  have hcd : 0 ≤ c * δ * ‖onV T g‖ := mul_nonneg (mul_nonneg hA.pos.le hδ) (norm_nonneg _)
  have hsK : 0 < √(K : ℝ) := Real.sqrt_pos.2 (by exact_mod_cast hK)
  induction hN : U.card using Nat.strong_induction_on generalizing U M with
  | _ N ih =>
    by_cases hc : U.card ≤ K
    · have h1 : ‖onV U h‖ ≤ √K * M := (onV_norm_le U h M hM hb).trans
        (mul_le_mul_of_nonneg_right (Real.sqrt_le_sqrt (by exact_mod_cast hc)) hM)
      have h2 : 0 ≤ (∑ i ∈ U, |h i|) / √K := div_nonneg (Finset.sum_nonneg fun _ _ => abs_nonneg _) hsK.le
      refine ⟨by linarith, (rip_inner hA T U hd (by omega) g h).trans ?_⟩
      rw [← mul_assoc]
      exact mul_le_mul_of_nonneg_left (by linarith) hcd
    · push Not at hc
      obtain ⟨V, hV, hVc, htop⟩ := exists_top h U K hc.le
      have hVd : Disjoint T V := hd.mono_right hV
      have hUVd : Disjoint V (U \ V) := Finset.disjoint_sdiff
      set M' := (∑ i ∈ V, |h i|) / K with hM'
      have hK0 : (0 : ℝ) < K := by exact_mod_cast hK
      have hM'0 : 0 ≤ M' := div_nonneg (Finset.sum_nonneg fun _ _ => abs_nonneg _) hK0.le
      have hb' : ∀ j ∈ U \ V, |h j| ≤ M' := by
        intro j hj
        rw [hM', le_div_iff₀ hK0, mul_comm, ← hVc, ← nsmul_eq_mul]
        exact Finset.card_nsmul_le_sum _ _ _ fun i hi => htop i hi j hj
      have hcard : (U \ V).card < N := by
        rw [Finset.card_sdiff_of_subset hV, hVc]; omega
      obtain ⟨i1, i2⟩ := ih _ hcard (U \ V) (hd.mono_right Finset.sdiff_subset) M' hM'0 hb' rfl
      have hsum : ∑ i ∈ U, |h i| = ∑ i ∈ V, |h i| + ∑ i ∈ U \ V, |h i| := by
        rw [add_comm, Finset.sum_sdiff hV]
      have e1 : √K * M' = (∑ i ∈ V, |h i|) / √K := by
        rw [hM']
        field_simp
        rw [Real.sq_sqrt hK0.le, mul_comm]
      have e2 : √K * M' + (∑ i ∈ U \ V, |h i|) / √K = (∑ i ∈ U, |h i|) / √K := by
        rw [e1, hsum, add_div]
      rw [e2] at i1 i2
      have hu : onV U h = onV V h + onV (U \ V) h := by
        rw [← onV_union V (U \ V) hUVd, Finset.union_sdiff_of_subset hV]
      have hVn : ‖onV V h‖ ≤ √K * M := by
        have := onV_norm_le V h M hM fun i hi => hb i (hV hi)
        rwa [hVc] at this
      constructor
      · rw [hu]
        exact (norm_add_le _ _).trans (by linarith)
      · rw [hu, map_add, _root_.inner_add_right]
        refine (abs_add_le _ _).trans ?_
        have h3 := rip_inner hA T V hVd (by omega) g h
        rw [← mul_assoc] at h3
        have h4 := mul_le_mul_of_nonneg_left hVn hcd
        rw [mul_add (c * δ * ‖onV T g‖)]
        linarith

theorem rip_arith {δ gam q r w B hn a sk : ℝ} (hq : 0 ≤ q) (hg : 0 ≤ gam) (hr : q = r * δ) (h2 : (1 - δ) * w ≤ a + q * B) (h3 : B ≤ gam * w + sk)
    (h4 : hn ≤ w + B) (hk : 0 ≤ 1 - δ - gam * q) : (1 - δ - gam * q) * hn ≤ (1 + gam) * a + (1 + (r - 1) * δ) * sk := by
  have h5 := mul_le_mul_of_nonneg_left h3 hq
  have h6 : (1 - δ - gam * q) * w ≤ a + q * sk := by linarith
  have h7 : hn ≤ (1 + gam) * w + sk := by linarith
  have h8 := mul_le_mul_of_nonneg_left h7 hk
  have h9 := mul_le_mul_of_nonneg_left h6 (by linarith : 0 ≤ 1 + gam)
  subst hr
  linarith

theorem div_mass {T a g w sg k : ℝ} (hk : 0 < k) (hg : 0 ≤ g) (hT : T ≤ g * a + sg) (ha : a ≤ k * w) : T / k ≤ g * w + sg / k := by
  rw [div_le_iff₀ hk]
  have e : (g * w + sg / k) * k = g * (k * w) + sg := by field_simp
  rw [e]
  nlinarith

/-- A vector whose mass off `S` is at most `gam` times its mass on `S` plus `sigma` is bounded by `A h` and `sigma`. -/
theorem rip_error {A : Vec n →ₗ[ℝ] Vec m} {c δ : ℝ} {K : ℕ} (hδ : 0 ≤ δ) (hδ1 : δ < 1) (hK : 0 < K) (hA : RipC A c (2 * K) δ) (S : Finset (Fin n))
    (hS : S.card ≤ K) (h : Vec n) (gam sigma : ℝ) (hg : 0 ≤ gam) (hsig : 0 ≤ sigma) (hcone : ∑ i ∈ Sᶜ, |h i| ≤ gam * ∑ i ∈ S, |h i| + sigma)
    (hk : 0 ≤ 1 - δ - gam * (√2 * δ)) :
    (1 - δ - gam * (√2 * δ)) * ‖h‖ ≤ (1 + gam) * (√(1 + δ) / √c * ‖A h‖) + (1 + (√2 - 1) * δ) * (sigma / √K) := by
  have hsK : 0 < √(K : ℝ) := Real.sqrt_pos.2 (by exact_mod_cast hK)
  have hK0 : (0 : ℝ) < K := by exact_mod_cast hK
  obtain ⟨V, hV, hVc, htop⟩ := exists_top h Sᶜ (min K (Sᶜ).card) (min_le_right _ _)
  set U := Sᶜ \ V with hU
  have hVK : V.card ≤ K := hVc ▸ min_le_left _ _
  have hSV : Disjoint S V := Finset.disjoint_left.2 fun i hi hi' => Finset.mem_compl.1 (hV hi') hi
  have hSU : Disjoint S U := Finset.disjoint_left.2 fun i hi hi' => Finset.mem_compl.1 (Finset.sdiff_subset hi') hi
  have hVU : Disjoint V U := Finset.disjoint_sdiff
  set M := (∑ i ∈ V, |h i|) / K with hM
  have hM0 : 0 ≤ M := div_nonneg (Finset.sum_nonneg fun _ _ => abs_nonneg _) hK0.le
  have hb : ∀ j ∈ U, |h j| ≤ M := by
    intro j hj
    have hVK' : V.card = K := by
      by_contra hne
      have : V.card = (Sᶜ).card := by omega
      have hVS : V = Sᶜ := Finset.eq_of_subset_of_card_le hV this.ge
      rw [hU, hVS, Finset.sdiff_self] at hj
      exact Finset.notMem_empty j hj
    rw [hM, le_div_iff₀ hK0, mul_comm, ← hVK', ← nsmul_eq_mul]
    exact Finset.card_nsmul_le_sum _ _ _ fun i hi => htop i hi j hj
  have hsum : ∑ i ∈ Sᶜ, |h i| = ∑ i ∈ V, |h i| + ∑ i ∈ U, |h i| := by
    rw [add_comm, hU, Finset.sum_sdiff hV]
  have e1 : √K * M = (∑ i ∈ V, |h i|) / √K := by
    rw [hM]
    field_simp
    rw [Real.sq_sqrt hK0.le, mul_comm]
  have e2 : √K * M + (∑ i ∈ U, |h i|) / √K = (∑ i ∈ Sᶜ, |h i|) / √K := by
    rw [e1, hsum, add_div]
  obtain ⟨tn, t1⟩ := tail_bound hδ hK hA S hS h h U hSU M hM0 hb
  obtain ⟨-, t2⟩ := tail_bound hδ hK hA V hVK h h U hVU M hM0 hb
  rw [e2] at tn t1 t2
  set B := (∑ i ∈ Sᶜ, |h i|) / √K with hB
  have hB0 : 0 ≤ B := div_nonneg (Finset.sum_nonneg fun _ _ => abs_nonneg _) hsK.le
  -- the head
  set w := onV (S ∪ V) h with hw
  have hwadd : w = onV S h + onV V h := onV_union S V hSV h
  have huniv : (S ∪ V) ∪ U = Finset.univ := by
    ext i
    simp only [Finset.mem_union, hU, Finset.mem_sdiff, Finset.mem_compl, Finset.mem_univ, iff_true]
    tauto
  have hhd : h = w + onV U h := by
    rw [hw, ← onV_union _ _ (Finset.disjoint_union_left.2 ⟨hSU, hVU⟩), huniv, onV_univ]
  have hwcard : (Finset.univ.filter fun i => w i ≠ 0).card ≤ 2 * K :=
    (onV_card _ _).trans ((Finset.card_union_le S V).trans (by omega))
  have hwn : ‖w‖ ^ 2 = ‖onV S h‖ ^ 2 + ‖onV V h‖ ^ 2 := by
    rw [hw, onV_normsq, onV_normsq, onV_normsq, Finset.sum_union hSV]
  have hsum2 : ‖onV S h‖ + ‖onV V h‖ ≤ √2 * ‖w‖ := by
    refine le_of_sq_le_sq ?_ (by positivity)
    rw [mul_pow, Real.sq_sqrt (by norm_num), hwn]
    nlinarith [sq_nonneg (‖onV S h‖ - ‖onV V h‖)]
  have hAw : A w = A h - A (onV U h) := by
    have := congrArg A hhd
    rw [map_add] at this
    rw [this, add_sub_cancel_right]
  have h1 : ‖A w‖ ^ 2 ≤ ‖A w‖ * ‖A h‖ + c * δ * (√2 * ‖w‖) * B := by
    have k1 : ‖A w‖ ^ 2 = ⟪A w, A h⟫ - ⟪A w, A (onV U h)⟫ := by
      rw [← real_inner_self_eq_norm_sq]
      conv_lhs => rw [hAw]
      rw [inner_sub_right, ← hAw]
    have k2 := real_inner_le_norm (A w) (A h)
    have k3 : ⟪A w, A (onV U h)⟫ = ⟪A (onV S h), A (onV U h)⟫ + ⟪A (onV V h), A (onV U h)⟫ := by
      rw [hwadd, map_add, inner_add_left]
    have k4 := neg_abs_le ⟪A (onV S h), A (onV U h)⟫
    have k5 := neg_abs_le ⟪A (onV V h), A (onV U h)⟫
    have k6 : c * δ * (‖onV S h‖ + ‖onV V h‖) * B ≤ c * δ * (√2 * ‖w‖) * B :=
      mul_le_mul_of_nonneg_right (mul_le_mul_of_nonneg_left hsum2 (mul_nonneg hA.pos.le hδ)) hB0
    nlinarith
  have hsc : 0 < √c := Real.sqrt_pos.2 hA.pos
  have hcc : √c * √c = c := Real.mul_self_sqrt hA.pos.le
  have hAwn : ‖A w‖ ≤ √c * √(1 + δ) * ‖w‖ := by
    have := Real.sqrt_le_sqrt (hA.upper w hwcard)
    rwa [Real.sqrt_sq (norm_nonneg _), Real.sqrt_mul (mul_nonneg hA.pos.le (by linarith)), Real.sqrt_mul hA.pos.le,
      Real.sqrt_sq (norm_nonneg _)] at this
  have h2 : (1 - δ) * ‖w‖ ≤ √(1 + δ) / √c * ‖A h‖ + √2 * δ * B := by
    rcases (norm_nonneg w).eq_or_lt with h0 | h0
    · rw [← h0, mul_zero]
      have : 0 ≤ √2 * δ * B := mul_nonneg (mul_nonneg (Real.sqrt_nonneg _) hδ) hB0
      positivity
    · have k1 := hA.lower w hwcard
      have k2 : c * ((1 - δ) * ‖w‖) * ‖w‖ ≤ (√c * √(1 + δ) * ‖A h‖ + c * (√2 * δ * B)) * ‖w‖ := by
        have k3 := mul_le_mul_of_nonneg_right hAwn (norm_nonneg (A h))
        nlinarith
      have k4 := le_of_mul_le_mul_right k2 h0
      have k5 : c * (√(1 + δ) / √c * ‖A h‖ + √2 * δ * B) = √c * √(1 + δ) * ‖A h‖ + c * (√2 * δ * B) := by
        rw [mul_add]
        congr 1
        have : c * (√(1 + δ) / √c * ‖A h‖) = √c * √c * (√(1 + δ) / √c * ‖A h‖) := by rw [hcc]
        rw [this]
        field_simp
      rw [← k5] at k4
      exact le_of_mul_le_mul_left k4 hA.pos
  -- the mass off `S`
  have h3 : B ≤ gam * ‖w‖ + sigma / √K := by
    have k1 : ∑ i ∈ S, |h i| ≤ √K * ‖w‖ := by
      refine (onV_l1_le S h).trans (mul_le_mul (Real.sqrt_le_sqrt (by exact_mod_cast hS)) ?_ (norm_nonneg _) hsK.le)
      refine le_of_sq_le_sq ?_ (norm_nonneg _)
      rw [hwn]; nlinarith [sq_nonneg ‖onV V h‖]
    exact div_mass hsK hg hcone k1
  have h4 : ‖h‖ ≤ ‖w‖ + B := by
    conv_lhs => rw [hhd]
    exact (norm_add_le _ _).trans (by linarith)
  exact rip_arith (mul_nonneg (Real.sqrt_nonneg _) hδ) hg rfl h2 h3 h4 hk

end Verif.Cvx
