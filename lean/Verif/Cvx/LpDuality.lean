import Verif.Cvx.YallExist
import Mathlib.Analysis.InnerProductSpace.ProdL2

set_option autoImplicit false
/-!
# Finitely generated cones are closed; duality for the problems of YALL1 with a sign constraint
-/
noncomputable section
namespace Verif.Cvx
open Verif.Loop Verif.Opt
open scoped RealInnerProductSpace Topology

section Cone
variable {ι F : Type*} [Fintype ι] [NormedAddCommGroup F] [NormedSpace ℝ F]

/-- The nonnegative vectors supported on `S`. -/
def orthOn (S : Finset ι) : Set (ι → ℝ) := {x | (∀ i, 0 ≤ x i) ∧ ∀ i, i ∉ S → x i = 0}

/-- A nonnegative vector can be moved along a kernel vector with a positive entry until one of its entries vanishes. -/
theorem orth_reduce [DecidableEq ι] {S : Finset ι} {x z : ι → ℝ} (hx : x ∈ orthOn S) (hz : ∀ i, i ∉ S → z i = 0) (hp : ∃ i, 0 < z i) :
    ∃ t : ℝ, ∃ i ∈ S, x - t • z ∈ orthOn (S.erase i) := by
  obtain ⟨i0, hi0⟩ := hp
  have hne : (S.filter fun i => 0 < z i).Nonempty := ⟨i0, by
    rw [Finset.mem_filter]
    refine ⟨?_, hi0⟩
    by_contra h; rw [hz i0 h] at hi0; exact lt_irrefl _ hi0⟩
  obtain ⟨i, hi, hmin⟩ := Finset.exists_min_image _ (fun i => x i / z i) hne
  rw [Finset.mem_filter] at hi
  refine ⟨x i / z i, i, hi.1, fun j => ?_, fun j hj => ?_⟩
  · rw [Pi.sub_apply, Pi.smul_apply, smul_eq_mul, sub_nonneg]
    rcases lt_or_ge 0 (z j) with h | h
    · have hjS : j ∈ S := by by_contra hc; rw [hz j hc] at h; exact lt_irrefl _ h
      have := hmin j (Finset.mem_filter.mpr ⟨hjS, h⟩)
      exact (le_div_iff₀ h).1 this
    · exact (mul_nonpos_of_nonneg_of_nonpos (div_nonneg (hx.1 i) hi.2.le) h).trans (hx.1 j)
  · rw [Pi.sub_apply, Pi.smul_apply, smul_eq_mul]
    rcases eq_or_ne j i with rfl | hji
    · rw [div_mul_cancel₀ _ hi.2.ne', sub_self]
    · have hjS : j ∉ S := fun h => hj (Finset.mem_erase.mpr ⟨hji, h⟩)
      rw [hx.2 j hjS, hz j hjS, mul_zero, sub_zero]

/-- The vectors supported on `S`. -/
def suppSub (S : Finset ι) : Submodule ℝ (ι → ℝ) where
  carrier := {x | ∀ i, i ∉ S → x i = 0}
  add_mem' := fun {a b} ha hb i hi => by rw [Pi.add_apply, ha i hi, hb i hi, add_zero]
  zero_mem' := fun _ _ => rfl
  smul_mem' := fun c x hx i hi => by rw [Pi.smul_apply, hx i hi, smul_zero]

theorem closed_image_orthOn [DecidableEq ι] (L : (ι → ℝ) →ₗ[ℝ] F) (S : Finset ι) : IsClosed (L '' orthOn S) := by
  induction S using Finset.strongInduction with
  | H S ih =>
    by_cases hker : ∃ z : ι → ℝ, z ≠ 0 ∧ (∀ i, i ∉ S → z i = 0) ∧ L z = 0
    · obtain ⟨z, hz0, hzS, hLz⟩ := hker
      have : ∃ z : ι → ℝ, (∃ i, 0 < z i) ∧ (∀ i, i ∉ S → z i = 0) ∧ L z = 0 := by
        have : ∃ i, z i ≠ 0 := by
          by_contra h; push Not at h; exact hz0 (funext h)
        obtain ⟨i, hi⟩ := this
        rcases lt_or_gt_of_ne hi with h | h
        · exact ⟨-z, ⟨i, by rw [Pi.neg_apply]; linarith⟩, fun j hj => by rw [Pi.neg_apply, hzS j hj, neg_zero], by rw [map_neg, hLz, neg_zero]⟩
        · exact ⟨z, ⟨i, h⟩, hzS, hLz⟩
      obtain ⟨z, hp, hzS, hLz⟩ := this
      have hU : L '' orthOn S = ⋃ i ∈ S, L '' orthOn (S.erase i) := by
        ext c
        simp only [Set.mem_iUnion, Set.mem_image, exists_prop]
        constructor
        · rintro ⟨x, hx, rfl⟩
          obtain ⟨t, i, hi, hmem⟩ := orth_reduce hx hzS hp
          exact ⟨i, hi, _, hmem, by rw [map_sub, map_smul, hLz, smul_zero, sub_zero]⟩
        · rintro ⟨i, hi, x, hx, rfl⟩
          exact ⟨x, ⟨hx.1, fun j hj => hx.2 j fun h => hj (Finset.mem_of_mem_erase h)⟩, rfl⟩
      rw [hU]
      exact S.finite_toSet.isClosed_biUnion fun i hi => ih _ (Finset.erase_ssubset hi)
    · push Not at hker
      have hinj : LinearMap.ker (L.comp (suppSub S).subtype) = ⊥ := by
        rw [LinearMap.ker_eq_bot']
        rintro ⟨x, hx⟩ h
        by_contra hne
        exact hker x (fun h0 => hne (Subtype.ext h0)) hx h
      have hemb := LinearMap.isClosedEmbedding_of_injective hinj
      have hcl : IsClosed {x : suppSub S | ∀ i, 0 ≤ x.1 i} := by
        have : {x : suppSub S | ∀ i, 0 ≤ x.1 i} = ⋂ i, {x : suppSub S | 0 ≤ x.1 i} := by ext x; simp
        rw [this]
        exact isClosed_iInter fun i => isClosed_le continuous_const ((continuous_apply i).comp continuous_subtype_val)
      have := hemb.isClosedMap _ hcl
      convert this using 1
      ext c
      constructor
      · rintro ⟨x, hx, rfl⟩
        exact ⟨⟨x, hx.2⟩, hx.1, rfl⟩
      · rintro ⟨⟨x, hx⟩, h, rfl⟩
        exact ⟨x, ⟨h, hx⟩, rfl⟩

/-- The image of the nonnegative vectors under a linear map is closed. -/
theorem closed_image_orth (L : (ι → ℝ) →ₗ[ℝ] F) : IsClosed (L '' {x | ∀ i, 0 ≤ x i}) := by
  classical
  have := closed_image_orthOn L Finset.univ
  convert this using 2
  ext x
  simp [orthOn]

end Cone

variable {m n : ℕ}

/-- A functional on `Vec m × ℝ` as an inner product and a factor. -/
theorem functional_split (f : StrongDual ℝ (Vec m × ℝ)) : ∃ (y : Vec m) (α : ℝ), ∀ c s, f (c, s) = ⟪y, c⟫ + α * s := by
  refine ⟨(InnerProductSpace.toDual ℝ (Vec m)).symm (f.comp (ContinuousLinearMap.inl ℝ (Vec m) ℝ)), f (0, 1), fun c s => ?_⟩
  rw [InnerProductSpace.toDual_symm_apply]
  have h : ((c, s) : Vec m × ℝ) = ContinuousLinearMap.inl ℝ (Vec m) ℝ c + s • (0, 1) := by ext <;> simp
  rw [h, map_add, map_smul, smul_eq_mul, mul_comm s]
  rfl

theorem wl1_of_nonneg {w x : Vec n} (hx : ∀ i, 0 ≤ x i) : wl1 w x = ∑ i, w i * x i :=
  Finset.sum_congr rfl fun i _ => by rw [abs_of_nonneg (hx i)]

/-- Linear programming duality: the least weighted sum over the nonnegative solutions of `A x = b` is certified by a dual vector. -/
theorem exists_dual_bp_nonneg {w : Vec n} (hw : ∀ i, 0 < w i) (A : Vec n →ₗ[ℝ] Vec m) (b : Vec m) (p : ℝ)
    (hmin : ∀ x' : Vec n, (∀ i, 0 ≤ x' i) → A x' = b → p ≤ wl1 w x') :
    ∃ y : Vec m, (∀ x' : Vec n, (∀ i, 0 ≤ x' i) → ⟪y, A x'⟫ ≤ wl1 w x') ∧ p ≤ ⟪y, b⟫ := by
  let L : (Option (Fin n) → ℝ) →ₗ[ℝ] Vec m × ℝ :=
    { toFun := fun x => (A (vec fun i => x (some i)) - x none • b, ∑ i, w i * x (some i) - x none * p)
      map_add' := fun x x' => by
        ext1
        · have : (vec fun i => (x + x') (some i) : Vec n) = (vec fun i => x (some i)) + vec fun i => x' (some i) := by ext i; simp
          show A _ - _ = (A _ - _) + (A _ - _)
          rw [this, map_add, Pi.add_apply, add_smul]; abel
        · show ∑ i, w i * (x + x') (some i) - (x + x') none * p = (∑ i, w i * x (some i) - x none * p) + (∑ i, w i * x' (some i) - x' none * p)
          simp only [Pi.add_apply, mul_add, Finset.sum_add_distrib]; ring
      map_smul' := fun c x => by
        ext1
        · have : (vec fun i => (c • x) (some i) : Vec n) = c • (vec fun i => x (some i)) := by ext i; simp
          show A _ - _ = c • (A _ - _)
          rw [this, map_smul, Pi.smul_apply, smul_sub, smul_smul, smul_eq_mul]
        · show ∑ i, w i * (c • x) (some i) - (c • x) none * p = c * (∑ i, w i * x (some i) - x none * p)
          simp only [Pi.smul_apply, smul_eq_mul]
          rw [mul_sub, Finset.mul_sum, mul_assoc]
          congr 1
          exact Finset.sum_congr rfl fun i _ => by ring }
  have hL : ∀ x, L x = (A (vec fun i => x (some i)) - x none • b, ∑ i, w i * x (some i) - x none * p) := fun _ => rfl
  obtain ⟨K, hK⟩ : ∃ K, K = L '' {x | ∀ i, 0 ≤ x i} := ⟨_, rfl⟩
  have hclosed : IsClosed K := by rw [hK]; exact closed_image_orth L
  have hconv : Convex ℝ K := by
    have hc : Convex ℝ {x : Option (Fin n) → ℝ | ∀ i, 0 ≤ x i} := by
      intro x hx y hy a b' ha hb _ i
      rw [Pi.add_apply, Pi.smul_apply, Pi.smul_apply, smul_eq_mul, smul_eq_mul]
      exact add_nonneg (mul_nonneg ha (hx i)) (mul_nonneg hb (hy i))
    rw [hK]
    exact hc.linear_image L
  have hnot : ((0 : Vec m), (-1 : ℝ)) ∉ K := by
    rw [hK]
    rintro ⟨x, hx, he⟩
    rw [hL, Prod.mk.injEq] at he
    obtain ⟨h1, h2⟩ := he
    have hx' : ∀ i, 0 ≤ (vec fun i => x (some i) : Vec n) i := fun i => hx (some i)
    have hsum : 0 ≤ ∑ i, w i * x (some i) := Finset.sum_nonneg fun i _ => mul_nonneg (hw i).le (hx _)
    rcases (hx none).eq_or_lt with h0 | h0
    · rw [← h0] at h2; linarith
    · have h3 := hmin ((x none)⁻¹ • vec fun i => x (some i)) (fun i => by
        rw [PiLp.smul_apply, smul_eq_mul]; exact mul_nonneg (inv_nonneg.mpr h0.le) (hx' i)) (by
        rw [map_smul, sub_eq_zero.mp h1, smul_smul, inv_mul_cancel₀ h0.ne', one_smul])
      rw [wl1_smul, wl1_of_nonneg hx', abs_of_pos (inv_pos.mpr h0)] at h3
      have h4 : x none * p ≤ ∑ i, w i * x (some i) := by
        have := mul_le_mul_of_nonneg_left h3 h0.le
        rwa [← mul_assoc, mul_inv_cancel₀ h0.ne', one_mul] at this
      linarith
  obtain ⟨f, u, hu, hf⟩ := geometric_hahn_banach_point_closed hconv hclosed hnot
  have hcone : ∀ c ∈ K, 0 ≤ f c := by
    intro c hc
    by_contra hneg
    push Not at hneg
    have hu0 : u < 0 := by
      have := hf 0 (by rw [hK]; exact ⟨0, fun _ => le_refl _, map_zero L⟩)
      rwa [map_zero] at this
    have hsc : ∀ t : ℝ, 0 ≤ t → t • c ∈ K := by
      intro t ht
      rw [hK] at hc ⊢
      obtain ⟨x, hx, rfl⟩ := hc
      exact ⟨t • x, fun i => by rw [Pi.smul_apply, smul_eq_mul]; exact mul_nonneg ht (hx i), map_smul L t x⟩
    have h1 := hf _ (hsc (u / f c) (div_nonneg_of_nonpos hu0.le hneg.le))
    rw [map_smul, smul_eq_mul, div_mul_cancel₀ _ hneg.ne] at h1
    exact lt_irrefl _ h1
  obtain ⟨y, α, hya⟩ := functional_split f
  have hα : 0 < α := by
    have h0 := hf 0 (by rw [hK]; exact ⟨0, fun _ => le_refl _, map_zero L⟩)
    rw [map_zero] at h0
    rw [hya, inner_zero_right] at hu
    linarith
  refine ⟨-(α⁻¹ • y), fun x' hx' => ?_, ?_⟩
  · have h1 := hcone (L fun o => o.elim 0 fun i => x' i) (by
      rw [hK]; exact ⟨_, fun o => by cases o with
        | none => exact le_refl _
        | some i => exact hx' i, rfl⟩)
    rw [hL, hya] at h1
    have e : (vec fun i => x' i : Vec n) = x' := by ext i; rfl
    simp only [Option.elim_some, Option.elim_none, e, zero_smul, sub_zero, zero_mul] at h1
    rw [inner_neg_left, real_inner_smul_left, wl1_of_nonneg hx']
    have h2 := mul_le_mul_of_nonneg_left h1 (inv_nonneg.mpr hα.le)
    rw [mul_zero, mul_add, ← mul_assoc, inv_mul_cancel₀ hα.ne', one_mul] at h2
    linarith
  · have h1 := hcone (L fun o => o.elim 1 fun _ => 0) (by
      rw [hK]; exact ⟨_, fun o => by cases o with
        | none => exact zero_le_one
        | some i => exact le_refl _, rfl⟩)
    rw [hL, hya] at h1
    have e : (vec fun _ => 0 : Vec n) = 0 := by ext i; rfl
    simp only [Option.elim_some, Option.elim_none, e, one_smul, map_zero, zero_sub, mul_zero, Finset.sum_const_zero, one_mul, inner_neg_right] at h1
    rw [inner_neg_left, real_inner_smul_left]
    have h2 := mul_le_mul_of_nonneg_left h1 (inv_nonneg.mpr hα.le)
    rw [mul_zero, mul_add, mul_neg, mul_neg, mul_neg, ← mul_assoc, inv_mul_cancel₀ hα.ne', one_mul] at h2
    linarith

/-- The same for a bound on the residual, when some nonnegative point is strictly inside the bound. -/
theorem exists_dual_con_nonneg {w : Vec n} (hw : ∀ i, 0 < w i) (A : Vec n →ₗ[ℝ] Vec m) (b : Vec m) (delta : ℝ) (x1 : Vec n)
    (hx1 : ∀ i, 0 ≤ x1 i) (hs : ‖A x1 - b‖ < delta) (p : ℝ)
    (hmin : ∀ x' : Vec n, (∀ i, 0 ≤ x' i) → ‖A x' - b‖ ≤ delta → p ≤ wl1 w x') :
    ∃ y : Vec m, (∀ x' : Vec n, (∀ i, 0 ≤ x' i) → ⟪y, A x'⟫ ≤ wl1 w x') ∧ ∀ c, ‖c - b‖ ≤ delta → p ≤ ⟪y, c⟫ := by
  have hd : 0 < delta := (norm_nonneg _).trans_lt hs
  obtain ⟨U, hU⟩ : ∃ U : Set (Vec m × ℝ), U = {q | ∃ x' : Vec n, (∀ i, 0 ≤ x' i) ∧ A x' = q.1 ∧ ∑ i, w i * x' i ≤ q.2} := ⟨_, rfl⟩
  have hconv : Convex ℝ U := by
    rw [hU]
    rintro ⟨c, s⟩ ⟨x, hx, hxc, hxs⟩ ⟨c', s'⟩ ⟨x', hx', hxc', hxs'⟩ a a' ha ha' _
    refine ⟨a • x + a' • x', fun i => ?_, ?_, ?_⟩
    · rw [PiLp.add_apply, PiLp.smul_apply, PiLp.smul_apply, smul_eq_mul, smul_eq_mul]
      exact add_nonneg (mul_nonneg ha (hx i)) (mul_nonneg ha' (hx' i))
    · show A _ = a • c + a' • c'
      rw [map_add, map_smul, map_smul, hxc, hxc']
    · show _ ≤ a * s + a' * s'
      have e : ∑ i, w i * (a • x + a' • x') i = a * ∑ i, w i * x i + a' * ∑ i, w i * x' i := by
        rw [Finset.mul_sum, Finset.mul_sum, ← Finset.sum_add_distrib]
        refine Finset.sum_congr rfl fun i _ => ?_
        rw [PiLp.add_apply, PiLp.smul_apply, PiLp.smul_apply, smul_eq_mul, smul_eq_mul]; ring
      rw [e]
      exact add_le_add (mul_le_mul_of_nonneg_left hxs ha) (mul_le_mul_of_nonneg_left hxs' ha')
  have hVc : Convex ℝ (Metric.ball b delta ×ˢ Set.Iio p) := (convex_ball b delta).prod (convex_Iio p)
  have hVo : IsOpen (Metric.ball b delta ×ˢ Set.Iio p) := Metric.isOpen_ball.prod isOpen_Iio
  have hdisj : Disjoint (Metric.ball b delta ×ˢ Set.Iio p) U := by
    rw [Set.disjoint_left, hU]
    rintro ⟨c, s⟩ ⟨hc, hs'⟩ ⟨x', hx', hxc, hxs⟩
    have hc : ‖c - b‖ < delta := mem_ball_iff_norm.mp hc
    have hs' : s < p := hs'
    have hxc : A x' = c := hxc
    have hxs : ∑ i, w i * x' i ≤ s := hxs
    have := hmin x' hx' (by rw [hxc]; exact hc.le)
    rw [wl1_of_nonneg hx'] at this
    linarith
  obtain ⟨f, u, hfV, hfU⟩ := geometric_hahn_banach_open hVc hVo hconv hdisj
  obtain ⟨y, α, hya⟩ := functional_split f
  have hzero : ((0 : Vec m), (0 : ℝ)) ∈ U := by
    rw [hU]; exact ⟨0, fun _ => le_refl _, map_zero A, by simp⟩
  have hu : u ≤ 0 := by
    have := hfU _ hzero
    rwa [hya, inner_zero_right, mul_zero, add_zero] at this
  -- `f` is nonnegative on the cone
  have hcone : ∀ x' : Vec n, (∀ i, 0 ≤ x' i) → ∀ s, ∑ i, w i * x' i ≤ s → 0 ≤ ⟪y, A x'⟫ + α * s := by
    intro x' hx' s hs'
    by_contra hneg
    push Not at hneg
    have key : ∀ t : ℝ, 0 ≤ t → u ≤ t * (⟪y, A x'⟫ + α * s) := by
      intro t ht
      have := hfU (A (t • x'), t * s) (by
        rw [hU]
        refine ⟨t • x', fun i => by rw [PiLp.smul_apply, smul_eq_mul]; exact mul_nonneg ht (hx' i), rfl, ?_⟩
        have e : ∑ i, w i * (t • x') i = t * ∑ i, w i * x' i := by
          rw [Finset.mul_sum]
          exact Finset.sum_congr rfl fun i _ => by rw [PiLp.smul_apply, smul_eq_mul]; ring
        rw [e]
        exact mul_le_mul_of_nonneg_left hs' ht)
      rw [hya, map_smul, inner_smul_right] at this
      linarith
    have h1 := key ((u - 1) / (⟪y, A x'⟫ + α * s)) (div_nonneg_of_nonpos (by linarith) hneg.le)
    rw [div_mul_cancel₀ _ hneg.ne] at h1
    linarith
  have hα0 : 0 ≤ α := by
    have := hcone 0 (fun _ => le_refl _) 1 (by simp)
    rw [map_zero, inner_zero_right] at this
    linarith
  have hx1s := hcone x1 hx1 (∑ i, w i * x1 i) (le_refl _)
  have hα : 0 < α := by
    rcases hα0.eq_or_lt with h0 | h0
    · exfalso
      have h1 := hfV (A x1, p - 1) ⟨mem_ball_iff_norm.mpr hs, by show p - 1 < p; linarith⟩
      rw [hya, ← h0] at h1
      rw [← h0] at hx1s
      linarith
    · exact h0
  refine ⟨-(α⁻¹ • y), fun x' hx' => ?_, fun c hc => ?_⟩
  · have h1 := hcone x' hx' _ (le_refl _)
    rw [inner_neg_left, real_inner_smul_left, wl1_of_nonneg hx']
    have h2 := mul_le_mul_of_nonneg_left h1 (inv_nonneg.mpr hα.le)
    rw [mul_zero, mul_add, ← mul_assoc, inv_mul_cancel₀ hα.ne', one_mul] at h2
    linarith
  · -- approach the boundary of the ball from inside
    have hin : ∀ t : ℝ, 0 < t → t < 1 → ∀ s, s < p → ⟪y, b + t • (c - b)⟫ + α * s < 0 := by
      intro t ht ht1 s hs'
      have := hfV (b + t • (c - b), s) ⟨mem_ball_iff_norm.mpr (by
        rw [add_sub_cancel_left, norm_smul, Real.norm_eq_abs, abs_of_pos ht]
        calc t * ‖c - b‖ ≤ t * delta := mul_le_mul_of_nonneg_left hc ht.le
          _ < delta := by nlinarith), hs'⟩
      rw [hya] at this
      linarith
    have h1 : ⟪y, c⟫ + α * p ≤ 0 := by
      by_contra hcon
      push Not at hcon
      have hcont : Filter.Tendsto (fun t : ℝ => ⟪y, b + t • (c - b)⟫ + α * (p - (1 - t))) (𝓝[<] 1) (𝓝 (⟪y, c⟫ + α * p)) := by
        have hc' : Continuous fun t : ℝ => ⟪y, b + t • (c - b)⟫ + α * (p - (1 - t)) := by fun_prop
        have h2 : ⟪y, b + (1 : ℝ) • (c - b)⟫ + α * (p - (1 - 1)) = ⟪y, c⟫ + α * p := by
          rw [one_smul, add_sub_cancel, sub_self, sub_zero]
        have := hc'.tendsto 1
        rw [h2] at this
        exact this.mono_left nhdsWithin_le_nhds
      have hev := (hcont.eventually (lt_mem_nhds hcon)).and (Ioo_mem_nhdsLT (show (0 : ℝ) < 1 by norm_num))
      obtain ⟨t, h3, h4⟩ := hev.exists
      have := hin t h4.1 h4.2 (p - (1 - t)) (by linarith [h4.2])
      linarith
    rw [inner_neg_left, real_inner_smul_left]
    have h2 := mul_le_mul_of_nonneg_left h1 (inv_nonneg.mpr hα.le)
    rw [mul_zero, mul_add, ← mul_assoc α⁻¹ α, inv_mul_cancel₀ hα.ne', one_mul] at h2
    linarith

end Verif.Cvx
