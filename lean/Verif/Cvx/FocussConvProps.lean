import Verif.Cvx.FocussConv

set_option autoImplicit false
/-!
# FOCUSS converges (C137)

The exponent satisfies `0 < p < 1`; the dictionary and the measurements are in general position, as for `c65_finite_partial`.
-/
noncomputable section
namespace Verif.Cvx
open Verif.Loop Matrix
open Filter Topology

variable {m n : ℕ}

/-! ## Specification -/

/-- No hyperplane through the origin contains `m` columns of `Phi`, and `y` is no combination of fewer than `m` columns. -/
def GeneralPosition (Phi : Matrix (Fin m) (Fin n) ℝ) (y : Fin m → ℝ) : Prop :=
  m ≤ n ∧ (∀ v : Fin m → ℝ, v ≠ 0 → (Finset.univ.filter fun i => (Phiᵀ *ᵥ v) i = 0).card < m) ∧ ∀ x, Phi *ᵥ x = y → m ≤ nnz x

/-- `x N` is the result of `matrix_solve_noiseless(Phi, y, p, max_iters=N)`, for every `N`. -/
def FocussResults (Phi : Matrix (Fin m) (Fin n) ℝ) (y : Fin m → ℝ) (p : ℝ) (x : ℕ → Fin n → ℝ) : Prop :=
  ∀ N, ∃ s, FocussSolve Phi y p N s ∧ s.x = some (x N)

/-! ## Lemmas -/

/-- The iterates. -/
theorem focuss_seq {Phi : Matrix (Fin m) (Fin n) ℝ} {y : Fin m → ℝ} (hg : GeneralPosition Phi y) (p : ℝ) :
    ∃ x, FocussResults Phi y p x ∧ ∀ k, (Phi * focussA Phi p (x k)).det ≠ 0 ∧ x (k + 1) = focussT Phi y p (x k) ∧ Phi *ᵥ x (k + 1) = y := by
  obtain ⟨hmn, hspark, hy⟩ := hg
  obtain ⟨x, hx⟩ : ∃ x : ℕ → Fin n → ℝ, x = fun k => (focussT Phi y p)^[k] fun _ => 1 := ⟨_, rfl⟩
  have hs : ∀ k, x (k + 1) = focussT Phi y p (x k) := fun k => by rw [hx]; exact Function.iterate_succ_apply' _ _ _
  have hall : ∀ k, ((focussBody Phi y p)^[k] (focussInit Phi y)).x = some (x k) ∧ ((focussBody Phi y p)^[k] (focussInit Phi y)).iterations = k ∧ m ≤ nnz (x k) := by
    intro k
    induction k with
    | zero => exact ⟨by rw [hx]; rfl, rfl, by rw [hx]; simpa [nnz] using hmn⟩
    | succ k ih =>
      obtain ⟨h1, h2, h3⟩ := ih
      have hst := step_eq (y := y) (det_of_spark hspark p h3)
      rw [Function.iterate_succ_apply', hs k]
      refine ⟨?_, ?_, hy _ (step_some hst).1⟩
      · show Option.bind _ _ = _
        rw [h1, Option.bind_some, hst]
      · show _ + 1 = _
        rw [h2]
  refine ⟨x, fun N => ⟨(focussBody Phi y p)^[N] (focussInit Phi y), ⟨reach_of_iterate fun j hj => ?_, ?_⟩, (hall N).1⟩, fun k => ⟨det_of_spark hspark p (hall k).2.2, hs k, ?_⟩⟩
  · show _ < N
    rw [(hall j).2.1]; exact hj
  · show ¬ _ < N
    rw [(hall N).2.1]; exact lt_irrefl N
  · rw [hs k]
    exact (step_some (step_eq (det_of_spark hspark p (hall k).2.2))).1

theorem results_unique {Phi : Matrix (Fin m) (Fin n) ℝ} {y : Fin m → ℝ} {p : ℝ} {x x' : ℕ → Fin n → ℝ} (h : FocussResults Phi y p x) (h' : FocussResults Phi y p x') :
    x = x' := by
  funext N
  obtain ⟨s, h1, h2⟩ := h N
  obtain ⟨s', h1', h2'⟩ := h' N
  rw [Out.unique h1 h1', h2', Option.some.injEq] at h2
  exact h2.symm

/-- The strict decrease for one step. -/
theorem focuss_strict {Phi : Matrix (Fin m) (Fin n) ℝ} {y : Fin m → ℝ} {p : ℝ} (hp : 0 < p) (hp1 : p < 1) {x x' : Fin n → ℝ} (hsol : Phi *ᵥ x = y)
    (h : stepNoiseless Phi y x p = some x') (hne : x' ≠ x) : ∑ i, |x' i| ^ (2 - 2 * p) < ∑ i, |x i| ^ (2 - 2 * p) := by
  have h1 : (focussBody Phi y p (focussState Phi y (some x) 0)).x = some x' := h
  have h2 := c65_minimal Phi y p (focussState Phi y (some x) 0) x x' (Or.inl hp) rfl h1 x hsol (fun _ h => h) (Ne.symm hne)
  have h3 := q_bound hp hp1 (c65_zero_stays Phi y p hp (focussState Phi y (some x) 0) x x' rfl h1)
  nlinarith

theorem focuss_le {Phi : Matrix (Fin m) (Fin n) ℝ} {y : Fin m → ℝ} {p : ℝ} (hp : 0 < p) (hp1 : p < 1) {x x' : Fin n → ℝ} (hsol : Phi *ᵥ x = y)
    (h : stepNoiseless Phi y x p = some x') : ∑ i, |x' i| ^ (2 - 2 * p) ≤ ∑ i, |x i| ^ (2 - 2 * p) := by
  by_cases hne : x' = x
  · rw [hne]
  · exact (focuss_strict hp hp1 hsol h hne).le

/-- The iterates from the first on are bounded, with vanishing steps and fixed limit points. -/
theorem focuss_core {Phi : Matrix (Fin m) (Fin n) ℝ} {y : Fin m → ℝ} (hg : GeneralPosition Phi y) {p : ℝ} (hp : 0 < p) (hp1 : p < 1) {x : ℕ → Fin n → ℝ}
    (hx : FocussResults Phi y p x) :
    Bornology.IsBounded (Set.range fun k => x (k + 1)) ∧ (∀ l, ClusterSeq (fun k => x (k + 1)) l → Phi *ᵥ l = y ∧ stepNoiseless Phi y l p = some l) ∧
    Tendsto (fun k => dist (x (k + 1 + 1)) (x (k + 1))) atTop (𝓝 0) := by
  obtain ⟨x', hx', hs⟩ := focuss_seq hg p
  rw [results_unique hx hx']
  clear hx hx' x
  have hq : 0 < 2 - 2 * p := by linarith
  obtain ⟨f, hf⟩ : ∃ f : (Fin n → ℝ) → ℝ, f = fun z => ∑ i, |z i| ^ (2 - 2 * p) := ⟨_, rfl⟩
  have cf : Continuous f := by
    rw [hf]
    exact continuous_finset_sum _ fun i _ => ((continuous_apply i).abs).rpow_const fun _ => Or.inr hq.le
  have f0 : ∀ z, 0 ≤ f z := fun z => by rw [hf]; exact Finset.sum_nonneg fun i _ => Real.rpow_nonneg (abs_nonneg _) _
  have hdec : ∀ k, f (x' (k + 1 + 1)) ≤ f (x' (k + 1)) := fun k => by
    rw [hf]
    exact focuss_le hp hp1 (hs k).2.2 (by rw [(hs (k + 1)).2.1]; exact step_eq (hs (k + 1)).1)
  have hle : ∀ k, f (x' (k + 1)) ≤ f (x' 1) := fun k => by
    induction k with
    | zero => exact le_rfl
    | succ k ih => exact (hdec k).trans ih
  have hb : Bornology.IsBounded (Set.range fun k => x' (k + 1)) := by
    rw [isBounded_iff_forall_norm_le]
    refine ⟨(f (x' 1)) ^ (2 - 2 * p)⁻¹, ?_⟩
    rintro _ ⟨k, rfl⟩
    refine (pi_norm_le_iff_of_nonneg (Real.rpow_nonneg (f0 _) _)).mpr fun i => ?_
    have h1 : |x' (k + 1) i| ^ (2 - 2 * p) ≤ f (x' 1) := by
      refine le_trans ?_ (hle k)
      rw [hf]
      exact Finset.single_le_sum (f := fun i => |x' (k + 1) i| ^ (2 - 2 * p)) (fun i _ => Real.rpow_nonneg (abs_nonneg _) _) (Finset.mem_univ i)
    have h2 := Real.rpow_le_rpow (Real.rpow_nonneg (abs_nonneg _) _) h1 (inv_nonneg.mpr hq.le)
    rwa [Real.rpow_rpow_inv (abs_nonneg _) hq.ne'] at h2
  have hu : ∀ k, x' (k + 1 + 1) = focussT Phi y p (x' (k + 1)) := fun k => (hs (k + 1)).2.1
  have hcl : ∀ l, ClusterSeq (fun k => x' (k + 1)) l → Phi *ᵥ l = y ∧ (Phi * focussA Phi p l).det ≠ 0 ∧ focussT Phi y p l = l := by
    intro l hl
    have hsol : Phi *ᵥ l = y := by
      obtain ⟨φ, hφ, hlim⟩ := hl
      have c1 : Continuous fun z : Fin n → ℝ => Phi *ᵥ z := continuous_const.matrix_mulVec continuous_id
      have h1 : Tendsto (fun k => Phi *ᵥ x' (φ k + 1)) atTop (𝓝 (Phi *ᵥ l)) := (c1.tendsto l).comp hlim
      have h2 : Tendsto (fun k => Phi *ᵥ x' (φ k + 1)) atTop (𝓝 y) := tendsto_const_nhds.congr fun k => (hs _).2.2.symm
      exact tendsto_nhds_unique h1 h2
    have hd := det_of_spark hg.2.1 p (hg.2.2 l hsol)
    refine ⟨hsol, hd, cluster_fixed (u := fun k => x' (k + 1)) hu cf f0 hdec hl (focussT_continuousAt y hp hd) fun hne => ?_⟩
    rw [hf]
    exact focuss_strict hp hp1 hsol (step_eq hd) hne
  refine ⟨hb, fun l hl => ?_, steps_vanish (u := fun k => x' (k + 1)) hu hb fun l hl => ⟨focussT_continuousAt y hp (hcl l hl).2.1, (hcl l hl).2.2⟩⟩
  obtain ⟨h1, h2, h3⟩ := hcl l hl
  exact ⟨h1, by rw [step_eq h2, h3]⟩

/-- Two stationary solutions with the same signs are equal unless `p = 1/2`. -/
theorem fixed_signs {Phi : Matrix (Fin m) (Fin n) ℝ} {y : Fin m → ℝ} {p : ℝ} (hp : 0 < p) (hp2 : p ≠ 1 / 2) {a b : Fin n → ℝ}
    (ha : stepNoiseless Phi y a p = some a) (hb : stepNoiseless Phi y b p = some b) (hs : ∀ i, SignType.sign (a i) = SignType.sign (b i)) : a = b := by
  obtain ⟨ha1, v, hv⟩ := step_some ha
  obtain ⟨hb1, w, hw⟩ := step_some hb
  have hz : ∀ i, a i = 0 ↔ b i = 0 := fun i => by rw [← sign_eq_zero_iff, hs i, sign_eq_zero_iff]
  have grad : ∀ (c : Fin n → ℝ) (v : Fin m → ℝ), (∀ i, c i = xp2 p c i * (Phiᵀ *ᵥ v) i) → ∀ i, c i ≠ 0 →
      (Phiᵀ *ᵥ v) i = SignType.sign (c i) * |c i| ^ (1 - 2 * p) := by
    intro c v hc i hi
    have h1 := hc i
    rw [xp2_eq hi] at h1
    have hpos := Real.rpow_pos_of_pos (abs_pos.mpr hi) (2 * p)
    rw [Real.rpow_sub (abs_pos.mpr hi), Real.rpow_one, ← mul_div_assoc, sign_mul_abs, eq_div_iff hpos.ne', mul_comm]
    exact h1.symm
  have hsum : ∑ i, (a i - b i) * ((Phiᵀ *ᵥ v) i - (Phiᵀ *ᵥ w) i) = 0 := by
    have e : ∑ i, (a i - b i) * ((Phiᵀ *ᵥ v) i - (Phiᵀ *ᵥ w) i) = (a - b) ⬝ᵥ (Phiᵀ *ᵥ (v - w)) := by
      rw [mulVec_sub]; rfl
    rw [e, dotProduct_comm, mulVec_transpose, ← dotProduct_mulVec, mulVec_sub, ha1, hb1, sub_self, dotProduct_zero]
  have term : ∀ i, a i ≠ 0 → (a i - b i) * ((Phiᵀ *ᵥ v) i - (Phiᵀ *ᵥ w) i) = (|a i| - |b i|) * (|a i| ^ (1 - 2 * p) - |b i| ^ (1 - 2 * p)) := by
    intro i hi
    have hbi : b i ≠ 0 := fun h => hi ((hz i).mpr h)
    rw [grad a v hv i hi, grad b w hw i hbi, ← hs i]
    have e1 : a i = SignType.sign (a i) * |a i| := (sign_mul_abs _).symm
    have e2 : b i = SignType.sign (a i) * |b i| := by rw [hs i]; exact (sign_mul_abs _).symm
    have e3 : (SignType.sign (a i) : ℝ) * SignType.sign (a i) = 1 := by
      rcases lt_or_gt_of_ne hi with h | h
      · rw [sign_neg h]; norm_num
      · rw [sign_pos h]; norm_num
    obtain ⟨σ, hσ⟩ : ∃ σ : ℝ, σ = SignType.sign (a i) := ⟨_, rfl⟩
    rw [← hσ] at e1 e2 e3 ⊢
    calc (a i - b i) * (σ * |a i| ^ (1 - 2 * p) - σ * |b i| ^ (1 - 2 * p))
        = (σ * |a i| - σ * |b i|) * (σ * |a i| ^ (1 - 2 * p) - σ * |b i| ^ (1 - 2 * p)) := by rw [← e1, ← e2]
      _ = σ * σ * ((|a i| - |b i|) * (|a i| ^ (1 - 2 * p) - |b i| ^ (1 - 2 * p))) := by ring
      _ = _ := by rw [e3, one_mul]
  have zterm : ∀ i, a i = 0 → (a i - b i) * ((Phiᵀ *ᵥ v) i - (Phiᵀ *ᵥ w) i) = 0 := fun i hi => by rw [hi, (hz i).mp hi, sub_self, zero_mul]
  -- all terms have the same sign
  have habs : ∀ i, |a i| = |b i| := by
    have fin : ∀ i, a i ≠ 0 → (|a i| - |b i|) * (|a i| ^ (1 - 2 * p) - |b i| ^ (1 - 2 * p)) = 0 → |a i| = |b i| := by
      intro i hi h
      rcases mul_eq_zero.mp h with h | h
      · linarith
      · have h2 : |a i| ^ (1 - 2 * p) = |b i| ^ (1 - 2 * p) := by linarith
        have hr : 1 - 2 * p ≠ 0 := fun h => hp2 (by linarith)
        have h3 := congrArg (fun t => t ^ (1 - 2 * p)⁻¹) h2
        simpa [Real.rpow_rpow_inv (abs_nonneg _) hr] using h3
    have bpos : ∀ i, a i ≠ 0 → 0 < |b i| := fun i hi => abs_pos.mpr fun h => hi ((hz i).mpr h)
    rcases lt_or_gt_of_ne hp2 with hlt | hgt
    · have nn : ∀ i ∈ Finset.univ, 0 ≤ (a i - b i) * ((Phiᵀ *ᵥ v) i - (Phiᵀ *ᵥ w) i) := by
        intro i _
        by_cases hi : a i = 0
        · rw [zterm i hi]
        · rw [term i hi]
          rcases le_total |a i| |b i| with h | h
          · have := Real.rpow_le_rpow (abs_nonneg _) h (by linarith : 0 ≤ 1 - 2 * p)
            exact mul_nonneg_of_nonpos_of_nonpos (by linarith) (by linarith)
          · have := Real.rpow_le_rpow (abs_nonneg _) h (by linarith : 0 ≤ 1 - 2 * p)
            exact mul_nonneg (by linarith) (by linarith)
      intro i
      by_cases hi : a i = 0
      · rw [hi, (hz i).mp hi]
      · have := (Finset.sum_eq_zero_iff_of_nonneg nn).mp hsum i (Finset.mem_univ i)
        rw [term i hi] at this
        exact fin i hi this
    · have nn : ∀ i ∈ Finset.univ, (a i - b i) * ((Phiᵀ *ᵥ v) i - (Phiᵀ *ᵥ w) i) ≤ 0 := by
        intro i _
        by_cases hi : a i = 0
        · rw [zterm i hi]
        · rw [term i hi]
          rcases le_total |a i| |b i| with h | h
          · have := Real.rpow_le_rpow_of_nonpos (abs_pos.mpr hi) h (by linarith : 1 - 2 * p ≤ 0)
            exact mul_nonpos_of_nonpos_of_nonneg (by linarith) (by linarith)
          · have := Real.rpow_le_rpow_of_nonpos (bpos i hi) h (by linarith : 1 - 2 * p ≤ 0)
            exact mul_nonpos_of_nonneg_of_nonpos (by linarith) (by linarith)
      intro i
      by_cases hi : a i = 0
      · rw [hi, (hz i).mp hi]
      · have := (Finset.sum_eq_zero_iff_of_nonpos nn).mp hsum i (Finset.mem_univ i)
        rw [term i hi] at this
        exact fin i hi this
  funext i
  rw [← sign_mul_abs (a i), ← sign_mul_abs (b i), hs i, habs i]

theorem fixed_finite {Phi : Matrix (Fin m) (Fin n) ℝ} {y : Fin m → ℝ} {p : ℝ} (hp : 0 < p) (hp2 : p ≠ 1 / 2) :
    {l : Fin n → ℝ | stepNoiseless Phi y l p = some l}.Finite := by
  refine Set.Finite.of_finite_image (f := fun l : Fin n → ℝ => fun i => SignType.sign (l i)) (Set.toFinite _) ?_
  intro a ha b hb h
  exact fixed_signs hp hp2 ha hb fun i => congrFun h i

/-- The tangent inequality for `|t|^(2 - 2p)`. -/
theorem tangent {p : ℝ} (hp2 : p ≤ 1 / 2) {l : ℝ} (hl : l ≠ 0) (z : ℝ) :
    |l| ^ (2 - 2 * p) + (2 - 2 * p) * (l / |l| ^ (2 * p) * (z - l)) ≤ |z| ^ (2 - 2 * p) := by
  have ha := abs_pos.mpr hl
  have hA : 0 < |l| ^ (2 - 2 * p) := Real.rpow_pos_of_pos ha _
  have hq : 1 ≤ 2 - 2 * p := by linarith
  obtain ⟨t, ht⟩ : ∃ t, t = z / l := ⟨_, rfl⟩
  have hz : z = t * l := by rw [ht]; field_simp
  have e1 : l / |l| ^ (2 * p) * (z - l) = |l| ^ (2 - 2 * p) * (t - 1) := by
    have h1 : |l| ^ (2 * p) ≠ 0 := (Real.rpow_pos_of_pos ha _).ne'
    have h2 : |l| ^ (2 : ℝ) = l ^ 2 := by rw [← sq_abs l]; norm_num
    rw [Real.rpow_sub ha, h2, hz]
    field_simp
  have e2 : |z| ^ (2 - 2 * p) = |t| ^ (2 - 2 * p) * |l| ^ (2 - 2 * p) := by
    rw [hz, abs_mul, Real.mul_rpow (abs_nonneg _) (abs_nonneg _)]
  have e3 : 1 + (2 - 2 * p) * (t - 1) ≤ |t| ^ (2 - 2 * p) := by
    rcases le_or_gt 0 t with h | h
    · have b := one_add_mul_self_le_rpow_one_add (s := t - 1) (by linarith) hq
      rw [add_sub_cancel] at b
      rwa [abs_of_nonneg h]
    · have := Real.rpow_nonneg (abs_nonneg t) (2 - 2 * p)
      nlinarith
  rw [e1, e2]
  nlinarith [mul_le_mul_of_nonneg_right e3 hA.le]

/-- A solution with multipliers `g` as gradient minimises the sum. -/
theorem minimal_of_gradient {Phi : Matrix (Fin m) (Fin n) ℝ} {p : ℝ} (hp2 : p ≤ 1 / 2) {l z : Fin n → ℝ} {v : Fin m → ℝ}
    (hs : ∀ i, l i ≠ 0 → (Phiᵀ *ᵥ v) i = l i / |l i| ^ (2 * p))
    (hz0 : ∀ i, l i = 0 → (2 - 2 * p) * ((Phiᵀ *ᵥ v) i * z i) ≤ |z i| ^ (2 - 2 * p)) (hz : Phi *ᵥ z = Phi *ᵥ l) :
    ∑ i, |l i| ^ (2 - 2 * p) ≤ ∑ i, |z i| ^ (2 - 2 * p) := by
  have hq : 0 < 2 - 2 * p := by linarith
  have key : ∀ i ∈ Finset.univ, |l i| ^ (2 - 2 * p) + (2 - 2 * p) * ((Phiᵀ *ᵥ v) i * (z i - l i)) ≤ |z i| ^ (2 - 2 * p) := by
    intro i _
    by_cases hi : l i = 0
    · have := hz0 i hi
      rwa [hi, abs_zero, Real.zero_rpow hq.ne', zero_add, sub_zero]
    · rw [hs i hi]
      exact tangent hp2 hi (z i)
  have h1 := Finset.sum_le_sum key
  rw [Finset.sum_add_distrib, ← Finset.mul_sum] at h1
  have e : ∑ i, (Phiᵀ *ᵥ v) i * (z i - l i) = (Phiᵀ *ᵥ v) ⬝ᵥ (z - l) := rfl
  rw [e, mulVec_transpose, ← dotProduct_mulVec, mulVec_sub, hz, sub_self, dotProduct_zero, mul_zero, add_zero] at h1
  exact h1

theorem fixed_gradient {Phi : Matrix (Fin m) (Fin n) ℝ} {p : ℝ} {l : Fin n → ℝ} {v : Fin m → ℝ} (hl : ∀ i, l i = xp2 p l i * (Phiᵀ *ᵥ v) i) (i : Fin n) (hi : l i ≠ 0) :
    (Phiᵀ *ᵥ v) i = l i / |l i| ^ (2 * p) := by
  have h1 := hl i
  rw [xp2_eq hi] at h1
  rw [eq_div_iff (Real.rpow_pos_of_pos (abs_pos.mpr hi) (2 * p)).ne', mul_comm]
  exact h1.symm

/-- An entry whose magnitude eventually does not decrease cannot tend to zero unless it is zero. -/
theorem no_vanish {a g : ℕ → ℝ} {r : ℝ} (ha : ∀ k, 0 < a k) (hs : ∀ k, a (k + 1) = a k ^ (1 - r) * g k) (h : ∀ᶠ k in atTop, a k ^ r ≤ g k) : ¬ Tendsto a atTop (𝓝 0) := by
  intro hlim
  obtain ⟨K, hK⟩ := eventually_atTop.mp h
  have mono : ∀ k, K ≤ k → a K ≤ a k := by
    intro k hk
    induction k, hk using Nat.le_induction with
    | base => exact le_rfl
    | succ k hk ih =>
      refine ih.trans ?_
      rw [hs k]
      calc a k = a k ^ (1 - r) * a k ^ r := by rw [← Real.rpow_add (ha k)]; simp
        _ ≤ _ := mul_le_mul_of_nonneg_left (hK k hk) (Real.rpow_nonneg (ha k).le _)
  have := ge_of_tendsto hlim (eventually_atTop.mpr ⟨K, mono⟩)
  exact absurd (ha K) (not_lt.mpr this)

/-! ## Properties -/

/-- **C137.** For `0 < p < 1` an iteration from a solution of the measurement equations strictly decreases `Σ |x_i|^(2 - 2p)` unless it changes nothing. -/
theorem c137_strict (Phi : Matrix (Fin m) (Fin n) ℝ) (y : Fin m → ℝ) (p : ℝ) (hp : 0 < p) (hp1 : p < 1) (maxIters : ℕ) (s : FocussState m n)
    (h : FocussReach Phi y p maxIters s) (hi : 0 < s.iterations) (x x' : Fin n → ℝ) (hx : s.x = some x) (hx' : (focussBody Phi y p s).x = some x') :
    ∑ i, |x' i| ^ (2 - 2 * p) < ∑ i, |x i| ^ (2 - 2 * p) ∨ x' = x := by
  have h1 : (s.x.bind fun x => stepNoiseless Phi y x p) = some x' := hx'
  rw [hx, Option.bind_some] at h1
  by_cases hne : x' = x
  · exact Or.inr hne
  · exact Or.inl (focuss_strict hp hp1 (c65_solution_partial Phi y p maxIters s h hi x hx).1 h1 hne)

/-- **C137.** For `0 < p < 1` and data in general position, the results for growing `max_iters` are bounded, successive results become arbitrarily close, and every
limit point is a solution of the measurement equations that another iteration leaves unchanged. -/
theorem c137_limit_points (Phi : Matrix (Fin m) (Fin n) ℝ) (y : Fin m → ℝ) (hg : GeneralPosition Phi y) (p : ℝ) (hp : 0 < p) (hp1 : p < 1) :
    ∃ x, FocussResults Phi y p x ∧ Bornology.IsBounded (Set.range x) ∧ Tendsto (fun N => dist (x (N + 1)) (x N)) atTop (𝓝 0) ∧
      ∀ φ : ℕ → ℕ, StrictMono φ → ∀ l, Tendsto (fun k => x (φ k)) atTop (𝓝 l) → Phi *ᵥ l = y ∧ stepNoiseless Phi y l p = some l := by
  obtain ⟨x, hx, -⟩ := focuss_seq hg p
  obtain ⟨h1, h2, h3⟩ := focuss_core hg hp hp1 hx
  refine ⟨x, hx, ?_, (tendsto_add_atTop_iff_nat (f := fun N => dist (x (N + 1)) (x N)) 1).mp h3, fun φ hφ l hl => ?_⟩
  · have e : Set.range x = {x 0} ∪ Set.range fun k => x (k + 1) := by
      ext z
      constructor
      · rintro ⟨k, rfl⟩
        cases k with
        | zero => exact Or.inl rfl
        | succ k => exact Or.inr ⟨k, rfl⟩
      · rintro (h | ⟨k, rfl⟩)
        · exact ⟨0, h.symm⟩
        · exact ⟨k + 1, rfl⟩
    rw [e]
    exact Bornology.isBounded_singleton.union h1
  · refine h2 l ⟨fun k => φ (k + 1) - 1, fun a b hab => ?_, ?_⟩
    · have h4 := hφ (Nat.succ_lt_succ hab)
      have h5 : a + 1 ≤ φ (a + 1) := hφ.id_le _
      show φ (a + 1) - 1 < φ (b + 1) - 1
      have h6 : φ (a + 1) < φ (b + 1) := h4
      omega
    · refine ((tendsto_add_atTop_iff_nat 1).mpr hl).congr fun k => ?_
      have h5 : k + 1 ≤ φ (k + 1) := hφ.id_le _
      show x (φ (k + 1)) = x (φ (k + 1) - 1 + 1)
      congr 1
      omega

/-- **C137.** For `0 < p < 1`, `p ≠ 1/2` and data in general position, the results for growing `max_iters` converge to a solution of the measurement equations that
another iteration leaves unchanged. -/
theorem c137_converges (Phi : Matrix (Fin m) (Fin n) ℝ) (y : Fin m → ℝ) (hg : GeneralPosition Phi y) (p : ℝ) (hp : 0 < p) (hp1 : p < 1) (hp2 : p ≠ 1 / 2) :
    ∃ x l, FocussResults Phi y p x ∧ Tendsto x atTop (𝓝 l) ∧ Phi *ᵥ l = y ∧ stepNoiseless Phi y l p = some l := by
  obtain ⟨x, hx, -⟩ := focuss_seq hg p
  obtain ⟨h1, h2, h3⟩ := focuss_core hg hp hp1 hx
  obtain ⟨l, hl, hlim⟩ := converge_finite (u := fun k => x (k + 1)) h1 h3 _ (fixed_finite (Phi := Phi) (y := y) hp hp2) fun l hl => (h2 l hl).2
  exact ⟨x, l, hx, (tendsto_add_atTop_iff_nat 1).mp hlim, h2 l hl⟩

/-- **C137.** For `0 < p ≤ 1/2` a solution that an iteration leaves unchanged has the least `Σ |z_i|^(2 - 2p)` among all solutions with the same zeros. For `p = 1/2`
this is the least sum of magnitudes. -/
theorem c137_stationary (Phi : Matrix (Fin m) (Fin n) ℝ) (y : Fin m → ℝ) (p : ℝ) (hp2 : p ≤ 1 / 2) (l : Fin n → ℝ) (hl : stepNoiseless Phi y l p = some l)
    (z : Fin n → ℝ) (hz : Phi *ᵥ z = y) (hz0 : ∀ i, l i = 0 → z i = 0) : ∑ i, |l i| ^ (2 - 2 * p) ≤ ∑ i, |z i| ^ (2 - 2 * p) := by
  obtain ⟨h1, v, hv⟩ := step_some hl
  refine minimal_of_gradient hp2 (fixed_gradient hv) (fun i hi => ?_) (by rw [hz, h1])
  rw [hz0 i hi, mul_zero, mul_zero]
  exact Real.rpow_nonneg (abs_nonneg _) _

/-- **C137.** For `0 < p ≤ 1/2` and data in general position: if the results for growing `max_iters` converge, the limit has the least `Σ |z_i|^(2 - 2p)` among all
solutions of the measurement equations that vanish where some iterate vanishes, thus among all solutions when no iterate has a zero entry. -/
theorem c137_global (Phi : Matrix (Fin m) (Fin n) ℝ) (y : Fin m → ℝ) (hg : GeneralPosition Phi y) (p : ℝ) (hp : 0 < p) (hp2 : p ≤ 1 / 2) (x : ℕ → Fin n → ℝ)
    (hx : FocussResults Phi y p x) (l : Fin n → ℝ) (hlim : Tendsto x atTop (𝓝 l)) (z : Fin n → ℝ) (hz : Phi *ᵥ z = y) (hz0 : ∀ i, (∃ N, x N i = 0) → z i = 0) :
    ∑ i, |l i| ^ (2 - 2 * p) ≤ ∑ i, |z i| ^ (2 - 2 * p) := by
  obtain ⟨hsol, hfix⟩ := (focuss_core hg hp (by linarith) hx).2.1 l ⟨id, strictMono_id, (tendsto_add_atTop_iff_nat 1).mpr hlim⟩
  obtain ⟨x', hx', hs⟩ := focuss_seq hg p
  rw [← results_unique hx hx'] at hs
  have hd := det_of_spark hg.2.1 p (hg.2.2 l hsol)
  have hT : focussT Phi y p l = l := (step_eq_iff hfix).2.symm
  have hv : ∀ i, l i = xp2 p l i * (Phiᵀ *ᵥ focussV Phi y p l) i := fun i => by rw [← focussT_apply, hT]
  refine minimal_of_gradient hp2 (fixed_gradient hv) (fun i hi => ?_) (by rw [hz, hsol])
  by_cases hN : ∃ N, x N i = 0
  · rw [hz0 i hN, mul_zero, mul_zero]
    exact Real.rpow_nonneg (abs_nonneg _) _
  push Not at hN
  have hgk : Tendsto (fun k => |(Phiᵀ *ᵥ focussV Phi y p (x k)) i|) atTop (𝓝 |(Phiᵀ *ᵥ focussV Phi y p l) i|) := by
    have c1 : Continuous fun w : Fin m → ℝ => |(Phiᵀ *ᵥ w) i| := ((continuous_apply i).comp (continuous_const.matrix_mulVec continuous_id)).abs
    exact (c1.tendsto _).comp ((focussV_continuousAt y hp hd).tendsto.comp hlim)
  have hai : Tendsto (fun k => |x k i|) atTop (𝓝 0) := by
    have := ((continuous_apply i).abs.tendsto l).comp hlim
    simp only [hi, abs_zero] at this
    exact this
  have hstep : ∀ k, |x (k + 1) i| = |x k i| ^ (1 - (1 - 2 * p)) * |(Phiᵀ *ᵥ focussV Phi y p (x k)) i| := fun k => by
    rw [(hs k).2.1, focussT_apply, abs_mul, abs_of_nonneg (xp2_nonneg _ _ _), xp2_eq (hN k)]
    congr 2; ring
  have hno : ¬ ∀ᶠ k in atTop, |x k i| ^ (1 - 2 * p) ≤ |(Phiᵀ *ᵥ focussV Phi y p (x k)) i| := fun h =>
    no_vanish (fun k => abs_pos.mpr (hN k)) hstep h hai
  rcases hp2.lt_or_eq with hlt | heq
  · have hg0 : (Phiᵀ *ᵥ focussV Phi y p l) i = 0 := by
      by_contra hne
      apply hno
      have hr : Tendsto (fun k => |x k i| ^ (1 - 2 * p)) atTop (𝓝 0) := by
        have := hai.rpow_const (p := 1 - 2 * p) (Or.inr (by linarith))
        rwa [Real.zero_rpow (by linarith)] at this
      filter_upwards [hr.eventually_lt hgk (abs_pos.mpr hne)] with k hk
      exact hk.le
    rw [hg0, zero_mul, mul_zero]
    exact Real.rpow_nonneg (abs_nonneg _) _
  · have hg1 : |(Phiᵀ *ᵥ focussV Phi y p l) i| ≤ 1 := by
      by_contra hgt
      rw [not_le] at hgt
      apply hno
      have e0 : 1 - 2 * p = 0 := by rw [heq]; norm_num
      filter_upwards [hgk.eventually_const_lt hgt] with k hk
      rw [e0, Real.rpow_zero]
      exact hk.le
    have e1 : 2 - 2 * p = 1 := by rw [heq]; norm_num
    rw [e1, one_mul, Real.rpow_one]
    calc (Phiᵀ *ᵥ focussV Phi y p l) i * z i ≤ |(Phiᵀ *ᵥ focussV Phi y p l) i * z i| := le_abs_self _
      _ ≤ 1 * |z i| := by rw [abs_mul]; exact mul_le_mul_of_nonneg_right hg1 (abs_nonneg _)
      _ = _ := one_mul _

example : ∃ s x x', FocussReach wideDict ![5] 0.5 20 s ∧ s.x = some x ∧ (focussBody wideDict ![5] 0.5 s).x = some x' ∧
    (∑ i, |x' i| ^ (2 - 2 * (0.5 : ℝ)) < ∑ i, |x i| ^ (2 - 2 * (0.5 : ℝ)) ∨ x' = x) := by
  obtain ⟨s, x, x', h, hi, hx, hx'⟩ := wide_two 0.5
  exact ⟨s, x, x', h, hx, hx', c137_strict _ _ 0.5 (by norm_num) (by norm_num) 20 s h hi x x' hx hx'⟩

example := c137_limit_points wideDict ![5] wide_ok 0.5 (by norm_num) (by norm_num)

/-- The fixed point `(5, 0)` against itself: its zero pattern leaves no other solution. -/
example := c137_stationary wideDict ![5] (1 / 2) le_rfl ![5, 0] wide_fixed ![5, 0] (by funext i; fin_cases i; simp [wideDict, mulVec, dotProduct]) fun _ h => h

end Verif.Cvx
