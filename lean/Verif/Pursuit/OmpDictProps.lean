import Verif.Pursuit.StableRunProps
import Verif.Pursuit.ContinuityProps

set_option autoImplicit false
/-!
# C173: away from ties OMP and MP are stable under perturbations of the dictionary and of the data
-/
noncomputable section
namespace Verif.Pursuit
open Filter Topology Verif.Loop
open scoped RealInnerProductSpace

variable {E : Type*} [NormedAddCommGroup E] [InnerProductSpace ℝ E]

/-- Specification: atom `i` has a larger correlation (in magnitude) with `r` than every other atom. -/
def Winner (phi : ℕ → E) (n : ℕ) (r : E) (i : ℕ) : Prop :=
  i < n ∧ ⟪phi i, r⟫ ≠ 0 ∧ ∀ i', i' < n → i' ≠ i → |⟪phi i', r⟫| < |⟪phi i, r⟫|

/-! ## Least squares depends continuously on independent atoms and on the data -/

theorem fit_tendsto {ι : Type*} {l : Filter ι} {m : ℕ} {u : ι → Fin m → E} {u0 : Fin m → E} (hu : ∀ k, Tendsto (fun a => u a k) l (𝓝 (u0 k))) {y : ι → E} {y0 : E} (hy : Tendsto y l (𝓝 y0))
    {x : ι → Fin m → ℝ} {x0 : Fin m → ℝ} (hx : ∀ᶠ a in l, ∀ k, ⟪u a k, y a - ∑ k, x a k • u a k⟫ = 0) (hx0 : ∀ k, ⟪u0 k, y0 - ∑ k, x0 k • u0 k⟫ = 0)
    (hI : ∀ c : Fin m → ℝ, ∑ k, c k • u0 k = 0 → c = 0) : Tendsto x l (𝓝 x0) := by
  let T : (Fin m → E) → (Fin m → ℝ) →ₗ[ℝ] E := fun u =>
    { toFun := fun x => ∑ k, x k • u k
      map_add' := fun x z => by simp [add_smul, Finset.sum_add_distrib]
      map_smul' := fun a x => by simp [mul_smul, Finset.smul_sum] }
  have hT : ∀ u w, T u w = ∑ k, w k • u k := fun _ _ => rfl
  obtain ⟨C, hC0, hC⟩ := (T u0).exists_antilipschitzWith (LinearMap.ker_eq_bot'.2 fun c hc => hI c hc)
  have hC' : ∀ w, ‖w‖ ≤ C * ‖T u0 w‖ := fun w => by
    have := hC.le_mul_dist w 0
    rwa [map_zero, dist_zero_right, dist_zero_right] at this
  let e : ι → ℝ := fun a => ∑ k : Fin m, ‖u a k - u0 k‖
  have he0 : ∀ a, 0 ≤ e a := fun a => Finset.sum_nonneg fun _ _ => norm_nonneg _
  have hTe : ∀ a w, ‖T (u a) w - T u0 w‖ ≤ e a * ‖w‖ := fun a w => by
    rw [hT, hT, ← Finset.sum_sub_distrib, Finset.sum_mul]
    refine (norm_sum_le _ _).trans (Finset.sum_le_sum fun k _ => ?_)
    rw [← smul_sub, norm_smul, mul_comm]
    exact mul_le_mul_of_nonneg_left (norm_le_pi_norm w k) (norm_nonneg _)
  have he : Tendsto e l (𝓝 0) := by
    have : Tendsto e l (𝓝 (∑ k : Fin m, ‖u0 k - u0 k‖)) := tendsto_finset_sum _ fun k _ => ((hu k).sub tendsto_const_nhds).norm
    simpa using this
  have horth : ∀ (u : Fin m → E) (r : E), (∀ k, ⟪u k, r⟫ = 0) → ∀ w, ⟪T u w, r⟫ = 0 := fun u r h w => by
    rw [hT, sum_inner]
    exact Finset.sum_eq_zero fun k _ => by rw [real_inner_smul_left, h k, mul_zero]
  set r0 := y0 - T u0 x0 with hr0
  let d : ι → E := fun a => (y a - T (u a) x0) - r0
  have hd : Tendsto (fun a => ‖d a‖) l (𝓝 0) := by
    have h1 : Tendsto (fun a => T (u a) x0) l (𝓝 (T u0 x0)) := by
      simp only [hT]
      exact tendsto_finset_sum _ fun k _ => (hu k).const_smul _
    have := ((hy.sub h1).sub (tendsto_const_nhds (x := r0))).norm
    rwa [← hr0, sub_self, norm_zero] at this
  have key : ∀ᶠ a in l, ‖x a - x0‖ ≤ 2 * C * (‖d a‖ + 2 * C * e a * ‖r0‖) := by
    have hs : ∀ᶠ a in l, C * e a < 1 / 2 := by
      have := he.const_mul (C : ℝ)
      rw [mul_zero] at this
      exact this.eventually_lt_const (by norm_num)
    filter_upwards [hs, hx] with a ha hxa
    set w := x a - x0 with hw
    set P := ‖T (u a) w‖ with hP
    have h1 : ‖w‖ ≤ 2 * C * P := by
      have a1 := hC' w
      have a2 : ‖T u0 w‖ ≤ P + e a * ‖w‖ := by
        have := norm_sub_norm_le (T u0 w) (T (u a) w)
        rw [norm_sub_rev] at this
        linarith [hTe a w]
      have a3 : C * ‖T u0 w‖ ≤ C * P + C * e a * ‖w‖ := by
        have := mul_le_mul_of_nonneg_left a2 C.coe_nonneg
        calc _ ≤ _ := this
          _ = _ := by ring
      have a4 : C * e a * ‖w‖ ≤ 1 / 2 * ‖w‖ := mul_le_mul_of_nonneg_right ha.le (norm_nonneg _)
      linarith
    have h2 : P ^ 2 ≤ P * (‖d a‖ + 2 * C * e a * ‖r0‖) := by
      have b1 : P ^ 2 = ⟪T (u a) w, y a - T (u a) x0⟫ := by
        have e1 : y a - T (u a) x0 = (y a - T (u a) (x a)) + T (u a) w := by rw [hw, map_sub]; abel
        rw [e1, inner_add_right, show ⟪T (u a) w, y a - T (u a) (x a)⟫ = 0 from horth _ _ hxa w, zero_add, real_inner_self_eq_norm_sq]
      have b2 : ⟪T (u a) w, y a - T (u a) x0⟫ = ⟪T (u a) w, d a⟫ + ⟪T (u a) w - T u0 w, r0⟫ := by
        have e2 : y a - T (u a) x0 = d a + r0 := by simp only [d]; abel
        rw [e2, inner_add_right, inner_sub_left, show ⟪T u0 w, r0⟫ = 0 from horth _ _ hx0 w, sub_zero]
      have b3 := real_inner_le_norm (T (u a) w) (d a)
      have b4 := real_inner_le_norm (T (u a) w - T u0 w) r0
      have b5 : ‖T (u a) w - T u0 w‖ * ‖r0‖ ≤ e a * (2 * C * P) * ‖r0‖ :=
        mul_le_mul_of_nonneg_right ((hTe a w).trans (mul_le_mul_of_nonneg_left h1 (he0 a))) (norm_nonneg _)
      rw [b1, b2]
      calc _ ≤ P * ‖d a‖ + e a * (2 * C * P) * ‖r0‖ := by linarith
        _ = _ := by ring
    have h3 : P ≤ ‖d a‖ + 2 * C * e a * ‖r0‖ := by
      rcases (norm_nonneg (T (u a) w)).eq_or_lt with h0 | h0
      · rw [hP, ← h0]
        have := he0 a
        positivity
      · rw [pow_two] at h2
        exact le_of_mul_le_mul_left h2 h0
    exact h1.trans (mul_le_mul_of_nonneg_left h3 (by positivity))
  rw [tendsto_iff_norm_sub_tendsto_zero]
  refine squeeze_zero' (Eventually.of_forall fun _ => norm_nonneg _) key ?_
  have : Tendsto (fun a => 2 * (C : ℝ) * (‖d a‖ + 2 * C * e a * ‖r0‖)) l (𝓝 (2 * C * (0 + 2 * C * 0 * ‖r0‖))) :=
    (hd.add ((he.const_mul (2 * (C : ℝ))).mul_const _)).const_mul _
  simpa using this

/-- Least squares fits over the same atoms converge when atoms and data do. -/
theorem good_tendsto {ι : Type*} {l : Filter ι} {phi : ι → ℕ → E} {phi0 : ℕ → E} {n : ℕ} (hphi : ∀ i, i < n → Tendsto (fun a => phi a i) l (𝓝 (phi0 i))) {y : ι → E} {y0 : E} (hy : Tendsto y l (𝓝 y0))
    {s : ι → OmpState E} {s0 : OmpState E} (h0 : OmpGood phi0 n y0 s0) (hs : ∀ᶠ a in l, OmpGood (phi a) n (y a) (s a) ∧ (s a).k = s0.k ∧ ∀ i, i < s0.k → (s a).I i = s0.I i) :
    (∀ i, i < s0.k → Tendsto (fun a => (s a).x i) l (𝓝 (s0.x i))) ∧ Tendsto (fun a => (s a).r) l (𝓝 s0.r) := by
  have hat : ∀ i, i < s0.k → Tendsto (fun a => phi a (s0.I i)) l (𝓝 (phi0 (s0.I i))) := fun i hi => hphi _ (h0.range i hi)
  have hsum : ∀ (psi : ℕ → E) (x : ℕ → ℝ), ∑ i : Fin s0.k, x i • psi (s0.I i) = ∑ i ∈ Finset.range s0.k, x i • psi (s0.I i) := fun psi x => Fin.sum_univ_eq_sum_range (fun i => x i • psi (s0.I i)) s0.k
  have hres : ∀ᶠ a in l, (s a).r = y a - ∑ i ∈ Finset.range s0.k, (s a).x i • phi a (s0.I i) := hs.mono fun a ⟨g, hk, hI⟩ => by
    rw [g.residual, hk]
    exact congrArg _ (Finset.sum_congr rfl fun i hi => by rw [hI i (Finset.mem_range.1 hi)])
  have hx : Tendsto (fun a => fun i : Fin s0.k => (s a).x i) l (𝓝 fun i : Fin s0.k => s0.x i) := by
    refine fit_tendsto (u := fun a i => phi a (s0.I i)) (u0 := fun i => phi0 (s0.I i)) (fun k => hat k k.2) hy ?_ (fun k => ?_) fun c hc => ?_
    · filter_upwards [hs, hres] with a ⟨g, hk, hI⟩ hr k
      have := g.orth k (by rw [hk]; exact k.2)
      rw [hI k k.2, hr] at this
      rw [hsum (phi a) (s a).x]
      exact this
    · have := h0.orth k k.2
      rw [h0.residual] at this
      rw [hsum phi0 s0.x]
      exact this
    · let c' : ℕ → ℝ := fun i => if h : i < s0.k then c ⟨i, h⟩ else 0
      have e : ∀ i : Fin s0.k, c' i = c i := fun i => dif_pos i.2
      have := h0.indep c' (by rw [← hsum phi0 c']; simpa only [e] using hc)
      funext i
      rw [← e]
      exact this i i.2
  have hx' : ∀ i, i < s0.k → Tendsto (fun a => (s a).x i) l (𝓝 (s0.x i)) := fun i hi => (tendsto_pi_nhds.1 hx) ⟨i, hi⟩
  refine ⟨hx', ?_⟩
  rw [h0.residual]
  exact (hy.sub (tendsto_finset_sum _ fun i hi => (hx' i (Finset.mem_range.1 hi)).smul (hat i (Finset.mem_range.1 hi)))).congr' (hres.mono fun a ha => ha.symm)

/-! ## Runs -/

theorem Winner.select {phi : ℕ → E} {n : ℕ} {r : E} {i : ℕ} (h : Winner phi n r i) : absMaxIdx (corr ℝ phi n r) = i := by
  obtain ⟨hb, hmax⟩ := best_spec phi (Nat.pos_of_ne_zero fun h' => by have := h.1; omega : 0 < n) r
  by_contra hne
  exact absurd (hmax i h.1) (not_le.2 (h.2.2 _ hb hne))

/-- A winner stays the winner near by. -/
theorem Winner.near {ι : Type*} {l : Filter ι} {phi : ι → ℕ → E} {phi0 : ℕ → E} {n : ℕ} (hphi : ∀ i, i < n → Tendsto (fun a => phi a i) l (𝓝 (phi0 i))) {r : ι → E} {r0 : E} (hr : Tendsto r l (𝓝 r0)) {i : ℕ} (h : Winner phi0 n r0 i) :
    ∀ᶠ a in l, Winner (phi a) n (r a) i := by
  have hin : ∀ j, j < n → Tendsto (fun a => ⟪phi a j, r a⟫) l (𝓝 ⟪phi0 j, r0⟫) := fun j hj => (hphi j hj).inner hr
  have h1 : ∀ᶠ a in l, ∀ j ∈ Finset.range n, j ≠ i → |⟪phi a j, r a⟫| < |⟪phi a i, r a⟫| := by
    rw [Filter.eventually_all_finset]
    intro j hj
    by_cases hne : j = i
    · exact Eventually.of_forall fun a h => absurd hne h
    · exact ((hin j (Finset.mem_range.1 hj)).abs.eventually_lt (hin i h.1).abs (h.2.2 j (Finset.mem_range.1 hj) hne)).mono fun a ha _ => ha
  filter_upwards [h1, (hin i h.1).eventually_ne h.2.1] with a a1 a2
  exact ⟨h.1, a2, fun j hj => a1 j (Finset.mem_range.2 hj)⟩

theorem omp_tendsto {ι : Type*} {l : Filter ι} {phi : ι → ℕ → E} {phi0 : ℕ → E} {n : ℕ} (hphi : ∀ i, i < n → Tendsto (fun a => phi a i) l (𝓝 (phi0 i))) (hu0 : ∀ i, i < n → ‖phi0 i‖ = 1) (hu : ∀ a i, i < n → ‖phi a i‖ = 1)
    {y : ι → E} {y0 : E} (hy : Tendsto y l (𝓝 y0)) (h0 : ∃ i, Winner phi0 n y0 i) (j : ℕ) (hc : ∀ j', j' < j → ∃ i, Winner phi0 n (ompSeq phi0 n y0 j').r i) :
    OmpInv phi0 n y0 (ompSeq phi0 n y0 j) ∧ (∀ᶠ a in l, OmpInv (phi a) n (y a) (ompSeq (phi a) n (y a) j) ∧ ∀ i, i < j + 1 → (ompSeq (phi a) n (y a) j).I i = (ompSeq phi0 n y0 j).I i) ∧
      (∀ i, i < j + 1 → Tendsto (fun a => (ompSeq (phi a) n (y a) j).x i) l (𝓝 ((ompSeq phi0 n y0 j).x i))) ∧ Tendsto (fun a => (ompSeq (phi a) n (y a) j).r) l (𝓝 (ompSeq phi0 n y0 j).r) := by
  have fin : ∀ j, OmpInv phi0 n y0 (ompSeq phi0 n y0 j) → (∀ᶠ a in l, OmpInv (phi a) n (y a) (ompSeq (phi a) n (y a) j) ∧ ∀ i, i < j + 1 → (ompSeq (phi a) n (y a) j).I i = (ompSeq phi0 n y0 j).I i) →
      (∀ i, i < j + 1 → Tendsto (fun a => (ompSeq (phi a) n (y a) j).x i) l (𝓝 ((ompSeq phi0 n y0 j).x i))) ∧ Tendsto (fun a => (ompSeq (phi a) n (y a) j).r) l (𝓝 (ompSeq phi0 n y0 j).r) := fun j g0 hs => by
    have := good_tendsto hphi hy g0.toOmpGood (s := fun a => ompSeq (phi a) n (y a) j) (hs.mono fun a ha => ⟨ha.1.toOmpGood, by rw [ompSeq_k, ompSeq_k], by rw [ompSeq_k]; exact ha.2⟩)
    rwa [ompSeq_k] at this
  obtain ⟨i, hi⟩ := h0
  have hn : 0 < n := Nat.pos_of_ne_zero fun h => by have := hi.1; omega
  induction j with
  | zero =>
    have a1 : OmpInv phi0 n y0 (ompSeq phi0 n y0 0) := ompInit_inv phi0 hn hu0 y0
    have a2 : ∀ᶠ a in l, OmpInv (phi a) n (y a) (ompSeq (phi a) n (y a) 0) ∧ ∀ i, i < 0 + 1 → (ompSeq (phi a) n (y a) 0).I i = (ompSeq phi0 n y0 0).I i := by
      filter_upwards [hi.near hphi hy] with a ha
      refine ⟨ompInit_inv (phi a) hn (hu a) (y a), fun i' _ => ?_⟩
      show absMaxIdx (corr ℝ (phi a) n (y a)) = absMaxIdx (corr ℝ phi0 n y0)
      rw [ha.select, hi.select]
    exact ⟨a1, a2, fin 0 a1 a2⟩
  | succ j ih =>
    obtain ⟨b1, b2, -, b4⟩ := ih fun j' hj' => hc j' (by omega)
    obtain ⟨i, hi⟩ := hc j (by omega)
    have a1 : OmpInv phi0 n y0 (ompSeq phi0 n y0 (j + 1)) := by
      rw [ompSeq_succ]
      exact ompStep_inv phi0 hn hu0 y0 _ b1 ⟨i, hi.1, hi.2.1⟩
    have a2 : ∀ᶠ a in l, OmpInv (phi a) n (y a) (ompSeq (phi a) n (y a) (j + 1)) ∧ ∀ i, i < j + 1 + 1 → (ompSeq (phi a) n (y a) (j + 1)).I i = (ompSeq phi0 n y0 (j + 1)).I i := by
      filter_upwards [hi.near hphi b4, b2] with a ha hb
      rw [ompSeq_succ, ompSeq_succ]
      refine ⟨ompStep_inv (phi a) hn (hu a) (y a) _ hb.1 ⟨i, ha.1, ha.2.1⟩, fun l hl => ?_⟩
      show Function.update (ompSeq (phi a) n (y a) j).I (ompSeq (phi a) n (y a) j).k (absMaxIdx (corr ℝ (phi a) n (ompSeq (phi a) n (y a) j).r)) l =
        Function.update (ompSeq phi0 n y0 j).I (ompSeq phi0 n y0 j).k (absMaxIdx (corr ℝ phi0 n (ompSeq phi0 n y0 j).r)) l
      rw [ha.select, hi.select, ompSeq_k, ompSeq_k]
      rcases Nat.lt_succ_iff_lt_or_eq.1 hl with hl | rfl
      · rw [Function.update_of_ne (by omega), Function.update_of_ne (by omega)]; exact hb.2 l hl
      · rw [Function.update_self, Function.update_self]
    exact ⟨a1, a2, fin (j + 1) a1 a2⟩

/-- From convergent sequences of dictionaries and data to a tolerance. -/
theorem dict_tolerance {phi : ℕ → E} {n : ℕ} {y : E} {Q : (ℕ → E) → E → Prop}
    (h : ∀ (phi' : ℕ → ℕ → E) (y' : ℕ → E), (∀ a i, i < n → ‖phi' a i‖ = 1) → (∀ i, i < n → Tendsto (fun a => phi' a i) atTop (𝓝 (phi i))) → Tendsto y' atTop (𝓝 y) → ∀ᶠ a in atTop, Q (phi' a) (y' a)) :
    ∃ δ > 0, ∀ (phi' : ℕ → E) (y' : E), (∀ i, i < n → ‖phi' i‖ = 1) → (∀ i, i < n → ‖phi' i - phi i‖ < δ) → ‖y' - y‖ < δ → Q phi' y' := by
  by_contra hno
  push Not at hno
  choose phi' y' hu hphi hy hQ using fun a : ℕ => hno (1 / (a + 1 : ℝ)) (by positivity)
  have sq : ∀ {f : ℕ → E} {f0 : E}, (∀ a : ℕ, ‖f a - f0‖ < 1 / (a + 1 : ℝ)) → Tendsto f atTop (𝓝 f0) := fun hf => by
    rw [tendsto_iff_norm_sub_tendsto_zero]
    exact squeeze_zero (fun _ => norm_nonneg _) (fun a => (hf a).le) tendsto_one_div_add_atTop_nhds_zero_nat
  obtain ⟨a, ha⟩ := (h phi' y' hu (fun i hi => sq fun a => hphi a i hi) (sq hy)).exists
  exact hQ a ha

/-- **C173** (`omp.matrix_solve`) suppose on the dictionary `phi` and the data `y` every atom is chosen without a tie. Then for every `ε` there is a tolerance such that for all dictionaries of unit atoms and all data within it the same atoms are chosen
in the same order, with coefficients and residual within `ε`. -/
theorem c173_omp (phi : ℕ → E) (n : ℕ) (hu : ∀ i, i < n → ‖phi i‖ = 1) (y : E) (K : ℕ) (hK : 2 ≤ K) (h0 : ∃ i, Winner phi n y i) (hc : ∀ j, j + 1 < K → ∃ i, Winner phi n (ompSeq phi n y j).r i) (ε : ℝ) (he : 0 < ε) :
    ∃ δ > 0, ∀ (phi' : ℕ → E) (y' : E), (∀ i, i < n → ‖phi' i‖ = 1) → (∀ i, i < n → ‖phi' i - phi i‖ < δ) → ‖y' - y‖ < δ →
      ∃ s s', ompMatrixSolve phi n y K = some s ∧ ompMatrixSolve phi' n y' K = some s' ∧ s.k = K ∧ s'.k = K ∧ (∀ l, l < K → s'.I l = s.I l) ∧ (∀ l, l < K → |s'.x l - s.x l| < ε) ∧ ‖s'.r - s.r‖ < ε := by
  refine dict_tolerance fun phi' y' hu' hphi hy => ?_
  obtain ⟨-, a2, a3, a4⟩ := omp_tendsto hphi hu hu' hy h0 (K - 1) fun j hj => hc j (by omega)
  rw [show K - 1 + 1 = K by omega] at a2 a3
  have h4 : ∀ᶠ a in atTop, ∀ l ∈ Finset.range K, |(ompSeq (phi' a) n (y' a) (K - 1)).x l - (ompSeq phi n y (K - 1)).x l| < ε := by
    rw [Filter.eventually_all_finset]
    intro r hr
    filter_upwards [Metric.tendsto_nhds.1 (a3 r (Finset.mem_range.1 hr)) ε he] with a ha
    rwa [Real.dist_eq] at ha
  filter_upwards [a2, h4, Metric.tendsto_nhds.1 a4 ε he] with a b2 b3 b4
  exact ⟨ompSeq phi n y (K - 1), ompSeq (phi' a) n (y' a) (K - 1), if_neg (by omega), if_neg (by omega), by rw [ompSeq_k]; omega, by rw [ompSeq_k]; omega, b2.2, fun l hl => b3 l (Finset.mem_range.2 hl), by rwa [dist_eq_norm] at b4⟩

theorem ompSeq_scale (phi : ℕ → E) (n : ℕ) (y : E) {c : ℝ} (hc : c ≠ 0) (j : ℕ) : ompSeq phi n (c • y) j = (ompSeq phi n y j).sim LinearIsometry.id c := by
  induction j with
  | zero =>
    have e0 := ompInit_sim (LinearIsometry.id : E →ₗᵢ[ℝ] E) hc phi n y
    simp only [LinearIsometry.id_apply] at e0
    exact e0
  | succ j ih =>
    have e1 := ompStep_sim (LinearIsometry.id : E →ₗᵢ[ℝ] E) hc phi n y (ompSeq phi n y j)
    simp only [LinearIsometry.id_apply] at e1
    rw [ompSeq_succ, ompSeq_succ, ih]
    exact e1

theorem Winner.scale {phi : ℕ → E} {n : ℕ} {r : E} {i : ℕ} (h : Winner phi n r i) {c : ℝ} (hc : c ≠ 0) : Winner phi n (c • r) i := by
  refine ⟨h.1, ?_, fun j hj hne => ?_⟩
  · rw [real_inner_smul_right]
    exact mul_ne_zero hc h.2.1
  · rw [real_inner_smul_right, real_inner_smul_right, abs_mul, abs_mul]
    exact mul_lt_mul_of_pos_left (h.2.2 j hj hne) (abs_pos.2 hc)

theorem opSeq_eq (phi : ℕ → E) (n : ℕ) (y : E) (j : ℕ) : (ompStep phi n y)^[j + 1] (ompOpInit phi n y) = ompSeq phi n y (j + 1) := by
  rw [ompSeq, Function.iterate_succ_apply, Function.iterate_succ_apply]
  rfl

theorem ompSeq_rr (phi : ℕ → E) (n : ℕ) (y : E) (j : ℕ) : (ompSeq phi n y j).rr = ‖(ompSeq phi n y j).r‖ ^ 2 := by
  cases j with
  | zero => rfl
  | succ j => rw [ompSeq_succ]; rfl

/-- **C173** (`omp.operator_solve`) the same with the stopping tests: the run on `phi` and `y` chooses `s.k ≥ 2` atoms without ties and stops because `K` atoms are chosen or because the residual is strictly below the tolerance. Then near by the run
stops with the same atoms in the same order, with coefficients and residual within `ε`. -/
theorem c173_omp_operator (phi : ℕ → E) (n : ℕ) (hu : ∀ i, i < n → ‖phi i‖ = 1) (y : E) (hy : y ≠ 0) (K : ℕ) (rtol : ℝ) (s : OmpState E) (hs : OmpOperatorSolve phi n y K rtol s) (hk : 2 ≤ s.k)
    (h0 : ∃ i, Winner phi n y i) (hc : ∀ j, j + 1 < s.k → ∃ i, Winner phi n (ompSeq phi n y j).r i) (hstop : s.k = K ∨ ‖s.r‖ < rtol * ‖y‖) (ε : ℝ) (he : 0 < ε) :
    ∃ δ > 0, ∀ (phi' : ℕ → E) (y' : E), (∀ i, i < n → ‖phi' i‖ = 1) → (∀ i, i < n → ‖phi' i - phi i‖ < δ) → ‖y' - y‖ < δ →
      ∃ s', OmpOperatorSolve phi' n y' K rtol s' ∧ s'.k = s.k ∧ (∀ l, l < s.k → s'.I l = s.I l) ∧ (∀ l, l < s.k → |s'.x l - s.x l| < ε) ∧ ‖s'.r - s.r‖ < ε := by
  obtain ⟨t, ht, rfl⟩ := hs
  have hn := norm_ne_zero_iff.2 hy
  have hn' : (1 / ‖y‖) ≠ 0 := one_div_ne_zero hn
  set z := (1 / ‖y‖) • y with hz
  have hz1 : ∀ w : E, w ≠ 0 → ‖(1 / ‖w‖) • w‖ = 1 := fun w hw => by
    rw [norm_smul, norm_div, norm_one, norm_norm, one_div, inv_mul_cancel₀ (norm_ne_zero_iff.2 hw)]
  obtain ⟨m, rfl, hm⟩ := ht.1.iterate
  have hkk : ∀ (psi : ℕ → E) (w : E) (m : ℕ), ((ompStep psi n w)^[m] (ompOpInit psi n w)).k = m + 1 := fun psi w m => by
    cases m with
    | zero => rfl
    | succ m => rw [opSeq_eq, ompSeq_k]
  obtain ⟨q, rfl⟩ : ∃ q, m = q + 1 := ⟨m - 1, by have : 2 ≤ _ := hk; simp only [hkk] at this; omega⟩
  have hnot := ht.2
  simp only [hkk] at hk hc hstop
  simp only [opSeq_eq] at hstop hnot
  simp only [hkk, opSeq_eq]
  have hwin : ∀ j, j < q + 1 → ∃ i, Winner phi n (ompSeq phi n z j).r i := fun j hj => by
    obtain ⟨i, hi⟩ := hc j (by omega)
    refine ⟨i, ?_⟩
    rw [hz, ompSeq_scale phi n y hn']
    exact hi.scale hn'
  have hwin0 : ∃ i, Winner phi n z i := h0.imp fun i hi => hi.scale hn'
  have hrun : ∀ j, j < q + 1 → (j = 0 → 1 > rtol ^ 2) ∧ ‖(if j = 0 then z else (ompSeq phi n z j).r)‖ ^ 2 > rtol ^ 2 ∧ j + 1 < K := fun j hj => by
    have h := hm j hj
    cases j with
    | zero =>
      have h1 : ‖z‖ ^ 2 > rtol ^ 2 := h.1
      refine ⟨fun _ => by rwa [hz1 y hy, one_pow] at h1, h1, h.2⟩
    | succ j =>
      rw [opSeq_eq] at h
      have h1 := h.1
      have h2 := h.2
      rw [ompSeq_rr] at h1
      rw [ompSeq_k] at h2
      exact ⟨fun h => absurd h (by omega), by rw [if_neg (by omega)]; exact h1, h2⟩
  refine dict_tolerance fun phi' y' hu' hphi hy' => ?_
  have hne : ∀ᶠ a in atTop, y' a ≠ 0 := hy'.eventually_ne hy
  have hz' : Tendsto (fun a => (1 / ‖y' a‖) • y' a) atTop (𝓝 z) := (tendsto_const_nhds.div hy'.norm hn).smul hy'
  have hseq := fun j (hj : j ≤ q + 1) => omp_tendsto hphi hu hu' hz' hwin0 j fun j' hj' => hwin j' (by omega)
  have hcont : ∀ᶠ a in atTop, ∀ j ∈ Finset.range (q + 1), j ≠ 0 → ‖(ompSeq (phi' a) n ((1 / ‖y' a‖) • y' a) j).r‖ ^ 2 > rtol ^ 2 := by
    rw [Filter.eventually_all_finset]
    intro j hj
    have hj := Finset.mem_range.1 hj
    by_cases h : j = 0
    · exact Eventually.of_forall fun a h' => absurd h h'
    · have h1 := (hrun j hj).2.1
      rw [if_neg h] at h1
      exact (((hseq j hj.le).2.2.2.norm.pow 2).eventually_const_lt h1).mono fun a ha _ => ha
  have hend : ∀ᶠ a in atTop, ¬ ompCond K rtol (ompSeq (phi' a) n ((1 / ‖y' a‖) • y' a) (q + 1)) := by
    rcases hstop with h | h
    · exact Eventually.of_forall fun a hcond => by
        have := hcond.2
        rw [ompSeq_k] at this
        omega
    · have h1 : ‖(ompSeq phi n z (q + 1)).r‖ < rtol := by
        rw [norm_smul, norm_norm, mul_comm rtol] at h
        exact lt_of_mul_lt_mul_left h (norm_nonneg _)
      have h2 := (hseq (q + 1) le_rfl).2.2.2.norm.eventually_lt_const h1
      filter_upwards [h2] with a ha hcond
      have := hcond.1
      rw [ompSeq_rr] at this
      exact absurd this (not_lt.2 (pow_le_pow_left₀ (norm_nonneg _) ha.le 2))
  obtain ⟨-, a2, a3, a4⟩ := hseq (q + 1) le_rfl
  have h4 : ∀ᶠ a in atTop, ∀ l ∈ Finset.range (q + 1 + 1), |‖y' a‖ * (ompSeq (phi' a) n ((1 / ‖y' a‖) • y' a) (q + 1)).x l - ‖y‖ * (ompSeq phi n z (q + 1)).x l| < ε := by
    rw [Filter.eventually_all_finset]
    intro r hr
    filter_upwards [Metric.tendsto_nhds.1 (hy'.norm.mul (a3 r (Finset.mem_range.1 hr))) ε he] with a ha
    rwa [Real.dist_eq] at ha
  filter_upwards [a2, h4, Metric.tendsto_nhds.1 (hy'.norm.smul a4) ε he, hne, hcont, hend] with a b2 b3 b4 b5 b6 b7
  refine ⟨_, ⟨_, ⟨reach_of_iterate (k := q + 1) fun j hj => ?_, by rw [opSeq_eq]; exact b7⟩, rfl⟩, ?_, ?_, ?_, ?_⟩
  · cases j with
    | zero =>
      refine ⟨?_, (hrun 0 hj).2.2⟩
      show ‖(1 / ‖y' a‖) • y' a‖ ^ 2 > rtol ^ 2
      rw [hz1 _ b5, one_pow]
      exact (hrun 0 hj).1 rfl
    | succ j =>
      rw [opSeq_eq]
      refine ⟨?_, ?_⟩
      · rw [ompSeq_rr]
        exact b6 (j + 1) (Finset.mem_range.2 hj) (by omega)
      · rw [ompSeq_k]
        exact (hrun (j + 1) hj).2.2
  · simp only [opSeq_eq, ompSeq_k]
  · simp only [opSeq_eq, ompSeq_k]
    exact b2.2
  · simp only [opSeq_eq, ompSeq_k]
    exact fun l hl => b3 l (Finset.mem_range.2 hl)
  · simp only [opSeq_eq]
    rwa [dist_eq_norm] at b4

theorem mp_tendsto {ι : Type*} {l : Filter ι} {phi : ι → ℕ → E} {phi0 : ℕ → E} {n : ℕ} (hphi : ∀ i, i < n → Tendsto (fun a => phi a i) l (𝓝 (phi0 i))) {y : ι → E} {y0 : E} (hy : Tendsto y l (𝓝 y0)) (m : ℕ)
    (hc : ∀ j, j < m → ∃ i, Winner phi0 n ((mpStep phi0 n y0)^[j] (mpInit y0)).r i) :
    (∀ i, Tendsto (fun a => ((mpStep (phi a) n (y a))^[m] (mpInit (y a))).x i) l (𝓝 (((mpStep phi0 n y0)^[m] (mpInit y0)).x i))) ∧
      Tendsto (fun a => ((mpStep (phi a) n (y a))^[m] (mpInit (y a))).r) l (𝓝 ((mpStep phi0 n y0)^[m] (mpInit y0)).r) ∧
      ∀ᶠ a in l, ∀ i, (∀ j, j < m → ¬ Winner phi0 n ((mpStep phi0 n y0)^[j] (mpInit y0)).r i) → ((mpStep phi0 n y0)^[m] (mpInit y0)).x i = 0 ∧ ((mpStep (phi a) n (y a))^[m] (mpInit (y a))).x i = 0 := by
  induction m with
  | zero => exact ⟨fun i => tendsto_const_nhds, hy, Eventually.of_forall fun a i _ => ⟨rfl, rfl⟩⟩
  | succ m ih =>
    obtain ⟨h1, h2, h3⟩ := ih fun j hj => hc j (by omega)
    obtain ⟨b, hb⟩ := hc m (by omega)
    have hn : 0 < n := Nat.pos_of_ne_zero fun h => by have := hb.1; omega
    simp only [Function.iterate_succ_apply']
    set s0 := (mpStep phi0 n y0)^[m] (mpInit y0) with hs0
    have e0 := mpStep_eq phi0 hn y0 s0
    simp only [hb.select] at e0
    have ea : ∀ᶠ a in l, mpStep (phi a) n (y a) ((mpStep (phi a) n (y a))^[m] (mpInit (y a))) =
        { x := Function.update ((mpStep (phi a) n (y a))^[m] (mpInit (y a))).x b (((mpStep (phi a) n (y a))^[m] (mpInit (y a))).x b + ⟪phi a b, ((mpStep (phi a) n (y a))^[m] (mpInit (y a))).r⟫),
          r := ((mpStep (phi a) n (y a))^[m] (mpInit (y a))).r - ⟪phi a b, ((mpStep (phi a) n (y a))^[m] (mpInit (y a))).r⟫ • phi a b, rr := ‖y a‖ ^ 2, iters := ((mpStep (phi a) n (y a))^[m] (mpInit (y a))).iters + 1 } := by
      filter_upwards [hb.near hphi h2] with a ha
      have := mpStep_eq (phi a) hn (y a) ((mpStep (phi a) n (y a))^[m] (mpInit (y a)))
      simp only [ha.select] at this
      exact this
    have hin := (hphi b hb.1).inner (𝕜 := ℝ) h2
    refine ⟨fun i => ?_, ?_, ?_⟩
    · rw [e0]
      refine Tendsto.congr' (ea.mono fun a ha => by simp only [ha]; rfl) ?_
      by_cases hi : i = b
      · subst hi
        simp only [Function.update_self]
        exact (h1 i).add hin
      · simp only [Function.update_of_ne hi]
        exact h1 i
    · rw [e0]
      exact Tendsto.congr' (ea.mono fun a ha => by simp only [ha]) (h2.sub (hin.smul (hphi b hb.1)))
    · filter_upwards [ea, h3] with a ha h3a i hw
      have hib : i ≠ b := fun h => hw m (by omega) (h ▸ hb)
      rw [ha, e0]
      simp only [Function.update_of_ne hib]
      exact h3a i fun j hj => hw j (by omega)

/-- **C173** (`mp`) the same for `m` iterations of matching pursuit; atoms that never win keep the coefficient zero. -/
theorem c173_mp (phi : ℕ → E) (n : ℕ) (y : E) (m : ℕ) (hc : ∀ j, j < m → ∃ i, Winner phi n ((mpStep phi n y)^[j] (mpInit y)).r i) (ε : ℝ) (he : 0 < ε) :
    ∃ δ > 0, ∀ (phi' : ℕ → E) (y' : E), (∀ i, i < n → ‖phi' i‖ = 1) → (∀ i, i < n → ‖phi' i - phi i‖ < δ) → ‖y' - y‖ < δ →
      let s := (mpStep phi n y)^[m] (mpInit y)
      let s' := (mpStep phi' n y')^[m] (mpInit y')
      (∀ i, i < n → |s'.x i - s.x i| < ε) ∧ ‖s'.r - s.r‖ < ε ∧ ∀ i, (∀ j, j < m → ¬ Winner phi n ((mpStep phi n y)^[j] (mpInit y)).r i) → s.x i = 0 ∧ s'.x i = 0 := by
  refine dict_tolerance fun phi' y' hu' hphi hy => ?_
  obtain ⟨a1, a2, a3⟩ := mp_tendsto hphi hy m hc
  have h4 : ∀ᶠ a in atTop, ∀ i ∈ Finset.range n, |((mpStep (phi' a) n (y' a))^[m] (mpInit (y' a))).x i - ((mpStep phi n y)^[m] (mpInit y)).x i| < ε := by
    rw [Filter.eventually_all_finset]
    intro r _
    filter_upwards [Metric.tendsto_nhds.1 (a1 r) ε he] with a ha
    rwa [Real.dist_eq] at ha
  filter_upwards [a3, h4, Metric.tendsto_nhds.1 a2 ε he] with a b2 b3 b4
  exact ⟨fun i hi => b3 i (Finset.mem_range.2 hi), by rwa [dist_eq_norm] at b4, b2⟩

/-! ## The hypotheses are met: two atoms of the plane, `y = 3 + i` -/

theorem Clear.winner {phi : ℕ → E} {n : ℕ} {g : ℝ} (hg : 0 < g) {r : E} {i : ℕ} (h : Clear phi n g r i) : Winner phi n r i :=
  ⟨h.1, fun h0 => by have := h.2.1; rw [h0, abs_zero] at this; linarith, fun j hj hne => by linarith [h.2.2 j hj hne]⟩

example := c173_omp cplane 2 (fun i _ => cplane_unit i) ⟨3, 1⟩ 2 le_rfl ⟨0, ((cplane_clear (g := 1) (z := ⟨3, 1⟩)).1 (by norm_num) (by norm_num)).winner one_pos⟩
  (fun j hj => by
    obtain rfl : j = 0 := by omega
    rw [ex_first_residual]
    exact ⟨1, ((cplane_clear (g := 1) (z := Complex.I)).2 (by norm_num) (by norm_num)).winner one_pos⟩) (1 / 10) (by norm_num)

theorem ex_operator_run : ∃ s, OmpOperatorSolve cplane 2 (⟨3, 1⟩ : ℂ) 2 (1 / 100) s ∧ s.k = 2 := by
  have hy : (⟨3, 1⟩ : ℂ) ≠ 0 := fun h => by simpa using congrArg Complex.re h
  refine ⟨_, ⟨_, ⟨reach_of_iterate (k := 1) fun j hj => ?_, fun h => ?_⟩, rfl⟩, ?_⟩
  · obtain rfl : j = 0 := by omega
    refine ⟨?_, show 1 < 2 by norm_num⟩
    show ‖(1 / ‖(⟨3, 1⟩ : ℂ)‖) • (⟨3, 1⟩ : ℂ)‖ ^ 2 > (1 / 100) ^ 2
    rw [norm_smul, norm_div, norm_one, norm_norm, one_div, inv_mul_cancel₀ (norm_ne_zero_iff.2 hy)]
    norm_num
  · have := h.2
    rw [opSeq_eq, ompSeq_k] at this
    omega
  · simp only [opSeq_eq, ompSeq_k]

example : ∃ s, OmpOperatorSolve cplane 2 (⟨3, 1⟩ : ℂ) 2 (1 / 100) s ∧ ∃ δ > 0, ∀ (phi' : ℕ → ℂ) (y' : ℂ), (∀ i, i < 2 → ‖phi' i‖ = 1) → (∀ i, i < 2 → ‖phi' i - cplane i‖ < δ) → ‖y' - ⟨3, 1⟩‖ < δ →
    ∃ s', OmpOperatorSolve phi' 2 y' 2 (1 / 100) s' ∧ s'.k = s.k ∧ (∀ l, l < s.k → s'.I l = s.I l) ∧ (∀ l, l < s.k → |s'.x l - s.x l| < 1 / 10) ∧ ‖s'.r - s.r‖ < 1 / 10 := by
  obtain ⟨s, h1, h2⟩ := ex_operator_run
  refine ⟨s, h1, c173_omp_operator cplane 2 (fun i _ => cplane_unit i) ⟨3, 1⟩ (fun h => by simpa using congrArg Complex.re h) 2 (1 / 100) s h1 h2.ge ⟨0, ((cplane_clear (g := 1) (z := ⟨3, 1⟩)).1 (by norm_num) (by norm_num)).winner one_pos⟩
    (fun j hj => ?_) (Or.inl h2) (1 / 10) (by norm_num)⟩
  obtain rfl : j = 0 := by omega
  rw [ex_first_residual]
  exact ⟨1, ((cplane_clear (g := 1) (z := Complex.I)).2 (by norm_num) (by norm_num)).winner one_pos⟩

example := c173_mp cplane 2 ⟨3, 1⟩ 1
  (fun j hj => by
    obtain rfl : j = 0 := by omega
    exact ⟨0, ((cplane_clear (g := 1) (z := ⟨3, 1⟩)).1 (by norm_num) (by norm_num)).winner one_pos⟩) (1 / 10) (by norm_num)

end Verif.Pursuit
