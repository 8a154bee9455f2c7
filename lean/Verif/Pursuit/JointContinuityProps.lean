import Verif.Pursuit.ContinuityProps

set_option autoImplicit false
/-!
# C174: away from ties IHT, HTP, subspace pursuit and CoSaMP are continuous in dictionary and data together

The lemmas follow those of ContinuityProps.lean with an arbitrary parameter in place of the data.
-/
noncomputable section
namespace Verif.Pursuit.Joint
open Verif.Loop Verif.Pursuit Filter Topology

variable {𝕜 : Type*} [RCLike 𝕜] {E : Type*} [NormedAddCommGroup E] [InnerProductSpace 𝕜 E] {A : Type*} [TopologicalSpace A]

/-- A list depending on a parameter: its length is constant near `y` and its entries are continuous at `y`. -/
def ListCont (l : A → List 𝕜) (y : A) : Prop := (∀ᶠ y' in 𝓝 y, (l y').length = (l y).length) ∧ ∀ j, ContinuousAt (fun y' => (l y').getD j 0) y

theorem largest_const {h : A → List 𝕜} {y : A} (hc : ListCont h y) {K : ℕ} (ht : NoTies (h y) K) : ∀ᶠ y' in 𝓝 y, largestIndices (h y') K = largestIndices (h y) K := by
  have key : ∀ᶠ y' in 𝓝 y, ∀ i ∈ Finset.range (h y).length, ∀ j ∈ Finset.range (h y).length, ‖(h y).getD j 0‖ < ‖(h y).getD i 0‖ → ‖(h y').getD j 0‖ < ‖(h y').getD i 0‖ := by
    rw [Filter.eventually_all_finset]
    intro i _
    rw [Filter.eventually_all_finset]
    intro j _
    by_cases hlt : ‖(h y).getD j 0‖ < ‖(h y).getD i 0‖
    · exact ((hc.2 j).norm.eventually_lt (hc.2 i).norm hlt).mono fun y' hy' _ => hy'
    · exact Eventually.of_forall fun y' hh => absurd hh hlt
  filter_upwards [hc.1, key] with y' h1 h2
  exact largest_unique h1 ht fun i hi j hj hlt => h2 i (Finset.mem_range.2 ((c51_largest_indices (h y) K).2.2.1 i hi)) j (Finset.mem_range.2 hj) hlt

theorem cont_range (n : ℕ) {f : A → ℕ → 𝕜} {y : A} (hf : ∀ j, j < n → ContinuousAt (fun y' => f y' j) y) : ListCont (fun y' => (List.range n).map (f y')) y := by
  refine ⟨Eventually.of_forall fun y' => by simp, fun j => ?_⟩
  simp only [getD_map_range]
  split_ifs with h
  · exact hf j h
  · exact continuousAt_const

theorem cont_zeroAt {h : A → List 𝕜} {y : A} (hc : ListCont h y) (I : List ℕ) : ListCont (fun y' => zeroAt (h y') I) y := by
  refine ⟨hc.1.mono fun y' hy' => by rw [zeroAt_length, zeroAt_length, hy'], fun j => ?_⟩
  have e : (fun y' => (zeroAt (h y') I).getD j 0) = fun y' => if j ∈ I then 0 else (h y').getD j 0 := by
    funext y'
    rw [zeroAt, getD_map_range]
    by_cases hj : j < (h y').length
    · rw [if_pos hj]
    · rw [if_neg hj, List.getD_eq_getElem?_getD, List.getElem?_eq_none (by omega)]; simp
  rw [e]
  split_ifs
  · exact continuousAt_const
  · exact hc.2 j

theorem cont_gather {x : A → List 𝕜} {y : A} (hc : ListCont x y) (I : List ℕ) : ListCont (fun y' => gather 0 (x y') I) y := by
  refine ⟨Eventually.of_forall fun y' => by rw [gather_length, gather_length], fun j => ?_⟩
  have e : (fun y' => (gather 0 (x y') I).getD j 0) = fun y' => if j < I.length then (x y').getD (I.getD j 0) 0 else 0 := by
    funext y'
    rw [gather, List.getD_eq_getElem?_getD, List.getElem?_map]
    split_ifs with h
    · simp [List.getD_eq_getElem?_getD, List.getElem?_eq_getElem h]
    · simp [List.getElem?_eq_none (by omega : I.length ≤ j)]
  rw [e]
  split_ifs
  · exact hc.2 _
  · exact continuousAt_const

theorem cont_build {x : A → List 𝕜} {y : A} (hc : ListCont x y) (I : List ℕ) (j : ℕ) : ContinuousAt (fun y' => buildSignal I (x y') j) y := by
  obtain ⟨p, hp⟩ := buildSignal_entry (𝕜 := 𝕜) I (x y).length j
  have e : (fun y' => buildSignal I (x y') j) =ᶠ[𝓝 y] fun y' => p.elim 0 fun p => (x y').getD p 0 := hc.1.mono fun y' hy' => hp _ hy'
  refine ContinuousAt.congr ?_ e.symm
  cases p with
  | none => exact continuousAt_const
  | some p => exact hc.2 p

theorem cont_congr {l l' : A → List 𝕜} {y : A} (hc : ListCont l y) (h : ∀ᶠ y' in 𝓝 y, l' y' = l y') : ListCont l' y := by
  have h0 := h.self_of_nhds
  refine ⟨by filter_upwards [h, hc.1] with y' a b; rw [a, b, h0], fun j => (hc.2 j).congr ?_⟩
  filter_upwards [h] with y' a
  rw [a]

theorem cont_corr {phi : A → ℕ → E} (n : ℕ) {r : A → E} {y : A} (hphi : ∀ i, ContinuousAt (fun p => phi p i) y) (hr : ContinuousAt r y) : ListCont (fun y' => corr 𝕜 (phi y') n (r y')) y := by
  refine ⟨Eventually.of_forall fun y' => by rw [corr_length', corr_length'], fun j => ?_⟩
  by_cases hj : j < n
  · simp only [corr_getD' _ n _ hj]
    exact ContinuousAt.inner (𝕜 := 𝕜) (hphi j) hr
  · have : (fun y' => (corr 𝕜 (phi y') n (r y')).getD j 0) = fun _ => (0 : 𝕜) := by
      funext y'
      rw [List.getD_eq_getElem?_getD, List.getElem?_eq_none (by rw [corr_length']; omega)]; rfl
    rw [this]; exact continuousAt_const

theorem lin_entries : ∀ (I : List ℕ) (m : ℕ), ∃ S : Finset ℕ, ∀ (phi : ℕ → E) (x : List 𝕜), x.length = m → lin phi I x = ∑ p ∈ S, x.getD p 0 • phi (I.getD p 0)
  | [], m => ⟨∅, fun phi x _ => by cases x <;> rfl⟩
  | i :: I, 0 => ⟨∅, fun phi x hx => by rw [List.length_eq_zero_iff.1 hx]; rfl⟩
  | i :: I, m + 1 => by
    obtain ⟨S, hS⟩ := lin_entries I m
    refine ⟨insert 0 (S.map ⟨(· + 1), Nat.succ_injective⟩), fun phi x hx => ?_⟩
    obtain ⟨v, x, rfl⟩ := List.exists_cons_of_length_eq_add_one hx
    have hx' : x.length = m := by simpa using hx
    rw [Finset.sum_insert (by simp), Finset.sum_map]
    show v • phi i + lin phi I x = _
    rw [hS phi x hx']
    simp

theorem cont_lin {phi : A → ℕ → E} {x : A → List 𝕜} {y : A} (hphi : ∀ i, ContinuousAt (fun p => phi p i) y) (hc : ListCont x y) (I : List ℕ) : ContinuousAt (fun y' => lin (phi y') I (x y')) y := by
  obtain ⟨S, hS⟩ := lin_entries (𝕜 := 𝕜) (E := E) I (x y).length
  have e : (fun y' => lin (phi y') I (x y')) =ᶠ[𝓝 y] fun y' => ∑ p ∈ S, (x y').getD p 0 • phi y' (I.getD p 0) := hc.1.mono fun y' hy' => hS _ _ hy'
  refine ContinuousAt.congr ?_ e.symm
  exact tendsto_finset_sum _ fun p _ => (hc.2 p).smul (hphi _)

/-- Least squares on linearly independent atoms is continuous in the atoms and the data. -/
theorem fit_cont {m : ℕ} {u : A → Fin m → E} {a0 : A} (hu : ∀ k, ContinuousAt (fun a => u a k) a0) {y : A → E} (hy : ContinuousAt y a0) {x : A → Fin m → 𝕜} (hx : ∀ a, ∀ k, inner 𝕜 (u a k) (y a - ∑ k, x a k • u a k) = 0)
    (hI : ∀ c : Fin m → 𝕜, ∑ k, c k • u a0 k = 0 → c = 0) : ContinuousAt x a0 := by
  let T : (Fin m → E) → (Fin m → 𝕜) →ₗ[𝕜] E := fun u =>
    { toFun := fun x => ∑ k, x k • u k
      map_add' := fun x z => by simp [add_smul, Finset.sum_add_distrib]
      map_smul' := fun a x => by simp [mul_smul, Finset.smul_sum] }
  have hT : ∀ u w, T u w = ∑ k, w k • u k := fun _ _ => rfl
  obtain ⟨C, hC0, hC⟩ := (T (u a0)).exists_antilipschitzWith (LinearMap.ker_eq_bot'.2 fun c hc => hI c hc)
  have hC' : ∀ w, ‖w‖ ≤ C * ‖T (u a0) w‖ := fun w => by
    have := hC.le_mul_dist w 0
    rwa [map_zero, dist_zero_right, dist_zero_right] at this
  let e : A → ℝ := fun a => ∑ k : Fin m, ‖u a k - u a0 k‖
  have he0 : ∀ a, 0 ≤ e a := fun a => Finset.sum_nonneg fun _ _ => norm_nonneg _
  have hTe : ∀ a w, ‖T (u a) w - T (u a0) w‖ ≤ e a * ‖w‖ := fun a w => by
    rw [hT, hT, ← Finset.sum_sub_distrib, Finset.sum_mul]
    refine (norm_sum_le _ _).trans (Finset.sum_le_sum fun k _ => ?_)
    rw [← smul_sub, norm_smul, mul_comm]
    exact mul_le_mul_of_nonneg_left (norm_le_pi_norm w k) (norm_nonneg _)
  have he : Tendsto e (𝓝 a0) (𝓝 0) := by
    have : Tendsto e (𝓝 a0) (𝓝 (∑ k : Fin m, ‖u a0 k - u a0 k‖)) := tendsto_finset_sum _ fun k _ => (Tendsto.sub (hu k) tendsto_const_nhds).norm
    simpa using this
  have horth : ∀ a w, inner 𝕜 (T (u a) w) (y a - T (u a) (x a)) = 0 := fun a w => by
    rw [hT (u a) w, sum_inner]
    exact Finset.sum_eq_zero fun k _ => by rw [inner_smul_left, show inner 𝕜 (u a k) (y a - T (u a) (x a)) = 0 from hx a k, mul_zero]
  set r0 := y a0 - T (u a0) (x a0) with hr0
  let d : A → E := fun a => (y a - T (u a) (x a0)) - r0
  have hd : Tendsto (fun a => ‖d a‖) (𝓝 a0) (𝓝 0) := by
    have h1 : Tendsto (fun a => T (u a) (x a0)) (𝓝 a0) (𝓝 (T (u a0) (x a0))) := by
      simp only [hT]
      exact tendsto_finset_sum _ fun k _ => Tendsto.const_smul (hu k) _
    have := ((Tendsto.sub hy h1).sub (tendsto_const_nhds (x := r0))).norm
    rwa [← hr0, sub_self, norm_zero] at this
  have key : ∀ᶠ a in 𝓝 a0, ‖x a - x a0‖ ≤ 2 * C * (‖d a‖ + 2 * C * e a * ‖r0‖) := by
    have hs : ∀ᶠ a in 𝓝 a0, C * e a < 1 / 2 := by
      have := he.const_mul (C : ℝ)
      rw [mul_zero] at this
      exact this.eventually_lt_const (by norm_num)
    filter_upwards [hs] with a ha
    set w := x a - x a0 with hw
    set P := ‖T (u a) w‖ with hP
    have h1 : ‖w‖ ≤ 2 * C * P := by
      have a1 := hC' w
      have a2 : ‖T (u a0) w‖ ≤ P + e a * ‖w‖ := by
        have := norm_sub_norm_le (T (u a0) w) (T (u a) w)
        rw [norm_sub_rev] at this
        linarith [hTe a w]
      have a3 : C * ‖T (u a0) w‖ ≤ C * P + C * e a * ‖w‖ := by
        have := mul_le_mul_of_nonneg_left a2 C.coe_nonneg
        calc _ ≤ _ := this
          _ = _ := by ring
      have a4 : C * e a * ‖w‖ ≤ 1 / 2 * ‖w‖ := mul_le_mul_of_nonneg_right ha.le (norm_nonneg _)
      linarith
    have h2 : P ^ 2 ≤ P * (‖d a‖ + 2 * C * e a * ‖r0‖) := by
      have b1 : inner 𝕜 (T (u a) w) (T (u a) w) = inner 𝕜 (T (u a) w) (y a - T (u a) (x a0)) := by
        have e1 : y a - T (u a) (x a0) = (y a - T (u a) (x a)) + T (u a) w := by rw [hw, map_sub]; abel
        rw [e1, inner_add_right, horth, zero_add]
      have b2 : inner 𝕜 (T (u a) w) (y a - T (u a) (x a0)) = inner 𝕜 (T (u a) w) (d a) + inner 𝕜 (T (u a) w - T (u a0) w) r0 := by
        have e2 : y a - T (u a) (x a0) = d a + r0 := by simp only [d]; abel
        rw [e2, inner_add_right, inner_sub_left, show inner 𝕜 (T (u a0) w) r0 = 0 from horth a0 w, sub_zero]
      have b0 : P ^ 2 = ‖inner 𝕜 (T (u a) w) (T (u a) w)‖ := by
        rw [inner_self_eq_norm_sq_to_K, norm_pow, RCLike.norm_ofReal, abs_norm]
      have b3 := norm_inner_le_norm (𝕜 := 𝕜) (T (u a) w) (d a)
      have b4 := norm_inner_le_norm (𝕜 := 𝕜) (T (u a) w - T (u a0) w) r0
      have b5 : ‖T (u a) w - T (u a0) w‖ * ‖r0‖ ≤ e a * (2 * C * P) * ‖r0‖ :=
        mul_le_mul_of_nonneg_right ((hTe a w).trans (mul_le_mul_of_nonneg_left h1 (he0 a))) (norm_nonneg _)
      rw [b0, b1, b2]
      calc _ ≤ P * ‖d a‖ + e a * (2 * C * P) * ‖r0‖ := (norm_add_le _ _).trans (by linarith)
        _ = _ := by ring
    have h3 : P ≤ ‖d a‖ + 2 * C * e a * ‖r0‖ := by
      rcases (norm_nonneg (T (u a) w)).eq_or_lt with h0 | h0
      · rw [hP, ← h0]
        have := he0 a
        positivity
      · rw [pow_two] at h2
        exact le_of_mul_le_mul_left h2 h0
    exact h1.trans (mul_le_mul_of_nonneg_left h3 (by positivity))
  rw [ContinuousAt, tendsto_iff_norm_sub_tendsto_zero]
  refine squeeze_zero' (Eventually.of_forall fun _ => norm_nonneg _) key ?_
  have : Tendsto (fun a => 2 * (C : ℝ) * (‖d a‖ + 2 * C * e a * ‖r0‖)) (𝓝 a0) (𝓝 (2 * C * (0 + 2 * C * 0 * ‖r0‖))) :=
    (hd.add ((he.const_mul (2 * (C : ℝ))).mul_const _)).const_mul _
  simpa using this

theorem cont_lstsq {phi : A → ℕ → E} {a0 : A} (hphi : ∀ i, ContinuousAt (fun p => phi p i) a0) {y : A → E} (hy : ContinuousAt y a0) {lstsq : A → List ℕ → E → List 𝕜} (hls : ∀ a I y, IsLstsq (phi a) I y (lstsq a I y)) (I : List ℕ)
    (hI : Indep 𝕜 (phi a0) I) : ListCont (fun a => lstsq a I (y a)) a0 := by
  refine ⟨Eventually.of_forall fun a => by rw [(hls a I (y a)).length, (hls a0 I (y a0)).length], fun j => ?_⟩
  have hv : ∀ a, lin (phi a) I (lstsq a I (y a)) = ∑ k : Fin I.length, (lstsq a I (y a)).getD k 0 • phi a (I.get k) := fun a => by
    have e : lstsq a I (y a) = List.ofFn fun k : Fin I.length => (lstsq a I (y a)).getD k 0 := by
      apply List.ext_getElem
      · rw [(hls a I (y a)).length, List.length_ofFn]
      · intro k h1 h2
        simp [List.getD_eq_getElem?_getD, List.getElem?_eq_getElem h1]
    conv_lhs => rw [e]
    exact lin_ofFn (phi a) I _
  have hcont := fit_cont (𝕜 := 𝕜) (u := fun a (k : Fin I.length) => phi a (I.get k)) (fun k => hphi _) hy (x := fun a (k : Fin I.length) => (lstsq a I (y a)).getD k 0)
    (fun a k => by rw [← hv]; exact (hls a I (y a)).normal _ (List.get_mem I k)) hI
  by_cases hj : j < I.length
  · exact (continuousAt_pi.1 hcont) ⟨j, hj⟩
  · have : (fun a => (lstsq a I (y a)).getD j 0) = fun _ => (0 : 𝕜) := by
      funext a
      rw [List.getD_eq_getElem?_getD, List.getElem?_eq_none (by rw [(hls a I (y a)).length]; omega)]; rfl
    rw [this]; exact continuousAt_const

/-- A state depending on the data: support, previous support and iteration number are constant near `y`; coefficients, residual and its norm are continuous at `y`. -/
structure StableAt (f : A → GState 𝕜 E) (y : A) : Prop where
  I : ∀ᶠ y' in 𝓝 y, (f y').I = (f y).I
  Iprev : ∀ᶠ y' in 𝓝 y, (f y').Iprev = (f y).Iprev
  x : ListCont (fun y' => (f y').x) y
  r : ContinuousAt (fun y' => (f y').r) y
  rr : ContinuousAt (fun y' => (f y').rr) y
  iters : ∀ᶠ y' in 𝓝 y, (f y').iters = (f y).iters

theorem stable_mk {phi : A → ℕ → E} {a0 : A} (hphi : ∀ i, ContinuousAt (fun p => phi p i) a0) {y : A → E} (hy : ContinuousAt y a0) {I Ip : A → List ℕ} {x : A → List 𝕜} {it : A → ℕ} (hI : ∀ᶠ a in 𝓝 a0, I a = I a0)
    (hp : ∀ᶠ a in 𝓝 a0, Ip a = Ip a0) (hx : ListCont x a0) (hit : ∀ᶠ a in 𝓝 a0, it a = it a0) : StableAt (fun a => mkState (phi a) (y a) (I a) (x a) (it a) (Ip a)) a0 := by
  have hr : ContinuousAt (fun a => y a - lin (phi a) (I a) (x a)) a0 := by
    refine ContinuousAt.congr (hy.sub (cont_lin hphi hx (I a0))) ?_
    filter_upwards [hI] with a h
    rw [h]; rfl
  exact ⟨hI, hp, hx, hr, hr.norm.pow 2, hit⟩

theorem StableAt.agree {f : A → GState 𝕜 E} {y : A} (h : StableAt f y) {ε : ℝ} (he : 0 < ε) : ∀ᶠ y' in 𝓝 y, Agree ε (f y) (f y') := by
  have hx : ∀ᶠ y' in 𝓝 y, ∀ j ∈ Finset.range (f y).x.length, ‖(f y').x.getD j 0 - (f y).x.getD j 0‖ < ε := by
    rw [Filter.eventually_all_finset]
    intro j _
    have := (Metric.tendsto_nhds.1 (h.x.2 j)) ε he
    filter_upwards [this] with y' h'
    rwa [dist_eq_norm] at h'
  have hr := (Metric.tendsto_nhds.1 h.r) ε he
  filter_upwards [h.I, h.iters, h.x.1, hr, hx] with y' a b c d e
  refine ⟨a, b, c, by rwa [dist_eq_norm] at d, fun j => ?_⟩
  by_cases hj : j < (f y).x.length
  · exact e j (Finset.mem_range.2 hj)
  · rw [List.getD_eq_getElem?_getD, List.getD_eq_getElem?_getD, List.getElem?_eq_none (by omega), List.getElem?_eq_none (by omega)]
    simpa using he

/-- The loop: a stable start, stable passes and stable tests give a stable result. -/
theorem result_near {c : A → GState 𝕜 E → Prop} {f : A → GState 𝕜 E → GState 𝕜 E} {s0 : A → GState 𝕜 E} {y : A} {clear : GState 𝕜 E → Prop} {s : GState 𝕜 E} (h : Out (c y) (f y) (s0 y) s)
    (hinit : StableAt s0 y) (hbody : ∀ g : A → GState 𝕜 E, StableAt g y → clear (g y) → StableAt (fun y' => f y' (g y')) y)
    (hclear : ∀ t, Reach (c y) (f y) (s0 y) t → c y t → clear t)
    (hcond : ∀ g : A → GState 𝕜 E, StableAt g y → Reach (c y) (f y) (s0 y) (g y) → ∀ᶠ y' in 𝓝 y, (c y' (g y') ↔ c y (g y))) (ε : ℝ) (he : 0 < ε) :
    ∀ᶠ y' in 𝓝 y, ∀ s', Out (c y') (f y') (s0 y') s' → Agree ε s s' := by
  obtain ⟨m, rfl, hm⟩ := h.1.iterate
  have hst : ∀ j, j ≤ m → StableAt (fun y' => (f y')^[j] (s0 y')) y := by
    intro j
    induction j with
    | zero => exact fun _ => hinit
    | succ j ih =>
      intro hj
      simp only [Function.iterate_succ_apply']
      exact hbody _ (ih (by omega)) (hclear _ (reach_iterate j fun l hl => hm l (by omega)) (hm j (by omega)))
  have hcs : ∀ᶠ y' in 𝓝 y, ∀ j ∈ Finset.range (m + 1), (c y' ((f y')^[j] (s0 y')) ↔ c y ((f y)^[j] (s0 y))) := by
    rw [Filter.eventually_all_finset]
    intro j hj
    have hj' : j ≤ m := by have := Finset.mem_range.1 hj; omega
    exact hcond _ (hst j hj') (reach_iterate j fun l hl => hm l (by omega))
  filter_upwards [hcs, (hst m le_rfl).agree he] with y' h1 h2 s' hs'
  have ho : Out (c y') (f y') (s0 y') ((f y')^[m] (s0 y')) :=
    ⟨reach_iterate m fun j hj => (h1 j (Finset.mem_range.2 (by omega))).2 (hm j hj), fun hc => h.2 ((h1 m (Finset.mem_range.2 (by omega))).1 hc)⟩
  rw [Out.unique hs' ho]
  exact h2

theorem cond_rr {g : A → GState 𝕜 E} {y : A} (hg : StableAt g y) {tol : A → ℝ} (ht : ContinuousAt tol y) (hne : (g y).rr ≠ tol y) : ∀ᶠ y' in 𝓝 y, ((g y').rr > tol y' ↔ (g y).rr > tol y) := by
  rcases hne.lt_or_gt with h | h
  · filter_upwards [hg.rr.eventually_lt ht h] with y' h'
    exact ⟨fun a => absurd a (not_lt.2 h'.le), fun a => absurd a (not_lt.2 h.le)⟩
  · filter_upwards [ht.eventually_lt hg.rr h] with y' h'
    exact ⟨fun _ => h, fun _ => h'⟩

theorem cond_plain {g : A → GState 𝕜 E} {y : A} (hg : StableAt g y) {tol : A → ℝ} (ht : ContinuousAt tol y) (N : ℕ) (hne : (g y).rr ≠ tol y) :
    ∀ᶠ y' in 𝓝 y, (plainCond (tol y') N (g y') ↔ plainCond (tol y) N (g y)) := by
  filter_upwards [cond_rr hg ht hne, hg.iters] with y' a b
  unfold plainCond
  rw [a, b]

theorem cond_support {g : A → GState 𝕜 E} {y : A} (hg : StableAt g y) {tol : A → ℝ} (ht : ContinuousAt tol y) (N K : ℕ) (hne : (g y).rr ≠ tol y) :
    ∀ᶠ y' in 𝓝 y, (supportCond (tol y') N K (g y') ↔ supportCond (tol y) N K (g y)) := by
  filter_upwards [cond_rr hg ht hne, hg.iters, hg.I, hg.Iprev] with y' a b c d
  unfold supportCond
  rw [a, b, c, d]

theorem cont_grad {g : A → GState 𝕜 E} {y : A} (hg : StableAt g y) {phi : A → ℕ → E} (hphi : ∀ i, ContinuousAt (fun p => phi p i) y) (n : ℕ) (mu : ℝ) : ListCont (fun y' => gradStep n (g y').I (g y').x mu (corr 𝕜 (phi y') n (g y').r)) y := by
  refine cont_congr (l := fun y' => gradStep n (g y).I (g y').x mu (corr 𝕜 (phi y') n (g y').r)) ?_ (hg.I.mono fun y' h => by simp only [h])
  exact cont_range n fun j _ => (cont_build hg.x _ j).add (continuousAt_const.mul ((cont_corr (𝕜 := 𝕜) n hphi hg.r).2 j))

theorem cont_grad0 {phi : A → ℕ → E} {a0 : A} (hphi : ∀ i, ContinuousAt (fun p => phi p i) a0) {y : A → E} (hy : ContinuousAt y a0) (n : ℕ) (mu : ℝ) : ListCont (fun a => gradStep n [] [] mu (corr 𝕜 (phi a) n (y a))) a0 :=
  cont_range n fun j _ => continuousAt_const.add (continuousAt_const.mul ((cont_corr (𝕜 := 𝕜) n hphi hy).2 j))

theorem gather_const {z : A → List 𝕜} {y : A} (hz : ListCont z y) {L : A → List ℕ} (hL : ∀ᶠ y' in 𝓝 y, L y' = L y) : ListCont (fun y' => gather 0 (z y') (L y')) y :=
  cont_congr (cont_gather hz (L y)) (hL.mono fun y' h => by simp only [h])

theorem lstsq_const {phi : A → ℕ → E} {a0 : A} (hphi : ∀ i, ContinuousAt (fun p => phi p i) a0) {y : A → E} (hy : ContinuousAt y a0) {lstsq : A → List ℕ → E → List 𝕜} (hls : ∀ a I y, IsLstsq (phi a) I y (lstsq a I y)) {L : A → List ℕ}
    (hL : ∀ᶠ a in 𝓝 a0, L a = L a0) (hI : Indep 𝕜 (phi a0) (L a0)) : ListCont (fun a => lstsq a (L a) (y a)) a0 :=
  cont_congr (cont_lstsq hphi hy hls (L a0) hI) (hL.mono fun a h => by simp only [h])

theorem stable_ihtInit {phi : A → ℕ → E} {a0 : A} (hphi : ∀ i, ContinuousAt (fun p => phi p i) a0) {y : A → E} (hy : ContinuousAt y a0) (n : ℕ) (mu : ℝ) (K : ℕ) (h0 : NoTies (gradStep n [] [] mu (corr 𝕜 (phi a0) n (y a0))) K) :
    StableAt (fun a => ihtInit (𝕜 := 𝕜) (phi a) n mu (y a) K) a0 := by
  have hL := largest_const (cont_grad0 (𝕜 := 𝕜) hphi hy n mu) h0
  exact stable_mk hphi hy hL (Eventually.of_forall fun _ => rfl) (gather_const (cont_grad0 hphi hy n mu) hL) (Eventually.of_forall fun _ => rfl)

theorem sp_near {phi : A → ℕ → E} {a0 : A} (hphi : ∀ i, ContinuousAt (fun p => phi p i) a0) {y : A → E} (hy : ContinuousAt y a0) (n : ℕ) {lstsq : A → List ℕ → E → List 𝕜} (hls : ∀ a I y, IsLstsq (phi a) I y (lstsq a I y)) (K : ℕ)
    {c : A → GState 𝕜 E → Prop} {s : GState 𝕜 E}
    (h : Out (c a0) (spBody (phi a0) n (lstsq a0) (y a0) K) (spInit (phi a0) n (lstsq a0) (y a0) K) s) (h0 : NoTies (corr 𝕜 (phi a0) n (y a0)) K) (h1 : Indep 𝕜 (phi a0) (largestIndices (corr 𝕜 (phi a0) n (y a0)) K))
    (hclear : ∀ t, Reach (c a0) (spBody (phi a0) n (lstsq a0) (y a0) K) (spInit (phi a0) n (lstsq a0) (y a0) K) t → c a0 t → SpClear (phi a0) n (lstsq a0) (y a0) K t)
    (hcond : ∀ g : A → GState 𝕜 E, StableAt g a0 → Reach (c a0) (spBody (phi a0) n (lstsq a0) (y a0) K) (spInit (phi a0) n (lstsq a0) (y a0) K) (g a0) → ∀ᶠ a in 𝓝 a0, (c a (g a) ↔ c a0 (g a0))) (ε : ℝ) (he : 0 < ε) :
    ∀ᶠ a in 𝓝 a0, ∀ s', Out (c a) (spBody (phi a) n (lstsq a) (y a) K) (spInit (phi a) n (lstsq a) (y a) K) s' → Agree ε s s' := by
  refine result_near (f := fun a => spBody (phi a) n (lstsq a) (y a) K) (s0 := fun a => spInit (phi a) n (lstsq a) (y a) K) (clear := SpClear (phi a0) n (lstsq a0) (y a0) K) h ?_ (fun g hg hc => ?_) hclear hcond ε he
  · have hL := largest_const (cont_corr (𝕜 := 𝕜) n hphi hy) h0
    exact stable_mk hphi hy hL (Eventually.of_forall fun _ => rfl) (lstsq_const hphi hy hls hL h1) (Eventually.of_forall fun _ => rfl)
  · obtain ⟨c1, c2, c3, c4⟩ := hc
    have hz : ListCont (fun a => zeroAt (corr 𝕜 (phi a) n (g a).r) (g a).I) a0 :=
      cont_congr (cont_zeroAt (cont_corr n hphi hg.r) (g a0).I) (hg.I.mono fun y' h => by simp only [h])
    have hJ : ∀ᶠ a in 𝓝 a0, (g a).I ++ largestIndices (zeroAt (corr 𝕜 (phi a) n (g a).r) (g a).I) K = (g a0).I ++ largestIndices (zeroAt (corr 𝕜 (phi a0) n (g a0).r) (g a0).I) K := by
      filter_upwards [hg.I, largest_const hz c1] with y' a b
      rw [b, a]
    have hxp := lstsq_const hphi hy hls hJ c2
    have hI : ∀ᶠ a in 𝓝 a0, gather 0 ((g a).I ++ largestIndices (zeroAt (corr 𝕜 (phi a) n (g a).r) (g a).I) K) (largestIndices (lstsq a ((g a).I ++ largestIndices (zeroAt (corr 𝕜 (phi a) n (g a).r) (g a).I) K) (y a)) K) =
        gather 0 ((g a0).I ++ largestIndices (zeroAt (corr 𝕜 (phi a0) n (g a0).r) (g a0).I) K) (largestIndices (lstsq a0 ((g a0).I ++ largestIndices (zeroAt (corr 𝕜 (phi a0) n (g a0).r) (g a0).I) K) (y a0)) K) := by
      filter_upwards [hJ, largest_const hxp c3] with y' a b
      rw [b, a]
    exact stable_mk hphi hy hI hg.I (lstsq_const hphi hy hls hI c4) (hg.iters.mono fun y' h => by rw [h])

theorem cosamp_near {phi : A → ℕ → E} {a0 : A} (hphi : ∀ i, ContinuousAt (fun p => phi p i) a0) {y : A → E} (hy : ContinuousAt y a0) (n : ℕ) {lstsq : A → List ℕ → E → List 𝕜} (hls : ∀ a I y, IsLstsq (phi a) I y (lstsq a I y)) (K : ℕ)
    {c : A → GState 𝕜 E → Prop} {s : GState 𝕜 E}
    (h : Out (c a0) (cosampBody (phi a0) n (lstsq a0) (y a0) K) (cosampInit (phi a0) n (lstsq a0) (y a0) K) s) (h0 : NoTies (corr 𝕜 (phi a0) n (y a0)) (K + 2 * K))
    (h1 : Indep 𝕜 (phi a0) (largestIndices (corr 𝕜 (phi a0) n (y a0)) (K + 2 * K))) (h2 : NoTies (lstsq a0 (largestIndices (corr 𝕜 (phi a0) n (y a0)) (K + 2 * K)) (y a0)) K)
    (hclear : ∀ t, Reach (c a0) (cosampBody (phi a0) n (lstsq a0) (y a0) K) (cosampInit (phi a0) n (lstsq a0) (y a0) K) t → c a0 t → CosampClear (phi a0) n (lstsq a0) (y a0) K t)
    (hcond : ∀ g : A → GState 𝕜 E, StableAt g a0 → Reach (c a0) (cosampBody (phi a0) n (lstsq a0) (y a0) K) (cosampInit (phi a0) n (lstsq a0) (y a0) K) (g a0) → ∀ᶠ a in 𝓝 a0, (c a (g a) ↔ c a0 (g a0))) (ε : ℝ) (he : 0 < ε) :
    ∀ᶠ a in 𝓝 a0, ∀ s', Out (c a) (cosampBody (phi a) n (lstsq a) (y a) K) (cosampInit (phi a) n (lstsq a) (y a) K) s' → Agree ε s s' := by
  refine result_near (f := fun a => cosampBody (phi a) n (lstsq a) (y a) K) (s0 := fun a => cosampInit (phi a) n (lstsq a) (y a) K) (clear := CosampClear (phi a0) n (lstsq a0) (y a0) K) h ?_ (fun g hg hc => ?_) hclear hcond ε he
  · have hL := largest_const (cont_corr (𝕜 := 𝕜) n hphi hy) h0
    have hx := lstsq_const hphi hy hls hL h1
    have hA := largest_const hx h2
    refine stable_mk hphi hy (I := fun a => (gather 0 (largestIndices (corr 𝕜 (phi a) n (y a)) (K + 2 * K)) (largestIndices (lstsq a (largestIndices (corr 𝕜 (phi a) n (y a)) (K + 2 * K)) (y a)) K)).mergeSort) (Ip := fun _ => List.range K)
      (it := fun _ => 1) ?_ (Eventually.of_forall fun _ => rfl) (gather_const hx hA) (Eventually.of_forall fun _ => rfl)
    filter_upwards [hL, hA] with y' a b
    rw [b, a]
  · obtain ⟨c1, c2, c3⟩ := hc
    have hz : ListCont (fun a => zeroAt (corr 𝕜 (phi a) n (g a).r) (g a).I) a0 :=
      cont_congr (cont_zeroAt (cont_corr n hphi hg.r) (g a0).I) (hg.I.mono fun y' h => by simp only [h])
    have hJ : ∀ᶠ a in 𝓝 a0, (g a).I ++ largestIndices (zeroAt (corr 𝕜 (phi a) n (g a).r) (g a).I) (2 * K) = (g a0).I ++ largestIndices (zeroAt (corr 𝕜 (phi a0) n (g a0).r) (g a0).I) (2 * K) := by
      filter_upwards [hg.I, largest_const hz c1] with y' a b
      rw [b, a]
    have hxp := lstsq_const hphi hy hls hJ c2
    have hA := largest_const hxp c3
    refine stable_mk hphi hy (I := fun a => gather 0 ((g a).I ++ largestIndices (zeroAt (corr 𝕜 (phi a) n (g a).r) (g a).I) (2 * K))
      (largestIndices (lstsq a ((g a).I ++ largestIndices (zeroAt (corr 𝕜 (phi a) n (g a).r) (g a).I) (2 * K)) (y a)) K)) ?_ hg.I (gather_const hxp hA) (hg.iters.mono fun y' h => by rw [h])
    filter_upwards [hJ, hA] with y' a b
    rw [b, a]

theorem cont_fst (phi : ℕ → E) (y : E) (i : ℕ) : ContinuousAt (fun p : (ℕ → E) × E => p.1 i) (phi, y) := ((continuous_apply i).comp continuous_fst).continuousAt

theorem cont_snd (phi : ℕ → E) (y : E) : ContinuousAt (fun p : (ℕ → E) × E => p.2) (phi, y) := continuous_snd.continuousAt

theorem cont_tol (rtol : ℝ) (phi : ℕ → E) (y : E) : ContinuousAt (fun p : (ℕ → E) × E => ‖p.2‖ ^ 2 * rtol ^ 2) (phi, y) := ((cont_snd phi y).norm.pow 2).mul continuousAt_const

/-- Results on the normalised data that are near give results on the data that are near. -/
theorem rescale_near {P : A → GState 𝕜 E → Prop} {a0 : A} {N : A → ℝ} (hN0 : 0 ≤ N a0) (hN : ContinuousAt N a0) {t : GState 𝕜 E}
    (h : ∀ ε : ℝ, 0 < ε → ∀ᶠ a in 𝓝 a0, ∀ t', P a t' → Agree ε t t') (ε : ℝ) (he : 0 < ε) :
    ∀ᶠ a in 𝓝 a0, ∀ t', P a t' → Agree ε (rescale (N a0) t) (rescale (N a) t') := by
  set C := ‖t.r‖ + (t.x.map fun c => ‖c‖).sum with hCd
  have hx0 : 0 ≤ (t.x.map fun c => ‖c‖).sum := (norm_nonneg _).trans (getD_le_sum t.x 0)
  have hC : 0 ≤ C := add_nonneg (norm_nonneg _) hx0
  have hy0 : 0 < N a0 + 1 := by positivity
  have h1 := h (ε / 2 / (N a0 + 1)) (by positivity)
  have h2 : ∀ᶠ a in 𝓝 a0, |N a - N a0| < min 1 (ε / 2 / (C + 1)) := by
    have := (Metric.tendsto_nhds.1 hN) (min 1 (ε / 2 / (C + 1))) (by positivity)
    filter_upwards [this] with y' h'
    rwa [Real.dist_eq] at h'
  filter_upwards [h1, h2] with y' a b t' ht'
  obtain ⟨c1, c2, c3, c4, c5⟩ := a t' ht'
  have b1 : |N y' - N a0| ≤ 1 := (b.trans_le (min_le_left _ _)).le
  have b2 : |N y' - N a0| * C < ε / 2 := by
    have := b.trans_le (min_le_right _ _)
    rw [lt_div_iff₀ (by linarith)] at this
    nlinarith [abs_nonneg (N y' - N a0)]
  have hd : (N a0 + 1) * (ε / 2 / (N a0 + 1)) ≤ ε / 2 := by rw [mul_div_cancel₀ _ hy0.ne']
  refine ⟨c1, c2, by simpa [rescale] using c3, scaled_near hN0 (by rw [hCd]; linarith) hC b1 b2 hd c4, fun j => ?_⟩
  show ‖(t'.x.map fun c => ((N y' : ℝ) : 𝕜) * c).getD j 0 - (t.x.map fun c => ((N a0 : ℝ) : 𝕜) * c).getD j 0‖ < ε
  rw [getD_scaled, getD_scaled]
  exact scaled_near hN0 ((getD_le_sum t.x j).trans (by rw [hCd]; linarith [norm_nonneg t.r])) hC b1 b2 hd (c5 j)

theorem cont_unit_snd (phi : ℕ → E) {y : E} (hy : y ≠ 0) : ContinuousAt (fun p : (ℕ → E) × E => ((1 / ‖p.2‖ : ℝ) : 𝕜) • p.2) (phi, y) :=
  ContinuousAt.comp (f := fun p : (ℕ → E) × E => p.2) (g := fun y' : E => ((1 / ‖y'‖ : ℝ) : 𝕜) • y') (x := (phi, y)) (cont_unit hy) (cont_snd phi y)

end Verif.Pursuit.Joint

namespace Verif.Pursuit
open Verif.Loop Filter Topology

variable {𝕜 : Type*} [RCLike 𝕜] {E : Type*} [NormedAddCommGroup E] [InnerProductSpace 𝕜 E]

/-- **C174** (IHT) suppose that with the dictionary `phi` and the data `y` no selection of the `K` largest entries has a tie and no stopping test is decided by equality. Then for all dictionaries and data near these (each atom near its own) the solver
returns the same support after the same number of iterations, with coefficients and residual as near as one likes. -/
theorem c174_iht (phi : ℕ → E) (n : ℕ) (mu : ℝ) (y : E) (K maxIters : ℕ) (rtol : ℝ) (s : GState 𝕜 E) (h : IhtSolve phi n mu y K maxIters rtol s)
    (h0 : NoTies (gradStep n [] [] mu (corr 𝕜 phi n y)) K)
    (hrun : ∀ t : GState 𝕜 E, Reach (plainCond (‖y‖ ^ 2 * rtol ^ 2) maxIters) (ihtBody phi n mu y K) (ihtInit phi n mu y K) t →
      t.rr ≠ ‖y‖ ^ 2 * rtol ^ 2 ∧ (plainCond (‖y‖ ^ 2 * rtol ^ 2) maxIters t → NoTies (gradStep n t.I t.x mu (corr 𝕜 phi n t.r)) K)) (ε : ℝ) (he : 0 < ε) :
    ∀ᶠ p in 𝓝 (phi, y), ∀ s' : GState 𝕜 E, IhtSolve p.1 n mu p.2 K maxIters rtol s' → Agree ε s s' := by
  refine Joint.result_near (y := (phi, y)) (c := fun p : (ℕ → E) × E => plainCond (‖p.2‖ ^ 2 * rtol ^ 2) maxIters) (f := fun p : (ℕ → E) × E => ihtBody p.1 n mu p.2 K) (s0 := fun p : (ℕ → E) × E => ihtInit p.1 n mu p.2 K)
    (clear := fun t => NoTies (gradStep n t.I t.x mu (corr 𝕜 phi n t.r)) K) h (Joint.stable_ihtInit (Joint.cont_fst phi y) (Joint.cont_snd phi y) n mu K h0) (fun g hg hc => ?_) (fun t ht hc => (hrun t ht).2 hc)
    (fun g hg hr => Joint.cond_plain hg (Joint.cont_tol rtol phi y) maxIters (hrun _ hr).1) ε he
  have hz := Joint.cont_grad hg (Joint.cont_fst phi y) n mu
  have hL := Joint.largest_const hz hc
  exact Joint.stable_mk (Joint.cont_fst phi y) (Joint.cont_snd phi y) hL hg.I (Joint.gather_const hz hL) (hg.iters.mono fun y' h => by rw [h])

/-- **C174** (HTP) the same, when the atoms selected on the way are linearly independent; `lstsq psi` solves least squares with the dictionary `psi`. -/
theorem c174_htp (phi : ℕ → E) (n : ℕ) (mu : ℝ) (lstsq : (ℕ → E) → List ℕ → E → List 𝕜) (hls : ∀ psi I y, IsLstsq psi I y (lstsq psi I y)) (y : E) (K maxIters : ℕ) (rtol : ℝ) (s : GState 𝕜 E)
    (h : HtpSolve phi n mu (lstsq phi) y K maxIters rtol s) (h0 : NoTies (gradStep n [] [] mu (corr 𝕜 phi n y)) K)
    (hrun : ∀ t : GState 𝕜 E, Reach (supportCond (‖y‖ ^ 2 * rtol ^ 2) maxIters K) (htpBody phi n mu (lstsq phi) y K) (ihtInit phi n mu y K) t →
      t.rr ≠ ‖y‖ ^ 2 * rtol ^ 2 ∧ (supportCond (‖y‖ ^ 2 * rtol ^ 2) maxIters K t → NoTies (gradStep n t.I t.x mu (corr 𝕜 phi n t.r)) K ∧
        Indep 𝕜 phi (hardThresholdSorted (gradStep n t.I t.x mu (corr 𝕜 phi n t.r)) K).1)) (ε : ℝ) (he : 0 < ε) :
    ∀ᶠ p in 𝓝 (phi, y), ∀ s' : GState 𝕜 E, HtpSolve p.1 n mu (lstsq p.1) p.2 K maxIters rtol s' → Agree ε s s' := by
  refine Joint.result_near (y := (phi, y)) (c := fun p : (ℕ → E) × E => supportCond (‖p.2‖ ^ 2 * rtol ^ 2) maxIters K) (f := fun p : (ℕ → E) × E => htpBody p.1 n mu (lstsq p.1) p.2 K) (s0 := fun p : (ℕ → E) × E => ihtInit p.1 n mu p.2 K)
    (clear := fun t => NoTies (gradStep n t.I t.x mu (corr 𝕜 phi n t.r)) K ∧ Indep 𝕜 phi (hardThresholdSorted (gradStep n t.I t.x mu (corr 𝕜 phi n t.r)) K).1) h (Joint.stable_ihtInit (Joint.cont_fst phi y) (Joint.cont_snd phi y) n mu K h0)
    (fun g hg hc => ?_) (fun t ht hc => (hrun t ht).2 hc) (fun g hg hr => Joint.cond_support hg (Joint.cont_tol rtol phi y) maxIters K (hrun _ hr).1) ε he
  have hz := Joint.cont_grad hg (Joint.cont_fst phi y) n mu
  have hL : ∀ᶠ p in 𝓝 (phi, y), (hardThresholdSorted (gradStep n (g p).I (g p).x mu (corr 𝕜 p.1 n (g p).r)) K).1 = (hardThresholdSorted (gradStep n (g (phi, y)).I (g (phi, y)).x mu (corr 𝕜 phi n (g (phi, y)).r)) K).1 :=
    (Joint.largest_const hz hc.1).mono fun y' h => by simp only [hardThresholdSorted, h]
  exact Joint.stable_mk (Joint.cont_fst phi y) (Joint.cont_snd phi y) hL hg.I (Joint.lstsq_const (lstsq := fun p : (ℕ → E) × E => lstsq p.1) (Joint.cont_fst phi y) (Joint.cont_snd phi y) (fun p => hls p.1) hL hc.2) (hg.iters.mono fun y' h => by rw [h])

/-- **C174** (subspace pursuit, `matrix_solve`). -/
theorem c174_sp (phi : ℕ → E) (n : ℕ) (lstsq : (ℕ → E) → List ℕ → E → List 𝕜) (hls : ∀ psi I y, IsLstsq psi I y (lstsq psi I y)) (y : E) (K maxIters : ℕ) (rtol : ℝ) (s : GState 𝕜 E)
    (h : SpMatrixSolve phi n (lstsq phi) y K maxIters rtol s) (h0 : NoTies (corr 𝕜 phi n y) K) (h1 : Indep 𝕜 phi (largestIndices (corr 𝕜 phi n y) K))
    (hrun : ∀ t : GState 𝕜 E, Reach (plainCond (‖y‖ ^ 2 * rtol ^ 2) maxIters) (spBody phi n (lstsq phi) y K) (spInit phi n (lstsq phi) y K) t →
      t.rr ≠ ‖y‖ ^ 2 * rtol ^ 2 ∧ (plainCond (‖y‖ ^ 2 * rtol ^ 2) maxIters t → SpClear phi n (lstsq phi) y K t)) (ε : ℝ) (he : 0 < ε) :
    ∀ᶠ p in 𝓝 (phi, y), ∀ s' : GState 𝕜 E, SpMatrixSolve p.1 n (lstsq p.1) p.2 K maxIters rtol s' → Agree ε s s' :=
  Joint.sp_near (lstsq := fun p : (ℕ → E) × E => lstsq p.1) (Joint.cont_fst phi y) (Joint.cont_snd phi y) n (fun p => hls p.1) K (c := fun p : (ℕ → E) × E => plainCond (‖p.2‖ ^ 2 * rtol ^ 2) maxIters) h h0 h1 (fun t ht hc => (hrun t ht).2 hc)
    (fun g hg hr => Joint.cond_plain hg (Joint.cont_tol rtol phi y) maxIters (hrun _ hr).1) ε he

/-- **C174** (CoSaMP, `matrix_solve`). -/
theorem c174_cosamp (phi : ℕ → E) (n : ℕ) (lstsq : (ℕ → E) → List ℕ → E → List 𝕜) (hls : ∀ psi I y, IsLstsq psi I y (lstsq psi I y)) (y : E) (K maxIters : ℕ) (rtol : ℝ) (s : GState 𝕜 E)
    (h : CosampMatrixSolve phi n (lstsq phi) y K maxIters rtol s) (h0 : NoTies (corr 𝕜 phi n y) (K + 2 * K)) (h1 : Indep 𝕜 phi (largestIndices (corr 𝕜 phi n y) (K + 2 * K)))
    (h2 : NoTies (lstsq phi (largestIndices (corr 𝕜 phi n y) (K + 2 * K)) y) K)
    (hrun : ∀ t : GState 𝕜 E, Reach (plainCond (‖y‖ ^ 2 * rtol ^ 2) maxIters) (cosampBody phi n (lstsq phi) y K) (cosampInit phi n (lstsq phi) y K) t →
      t.rr ≠ ‖y‖ ^ 2 * rtol ^ 2 ∧ (plainCond (‖y‖ ^ 2 * rtol ^ 2) maxIters t → CosampClear phi n (lstsq phi) y K t)) (ε : ℝ) (he : 0 < ε) :
    ∀ᶠ p in 𝓝 (phi, y), ∀ s' : GState 𝕜 E, CosampMatrixSolve p.1 n (lstsq p.1) p.2 K maxIters rtol s' → Agree ε s s' :=
  Joint.cosamp_near (lstsq := fun p : (ℕ → E) × E => lstsq p.1) (Joint.cont_fst phi y) (Joint.cont_snd phi y) n (fun p => hls p.1) K (c := fun p : (ℕ → E) × E => plainCond (‖p.2‖ ^ 2 * rtol ^ 2) maxIters) h h0 h1 h2 (fun t ht hc => (hrun t ht).2 hc)
    (fun g hg hr => Joint.cond_plain hg (Joint.cont_tol rtol phi y) maxIters (hrun _ hr).1) ε he

/-- **C174** (subspace pursuit, `operator_solve`) the conditions are on the run on the normalised data `y / |y|`. -/
theorem c174_sp_operator (phi : ℕ → E) (n : ℕ) (lstsq : (ℕ → E) → List ℕ → E → List 𝕜) (hls : ∀ psi I y, IsLstsq psi I y (lstsq psi I y)) (y : E) (hy : y ≠ 0) (K maxIters : ℕ) (rtol : ℝ) (s : GState 𝕜 E)
    (h : SpOperatorSolve phi n (lstsq phi) y K maxIters rtol s) (z : E) (hz : z = ((1 / ‖y‖ : ℝ) : 𝕜) • y) (h0 : NoTies (corr 𝕜 phi n z) K) (h1 : Indep 𝕜 phi (largestIndices (corr 𝕜 phi n z) K))
    (hrun : ∀ t : GState 𝕜 E, Reach (supportCond (rtol ^ 2) maxIters K) (spBody phi n (lstsq phi) z K) (spInit phi n (lstsq phi) z K) t →
      t.rr ≠ rtol ^ 2 ∧ (supportCond (rtol ^ 2) maxIters K t → SpClear phi n (lstsq phi) z K t)) (ε : ℝ) (he : 0 < ε) :
    ∀ᶠ p in 𝓝 (phi, y), ∀ s' : GState 𝕜 E, SpOperatorSolve p.1 n (lstsq p.1) p.2 K maxIters rtol s' → Agree ε s s' := by
  subst hz
  obtain ⟨t, ht, rfl⟩ := h
  have key := Joint.rescale_near (a0 := (phi, y)) (N := fun p : (ℕ → E) × E => ‖p.2‖)
    (P := fun (p : (ℕ → E) × E) t' => Out (supportCond (rtol ^ 2) maxIters K) (spBody p.1 n (lstsq p.1) (((1 / ‖p.2‖ : ℝ) : 𝕜) • p.2) K) (spInit p.1 n (lstsq p.1) (((1 / ‖p.2‖ : ℝ) : 𝕜) • p.2) K) t')
    (norm_nonneg _) (Joint.cont_snd phi y).norm (t := t)
    (fun δ hδ => Joint.sp_near (a0 := (phi, y)) (phi := fun p : (ℕ → E) × E => p.1) (y := fun p : (ℕ → E) × E => ((1 / ‖p.2‖ : ℝ) : 𝕜) • p.2) (lstsq := fun p : (ℕ → E) × E => lstsq p.1) (Joint.cont_fst phi y) (Joint.cont_unit_snd phi hy) n
      (fun p => hls p.1) K (c := fun _ => supportCond (rtol ^ 2) maxIters K) ht h0 h1 (fun t ht hc => (hrun t ht).2 hc)
      (fun g hg hr => Joint.cond_support hg continuousAt_const maxIters K (hrun _ hr).1) δ hδ) ε he
  filter_upwards [key] with p hk s' hs'
  obtain ⟨t', ht', rfl⟩ := hs'
  exact hk t' ht'

/-- **C174** (CoSaMP, `operator_solve`) the conditions are on the run on the normalised data `y / |y|`. -/
theorem c174_cosamp_operator (phi : ℕ → E) (n : ℕ) (lstsq : (ℕ → E) → List ℕ → E → List 𝕜) (hls : ∀ psi I y, IsLstsq psi I y (lstsq psi I y)) (y : E) (hy : y ≠ 0) (K maxIters : ℕ) (rtol : ℝ) (s : GState 𝕜 E)
    (h : CosampOperatorSolve phi n (lstsq phi) y K maxIters rtol s) (z : E) (hz : z = ((1 / ‖y‖ : ℝ) : 𝕜) • y) (h0 : NoTies (corr 𝕜 phi n z) (K + 2 * K)) (h1 : Indep 𝕜 phi (largestIndices (corr 𝕜 phi n z) (K + 2 * K)))
    (h2 : NoTies (lstsq phi (largestIndices (corr 𝕜 phi n z) (K + 2 * K)) z) K)
    (hrun : ∀ t : GState 𝕜 E, Reach (supportCond (rtol ^ 2) maxIters K) (cosampBody phi n (lstsq phi) z K) (cosampInit phi n (lstsq phi) z K) t →
      t.rr ≠ rtol ^ 2 ∧ (supportCond (rtol ^ 2) maxIters K t → CosampClear phi n (lstsq phi) z K t)) (ε : ℝ) (he : 0 < ε) :
    ∀ᶠ p in 𝓝 (phi, y), ∀ s' : GState 𝕜 E, CosampOperatorSolve p.1 n (lstsq p.1) p.2 K maxIters rtol s' → Agree ε s s' := by
  subst hz
  obtain ⟨t, ht, rfl⟩ := h
  have key := Joint.rescale_near (a0 := (phi, y)) (N := fun p : (ℕ → E) × E => ‖p.2‖)
    (P := fun (p : (ℕ → E) × E) t' => Out (supportCond (rtol ^ 2) maxIters K) (cosampBody p.1 n (lstsq p.1) (((1 / ‖p.2‖ : ℝ) : 𝕜) • p.2) K) (cosampInit p.1 n (lstsq p.1) (((1 / ‖p.2‖ : ℝ) : 𝕜) • p.2) K) t')
    (norm_nonneg _) (Joint.cont_snd phi y).norm (t := t)
    (fun δ hδ => Joint.cosamp_near (a0 := (phi, y)) (phi := fun p : (ℕ → E) × E => p.1) (y := fun p : (ℕ → E) × E => ((1 / ‖p.2‖ : ℝ) : 𝕜) • p.2) (lstsq := fun p : (ℕ → E) × E => lstsq p.1) (Joint.cont_fst phi y) (Joint.cont_unit_snd phi hy) n
      (fun p => hls p.1) K (c := fun _ => supportCond (rtol ^ 2) maxIters K) ht h0 h1 h2 (fun t ht hc => (hrun t ht).2 hc)
      (fun g hg hr => Joint.cond_support hg continuousAt_const maxIters K (hrun _ hr).1) δ hδ) ε he
  filter_upwards [key] with p hk s' hs'
  obtain ⟨t', ht', rfl⟩ := hs'
  exact hk t' ht'

/-! ## The hypotheses are met: the coordinate axes and the data (3, 2, 1) -/

theorem exists_lstsq_dict : ∃ lstsq : (ℕ → E) → List ℕ → E → List 𝕜, ∀ psi I y, IsLstsq psi I y (lstsq psi I y) :=
  ⟨fun psi => (exists_lstsq_fun psi).choose, fun psi => (exists_lstsq_fun psi).choose_spec⟩

example (ε : ℝ) (he : 0 < ε) : ∃ s : GState ℝ (EuclideanSpace ℝ (Fin 3)), IhtSolve axes 3 1 (!₂[(3 : ℝ), 2, 1]) 1 5 0 s ∧
    ∀ᶠ p in 𝓝 (axes, !₂[(3 : ℝ), 2, 1]), ∀ s' : GState ℝ (EuclideanSpace ℝ (Fin 3)), IhtSolve p.1 3 1 p.2 1 5 0 s' → Agree ε s s' := by
  have hz : Descending (!₂[(3 : ℝ), 2, 1]) := ⟨show (2 : ℝ) < 3 by norm_num, show (1 : ℝ) < 2 by norm_num, show (0 : ℝ) < 1 by norm_num⟩
  obtain ⟨s, hs⟩ := exists_out (c := plainCond (‖(!₂[(3 : ℝ), 2, 1])‖ ^ 2 * 0 ^ 2) 5) (f := ihtBody axes 3 1 (!₂[(3 : ℝ), 2, 1]) 1) (s0 := ihtInit (𝕜 := ℝ) axes 3 1 (!₂[(3 : ℝ), 2, 1]) 1) (·.iters) 5
    (fun s h => h.2) (fun s => Nat.lt_succ_self _)
  exact ⟨s, hs, c174_iht axes 3 1 _ 1 5 0 s hs (iht_met hz).1 (iht_met hz).2 ε he⟩

example (ε : ℝ) (he : 0 < ε) : ∃ (lstsq : (ℕ → EuclideanSpace ℝ (Fin 3)) → List ℕ → EuclideanSpace ℝ (Fin 3) → List ℝ) (s : GState ℝ (EuclideanSpace ℝ (Fin 3))), HtpSolve axes 3 1 (lstsq axes) (!₂[(3 : ℝ), 2, 1]) 1 5 0 s ∧
    ∀ᶠ p in 𝓝 (axes, !₂[(3 : ℝ), 2, 1]), ∀ s' : GState ℝ (EuclideanSpace ℝ (Fin 3)), HtpSolve p.1 3 1 (lstsq p.1) p.2 1 5 0 s' → Agree ε s s' := by
  have hz : Descending (!₂[(3 : ℝ), 2, 1]) := ⟨show (2 : ℝ) < 3 by norm_num, show (1 : ℝ) < 2 by norm_num, show (0 : ℝ) < 1 by norm_num⟩
  obtain ⟨lstsq, hls⟩ := exists_lstsq_dict (𝕜 := ℝ) (E := EuclideanSpace ℝ (Fin 3))
  obtain ⟨s, hs⟩ := exists_out (c := supportCond (‖(!₂[(3 : ℝ), 2, 1])‖ ^ 2 * 0 ^ 2) 5 1) (f := htpBody axes 3 1 (lstsq axes) (!₂[(3 : ℝ), 2, 1]) 1) (s0 := ihtInit (𝕜 := ℝ) axes 3 1 (!₂[(3 : ℝ), 2, 1]) 1) (·.iters) 5
    (fun s h => h.1.2) (fun s => Nat.lt_succ_self _)
  exact ⟨lstsq, s, hs, c174_htp axes 3 1 lstsq hls _ 1 5 0 s hs (iht_met hz).1 (htp_met hz (lstsq axes) (hls axes)) ε he⟩

example (ε : ℝ) (he : 0 < ε) : ∃ (lstsq : (ℕ → EuclideanSpace ℝ (Fin 3)) → List ℕ → EuclideanSpace ℝ (Fin 3) → List ℝ) (s : GState ℝ (EuclideanSpace ℝ (Fin 3))), SpMatrixSolve axes 3 (lstsq axes) (!₂[(3 : ℝ), 2, 1]) 1 5 0 s ∧
    ∀ᶠ p in 𝓝 (axes, !₂[(3 : ℝ), 2, 1]), ∀ s' : GState ℝ (EuclideanSpace ℝ (Fin 3)), SpMatrixSolve p.1 3 (lstsq p.1) p.2 1 5 0 s' → Agree ε s s' := by
  have hz : Descending (!₂[(3 : ℝ), 2, 1]) := ⟨show (2 : ℝ) < 3 by norm_num, show (1 : ℝ) < 2 by norm_num, show (0 : ℝ) < 1 by norm_num⟩
  obtain ⟨lstsq, hls⟩ := exists_lstsq_dict (𝕜 := ℝ) (E := EuclideanSpace ℝ (Fin 3))
  have hm := sp_met hz (lstsq axes) (hls axes)
  obtain ⟨s, hs⟩ := exists_out (c := plainCond (‖(!₂[(3 : ℝ), 2, 1])‖ ^ 2 * 0 ^ 2) 5) (f := spBody axes 3 (lstsq axes) (!₂[(3 : ℝ), 2, 1]) 1) (s0 := spInit axes 3 (lstsq axes) (!₂[(3 : ℝ), 2, 1]) 1) (·.iters) 5
    (fun s h => h.2) (fun s => Nat.lt_succ_self _)
  exact ⟨lstsq, s, hs, c174_sp axes 3 lstsq hls _ 1 5 0 s hs hm.1.1 hm.1.2 (fun t ht => ⟨by have := (hm.2 _ t ht).1; norm_num; exact this.ne', fun _ => (hm.2 _ t ht).2⟩) ε he⟩

example (ε : ℝ) (he : 0 < ε) : ∃ (lstsq : (ℕ → EuclideanSpace ℝ (Fin 3)) → List ℕ → EuclideanSpace ℝ (Fin 3) → List ℝ) (s : GState ℝ (EuclideanSpace ℝ (Fin 3))), CosampMatrixSolve axes 3 (lstsq axes) (!₂[(3 : ℝ), 2, 1]) 1 5 0 s ∧
    ∀ᶠ p in 𝓝 (axes, !₂[(3 : ℝ), 2, 1]), ∀ s' : GState ℝ (EuclideanSpace ℝ (Fin 3)), CosampMatrixSolve p.1 3 (lstsq p.1) p.2 1 5 0 s' → Agree ε s s' := by
  have hz : Descending (!₂[(3 : ℝ), 2, 1]) := ⟨show (2 : ℝ) < 3 by norm_num, show (1 : ℝ) < 2 by norm_num, show (0 : ℝ) < 1 by norm_num⟩
  obtain ⟨lstsq, hls⟩ := exists_lstsq_dict (𝕜 := ℝ) (E := EuclideanSpace ℝ (Fin 3))
  have hm := cosamp_met hz (lstsq axes) (hls axes)
  obtain ⟨s, hs⟩ := exists_out (c := plainCond (‖(!₂[(3 : ℝ), 2, 1])‖ ^ 2 * 0 ^ 2) 5) (f := cosampBody axes 3 (lstsq axes) (!₂[(3 : ℝ), 2, 1]) 1) (s0 := cosampInit axes 3 (lstsq axes) (!₂[(3 : ℝ), 2, 1]) 1) (·.iters) 5
    (fun s h => h.2) (fun s => Nat.lt_succ_self _)
  exact ⟨lstsq, s, hs, c174_cosamp axes 3 lstsq hls _ 1 5 0 s hs hm.1.1 hm.1.2.1 hm.1.2.2 (fun t ht => ⟨by have := (hm.2 _ t ht).1; norm_num; exact this.ne', fun _ => (hm.2 _ t ht).2⟩) ε he⟩

example (ε : ℝ) (he : 0 < ε) : ∃ (lstsq : (ℕ → EuclideanSpace ℝ (Fin 3)) → List ℕ → EuclideanSpace ℝ (Fin 3) → List ℝ) (s : GState ℝ (EuclideanSpace ℝ (Fin 3))), SpOperatorSolve axes 3 (lstsq axes) (!₂[(6 : ℝ), 3, 2]) 1 5 0 s ∧
    ∀ᶠ p in 𝓝 (axes, !₂[(6 : ℝ), 3, 2]), ∀ s' : GState ℝ (EuclideanSpace ℝ (Fin 3)), SpOperatorSolve p.1 3 (lstsq p.1) p.2 1 5 0 s' → Agree ε s s' := by
  obtain ⟨lstsq, hls⟩ := exists_lstsq_dict (𝕜 := ℝ) (E := EuclideanSpace ℝ (Fin 3))
  have hm := sp_met descending_unit (lstsq axes) (hls axes)
  obtain ⟨s, hs⟩ := exists_out (c := supportCond (0 ^ 2) 5 1) (f := spBody axes 3 (lstsq axes) (((1 / ‖(!₂[(6 : ℝ), 3, 2])‖ : ℝ) : ℝ) • (!₂[(6 : ℝ), 3, 2])) 1)
    (s0 := spInit axes 3 (lstsq axes) (((1 / ‖(!₂[(6 : ℝ), 3, 2])‖ : ℝ) : ℝ) • (!₂[(6 : ℝ), 3, 2])) 1) (·.iters) 5 (fun s h => h.1.2) (fun s => Nat.lt_succ_self _)
  have ho : SpOperatorSolve axes 3 (lstsq axes) (!₂[(6 : ℝ), 3, 2]) 1 5 0 (rescale ‖(!₂[(6 : ℝ), 3, 2])‖ s) := ⟨s, hs, rfl⟩
  exact ⟨lstsq, _, ho, c174_sp_operator axes 3 lstsq hls _ data_ne 1 5 0 _ ho _ rfl hm.1.1 hm.1.2 (fun t ht => ⟨by have := (hm.2 _ t ht).1; norm_num; exact this.ne', fun _ => (hm.2 _ t ht).2⟩) ε he⟩

example (ε : ℝ) (he : 0 < ε) : ∃ (lstsq : (ℕ → EuclideanSpace ℝ (Fin 3)) → List ℕ → EuclideanSpace ℝ (Fin 3) → List ℝ) (s : GState ℝ (EuclideanSpace ℝ (Fin 3))), CosampOperatorSolve axes 3 (lstsq axes) (!₂[(6 : ℝ), 3, 2]) 1 5 0 s ∧
    ∀ᶠ p in 𝓝 (axes, !₂[(6 : ℝ), 3, 2]), ∀ s' : GState ℝ (EuclideanSpace ℝ (Fin 3)), CosampOperatorSolve p.1 3 (lstsq p.1) p.2 1 5 0 s' → Agree ε s s' := by
  obtain ⟨lstsq, hls⟩ := exists_lstsq_dict (𝕜 := ℝ) (E := EuclideanSpace ℝ (Fin 3))
  have hm := cosamp_met descending_unit (lstsq axes) (hls axes)
  obtain ⟨s, hs⟩ := exists_out (c := supportCond (0 ^ 2) 5 1) (f := cosampBody axes 3 (lstsq axes) (((1 / ‖(!₂[(6 : ℝ), 3, 2])‖ : ℝ) : ℝ) • (!₂[(6 : ℝ), 3, 2])) 1)
    (s0 := cosampInit axes 3 (lstsq axes) (((1 / ‖(!₂[(6 : ℝ), 3, 2])‖ : ℝ) : ℝ) • (!₂[(6 : ℝ), 3, 2])) 1) (·.iters) 5 (fun s h => h.1.2) (fun s => Nat.lt_succ_self _)
  have ho : CosampOperatorSolve axes 3 (lstsq axes) (!₂[(6 : ℝ), 3, 2]) 1 5 0 (rescale ‖(!₂[(6 : ℝ), 3, 2])‖ s) := ⟨s, hs, rfl⟩
  exact ⟨lstsq, _, ho, c174_cosamp_operator axes 3 lstsq hls _ data_ne 1 5 0 _ ho _ rfl hm.1.1 hm.1.2.1 hm.1.2.2 (fun t ht => ⟨by have := (hm.2 _ t ht).1; norm_num; exact this.ne', fun _ => (hm.2 _ t ht).2⟩) ε he⟩

end Verif.Pursuit
