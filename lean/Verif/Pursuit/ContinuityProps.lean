import Verif.Pursuit.GreedyLemmas
import Verif.Pursuit.UtilProps
import Mathlib.Topology.Algebra.Module.FiniteDimension
import Mathlib.Analysis.Normed.Module.FiniteDimension

set_option autoImplicit false
/-!
# C171: away from ties the results of IHT, HTP, subspace pursuit and CoSaMP are continuous in the data
-/
noncomputable section
namespace Verif.Pursuit
open Verif.Loop Filter Topology

variable {𝕜 : Type*} [RCLike 𝕜] {E : Type*} [NormedAddCommGroup E] [InnerProductSpace 𝕜 E]

/-- Specification: none of the `K` largest entries has the magnitude of another entry. -/
def NoTies (h : List 𝕜) (K : ℕ) : Prop := ∀ i ∈ largestIndices h K, ∀ j, j < h.length → j ≠ i → ‖h.getD j 0‖ ≠ ‖h.getD i 0‖

/-- Specification: the atoms of the list are linearly independent. -/
def Indep (𝕜 : Type*) [RCLike 𝕜] {E : Type*} [NormedAddCommGroup E] [InnerProductSpace 𝕜 E] (phi : ℕ → E) (I : List ℕ) : Prop :=
  ∀ c : Fin I.length → 𝕜, ∑ k, c k • phi (I.get k) = 0 → c = 0

/-- A list depending on the data: its length is constant near `y` and its entries are continuous at `y`. -/
def ListCont (l : E → List 𝕜) (y : E) : Prop := (∀ᶠ y' in 𝓝 y, (l y').length = (l y).length) ∧ ∀ j, ContinuousAt (fun y' => (l y').getD j 0) y

theorem largest_unique {h h' : List 𝕜} {K : ℕ} (hl : h'.length = h.length) (ht : NoTies h K)
    (hn : ∀ i ∈ largestIndices h K, ∀ j, j < h.length → (‖h.getD j 0‖ < ‖h.getD i 0‖ → ‖h'.getD j 0‖ < ‖h'.getD i 0‖) ) : largestIndices h' K = largestIndices h K := by
  obtain ⟨a1, a2, a3, a4, a5⟩ := c51_largest_indices h K
  obtain ⟨b1, b2, b3, b4, b5⟩ := c51_largest_indices h' K
  set L := largestIndices h K
  set L' := largestIndices h' K
  have hlen : L'.length = L.length := by rw [a2, b2, hl]
  have hsub : L' ⊆ L := by
    intro i' hi'
    by_contra hni
    have : ¬ L ⊆ L' := fun hss => by
      have h1 : L.Subperm L' := a1.subperm hss
      have h2 := h1.perm_of_length_le hlen.le
      exact hni (h2.mem_iff.2 hi')
    obtain ⟨i, hi, hni'⟩ := Set.not_subset.1 (fun hh => this fun x hx => hh hx : ¬ {x | x ∈ L} ⊆ {x | x ∈ L'})
    have hi'l : i' < h.length := hl ▸ b3 i' hi'
    have hne : i' ≠ i := fun e => hni (e ▸ hi)
    have h1 := lt_of_le_of_ne (a5 i hi i' hi'l hni) (ht i hi i' hi'l hne)
    have h2 := hn i hi i' hi'l h1
    have h3 := b5 i' hi' i (hl ▸ a3 i hi) hni'
    exact absurd h2 (not_lt.2 h3)
  have hperm : L'.Perm L := (b1.subperm hsub).perm_of_length_le hlen.ge
  refine List.Perm.eq_of_pairwise (le := fun i j => ‖h'.getD j 0‖ ≤ ‖h'.getD i 0‖) (fun i j hi hj h1 h2 => ?_) b4 ?_ hperm
  · by_contra hne
    have hi' := hsub hi
    rcases lt_trichotomy ‖h.getD i 0‖ ‖h.getD j 0‖ with h3 | h3 | h3
    · exact absurd (hn j hj i (a3 i hi') h3) (not_lt.2 h1)
    · exact ht j hj i (a3 i hi') hne h3
    · exact absurd (hn i hi' j (a3 j hj) h3) (not_lt.2 h2)
  · refine List.Pairwise.imp_of_mem (R := fun i j => ‖h.getD j 0‖ ≤ ‖h.getD i 0‖) (fun {i j} hi hj hij => ?_) a4
    by_cases hne : j = i
    · rw [hne]
    · exact (hn i hi j (a3 j hj) (lt_of_le_of_ne hij (ht i hi j (a3 j hj) hne))).le

theorem largest_const {h : E → List 𝕜} {y : E} (hc : ListCont h y) {K : ℕ} (ht : NoTies (h y) K) : ∀ᶠ y' in 𝓝 y, largestIndices (h y') K = largestIndices (h y) K := by
  have key : ∀ᶠ y' in 𝓝 y, ∀ i ∈ Finset.range (h y).length, ∀ j ∈ Finset.range (h y).length, ‖(h y).getD j 0‖ < ‖(h y).getD i 0‖ → ‖(h y').getD j 0‖ < ‖(h y').getD i 0‖ := by
    rw [Filter.eventually_all_finset]
    intro i _
    rw [Filter.eventually_all_finset]
    intro j _
    by_cases hlt : ‖(h y).getD j 0‖ < ‖(h y).getD i 0‖
    · exact ((hc.2 j).norm.eventually_lt (hc.2 i).norm hlt).mono fun y' hy' _ => hy'
    · exact Eventually.of_forall fun y' hh => absurd hh hlt
  filter_upwards [hc.1, key] with y' h1 h2
  exact largest_unique h1 ht fun i hi j hj hlt => h2 i (Finset.mem_range.2 ((c51_largest_indices (h y) K).2.2.1 i hi)) j (Finset.mem_range.2 hj) hlt

theorem cont_corr (phi : ℕ → E) (n : ℕ) {r : E → E} {y : E} (hr : ContinuousAt r y) : ListCont (fun y' => corr 𝕜 phi n (r y')) y := by
  refine ⟨Eventually.of_forall fun y' => by rw [corr_length', corr_length'], fun j => ?_⟩
  by_cases hj : j < n
  · simp only [corr_getD' phi n _ hj]
    exact ContinuousAt.inner (𝕜 := 𝕜) continuousAt_const hr
  · have : (fun y' => (corr 𝕜 phi n (r y')).getD j 0) = fun _ => (0 : 𝕜) := by
      funext y'
      rw [List.getD_eq_getElem?_getD, List.getElem?_eq_none (by rw [corr_length']; omega)]; rfl
    rw [this]; exact continuousAt_const

theorem getD_map_range (f : ℕ → 𝕜) (n j : ℕ) : ((List.range n).map f).getD j 0 = if j < n then f j else 0 := by
  rw [List.getD_eq_getElem?_getD, List.getElem?_map]
  split_ifs with h
  · simp [h]
  · rw [List.getElem?_eq_none (by simpa using h)]; rfl

theorem cont_range (n : ℕ) {f : E → ℕ → 𝕜} {y : E} (hf : ∀ j, j < n → ContinuousAt (fun y' => f y' j) y) : ListCont (fun y' => (List.range n).map (f y')) y := by
  refine ⟨Eventually.of_forall fun y' => by simp, fun j => ?_⟩
  simp only [getD_map_range]
  split_ifs with h
  · exact hf j h
  · exact continuousAt_const

theorem cont_zeroAt {h : E → List 𝕜} {y : E} (hc : ListCont h y) (I : List ℕ) : ListCont (fun y' => zeroAt (h y') I) y := by
  refine ⟨hc.1.mono fun y' hy' => by rw [zeroAt_length, zeroAt_length, hy'], fun j => ?_⟩
  have e : (fun y' => (zeroAt (h y') I).getD j 0) = fun y' => if j ∈ I then 0 else (h y').getD j 0 := by
    funext y'
    rw [zeroAt, getD_map_range]
    by_cases hj : j < (h y').length
    · rw [if_pos hj]
    · rw [if_neg hj, List.getD_eq_getElem?_getD, List.getElem?_eq_none (by omega)]; simp
  rw [e]
  split_ifs
  · exact continuousAt_const
  · exact hc.2 j

theorem cont_gather {x : E → List 𝕜} {y : E} (hc : ListCont x y) (I : List ℕ) : ListCont (fun y' => gather 0 (x y') I) y := by
  refine ⟨Eventually.of_forall fun y' => by rw [gather_length, gather_length], fun j => ?_⟩
  have e : (fun y' => (gather 0 (x y') I).getD j 0) = fun y' => if j < I.length then (x y').getD (I.getD j 0) 0 else 0 := by
    funext y'
    rw [gather, List.getD_eq_getElem?_getD, List.getElem?_map]
    split_ifs with h
    · simp [List.getD_eq_getElem?_getD, List.getElem?_eq_getElem h]
    · simp [List.getElem?_eq_none (by omega : I.length ≤ j)]
  rw [e]
  split_ifs
  · exact hc.2 _
  · exact continuousAt_const

theorem buildSignal_entry : ∀ (I : List ℕ) (m j : ℕ), ∃ p : Option ℕ, ∀ x : List 𝕜, x.length = m → buildSignal I x j = p.elim 0 fun p => x.getD p 0
  | [], m, j => ⟨none, fun x _ => by cases x <;> rfl⟩
  | i :: I, 0, j => ⟨none, fun x hx => by rw [List.length_eq_zero_iff.1 hx]; rfl⟩
  | i :: I, m + 1, j => by
    obtain ⟨p, hp⟩ := buildSignal_entry I m j
    by_cases h : i = j ∧ j ∉ I.take m
    · refine ⟨some 0, fun x hx => ?_⟩
      obtain ⟨v, x, rfl⟩ := List.exists_cons_of_length_eq_add_one hx
      have hx' : x.length = m := by simpa using hx
      show (if i = j ∧ j ∉ I.take x.length then v else buildSignal I x j) = v
      rw [hx', if_pos h]
    · refine ⟨p.map (· + 1), fun x hx => ?_⟩
      obtain ⟨v, x, rfl⟩ := List.exists_cons_of_length_eq_add_one hx
      have hx' : x.length = m := by simpa using hx
      show (if i = j ∧ j ∉ I.take x.length then v else buildSignal I x j) = _
      rw [hx', if_neg h, hp x hx']
      cases p <;> simp

theorem cont_build {x : E → List 𝕜} {y : E} (hc : ListCont x y) (I : List ℕ) (j : ℕ) : ContinuousAt (fun y' => buildSignal I (x y') j) y := by
  obtain ⟨p, hp⟩ := buildSignal_entry (𝕜 := 𝕜) I (x y).length j
  have e : (fun y' => buildSignal I (x y') j) =ᶠ[𝓝 y] fun y' => p.elim 0 fun p => (x y').getD p 0 := hc.1.mono fun y' hy' => hp _ hy'
  refine ContinuousAt.congr ?_ e.symm
  cases p with
  | none => exact continuousAt_const
  | some p => exact hc.2 p

theorem lin_entries (phi : ℕ → E) : ∀ (I : List ℕ) (m : ℕ), ∃ S : Finset ℕ, ∀ x : List 𝕜, x.length = m → lin phi I x = ∑ p ∈ S, x.getD p 0 • phi (I.getD p 0)
  | [], m => ⟨∅, fun x _ => by cases x <;> rfl⟩
  | i :: I, 0 => ⟨∅, fun x hx => by rw [List.length_eq_zero_iff.1 hx]; rfl⟩
  | i :: I, m + 1 => by
    obtain ⟨S, hS⟩ := lin_entries phi I m
    refine ⟨insert 0 (S.map ⟨(· + 1), Nat.succ_injective⟩), fun x hx => ?_⟩
    obtain ⟨v, x, rfl⟩ := List.exists_cons_of_length_eq_add_one hx
    have hx' : x.length = m := by simpa using hx
    rw [Finset.sum_insert (by simp), Finset.sum_map]
    show v • phi i + lin phi I x = _
    rw [hS x hx']
    simp

theorem cont_lin (phi : ℕ → E) {x : E → List 𝕜} {y : E} (hc : ListCont x y) (I : List ℕ) : ContinuousAt (fun y' => lin phi I (x y')) y := by
  obtain ⟨S, hS⟩ := lin_entries (𝕜 := 𝕜) phi I (x y).length
  have e : (fun y' => lin phi I (x y')) =ᶠ[𝓝 y] fun y' => ∑ p ∈ S, (x y').getD p 0 • phi (I.getD p 0) := hc.1.mono fun y' hy' => hS _ hy'
  refine ContinuousAt.congr ?_ e.symm
  exact tendsto_finset_sum _ fun p _ => (hc.2 p).smul continuousAt_const

theorem cont_congr {l l' : E → List 𝕜} {y : E} (hc : ListCont l y) (h : ∀ᶠ y' in 𝓝 y, l' y' = l y') : ListCont l' y := by
  have h0 := h.self_of_nhds
  refine ⟨by filter_upwards [h, hc.1] with y' a b; rw [a, b, h0], fun j => (hc.2 j).congr ?_⟩
  filter_upwards [h] with y' a
  rw [a]

/-- Least squares on linearly independent atoms is continuous in the data. -/
theorem cont_lstsq (phi : ℕ → E) (lstsq : List ℕ → E → List 𝕜) (hls : ∀ I y, IsLstsq phi I y (lstsq I y)) (I : List ℕ) (hI : Indep 𝕜 phi I) (y : E) : ListCont (fun y' => lstsq I y') y := by
  refine ⟨Eventually.of_forall fun y' => by rw [(hls I y').length, (hls I y).length], fun j => ?_⟩
  let T : (Fin I.length → 𝕜) →ₗ[𝕜] E :=
    { toFun := fun x => ∑ k, x k • phi (I.get k)
      map_add' := fun x z => by simp [add_smul, Finset.sum_add_distrib]
      map_smul' := fun a x => by simp [mul_smul, Finset.smul_sum] }
  have hker : LinearMap.ker T = ⊥ := LinearMap.ker_eq_bot'.2 fun c hc => hI c hc
  obtain ⟨C, hC0, hC⟩ := T.exists_antilipschitzWith hker
  let v : E → Fin I.length → 𝕜 := fun y' k => (lstsq I y').getD k 0
  have hv : ∀ y', lin phi I (lstsq I y') = T (v y') := fun y' => by
    have e : lstsq I y' = List.ofFn (v y') := by
      apply List.ext_getElem
      · rw [(hls I y').length, List.length_ofFn]
      · intro k h1 h2
        simp [v, List.getD_eq_getElem?_getD, List.getElem?_eq_getElem h1]
    rw [e]; exact lin_ofFn phi I _
  have hbound : ∀ y', ‖T (v y') - T (v y)‖ ≤ ‖y' - y‖ := fun y' => by
    set e := T (v y') - T (v y) with he
    have ho : inner 𝕜 e ((y' - y) - e) = 0 := by
      have h1 : ∀ k : Fin I.length, inner 𝕜 (phi (I.get k)) ((y' - y) - e) = 0 := fun k => by
        have a := (hls I y').normal _ (List.get_mem I k)
        have b := (hls I y).normal _ (List.get_mem I k)
        rw [hv] at a b
        have e2 : (y' - y) - e = (y' - T (v y')) - (y - T (v y)) := by rw [he]; abel
        rw [e2, inner_sub_right, a, b, sub_zero]
      have e3 : e = ∑ k, (v y' k - v y k) • phi (I.get k) := by
        rw [he, ← map_sub]; rfl
      conv_lhs => enter [2]; rw [e3]
      rw [sum_inner]
      exact Finset.sum_eq_zero fun k _ => by rw [inner_smul_left, h1, mul_zero]
    have h2 : inner 𝕜 e (y' - y) = inner 𝕜 e e := by
      rw [inner_sub_right, sub_eq_zero] at ho; exact ho
    have h3 : ‖e‖ * ‖e‖ ≤ ‖e‖ * ‖y' - y‖ := by
      have := norm_inner_le_norm (𝕜 := 𝕜) e (y' - y)
      rw [h2, inner_self_eq_norm_sq_to_K] at this
      simp only [norm_pow, RCLike.norm_ofReal, abs_norm] at this
      nlinarith
    rcases (norm_nonneg e).eq_or_lt with h0 | h0
    · rw [← h0]; exact norm_nonneg _
    · exact le_of_mul_le_mul_left h3 h0
  have hcont : ContinuousAt v y := by
    have h1 : ∀ y', dist (v y') (v y) ≤ C * ‖y' - y‖ := fun y' => by
      refine (hC.le_mul_dist (v y') (v y)).trans ?_
      rw [dist_eq_norm]
      exact mul_le_mul_of_nonneg_left (hbound y') C.2
    rw [ContinuousAt, tendsto_iff_dist_tendsto_zero]
    refine squeeze_zero (fun _ => dist_nonneg) h1 ?_
    have : Tendsto (fun y' => C * ‖y' - y‖) (𝓝 y) (𝓝 (C * ‖y - y‖)) := ((continuous_id.sub continuous_const).norm.tendsto y).const_mul _
    simpa using this
  by_cases hj : j < I.length
  · exact (continuousAt_pi.1 hcont) ⟨j, hj⟩
  · have : (fun y' => (lstsq I y').getD j 0) = fun _ => (0 : 𝕜) := by
      funext y'
      rw [List.getD_eq_getElem?_getD, List.getElem?_eq_none (by rw [(hls I y').length]; omega)]; rfl
    rw [this]; exact continuousAt_const


/-! ## Runs -/

/-- A state depending on the data: support, previous support and iteration number are constant near `y`; coefficients, residual and its norm are continuous at `y`. -/
structure StableAt (f : E → GState 𝕜 E) (y : E) : Prop where
  I : ∀ᶠ y' in 𝓝 y, (f y').I = (f y).I
  Iprev : ∀ᶠ y' in 𝓝 y, (f y').Iprev = (f y).Iprev
  x : ListCont (fun y' => (f y').x) y
  r : ContinuousAt (fun y' => (f y').r) y
  rr : ContinuousAt (fun y' => (f y').rr) y
  iters : ∀ᶠ y' in 𝓝 y, (f y').iters = (f y).iters

theorem stable_mk (phi : ℕ → E) {y : E} {I Ip : E → List ℕ} {x : E → List 𝕜} {it : E → ℕ} (hI : ∀ᶠ y' in 𝓝 y, I y' = I y) (hp : ∀ᶠ y' in 𝓝 y, Ip y' = Ip y) (hx : ListCont x y)
    (hit : ∀ᶠ y' in 𝓝 y, it y' = it y) : StableAt (fun y' => mkState phi y' (I y') (x y') (it y') (Ip y')) y := by
  have hr : ContinuousAt (fun y' => y' - lin phi (I y') (x y')) y := by
    refine ContinuousAt.congr (continuousAt_id.sub (cont_lin phi hx (I y))) ?_
    filter_upwards [hI] with y' h
    rw [h]; rfl
  exact ⟨hI, hp, hx, hr, hr.norm.pow 2, hit⟩

/-- Specification: two results have the same support and iteration number, and residuals and coefficients within `ε`. -/
structure Agree (ε : ℝ) (s s' : GState 𝕜 E) : Prop where
  I : s'.I = s.I
  iters : s'.iters = s.iters
  length : s'.x.length = s.x.length
  r : ‖s'.r - s.r‖ < ε
  x : ∀ j, ‖s'.x.getD j 0 - s.x.getD j 0‖ < ε

theorem StableAt.agree {f : E → GState 𝕜 E} {y : E} (h : StableAt f y) {ε : ℝ} (he : 0 < ε) : ∀ᶠ y' in 𝓝 y, Agree ε (f y) (f y') := by
  have hx : ∀ᶠ y' in 𝓝 y, ∀ j ∈ Finset.range (f y).x.length, ‖(f y').x.getD j 0 - (f y).x.getD j 0‖ < ε := by
    rw [Filter.eventually_all_finset]
    intro j _
    have := (Metric.tendsto_nhds.1 (h.x.2 j)) ε he
    filter_upwards [this] with y' h'
    rwa [dist_eq_norm] at h'
  have hr := (Metric.tendsto_nhds.1 h.r) ε he
  filter_upwards [h.I, h.iters, h.x.1, hr, hx] with y' a b c d e
  refine ⟨a, b, c, by rwa [dist_eq_norm] at d, fun j => ?_⟩
  by_cases hj : j < (f y).x.length
  · exact e j (Finset.mem_range.2 hj)
  · rw [List.getD_eq_getElem?_getD, List.getD_eq_getElem?_getD, List.getElem?_eq_none (by omega), List.getElem?_eq_none (by omega)]
    simpa using he

theorem reach_iterate {σ : Type*} {c : σ → Prop} {f : σ → σ} {s0 : σ} : ∀ m : ℕ, (∀ j, j < m → c (f^[j] s0)) → Reach c f s0 (f^[m] s0)
  | 0, _ => .init
  | m + 1, h => by
    rw [Function.iterate_succ_apply']
    exact (reach_iterate m fun j hj => h j (by omega)).step (h m (by omega))

/-- The loop: a stable start, stable passes and stable tests give a stable result. -/
theorem result_near {c : E → GState 𝕜 E → Prop} {f : E → GState 𝕜 E → GState 𝕜 E} {s0 : E → GState 𝕜 E} {y : E} {clear : GState 𝕜 E → Prop} {s : GState 𝕜 E} (h : Out (c y) (f y) (s0 y) s)
    (hinit : StableAt s0 y) (hbody : ∀ g : E → GState 𝕜 E, StableAt g y → clear (g y) → StableAt (fun y' => f y' (g y')) y)
    (hclear : ∀ t, Reach (c y) (f y) (s0 y) t → c y t → clear t)
    (hcond : ∀ g : E → GState 𝕜 E, StableAt g y → Reach (c y) (f y) (s0 y) (g y) → ∀ᶠ y' in 𝓝 y, (c y' (g y') ↔ c y (g y))) (ε : ℝ) (he : 0 < ε) :
    ∀ᶠ y' in 𝓝 y, ∀ s', Out (c y') (f y') (s0 y') s' → Agree ε s s' := by
  obtain ⟨m, rfl, hm⟩ := h.1.iterate
  have hst : ∀ j, j ≤ m → StableAt (fun y' => (f y')^[j] (s0 y')) y := by
    intro j
    induction j with
    | zero => exact fun _ => hinit
    | succ j ih =>
      intro hj
      simp only [Function.iterate_succ_apply']
      exact hbody _ (ih (by omega)) (hclear _ (reach_iterate j fun l hl => hm l (by omega)) (hm j (by omega)))
  have hcs : ∀ᶠ y' in 𝓝 y, ∀ j ∈ Finset.range (m + 1), (c y' ((f y')^[j] (s0 y')) ↔ c y ((f y)^[j] (s0 y))) := by
    rw [Filter.eventually_all_finset]
    intro j hj
    have hj' : j ≤ m := by have := Finset.mem_range.1 hj; omega
    exact hcond _ (hst j hj') (reach_iterate j fun l hl => hm l (by omega))
  filter_upwards [hcs, (hst m le_rfl).agree he] with y' h1 h2 s' hs'
  have ho : Out (c y') (f y') (s0 y') ((f y')^[m] (s0 y')) :=
    ⟨reach_iterate m fun j hj => (h1 j (Finset.mem_range.2 (by omega))).2 (hm j hj), fun hc => h.2 ((h1 m (Finset.mem_range.2 (by omega))).1 hc)⟩
  rw [Out.unique hs' ho]
  exact h2

theorem cond_rr {g : E → GState 𝕜 E} {y : E} (hg : StableAt g y) {tol : E → ℝ} (ht : ContinuousAt tol y) (hne : (g y).rr ≠ tol y) : ∀ᶠ y' in 𝓝 y, ((g y').rr > tol y' ↔ (g y).rr > tol y) := by
  rcases hne.lt_or_gt with h | h
  · filter_upwards [hg.rr.eventually_lt ht h] with y' h'
    exact ⟨fun a => absurd a (not_lt.2 h'.le), fun a => absurd a (not_lt.2 h.le)⟩
  · filter_upwards [ht.eventually_lt hg.rr h] with y' h'
    exact ⟨fun _ => h, fun _ => h'⟩

theorem cond_plain {g : E → GState 𝕜 E} {y : E} (hg : StableAt g y) {tol : E → ℝ} (ht : ContinuousAt tol y) (N : ℕ) (hne : (g y).rr ≠ tol y) :
    ∀ᶠ y' in 𝓝 y, (plainCond (tol y') N (g y') ↔ plainCond (tol y) N (g y)) := by
  filter_upwards [cond_rr hg ht hne, hg.iters] with y' a b
  unfold plainCond
  rw [a, b]

theorem cond_support {g : E → GState 𝕜 E} {y : E} (hg : StableAt g y) {tol : E → ℝ} (ht : ContinuousAt tol y) (N K : ℕ) (hne : (g y).rr ≠ tol y) :
    ∀ᶠ y' in 𝓝 y, (supportCond (tol y') N K (g y') ↔ supportCond (tol y) N K (g y)) := by
  filter_upwards [cond_rr hg ht hne, hg.iters, hg.I, hg.Iprev] with y' a b c d
  unfold supportCond
  rw [a, b, c, d]

theorem cont_tol (rtol : ℝ) (y : E) : ContinuousAt (fun y' : E => ‖y'‖ ^ 2 * rtol ^ 2) y := by fun_prop

theorem cont_grad {g : E → GState 𝕜 E} {y : E} (hg : StableAt g y) (phi : ℕ → E) (n : ℕ) (mu : ℝ) : ListCont (fun y' => gradStep n (g y').I (g y').x mu (corr 𝕜 phi n (g y').r)) y := by
  refine cont_congr (l := fun y' => gradStep n (g y).I (g y').x mu (corr 𝕜 phi n (g y').r)) ?_ (hg.I.mono fun y' h => by simp only [h])
  exact cont_range n fun j _ => (cont_build hg.x _ j).add (continuousAt_const.mul ((cont_corr (𝕜 := 𝕜) phi n hg.r).2 j))

theorem cont_grad0 (phi : ℕ → E) (n : ℕ) (mu : ℝ) (y : E) : ListCont (fun y' => gradStep n [] [] mu (corr 𝕜 phi n y')) y :=
  cont_range n fun j _ => continuousAt_const.add (continuousAt_const.mul ((cont_corr (𝕜 := 𝕜) phi n continuousAt_id).2 j))

theorem gather_const {z : E → List 𝕜} {y : E} (hz : ListCont z y) {L : E → List ℕ} (hL : ∀ᶠ y' in 𝓝 y, L y' = L y) : ListCont (fun y' => gather 0 (z y') (L y')) y :=
  cont_congr (cont_gather hz (L y)) (hL.mono fun y' h => by simp only [h])

theorem lstsq_const (phi : ℕ → E) (lstsq : List ℕ → E → List 𝕜) (hls : ∀ I y, IsLstsq phi I y (lstsq I y)) {L : E → List ℕ} {y : E} (hL : ∀ᶠ y' in 𝓝 y, L y' = L y) (hI : Indep 𝕜 phi (L y)) :
    ListCont (fun y' => lstsq (L y') y') y :=
  cont_congr (cont_lstsq phi lstsq hls (L y) hI y) (hL.mono fun y' h => by simp only [h])

theorem stable_ihtInit (phi : ℕ → E) (n : ℕ) (mu : ℝ) (y : E) (K : ℕ) (h0 : NoTies (gradStep n [] [] mu (corr 𝕜 phi n y)) K) : StableAt (fun y' => ihtInit (𝕜 := 𝕜) phi n mu y' K) y := by
  have hL := largest_const (cont_grad0 (𝕜 := 𝕜) phi n mu y) h0
  exact stable_mk phi hL (Eventually.of_forall fun _ => rfl) (gather_const (cont_grad0 phi n mu y) hL) (Eventually.of_forall fun _ => rfl)

/-! ## The algorithms -/

/-- **C171** (IHT) suppose that on `y` no selection of the `K` largest entries has a tie and no stopping test is decided by equality. Then for all data near `y` the solver returns the same support after the same number of
iterations, with coefficients and residual as near as one likes. -/
theorem c171_iht (phi : ℕ → E) (n : ℕ) (mu : ℝ) (y : E) (K maxIters : ℕ) (rtol : ℝ) (s : GState 𝕜 E) (h : IhtSolve phi n mu y K maxIters rtol s)
    (h0 : NoTies (gradStep n [] [] mu (corr 𝕜 phi n y)) K)
    (hrun : ∀ t : GState 𝕜 E, Reach (plainCond (‖y‖ ^ 2 * rtol ^ 2) maxIters) (ihtBody phi n mu y K) (ihtInit phi n mu y K) t →
      t.rr ≠ ‖y‖ ^ 2 * rtol ^ 2 ∧ (plainCond (‖y‖ ^ 2 * rtol ^ 2) maxIters t → NoTies (gradStep n t.I t.x mu (corr 𝕜 phi n t.r)) K)) (ε : ℝ) (he : 0 < ε) :
    ∀ᶠ y' in 𝓝 y, ∀ s' : GState 𝕜 E, IhtSolve phi n mu y' K maxIters rtol s' → Agree ε s s' := by
  refine result_near (c := fun y => plainCond (‖y‖ ^ 2 * rtol ^ 2) maxIters) (f := fun y => ihtBody phi n mu y K) (s0 := fun y => ihtInit phi n mu y K)
    (clear := fun t => NoTies (gradStep n t.I t.x mu (corr 𝕜 phi n t.r)) K) h (stable_ihtInit phi n mu y K h0) (fun g hg hc => ?_) (fun t ht hc => (hrun t ht).2 hc)
    (fun g hg hr => cond_plain hg (cont_tol rtol y) maxIters (hrun _ hr).1) ε he
  have hz := cont_grad hg phi n mu
  have hL := largest_const hz hc
  exact stable_mk phi hL hg.I (gather_const hz hL) (hg.iters.mono fun y' h => by rw [h])

/-- **C171** (HTP) the same, when the atoms selected on the way are linearly independent. -/
theorem c171_htp (phi : ℕ → E) (n : ℕ) (mu : ℝ) (lstsq : List ℕ → E → List 𝕜) (hls : ∀ I y, IsLstsq phi I y (lstsq I y)) (y : E) (K maxIters : ℕ) (rtol : ℝ) (s : GState 𝕜 E)
    (h : HtpSolve phi n mu lstsq y K maxIters rtol s) (h0 : NoTies (gradStep n [] [] mu (corr 𝕜 phi n y)) K)
    (hrun : ∀ t : GState 𝕜 E, Reach (supportCond (‖y‖ ^ 2 * rtol ^ 2) maxIters K) (htpBody phi n mu lstsq y K) (ihtInit phi n mu y K) t →
      t.rr ≠ ‖y‖ ^ 2 * rtol ^ 2 ∧ (supportCond (‖y‖ ^ 2 * rtol ^ 2) maxIters K t → NoTies (gradStep n t.I t.x mu (corr 𝕜 phi n t.r)) K ∧
        Indep 𝕜 phi (hardThresholdSorted (gradStep n t.I t.x mu (corr 𝕜 phi n t.r)) K).1)) (ε : ℝ) (he : 0 < ε) :
    ∀ᶠ y' in 𝓝 y, ∀ s' : GState 𝕜 E, HtpSolve phi n mu lstsq y' K maxIters rtol s' → Agree ε s s' := by
  refine result_near (c := fun y => supportCond (‖y‖ ^ 2 * rtol ^ 2) maxIters K) (f := fun y => htpBody phi n mu lstsq y K) (s0 := fun y => ihtInit phi n mu y K)
    (clear := fun t => NoTies (gradStep n t.I t.x mu (corr 𝕜 phi n t.r)) K ∧ Indep 𝕜 phi (hardThresholdSorted (gradStep n t.I t.x mu (corr 𝕜 phi n t.r)) K).1) h (stable_ihtInit phi n mu y K h0)
    (fun g hg hc => ?_) (fun t ht hc => (hrun t ht).2 hc) (fun g hg hr => cond_support hg (cont_tol rtol y) maxIters K (hrun _ hr).1) ε he
  have hz := cont_grad hg phi n mu
  have hL : ∀ᶠ y' in 𝓝 y, (hardThresholdSorted (gradStep n (g y').I (g y').x mu (corr 𝕜 phi n (g y').r)) K).1 = (hardThresholdSorted (gradStep n (g y).I (g y).x mu (corr 𝕜 phi n (g y).r)) K).1 :=
    (largest_const hz hc.1).mono fun y' h => by simp only [hardThresholdSorted, h]
  exact stable_mk phi hL hg.I (lstsq_const phi lstsq hls hL hc.2) (hg.iters.mono fun y' h => by rw [h])

/-- Specification: in a pass of subspace pursuit from `t` neither selection has a tie, and the `2K` and `K` selected atoms are linearly independent. -/
def SpClear (phi : ℕ → E) (n : ℕ) (lstsq : List ℕ → E → List 𝕜) (y : E) (K : ℕ) (t : GState 𝕜 E) : Prop :=
  let h := zeroAt (corr 𝕜 phi n t.r) t.I
  let J := t.I ++ largestIndices h K
  NoTies h K ∧ Indep 𝕜 phi J ∧ NoTies (lstsq J y) K ∧ Indep 𝕜 phi (gather 0 J (largestIndices (lstsq J y) K))

theorem sp_near (phi : ℕ → E) (n : ℕ) (lstsq : List ℕ → E → List 𝕜) (hls : ∀ I y, IsLstsq phi I y (lstsq I y)) (y : E) (K : ℕ) {c : E → GState 𝕜 E → Prop} {s : GState 𝕜 E}
    (h : Out (c y) (spBody phi n lstsq y K) (spInit phi n lstsq y K) s) (h0 : NoTies (corr 𝕜 phi n y) K) (h1 : Indep 𝕜 phi (largestIndices (corr 𝕜 phi n y) K))
    (hclear : ∀ t, Reach (c y) (spBody phi n lstsq y K) (spInit phi n lstsq y K) t → c y t → SpClear phi n lstsq y K t)
    (hcond : ∀ g : E → GState 𝕜 E, StableAt g y → Reach (c y) (spBody phi n lstsq y K) (spInit phi n lstsq y K) (g y) → ∀ᶠ y' in 𝓝 y, (c y' (g y') ↔ c y (g y))) (ε : ℝ) (he : 0 < ε) :
    ∀ᶠ y' in 𝓝 y, ∀ s', Out (c y') (spBody phi n lstsq y' K) (spInit phi n lstsq y' K) s' → Agree ε s s' := by
  refine result_near (f := fun y => spBody phi n lstsq y K) (s0 := fun y => spInit phi n lstsq y K) (clear := SpClear phi n lstsq y K) h ?_ (fun g hg hc => ?_) hclear hcond ε he
  · have hL := largest_const (cont_corr (𝕜 := 𝕜) phi n (continuousAt_id (x := y))) h0
    exact stable_mk phi hL (Eventually.of_forall fun _ => rfl) (lstsq_const phi lstsq hls hL h1) (Eventually.of_forall fun _ => rfl)
  · obtain ⟨c1, c2, c3, c4⟩ := hc
    have hz : ListCont (fun y' => zeroAt (corr 𝕜 phi n (g y').r) (g y').I) y :=
      cont_congr (cont_zeroAt (cont_corr phi n hg.r) (g y).I) (hg.I.mono fun y' h => by simp only [h])
    have hJ : ∀ᶠ y' in 𝓝 y, (g y').I ++ largestIndices (zeroAt (corr 𝕜 phi n (g y').r) (g y').I) K = (g y).I ++ largestIndices (zeroAt (corr 𝕜 phi n (g y).r) (g y).I) K := by
      filter_upwards [hg.I, largest_const hz c1] with y' a b
      rw [b, a]
    have hxp := lstsq_const phi lstsq hls hJ c2
    have hI : ∀ᶠ y' in 𝓝 y, gather 0 ((g y').I ++ largestIndices (zeroAt (corr 𝕜 phi n (g y').r) (g y').I) K) (largestIndices (lstsq ((g y').I ++ largestIndices (zeroAt (corr 𝕜 phi n (g y').r) (g y').I) K) y') K) =
        gather 0 ((g y).I ++ largestIndices (zeroAt (corr 𝕜 phi n (g y).r) (g y).I) K) (largestIndices (lstsq ((g y).I ++ largestIndices (zeroAt (corr 𝕜 phi n (g y).r) (g y).I) K) y) K) := by
      filter_upwards [hJ, largest_const hxp c3] with y' a b
      rw [b, a]
    exact stable_mk phi hI hg.I (lstsq_const phi lstsq hls hI c4) (hg.iters.mono fun y' h => by rw [h])

/-- **C171** (subspace pursuit, `matrix_solve`). -/
theorem c171_sp (phi : ℕ → E) (n : ℕ) (lstsq : List ℕ → E → List 𝕜) (hls : ∀ I y, IsLstsq phi I y (lstsq I y)) (y : E) (K maxIters : ℕ) (rtol : ℝ) (s : GState 𝕜 E)
    (h : SpMatrixSolve phi n lstsq y K maxIters rtol s) (h0 : NoTies (corr 𝕜 phi n y) K) (h1 : Indep 𝕜 phi (largestIndices (corr 𝕜 phi n y) K))
    (hrun : ∀ t : GState 𝕜 E, Reach (plainCond (‖y‖ ^ 2 * rtol ^ 2) maxIters) (spBody phi n lstsq y K) (spInit phi n lstsq y K) t →
      t.rr ≠ ‖y‖ ^ 2 * rtol ^ 2 ∧ (plainCond (‖y‖ ^ 2 * rtol ^ 2) maxIters t → SpClear phi n lstsq y K t)) (ε : ℝ) (he : 0 < ε) :
    ∀ᶠ y' in 𝓝 y, ∀ s' : GState 𝕜 E, SpMatrixSolve phi n lstsq y' K maxIters rtol s' → Agree ε s s' :=
  sp_near phi n lstsq hls y K (c := fun y => plainCond (‖y‖ ^ 2 * rtol ^ 2) maxIters) h h0 h1 (fun t ht hc => (hrun t ht).2 hc)
    (fun g hg hr => cond_plain hg (cont_tol rtol y) maxIters (hrun _ hr).1) ε he

/-- Specification: in a pass of CoSaMP from `t` neither selection has a tie and the `3K` selected atoms are linearly independent. -/
def CosampClear (phi : ℕ → E) (n : ℕ) (lstsq : List ℕ → E → List 𝕜) (y : E) (K : ℕ) (t : GState 𝕜 E) : Prop :=
  let h := zeroAt (corr 𝕜 phi n t.r) t.I
  let J := t.I ++ largestIndices h (2 * K)
  NoTies h (2 * K) ∧ Indep 𝕜 phi J ∧ NoTies (lstsq J y) K

theorem cosamp_near (phi : ℕ → E) (n : ℕ) (lstsq : List ℕ → E → List 𝕜) (hls : ∀ I y, IsLstsq phi I y (lstsq I y)) (y : E) (K : ℕ) {c : E → GState 𝕜 E → Prop} {s : GState 𝕜 E}
    (h : Out (c y) (cosampBody phi n lstsq y K) (cosampInit phi n lstsq y K) s) (h0 : NoTies (corr 𝕜 phi n y) (K + 2 * K)) (h1 : Indep 𝕜 phi (largestIndices (corr 𝕜 phi n y) (K + 2 * K)))
    (h2 : NoTies (lstsq (largestIndices (corr 𝕜 phi n y) (K + 2 * K)) y) K)
    (hclear : ∀ t, Reach (c y) (cosampBody phi n lstsq y K) (cosampInit phi n lstsq y K) t → c y t → CosampClear phi n lstsq y K t)
    (hcond : ∀ g : E → GState 𝕜 E, StableAt g y → Reach (c y) (cosampBody phi n lstsq y K) (cosampInit phi n lstsq y K) (g y) → ∀ᶠ y' in 𝓝 y, (c y' (g y') ↔ c y (g y))) (ε : ℝ) (he : 0 < ε) :
    ∀ᶠ y' in 𝓝 y, ∀ s', Out (c y') (cosampBody phi n lstsq y' K) (cosampInit phi n lstsq y' K) s' → Agree ε s s' := by
  refine result_near (f := fun y => cosampBody phi n lstsq y K) (s0 := fun y => cosampInit phi n lstsq y K) (clear := CosampClear phi n lstsq y K) h ?_ (fun g hg hc => ?_) hclear hcond ε he
  · have hL := largest_const (cont_corr (𝕜 := 𝕜) phi n (continuousAt_id (x := y))) h0
    have hx := lstsq_const phi lstsq hls hL h1
    have hA := largest_const hx h2
    refine stable_mk phi (I := fun y' => (gather 0 (largestIndices (corr 𝕜 phi n y') (K + 2 * K)) (largestIndices (lstsq (largestIndices (corr 𝕜 phi n y') (K + 2 * K)) y') K)).mergeSort) (Ip := fun _ => List.range K) (it := fun _ => 1) ?_
      (Eventually.of_forall fun _ => rfl) (gather_const hx hA) (Eventually.of_forall fun _ => rfl)
    filter_upwards [hL, hA] with y' a b
    simp only [id] at a b
    rw [b, a]
  · obtain ⟨c1, c2, c3⟩ := hc
    have hz : ListCont (fun y' => zeroAt (corr 𝕜 phi n (g y').r) (g y').I) y :=
      cont_congr (cont_zeroAt (cont_corr phi n hg.r) (g y).I) (hg.I.mono fun y' h => by simp only [h])
    have hJ : ∀ᶠ y' in 𝓝 y, (g y').I ++ largestIndices (zeroAt (corr 𝕜 phi n (g y').r) (g y').I) (2 * K) = (g y).I ++ largestIndices (zeroAt (corr 𝕜 phi n (g y).r) (g y).I) (2 * K) := by
      filter_upwards [hg.I, largest_const hz c1] with y' a b
      rw [b, a]
    have hxp := lstsq_const phi lstsq hls hJ c2
    have hA := largest_const hxp c3
    refine stable_mk phi (I := fun y' => gather 0 ((g y').I ++ largestIndices (zeroAt (corr 𝕜 phi n (g y').r) (g y').I) (2 * K))
      (largestIndices (lstsq ((g y').I ++ largestIndices (zeroAt (corr 𝕜 phi n (g y').r) (g y').I) (2 * K)) y') K)) ?_ hg.I (gather_const hxp hA) (hg.iters.mono fun y' h => by rw [h])
    filter_upwards [hJ, hA] with y' a b
    rw [b, a]

/-- **C171** (CoSaMP, `matrix_solve`). -/
theorem c171_cosamp (phi : ℕ → E) (n : ℕ) (lstsq : List ℕ → E → List 𝕜) (hls : ∀ I y, IsLstsq phi I y (lstsq I y)) (y : E) (K maxIters : ℕ) (rtol : ℝ) (s : GState 𝕜 E)
    (h : CosampMatrixSolve phi n lstsq y K maxIters rtol s) (h0 : NoTies (corr 𝕜 phi n y) (K + 2 * K)) (h1 : Indep 𝕜 phi (largestIndices (corr 𝕜 phi n y) (K + 2 * K)))
    (h2 : NoTies (lstsq (largestIndices (corr 𝕜 phi n y) (K + 2 * K)) y) K)
    (hrun : ∀ t : GState 𝕜 E, Reach (plainCond (‖y‖ ^ 2 * rtol ^ 2) maxIters) (cosampBody phi n lstsq y K) (cosampInit phi n lstsq y K) t →
      t.rr ≠ ‖y‖ ^ 2 * rtol ^ 2 ∧ (plainCond (‖y‖ ^ 2 * rtol ^ 2) maxIters t → CosampClear phi n lstsq y K t)) (ε : ℝ) (he : 0 < ε) :
    ∀ᶠ y' in 𝓝 y, ∀ s' : GState 𝕜 E, CosampMatrixSolve phi n lstsq y' K maxIters rtol s' → Agree ε s s' :=
  cosamp_near phi n lstsq hls y K (c := fun y => plainCond (‖y‖ ^ 2 * rtol ^ 2) maxIters) h h0 h1 h2 (fun t ht hc => (hrun t ht).2 hc)
    (fun g hg hr => cond_plain hg (cont_tol rtol y) maxIters (hrun _ hr).1) ε he

/-! ## The operator versions of subspace pursuit and CoSaMP -/

theorem cont_unit {y : E} (hy : y ≠ 0) : ContinuousAt (fun y' : E => ((1 / ‖y'‖ : ℝ) : 𝕜) • y') y := by
  have h : ContinuousAt (fun y' : E => (1 / ‖y'‖ : ℝ)) y := continuousAt_const.div continuous_norm.continuousAt (norm_ne_zero_iff.2 hy)
  exact (RCLike.continuous_ofReal.continuousAt.comp h).smul continuousAt_id

theorem scaled_near {V : Type*} [SeminormedAddCommGroup V] [Module 𝕜 V] [NormSMulClass 𝕜 V] {a b C δ ε : ℝ} {u v : V} (ha : 0 ≤ a) (hv : ‖v‖ ≤ C) (hC : 0 ≤ C) (hab : |b - a| ≤ 1) (hab' : |b - a| * C < ε / 2) (hd : (a + 1) * δ ≤ ε / 2)
    (h : ‖u - v‖ < δ) : ‖(b : 𝕜) • u - (a : 𝕜) • v‖ < ε := by
  have e : (b : 𝕜) • u - (a : 𝕜) • v = (b : 𝕜) • (u - v) + ((b - a : ℝ) : 𝕜) • v := by
    rw [smul_sub, RCLike.ofReal_sub, sub_smul]; abel
  have hb : |b| ≤ a + 1 := by
    have := abs_sub_abs_le_abs_sub b a
    rw [abs_of_nonneg ha] at this
    linarith
  calc _ ≤ |b| * ‖u - v‖ + |b - a| * ‖v‖ := by
        rw [e]
        refine (norm_add_le _ _).trans ?_
        rw [norm_smul, norm_smul, RCLike.norm_ofReal, RCLike.norm_ofReal]
    _ ≤ (a + 1) * δ + |b - a| * C := add_le_add (mul_le_mul hb h.le (norm_nonneg _) (by linarith)) (mul_le_mul_of_nonneg_left hv (abs_nonneg _))
    _ < ε := by linarith

theorem getD_scaled (a : 𝕜) (x : List 𝕜) (j : ℕ) : (x.map fun c => a * c).getD j 0 = a • x.getD j 0 := by
  rw [List.getD_eq_getElem?_getD, List.getD_eq_getElem?_getD, List.getElem?_map]
  cases x[j]? <;> simp

theorem getD_le_sum (x : List 𝕜) (j : ℕ) : ‖x.getD j 0‖ ≤ (x.map fun c => ‖c‖).sum := by
  induction x generalizing j with
  | nil => simp
  | cons c x ih =>
    have h0 : 0 ≤ (x.map fun c => ‖c‖).sum := List.sum_nonneg fun v hv => by
      obtain ⟨w, -, rfl⟩ := List.mem_map.1 hv
      exact norm_nonneg w
    cases j with
    | zero => simpa using h0
    | succ j => simpa using (ih j).trans (le_add_of_nonneg_left (norm_nonneg c))

/-- Results on the normalised data that are near give results on the data that are near. -/
theorem rescale_near {P : E → GState 𝕜 E → Prop} {y : E} (hy : y ≠ 0) {t : GState 𝕜 E}
    (h : ∀ ε : ℝ, 0 < ε → ∀ᶠ z in 𝓝 (((1 / ‖y‖ : ℝ) : 𝕜) • y), ∀ t', P z t' → Agree ε t t') (ε : ℝ) (he : 0 < ε) :
    ∀ᶠ y' in 𝓝 y, ∀ t', P (((1 / ‖y'‖ : ℝ) : 𝕜) • y') t' → Agree ε (rescale ‖y‖ t) (rescale ‖y'‖ t') := by
  set C := ‖t.r‖ + (t.x.map fun c => ‖c‖).sum with hCd
  have hx0 : 0 ≤ (t.x.map fun c => ‖c‖).sum := (norm_nonneg _).trans (getD_le_sum t.x 0)
  have hC : 0 ≤ C := add_nonneg (norm_nonneg _) hx0
  have hy0 : 0 < ‖y‖ + 1 := by positivity
  have h1 := (cont_unit (𝕜 := 𝕜) hy).eventually (h (ε / 2 / (‖y‖ + 1)) (by positivity))
  have h2 : ∀ᶠ y' in 𝓝 y, |‖y'‖ - ‖y‖| < min 1 (ε / 2 / (C + 1)) := by
    have := (Metric.tendsto_nhds.1 ((continuous_norm (E := E)).continuousAt : Tendsto (fun y' : E => ‖y'‖) (𝓝 y) (𝓝 ‖y‖))) (min 1 (ε / 2 / (C + 1))) (by positivity)
    filter_upwards [this] with y' h'
    rwa [Real.dist_eq] at h'
  filter_upwards [h1, h2] with y' a b t' ht'
  obtain ⟨c1, c2, c3, c4, c5⟩ := a t' ht'
  have b1 : |‖y'‖ - ‖y‖| ≤ 1 := (b.trans_le (min_le_left _ _)).le
  have b2 : |‖y'‖ - ‖y‖| * C < ε / 2 := by
    have := b.trans_le (min_le_right _ _)
    rw [lt_div_iff₀ (by linarith)] at this
    nlinarith [abs_nonneg (‖y'‖ - ‖y‖)]
  have hd : (‖y‖ + 1) * (ε / 2 / (‖y‖ + 1)) ≤ ε / 2 := by rw [mul_div_cancel₀ _ hy0.ne']
  refine ⟨c1, c2, by simpa [rescale] using c3, scaled_near (norm_nonneg y) (by rw [hCd]; linarith) hC b1 b2 hd c4, fun j => ?_⟩
  show ‖(t'.x.map fun c => ((‖y'‖ : ℝ) : 𝕜) * c).getD j 0 - (t.x.map fun c => ((‖y‖ : ℝ) : 𝕜) * c).getD j 0‖ < ε
  rw [getD_scaled, getD_scaled]
  exact scaled_near (norm_nonneg y) ((getD_le_sum t.x j).trans (by rw [hCd]; linarith [norm_nonneg t.r])) hC b1 b2 hd (c5 j)

/-- **C171** (subspace pursuit, `operator_solve`) the conditions are on the run on the normalised data `y / |y|`. -/
theorem c171_sp_operator (phi : ℕ → E) (n : ℕ) (lstsq : List ℕ → E → List 𝕜) (hls : ∀ I y, IsLstsq phi I y (lstsq I y)) (y : E) (hy : y ≠ 0) (K maxIters : ℕ) (rtol : ℝ) (s : GState 𝕜 E)
    (h : SpOperatorSolve phi n lstsq y K maxIters rtol s) (z : E) (hz : z = ((1 / ‖y‖ : ℝ) : 𝕜) • y) (h0 : NoTies (corr 𝕜 phi n z) K) (h1 : Indep 𝕜 phi (largestIndices (corr 𝕜 phi n z) K))
    (hrun : ∀ t : GState 𝕜 E, Reach (supportCond (rtol ^ 2) maxIters K) (spBody phi n lstsq z K) (spInit phi n lstsq z K) t →
      t.rr ≠ rtol ^ 2 ∧ (supportCond (rtol ^ 2) maxIters K t → SpClear phi n lstsq z K t)) (ε : ℝ) (he : 0 < ε) :
    ∀ᶠ y' in 𝓝 y, ∀ s' : GState 𝕜 E, SpOperatorSolve phi n lstsq y' K maxIters rtol s' → Agree ε s s' := by
  subst hz
  obtain ⟨t, ht, rfl⟩ := h
  have key := rescale_near (P := fun z t' => Out (supportCond (rtol ^ 2) maxIters K) (spBody phi n lstsq z K) (spInit phi n lstsq z K) t') hy (t := t)
    (fun δ hδ => sp_near phi n lstsq hls _ K (c := fun _ => supportCond (rtol ^ 2) maxIters K) ht h0 h1 (fun t ht hc => (hrun t ht).2 hc)
      (fun g hg hr => cond_support hg continuousAt_const maxIters K (hrun _ hr).1) δ hδ) ε he
  filter_upwards [key] with y' hk s' hs'
  obtain ⟨t', ht', rfl⟩ := hs'
  exact hk t' ht'

/-- **C171** (CoSaMP, `operator_solve`). -/
theorem c171_cosamp_operator (phi : ℕ → E) (n : ℕ) (lstsq : List ℕ → E → List 𝕜) (hls : ∀ I y, IsLstsq phi I y (lstsq I y)) (y : E) (hy : y ≠ 0) (K maxIters : ℕ) (rtol : ℝ) (s : GState 𝕜 E)
    (h : CosampOperatorSolve phi n lstsq y K maxIters rtol s) (z : E) (hz : z = ((1 / ‖y‖ : ℝ) : 𝕜) • y) (h0 : NoTies (corr 𝕜 phi n z) (K + 2 * K)) (h1 : Indep 𝕜 phi (largestIndices (corr 𝕜 phi n z) (K + 2 * K)))
    (h2 : NoTies (lstsq (largestIndices (corr 𝕜 phi n z) (K + 2 * K)) z) K)
    (hrun : ∀ t : GState 𝕜 E, Reach (supportCond (rtol ^ 2) maxIters K) (cosampBody phi n lstsq z K) (cosampInit phi n lstsq z K) t →
      t.rr ≠ rtol ^ 2 ∧ (supportCond (rtol ^ 2) maxIters K t → CosampClear phi n lstsq z K t)) (ε : ℝ) (he : 0 < ε) :
    ∀ᶠ y' in 𝓝 y, ∀ s' : GState 𝕜 E, CosampOperatorSolve phi n lstsq y' K maxIters rtol s' → Agree ε s s' := by
  subst hz
  obtain ⟨t, ht, rfl⟩ := h
  have key := rescale_near (P := fun z t' => Out (supportCond (rtol ^ 2) maxIters K) (cosampBody phi n lstsq z K) (cosampInit phi n lstsq z K) t') hy (t := t)
    (fun δ hδ => cosamp_near phi n lstsq hls _ K (c := fun _ => supportCond (rtol ^ 2) maxIters K) ht h0 h1 h2 (fun t ht hc => (hrun t ht).2 hc)
      (fun g hg hr => cond_support hg continuousAt_const maxIters K (hrun _ hr).1) δ hδ) ε he
  filter_upwards [key] with y' hk s' hs'
  obtain ⟨t', ht', rfl⟩ := hs'
  exact hk t' ht'

/-! ## The hypotheses are met -/

/-- A list of positions in strictly decreasing order of magnitude, above all the others, is what the selection returns, without ties. -/
theorem largest_eq {h : List 𝕜} {K : ℕ} {L : List ℕ} (hlen : L.length = min K h.length) (hlt : ∀ i ∈ L, i < h.length) (hord : L.Pairwise fun i j => ‖h.getD j 0‖ < ‖h.getD i 0‖)
    (hout : ∀ i ∈ L, ∀ j, j < h.length → j ∉ L → ‖h.getD j 0‖ < ‖h.getD i 0‖) : largestIndices h K = L ∧ NoTies h K := by
  obtain ⟨a1, a2, a3, a4, a5⟩ := c51_largest_indices h K
  have hn : L.Nodup := hord.imp fun h e => by rw [e] at h; exact lt_irrefl _ h
  have hinj : ∀ i ∈ L, ∀ j ∈ L, j ≠ i → ‖h.getD j 0‖ ≠ ‖h.getD i 0‖ := fun i hi j hj hne => by
    haveI : Std.Symm fun i j : ℕ => ‖h.getD j 0‖ ≠ ‖h.getD i 0‖ := ⟨fun _ _ h => h.symm⟩
    exact List.Pairwise.forall (R := fun i j => ‖h.getD j 0‖ ≠ ‖h.getD i 0‖) (hord.imp fun h => h.ne) hi hj hne.symm
  have hsub : largestIndices h K ⊆ L := by
    intro i' hi'
    by_contra hni
    have : ¬ L ⊆ largestIndices h K := fun hss => hni (((hn.subperm hss).perm_of_length_le (by rw [a2, hlen])).mem_iff.2 hi')
    obtain ⟨i, hi, hni'⟩ := Set.not_subset.1 (fun hh => this fun x hx => hh hx : ¬ {x | x ∈ L} ⊆ {x | x ∈ largestIndices h K})
    exact absurd (hout i hi i' (a3 i' hi') hni) (not_lt.2 (a5 i' hi' i (hlt i hi) hni'))
  have hperm : (largestIndices h K).Perm L := (a1.subperm hsub).perm_of_length_le (by rw [a2, hlen])
  have heq : largestIndices h K = L := by
    refine List.Perm.eq_of_pairwise (le := fun i j => ‖h.getD j 0‖ ≤ ‖h.getD i 0‖) (fun i j hi hj h1 h2 => ?_) a4 (hord.imp fun h => h.le) hperm
    by_contra hne
    exact hinj i (hsub hi) j hj (Ne.symm hne) (le_antisymm h1 h2)
  refine ⟨heq, fun i hi j hj hne => ?_⟩
  rw [heq] at hi
  by_cases hjL : j ∈ L
  · exact hinj i hi j hjL hne
  · exact (hout i hi j hj hjL).ne

/-- The three unit vectors of space. -/
def axes (i : ℕ) : EuclideanSpace ℝ (Fin 3) := if h : i < 3 then EuclideanSpace.single ⟨i, h⟩ 1 else 0

theorem axes_corr (z : EuclideanSpace ℝ (Fin 3)) : corr ℝ axes 3 z = [z 0, z 1, z 2] := by
  simp only [corr, List.range_succ, List.range_zero, List.nil_append, List.cons_append, List.map_cons, List.map_nil]
  simp [axes, EuclideanSpace.inner_single_left]

theorem axes_inner (i : ℕ) (hi : i < 3) (z : EuclideanSpace ℝ (Fin 3)) : inner ℝ (axes i) z = z ⟨i, hi⟩ := by simp [axes, hi, EuclideanSpace.inner_single_left]

theorem axes_indep {I : List ℕ} (hn : I.Nodup) (hI : ∀ i ∈ I, i < 3) : Indep ℝ axes I := by
  intro c hc
  funext k
  have h := congrArg (fun z : EuclideanSpace ℝ (Fin 3) => z ⟨I.get k, hI _ (List.get_mem I k)⟩) hc
  simp only [WithLp.ofLp_sum, Finset.sum_apply, WithLp.ofLp_smul, Pi.smul_apply, WithLp.ofLp_zero, Pi.zero_apply, smul_eq_mul] at h
  rw [Finset.sum_eq_single k] at h
  · simp only [axes, hI _ (List.get_mem I k), dite_true] at h
    simpa using h
  · intro l _ hl
    have hne : I.get k ≠ I.get l := fun e => hl ((List.nodup_iff_injective_get.1 hn) e).symm
    simp only [axes, hI _ (List.get_mem I l), dite_true]
    simp only [EuclideanSpace.single_apply, Fin.mk.injEq]
    rw [if_neg hne, mul_zero]
  · simp

/-- Least squares on the first axis and on all three. -/
theorem axes_lstsq1 {z : EuclideanSpace ℝ (Fin 3)} {x : List ℝ} (h : IsLstsq axes [0] z x) : x = [z 0] := by
  obtain ⟨a, rfl⟩ := List.length_eq_one_iff.1 h.length
  have := h.normal 0 (by simp)
  rw [axes_inner 0 (by norm_num)] at this
  simp [lin, axes] at this
  rw [sub_eq_zero] at this
  rw [← this]

theorem axes_lstsq2 {z : EuclideanSpace ℝ (Fin 3)} {x : List ℝ} (h : IsLstsq axes [0, 1] z x) : x = [z 0, z 1] := by
  obtain ⟨a, b, rfl⟩ := List.length_eq_two.1 h.length
  have h0 := h.normal 0 (by simp)
  have h1 := h.normal 1 (by simp)
  rw [axes_inner _ (by norm_num)] at h0 h1
  simp [lin, axes] at h0 h1
  rw [sub_eq_zero] at h0 h1
  rw [← h0, ← h1]

theorem axes_lstsq3 {z : EuclideanSpace ℝ (Fin 3)} {x : List ℝ} (h : IsLstsq axes [0, 1, 2] z x) : x = [z 0, z 1, z 2] := by
  obtain ⟨a, b, c, rfl⟩ := List.length_eq_three.1 h.length
  have h0 := h.normal 0 (by simp)
  have h1 := h.normal 1 (by simp)
  have h2 := h.normal 2 (by simp)
  rw [axes_inner _ (by norm_num)] at h0 h1 h2
  simp [lin, axes] at h0 h1 h2
  rw [sub_eq_zero] at h0 h1 h2
  rw [← h0, ← h1, ← h2]

/-- Data whose first coordinate is the largest and whose last is the smallest, all positive. -/
structure Descending (z : EuclideanSpace ℝ (Fin 3)) : Prop where
  h01 : z 1 < z 0
  h12 : z 2 < z 1
  h2 : 0 < z 2

theorem forall_lt_three {P : ℕ → Prop} (h0 : P 0) (h1 : P 1) (h2 : P 2) : ∀ j, j < 3 → P j := fun j hj => by
  have : j = 0 ∨ j = 1 ∨ j = 2 := by omega
  rcases this with rfl | rfl | rfl <;> assumption

/-- The selections met on the way. -/
theorem select_first {a b c : ℝ} (h1 : b < a) (h2 : c < b) (h3 : 0 < c) : largestIndices [a, b, c] 1 = [0] ∧ NoTies [a, b, c] 1 := by
  have n1 : |a| = a := abs_of_pos (by linarith)
  have n2 : |b| = b := abs_of_pos (by linarith)
  have n3 : |c| = c := abs_of_pos (by linarith)
  refine largest_eq (by simp) (by simp) (by simp) (fun i hi j => ?_)
  obtain rfl := List.mem_singleton.1 hi
  revert j
  refine forall_lt_three ?_ ?_ ?_ <;> simp [n1, n2, n3] <;> linarith

theorem select_all {a b c : ℝ} (h1 : b < a) (h2 : c < b) (h3 : 0 < c) : largestIndices [a, b, c] 3 = [0, 1, 2] ∧ NoTies [a, b, c] 3 := by
  have n1 : |a| = a := abs_of_pos (by linarith)
  have n2 : |b| = b := abs_of_pos (by linarith)
  have n3 : |c| = c := abs_of_pos (by linarith)
  refine largest_eq (by simp) (by simp) ?_ (fun i hi j hj hn => ?_)
  · simp [n1, n2, n3]; refine ⟨⟨?_, ?_⟩, ?_⟩ <;> linarith
  · exfalso; simp at hj hn; omega

theorem select_rest {b c : ℝ} (h2 : c < b) (h3 : 0 < c) : (largestIndices [0, b, c] 1 = [1] ∧ NoTies [0, b, c] 1) ∧ largestIndices [0, b, c] 2 = [1, 2] ∧ NoTies [0, b, c] 2 := by
  have n2 : |b| = b := abs_of_pos (by linarith)
  have n3 : |c| = c := abs_of_pos (by linarith)
  refine ⟨largest_eq (by simp) (by simp) (by simp) (fun i hi j => ?_), largest_eq (by simp) (by simp) ?_ (fun i hi j => ?_)⟩
  · obtain rfl := List.mem_singleton.1 hi
    revert j
    refine forall_lt_three ?_ ?_ ?_ <;> simp [n2, n3] <;> linarith
  · simp [n2, n3]; linarith
  · revert j
    have hi' : i = 1 ∨ i = 2 := by simpa using hi
    rcases hi' with rfl | rfl <;> refine forall_lt_three ?_ ?_ ?_ <;> simp [n2, n3] <;> linarith

theorem select_pair {a b : ℝ} (h1 : b < a) (h2 : 0 < b) : largestIndices [a, b] 1 = [0] ∧ NoTies [a, b] 1 := by
  have n1 : |a| = a := abs_of_pos (by linarith)
  have n2 : |b| = b := abs_of_pos (by linarith)
  refine largest_eq (by simp) (by simp) (by simp) (fun i hi j hj => ?_)
  obtain rfl := List.mem_singleton.1 hi
  have : j = 0 ∨ j = 1 := by simp at hj; omega
  rcases this with rfl | rfl <;> simp [n1, n2] ; linarith

/-- The state all four runs stay in (`K = 1`). -/
structure AtFirst (z : EuclideanSpace ℝ (Fin 3)) (t : GState ℝ (EuclideanSpace ℝ (Fin 3))) : Prop where
  I : t.I = [0]
  x : t.x = [z 0]
  r0 : t.r 0 = 0
  r1 : t.r 1 = z 1
  r2 : t.r 2 = z 2
  rr : 0 < t.rr

theorem atFirst_mk {z : EuclideanSpace ℝ (Fin 3)} (hz : Descending z) (it : ℕ) (Ip : List ℕ) : AtFirst z (mkState axes z [0] [z 0] it Ip) := by
  have e : (z - lin axes [0] [z 0]) 1 = z 1 := by simp [lin, axes]
  refine ⟨rfl, rfl, by simp [mkState, lin, axes], e, by simp [mkState, lin, axes], ?_⟩
  have : z - lin axes [0] [z 0] ≠ 0 := fun h => by
    rw [h] at e
    have : (0 : ℝ) = z 1 := e
    linarith [hz.h12, hz.h2]
  show 0 < ‖z - lin axes [0] [z 0]‖ ^ 2
  positivity

theorem grad_first {z : EuclideanSpace ℝ (Fin 3)} {t : GState ℝ (EuclideanSpace ℝ (Fin 3))} (h : AtFirst z t) : gradStep 3 t.I t.x 1 (corr ℝ axes 3 t.r) = [z 0, z 1, z 2] := by
  rw [axes_corr, h.I, h.x, h.r0, h.r1, h.r2]
  simp [gradStep, List.range_succ, buildSignal]

theorem grad_init (z : EuclideanSpace ℝ (Fin 3)) : gradStep 3 [] [] 1 (corr ℝ axes 3 z) = [z 0, z 1, z 2] := by
  rw [axes_corr]
  simp [gradStep, List.range_succ, buildSignal]

theorem zero_first {z : EuclideanSpace ℝ (Fin 3)} {t : GState ℝ (EuclideanSpace ℝ (Fin 3))} (h : AtFirst z t) : zeroAt (corr ℝ axes 3 t.r) [0] = [0, z 1, z 2] := by
  rw [axes_corr, h.r0, h.r1, h.r2]
  simp [zeroAt, List.range_succ]

theorem exists_lstsq_fun (phi : ℕ → E) : ∃ lstsq : List ℕ → E → List 𝕜, ∀ I y, IsLstsq phi I y (lstsq I y) :=
  ⟨fun I y => (exists_lstsq phi I y).choose, fun I y => (exists_lstsq phi I y).choose_spec⟩

theorem ihtInit_first {z : EuclideanSpace ℝ (Fin 3)} (hz : Descending z) : AtFirst z (ihtInit axes 3 1 z 1) := by
  have e : ihtInit (𝕜 := ℝ) axes 3 1 z 1 = mkState axes z [0] [z 0] 1 (List.range 1) := by
    simp only [ihtInit, hardThresholdK, grad_init, (select_first hz.h01 hz.h12 hz.h2).1, gather, List.map_cons, List.map_nil]
    rfl
  rw [e]; exact atFirst_mk hz _ _

/-- IHT on descending data (`K = 1`, `step_size = 1`, no tolerance): five iterations without a tie. -/
theorem iht_met {z : EuclideanSpace ℝ (Fin 3)} (hz : Descending z) : NoTies (gradStep 3 [] [] 1 (corr ℝ axes 3 z)) 1 ∧
    ∀ t : GState ℝ (EuclideanSpace ℝ (Fin 3)), Reach (plainCond (‖z‖ ^ 2 * 0 ^ 2) 5) (ihtBody axes 3 1 z 1) (ihtInit axes 3 1 z 1) t →
      t.rr ≠ ‖z‖ ^ 2 * 0 ^ 2 ∧ (plainCond (‖z‖ ^ 2 * 0 ^ 2) 5 t → NoTies (gradStep 3 t.I t.x 1 (corr ℝ axes 3 t.r)) 1) := by
  have hs := select_first hz.h01 hz.h12 hz.h2
  refine ⟨by rw [grad_init]; exact hs.2, fun t ht => ?_⟩
  have hf : AtFirst z t := ht.inv (AtFirst z) (ihtInit_first hz) fun t h _ => by
    have e : ihtBody axes 3 1 z 1 t = mkState axes z [0] [z 0] (t.iters + 1) t.I := by
      simp only [ihtBody, hardThresholdK, grad_first h, hs.1, gather, List.map_cons, List.map_nil]
      rfl
    rw [e]; exact atFirst_mk hz _ _
  exact ⟨by have := hf.rr; norm_num; exact this.ne', fun _ => by rw [grad_first hf]; exact hs.2⟩

example (ε : ℝ) (he : 0 < ε) : ∃ s : GState ℝ (EuclideanSpace ℝ (Fin 3)), IhtSolve axes 3 1 (!₂[(3 : ℝ), 2, 1]) 1 5 0 s ∧
    ∀ᶠ y' in 𝓝 (!₂[(3 : ℝ), 2, 1]), ∀ s' : GState ℝ (EuclideanSpace ℝ (Fin 3)), IhtSolve axes 3 1 y' 1 5 0 s' → Agree ε s s' := by
  have hz : Descending (!₂[(3 : ℝ), 2, 1]) := ⟨show (2 : ℝ) < 3 by norm_num, show (1 : ℝ) < 2 by norm_num, show (0 : ℝ) < 1 by norm_num⟩
  obtain ⟨s, hs⟩ := exists_out (c := plainCond (‖(!₂[(3 : ℝ), 2, 1])‖ ^ 2 * 0 ^ 2) 5) (f := ihtBody axes 3 1 (!₂[(3 : ℝ), 2, 1]) 1) (s0 := ihtInit (𝕜 := ℝ) axes 3 1 (!₂[(3 : ℝ), 2, 1]) 1) (·.iters) 5
    (fun s h => h.2) (fun s => Nat.lt_succ_self _)
  exact ⟨s, hs, c171_iht axes 3 1 _ 1 5 0 s hs (iht_met hz).1 (iht_met hz).2 ε he⟩

/-- HTP on the same data. -/
theorem htp_met {z : EuclideanSpace ℝ (Fin 3)} (hz : Descending z) (lstsq : List ℕ → EuclideanSpace ℝ (Fin 3) → List ℝ) (hls : ∀ I y, IsLstsq axes I y (lstsq I y)) (t : GState ℝ (EuclideanSpace ℝ (Fin 3)))
    (ht : Reach (supportCond (‖z‖ ^ 2 * 0 ^ 2) 5 1) (htpBody axes 3 1 lstsq z 1) (ihtInit axes 3 1 z 1) t) :
    t.rr ≠ ‖z‖ ^ 2 * 0 ^ 2 ∧ (supportCond (‖z‖ ^ 2 * 0 ^ 2) 5 1 t → NoTies (gradStep 3 t.I t.x 1 (corr ℝ axes 3 t.r)) 1 ∧
      Indep ℝ axes (hardThresholdSorted (gradStep 3 t.I t.x 1 (corr ℝ axes 3 t.r)) 1).1) := by
  have hs := select_first hz.h01 hz.h12 hz.h2
  have hI : (hardThresholdSorted [z 0, z 1, z 2] 1).1 = [0] := by
    simp only [hardThresholdSorted, hs.1, List.mergeSort_singleton]
  have hf : AtFirst z t := ht.inv (AtFirst z) (ihtInit_first hz) fun t h _ => by
    have e : htpBody axes 3 1 lstsq z 1 t = mkState axes z [0] [z 0] (t.iters + 1) t.I := by
      simp only [htpBody, grad_first h, hI, axes_lstsq1 (hls [0] z)]
    rw [e]; exact atFirst_mk hz _ _
  refine ⟨by have := hf.rr; norm_num; exact this.ne', fun _ => ?_⟩
  rw [grad_first hf, hI]
  exact ⟨hs.2, axes_indep (by simp) (by simp)⟩

example (ε : ℝ) (he : 0 < ε) : ∃ (lstsq : List ℕ → EuclideanSpace ℝ (Fin 3) → List ℝ) (s : GState ℝ (EuclideanSpace ℝ (Fin 3))), HtpSolve axes 3 1 lstsq (!₂[(3 : ℝ), 2, 1]) 1 5 0 s ∧
    ∀ᶠ y' in 𝓝 (!₂[(3 : ℝ), 2, 1]), ∀ s' : GState ℝ (EuclideanSpace ℝ (Fin 3)), HtpSolve axes 3 1 lstsq y' 1 5 0 s' → Agree ε s s' := by
  have hz : Descending (!₂[(3 : ℝ), 2, 1]) := ⟨show (2 : ℝ) < 3 by norm_num, show (1 : ℝ) < 2 by norm_num, show (0 : ℝ) < 1 by norm_num⟩
  obtain ⟨lstsq, hls⟩ := exists_lstsq_fun (𝕜 := ℝ) axes
  obtain ⟨s, hs⟩ := exists_out (c := supportCond (‖(!₂[(3 : ℝ), 2, 1])‖ ^ 2 * 0 ^ 2) 5 1) (f := htpBody axes 3 1 lstsq (!₂[(3 : ℝ), 2, 1]) 1) (s0 := ihtInit (𝕜 := ℝ) axes 3 1 (!₂[(3 : ℝ), 2, 1]) 1) (·.iters) 5
    (fun s h => h.1.2) (fun s => Nat.lt_succ_self _)
  exact ⟨lstsq, s, hs, c171_htp axes 3 1 lstsq hls _ 1 5 0 s hs (iht_met hz).1 (htp_met hz lstsq hls) ε he⟩

/-- Subspace pursuit on descending data: no tie before the loop or in a pass, whatever the stopping rule. -/
theorem sp_met {z : EuclideanSpace ℝ (Fin 3)} (hz : Descending z) (lstsq : List ℕ → EuclideanSpace ℝ (Fin 3) → List ℝ) (hls : ∀ I y, IsLstsq axes I y (lstsq I y)) :
    (NoTies (corr ℝ axes 3 z) 1 ∧ Indep ℝ axes (largestIndices (corr ℝ axes 3 z) 1)) ∧ ∀ (c : GState ℝ (EuclideanSpace ℝ (Fin 3)) → Prop) (t : GState ℝ (EuclideanSpace ℝ (Fin 3))),
      Reach c (spBody axes 3 lstsq z 1) (spInit axes 3 lstsq z 1) t → 0 < t.rr ∧ SpClear axes 3 lstsq z 1 t := by
  have hs := select_first hz.h01 hz.h12 hz.h2
  have hr := (select_rest hz.h12 hz.h2).1
  have hp := select_pair hz.h01 (hz.h2.trans hz.h12)
  refine ⟨by rw [axes_corr, hs.1]; exact ⟨hs.2, axes_indep (by simp) (by simp)⟩, fun c t ht => ?_⟩
  have hf : AtFirst z t := ht.inv (AtFirst z) (by
    have e : spInit axes 3 lstsq z 1 = mkState axes z [0] [z 0] 1 (List.range 1) := by
      simp only [spInit, axes_corr, hs.1, axes_lstsq1 (hls [0] z)]
    rw [e]; exact atFirst_mk hz _ _) fun t h _ => by
    have e : spBody axes 3 lstsq z 1 t = mkState axes z [0] [z 0] (t.iters + 1) t.I := by
      simp only [spBody, zero_first h, hr.1, h.I, List.cons_append, List.nil_append, axes_lstsq2 (hls [0, 1] z), hp.1]
      show mkState axes z [0] (lstsq [0] z) _ _ = _
      rw [axes_lstsq1 (hls [0] z)]
    rw [e]; exact atFirst_mk hz _ _
  refine ⟨hf.rr, ?_⟩
  simp only [SpClear, zero_first hf, hr.1, hf.I, List.cons_append, List.nil_append, axes_lstsq2 (hls [0, 1] z), hp.1]
  exact ⟨hr.2, axes_indep (by simp) (by simp), hp.2, axes_indep (by simp [gather]) (by simp [gather])⟩

example (ε : ℝ) (he : 0 < ε) : ∃ (lstsq : List ℕ → EuclideanSpace ℝ (Fin 3) → List ℝ) (s : GState ℝ (EuclideanSpace ℝ (Fin 3))), SpMatrixSolve axes 3 lstsq (!₂[(3 : ℝ), 2, 1]) 1 5 0 s ∧
    ∀ᶠ y' in 𝓝 (!₂[(3 : ℝ), 2, 1]), ∀ s' : GState ℝ (EuclideanSpace ℝ (Fin 3)), SpMatrixSolve axes 3 lstsq y' 1 5 0 s' → Agree ε s s' := by
  have hz : Descending (!₂[(3 : ℝ), 2, 1]) := ⟨show (2 : ℝ) < 3 by norm_num, show (1 : ℝ) < 2 by norm_num, show (0 : ℝ) < 1 by norm_num⟩
  obtain ⟨lstsq, hls⟩ := exists_lstsq_fun (𝕜 := ℝ) axes
  have hm := sp_met hz lstsq hls
  obtain ⟨s, hs⟩ := exists_out (c := plainCond (‖(!₂[(3 : ℝ), 2, 1])‖ ^ 2 * 0 ^ 2) 5) (f := spBody axes 3 lstsq (!₂[(3 : ℝ), 2, 1]) 1) (s0 := spInit axes 3 lstsq (!₂[(3 : ℝ), 2, 1]) 1) (·.iters) 5
    (fun s h => h.2) (fun s => Nat.lt_succ_self _)
  exact ⟨lstsq, s, hs, c171_sp axes 3 lstsq hls _ 1 5 0 s hs hm.1.1 hm.1.2 (fun t ht => ⟨by have := (hm.2 _ t ht).1; norm_num; exact this.ne', fun _ => (hm.2 _ t ht).2⟩) ε he⟩

theorem norm_seven : ‖(!₂[(6 : ℝ), 3, 2])‖ = 7 := by
  rw [EuclideanSpace.norm_eq, Fin.sum_univ_three, Real.sqrt_eq_iff_mul_self_eq (by positivity) (by norm_num)]
  show ‖(6 : ℝ)‖ ^ 2 + ‖(3 : ℝ)‖ ^ 2 + ‖(2 : ℝ)‖ ^ 2 = (7 : ℝ) * 7
  norm_num

theorem descending_unit : Descending (((1 / ‖(!₂[(6 : ℝ), 3, 2])‖ : ℝ) : ℝ) • (!₂[(6 : ℝ), 3, 2])) := by
  rw [norm_seven]
  exact ⟨by simp; norm_num, by simp; norm_num, by simp⟩

theorem data_ne : (!₂[(6 : ℝ), 3, 2]) ≠ 0 := fun h => by
  have := norm_seven
  rw [h, norm_zero] at this
  norm_num at this

example (ε : ℝ) (he : 0 < ε) : ∃ (lstsq : List ℕ → EuclideanSpace ℝ (Fin 3) → List ℝ) (s : GState ℝ (EuclideanSpace ℝ (Fin 3))), SpOperatorSolve axes 3 lstsq (!₂[(6 : ℝ), 3, 2]) 1 5 0 s ∧
    ∀ᶠ y' in 𝓝 (!₂[(6 : ℝ), 3, 2]), ∀ s' : GState ℝ (EuclideanSpace ℝ (Fin 3)), SpOperatorSolve axes 3 lstsq y' 1 5 0 s' → Agree ε s s' := by
  obtain ⟨lstsq, hls⟩ := exists_lstsq_fun (𝕜 := ℝ) axes
  have hm := sp_met descending_unit lstsq hls
  obtain ⟨s, hs⟩ := exists_out (c := supportCond (0 ^ 2) 5 1) (f := spBody axes 3 lstsq (((1 / ‖(!₂[(6 : ℝ), 3, 2])‖ : ℝ) : ℝ) • (!₂[(6 : ℝ), 3, 2])) 1)
    (s0 := spInit axes 3 lstsq (((1 / ‖(!₂[(6 : ℝ), 3, 2])‖ : ℝ) : ℝ) • (!₂[(6 : ℝ), 3, 2])) 1) (·.iters) 5 (fun s h => h.1.2) (fun s => Nat.lt_succ_self _)
  have ho : SpOperatorSolve axes 3 lstsq (!₂[(6 : ℝ), 3, 2]) 1 5 0 (rescale ‖(!₂[(6 : ℝ), 3, 2])‖ s) := ⟨s, hs, rfl⟩
  exact ⟨lstsq, _, ho, c171_sp_operator axes 3 lstsq hls _ data_ne 1 5 0 _ ho _ rfl hm.1.1 hm.1.2 (fun t ht => ⟨by have := (hm.2 _ t ht).1; norm_num; exact this.ne', fun _ => (hm.2 _ t ht).2⟩) ε he⟩

/-- CoSaMP on descending data: no tie before the loop or in a pass, whatever the stopping rule. -/
theorem cosamp_met {z : EuclideanSpace ℝ (Fin 3)} (hz : Descending z) (lstsq : List ℕ → EuclideanSpace ℝ (Fin 3) → List ℝ) (hls : ∀ I y, IsLstsq axes I y (lstsq I y)) :
    (NoTies (corr ℝ axes 3 z) (1 + 2 * 1) ∧ Indep ℝ axes (largestIndices (corr ℝ axes 3 z) (1 + 2 * 1)) ∧ NoTies (lstsq (largestIndices (corr ℝ axes 3 z) (1 + 2 * 1)) z) 1) ∧
    ∀ (c : GState ℝ (EuclideanSpace ℝ (Fin 3)) → Prop) (t : GState ℝ (EuclideanSpace ℝ (Fin 3))),
      Reach c (cosampBody axes 3 lstsq z 1) (cosampInit axes 3 lstsq z 1) t → 0 < t.rr ∧ CosampClear axes 3 lstsq z 1 t := by
  have hs := select_first hz.h01 hz.h12 hz.h2
  have ha := select_all hz.h01 hz.h12 hz.h2
  have hr := (select_rest hz.h12 hz.h2).2
  have h3 : 1 + 2 * 1 = 3 := rfl
  have h2 : 2 * 1 = 2 := rfl
  refine ⟨by rw [axes_corr, h3, ha.1, axes_lstsq3 (hls _ z)]; exact ⟨ha.2, axes_indep (by simp) (by simp), hs.2⟩, fun c t ht => ?_⟩
  have hf : AtFirst z t := ht.inv (AtFirst z) (by
    have e : cosampInit axes 3 lstsq z 1 = mkState axes z [0] [z 0] 1 (List.range 1) := by
      simp only [cosampInit, axes_corr, h3, ha.1, axes_lstsq3 (hls [0, 1, 2] z), hs.1, gather, List.map_cons, List.map_nil, List.mergeSort_singleton]
      rfl
    rw [e]; exact atFirst_mk hz _ _) fun t h _ => by
    have e : cosampBody axes 3 lstsq z 1 t = mkState axes z [0] [z 0] (t.iters + 1) t.I := by
      simp only [cosampBody, zero_first h, h2, hr.1, h.I, List.cons_append, List.nil_append, axes_lstsq3 (hls [0, 1, 2] z), hs.1]
      rfl
    rw [e]; exact atFirst_mk hz _ _
  refine ⟨hf.rr, ?_⟩
  simp only [CosampClear, zero_first hf, h2, hr.1, hf.I, List.cons_append, List.nil_append, axes_lstsq3 (hls [0, 1, 2] z)]
  exact ⟨hr.2, axes_indep (by simp) (by simp), hs.2⟩

example (ε : ℝ) (he : 0 < ε) : ∃ (lstsq : List ℕ → EuclideanSpace ℝ (Fin 3) → List ℝ) (s : GState ℝ (EuclideanSpace ℝ (Fin 3))), CosampMatrixSolve axes 3 lstsq (!₂[(3 : ℝ), 2, 1]) 1 5 0 s ∧
    ∀ᶠ y' in 𝓝 (!₂[(3 : ℝ), 2, 1]), ∀ s' : GState ℝ (EuclideanSpace ℝ (Fin 3)), CosampMatrixSolve axes 3 lstsq y' 1 5 0 s' → Agree ε s s' := by
  have hz : Descending (!₂[(3 : ℝ), 2, 1]) := ⟨show (2 : ℝ) < 3 by norm_num, show (1 : ℝ) < 2 by norm_num, show (0 : ℝ) < 1 by norm_num⟩
  obtain ⟨lstsq, hls⟩ := exists_lstsq_fun (𝕜 := ℝ) axes
  have hm := cosamp_met hz lstsq hls
  obtain ⟨s, hs⟩ := exists_out (c := plainCond (‖(!₂[(3 : ℝ), 2, 1])‖ ^ 2 * 0 ^ 2) 5) (f := cosampBody axes 3 lstsq (!₂[(3 : ℝ), 2, 1]) 1) (s0 := cosampInit axes 3 lstsq (!₂[(3 : ℝ), 2, 1]) 1) (·.iters) 5
    (fun s h => h.2) (fun s => Nat.lt_succ_self _)
  exact ⟨lstsq, s, hs, c171_cosamp axes 3 lstsq hls _ 1 5 0 s hs hm.1.1 hm.1.2.1 hm.1.2.2 (fun t ht => ⟨by have := (hm.2 _ t ht).1; norm_num; exact this.ne', fun _ => (hm.2 _ t ht).2⟩) ε he⟩

example (ε : ℝ) (he : 0 < ε) : ∃ (lstsq : List ℕ → EuclideanSpace ℝ (Fin 3) → List ℝ) (s : GState ℝ (EuclideanSpace ℝ (Fin 3))), CosampOperatorSolve axes 3 lstsq (!₂[(6 : ℝ), 3, 2]) 1 5 0 s ∧
    ∀ᶠ y' in 𝓝 (!₂[(6 : ℝ), 3, 2]), ∀ s' : GState ℝ (EuclideanSpace ℝ (Fin 3)), CosampOperatorSolve axes 3 lstsq y' 1 5 0 s' → Agree ε s s' := by
  obtain ⟨lstsq, hls⟩ := exists_lstsq_fun (𝕜 := ℝ) axes
  have hm := cosamp_met descending_unit lstsq hls
  obtain ⟨s, hs⟩ := exists_out (c := supportCond (0 ^ 2) 5 1) (f := cosampBody axes 3 lstsq (((1 / ‖(!₂[(6 : ℝ), 3, 2])‖ : ℝ) : ℝ) • (!₂[(6 : ℝ), 3, 2])) 1)
    (s0 := cosampInit axes 3 lstsq (((1 / ‖(!₂[(6 : ℝ), 3, 2])‖ : ℝ) : ℝ) • (!₂[(6 : ℝ), 3, 2])) 1) (·.iters) 5 (fun s h => h.1.2) (fun s => Nat.lt_succ_self _)
  have ho : CosampOperatorSolve axes 3 lstsq (!₂[(6 : ℝ), 3, 2]) 1 5 0 (rescale ‖(!₂[(6 : ℝ), 3, 2])‖ s) := ⟨s, hs, rfl⟩
  exact ⟨lstsq, _, ho, c171_cosamp_operator axes 3 lstsq hls _ data_ne 1 5 0 _ ho _ rfl hm.1.1 hm.1.2.1 hm.1.2.2 (fun t ht => ⟨by have := (hm.2 _ t ht).1; norm_num; exact this.ne', fun _ => (hm.2 _ t ht).2⟩) ε he⟩

/-- **C171 needs the condition on ties**: on data with two equal correlations, whatever support IHT returns, arbitrarily near data give another one. -/
theorem c171_tie_fails (s : GState ℝ (EuclideanSpace ℝ (Fin 3))) (h : IhtSolve axes 3 1 (!₂[(1 : ℝ), 1, 0]) 1 1 0 s) (e : ℝ) (he : 0 < e) :
    ∃ y' : EuclideanSpace ℝ (Fin 3), ‖y' - !₂[(1 : ℝ), 1, 0]‖ ≤ e ∧ ∀ s' : GState ℝ (EuclideanSpace ℝ (Fin 3)), IhtSolve axes 3 1 y' 1 1 0 s' → s'.I ≠ s.I := by
  have hinit : ∀ (y : EuclideanSpace ℝ (Fin 3)) (s : GState ℝ (EuclideanSpace ℝ (Fin 3))), IhtSolve axes 3 1 y 1 1 0 s → s.I = largestIndices [y 0, y 1, y 2] 1 := fun y s h => by
    rw [Out.unique h ⟨.init, fun hc => absurd hc.2 (lt_irrefl 1)⟩]
    simp only [ihtInit, hardThresholdK, grad_init, mkState]
  have h0 : ∀ a : ℝ, 1 < a → largestIndices [a, 1, 0] 1 = [0] := fun a ha => by
    have n1 : |a| = a := abs_of_pos (by linarith)
    refine (largest_eq (by simp) (by simp) (by simp) (fun i hi j => ?_)).1
    obtain rfl := List.mem_singleton.1 hi
    revert j
    refine forall_lt_three ?_ ?_ ?_ <;> simp [n1] <;> linarith
  have h1 : ∀ a : ℝ, 1 < a → largestIndices [1, a, 0] 1 = [1] := fun a ha => by
    have n1 : |a| = a := abs_of_pos (by linarith)
    refine (largest_eq (by simp) (by simp) (by simp) (fun i hi j => ?_)).1
    obtain rfl := List.mem_singleton.1 hi
    revert j
    refine forall_lt_three ?_ ?_ ?_ <;> simp [n1] <;> linarith
  by_cases hs : s.I = [0]
  · refine ⟨!₂[1, 1 + e, 0], ?_, fun s' hs' => ?_⟩
    · rw [EuclideanSpace.norm_eq, Fin.sum_univ_three]
      refine Real.sqrt_le_iff.2 ⟨he.le, ?_⟩
      show ‖(1 : ℝ) - 1‖ ^ 2 + ‖1 + e - 1‖ ^ 2 + ‖(0 : ℝ) - 0‖ ^ 2 ≤ e ^ 2
      simp
    · rw [hinit _ _ hs', hs]
      show largestIndices [1, 1 + e, 0] 1 ≠ [0]
      rw [h1 _ (by linarith)]; simp
  · refine ⟨!₂[1 + e, 1, 0], ?_, fun s' hs' => ?_⟩
    · rw [EuclideanSpace.norm_eq, Fin.sum_univ_three]
      refine Real.sqrt_le_iff.2 ⟨he.le, ?_⟩
      show ‖1 + e - 1‖ ^ 2 + ‖(1 : ℝ) - 1‖ ^ 2 + ‖(0 : ℝ) - 0‖ ^ 2 ≤ e ^ 2
      simp
    · rw [hinit _ _ hs']
      show largestIndices [1 + e, 1, 0] 1 ≠ s.I
      rw [h0 _ (by linarith)]; exact fun h => hs h.symm

end Verif.Pursuit
