import Verif.Pursuit.GreedyModel
import Verif.Pursuit.MpProps
import Mathlib.Analysis.InnerProductSpace.PiL2
import Mathlib.Analysis.InnerProductSpace.Projection.FiniteDimensional

set_option autoImplicit false
/-!
# Helper lemmas for the greedy pursuit theorems
-/
noncomputable section
namespace Verif.Pursuit
open Verif.Loop

variable {𝕜 : Type*} [RCLike 𝕜] {E : Type*} [NormedAddCommGroup E] [InnerProductSpace 𝕜 E]

theorem lin_smul (phi : ℕ → E) (a : 𝕜) : ∀ (I : List ℕ) (x : List 𝕜), lin phi I (x.map fun c => a * c) = a • lin phi I x
  | [], x => by cases x <;> simp [lin]
  | i :: I, [] => by simp [lin]
  | i :: I, c :: x => by simp only [List.map_cons, lin, smul_add, smul_smul, lin_smul phi a I x]

theorem buildSignal_not_mem : ∀ (I : List ℕ) (x : List 𝕜) (j : ℕ), j ∉ I → buildSignal I x j = 0
  | [], x, j, _ => by simp [buildSignal]
  | i :: I, [], j, _ => by simp [buildSignal]
  | i :: I, c :: x, j, h => by
    simp only [List.mem_cons, not_or] at h
    simp only [buildSignal]
    rw [if_neg (fun hh => h.1 hh.1.symm)]
    exact buildSignal_not_mem I x j h.2

/-- For a support without repetition `Phi_I x_I` is `Phi` applied to the signal built from the support and the coefficients. -/
theorem lin_eq_synth (phi : ℕ → E) (n : ℕ) : ∀ (I : List ℕ) (x : List 𝕜), I.Nodup → (∀ i ∈ I, i < n) → x.length = I.length →
    lin phi I x = synth phi n (buildSignal I x)
  | [], x, _, _, _ => by cases x <;> simp [lin, synth, buildSignal]
  | i :: I, [], _, _, h => by simp at h
  | i :: I, c :: x, hn, hr, hl => by
    rw [List.nodup_cons] at hn
    simp only [List.length_cons, Nat.add_right_cancel_iff] at hl
    have ih := lin_eq_synth phi n I x hn.2 (fun j hj => hr j (List.mem_cons_of_mem _ hj)) hl
    simp only [lin, ih, synth]
    have hi : i ∈ Finset.range n := Finset.mem_range.mpr (hr i List.mem_cons_self)
    rw [← Finset.add_sum_erase _ _ hi, ← Finset.add_sum_erase _ (fun j => buildSignal (i :: I) (c :: x) j • phi j) hi]
    have e1 : buildSignal (i :: I) (c :: x) i = c := by
      have : i ∉ I.take x.length := fun h => hn.1 (List.mem_of_mem_take h)
      simp [buildSignal, this]
    have e2 : buildSignal I x i = 0 := buildSignal_not_mem I x i hn.1
    rw [e1, e2, zero_smul, zero_add]
    congr 1
    refine Finset.sum_congr rfl fun j hj => ?_
    have : i ≠ j := fun h => (Finset.mem_erase.mp hj).1 h.symm
    simp only [buildSignal]; rw [if_neg fun h => this h.1]

theorem buildSignal_gather (f : List 𝕜) : ∀ (I : List ℕ) (j : ℕ), buildSignal I (gather 0 f I) j = if j ∈ I then f.getD j 0 else 0
  | [], j => by simp [buildSignal]
  | i :: I, j => by
    have : gather 0 f (i :: I) = f.getD i 0 :: gather 0 f I := rfl
    rw [this]
    simp only [buildSignal]
    rw [buildSignal_gather f I j, gather_length, List.take_length]
    by_cases h1 : i = j
    · subst h1
      by_cases h2 : i ∈ I <;> simp [h2]
    · have : j ≠ i := fun h => h1 h.symm
      simp [h1, this]

theorem corr_length' (phi : ℕ → E) (n : ℕ) (r : E) : (corr 𝕜 phi n r).length = n := by simp [corr]

theorem corr_getD' (phi : ℕ → E) (n : ℕ) (r : E) {i : ℕ} (hi : i < n) : (corr 𝕜 phi n r).getD i 0 = inner 𝕜 (phi i) r := by
  simp [corr, List.getD_eq_getElem?_getD, hi]

theorem zeroAt_length (h : List 𝕜) (I : List ℕ) : (zeroAt h I).length = h.length := by simp [zeroAt]

theorem zeroAt_getD (h : List 𝕜) (I : List ℕ) {i : ℕ} (hi : i < h.length) : (zeroAt h I).getD i 0 = if i ∈ I then 0 else h.getD i 0 := by
  simp [zeroAt, List.getD_eq_getElem?_getD, hi]

theorem gather_mem {α : Type*} (d : α) (x : List α) (I : List ℕ) (hI : ∀ i ∈ I, i < x.length) : ∀ a ∈ gather d x I, a ∈ x := by
  intro a ha
  simp only [gather, List.mem_map] at ha
  obtain ⟨i, hi, rfl⟩ := ha
  have := hI i hi
  simp [List.getD_eq_getElem?_getD, this]

theorem gather_nodup {α : Type*} (d : α) (x : List α) (I : List ℕ) (hI : ∀ i ∈ I, i < x.length) (hx : x.Nodup) (hn : I.Nodup) : (gather d x I).Nodup := by
  refine List.Nodup.map_on (fun i hi j hj h => ?_) hn
  have h1 := hI i hi
  have h2 := hI j hj
  simp only [List.getD_eq_getElem?_getD, List.getElem?_eq_getElem h1, List.getElem?_eq_getElem h2, Option.getD_some] at h
  exact (List.Nodup.getElem_inj_iff hx).mp h

/-- If at least `K'` entries of `h` outside the support `I` are non-zero, the `K'` largest entries of `h` with the support zeroed avoid the support. -/
theorem largest_disjoint (h : List 𝕜) (I : List ℕ) (K' : ℕ)
    (hcount : K' ≤ ((Finset.range h.length).filter fun i => i ∉ I ∧ h.getD i 0 ≠ 0).card) :
    ∀ i ∈ largestIndices (zeroAt h I) K', i ∉ I := by
  classical
  intro i hi hiI
  obtain ⟨h1, h2, h3, -, h5⟩ := c51_largest_indices (zeroAt h I) K'
  set J := largestIndices (zeroAt h I) K' with hJ
  rw [zeroAt_length] at h2 h3 h5
  have hzi : (zeroAt h I).getD i 0 = 0 := by rw [zeroAt_getD h I (h3 i hi), if_pos hiI]
  set T := (Finset.range h.length).filter fun i => i ∉ I ∧ h.getD i 0 ≠ 0 with hT
  have hsub : T ⊆ J.toFinset.erase i := by
    intro j hj
    simp only [hT, Finset.mem_filter, Finset.mem_range] at hj
    obtain ⟨hjn, hjI, hj0⟩ := hj
    rw [Finset.mem_erase, List.mem_toFinset]
    refine ⟨fun e => hjI (e ▸ hiI), ?_⟩
    by_contra hjJ
    have := h5 i hi j hjn hjJ
    rw [hzi, zeroAt_getD h I hjn, if_neg hjI, norm_zero] at this
    exact hj0 (norm_le_zero_iff.mp this)
  have hc := Finset.card_le_card hsub
  rw [Finset.card_erase_of_mem (List.mem_toFinset.mpr hi), List.toFinset_card_of_nodup h1, h2] at hc
  have hpos : 0 < J.length := List.length_pos_of_mem hi
  rw [h2] at hpos
  omega

/-! ## Existence of least squares solutions -/

theorem lin_ofFn (phi : ℕ → E) : ∀ (I : List ℕ) (x : Fin I.length → 𝕜), lin phi I (List.ofFn x) = ∑ k : Fin I.length, x k • phi (I.get k)
  | [], x => by simp [lin]
  | i :: I, x => by
    have e : (List.ofFn x : List 𝕜) = x 0 :: List.ofFn (fun k : Fin I.length => x k.succ) := List.ofFn_succ
    rw [e]
    simp only [lin]
    rw [lin_ofFn phi I]
    exact (Fin.sum_univ_succ (fun k : Fin (I.length + 1) => x k • phi ((i :: I).get k))).symm

/-- The contract of `lstsq` can always be met. -/
theorem exists_lstsq (phi : ℕ → E) (I : List ℕ) (y : E) : ∃ x : List 𝕜, IsLstsq phi I y x := by
  classical
  let T : EuclideanSpace 𝕜 (Fin I.length) →ₗ[𝕜] E :=
    { toFun := fun x => ∑ k, x k • phi (I.get k)
      map_add' := fun x z => by simp [add_smul, Finset.sum_add_distrib]
      map_smul' := fun a x => by simp [mul_smul, Finset.smul_sum] }
  have hT : ∀ x, T x = ∑ k, x k • phi (I.get k) := fun _ => rfl
  have hTl : ∀ x, lin phi I (List.ofFn fun k => x k) = T x := fun x => lin_ofFn phi I _
  let R := LinearMap.range T
  obtain ⟨z, hz⟩ : ∃ z, T z = R.starProjection y := by
    have := R.starProjection_apply_mem y
    exact this
  let N := LinearMap.ker T
  let w := z - N.starProjection z
  have hw : T w = R.starProjection y := by
    have : T (N.starProjection z) = 0 := N.starProjection_apply_mem z
    rw [← hz]; simp [w, this]
  have hortho : ∀ u, inner 𝕜 (T u) (y - T w) = 0 := by
    intro u
    rw [hw]
    exact (Submodule.mem_orthogonal R _).mp (R.sub_starProjection_mem_orthogonal y) (T u) ⟨u, rfl⟩
  have hsingle : ∀ k : Fin I.length, T (EuclideanSpace.single k 1) = phi (I.get k) := by
    intro k
    rw [hT, Finset.sum_eq_single k]
    · simp
    · intro j _ hj; simp [hj]
    · intro h; exact absurd (Finset.mem_univ k) h
  refine ⟨List.ofFn fun k => w k, by simp, ?_, ?_⟩
  · intro i hi
    obtain ⟨k, rfl⟩ := List.mem_iff_get.mp hi
    rw [hTl, ← hsingle k]
    exact hortho _
  · intro v hv hvn
    let u : EuclideanSpace 𝕜 (Fin I.length) := WithLp.toLp 2 fun k => v.get (k.cast hv.symm)
    have hu : v = List.ofFn fun k => u k := by
      apply List.ext_get (by simp [hv])
      intro k h1 h2
      simp [u]
    have huT : lin phi I v = T u := by rw [hu]; exact hTl u
    have horth2 : ∀ i ∈ I, inner 𝕜 (phi i) (T w - T u) = 0 := by
      intro i hi
      have e : T w - T u = (y - lin phi I v) - (y - T w) := by rw [huT]; abel
      obtain ⟨k, rfl⟩ := List.mem_iff_get.mp hi
      rw [e, inner_sub_right, hvn _ hi, ← hsingle k, hortho, sub_zero]
    have heq : T (w - u) = 0 := by
      rw [← inner_self_eq_zero (𝕜 := 𝕜)]
      conv_lhs => rw [hT (w - u)]
      rw [sum_inner]
      refine Finset.sum_eq_zero fun k _ => ?_
      rw [inner_smul_left, ← hT, map_sub, horth2 _ (List.get_mem _ _), mul_zero]
    have hperp : inner 𝕜 w (u - w) = 0 := by
      have hmem : u - w ∈ N := by
        show T (u - w) = 0
        rw [← neg_sub, map_neg, heq, neg_zero]
      have := (Submodule.mem_orthogonal' N _).mp (N.sub_starProjection_mem_orthogonal z) (u - w) hmem
      exact this
    have hsq : ‖u‖ ^ 2 = ‖w‖ ^ 2 + ‖u - w‖ ^ 2 := by
      have e : u = w + (u - w) := by abel
      conv_lhs => rw [e]
      rw [@norm_add_sq 𝕜, hperp]; simp
    have nn : ∀ q : EuclideanSpace 𝕜 (Fin I.length), ((List.ofFn fun k => q k).map fun c => ‖c‖ ^ 2).sum = ‖q‖ ^ 2 := by
      intro q; rw [EuclideanSpace.norm_sq_eq]; simp [List.map_ofFn, List.sum_ofFn]
    have n1 := nn w
    have n2 := nn u
    rw [← hu] at n2
    rw [n1, n2, hsq]
    nlinarith [sq_nonneg ‖u - w‖]

end Verif.Pursuit
