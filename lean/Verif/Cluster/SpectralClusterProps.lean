import Verif.Cluster.SpectralClusterModel
import Verif.Cluster.SpectralProps
import Verif.Cluster.KmeansProps
import Mathlib.LinearAlgebra.Matrix.NonsingularInverse
import Mathlib.Logic.Relation
import Mathlib.Tactic.IntervalCases
import Mathlib.Tactic.FinCases

set_option autoImplicit false
/-!
# Spectral clustering finds the connected components (C96)
-/
noncomputable section
namespace Verif.Cluster
open Verif.Loop Verif.Pursuit Matrix
open scoped RealInnerProductSpace

variable {n k : ℕ}

/-! ## Specification -/

/-- `comp` names the `k` connected components of the graph whose edges are the positive entries of `W`. -/
structure Components (W : Matrix (Fin n) (Fin n) ℝ) (k : ℕ) (comp : Fin n → Fin k) : Prop where
  onto : ∀ c, ∃ i, comp i = c
  edge : ∀ i j, 0 < W i j → comp i = comp j
  path : ∀ i j, comp i = comp j → Relation.ReflTransGen (fun a b => 0 < W a b) i j

/-- The contract of `jnp.linalg.svd` for a square matrix: `L = U diag(S) VH`, `U` and `VH` orthogonal, singular values non-negative and decreasing. -/
structure IsSquareSvd (L : Matrix (Fin n) (Fin n) ℝ) (d : SquareSvd n) : Prop where
  U : d.Uᵀ * d.U = 1
  VH : d.VH * d.VHᵀ = 1
  factor : L = d.U * diagonal d.S * d.VH
  nonneg : ∀ a, 0 ≤ d.S a
  anti : Antitone d.S

/-- The number of nodes of a component. -/
def compSize (comp : Fin n → Fin k) (c : Fin k) : ℕ := (Finset.univ.filter fun i => comp i = c).card

/-! ## Lemmas -/

/-- The vectors of the kernel are those which are constant along edges. -/
def EdgeKernel (W L : Matrix (Fin n) (Fin n) ℝ) : Prop := ∀ x : Fin n → ℝ, L *ᵥ x = 0 ↔ ∀ i j, 0 < W i j → x i = x j

theorem IsSquareSvd.kernel {L : Matrix (Fin n) (Fin n) ℝ} {d : SquareSvd n} (h : IsSquareSvd L d) (x : Fin n → ℝ) : L *ᵥ x = 0 ↔ ∀ a, d.S a * (d.VH *ᵥ x) a = 0 := by
  have e : L *ᵥ x = d.U *ᵥ (diagonal d.S *ᵥ (d.VH *ᵥ x)) := by rw [h.factor, mulVec_mulVec, mulVec_mulVec]
  constructor
  · intro h0 a
    rw [e] at h0
    have h1 := congrArg (fun y => d.Uᵀ *ᵥ y) h0
    simp only [mulVec_mulVec, mulVec_zero] at h1
    rw [← Matrix.mul_assoc, h.U, Matrix.one_mul, ← mulVec_mulVec] at h1
    have := congrFun h1 a
    rwa [mulVec_diagonal] at this
  · intro h0
    have : diagonal d.S *ᵥ (d.VH *ᵥ x) = 0 := by
      funext a
      rw [mulVec_diagonal]; exact h0 a
    rw [e, this, mulVec_zero]

theorem IsSquareSvd.VH' {L : Matrix (Fin n) (Fin n) ℝ} {d : SquareSvd n} (h : IsSquareSvd L d) : d.VHᵀ * d.VH = 1 := mul_eq_one_comm.mp h.VH

theorem Components.const {W : Matrix (Fin n) (Fin n) ℝ} {comp : Fin n → Fin k} (hc : Components W k comp) {x : Fin n → ℝ} (hx : ∀ i j, 0 < W i j → x i = x j) {i j : Fin n} (hij : comp i = comp j) : x i = x j := by
  have := hc.path i j hij
  induction this with
  | refl => rfl
  | tail _ hb ih =>
    rename_i b c hab
    exact (ih ((hc.edge b c hb).symm ▸ hij)).trans (hx _ _ hb)

/-- The projection of the unit vectors on the kernel. -/
theorem kernel_projection {W L : Matrix (Fin n) (Fin n) ℝ} {comp : Fin n → Fin k} (hc : Components W k comp) (hL : EdgeKernel W L) {d : SquareSvd n} (h : IsSquareSvd L d) (i j : Fin n) :
    ∑ a, (if d.S a = 0 then d.VH a j * d.VH a i else 0) = if comp i = comp j then 1 / (compSize comp (comp i) : ℝ) else 0 := by
  set p : Fin n → ℝ := fun i => ∑ a, (if d.S a = 0 then d.VH a j * d.VH a i else 0) with hp
  have hVHp : ∀ b, (d.VH *ᵥ p) b = if d.S b = 0 then d.VH b j else 0 := by
    intro b
    have e : (d.VH *ᵥ p) b = ∑ a, (if d.S a = 0 then d.VH a j else 0) * (d.VH * d.VHᵀ) b a := by
      simp only [mulVec, dotProduct, hp, Finset.mul_sum, Matrix.mul_apply, transpose_apply]
      rw [Finset.sum_comm]
      refine Finset.sum_congr rfl fun a _ => Finset.sum_congr rfl fun i _ => ?_
      split_ifs <;> ring
    rw [e, h.VH, Finset.sum_eq_single b]
    · rw [Matrix.one_apply_eq, mul_one]
    · intro a _ hab
      rw [Matrix.one_apply_ne (Ne.symm hab), mul_zero]
    · intro hb; exact absurd (Finset.mem_univ b) hb
  have hker : L *ᵥ p = 0 := by
    rw [h.kernel]
    intro a
    rw [hVHp]
    split_ifs with h0
    · rw [h0, zero_mul]
    · rw [mul_zero]
  have hconst : ∀ i' , comp i' = comp i → p i' = p i := fun i' hi' => hc.const ((hL p).mp hker) hi'
  -- the indicator of the component of `i`
  set x : Fin n → ℝ := fun i' => if comp i' = comp i then 1 else 0 with hx
  have hxk : L *ᵥ x = 0 := (hL x).mpr fun a b hab => by simp only [hx, hc.edge a b hab]
  have hxa : ∀ a, d.S a ≠ 0 → (d.VH *ᵥ x) a = 0 := fun a ha => (mul_eq_zero.mp ((h.kernel x).mp hxk a)).resolve_left ha
  have hsum : ∑ i', x i' * p i' = x j := by
    have e1 : ∑ i', x i' * p i' = ∑ a, (if d.S a = 0 then d.VH a j else 0) * (d.VH *ᵥ x) a := by
      simp only [hp, mulVec, dotProduct, Finset.mul_sum]
      rw [Finset.sum_comm]
      refine Finset.sum_congr rfl fun a _ => Finset.sum_congr rfl fun i _ => ?_
      split_ifs <;> ring
    have e2 : ∑ a, (if d.S a = 0 then d.VH a j else 0) * (d.VH *ᵥ x) a = (d.VHᵀ *ᵥ (d.VH *ᵥ x)) j := by
      simp only [mulVec, dotProduct, transpose_apply]
      refine Finset.sum_congr rfl fun a _ => ?_
      split_ifs with ha
      · rfl
      · have := hxa a ha
        simp only [mulVec, dotProduct] at this
        rw [this, mul_zero, mul_zero]
    rw [e1, e2, mulVec_mulVec, h.VH', one_mulVec]
  have hsz : ∑ i', x i' * p i' = (compSize comp (comp i) : ℝ) * p i := by
    have : ∀ i', x i' * p i' = if comp i' = comp i then p i else 0 := by
      intro i'
      simp only [hx]
      split_ifs with hi'
      · rw [hconst i' hi', one_mul]
      · rw [zero_mul]
    rw [Finset.sum_congr rfl fun i' _ => this i', ← Finset.sum_filter, Finset.sum_const, nsmul_eq_mul]; rfl
  have hpos : (compSize comp (comp i) : ℝ) ≠ 0 := by
    have : 0 < compSize comp (comp i) := Finset.card_pos.mpr ⟨i, by simp⟩
    exact_mod_cast this.ne'
  show p i = _
  have : (compSize comp (comp i) : ℝ) * p i = x j := hsz.symm.trans hsum
  rw [← mul_div_cancel_left₀ (p i) hpos, this]
  simp only [hx, eq_comm (a := comp j)]
  split_ifs <;> simp

theorem zeros_card {W L : Matrix (Fin n) (Fin n) ℝ} {comp : Fin n → Fin k} (hc : Components W k comp) (hL : EdgeKernel W L) {d : SquareSvd n} (h : IsSquareSvd L d) :
    (Finset.univ.filter fun a => d.S a = 0).card = k := by
  have e1 : ∑ i, ∑ a, (if d.S a = 0 then d.VH a i * d.VH a i else 0) = (Finset.univ.filter fun a => d.S a = 0).card := by
    rw [Finset.sum_comm, Finset.card_filter, Nat.cast_sum]
    refine Finset.sum_congr rfl fun a _ => ?_
    have : ∑ i, d.VH a i * d.VH a i = 1 := by
      have := congrFun (congrFun h.VH a) a
      rwa [Matrix.mul_apply, Matrix.one_apply_eq] at this
    split_ifs with ha
    · simpa using this
    · simp
  have e2 : ∑ i, ∑ a, (if d.S a = 0 then d.VH a i * d.VH a i else 0) = (k : ℝ) := by
    simp only [kernel_projection hc hL h, if_true]
    rw [← Finset.sum_fiberwise Finset.univ comp]
    have : ∀ c : Fin k, ∑ i ∈ Finset.univ.filter (fun i => comp i = c), 1 / (compSize comp (comp i) : ℝ) = 1 := by
      intro c
      rw [Finset.sum_congr rfl fun i hi => by rw [(Finset.mem_filter.mp hi).2], Finset.sum_const, nsmul_eq_mul]
      have hne : (compSize comp c : ℝ) ≠ 0 := by
        obtain ⟨i, hi⟩ := hc.onto c
        have : 0 < compSize comp c := Finset.card_pos.mpr ⟨i, by simp [hi]⟩
        exact_mod_cast this.ne'
      exact mul_one_div_cancel hne
    simp only [this, Finset.sum_const, Finset.card_univ, Fintype.card_fin, nsmul_eq_mul, mul_one]
  rw [e1] at e2
  exact_mod_cast e2

theorem Components.le {W : Matrix (Fin n) (Fin n) ℝ} {comp : Fin n → Fin k} (hc : Components W k comp) : k ≤ n := by
  simpa using Fintype.card_le_of_surjective comp hc.onto

/-- Exactly the last `k` singular values vanish. -/
theorem zeros_last {W L : Matrix (Fin n) (Fin n) ℝ} {comp : Fin n → Fin k} (hc : Components W k comp) (hL : EdgeKernel W L) {d : SquareSvd n} (h : IsSquareSvd L d) (a : Fin n) :
    d.S a = 0 ↔ n - k ≤ a.1 := by
  have hkn := hc.le
  set Z := Finset.univ.filter fun a => d.S a = 0 with hZ
  set T := Finset.univ.filter fun a : Fin n => n - k ≤ a.1 with hT
  have hsub : Z ⊆ T := by
    intro a ha
    have ha0 : d.S a = 0 := (Finset.mem_filter.mp ha).2
    have hup : Finset.Ici a ⊆ Z := fun b hb => Finset.mem_filter.mpr ⟨Finset.mem_univ _, le_antisymm (ha0 ▸ h.anti (Finset.mem_Ici.mp hb)) (h.nonneg b)⟩
    have := Finset.card_le_card hup
    rw [Fin.card_Ici, zeros_card hc hL h] at this
    exact Finset.mem_filter.mpr ⟨Finset.mem_univ _, by omega⟩
  have hTc : T.card = k := by
    rcases Nat.eq_zero_or_pos k with hk0 | hk0
    · rw [hk0, Finset.card_eq_zero, Finset.filter_eq_empty_iff]
      intro a _
      omega
    · have : T = Finset.Ici (⟨n - k, by omega⟩ : Fin n) := by
        ext a
        simp [hT, Fin.le_def]
      rw [this, Fin.card_Ici]
      show n - (n - k) = k
      omega
  have heq : Z = T := Finset.eq_of_subset_of_card_le hsub (by rw [hTc, zeros_card hc hL h])
  have h1 : a ∈ Z ↔ a ∈ T := by rw [heq]
  simpa [hZ, hT] using h1

/-- The rows of the kernel matrix: same component, same row; different components, orthogonal rows. -/
theorem kernelRow_inner {W L : Matrix (Fin n) (Fin n) ℝ} {comp : Fin n → Fin k} (hc : Components W k comp) (hL : EdgeKernel W L) {d : SquareSvd n} (h : IsSquareSvd L d) (i j : Fin n) :
    ⟪kernelRow d.VH k hc.le i, kernelRow d.VH k hc.le j⟫ = if comp i = comp j then 1 / (compSize comp (comp i) : ℝ) else 0 := by
  rw [← kernel_projection hc hL h i j]
  simp only [zeros_last hc hL h, ← Finset.sum_filter, kernelRow, PiLp.inner_apply, i.2, j.2, dif_pos]
  refine Finset.sum_bij (fun t _ => (⟨n - k + t.1, by have := hc.le; omega⟩ : Fin n)) (fun t _ => by have := hc.le; simp; omega) (fun a _ b _ hab => by simpa [Fin.ext_iff] using hab) (fun b hb => ?_) (fun t _ => by simp)
  have hb' : n - k ≤ b.1 := (Finset.mem_filter.mp hb).2
  exact ⟨⟨b.1 - (n - k), by have := hc.le; omega⟩, Finset.mem_univ _, by ext; simp; omega⟩

theorem kernelRow_same {W L : Matrix (Fin n) (Fin n) ℝ} {comp : Fin n → Fin k} (hc : Components W k comp) (hL : EdgeKernel W L) {d : SquareSvd n} (h : IsSquareSvd L d) (i j : Fin n) :
    kernelRow d.VH k hc.le i = kernelRow d.VH k hc.le j ↔ comp i = comp j := by
  have hii := kernelRow_inner hc hL h i i
  have hij := kernelRow_inner hc hL h i j
  have hjj := kernelRow_inner hc hL h j j
  rw [if_pos rfl] at hii hjj
  constructor
  · intro heq
    by_contra hne
    rw [if_neg hne, ← heq, hii] at hij
    have : 0 < compSize comp (comp i) := Finset.card_pos.mpr ⟨i, by simp⟩
    have : (0 : ℝ) < compSize comp (comp i) := by exact_mod_cast this
    exact (one_div_pos.mpr this).ne' hij
  · intro heq
    rw [if_pos heq] at hij
    rw [heq] at hii hij
    rw [← sub_eq_zero, ← norm_eq_zero, ← sq_eq_zero_iff, norm_sub_sq_real, ← real_inner_self_eq_norm_sq, ← real_inner_self_eq_norm_sq, hii, hij, hjj]
    ring

/-! ## k-means on points with `k` distinct values -/

section
variable {E : Type*} [NormedAddCommGroup E] [InnerProductSpace ℝ E]

/-- Equal points get equal labels. -/
theorem asg_eq_of_eq {pts : ℕ → E} {n k : ℕ} (hk : 0 < k) {ind : ℕ → ℕ} {c : KState E → Prop} {s : KState E} (h : Reach c (kBody pts n k) (kInit pts n k ind) s) {i j : ℕ} (hij : pts i = pts j) : s.asg i = s.asg j := by
  have hg := c53_assignment pts n k hk ind c s h
  by_contra hne
  rcases Nat.lt_or_gt_of_ne hne with hlt | hlt
  · have h1 := hg.first j _ hlt
    have h2 := hg.nearest i _ (hg.range j)
    rw [hij] at h2
    exact absurd h1 (not_lt.mpr h2)
  · have h1 := hg.first i _ hlt
    have h2 := hg.nearest j _ (hg.range i)
    rw [← hij] at h2
    exact absurd h1 (not_lt.mpr h2)

theorem dist_nonneg' {pts : ℕ → E} {n k : ℕ} {s : KState E} (hg : KGood pts n k s) : 0 ≤ s.dist := by
  rw [hg.distortion]
  exact div_nonneg (Finset.sum_nonneg fun _ _ => norm_nonneg _) (Nat.cast_nonneg _)

/-- A start that hits every value of the points leads to distortion 0. -/
theorem dist_zero_of_start {pts : ℕ → E} {n k : ℕ} (hk : 0 < k) {ind : ℕ → ℕ} {thresh : ℝ} {maxIters : ℕ} {s : KState E} (h : KmeansWithSeed pts n k ind thresh maxIters s)
    (hcov : ∀ i < n, ∃ t < k, pts (ind t) = pts i) : s.dist = 0 := by
  have h0 : wcss pts n (kInit pts n k ind) = 0 := by
    refine Finset.sum_eq_zero fun i hi => ?_
    obtain ⟨t, ht, he⟩ := hcov i (Finset.mem_range.mp hi)
    have := (kInit_good pts n hk ind).nearest i t ht
    rw [show (kInit pts n k ind).cent t = pts i from he, sub_self, norm_zero] at this
    rw [le_antisymm this (norm_nonneg _), zero_pow two_ne_zero]
  have h1 := c54_result_below_start pts n k hk ind thresh maxIters s h
  rw [h0] at h1
  have hz : ∀ i ∈ Finset.range n, ‖s.cent (s.asg i) - pts i‖ ^ 2 = 0 :=
    (Finset.sum_eq_zero_iff_of_nonneg fun i _ => sq_nonneg _).mp (le_antisymm h1 (Finset.sum_nonneg fun i _ => sq_nonneg _))
  rw [(c53_assignment pts n k hk ind _ s h.1).distortion, Finset.sum_eq_zero fun i hi => pow_eq_zero_iff two_ne_zero |>.mp (hz i hi), zero_div]

/-- Distortion 0: points with the same label are equal. -/
theorem eq_of_asg_eq {pts : ℕ → E} {n k : ℕ} {s : KState E} (hg : KGood pts n k s) (h0 : s.dist = 0) {i j : ℕ} (hi : i < n) (hj : j < n) (hij : s.asg i = s.asg j) : pts i = pts j := by
  have hn : (n : ℝ) ≠ 0 := by
    have : 0 < n := by omega
    exact_mod_cast this.ne'
  rw [hg.distortion, div_eq_zero_iff] at h0
  have hz := (Finset.sum_eq_zero_iff_of_nonneg fun i _ => norm_nonneg _).mp (h0.resolve_right hn)
  have h1 := sub_eq_zero.mp (norm_eq_zero.mp (hz i (Finset.mem_range.mpr hi)))
  have h2 := sub_eq_zero.mp (norm_eq_zero.mp (hz j (Finset.mem_range.mpr hj)))
  rw [← h1, ← h2, hij]

end

theorem forall₂_mem_left {α β : Type*} {R : α → β → Prop} : ∀ {l : List α} {r : List β}, List.Forall₂ R l r → ∀ a ∈ l, ∃ b ∈ r, R a b
  | _, _, .nil, a, ha => by cases ha
  | _, _, .cons h t, a, ha => by
    rcases List.mem_cons.mp ha with rfl | ha
    · exact ⟨_, List.mem_cons_self, h⟩
    · obtain ⟨b, hb, hr⟩ := forall₂_mem_left t a ha
      exact ⟨b, List.mem_cons_of_mem _ hb, hr⟩

theorem forall₂_mem_right {α β : Type*} {R : α → β → Prop} : ∀ {l : List α} {r : List β}, List.Forall₂ R l r → ∀ b ∈ r, ∃ a ∈ l, R a b
  | _, _, .nil, b, hb => by cases hb
  | _, _, .cons h t, b, hb => by
    rcases List.mem_cons.mp hb with rfl | hb
    · exact ⟨_, List.mem_cons_self, h⟩
    · obtain ⟨a, ha, hr⟩ := forall₂_mem_right t b hb
      exact ⟨a, List.mem_cons_of_mem _ ha, hr⟩

theorem spectralK_components {lap : Matrix (Fin n) (Fin n) ℝ → Matrix (Fin n) (Fin n) ℝ} {svd : Matrix (Fin n) (Fin n) ℝ → SquareSvd n} {W : Matrix (Fin n) (Fin n) ℝ} {comp : Fin n → Fin k} (hk : 0 < k)
    (hc : Components W k comp) (hL : EdgeKernel W (lap W)) (hsvd : IsSquareSvd (lap W) (svd (lap W))) {seeds : List (ℕ → ℕ)} {sol : SpecSolution n} (h : SpectralK lap svd W k hc.le seeds sol) :
    (∀ a, sol.singularValues a = 0 ↔ n - k ≤ a.1) ∧ (2 ≤ n → (sol.connectivity = some 0 ↔ 2 ≤ k)) ∧
    (∀ i, sol.assignment i < k) ∧ (∀ i j, comp i = comp j → sol.assignment i = sol.assignment j) ∧
    ((∃ seed ∈ seeds, ∀ c, ∃ t < k, ∃ i : Fin n, seed t = i ∧ comp i = c) → ∀ i j, sol.assignment i = sol.assignment j ↔ comp i = comp j) := by
  obtain ⟨s, ⟨results, hres, hsel⟩, rfl⟩ := h
  have hz := zeros_last hc hL hsvd
  have hmem : s ∈ results := by
    unfold kmeansSelect at hsel
    exact List.mem_of_getElem? hsel
  obtain ⟨ind, -, hs⟩ := forall₂_mem_right hres s hmem
  have hg := c53_assignment _ n k hk ind _ s hs.1
  refine ⟨hz, fun hn => ?_, fun i => hg.range i, fun i j hij => asg_eq_of_eq hk hs.1 ((kernelRow_same hc hL hsvd i j).mpr hij), fun ⟨seed, hseed, hcov⟩ i j => ?_⟩
  · show secondLast _ = some 0 ↔ _
    rw [secondLast, dif_pos hn, Option.some_inj, hz]
    have := hc.le
    show n - k ≤ n - 2 ↔ _
    omega
  · refine ⟨fun hij => ?_, fun hij => asg_eq_of_eq hk hs.1 ((kernelRow_same hc hL hsvd i j).mpr hij)⟩
    obtain ⟨s', hs', hrun⟩ := forall₂_mem_left hres seed hseed
    have h0 : s'.dist = 0 := by
      refine dist_zero_of_start hk hrun fun i hi => ?_
      obtain ⟨t, ht, i', hi', hci⟩ := hcov (comp ⟨i, hi⟩)
      refine ⟨t, ht, ?_⟩
      rw [hi']
      exact (kernelRow_same hc hL hsvd i' ⟨i, hi⟩).mpr hci
    obtain ⟨s2, hs2, -, hmin⟩ := c54_kmeans_selects results (List.ne_nil_of_mem hmem)
    rw [hsel] at hs2
    obtain rfl := Option.some.inj hs2
    have hd : s.dist = 0 := le_antisymm (h0 ▸ hmin s' hs') (dist_nonneg' hg)
    exact (kernelRow_same hc hL hsvd i j).mp (eq_of_asg_eq hg hd i.2 j.2 hij)

/-! ## Properties -/

/-- **C96** `unnormalized_k(key, W, k)` for an affinity matrix whose graph has exactly `k` connected components: exactly the last `k` singular values are 0, `connectivity` is 0 exactly when the graph is not connected, labels are below `k`,
nodes of the same component get the same label, and when one of the restarts of k-means starts with a node of each component, two nodes get the same label exactly when they are in the same component. -/
theorem c96_unnormalized_k {svd : Matrix (Fin n) (Fin n) ℝ → SquareSvd n} {W : Matrix (Fin n) (Fin n) ℝ} (hW : IsAffinity W) {comp : Fin n → Fin k} (hk : 0 < k) (hc : Components W k comp)
    (hsvd : IsSquareSvd (unnormalizedLaplacian W) (svd (unnormalizedLaplacian W))) {seeds : List (ℕ → ℕ)} {sol : SpecSolution n} (h : UnnormalizedK svd W k hc.le seeds sol) :
    (∀ a, sol.singularValues a = 0 ↔ n - k ≤ a.1) ∧ (2 ≤ n → (sol.connectivity = some 0 ↔ 2 ≤ k)) ∧
    (∀ i, sol.assignment i < k) ∧ (∀ i j, comp i = comp j → sol.assignment i = sol.assignment j) ∧
    ((∃ seed ∈ seeds, ∀ c, ∃ t < k, ∃ i : Fin n, seed t = i ∧ comp i = c) → ∀ i j, sol.assignment i = sol.assignment j ↔ comp i = comp j) :=
  spectralK_components hk hc (c56_unnormalized W hW).2.2.2.2 hsvd h

/-- **C96** the same for `normalized_random_walk_k(key, W, k)` when no node is isolated. -/
theorem c96_random_walk_k {svd : Matrix (Fin n) (Fin n) ℝ → SquareSvd n} {W : Matrix (Fin n) (Fin n) ℝ} (hW : IsAffinity W) (hd : ∀ i, 0 < degrees W i) {comp : Fin n → Fin k} (hk : 0 < k) (hc : Components W k comp)
    (hsvd : IsSquareSvd (randomWalkLaplacian W) (svd (randomWalkLaplacian W))) {seeds : List (ℕ → ℕ)} {sol : SpecSolution n} (h : RandomWalkK svd W k hc.le seeds sol) :
    (∀ a, sol.singularValues a = 0 ↔ n - k ≤ a.1) ∧ (2 ≤ n → (sol.connectivity = some 0 ↔ 2 ≤ k)) ∧
    (∀ i, sol.assignment i < k) ∧ (∀ i j, comp i = comp j → sol.assignment i = sol.assignment j) ∧
    ((∃ seed ∈ seeds, ∀ c, ∃ t < k, ∃ i : Fin n, seed t = i ∧ comp i = c) → ∀ i j, sol.assignment i = sol.assignment j ↔ comp i = comp j) :=
  spectralK_components hk hc (fun x => ((c56_random_walk W hW hd).2.2 x).trans ((c56_unnormalized W hW).2.2.2.2 x)) hsvd h

theorem sdiff_getD {S : Fin n → ℝ} {i : ℕ} (hi : i + 2 < n) : (sdiff S).getD i 0 = S ⟨i + 1, by omega⟩ - S ⟨i, by omega⟩ := by
  have hl : i < (sdiff S).length := by rw [sdiff, List.length_ofFn]; omega
  rw [List.getD_eq_getElem?_getD, List.getElem?_eq_getElem hl]
  simp [sdiff]

theorem autoK_eq_iff {S : Fin n → ℝ} (hn : 3 ≤ n) : ∃ k, autoK S = some k ∧ 2 ≤ k ∧ k < n ∧ argmin (sdiff S) = n - k - 1 := by
  have hlen : (sdiff S).length = n - 2 := List.length_ofFn
  have h1 := (argmin_spec (sdiff S) (List.ne_nil_of_length_pos (by omega))).1
  rw [hlen] at h1
  exact ⟨_, if_pos hn, by omega, by omega, by omega⟩

/-- **C96** `unnormalized(key, W)` and `normalized_random_walk(key, W)` find the number of components when there are at least two, and the step from the smallest positive singular value to zero is larger than all other steps. -/
theorem c96_auto_partial {W L : Matrix (Fin n) (Fin n) ℝ} {comp : Fin n → Fin k} (hk : 2 ≤ k) (hkn : k < n) (hc : Components W k comp) (hL : EdgeKernel W L) {d : SquareSvd n} (h : IsSquareSvd L d)
    (hgap : ∀ i (hi : i + 1 < n), i + 1 ≠ n - k → d.S ⟨i, by omega⟩ - d.S ⟨i + 1, hi⟩ < d.S ⟨n - k - 1, by omega⟩) : autoK d.S = some k := by
  have hz := zeros_last hc hL h
  have hlen : (sdiff d.S).length = n - 2 := List.length_ofFn
  obtain ⟨k', h1, h2, h3, h4⟩ := autoK_eq_iff (S := d.S) (by omega)
  obtain ⟨a1, a2, -⟩ := argmin_spec (sdiff d.S) (List.ne_nil_of_length_pos (by omega))
  rw [h4, hlen] at a1
  rw [h1]
  congr 1
  by_contra hne
  have := a2 (n - k - 1) (by rw [hlen]; omega)
  rw [h4, sdiff_getD (by omega), sdiff_getD (by omega)] at this
  have e0 : d.S ⟨n - k - 1 + 1, by omega⟩ = 0 := (hz _).mpr (by show n - k ≤ n - k - 1 + 1; omega)
  have g := hgap (n - k' - 1) (by omega) (by omega)
  rw [e0] at this
  linarith

/-- **C96** is violated for connected graphs: with three or more nodes at least two clusters are always reported. -/
theorem c96_auto_connected_fails (hn : 3 ≤ n) {lap : Matrix (Fin n) (Fin n) ℝ → Matrix (Fin n) (Fin n) ℝ} {svd : Matrix (Fin n) (Fin n) ℝ → SquareSvd n} (W : Matrix (Fin n) (Fin n) ℝ)
    {seeds : List (ℕ → ℕ)} {sol : SpecSolution n} (h : SpectralAuto lap svd W seeds sol) : 2 ≤ sol.numClusters := by
  obtain ⟨k, hk, h1, s, -, rfl⟩ := h
  obtain ⟨k', h2, h3, -⟩ := autoK_eq_iff (S := (svd (lap W)).S) hn
  rw [h1] at h2
  exact (Option.some.inj h2) ▸ h3

/-- A path of three nodes and an isolated node. -/
def pathW : Matrix (Fin 4) (Fin 4) ℝ := !![0, 1, 0, 0; 1, 0, 1, 0; 0, 1, 0, 0; 0, 0, 0, 0]

/-- Its two components. -/
def pathComp : Fin 4 → Fin 2 := ![0, 0, 0, 1]

/-- An SVD of its Laplacian. -/
def pathSvd : SquareSvd 4 :=
  let a := Real.sqrt 6 / 6
  let b := Real.sqrt 2 / 2
  let c := Real.sqrt 3 / 3
  { U := !![a, b, c, 0; -2 * a, 0, c, 0; a, -b, c, 0; 0, 0, 0, 1], S := ![3, 1, 0, 0], VH := !![a, -2 * a, a, 0; b, 0, -b, 0; c, c, c, 0; 0, 0, 0, 1] }

theorem pathW_components : Components pathW 2 pathComp := by
  constructor
  · intro c
    fin_cases c
    · exact ⟨0, rfl⟩
    · exact ⟨3, rfl⟩
  · intro i j
    fin_cases i <;> fin_cases j <;> simp [pathW, pathComp]
  · intro i j
    have e01 : 0 < pathW 0 1 := by simp [pathW]
    have e10 : 0 < pathW 1 0 := by simp [pathW]
    have e12 : 0 < pathW 1 2 := by simp [pathW]
    have e21 : 0 < pathW 2 1 := by simp [pathW]
    fin_cases i <;> fin_cases j <;> simp [pathComp] <;>
      first | exact .refl | exact .single e01 | exact .single e10 | exact .single e12 | exact .single e21 | exact .tail (.single e01) e12 | exact .tail (.single e21) e10

theorem pathSvd_ok : IsSquareSvd (unnormalizedLaplacian pathW) pathSvd := by
  have h2 : Real.sqrt 2 * Real.sqrt 2 = 2 := Real.mul_self_sqrt (by norm_num)
  have h3 : Real.sqrt 3 * Real.sqrt 3 = 3 := Real.mul_self_sqrt (by norm_num)
  have h6 : Real.sqrt 6 * Real.sqrt 6 = 6 := Real.mul_self_sqrt (by norm_num)
  constructor
  · ext i j
    fin_cases i <;> fin_cases j <;> simp [pathSvd, Matrix.mul_apply, Fin.sum_univ_succ] <;> linarith
  · ext i j
    fin_cases i <;> fin_cases j <;> simp [pathSvd, Matrix.mul_apply, Fin.sum_univ_succ] <;> linarith
  · ext i j
    fin_cases i <;> fin_cases j <;> simp [pathSvd, Matrix.mul_apply, Fin.sum_univ_succ, unnormalizedLaplacian, degrees, pathW, Matrix.diagonal_apply, Matrix.vecMul_diagonal] <;> linarith
  · intro a
    fin_cases a <;> simp [pathSvd]
  · intro a b hab
    fin_cases a <;> fin_cases b <;> simp_all [pathSvd]

/-- **C96** is violated when the components are not well separated in spectrum: for a path of three nodes and an isolated node, which has two components, three clusters are reported. -/
theorem c96_auto_gap_fails : IsAffinity pathW ∧ Components pathW 2 pathComp ∧ IsSquareSvd (unnormalizedLaplacian pathW) pathSvd ∧ autoK pathSvd.S = some 3 := by
  refine ⟨by constructor <;> intro i j <;> fin_cases i <;> fin_cases j <;> simp [pathW], pathW_components, pathSvd_ok, ?_⟩
  obtain ⟨k, h1, h2, h3, h4⟩ := autoK_eq_iff (S := pathSvd.S) (by norm_num)
  have hlen : (sdiff pathSvd.S).length = 2 := List.length_ofFn
  obtain ⟨-, a2, -⟩ := argmin_spec (sdiff pathSvd.S) (List.ne_nil_of_length_pos (by rw [hlen]; norm_num))
  have := a2 0 (by rw [hlen]; norm_num)
  rw [h4, sdiff_getD (by omega), sdiff_getD (by norm_num)] at this
  rw [h1]
  interval_cases k
  · simp [pathSvd] at this
    norm_num at this
  · rfl

/-! ## The hypotheses can be met -/

/-- Two disjoint edges. -/
def exW : Matrix (Fin 4) (Fin 4) ℝ := !![0, 1, 0, 0; 1, 0, 0, 0; 0, 0, 0, 1; 0, 0, 1, 0]

/-- An SVD of its Laplacian. -/
def exSvd4 : SquareSvd 4 :=
  let r := Real.sqrt 2 / 2
  { U := !![r, 0, r, 0; -r, 0, r, 0; 0, r, 0, r; 0, -r, 0, r], S := ![2, 2, 0, 0], VH := !![r, -r, 0, 0; 0, 0, r, -r; r, r, 0, 0; 0, 0, r, r] }

theorem exW_affinity : IsAffinity exW := by
  constructor <;> intro i j <;> fin_cases i <;> fin_cases j <;> simp [exW]

/-- The components of the example. -/
def exComp : Fin 4 → Fin 2 := ![0, 0, 1, 1]

theorem exW_components : Components exW 2 exComp := by
  constructor
  · intro c
    fin_cases c
    · exact ⟨0, rfl⟩
    · exact ⟨2, rfl⟩
  · intro i j
    fin_cases i <;> fin_cases j <;> simp [exW, exComp]
  · intro i j
    have e01 : 0 < exW 0 1 := by simp [exW]
    have e10 : 0 < exW 1 0 := by simp [exW]
    have e23 : 0 < exW 2 3 := by simp [exW]
    have e32 : 0 < exW 3 2 := by simp [exW]
    fin_cases i <;> fin_cases j <;> simp [exComp] <;> first | exact .refl | exact .single e01 | exact .single e10 | exact .single e23 | exact .single e32

theorem exSvd4_ok : IsSquareSvd (unnormalizedLaplacian exW) exSvd4 := by
  have h2 : Real.sqrt 2 * Real.sqrt 2 = 2 := Real.mul_self_sqrt (by norm_num)
  constructor
  · ext i j
    fin_cases i <;> fin_cases j <;> simp [exSvd4, Matrix.mul_apply, Fin.sum_univ_succ] <;> nlinarith
  · ext i j
    fin_cases i <;> fin_cases j <;> simp [exSvd4, Matrix.mul_apply, Fin.sum_univ_succ] <;> nlinarith
  · ext i j
    fin_cases i <;> fin_cases j <;> simp [exSvd4, Matrix.mul_apply, Fin.sum_univ_succ, unnormalizedLaplacian, degrees, exW, Matrix.diagonal_apply, Matrix.vecMul_diagonal] <;> nlinarith
  · intro a
    fin_cases a <;> simp [exSvd4]
  · intro a b hab
    fin_cases a <;> fin_cases b <;> simp_all [exSvd4]

/-- The hypotheses of `c96_unnormalized_k` are met by two disjoint edges, with a seed that hits both. -/
example : ∃ sol, UnnormalizedK (fun _ => exSvd4) exW 2 exW_components.le [fun t => 2 * t] sol ∧ (∃ seed ∈ [fun t => 2 * t], ∀ c, ∃ t < 2, ∃ i : Fin 4, seed t = i.1 ∧ exComp i = c) := by
  obtain ⟨s, hs⟩ := (c54_terminates (kernelRow exSvd4.VH 2 exW_components.le) 4 2 (fun t => 2 * t) 1e-5 100).1
  refine ⟨_, ⟨s, ⟨[s], .cons hs .nil, ?_⟩, rfl⟩, fun t => 2 * t, List.mem_singleton_self _, fun c => ?_⟩
  · obtain ⟨s', h1, h2, -⟩ := c54_kmeans_selects [s] (by simp)
    rw [h1, List.mem_singleton.mp h2]
  · fin_cases c
    · exact ⟨0, by norm_num, 0, rfl, rfl⟩
    · exact ⟨1, by norm_num, 2, rfl, rfl⟩

/-- The hypotheses of `c96_auto_partial` are met by two disjoint edges. -/
example : autoK exSvd4.S = some 2 := by
  refine c96_auto_partial (by norm_num) (by norm_num) exW_components (c56_unnormalized exW exW_affinity).2.2.2.2 exSvd4_ok ?_
  intro i hi hne
  have : i = 0 ∨ i = 2 := by omega
  rcases this with rfl | rfl <;> simp [exSvd4]

/-- The random walk Laplacian of the example is the unnormalised one, so `c96_random_walk_k` applies to it as well. -/
example : (∀ i, 0 < degrees exW i) ∧ IsSquareSvd (randomWalkLaplacian exW) exSvd4 := by
  have hd : ∀ i, degrees exW i = 1 := by
    intro i
    fin_cases i <;> simp [degrees, exW, Fin.sum_univ_succ]
  refine ⟨fun i => by rw [hd]; norm_num, ?_⟩
  have : randomWalkLaplacian exW = unnormalizedLaplacian exW := by
    ext i j
    rw [randomWalkLaplacian, hd, unnormalizedLaplacian, Matrix.sub_apply, Matrix.diagonal_apply, hd]
    split_ifs <;> ring
  rw [this]
  exact exSvd4_ok

theorem exW_degrees (i : Fin 4) : degrees exW i = 1 := by
  fin_cases i <;> simp [degrees, exW, Fin.sum_univ_succ]

theorem exSvd4_random_walk : IsSquareSvd (randomWalkLaplacian exW) exSvd4 := by
  have : randomWalkLaplacian exW = unnormalizedLaplacian exW := by
    ext i j
    rw [randomWalkLaplacian, exW_degrees, unnormalizedLaplacian, Matrix.sub_apply, Matrix.diagonal_apply, exW_degrees]
    split_ifs <;> ring
  rw [this]
  exact exSvd4_ok

/-- The graph with the two edges; the hypotheses on runs are met by the run of the first example. -/
example (sol : SpecSolution 4) (h : UnnormalizedK (fun _ => exSvd4) exW 2 exW_components.le [fun t => 2 * t] sol) := c96_unnormalized_k exW_affinity (by norm_num) exW_components exSvd4_ok h

example (sol : SpecSolution 4) (h : RandomWalkK (fun _ => exSvd4) exW 2 exW_components.le [fun t => 2 * t] sol) :=
  c96_random_walk_k exW_affinity (fun i => by rw [exW_degrees]; norm_num) (by norm_num) exW_components exSvd4_random_walk h

example (sol : SpecSolution 4) (h : SpectralAuto unnormalizedLaplacian (fun _ => exSvd4) exW [fun t => 2 * t] sol) := c96_auto_connected_fails (by norm_num) exW h

end Verif.Cluster
