import Verif.Cluster.FastSpectralProps

set_option autoImplicit false
/-!
# What spectral clustering reports besides the labels (C96, C115)
-/
noncomputable section
namespace Verif.Cluster
open Verif.Loop Verif.Pursuit Matrix

variable {n : ℕ}

theorem svd_norm {L : Matrix (Fin n) (Fin n) ℝ} {d : SquareSvd n} (h : IsSquareSvd L d) (x : Fin n → ℝ) :
    (L *ᵥ x) ⬝ᵥ (L *ᵥ x) = ∑ a, d.S a ^ 2 * (d.VH *ᵥ x) a ^ 2 ∧ x ⬝ᵥ x = ∑ a, (d.VH *ᵥ x) a ^ 2 := by
  have hV : d.VHᵀ * d.VH = 1 := mul_eq_one_comm.1 h.VH
  have e : L *ᵥ x = d.U *ᵥ (diagonal d.S *ᵥ (d.VH *ᵥ x)) := by rw [h.factor, mulVec_mulVec, mulVec_mulVec]
  have iso : ∀ (M : Matrix (Fin n) (Fin n) ℝ), Mᵀ * M = 1 → ∀ y, (M *ᵥ y) ⬝ᵥ (M *ᵥ y) = y ⬝ᵥ y := fun M hM y => by
    rw [dotProduct_mulVec, ← mulVec_transpose, mulVec_mulVec, hM, one_mulVec]
  constructor
  · rw [e, iso _ h.U]
    simp only [mulVec_diagonal, dotProduct]
    exact Finset.sum_congr rfl fun a _ => by ring
  · rw [← iso _ hV x]
    simp only [dotProduct]
    exact Finset.sum_congr rfl fun a _ => by ring

theorem svd_row {L : Matrix (Fin n) (Fin n) ℝ} {d : SquareSvd n} (h : IsSquareSvd L d) (b : Fin n) (a : Fin n) : (d.VH *ᵥ d.VH b) a = if a = b then 1 else 0 := by
  have := congrFun (congrFun h.VH a) b
  rw [Matrix.one_apply] at this
  rw [← this]
  rfl

/-- The second smallest singular value of a matrix whose kernel contains the vector of ones is the smallest stretching of a vector with sum zero. -/
theorem second_last_ones {L : Matrix (Fin n) (Fin n) ℝ} {d : SquareSvd n} (h : IsSquareSvd L d) (hL : ∀ i, ∑ j, L i j = 0) (hn : 2 ≤ n) :
    (∀ x : Fin n → ℝ, ∑ i, x i = 0 → d.S ⟨n - 2, by omega⟩ ^ 2 * (x ⬝ᵥ x) ≤ (L *ᵥ x) ⬝ᵥ (L *ᵥ x)) ∧
    ∃ x : Fin n → ℝ, x ≠ 0 ∧ ∑ i, x i = 0 ∧ (L *ᵥ x) ⬝ᵥ (L *ᵥ x) = d.S ⟨n - 2, by omega⟩ ^ 2 * (x ⬝ᵥ x) := by
  obtain ⟨p, hp⟩ : ∃ p : Fin n, p = ⟨n - 2, by omega⟩ := ⟨_, rfl⟩
  obtain ⟨q, hq⟩ : ∃ q : Fin n, q = ⟨n - 1, by omega⟩ := ⟨_, rfl⟩
  rw [← hp]
  have hpq : p ≠ q := by rw [hp, hq]; intro h; simp at h; omega
  have hV : d.VHᵀ * d.VH = 1 := mul_eq_one_comm.1 h.VH
  obtain ⟨o, ho⟩ : ∃ o : Fin n → ℝ, o = fun _ => 1 := ⟨_, rfl⟩
  have hLo : L *ᵥ o = 0 := by
    ext i; rw [ho]; simp [mulVec, dotProduct, hL i]
  have hz := (h.kernel o).1 hLo
  have hsum : ∀ x : Fin n → ℝ, ∑ i, x i = ∑ a, (d.VH *ᵥ o) a * (d.VH *ᵥ x) a := fun x => by
    have : (d.VH *ᵥ o) ⬝ᵥ (d.VH *ᵥ x) = o ⬝ᵥ x := by
      rw [dotProduct_mulVec, ← mulVec_transpose, mulVec_mulVec, hV, one_mulVec]
    rw [show ∑ a, (d.VH *ᵥ o) a * (d.VH *ᵥ x) a = (d.VH *ᵥ o) ⬝ᵥ (d.VH *ᵥ x) from rfl, this, ho]
    simp [dotProduct]
  have hq0 : d.S q = 0 := by
    by_contra hne
    have hpos : ∀ a, d.S a ≠ 0 := fun a => by
      have h1 : d.S q ≤ d.S a := h.anti (by rw [hq]; show a.1 ≤ n - 1; omega)
      have h2 := h.nonneg q
      exact ne_of_gt (lt_of_lt_of_le (lt_of_le_of_ne h2 (Ne.symm hne)) h1)
    have h0 : ∀ a, (d.VH *ᵥ o) a = 0 := fun a => (mul_eq_zero.1 (hz a)).resolve_left (hpos a)
    have := hsum o
    simp only [h0, zero_mul, Finset.sum_const_zero] at this
    rw [ho] at this
    simp at this; omega
  have hsmall : ∀ a, a ≠ q → d.S p ≤ d.S a := fun a ha => h.anti (by
    rw [hp]; show a.1 ≤ n - 2
    have : a.1 ≠ n - 1 := fun e => ha (by rw [hq]; exact Fin.ext e)
    omega)
  by_cases hp0 : d.S p = 0
  · refine ⟨fun x _ => by rw [hp0, (svd_norm h x).1]; simp only [ne_eq, OfNat.ofNat_ne_zero, not_false_eq_true, zero_pow, zero_mul]; exact Finset.sum_nonneg fun a _ => by positivity, ?_⟩
    obtain ⟨α, hα⟩ : ∃ α, α = (d.VH *ᵥ o) p := ⟨_, rfl⟩
    obtain ⟨β, hβ⟩ : ∃ β, β = (d.VH *ᵥ o) q := ⟨_, rfl⟩
    have hcomb : ∀ s t : ℝ, ∀ a, (d.VH *ᵥ (s • d.VH p + t • d.VH q)) a = s * (if a = p then 1 else 0) + t * (if a = q then 1 else 0) := fun s t a => by
      rw [mulVec_add, mulVec_smul, mulVec_smul, Pi.add_apply, Pi.smul_apply, Pi.smul_apply, svd_row h, svd_row h, smul_eq_mul, smul_eq_mul]
    have hker : ∀ s t : ℝ, (L *ᵥ (s • d.VH p + t • d.VH q)) ⬝ᵥ (L *ᵥ (s • d.VH p + t • d.VH q)) = 0 := fun s t => by
      rw [(svd_norm h _).1]
      refine Finset.sum_eq_zero fun a _ => ?_
      rw [hcomb]
      by_cases h1 : a = p
      · rw [h1, hp0]; ring
      · by_cases h2 : a = q
        · rw [h2, hq0]; ring
        · simp [h1, h2]
    have hne : ∀ s t : ℝ, s ≠ 0 ∨ t ≠ 0 → s • d.VH p + t • d.VH q ≠ 0 := fun s t hst h0 => by
      have h1 := hcomb s t p
      have h2 := hcomb s t q
      rw [h0, mulVec_zero] at h1 h2
      simp [hpq] at h1
      simp [hpq.symm] at h2
      rcases hst with h | h
      · exact h h1.symm
      · exact h h2.symm
    have hs : ∀ s t : ℝ, ∑ i, (s • d.VH p + t • d.VH q) i = α * s + β * t := fun s t => by
      rw [hsum]
      simp only [hcomb, mul_add, Finset.sum_add_distrib]
      rw [Finset.sum_eq_single p (fun a _ ha => by simp [ha]) (fun h => absurd (Finset.mem_univ _) h),
        Finset.sum_eq_single q (fun a _ ha => by simp [ha]) (fun h => absurd (Finset.mem_univ _) h)]
      simp [hα, hβ]
    by_cases hab : α = 0 ∧ β = 0
    · exact ⟨(1 : ℝ) • d.VH p + (0 : ℝ) • d.VH q, hne _ _ (.inl one_ne_zero), by rw [hs, hab.1, hab.2]; ring, by rw [hker, hp0]; ring⟩
    · refine ⟨β • d.VH p + (-α) • d.VH q, hne _ _ ?_, by rw [hs]; ring, by rw [hker, hp0]; ring⟩
      by_contra hcon
      push Not at hcon
      exact hab ⟨neg_eq_zero.1 hcon.2, hcon.1⟩
  · have h0 : ∀ a, a ≠ q → (d.VH *ᵥ o) a = 0 := fun a ha => (mul_eq_zero.1 (hz a)).resolve_left (ne_of_gt
      (lt_of_lt_of_le (lt_of_le_of_ne (h.nonneg p) (Ne.symm hp0)) (hsmall a ha)))
    have hs : ∀ x : Fin n → ℝ, ∑ i, x i = (d.VH *ᵥ o) q * (d.VH *ᵥ x) q := fun x => by
      rw [hsum, Finset.sum_eq_single q (fun a _ ha => by rw [h0 a ha, zero_mul]) (fun h => absurd (Finset.mem_univ _) h)]
    have hoq : (d.VH *ᵥ o) q ≠ 0 := fun h1 => by
      have := hs o
      rw [h1, zero_mul, ho] at this
      simp at this; omega
    refine ⟨fun x hx => ?_, d.VH p, fun h1 => ?_, ?_, ?_⟩
    · rw [hs] at hx
      have hxq := (mul_eq_zero.1 hx).resolve_left hoq
      rw [(svd_norm h x).1, (svd_norm h x).2, Finset.mul_sum]
      refine Finset.sum_le_sum fun a _ => ?_
      by_cases ha : a = q
      · rw [ha, hxq]; simp
      · exact mul_le_mul_of_nonneg_right (pow_le_pow_left₀ (h.nonneg p) (hsmall a ha) 2) (sq_nonneg _)
    · have := svd_row h p p
      rw [h1, mulVec_zero] at this
      simp at this
    · rw [hs, svd_row h, if_neg hpq.symm, mul_zero]
    · rw [(svd_norm h _).1, (svd_norm h _).2, Finset.mul_sum]
      refine Finset.sum_congr rfl fun a _ => ?_
      rw [svd_row h]
      by_cases ha : a = p
      · rw [ha]
      · simp [ha]

/-- **C96** what `unnormalized_k` reports besides the labels, for an affinity matrix with at least two nodes: the requested number of clusters; a Laplacian whose quadratic form is
`½ ∑ W i j (x i - x j)²`; as connectivity the smallest stretching of a vector with sum zero by this Laplacian (the algebraic connectivity of the graph). -/
theorem c96_reported {svd : Matrix (Fin n) (Fin n) ℝ → SquareSvd n} {W : Matrix (Fin n) (Fin n) ℝ} (hW : IsAffinity W) (hn : 2 ≤ n)
    (hsvd : IsSquareSvd (unnormalizedLaplacian W) (svd (unnormalizedLaplacian W))) (k : ℕ) (hk : k ≤ n) {seeds : List (ℕ → ℕ)} {sol : SpecSolution n} (h : UnnormalizedK svd W k hk seeds sol) :
    sol.numClusters = k ∧ (∀ x : Fin n → ℝ, x ⬝ᵥ (sol.laplacian *ᵥ x) = (∑ i, ∑ j, W i j * (x i - x j) ^ 2) / 2) ∧
    ∃ c, sol.connectivity = some c ∧ 0 ≤ c ∧ (∀ x : Fin n → ℝ, ∑ i, x i = 0 → c ^ 2 * (x ⬝ᵥ x) ≤ (sol.laplacian *ᵥ x) ⬝ᵥ (sol.laplacian *ᵥ x)) ∧
      ∃ x : Fin n → ℝ, x ≠ 0 ∧ ∑ i, x i = 0 ∧ (sol.laplacian *ᵥ x) ⬝ᵥ (sol.laplacian *ᵥ x) = c ^ 2 * (x ⬝ᵥ x) := by
  obtain ⟨s, -, rfl⟩ := h
  obtain ⟨-, hrow, hquad, -, -⟩ := c56_unnormalized W hW
  obtain ⟨h1, h2⟩ := second_last_ones hsvd hrow hn
  exact ⟨rfl, hquad, _, by show secondLast _ = _; rw [secondLast, dif_pos hn], hsvd.nonneg _, h1, h2⟩

/-- **C96** the same for `normalized_random_walk_k` when no node is isolated; the rows of the reported Laplacian are those of the unnormalised one divided by the degrees. -/
theorem c96_reported_random_walk {svd : Matrix (Fin n) (Fin n) ℝ → SquareSvd n} {W : Matrix (Fin n) (Fin n) ℝ} (hW : IsAffinity W) (hd : ∀ i, 0 < degrees W i) (hn : 2 ≤ n)
    (hsvd : IsSquareSvd (randomWalkLaplacian W) (svd (randomWalkLaplacian W))) (k : ℕ) (hk : k ≤ n) {seeds : List (ℕ → ℕ)} {sol : SpecSolution n} (h : RandomWalkK svd W k hk seeds sol) :
    sol.numClusters = k ∧ (∀ x : Fin n → ℝ, ∑ i, degrees W i * x i * (sol.laplacian *ᵥ x) i = (∑ i, ∑ j, W i j * (x i - x j) ^ 2) / 2) ∧
    ∃ c, sol.connectivity = some c ∧ 0 ≤ c ∧ (∀ x : Fin n → ℝ, ∑ i, x i = 0 → c ^ 2 * (x ⬝ᵥ x) ≤ (sol.laplacian *ᵥ x) ⬝ᵥ (sol.laplacian *ᵥ x)) ∧
      ∃ x : Fin n → ℝ, x ≠ 0 ∧ ∑ i, x i = 0 ∧ (sol.laplacian *ᵥ x) ⬝ᵥ (sol.laplacian *ᵥ x) = c ^ 2 * (x ⬝ᵥ x) := by
  obtain ⟨s, -, rfl⟩ := h
  obtain ⟨hrow, hmul, -⟩ := c56_random_walk W hW hd
  obtain ⟨-, -, hquad, -, -⟩ := c56_unnormalized W hW
  obtain ⟨h1, h2⟩ := second_last_ones hsvd hrow hn
  refine ⟨rfl, fun x => ?_, _, by show secondLast _ = _; rw [secondLast, dif_pos hn], hsvd.nonneg _, h1, h2⟩
  rw [← hquad, ← hmul, ← mulVec_mulVec]
  simp only [dotProduct, mulVec_diagonal]
  exact Finset.sum_congr rfl fun i _ => by ring

/-- **C115** is violated in the other reported values: what `normalized_symmetric_fast_k` reports as Laplacian is the normalised similarity matrix, which keeps the vector `√degree` that a
normalised Laplacian sends to zero, and the reported connectivity is `-1` for every graph. -/
theorem c115_reported_fails {k : ℕ} {lansvd : Matrix (Fin n) (Fin n) ℝ → LanSvdOut n (5 * k)} {W : Matrix (Fin n) (Fin n) ℝ} (hW : IsAffinity W) (hd : ∀ i, 0 < degrees W i)
    {seeds : List (ℕ → ℕ)} {sol : FastSolution n k} (h : NormalizedSymmetricFastK k lansvd W seeds sol) :
    sol.numClusters = k ∧ sol.connectivity = -1 ∧
    (sol.laplacian *ᵥ fun i => Real.sqrt (degrees W i)) = (fun i => Real.sqrt (degrees W i)) ∧
    (0 < n → (sol.laplacian *ᵥ fun i => Real.sqrt (degrees W i)) ≠ 0) := by
  obtain ⟨s, -, rfl⟩ := h
  obtain ⟨-, h1, -⟩ := c56_normalized_symmetric W hW hd
  refine ⟨rfl, rfl, h1, fun hn h0 => ?_⟩
  have h2 := congrFun (h1.symm.trans h0) ⟨0, hn⟩
  exact (Real.sqrt_pos.2 (hd ⟨0, hn⟩)).ne' h2

/-- The hypotheses of `c96_reported` are met by two disjoint edges; the connectivity of this graph, which is not connected, is reported as zero. -/
example : ∃ sol, UnnormalizedK (fun _ => exSvd4) exW 2 exW_components.le [fun t => 2 * t] sol ∧ IsSquareSvd (unnormalizedLaplacian exW) exSvd4 ∧ IsAffinity exW ∧ sol.connectivity = some 0 := by
  obtain ⟨s, hs⟩ := (c54_terminates (kernelRow exSvd4.VH 2 exW_components.le) 4 2 (fun t => 2 * t) 1e-5 100).1
  refine ⟨_, ⟨s, ⟨[s], .cons hs .nil, ?_⟩, rfl⟩, exSvd4_ok, exW_affinity, ?_⟩
  · obtain ⟨s', h1, h2, -⟩ := c54_kmeans_selects [s] (by simp)
    rw [h1, List.mem_singleton.mp h2]
  · show secondLast exSvd4.S = some 0
    rw [secondLast, dif_pos (by norm_num)]
    simp [exSvd4]

example (sol : SpecSolution 4) (h : UnnormalizedK (fun _ => exSvd4) exW 2 exW_components.le [fun t => 2 * t] sol) := c96_reported exW_affinity (by norm_num) exSvd4_ok 2 exW_components.le h

example (sol : SpecSolution 4) (h : RandomWalkK (fun _ => exSvd4) exW 2 exW_components.le [fun t => 2 * t] sol) :=
  c96_reported_random_walk exW_affinity (fun i => by rw [exW_degrees]; norm_num) (by norm_num) exSvd4_random_walk 2 exW_components.le h

example (lansvd : Matrix (Fin 10) (Fin 10) ℝ → LanSvdOut 10 (5 * 2)) (sol : FastSolution 10 2) (h : NormalizedSymmetricFastK 2 lansvd (fun i j => (fullW i j : ℝ)) [fun t => 5 * t] sol) :=
  c115_reported_fails full_affinity full_norm.1 h

end Verif.Cluster
