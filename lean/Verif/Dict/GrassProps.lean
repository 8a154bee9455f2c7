import Verif.Dict.GrassModel
import Verif.Block.BsblRoot
import Mathlib.Algebra.Order.Star.Real
import Mathlib.Tactic.Linarith
import Mathlib.Tactic.FinCases
import Mathlib.Data.List.GetD
import Mathlib.Tactic.NormNum
import Mathlib.Analysis.Matrix.PosDef
import Verif.Dict.SvdExists

set_option autoImplicit false
/-!
# C114: what the Grassmannian frame construction returns
-/
noncomputable section
namespace Verif.Dict
open Matrix

variable {m n : ℕ}

theorem renormalise_some {g h : Matrix (Fin n) (Fin n) ℝ} (e : renormalise g = some h) :
    (∀ i, 0 < g i i) ∧ ∀ i j, h i j = g i j / g j j := by
  unfold renormalise at e
  split at e
  · rename_i hp
    injection e with e
    refine ⟨hp, fun i j => ?_⟩
    subst e
    have h1 := Real.mul_self_sqrt (hp j).le
    have h2 : Real.sqrt (g j j) ≠ 0 := (Real.sqrt_pos.2 (hp j)).ne'
    simp only [of_apply]
    have h3 := (hp j).ne'
    rw [div_eq_mul_inv (g i j), ← h1, mul_inv]
    simp only [one_div, h1]
    ring
  · cases e

/-- A pass of the loop keeps unit diagonal entries. -/
theorem c114_pass_unit_diagonal (svd : Matrix (Fin n) (Fin n) ℝ → GSvd n) (g0 : Matrix (Fin n) (Fin n) ℝ) (frac shrinkMu : ℝ) (g g' : Matrix (Fin n) (Fin n) ℝ)
    (h : grassBody m svd g0 frac shrinkMu g = some g') (i : Fin n) : g' i i = 1 := by
  obtain ⟨hp, e⟩ := renormalise_some h
  rw [e, div_self (hp i).ne']

theorem truncate_rank (d : GSvd n) : (truncate m d).rank ≤ m := by
  unfold truncate
  refine (rank_mul_le_left _ _).trans ((rank_mul_le_right _ _).trans ?_)
  rw [rank_diagonal]
  have : Fintype.card {i : Fin n // (if (i : ℕ) < m then d.s i else 0) ≠ 0} ≤ Fintype.card (Fin m) := by
    refine Fintype.card_le_of_injective (fun i => ⟨i.1.1, ?_⟩) ?_
    · by_contra hc
      exact i.2 (by rw [if_neg hc])
    · intro a b hab
      simp only [Fin.mk.injEq] at hab
      exact Subtype.ext (Fin.ext hab)
  simpa using this

/-- Each pass returns a matrix of rank at most `m`. -/
theorem c114_pass_rank (svd : Matrix (Fin n) (Fin n) ℝ → GSvd n) (g0 : Matrix (Fin n) (Fin n) ℝ) (frac shrinkMu : ℝ) (g g' : Matrix (Fin n) (Fin n) ℝ)
    (h : grassBody m svd g0 frac shrinkMu g = some g') : g'.rank ≤ m := by
  obtain ⟨hp, e⟩ := renormalise_some h
  have : g' = truncate m (svd (shrinkExpand g0 frac shrinkMu g)) * diagonal fun j => (truncate m (svd (shrinkExpand g0 frac shrinkMu g)) j j)⁻¹ := by
    ext i j
    rw [e, mul_diagonal, div_eq_mul_inv]
  rw [this]
  exact (rank_mul_le_left _ _).trans (truncate_rank _)

/-- The Gram matrix with which the loop ends has unit diagonal and rank at most `m`, whatever the number of passes. With no pass this needs unit norm initial atoms. -/
theorem c114_loop_invariant (svd : Matrix (Fin n) (Fin n) ℝ → GSvd n) (init : Matrix (Fin m) (Fin n) ℝ) (frac shrinkMu : ℝ) (iterations : ℕ)
    (hu : iterations = 0 → ∀ j, ∑ k, init k j ^ 2 = 1) (g : Matrix (Fin n) (Fin n) ℝ)
    (h : grassLoop m svd (initᵀ * init) frac shrinkMu iterations = some g) : (∀ i, g i i = 1) ∧ g.rank ≤ m := by
  cases iterations with
  | zero =>
    injection h with h
    subst h
    refine ⟨fun i => ?_, (rank_mul_le_right _ _).trans (by simpa using rank_le_height init)⟩
    rw [mul_apply, ← hu rfl i]
    simp [sq]
  | succ k =>
    obtain ⟨g1, _, h2⟩ := Option.bind_eq_some_iff.1 h
    exact ⟨c114_pass_unit_diagonal svd _ _ _ g1 g h2, c114_pass_rank svd _ _ _ g1 g h2⟩

/-- Singular values beyond the rank vanish. -/
theorem svd_tail {g : Matrix (Fin n) (Fin n) ℝ} {d : GSvd n} (hd : IsGSvd g d) (hr : g.rank ≤ m) (i : Fin n) (hi : m ≤ i) : d.s i = 0 := by
  have hU : IsUnit d.U := ⟨⟨d.U, d.Uᵀ, mul_eq_one_comm.mp hd.left, hd.left⟩, rfl⟩
  have hV : IsUnit d.VT := ⟨⟨d.VT, d.VTᵀ, hd.right, mul_eq_one_comm.mp hd.right⟩, rfl⟩
  have e : g.rank = (diagonal d.s).rank := by
    rw [hd.factor, rank_mul_eq_left_of_isUnit_det _ _ ((isUnit_iff_isUnit_det _).1 hV), rank_mul_eq_right_of_isUnit_det _ _ ((isUnit_iff_isUnit_det _).1 hU)]
  rw [e, rank_diagonal] at hr
  by_contra hc
  have hpos : 0 < d.s i := lt_of_le_of_ne (hd.nonneg i) (Ne.symm hc)
  have : Fintype.card (Fin (i + 1)) ≤ Fintype.card {k : Fin n // d.s k ≠ 0} := by
    refine Fintype.card_le_of_injective (fun k => ⟨⟨k, by omega⟩, ?_⟩) ?_
    · have := hd.anti (a := ⟨k, by omega⟩) (b := i) (Fin.le_def.2 (by simp; omega))
      exact (lt_of_lt_of_le hpos this).ne'
    · intro a b hab
      simpa [Fin.ext_iff] using hab
  simp at this hr
  omega

/-- The Gram matrix of the returned frame, from the factors of the last Gram matrix. -/
theorem frame_gram (hmn : m ≤ n) {g : Matrix (Fin n) (Fin n) ℝ} {d : GSvd n} (hd : IsGSvd g d) (hr : g.rank ≤ m) :
    (frameOf hmn d)ᵀ * frameOf hmn d = d.U * diagonal d.s * d.Uᵀ := by
  ext i j
  rw [mul_apply, mul_apply]
  simp only [transpose_apply, frameOf, of_apply, mul_diagonal]
  have h1 : ∀ k : Fin n, k ∉ Finset.univ.map (Fin.castLEEmb hmn) → d.U i k * d.s k * d.U j k = 0 := by
    intro k hk
    rw [svd_tail hd hr k ?_]
    · simp
    · by_contra hc
      refine hk (Finset.mem_map.2 ⟨⟨k, by omega⟩, Finset.mem_univ _, ?_⟩)
      ext; simp
  rw [← Finset.sum_subset (Finset.subset_univ (Finset.univ.map (Fin.castLEEmb hmn))) (fun k _ hk => h1 k hk), Finset.sum_map]
  refine Finset.sum_congr rfl fun k _ => ?_
  have := Real.mul_self_sqrt (hd.nonneg (Fin.castLE hmn k))
  simp only [Fin.castLEEmb_apply]
  linear_combination (d.U i (Fin.castLE hmn k) * d.U j (Fin.castLE hmn k)) * this

/-- The Gram matrix of the returned frame is the positive square root of `g gᵀ`, where `g` is the Gram matrix with which the loop ended. -/
theorem c114_gram_sq (hmn : m ≤ n) (svd : Matrix (Fin n) (Fin n) ℝ → GSvd n) (hsvd : ∀ a, IsGSvd a (svd a)) (init : Matrix (Fin m) (Fin n) ℝ) (frac shrinkMu : ℝ)
    (iterations : ℕ) (hu : iterations = 0 → ∀ j, ∑ k, init k j ^ 2 = 1) (F : Matrix (Fin m) (Fin n) ℝ)
    (h : buildGrassmannianFrame hmn svd init frac shrinkMu iterations = some F) :
    ∃ g, grassLoop m svd (initᵀ * init) frac shrinkMu iterations = some g ∧ (Fᵀ * F) * (Fᵀ * F) = g * gᵀ ∧ (Fᵀ * F).PosSemidef := by
  obtain ⟨g, hg, rfl⟩ := Option.map_eq_some_iff.1 h
  refine ⟨g, hg, ?_, by simpa [conjTranspose_eq_transpose_of_trivial] using posSemidef_conjTranspose_mul_self (frameOf hmn (svd g))⟩
  obtain ⟨_, hr⟩ := c114_loop_invariant svd init frac shrinkMu iterations hu g hg
  have hd := hsvd g
  rw [frame_gram hmn hd hr]
  have e1 : (svd g).U * diagonal (svd g).s * (svd g).Uᵀ * ((svd g).U * diagonal (svd g).s * (svd g).Uᵀ)
      = (svd g).U * diagonal (svd g).s * diagonal (svd g).s * (svd g).Uᵀ := by
    calc _ = (svd g).U * diagonal (svd g).s * ((svd g).Uᵀ * (svd g).U) * diagonal (svd g).s * (svd g).Uᵀ := by simp only [Matrix.mul_assoc]
      _ = _ := by rw [hd.left, Matrix.mul_one]
  have e2 : g * gᵀ = (svd g).U * diagonal (svd g).s * diagonal (svd g).s * (svd g).Uᵀ := by
    conv_lhs => rw [hd.factor]
    calc _ = (svd g).U * diagonal (svd g).s * ((svd g).VT * (svd g).VTᵀ) * diagonal (svd g).s * (svd g).Uᵀ := by
          simp only [Matrix.transpose_mul, diagonal_transpose, Matrix.mul_assoc]
      _ = _ := by rw [hd.right, Matrix.mul_one]
  rw [e1, e2]

/-- The atoms of the returned frame have unit norm exactly when the Gram matrix with which the loop ended is positive semidefinite; then it is the Gram matrix of the frame. -/
theorem c114_unit_atoms_iff (hmn : m ≤ n) (svd : Matrix (Fin n) (Fin n) ℝ → GSvd n) (hsvd : ∀ a, IsGSvd a (svd a)) (init : Matrix (Fin m) (Fin n) ℝ) (frac shrinkMu : ℝ)
    (iterations : ℕ) (hu : iterations = 0 → ∀ j, ∑ k, init k j ^ 2 = 1) (g : Matrix (Fin n) (Fin n) ℝ)
    (hg : grassLoop m svd (initᵀ * init) frac shrinkMu iterations = some g) (F : Matrix (Fin m) (Fin n) ℝ)
    (h : buildGrassmannianFrame hmn svd init frac shrinkMu iterations = some F) :
    ((∀ j, ∑ k, F k j ^ 2 = 1) ↔ g.PosSemidef) ∧ (g.PosSemidef → Fᵀ * F = g) := by
  obtain ⟨g', hg', rfl⟩ := Option.map_eq_some_iff.1 h
  rw [hg] at hg'; injection hg' with hg'; subst hg'
  obtain ⟨h1, hr⟩ := c114_loop_invariant svd init frac shrinkMu iterations hu g hg
  obtain ⟨g', hg', hsq, hpsd⟩ := c114_gram_sq hmn svd hsvd init frac shrinkMu iterations hu _ h
  rw [hg] at hg'; injection hg' with hg'; subst hg'
  have hd := hsvd g
  have hcol : ∀ j, ∑ k, frameOf hmn (svd g) k j ^ 2 = ((frameOf hmn (svd g))ᵀ * frameOf hmn (svd g)) j j := by
    intro j; rw [mul_apply]; simp [sq]
  have hpsdeq : g.PosSemidef → (frameOf hmn (svd g))ᵀ * frameOf hmn (svd g) = g := by
    intro hp
    have ht : gᵀ = g := by simpa [conjTranspose_eq_transpose_of_trivial] using hp.1.eq
    rw [ht] at hsq
    exact Verif.Block.sqrt_unique hpsd hp hsq
  refine ⟨⟨fun hc => ?_, fun hp j => by rw [hcol, hpsdeq hp, h1]⟩, hpsdeq⟩
  have hP := frame_gram hmn hd hr
  generalize frameOf hmn (svd g) = F at *
  generalize svd g = d at *
  have hgP : g = (Fᵀ * F) * (d.U * d.VT) := by
    rw [hP]
    conv_lhs => rw [hd.factor]
    calc _ = d.U * diagonal d.s * 1 * d.VT := by rw [Matrix.mul_one]
      _ = _ := by rw [← hd.left]; simp only [Matrix.mul_assoc]
  have hW : (d.U * d.VT) * (d.U * d.VT)ᵀ = 1 := by
    calc _ = d.U * (d.VT * d.VTᵀ) * d.Uᵀ := by simp only [Matrix.transpose_mul, Matrix.mul_assoc]
      _ = 1 := by rw [hd.right, Matrix.mul_one]; exact mul_eq_one_comm.mp hd.left
  generalize d.U * d.VT = W at *
  have ht : (Fᵀ * F).trace = ((Fᵀ * F) * W).trace := by
    rw [← hgP]
    unfold trace
    refine Finset.sum_congr rfl fun j _ => ?_
    simp only [diag_apply]
    rw [← hcol, hc, h1]
  have hM : F * (1 - W) = 0 := by
    rw [← trace_conjTranspose_mul_self_eq_zero_iff, conjTranspose_eq_transpose_of_trivial]
    have e : (F * (1 - W))ᵀ * (F * (1 - W)) = (1 - Wᵀ) * ((Fᵀ * F) * (1 - W)) := by
      simp only [Matrix.transpose_mul, Matrix.transpose_sub, Matrix.transpose_one, Matrix.mul_assoc]
    rw [e, trace_mul_comm]
    have e2 : Fᵀ * F * (1 - W) * (1 - Wᵀ) = Fᵀ * F - Fᵀ * F * W + (Fᵀ * F - Fᵀ * F * Wᵀ) := by
      have : Fᵀ * F * W * Wᵀ = Fᵀ * F := by rw [Matrix.mul_assoc, hW, Matrix.mul_one]
      simp only [Matrix.mul_sub, Matrix.sub_mul, Matrix.mul_one, this]
      abel
    have e3 : (Fᵀ * F * Wᵀ).trace = (Fᵀ * F * W).trace := by
      rw [← trace_transpose (Fᵀ * F * W), Matrix.transpose_mul, Matrix.transpose_mul, Matrix.transpose_transpose, trace_mul_comm]
    rw [e2, trace_add, trace_sub, trace_sub, e3, ← ht]
    simp
  have : g = Fᵀ * F := by
    have h2 : Fᵀ * F * (1 - W) = 0 := by rw [Matrix.mul_assoc, hM, Matrix.mul_zero]
    rw [hgP]
    rw [Matrix.mul_sub, Matrix.mul_one, sub_eq_zero] at h2
    exact h2.symm
  rw [this]
  exact hpsd

/-- The shrink and the expansion keep the Gram matrix symmetric. -/
theorem c114_shrink_symmetric (g0 g : Matrix (Fin n) (Fin n) ℝ) (frac shrinkMu : ℝ) (h0 : g0.IsSymm) (hg : g.IsSymm) : (shrinkExpand g0 frac shrinkMu g).IsSymm := by
  ext i j
  simp only [transpose_apply, shrinkExpand, of_apply, offInd, h0.apply i j, hg.apply i j]
  congr

/-- Where the truncated Gram matrix is symmetric with a non-zero entry `(i, j)` and different diagonal entries `i` and `j`, the pass returns a matrix that is not symmetric. -/
theorem c114_pass_asymmetric (svd : Matrix (Fin n) (Fin n) ℝ → GSvd n) (g0 : Matrix (Fin n) (Fin n) ℝ) (frac shrinkMu : ℝ) (g g' : Matrix (Fin n) (Fin n) ℝ)
    (h : grassBody m svd g0 frac shrinkMu g = some g') (T : Matrix (Fin n) (Fin n) ℝ) (hT : T = truncate m (svd (shrinkExpand g0 frac shrinkMu g))) (hs : T.IsSymm)
    (i j : Fin n) (hij : T i j ≠ 0) (hd : T i i ≠ T j j) : g' i j ≠ g' j i := by
  obtain ⟨hp, e⟩ := renormalise_some h
  rw [← hT] at hp e
  rw [e, e, hs.apply i j]
  intro hc
  rw [div_eq_div_iff (hp j).ne' (hp i).ne'] at hc
  exact hd (mul_left_cancel₀ hij hc)

/-- Truncation changes nothing when the rank is at most `m` already. -/
theorem truncate_eq {g : Matrix (Fin n) (Fin n) ℝ} {d : GSvd n} (hd : IsGSvd g d) (hr : g.rank ≤ m) : truncate m d = g := by
  conv_rhs => rw [hd.factor]
  unfold truncate
  congr 3
  funext k
  split
  · rfl
  · rename_i hk
    exact (svd_tail hd hr k (not_lt.1 hk)).symm

theorem pyRound_int (k : ℤ) : pyRound (k : ℝ) = k := by
  unfold pyRound
  rw [if_neg]
  · simp
  · simp

theorem sortedAbs_eq (g : Matrix (Fin n) (Fin n) ℝ) (l : List ℝ) (hp : ((List.finRange n).flatMap fun i => (List.finRange n).map fun j => |g i j|).Perm l)
    (hs : l.Pairwise (· ≤ ·)) : sortedAbs g = l := by
  unfold sortedAbs
  refine List.Perm.eq_of_pairwise (le := (· ≤ ·)) (fun a b _ _ h1 h2 => le_antisymm h1 h2) ?_ hs ((List.mergeSort_perm _ _).trans hp)
  simpa using List.pairwise_mergeSort (le := fun a b : ℝ => decide (a ≤ b)) (by intro a b c; simpa using le_trans) (by intro a b; simpa using le_total a b) _

/-- The atoms `(1, 0)` and `(3/5, 4/5)`. -/
def init2 : Matrix (Fin 2) (Fin 2) ℝ := !![1, 3/5; 0, 4/5]

theorem init2_gram : init2ᵀ * init2 = !![1, 3/5; 3/5, 1] := by
  ext i j
  fin_cases i <;> fin_cases j <;> simp [init2, mul_apply, Fin.sum_univ_two] <;> norm_num

/-- One pass with the default fraction and factor makes the two atoms of `init2` more coherent: the absolute inner product goes from `3/5` to `2/3`. -/
theorem c114_coherence_fails (svd : Matrix (Fin 2) (Fin 2) ℝ → GSvd 2) (hsvd : ∀ a, IsGSvd a (svd a)) :
    ∃ F, buildGrassmannianFrame (le_refl 2) svd init2 (9/10) (9/10) 1 = some F ∧ (init2ᵀ * init2) 0 1 = 3/5 ∧ (Fᵀ * F) 0 1 = 2/3 ∧ ∀ j, ∑ k, F k j ^ 2 = 1 := by
  have hsort : sortedAbs (init2ᵀ * init2) = [3/5, 3/5, 1, 1] := by
    rw [init2_gram]
    refine sortedAbs_eq _ _ ?_ (by norm_num)
    have e : ((List.finRange 2).flatMap fun i => (List.finRange 2).map fun j => |(!![1, 3/5; 3/5, 1] : Matrix (Fin 2) (Fin 2) ℝ) i j|) = [1, 3/5, 3/5, 1] := by
      simp [List.finRange_succ, abs_of_pos]
    rw [e]
    exact (List.Perm.swap _ _ _).trans ((List.Perm.swap _ _ _).cons _)
  have hup : upperInd 2 (9/10) = 1 := by
    unfold upperInd pyRound
    have hf : ⌊(9/10 * (((2 : ℕ) : ℝ) ^ 2 - (2 : ℕ)))⌋ = 1 := by rw [Int.floor_eq_iff]; norm_num
    rw [if_neg]
    · rw [round_eq]; norm_num
    · rw [Int.fract, hf]; norm_num
  have hlo : lowerInd 2 (9/10) = -1 := by
    unfold lowerInd pyRound
    have hf : ⌊((1 - 9/10) * (((2 : ℕ) : ℝ) ^ 2 - (2 : ℕ)))⌋ = 0 := by rw [Int.floor_eq_iff]; norm_num
    rw [if_neg]
    · rw [round_eq]; norm_num
    · rw [Int.fract, hf]; norm_num
  have hshr : shrinkExpand (init2ᵀ * init2) (9/10) (9/10) (init2ᵀ * init2) = !![1, 2/3; 2/3, 1] := by
    unfold shrinkExpand
    rw [hsort, hup, hlo, init2_gram]
    ext i j
    fin_cases i <;> fin_cases j <;> simp [pyIndex, offInd] <;> norm_num
  have hbody : grassBody 2 svd (init2ᵀ * init2) (9/10) (9/10) (init2ᵀ * init2) = some !![1, 2/3; 2/3, 1] := by
    unfold grassBody
    rw [hshr, truncate_eq (hsvd _) (by simpa using rank_le_height (!![1, 2/3; 2/3, 1] : Matrix (Fin 2) (Fin 2) ℝ))]
    unfold renormalise
    rw [if_pos (by intro i; fin_cases i <;> simp)]
    congr 1
    ext i j
    fin_cases i <;> fin_cases j <;> simp
  have hloop : grassLoop 2 svd (init2ᵀ * init2) (9/10) (9/10) 1 = some !![1, 2/3; 2/3, 1] := hbody
  have hpsd : (!![1, 2/3; 2/3, 1] : Matrix (Fin 2) (Fin 2) ℝ).PosSemidef := by
    refine PosSemidef.of_dotProduct_mulVec_nonneg ?_ ?_
    · ext i j; fin_cases i <;> fin_cases j <;> simp
    · intro x
      simp [dotProduct, mulVec, Fin.sum_univ_two]
      nlinarith [sq_nonneg (x 0 + x 1), sq_nonneg (x 0), sq_nonneg (x 1)]
  refine ⟨_, by unfold buildGrassmannianFrame; rw [hloop]; rfl, by rw [init2_gram]; simp, ?_⟩
  obtain ⟨h1, h2⟩ := c114_unit_atoms_iff (le_refl 2) svd hsvd init2 (9/10) (9/10) 1 (by simp) _ hloop _ (by unfold buildGrassmannianFrame; rw [hloop]; rfl)
  exact ⟨by rw [h2 hpsd]; simp, h1.2 hpsd⟩

/-- The unit norm atoms `(1, 0)`, `(0, 1)` and `(3/5, 4/5)`. -/
def init3 : Matrix (Fin 2) (Fin 3) ℝ := !![1, 0, 3/5; 0, 1, 4/5]

theorem init3_gram : init3ᵀ * init3 = !![1, 0, 3/5; 0, 1, 4/5; 3/5, 4/5, 1] := by
  ext i j
  fin_cases i <;> fin_cases j <;> simp [init3, mul_apply, Fin.sum_univ_two] <;> norm_num

/-- The Gram matrix of `init3` after the shrink. -/
def gram3 : Matrix (Fin 3) (Fin 3) ℝ := !![1, 0, 27/50; 0, 1, 18/25; 27/50, 18/25, 1]

theorem svd_cols {g : Matrix (Fin n) (Fin n) ℝ} {d : GSvd n} (hd : IsGSvd g d) (k : Fin n) :
    (∀ i, ∑ j, g i j * d.VT k j = d.s k * d.U i k) ∧ ∀ j, ∑ i, g i j * d.U i k = d.s k * d.VT k j := by
  have h1 : g * d.VTᵀ = d.U * diagonal d.s := by
    conv_lhs => rw [hd.factor]
    rw [Matrix.mul_assoc, hd.right, Matrix.mul_one]
  have h2 : d.Uᵀ * g = diagonal d.s * d.VT := by
    conv_lhs => rw [hd.factor]
    rw [← Matrix.mul_assoc, ← Matrix.mul_assoc, hd.left, Matrix.one_mul]
  constructor
  · intro i
    have := congrFun (congrFun h1 i) k
    rw [mul_apply, mul_diagonal] at this
    simpa [mul_comm] using this
  · intro j
    have := congrFun (congrFun h2 k) j
    rw [mul_apply, diagonal_mul] at this
    simpa [mul_comm] using this

/-- The least singular value is at most `‖g z‖ / ‖z‖`. -/
theorem svd_last_le {g : Matrix (Fin n) (Fin n) ℝ} {d : GSvd n} (hd : IsGSvd g d) (k : Fin n) (hk : ∀ i, i ≤ k) (z : Fin n → ℝ) :
    d.s k ^ 2 * (z ⬝ᵥ z) ≤ (g *ᵥ z) ⬝ᵥ (g *ᵥ z) := by
  have e1 : (g *ᵥ z) ⬝ᵥ (g *ᵥ z) = ∑ i, d.s i ^ 2 * ((d.VT *ᵥ z) i) ^ 2 := by
    have : g *ᵥ z = d.U *ᵥ (diagonal d.s *ᵥ (d.VT *ᵥ z)) := by
      conv_lhs => rw [hd.factor]
      simp [mulVec_mulVec, Matrix.mul_assoc]
    rw [this, dotProduct_mulVec, vecMul_mulVec, hd.left]
    generalize d.VT *ᵥ z = y
    simp [dotProduct, mulVec_diagonal]
    refine Finset.sum_congr rfl fun i _ => by ring
  have e2 : z ⬝ᵥ z = ∑ i, ((d.VT *ᵥ z) i) ^ 2 := by
    have : (d.VT *ᵥ z) ⬝ᵥ (d.VT *ᵥ z) = z ⬝ᵥ z := by
      rw [dotProduct_mulVec, vecMul_mulVec, mul_eq_one_comm.mp hd.right]
      simp
    rw [← this]
    simp [dotProduct, sq]
  rw [e1, e2, Finset.mul_sum]
  refine Finset.sum_le_sum fun i _ => mul_le_mul_of_nonneg_right ?_ (sq_nonneg _)
  exact pow_le_pow_left₀ (hd.nonneg k) (hd.anti (hk i)) 2

theorem gram3_scalar (s u0 u1 u2 v0 v1 v2 : ℝ) (hv : v0 * v0 + v1 * v1 + v2 * v2 = 1) (c10 : v0 + 27 / 50 * v2 = s * u0) (c11 : v1 + 18 / 25 * v2 = s * u1)
    (c12 : 27 / 50 * v0 + 18 / 25 * v1 + v2 = s * u2) (c20 : u0 + 27 / 50 * u2 = s * v0) (c21 : u1 + 18 / 25 * u2 = s * v1)
    (c22 : 27 / 50 * u0 + 18 / 25 * u1 + u2 = s * v2) (hs : s ^ 2 ≤ 1 / 100) (hnn : 0 ≤ s) :
    s = 1/10 ∧ u0 = -(3/5) * v2 ∧ u1 = -(4/5) * v2 ∧ v0 = -(3/5) * v2 ∧ v1 = -(4/5) * v2 ∧ u2 = v2 ∧ v2 * v2 = 1/2 := by
  have p1 : 4/5 * v0 - 3/5 * v1 = 0 := by
    have a : 4/5 * v0 - 3/5 * v1 = s * (4/5 * u0 - 3/5 * u1) := by linarith
    have b : 4/5 * u0 - 3/5 * u1 = s * (4/5 * v0 - 3/5 * v1) := by linarith
    have c : (4/5 * v0 - 3/5 * v1) * (1 - s ^ 2) = 0 := by linear_combination a + s * b
    rcases mul_eq_zero.1 c with h | h
    · exact h
    · linarith
  have p2 : 3/5 * v0 + 4/5 * v1 + v2 = 0 := by
    have a : 19/10 * (3/5 * v0 + 4/5 * v1 + v2) = s * (3/5 * u0 + 4/5 * u1 + u2) := by linarith
    have b : 19/10 * (3/5 * u0 + 4/5 * u1 + u2) = s * (3/5 * v0 + 4/5 * v1 + v2) := by linarith
    have c : (3/5 * v0 + 4/5 * v1 + v2) * ((19/10) ^ 2 - s ^ 2) = 0 := by linear_combination (19/10) * a + s * b
    rcases mul_eq_zero.1 c with h | h
    · exact h
    · linarith
  have hv0 : v0 = -(3/5) * v2 := by linarith
  have hv1 : v1 = -(4/5) * v2 := by linarith
  subst hv0 hv1
  have hv2 : v2 * v2 = 1/2 := by linarith
  have hv2ne : v2 ≠ 0 := by rintro rfl; norm_num at hv2
  have q1 : 4/5 * u0 - 3/5 * u1 = 0 := by linarith
  have q2 : 3/5 * u0 + 4/5 * u1 + u2 = 0 := by linarith
  have hu0 : u0 = -(3/5) * u2 := by linarith
  have hu1 : u1 = -(4/5) * u2 := by linarith
  subst hu0 hu1
  have a : 1/10 * v2 = s * u2 := by linarith
  have b : 1/10 * u2 = s * v2 := by linarith
  have c : v2 * ((1/10 - s) * (1/10 + s)) = 0 := by linear_combination (1/10) * a + s * b
  have hs' : s = 1/10 := by
    rcases mul_eq_zero.1 ((mul_eq_zero.1 c).resolve_left hv2ne) with h | h <;> linarith
  subst hs'
  have hu : u2 = v2 := by linarith
  subst hu
  exact ⟨rfl, rfl, rfl, rfl, rfl, rfl, hv2⟩

theorem gram3_truncate {d : GSvd 3} (hd : IsGSvd gram3 d) :
    truncate 2 d = !![1 - 9/500, -12/500, 27/50 + 3/100; -12/500, 1 - 16/500, 18/25 + 4/100; 27/50 + 3/100, 18/25 + 4/100, 1 - 1/20] := by
  have hT : ∀ i j, truncate 2 d i j = gram3 i j - d.s 2 * (d.U i 2 * d.VT 2 j) := by
    intro i j
    conv_rhs => rw [hd.factor]
    unfold truncate
    rw [mul_apply, mul_apply]
    simp only [mul_diagonal]
    simp [Fin.sum_univ_three]
    ring
  obtain ⟨c1, c2⟩ := svd_cols hd 2
  have hle := svd_last_le hd 2 (fun i => Fin.le_last i) ![3/5, 4/5, -1]
  have hnn := hd.nonneg 2
  have hv : ∑ j, d.VT 2 j * d.VT 2 j = 1 := by
    have := congrFun (congrFun hd.right 2) 2
    rw [mul_apply] at this
    simpa using this
  generalize d.s 2 = s at *
  obtain ⟨u, hu'⟩ : ∃ u : Fin 3 → ℝ, ∀ i, d.U i 2 = u i := ⟨fun i => d.U i 2, fun _ => rfl⟩
  obtain ⟨v, hv'⟩ : ∃ v : Fin 3 → ℝ, ∀ i, d.VT 2 i = v i := ⟨fun i => d.VT 2 i, fun _ => rfl⟩
  have hTs : truncate 2 d = Matrix.of fun i j => gram3 i j - s * (u i * v j) := by
    ext i j; rw [hT, hu', hv']; rfl
  rw [hTs]
  simp only [hu', hv'] at c1 c2 hv
  obtain ⟨u0, hu0⟩ : ∃ x, u 0 = x := ⟨_, rfl⟩
  obtain ⟨u1, hu1⟩ : ∃ x, u 1 = x := ⟨_, rfl⟩
  obtain ⟨u2, hu2⟩ : ∃ x, u 2 = x := ⟨_, rfl⟩
  obtain ⟨v0, hv0⟩ : ∃ x, v 0 = x := ⟨_, rfl⟩
  obtain ⟨v1, hv1⟩ : ∃ x, v 1 = x := ⟨_, rfl⟩
  obtain ⟨v2, hv2⟩ : ∃ x, v 2 = x := ⟨_, rfl⟩
  have hE : (Matrix.of fun i j => gram3 i j - s * (u i * v j)) = Matrix.of fun i j => gram3 i j - s * (![u0, u1, u2] i * ![v0, v1, v2] j) := by
    ext i j; fin_cases i <;> fin_cases j <;> simp [hu0, hu1, hu2, hv0, hv1, hv2]
  rw [hE]
  have c10 := c1 0; have c11 := c1 1; have c12 := c1 2
  have c20 := c2 0; have c21 := c2 1; have c22 := c2 2
  simp only [Fin.sum_univ_three] at c10 c11 c12 c20 c21 c22 hv
  simp only [hu0, hu1, hu2, hv0, hv1, hv2] at c10 c11 c12 c20 c21 c22 hv
  clear hE hTs hu0 hu1 hu2 hv0 hv1 hv2
  simp [gram3, dotProduct, mulVec, Fin.sum_univ_three] at c10 c11 c12 c20 c21 c22 hle
  obtain ⟨rfl, rfl, rfl, rfl, rfl, rfl, h2⟩ := gram3_scalar s u0 u1 u2 v0 v1 v2 hv c10 c11 c12 c20 c21 c22 (by nlinarith) hnn
  clear hd hT c1 c2 c10 c11 c12 c20 c21 c22 hle hv hnn
  ext i j
  fin_cases i <;> fin_cases j <;> simp [gram3] <;> linarith

/-- One pass from three unit norm atoms with fraction `1/3` and factor `9/10`: the Gram matrix is no longer symmetric, and the atoms of the returned frame do not all
have unit norm. -/
theorem c114_unit_atoms_fails (svd : Matrix (Fin 3) (Fin 3) ℝ → GSvd 3) (hsvd : ∀ a, IsGSvd a (svd a)) :
    (∀ j, ∑ k, init3 k j ^ 2 = 1) ∧
    ∃ F, buildGrassmannianFrame (by norm_num : 2 ≤ 3) svd init3 (1/3) (9/10) 1 = some F ∧ ¬ ∀ j, ∑ k, F k j ^ 2 = 1 := by
  refine ⟨fun j => by fin_cases j <;> simp [init3, Fin.sum_univ_two] <;> norm_num, ?_⟩
  have hsort : sortedAbs (init3ᵀ * init3) = [0, 0, 3/5, 3/5, 4/5, 4/5, 1, 1, 1] := by
    rw [init3_gram]
    refine sortedAbs_eq _ _ ?_ (by norm_num)
    have e : ((List.finRange 3).flatMap fun i => (List.finRange 3).map fun j => |(!![1, 0, 3/5; 0, 1, 4/5; 3/5, 4/5, 1] : Matrix (Fin 3) (Fin 3) ℝ) i j|)
        = ([5, 0, 3, 0, 5, 4, 3, 4, 5] : List ℕ).map fun k : ℕ => (k : ℝ) / 5 := by
      simp [List.finRange_succ, abs_of_pos]
    have e2 : ([0, 0, 3/5, 3/5, 4/5, 4/5, 1, 1, 1] : List ℝ) = ([0, 0, 3, 3, 4, 4, 5, 5, 5] : List ℕ).map fun k : ℕ => (k : ℝ) / 5 := by simp
    rw [e, e2]
    exact List.Perm.map _ (by decide : ([5, 0, 3, 0, 5, 4, 3, 4, 5] : List ℕ).Perm [0, 0, 3, 3, 4, 4, 5, 5, 5])
  have hup : upperInd 3 (1/3) = 1 := by
    have e : (1/3 * (((3 : ℕ) : ℝ) ^ 2 - (3 : ℕ))) = ((2 : ℤ) : ℝ) := by norm_num
    rw [upperInd, e, pyRound_int]; norm_num
  have hlo : lowerInd 3 (1/3) = 3 := by
    have e : ((1 - 1/3) * (((3 : ℕ) : ℝ) ^ 2 - (3 : ℕ))) = ((4 : ℤ) : ℝ) := by norm_num
    rw [lowerInd, e, pyRound_int]; norm_num
  have hshr : shrinkExpand (init3ᵀ * init3) (1/3) (9/10) (init3ᵀ * init3) = gram3 := by
    unfold shrinkExpand
    rw [hsort, hup, hlo, init3_gram]
    ext i j
    fin_cases i <;> fin_cases j <;> simp [pyIndex, offInd, gram3, abs_of_pos] <;> norm_num
  have hT := gram3_truncate (hsvd gram3)
  obtain ⟨g', hbody⟩ : ∃ g', grassBody 2 svd (init3ᵀ * init3) (1/3) (9/10) (init3ᵀ * init3) = some g' := by
    unfold grassBody
    rw [hshr, hT]
    unfold renormalise
    rw [if_pos (by intro i; fin_cases i <;> simp <;> norm_num)]
    exact ⟨_, rfl⟩
  have hloop : grassLoop 2 svd (init3ᵀ * init3) (1/3) (9/10) 1 = some g' := hbody
  have hb : buildGrassmannianFrame (by norm_num : 2 ≤ 3) svd init3 (1/3) (9/10) 1 = some (frameOf (by norm_num) (svd g')) := by
    unfold buildGrassmannianFrame; rw [hloop]; rfl
  refine ⟨_, hb, fun hc => ?_⟩
  have hps := (c114_unit_atoms_iff (by norm_num) svd hsvd init3 (1/3) (9/10) 1 (by simp) g' hloop _ hb).1.1 hc
  rw [← hshr] at hT
  refine c114_pass_asymmetric svd _ _ _ _ _ hbody _ hT.symm ?_ 0 1 (by simp) (by simp) ?_
  · ext i j; fin_cases i <;> fin_cases j <;> simp
  · have := hps.1.apply 1 0
    simpa using this

/-! ## A small `frac` -/

theorem sortedAbs_mem (g : Matrix (Fin n) (Fin n) ℝ) (i j : Fin n) : |g i j| ∈ sortedAbs g := by
  unfold sortedAbs
  rw [List.mem_mergeSort]
  simp only [List.mem_flatMap, List.mem_map, List.mem_finRange, true_and]
  exact ⟨i, j, rfl⟩

/-- Index `-1` of the sorted magnitudes is the largest of them. -/
theorem sortedAbs_last (g : Matrix (Fin n) (Fin n) ℝ) (i j : Fin n) : |g i j| ≤ pyIndex (sortedAbs g) (-1) := by
  obtain ⟨k, hk, e⟩ := List.getElem_of_mem (sortedAbs_mem g i j)
  have hs : (sortedAbs g).Pairwise (fun a b => (decide (a ≤ b)) = true) :=
    List.pairwise_mergeSort (le := fun a b : ℝ => decide (a ≤ b)) (by simpa using fun a b c => le_trans) (by simpa using le_total) _
  have e1 : pyIndex (sortedAbs g) (-1) = (sortedAbs g)[(sortedAbs g).length - 1]'(by omega) := by
    unfold pyIndex
    have : ((if (-1 : ℤ) < 0 then -1 + ((sortedAbs g).length : ℤ) else -1).toNat) = (sortedAbs g).length - 1 := by
      rw [if_pos (by norm_num)]; omega
    simp only [this, min_self]
    rw [List.getD_eq_getElem _ _ (by omega)]
  rw [← e, e1]
  rcases Nat.lt_or_ge k ((sortedAbs g).length - 1) with h | h
  · have := List.pairwise_iff_getElem.1 hs k _ hk (by omega) h
    simpa using this
  · have : k = (sortedAbs g).length - 1 := by omega
    subst this; exact le_rfl

/-- **C114** `frac` is the fraction of the inner products that are kept, yet when it is so small that `round(frac * (n² - n)) = 0` the index wraps round to the largest inner product and
nothing is shrunk: entries are only expanded or kept. -/
theorem c114_small_frac_fails (g0 g : Matrix (Fin n) (Fin n) ℝ) (frac shrinkMu : ℝ) (h : pyRound (frac * ((n : ℝ) ^ 2 - n)) = 0) (i j : Fin n) :
    shrinkExpand g0 frac shrinkMu g i j = g i j ∨ shrinkExpand g0 frac shrinkMu g i j = g i j / shrinkMu := by
  have hu : upperInd n frac = -1 := by rw [upperInd, h]; norm_num
  have hno : ¬ (offInd g0 i j ∧ |g i j| > pyIndex (sortedAbs g) (upperInd n frac)) := fun hc => by
    rw [hu] at hc
    exact absurd (sortedAbs_last g i j) (not_le.2 hc.2)
  unfold shrinkExpand
  simp only [of_apply, if_neg hno]
  split_ifs <;> simp

example : pyRound (0 * (((5 : ℕ) : ℝ) ^ 2 - (5 : ℕ))) = 0 := by
  rw [zero_mul]
  simpa using pyRound_int 0

/-- A function with the documented semantics of the singular value decomposition exists, so the theorems are not vacuous: one pass over three atoms in dimension two. -/
example : ∃ (svd : Matrix (Fin 3) (Fin 3) ℝ → GSvd 3) (F : Matrix (Fin 2) (Fin 3) ℝ) (g : Matrix (Fin 3) (Fin 3) ℝ),
    buildGrassmannianFrame (by norm_num : 2 ≤ 3) svd init3 (1/3) (9/10) 1 = some F ∧ grassLoop 2 svd (init3ᵀ * init3) (1/3) (9/10) 1 = some g ∧
    (∀ i, g i i = 1) ∧ g.rank ≤ 2 ∧ ¬ g.PosSemidef ∧ grassBody 2 svd (init3ᵀ * init3) (1/3) (9/10) (init3ᵀ * init3) = some g := by
  obtain ⟨svd, hsvd⟩ := exists_gsvd 3
  obtain ⟨-, F, hF, hne⟩ := c114_unit_atoms_fails svd hsvd
  obtain ⟨g, hg, -, -⟩ := c114_gram_sq (by norm_num) svd hsvd init3 (1/3) (9/10) 1 (fun h => absurd h one_ne_zero) F hF
  have hu := c114_unit_atoms_iff (by norm_num) svd hsvd init3 (1/3) (9/10) 1 (fun h => absurd h one_ne_zero) g hg F hF
  have hl := c114_loop_invariant svd init3 (1/3) (9/10) 1 (fun h => absurd h one_ne_zero) g hg
  have hb : grassBody 2 svd (init3ᵀ * init3) (1/3) (9/10) (init3ᵀ * init3) = some g := hg
  exact ⟨svd, F, g, hF, hg, fun i => c114_pass_unit_diagonal (m := 2) svd _ _ _ _ g hb i, c114_pass_rank svd _ _ _ _ g hb, fun h => hne (hu.1.2 h), hb⟩

example := c114_shrink_symmetric (init3ᵀ * init3) (init3ᵀ * init3) (1/3) (9/10) (by rw [IsSymm, transpose_mul, transpose_transpose])
  (by rw [IsSymm, transpose_mul, transpose_transpose])

example : ∃ svd : Matrix (Fin 2) (Fin 2) ℝ → GSvd 2, ∃ F, buildGrassmannianFrame (le_refl 2) svd init2 (9/10) (9/10) 1 = some F ∧ (Fᵀ * F) 0 1 = 2/3 := by
  obtain ⟨svd, hsvd⟩ := exists_gsvd 2
  obtain ⟨F, h1, -, h2, -⟩ := c114_coherence_fails svd hsvd
  exact ⟨svd, F, h1, h2⟩

example (g0 g : Matrix (Fin 5) (Fin 5) ℝ) := c114_small_frac_fails g0 g 0 (9/10) (by
  rw [zero_mul]
  simpa using pyRound_int 0)

end Verif.Dict
