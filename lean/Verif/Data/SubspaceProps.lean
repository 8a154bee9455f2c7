import Verif.Data.SubspaceModel
import Mathlib.Tactic.NormNum
import Mathlib.Tactic.Linarith
import Mathlib.Tactic.FieldSimp
import Mathlib.Algebra.BigOperators.Group.Finset.Piecewise
import Mathlib.LinearAlgebra.Matrix.NonsingularInverse

set_option autoImplicit false
/-!
# Synthetic subspaces (C72)
-/
noncomputable section
namespace Verif.Data

variable {E : Type*} [NormedAddCommGroup E] [InnerProductSpace ℝ E]

/-- The Gram matrix of two lists of vectors, entry by entry. -/
def GramIs (A B : List E) (G : ℕ → ℕ → ℝ) : Prop := ∀ i (hi : i < A.length) j (hj : j < B.length), inner ℝ A[i] B[j] = G i j

/-- The columns are orthonormal. -/
def IsOnb (A : List E) : Prop := GramIs A A fun i j => if i = j then 1 else 0

/-- The only non-zero inner product between the two bases is `p`, between the two first vectors. -/
def AtAngle (A B : List E) (p : ℝ) : Prop := GramIs A B fun i j => if i = 0 ∧ j = 0 then p else 0

/-- `w` beyond the first `k` columns is orthogonal to the columns of `X`. -/
theorem IsFullSvd.perp {N : ℕ} {X : List E} {w : ℕ → E} (h : IsFullSvd N X w) (x : E) (hx : x ∈ X) (i : ℕ) (hi : X.length ≤ i) (hiN : i < N) : inner ℝ x (w i) = 0 := by
  obtain ⟨c, rfl⟩ := h.span x hx
  rw [sum_inner]
  refine Finset.sum_eq_zero fun r hr => ?_
  rw [Finset.mem_range] at hr
  rw [inner_smul_left, h.orth r (by omega) i hiN, if_neg (by omega), mul_zero]

/-- The list `x :: (Y.take t).drop s` is `x` followed by `w (s+k), …, w (t+k-1)`. -/
theorem slice_get (N k : ℕ) (w : ℕ → E) (x : E) (s t i : ℕ) (hi : i + 1 < (x :: ((complementCols N k w).take t).drop s).length) :
    (x :: ((complementCols N k w).take t).drop s)[i + 1] = w (s + i + k) ∧ s + i + k < N ∧ s + i < t := by
  have hl : i < (((complementCols N k w).take t).drop s).length := by simpa using hi
  have hl2 : i < min t (N - k) - s := by simpa [complementCols] using hl
  refine ⟨?_, by omega, by omega⟩
  simp [complementCols]

theorem slice_length (N k : ℕ) (w : ℕ → E) (x : E) (s t : ℕ) : (x :: ((complementCols N k w).take t).drop s).length = 1 + (min t (N - k) - s) := by
  simp [complementCols]; omega

theorem onb_slice (N k : ℕ) (w : ℕ → E) (X : List E) (hX : X.length = k) (hw : IsFullSvd N X w) (x : E) (hx : x ∈ X) (h1 : inner ℝ x x = (1 : ℝ)) (s t : ℕ) :
    IsOnb (x :: ((complementCols N k w).take t).drop s) := by
  intro i hi j hj
  cases i with
  | zero =>
    cases j with
    | zero => simpa using h1
    | succ j =>
      obtain ⟨e, hN, _⟩ := slice_get N k w x s t j hj
      rw [e]
      simp only [List.getElem_cons_zero]
      rw [hw.perp x hx _ (by omega) hN]; simp
  | succ i =>
    obtain ⟨e, hN, _⟩ := slice_get N k w x s t i hi
    cases j with
    | zero =>
      rw [e]
      simp only [List.getElem_cons_zero]
      rw [real_inner_comm, hw.perp x hx _ (by omega) hN]; simp
    | succ j =>
      obtain ⟨e', hN', _⟩ := slice_get N k w x s t j hj
      rw [e, e', hw.orth _ hN _ hN']
      congr 1
      rw [eq_iff_iff]; omega

theorem angle_slice (N k : ℕ) (w : ℕ → E) (X : List E) (hX : X.length = k) (hw : IsFullSvd N X w) (x y : E) (hx : x ∈ X) (hy : y ∈ X) (p : ℝ) (h1 : inner ℝ x y = p) (s t s' t' : ℕ) (hst : t ≤ s') :
    AtAngle (x :: ((complementCols N k w).take t).drop s) (y :: ((complementCols N k w).take t').drop s') p := by
  intro i hi j hj
  cases i with
  | zero =>
    cases j with
    | zero => simpa using h1
    | succ j =>
      obtain ⟨e, hN, _⟩ := slice_get N k w y s' t' j hj
      rw [e]
      simp only [List.getElem_cons_zero]
      rw [hw.perp x hx _ (by omega) hN]; simp
  | succ i =>
    obtain ⟨e, hN, hlt⟩ := slice_get N k w x s t i hi
    cases j with
    | zero =>
      rw [e]
      simp only [List.getElem_cons_zero]
      rw [real_inner_comm, hw.perp y hy _ (by omega) hN]; simp
    | succ j =>
      obtain ⟨e', hN', _⟩ := slice_get N k w y s' t' j hj
      rw [e, e', hw.orth _ hN _ hN', if_neg (by omega)]
      simp

theorem cosDeg_sq_le (theta : ℝ) : 0 ≤ 1 - cosDeg theta ^ 2 := by
  have := Real.cos_sq_le_one (theta * (Real.pi / 180))
  unfold cosDeg; linarith

theorem firstOfB_inner (a1 a2 : E) (h11 : inner ℝ a1 a1 = (1 : ℝ)) (h12 : inner ℝ a1 a2 = (0 : ℝ)) (h22 : inner ℝ a2 a2 = (1 : ℝ)) (p : ℝ) (hp : 0 ≤ 1 - p ^ 2) :
    inner ℝ (firstOfB a1 a2 p) (firstOfB a1 a2 p) = (1 : ℝ) ∧ inner ℝ a1 (firstOfB a1 a2 p) = p := by
  have h21 : inner ℝ a2 a1 = (0 : ℝ) := by rw [real_inner_comm]; exact h12
  unfold firstOfB
  constructor
  · simp only [inner_add_left, inner_add_right, inner_smul_left, inner_smul_right, h11, h12, h21, h22, conj_trivial]
    have := Real.mul_self_sqrt hp
    nlinarith
  · simp only [inner_add_right, inner_smul_right, h11, h12]; ring

/-- **C72** for every angle and every outcome of the factorisations: if `N ≥ 2D`, both bases have `D` orthonormal columns, and the only non-zero inner product between them is `cos(theta)` between the first columns. -/
theorem c72_two_subspaces (N D : ℕ) (hD : 1 ≤ D) (hN : 2 * D ≤ N) (theta : ℝ) (u w : ℕ → E) (hu : ∀ i < 2, ∀ j < 2, inner ℝ (u i) (u j) = if i = j then (1 : ℝ) else 0)
    (hw : IsFullSvd N [u 0, firstOfB (u 0) (u 1) (cosDeg theta)] w) :
    let r := twoSubspaces N D theta u w
    r.1.length = D ∧ r.2.length = D ∧ IsOnb r.1 ∧ IsOnb r.2 ∧ AtAngle r.1 r.2 (Real.cos (theta * (Real.pi / 180))) := by
  have u00 : inner ℝ (u 0) (u 0) = (1 : ℝ) := by simpa using hu 0 (by omega) 0 (by omega)
  have u01 : inner ℝ (u 0) (u 1) = (0 : ℝ) := by simpa using hu 0 (by omega) 1 (by omega)
  have u11 : inner ℝ (u 1) (u 1) = (1 : ℝ) := by simpa using hu 1 (by omega) 1 (by omega)
  obtain ⟨hb1, hb2⟩ := firstOfB_inner (u 0) (u 1) u00 u01 u11 (cosDeg theta) (cosDeg_sq_le theta)
  have eA : (twoSubspaces N D theta u w).1 = u 0 :: ((complementCols N 2 w).take (D - 1)).drop 0 := by simp [twoSubspaces]
  have eB : (twoSubspaces N D theta u w).2 = firstOfB (u 0) (u 1) (cosDeg theta) :: ((complementCols N 2 w).take (2 * D - 2)).drop (D - 1) := rfl
  intro r
  have eA' : r.1 = _ := eA
  have eB' : r.2 = _ := eB
  rw [eA', eB']
  refine ⟨?_, ?_, ?_, ?_, ?_⟩
  · rw [slice_length]; omega
  · rw [slice_length]; omega
  · exact onb_slice N 2 w _ rfl hw _ (by simp) u00 _ _
  · exact onb_slice N 2 w _ rfl hw _ (by simp) hb1 _ _
  · exact angle_slice N 2 w _ rfl hw _ _ (by simp) (by simp) _ hb2 _ _ _ _ le_rfl

/-- **C72** the number of columns: without `2D ≤ N` (and `D > 1`) the second basis is shorter than requested. -/
theorem c72_two_room (N D : ℕ) (hD : 1 ≤ D) (hN : 2 ≤ N) (theta : ℝ) (u w : ℕ → E) :
    ((twoSubspaces N D theta u w).1.length = D ∧ (twoSubspaces N D theta u w).2.length = D) ↔ 2 * D ≤ N := by
  have eA : (twoSubspaces N D theta u w).1 = u 0 :: ((complementCols N 2 w).take (D - 1)).drop 0 := by simp [twoSubspaces]
  have eB : (twoSubspaces N D theta u w).2 = firstOfB (u 0) (u 1) (cosDeg theta) :: ((complementCols N 2 w).take (2 * D - 2)).drop (D - 1) := rfl
  rw [eA, eB, slice_length, slice_length]
  omega

theorem combine_inner (x : E) : ∀ (A : List E) (cs : List ℝ), inner ℝ x (combine A cs) = ((List.zipWith (fun a c => c * inner ℝ x a) A cs).sum)
  | [], cs => by cases cs <;> simp [combine]
  | a :: A, [] => by simp [combine]
  | a :: A, c :: cs => by simp [combine, inner_add_right, inner_smul_right, combine_inner x A cs]

theorem zipWith_sum_zero (f : E → ℝ → ℝ) : ∀ (A : List E) (cs : List ℝ), (∀ i (hi : i < A.length) c, f A[i] c = 0) → (List.zipWith f A cs).sum = 0
  | [], cs, _ => by cases cs <;> simp
  | a :: A, [], _ => by simp
  | a :: A, c :: cs, h => by
    rw [List.zipWith_cons_cons, List.sum_cons, zipWith_sum_zero f A cs fun i hi c => h (i + 1) (by simpa using hi) c]
    have := h 0 (by simp) c
    simp only [List.getElem_cons_zero] at this
    rw [this, zero_add]

theorem onb_tail {a : E} {A : List E} (h : IsOnb (a :: A)) : IsOnb A := by
  intro i hi j hj
  have := h (i + 1) (by simpa using hi) (j + 1) (by simpa using hj)
  simpa using this

theorem combine_norm : ∀ (A : List E) (cs : List ℝ), IsOnb A → cs.length = A.length → ‖combine A cs‖ ^ 2 = (cs.map fun c => c ^ 2).sum
  | [], [], _, _ => by simp [combine]
  | [], _ :: _, _, h => by simp at h
  | a :: A, [], _, h => by simp at h
  | a :: A, c :: cs, h, hl => by
    have ih := combine_norm A cs (onb_tail h) (by simpa using hl)
    have h1 : inner ℝ a a = (1 : ℝ) := (h 0 (by simp) 0 (by simp)).trans (if_pos rfl)
    have h0 : inner ℝ a (combine A cs) = (0 : ℝ) := by
      rw [combine_inner]
      refine zipWith_sum_zero _ A cs fun i hi c => ?_
      have := h 0 (by simp) (i + 1) (by simpa using hi)
      simp only [List.getElem_cons_zero, List.getElem_cons_succ] at this
      rw [this]; simp
    rw [combine, ← real_inner_self_eq_norm_sq, inner_add_left, inner_add_right, inner_add_right, real_inner_self_eq_norm_sq (combine A cs), ih,
      real_inner_comm (c • a) (combine A cs)]
    simp only [inner_smul_left, inner_smul_right, h0, h1, conj_trivial, List.map_cons, List.sum_cons]
    ring

/-- **C72** `cos(theta)` is the largest cosine between the two subspaces (the smallest principal angle): for all combinations `x` of the one and `y` of the other basis, `|⟨x, y⟩| ≤ |cos(theta)| |x| |y|`. -/
theorem c72_principal_angle (A B : List E) (hA : IsOnb A) (hB : IsOnb B) (p : ℝ) (h : AtAngle A B p) (cs ds : List ℝ) (hc : cs.length = A.length) (hd : ds.length = B.length) :
    |inner ℝ (combine A cs) (combine B ds)| ≤ |p| * ‖combine A cs‖ * ‖combine B ds‖ := by
  cases A with
  | nil => simp [combine]
  | cons a A =>
  cases B with
  | nil => simp [combine]
  | cons b B =>
  cases cs with
  | nil => simp at hc
  | cons c cs =>
  cases ds with
  | nil => simp at hd
  | cons d ds =>
    have nA := combine_norm _ _ hA hc
    have nB := combine_norm _ _ hB hd
    have hab : inner ℝ a b = p := (h 0 (by simp) 0 (by simp)).trans (if_pos ⟨rfl, rfl⟩)
    have haB : ∀ ds, inner ℝ a (combine B ds) = (0 : ℝ) := by
      intro ds
      rw [combine_inner]
      refine zipWith_sum_zero _ B ds fun j hj c => ?_
      have := h 0 (by simp) (j + 1) (by simpa using hj)
      simp only [List.getElem_cons_zero, List.getElem_cons_succ] at this
      rw [this]; simp
    have hAb : inner ℝ (combine A cs) b = (0 : ℝ) := by
      rw [real_inner_comm, combine_inner]
      refine zipWith_sum_zero _ A cs fun i hi c => ?_
      have := h (i + 1) (by simpa using hi) 0 (by simp)
      simp only [List.getElem_cons_zero, List.getElem_cons_succ] at this
      rw [real_inner_comm, this]; simp
    have hAB : inner ℝ (combine A cs) (combine B ds) = (0 : ℝ) := by
      rw [combine_inner]
      refine zipWith_sum_zero _ B ds fun j hj d => ?_
      rw [real_inner_comm, combine_inner, zipWith_sum_zero, mul_zero]
      intro i hi c
      have := h (i + 1) (by simpa using hi) (j + 1) (by simpa using hj)
      simp only [List.getElem_cons_succ] at this
      rw [real_inner_comm, this]; simp
    have key : inner ℝ (combine (a :: A) (c :: cs)) (combine (b :: B) (d :: ds)) = c * d * p := by
      simp only [combine, inner_add_left, inner_add_right, inner_smul_left, inner_smul_right, hab, haB, hAb, hAB, conj_trivial]
      ring
    rw [key, abs_mul, abs_mul]
    have hnn : ∀ l : List ℝ, 0 ≤ (l.map fun c => c ^ 2).sum := fun l => List.sum_nonneg (by intro a ha; obtain ⟨c, _, rfl⟩ := List.mem_map.mp ha; positivity)
    have bA : |c| ≤ ‖combine (a :: A) (c :: cs)‖ := by
      refine abs_le.mpr (abs_le_of_sq_le_sq' ?_ (norm_nonneg _))
      rw [nA, List.map_cons, List.sum_cons]; linarith [hnn cs]
    have bB : |d| ≤ ‖combine (b :: B) (d :: ds)‖ := by
      refine abs_le.mpr (abs_le_of_sq_le_sq' ?_ (norm_nonneg _))
      rw [nB, List.map_cons, List.sum_cons]; linarith [hnn ds]
    have : |c| * |d| ≤ ‖combine (a :: A) (c :: cs)‖ * ‖combine (b :: B) (d :: ds)‖ := mul_le_mul bA bB (abs_nonneg _) (norm_nonneg _)
    nlinarith [abs_nonneg p]

theorem c3_identity (p : ℝ) (h : 0 < 1 - p ^ 2) : 1 - p ^ 2 - (p * (1 - p) / Real.sqrt (1 - p ^ 2)) ^ 2 = (1 - p) * (1 + 2 * p) / (1 + p) := by
  have hp : 1 + p ≠ 0 := by intro h0; have : p = -1 := by linarith
                            rw [this] at h; norm_num at h
  have hm : 1 - p ≠ 0 := by intro h0; have : p = 1 := by linarith
                            rw [this] at h; norm_num at h
  rw [div_pow, Real.sq_sqrt h.le]
  have : 1 - p ^ 2 = (1 - p) * (1 + p) := by ring
  rw [this]
  field_simp
  ring

/-- **C72** the three subspaces exist exactly when `-1/2 ≤ cos(theta) < 1`; for `theta = 0` the result is `nan`. -/
theorem c72_three_domain (N D : ℕ) (theta : ℝ) (u w : ℕ → E) :
    (∃ r, threeSubspaces N D theta u w = some r) ↔ -1 / 2 ≤ Real.cos (theta * (Real.pi / 180)) ∧ Real.cos (theta * (Real.pi / 180)) < 1 := by
  have hle : cosDeg theta ≤ 1 := Real.cos_le_one _
  have hge : -1 ≤ cosDeg theta := Real.neg_one_le_cos _
  show _ ↔ -1 / 2 ≤ cosDeg theta ∧ cosDeg theta < 1
  unfold threeSubspaces firstOfC
  generalize cosDeg theta = p at *
  by_cases h0 : 1 - p ^ 2 = 0
  · rw [if_pos h0]
    constructor
    · rintro ⟨_, h⟩; cases h
    · rintro ⟨h1, h2⟩; nlinarith
  · rw [if_neg h0]
    have hpos : 0 < 1 - p ^ 2 := lt_of_le_of_ne (by nlinarith) (Ne.symm h0)
    have hp1 : p < 1 := by
      rcases lt_or_eq_of_le hle with h | h
      · exact h
      · rw [h] at h0; norm_num at h0
    have hpm : 0 < 1 + p := by
      rcases lt_or_eq_of_le hge with h | h
      · linarith
      · rw [← h] at h0; norm_num at h0
    have key : 1 - p ^ 2 - (p * (1 - p) / Real.sqrt (1 - p ^ 2)) ^ 2 < 0 ↔ p < -1 / 2 := by
      rw [c3_identity p hpos, div_lt_iff₀ hpm, zero_mul]
      constructor
      · intro h; by_contra hc; rw [not_lt] at hc
        have : 0 ≤ (1 - p) * (1 + 2 * p) := mul_nonneg (by linarith) (by linarith)
        linarith
      · intro h; exact mul_neg_of_pos_of_neg (by linarith) (by linarith)
    simp only
    split_ifs with h1
    · rw [key] at h1
      constructor
      · rintro ⟨_, h⟩; cases h
      · rintro ⟨h2, _⟩; linarith
    · rw [key, not_lt] at h1
      exact ⟨fun _ => ⟨h1, hp1⟩, fun _ => ⟨_, rfl⟩⟩

/-- **C72** for `-1/2 ≤ cos(theta) < 1` and `N ≥ 3D`: the three bases have `D` orthonormal columns and are pairwise at the angle `theta`. -/
theorem c72_three_subspaces_partial (N D : ℕ) (hD : 1 ≤ D) (hN : 3 * D ≤ N) (theta : ℝ) (u w : ℕ → E) (hu : ∀ i < 3, ∀ j < 3, inner ℝ (u i) (u j) = if i = j then (1 : ℝ) else 0)
    (hw : ∀ c1, firstOfC (u 0) (u 1) (u 2) (cosDeg theta) = some c1 → IsFullSvd N [u 0, firstOfB (u 0) (u 1) (cosDeg theta), c1] w)
    (A B C : List E) (h : threeSubspaces N D theta u w = some (A, B, C)) :
    A.length = D ∧ B.length = D ∧ C.length = D ∧ IsOnb A ∧ IsOnb B ∧ IsOnb C ∧
    AtAngle A B (Real.cos (theta * (Real.pi / 180))) ∧ AtAngle A C (Real.cos (theta * (Real.pi / 180))) ∧ AtAngle B C (Real.cos (theta * (Real.pi / 180))) := by
  have u00 : inner ℝ (u 0) (u 0) = (1 : ℝ) := by simpa using hu 0 (by omega) 0 (by omega)
  have u01 : inner ℝ (u 0) (u 1) = (0 : ℝ) := by simpa using hu 0 (by omega) 1 (by omega)
  have u02 : inner ℝ (u 0) (u 2) = (0 : ℝ) := by simpa using hu 0 (by omega) 2 (by omega)
  have u10 : inner ℝ (u 1) (u 0) = (0 : ℝ) := by simpa using hu 1 (by omega) 0 (by omega)
  have u11 : inner ℝ (u 1) (u 1) = (1 : ℝ) := by simpa using hu 1 (by omega) 1 (by omega)
  have u12 : inner ℝ (u 1) (u 2) = (0 : ℝ) := by simpa using hu 1 (by omega) 2 (by omega)
  have u20 : inner ℝ (u 2) (u 0) = (0 : ℝ) := by simpa using hu 2 (by omega) 0 (by omega)
  have u21 : inner ℝ (u 2) (u 1) = (0 : ℝ) := by simpa using hu 2 (by omega) 1 (by omega)
  have u22 : inner ℝ (u 2) (u 2) = (1 : ℝ) := by simpa using hu 2 (by omega) 2 (by omega)
  obtain ⟨hb1, hb2⟩ := firstOfB_inner (u 0) (u 1) u00 u01 u11 (cosDeg theta) (cosDeg_sq_le theta)
  have hdom := (c72_three_domain N D theta u w).mp ⟨_, h⟩
  unfold threeSubspaces at h
  cases hc : firstOfC (u 0) (u 1) (u 2) (cosDeg theta) with
  | none => rw [hc] at h; cases h
  | some c1 =>
    rw [hc] at h
    simp only [Option.map_some, Option.some_inj, Prod.mk.injEq] at h
    obtain ⟨rfl, rfl, rfl⟩ := h
    have hw' := hw c1 hc
    have hp1 : 0 ≤ 1 - cosDeg theta ^ 2 := cosDeg_sq_le theta
    unfold firstOfC at hc
    split_ifs at hc with h0
    simp only at hc
    split_ifs at hc with h1
    rw [Option.some_inj] at hc
    have hpos : 0 < 1 - cosDeg theta ^ 2 := lt_of_le_of_ne hp1 (Ne.symm h0)
    have hsq : Real.sqrt (1 - cosDeg theta ^ 2) ≠ 0 := (Real.sqrt_pos.mpr hpos).ne'
    rw [not_lt] at h1
    have hc1 : inner ℝ c1 c1 = (1 : ℝ) := by
      rw [← hc]
      simp only [inner_add_left, inner_add_right, inner_smul_left, inner_smul_right, u00, u01, u02, u10, u11, u12, u20, u21, u22, conj_trivial]
      have := Real.mul_self_sqrt h1
      nlinarith
    have hac : inner ℝ (u 0) c1 = cosDeg theta := by
      rw [← hc]
      simp only [inner_add_right, inner_smul_right, u00, u01, u02]; ring
    have hbc : inner ℝ (firstOfB (u 0) (u 1) (cosDeg theta)) c1 = cosDeg theta := by
      rw [← hc]
      unfold firstOfB
      simp only [inner_add_left, inner_add_right, inner_smul_left, inner_smul_right, u00, u01, u02, u10, u11, u12, conj_trivial]
      field_simp
      ring
    have eA : u 0 :: (complementCols N 3 w).take (D - 1) = u 0 :: ((complementCols N 3 w).take (D - 1)).drop 0 := by simp
    rw [eA]
    refine ⟨by rw [slice_length]; omega, by rw [slice_length]; omega, by rw [slice_length]; omega, ?_, ?_, ?_, ?_, ?_, ?_⟩
    · exact onb_slice N 3 w _ rfl hw' _ (by simp) u00 _ _
    · exact onb_slice N 3 w _ rfl hw' _ (by simp) hb1 _ _
    · exact onb_slice N 3 w _ rfl hw' _ (by simp) hc1 _ _
    · exact angle_slice N 3 w _ rfl hw' _ _ (by simp) (by simp) _ hb2 _ _ _ _ le_rfl
    · exact angle_slice N 3 w _ rfl hw' _ _ (by simp) (by simp) _ hac _ _ _ _ (by omega)
    · exact angle_slice N 3 w _ rfl hw' _ _ (by simp) (by simp) _ hbc _ _ _ _ le_rfl

/-- **C72** at angle zero `three_subspaces_at_angle` gives `nan`, whatever the draws. -/
theorem c72_three_zero_fails (N D : ℕ) (u w : ℕ → E) : threeSubspaces N D 0 u w = none := by
  by_contra h
  have := (c72_three_domain N D 0 u w).mp (Option.ne_none_iff_exists'.mp h)
  simp at this

theorem unitCol_norm (cs : List ℝ) (h : ∃ c ∈ cs, c ≠ 0) : ((unitCol cs).map fun c => c ^ 2).sum = 1 := by
  obtain ⟨c, hc, h0⟩ := h
  have hpos : 0 < (cs.map fun c => c ^ 2).sum := by
    have h1 := List.single_le_sum (l := cs.map fun c : ℝ => c ^ 2) (by intro a ha; obtain ⟨c, _, rfl⟩ := List.mem_map.mp ha; positivity) (c ^ 2) (List.mem_map.mpr ⟨c, hc, rfl⟩)
    have : 0 < c ^ 2 := by positivity
    linarith
  unfold unitCol
  rw [List.map_map]
  generalize hS : (cs.map fun c => c ^ 2).sum = S at *
  have : ((fun c : ℝ => c ^ 2) ∘ fun c => c / Real.sqrt S) = fun c => c ^ 2 * S⁻¹ := by
    funext c; simp only [Function.comp, div_pow, Real.sq_sqrt hpos.le]; rfl
  rw [this]
  have h2 : ∀ l : List ℝ, (l.map fun c => c ^ 2 * S⁻¹).sum = (l.map fun c => c ^ 2).sum * S⁻¹ := by
    intro l
    induction l with
    | nil => simp
    | cons a l ih => simp only [List.map_cons, List.sum_cons, ih]; ring
  rw [h2, hS, mul_inv_cancel₀ hpos.ne']

theorem points_fold (F : ℕ → ℕ → E) (n : ℕ) (X0 : ℕ → E) : ∀ K q, (List.range K).foldl (fun X i => fun q => if i * n ≤ q ∧ q < i * n + n then F i (q - i * n) else X q) X0 q =
    if q < K * n then F (q / n) (q % n) else X0 q
  | 0, q => by simp
  | K + 1, q => by
    rw [List.range_succ, List.foldl_append, List.foldl_cons, List.foldl_nil, points_fold F n X0 K q]
    have e : (K + 1) * n = K * n + n := by ring
    rw [e]
    by_cases h1 : q < K * n
    · rw [if_neg (by omega), if_pos h1, if_pos (by omega)]
    · by_cases h2 : q < K * n + n
      · rw [if_pos ⟨by omega, h2⟩, if_pos h2]
        have hn : 0 < n := by omega
        have hd : q / n = K := by
          rw [Nat.div_eq_iff hn]
          constructor
          · omega
          · omega
        rw [hd]
        congr 1
        have := Nat.div_add_mod q n
        rw [hd, mul_comm] at this
        omega
      · rw [if_neg (by omega), if_neg h1, if_neg h2]

/-- **C72** `uniform_points_on_subspaces`: column `i*n + j` is the combination of basis `i` with the normalised `j`-th column of coefficients; it is a unit vector when the basis is orthonormal and the drawn column is not zero. -/
theorem c72_uniform_points (bases : List (List E)) (n : ℕ) (coeffs : ℕ → ℕ → List ℝ) (i j : ℕ) (hi : i < bases.length) (hj : j < n) :
    uniformPoints bases n coeffs (i * n + j) = combine bases[i] (unitCol (coeffs i j)) ∧
    (IsOnb bases[i] → (coeffs i j).length = bases[i].length → (∃ c ∈ coeffs i j, c ≠ 0) → ‖uniformPoints bases n coeffs (i * n + j)‖ = 1) := by
  have e : uniformPoints bases n coeffs (i * n + j) = combine bases[i] (unitCol (coeffs i j)) := by
    unfold uniformPoints
    rw [points_fold (fun i j => combine (bases.getD i []) (unitCol (coeffs i j)))]
    have hlt : i * n + j < bases.length * n := by
      have : (i + 1) * n ≤ bases.length * n := Nat.mul_le_mul_right n hi
      nlinarith
    have hn : 0 < n := by omega
    rw [if_pos hlt, add_comm, Nat.add_mul_div_right _ _ hn, Nat.div_eq_of_lt hj, zero_add, Nat.add_mul_mod_self_right, Nat.mod_eq_of_lt hj]
    simp [List.getD_eq_getElem?_getD, hi]
  refine ⟨e, fun h1 h2 h3 => ?_⟩
  rw [e]
  have := combine_norm bases[i] (unitCol (coeffs i j)) h1 (by simpa [unitCol] using h2)
  rw [unitCol_norm _ h3] at this
  have h0 := norm_nonneg (combine bases[i] (unitCol (coeffs i j)))
  nlinarith

open Matrix in
/-- **C72** every basis of `random_subspaces` has orthonormal columns, for all draws, and its columns span those of the drawn matrix. -/
theorem c72_random_subspaces {n m : ℕ} (A Q : Matrix (Fin n) (Fin m) ℝ) (R : Matrix (Fin m) (Fin m) ℝ) (h : Verif.Dict.IsQR A Q R) (bits : Fin m → Bool) :
    (randomBasis Q bits)ᵀ * randomBasis Q bits = 1 ∧ ∃ R' : Matrix (Fin m) (Fin m) ℝ, randomBasis Q bits * R' = A := by
  set d : Fin m → ℝ := fun j => 2 * (if bits j then 1 else 0) - 1 with hd
  have hdd : ∀ j, d j * d j = 1 := by intro j; simp only [hd]; split_ifs <;> norm_num
  have e : randomBasis Q bits = Q * diagonal d := by
    ext i j; simp [randomBasis, hd, Matrix.mul_diagonal]
  have hD : diagonal d * diagonal d = 1 := by
    rw [diagonal_mul_diagonal]; simp only [hdd]; exact diagonal_one
  refine ⟨?_, diagonal d * R, ?_⟩
  · rw [e, transpose_mul, diagonal_transpose, Matrix.mul_assoc, ← Matrix.mul_assoc Qᵀ, h.orth, Matrix.one_mul, hD]
  · rw [e, Matrix.mul_assoc, ← Matrix.mul_assoc (diagonal d), hD, Matrix.one_mul, h.prod]

/-- Non-vacuity: any two orthonormal vectors serve as their own completed factorisation in a plane. -/
theorem ex_fullSvd (u : ℕ → E) (hu : ∀ i < 2, ∀ j < 2, inner ℝ (u i) (u j) = if i = j then (1 : ℝ) else 0) (theta : ℝ) : IsFullSvd 2 [u 0, firstOfB (u 0) (u 1) (cosDeg theta)] u := by
  refine ⟨hu, fun x hx => ?_⟩
  simp only [List.mem_cons, List.not_mem_nil, or_false] at hx
  rcases hx with rfl | rfl
  · exact ⟨fun r => if r = 0 then 1 else 0, by simp [Finset.sum_range_succ]⟩
  · exact ⟨fun r => if r = 0 then cosDeg theta else Real.sqrt (1 - cosDeg theta ^ 2), by simp [Finset.sum_range_succ, firstOfB, add_comm]⟩

section
variable {E : Type*} [NormedAddCommGroup E] [InnerProductSpace ℝ E]

/-- Two lines of a plane. -/
example (u : ℕ → E) (hu : ∀ i < 2, ∀ j < 2, inner ℝ (u i) (u j) = if i = j then (1 : ℝ) else 0) := c72_two_subspaces 2 1 le_rfl le_rfl 30 u u hu (ex_fullSvd u hu 30)

/-- Two orthonormal vectors. -/
example : ∃ u : ℕ → EuclideanSpace ℝ (Fin 2), ∀ i < 2, ∀ j < 2, inner ℝ (u i) (u j) = if i = j then (1 : ℝ) else 0 := by
  refine ⟨fun i => if i = 0 then EuclideanSpace.single 0 1 else EuclideanSpace.single 1 1, fun i hi j hj => ?_⟩
  interval_cases i <;> interval_cases j <;> simp [EuclideanSpace.inner_single_left]

example (u w : ℕ → E) := c72_two_room 5 2 (by norm_num) (by norm_num) 30 u w

example (u : ℕ → E) (hu : ∀ i < 2, ∀ j < 2, inner ℝ (u i) (u j) = if i = j then (1 : ℝ) else 0) :=
  c72_principal_angle _ _ (c72_two_subspaces 2 1 le_rfl le_rfl 30 u u hu (ex_fullSvd u hu 30)).2.2.1 (c72_two_subspaces 2 1 le_rfl le_rfl 30 u u hu (ex_fullSvd u hu 30)).2.2.2.1 _
    (c72_two_subspaces 2 1 le_rfl le_rfl 30 u u hu (ex_fullSvd u hu 30)).2.2.2.2 [2] [-3]

/-- Three lines at 60 degrees in space: here the factorisation may return the three given vectors. -/
example (u : ℕ → E) (hu : ∀ i < 3, ∀ j < 3, inner ℝ (u i) (u j) = if i = j then (1 : ℝ) else 0) : ∃ A B C, threeSubspaces 3 1 60 u u = some (A, B, C) ∧
    AtAngle B C (Real.cos (60 * (Real.pi / 180))) := by
  have hc : cosDeg 60 = 1 / 2 := by
    have h : (60 : ℝ) * (Real.pi / 180) = Real.pi / 3 := by ring
    rw [cosDeg, h, Real.cos_pi_div_three]
  have h3 : Real.sqrt (1 - (1 / 2 : ℝ) ^ 2) ^ 2 = 3 / 4 := by rw [Real.sq_sqrt] <;> norm_num
  obtain ⟨c1, hc1⟩ : ∃ c1, firstOfC (u 0) (u 1) (u 2) (cosDeg 60) = some c1 := by
    rw [hc, firstOfC, if_neg (by norm_num)]
    dsimp only
    rw [if_neg (by rw [div_pow (1 / 2 * (1 - 1 / 2) : ℝ), h3]; norm_num)]
    exact ⟨_, rfl⟩
  have hw : ∀ c1, firstOfC (u 0) (u 1) (u 2) (cosDeg 60) = some c1 → IsFullSvd 3 [u 0, firstOfB (u 0) (u 1) (cosDeg 60), c1] u := by
    intro c hc'
    refine ⟨hu, fun x hx => ?_⟩
    simp only [List.mem_cons, List.not_mem_nil, or_false] at hx
    rcases hx with rfl | rfl | rfl
    · exact ⟨fun r => if r = 0 then 1 else 0, by simp [Finset.sum_range_succ]⟩
    · exact ⟨fun r => if r = 0 then cosDeg 60 else if r = 1 then Real.sqrt (1 - cosDeg 60 ^ 2) else 0, by simp [Finset.sum_range_succ, firstOfB, add_comm]⟩
    · rw [firstOfC] at hc'
      split at hc'
      · simp at hc'
      dsimp only at hc'
      split at hc'
      · simp at hc'
      obtain rfl := Option.some.inj hc'
      exact ⟨fun r => if r = 0 then cosDeg 60 else if r = 1 then cosDeg 60 * (1 - cosDeg 60) / Real.sqrt (1 - cosDeg 60 ^ 2) else
        Real.sqrt (1 - cosDeg 60 ^ 2 - (cosDeg 60 * (1 - cosDeg 60) / Real.sqrt (1 - cosDeg 60 ^ 2)) ^ 2), by simp [Finset.sum_range_succ]⟩
  have ht : ∃ r, threeSubspaces 3 1 60 u u = some r := ⟨_, by rw [threeSubspaces, hc1, Option.map_some]⟩
  obtain ⟨⟨A, B, C⟩, h⟩ := ht
  exact ⟨A, B, C, h, (c72_three_subspaces_partial 3 1 le_rfl le_rfl 60 u u hu hw A B C h).2.2.2.2.2.2.2.2⟩

example (a b : E) := c72_uniform_points [[a], [b]] 3 (fun i j => [i + j + 1]) 1 2 (by norm_num) (by norm_num)

example (bits : Fin 2 → Bool) := c72_random_subspaces (1 : Matrix (Fin 2) (Fin 2) ℝ) 1 1 ⟨by simp, by simp, fun i j hij => Matrix.one_apply_ne hij.ne'⟩ bits
end

end Verif.Data
