import Verif.Lop.BasicModel
import Verif.Lop.AlgebraProps

set_option autoImplicit false

/-!
# Properties of the elementary operators (C02, C03, C04, C11, C12)
-/
set_option linter.unusedSectionVars false
namespace Verif.Lop
variable {R : Type*} [CommRing R] [StarRing R]

/-! ## C02: adjointness -/

theorem pair_take_pad (a b : ℕ) (h : b ≤ a) :
    AdjointPair (R := R) b a (fun x => x.take b) (fun x => pad 0 (a - b) x) := by
  refine ⟨fun x hx => by simp [hx]; omega, fun y hy => by simp [hy]; omega, fun x y hx hy => ?_⟩
  conv_rhs => rw [← List.take_append_drop b x]
  rw [pad, List.replicate_zero, List.nil_append, vdot_append (by simp [hx, hy]; omega),
    vdot_replicate_zero_right, add_zero]

theorem pair_identity (a b : ℕ) :
    AdjointPair (R := R) b a (identity a b).times (identity a b).trans := by
  unfold identity
  split
  · rename_i h; subst h; exact AdjointPair.id a
  · split
    · rename_i h0 h; exact pair_take_pad a b (by omega)
    · rename_i h0 h; exact (pair_take_pad b a (by omega)).symm

theorem pair_matrix (m n : ℕ) (a : ℕ → ℕ → R) (c : Bool) :
    AdjointPair m n (matrix m n a c).times (matrix m n a c).trans := by
  refine AdjointPair.of_sum (fun x _ => by simp [matrix, matVec]) (fun y _ => by simp [matrix, vecMat]) ?_
  intro x y hx hy
  have h1 : ∀ i ∈ Finset.range m, star (ent ((matrix m n a c).times x) i) * ent y i =
      ∑ j ∈ Finset.range n, star (a i j) * star (ent x j) * ent y i := by
    intro i hi
    simp only [matrix]
    rw [matVec, ent_tab _ (Finset.mem_range.mp hi), star_sum, Finset.sum_mul]
    simp
  have h2 : ∀ j ∈ Finset.range n, star (ent x j) * ent ((matrix m n a c).trans y) j =
      ∑ i ∈ Finset.range m, star (a i j) * star (ent x j) * ent y i := by
    intro j hj
    simp only [matrix]
    rw [ent_vconj, vecMat, ent_tab _ (Finset.mem_range.mp hj), star_sum, Finset.mul_sum]
    refine Finset.sum_congr rfl fun i _ => ?_
    rw [ent_vconj, star_mul, star_star]; ring
  rw [Finset.sum_congr rfl h1, Finset.sum_congr rfl h2, Finset.sum_comm]

theorem pair_realMatrix (m n : ℕ) (a : ℕ → ℕ → R)
    (ha : ∀ i j, i < m → j < n → star (a i j) = a i j) :
    AdjointPair m n (realMatrix m n a).times (realMatrix m n a).trans := by
  refine AdjointPair.of_sum (fun x _ => by simp [realMatrix, matVec]) (fun y _ => by simp [realMatrix, vecMat]) ?_
  intro x y hx hy
  have h1 : ∀ i ∈ Finset.range m, star (ent ((realMatrix m n a).times x) i) * ent y i =
      ∑ j ∈ Finset.range n, a i j * star (ent x j) * ent y i := by
    intro i hi
    simp only [realMatrix]
    rw [matVec, ent_tab _ (Finset.mem_range.mp hi), star_sum, Finset.sum_mul]
    refine Finset.sum_congr rfl fun j hj => ?_
    rw [star_mul', ha i j (Finset.mem_range.mp hi) (Finset.mem_range.mp hj)]
  have h2 : ∀ j ∈ Finset.range n, star (ent x j) * ent ((realMatrix m n a).trans y) j =
      ∑ i ∈ Finset.range m, a i j * star (ent x j) * ent y i := by
    intro j hj
    simp only [realMatrix]
    rw [vecMat, ent_tab _ (Finset.mem_range.mp hj), Finset.mul_sum]
    refine Finset.sum_congr rfl fun i _ => ?_
    ring
  rw [Finset.sum_congr rfl h1, Finset.sum_congr rfl h2, Finset.sum_comm]

theorem pair_diagonal (d : List R) :
    AdjointPair d.length d.length (diagonal d).times (diagonal d).trans := by
  refine AdjointPair.of_sum (fun x hx => by simp [diagonal, hx]) (fun y hy => by simp [diagonal, hy]) ?_
  intro x y _ _
  refine Finset.sum_congr rfl fun i _ => ?_
  simp only [diagonal]
  rw [ent_vmul, ent_vmul, ent_vconj, star_mul]; ring

theorem pair_scalarMult (alpha : R) (n : ℕ) :
    AdjointPair n n (scalarMult alpha n).times (scalarMult alpha n).trans :=
  (AdjointPair.id n).smul alpha

theorem pair_zero (a b : ℕ) : AdjointPair (R := R) b a (zero a b).times (zero a b).trans :=
  ⟨fun _ _ => by simp [zero], fun _ _ => by simp [zero], fun x y _ _ => by
    simp [zero, vdot_replicate_zero_left, vdot_replicate_zero_right]⟩

theorem pair_flipud (n : ℕ) : AdjointPair (R := R) n n (flipud n).times (flipud n).trans :=
  ⟨fun x hx => by simp [flipud, hx], fun x hx => by simp [flipud, hx], fun x y hx hy => by
    have := vdot_reverse (x := x) (y := y.reverse) (by simp [hx, hy])
    simpa [flipud] using this⟩

theorem vdot_replicate (n : ℕ) (a : R) (x : List R) (hx : x.length = n) :
    vdot x (List.replicate n a) = star x.sum * a := by
  induction n generalizing x with
  | zero => simp [List.length_eq_zero_iff.mp hx]
  | succ n ih =>
    match x, hx with
    | b :: x, hx =>
      rw [List.replicate_succ, vdot_cons, ih x (by simpa using hx), List.sum_cons, star_add]; ring

theorem pair_sum (n : ℕ) : AdjointPair (R := R) 1 n (sum n).times (sum n).trans := by
  refine ⟨fun x hx => by simp [sum], fun y hy => ?_, fun x y hx hy => ?_⟩
  · match y, hy with
    | [b], _ => simp [sum]
  · match y, hy with
    | [b], _ => simp [sum, vdot_replicate n b x hx]

theorem pair_padZeros (n b a : ℕ) :
    AdjointPair (R := R) (b + n + a) n (padZeros n b a).times (padZeros n b a).trans := by
  refine ⟨fun x hx => by simp [padZeros, hx], fun y hy => by simp [padZeros, hy], ?_⟩
  intro x y hx hy
  have hy' : y = y.take b ++ slice b (b + n) y ++ y.drop (b + n) := by
    unfold slice
    have h1 : y.take b = (y.take (b + n)).take b := by
      rw [List.take_take, Nat.min_eq_left (by omega)]
    rw [h1, List.take_append_drop, List.take_append_drop]
  simp only [padZeros, pad]
  conv_lhs => rw [hy']
  rw [vdot_append (by simp [hx, hy]; omega), vdot_append (by simp [hy]; omega),
    vdot_replicate_zero_left, vdot_replicate_zero_left, zero_add, add_zero]

theorem pair_symmetrize (n : ℕ) :
    AdjointPair (R := R) (2 * n) n (symmetrize n).times (symmetrize n).trans := by
  refine ⟨fun x hx => by simp [symmetrize, hx]; omega, fun y hy => by simp [symmetrize, hy]; omega, ?_⟩
  intro x y hx hy
  simp only [symmetrize]
  conv_lhs => rw [← List.take_append_drop n y]
  rw [vdot_append (by simp [hx, hy]; omega), vdot_vadd_right _ (by simp [hy]; omega), add_comm,
    ← vdot_reverse (x := x.reverse) (by simp [hx, hy]; omega), List.reverse_reverse]

/-- The elementary constructors of C02 (those whose trans function must be the exact adjoint). -/
inductive BasicOp : Op R → Prop
  | identity (a b : ℕ) : BasicOp (identity a b)
  | matrix (m n : ℕ) (a : ℕ → ℕ → R) (c : Bool) : BasicOp (matrix m n a c)
  | realMatrix (m n : ℕ) (a : ℕ → ℕ → R) (ha : ∀ i j, i < m → j < n → star (a i j) = a i j) :
      BasicOp (realMatrix m n a)
  | diagonal (d : List R) : BasicOp (diagonal d)
  | scalarMult (alpha : R) (n : ℕ) : BasicOp (scalarMult alpha n)
  | zero (a b : ℕ) : BasicOp (zero a b)
  | flipud (n : ℕ) : BasicOp (flipud n)
  | sum (n : ℕ) : BasicOp (sum n)
  | padZeros (n b a : ℕ) : BasicOp (padZeros n b a)
  | symmetrize (n : ℕ) : BasicOp (symmetrize n)

/-- **C02** Every elementary operator, of every shape, has a `trans` that is the exact Hermitian
adjoint of its `times` (`real_matrix` requires real entries, as documented). -/
theorem c02_elementary_adjoint (T : Op R) (h : BasicOp T) :
    AdjointPair T.shape.1 T.shape.2 T.times T.trans := by
  cases h with
  | identity a b =>
    have : (identity (R := R) a b).shape = (b, a) := by
      unfold identity; split
      · rfl
      · split <;> rfl
    rw [this]; exact pair_identity a b
  | matrix m n a c => exact pair_matrix m n a c
  | realMatrix m n a ha => exact pair_realMatrix m n a ha
  | diagonal d => exact pair_diagonal d
  | scalarMult alpha n => exact pair_scalarMult alpha n
  | zero a b => exact pair_zero a b
  | flipud n => exact pair_flipud n
  | sum n => exact pair_sum n
  | padZeros n b a => exact pair_padZeros n b a
  | symmetrize n => exact pair_symmetrize n

example : BasicOp (matrix 2 3 (fun i j => (i : ℤ) - j) true) ∧
    (matrix 2 3 (fun i j => (i : ℤ) - j) true).times [1, 1, 1] = [-3, 0] ∧
    (identity 4 2 : Op ℤ).times [1, 2, 3, 4] = [1, 2] ∧ (identity 2 4 : Op ℤ).times [1, 2] = [1, 2, 0, 0] ∧
    (symmetrize 2 : Op ℤ).trans [1, 2, 3, 4] = [3 + 2, 4 + 1] :=
  ⟨.matrix _ _ _ _, by decide, by decide, by decide, by decide⟩

/-- **C02, second half** What each elementary operator computes, entry by entry. -/
theorem c02_elementary_entries (n m : ℕ) (x : List R) (hx : x.length = n) :
    (∀ i, i < m → ent ((identity n m).times x) i = if i < n then ent x i else 0) ∧
    (∀ a c i, i < m → ent ((matrix m n a c).times x) i = ∑ j ∈ Finset.range n, a i j * ent x j) ∧
    (∀ a i, i < m → ent ((realMatrix m n a).times x) i = ∑ j ∈ Finset.range n, a i j * ent x j) ∧
    (∀ d i, ent ((diagonal d).times x) i = ent d i * ent x i) ∧
    (∀ a i, ent ((scalarMult a n).times x) i = a * ent x i) ∧
    (∀ i, ent ((zero n m).times x) i = 0) ∧
    (∀ i, i < n → ent ((flipud n).times x) i = ent x (n - 1 - i)) ∧
    ((sum n).times x = [∑ j ∈ Finset.range n, ent x j]) ∧
    (∀ b a i, ent ((padZeros n b a).times x) i = if b ≤ i ∧ i < b + n then ent x (i - b) else 0) ∧
    (∀ i, i < 2 * n → ent ((symmetrize n).times x) i =
      if i < n then ent x (n - 1 - i) else ent x (i - n)) := by
  refine ⟨?_, ?_, ?_, ?_, ?_, ?_, ?_, ?_, ?_, ?_⟩
  · intro i hi
    unfold identity
    split
    · rename_i h; subst h; simp [hi]
    · split
      · rename_i h0 h
        simp only [ent_take hi]; rw [if_pos (by omega)]
      · simp [ent_pad, hx]
  · intro a c i hi; exact ent_tab _ hi
  · intro a i hi; exact ent_tab _ hi
  · intro d i; exact ent_vmul
  · intro a i; exact ent_smul
  · intro i; exact ent_replicate_zero _ _
  · intro i hi
    show ent x.reverse i = _
    rw [ent_reverse (by omega), hx]
  · have : x.sum = ∑ j ∈ Finset.range n, ent x j := by
      subst hx
      induction x with
      | nil => simp
      | cons a x ih =>
        rw [List.sum_cons, List.length_cons, Finset.sum_range_succ', ih]
        simp only [ent_cons_succ, ent_cons_zero]; ring
    simp [sum, this]
  · intro b a i
    show ent (pad b a x) i = _
    rw [ent_pad, hx]
  · intro i hi
    show ent (x.reverse ++ x) i = _
    rw [ent_append]
    simp only [List.length_reverse, hx]
    split
    · rename_i h; rw [ent_reverse (by omega), hx]
    · rfl

example : ent ((flipud 3 : Op ℤ).times [1, 2, 3]) 0 = 3 ∧
    (symmetrize 2 : Op ℤ).times [1, 2] = [2, 1, 1, 2] ∧
    (padZeros 2 1 2 : Op ℤ).times [7, 8] = [0, 7, 8, 0, 0] ∧
    (sum 3 : Op ℤ).trans [5] = [5, 5, 5] := by decide

/-! ## C03 -/

theorem pair_restriction (n : ℕ) (I : List ℕ) (hnd : I.Nodup) (hI : ∀ i ∈ I, i < n) :
    AdjointPair (R := R) I.length n (restriction n I).times (restriction n I).trans := by
  refine AdjointPair.of_sum (fun x hx => by simp [restriction]) (fun y hy => by simp [restriction]) ?_
  intro x y hx hy
  simp only [restriction]
  rw [scatter_sum I y hy.symm hnd hI _ (by simp) _ (fun i _ => ent_replicate_zero _ _)]
  simp only [ent_replicate_zero, mul_zero, Finset.sum_const_zero, zero_add]
  refine Finset.sum_congr rfl fun k hk => ?_
  rw [ent_gather (Finset.mem_range.mp hk)]

theorem ent_scatterSet_zero {I : List ℕ} {z : List R} {i : ℕ} (k : ℕ) (hk : I.length ≤ k) (h : i ∈ I) :
    ent (scatterSet z I (List.replicate k 0)) i = 0 := by
  induction I generalizing z k with
  | nil => simp at h
  | cons a I ih =>
    match k, hk with
    | k + 1, hk =>
      have e : scatterSet z (a :: I) (List.replicate (k + 1) 0) =
          scatterSet (z.set a 0) I (List.replicate k 0) := rfl
      rw [e]
      by_cases h' : i ∈ I
      · exact ih k (by simpa using hk) h'
      · rw [ent_scatterSet_of_notMem h', ent_set]
        have : a = i := by
          rcases List.mem_cons.mp h with h | h
          · exact h.symm
          · exact absurd h h'
        subst this
        split
        · rfl
        · rename_i hlt
          exact ent_eq_zero (by simpa using hlt)

theorem exists_dup_of_not_nodup (I : List ℕ) (h : ¬ I.Nodup) :
    ∃ I1 i I2, I = I1 ++ i :: I2 ∧ i ∈ I2 := by
  induction I with
  | nil => simp at h
  | cons a I ih =>
    by_cases ha : a ∈ I
    · exact ⟨[], a, I, rfl, ha⟩
    · obtain ⟨I1, i, I2, rfl, hi⟩ := ih (fun hn => h (List.nodup_cons.mpr ⟨ha, hn⟩))
      exact ⟨a :: I1, i, I2, rfl, hi⟩

/-- **C03** `restriction(n, I)` picks exactly the entries named by `I`, in order. -/
theorem c03_restriction_picks (n : ℕ) (I : List ℕ) (x : List R) :
    ((restriction n I).times x).length = I.length ∧
    ∀ k, k < I.length → ent ((restriction n I).times x) k = ent x (I.getD k 0) :=
  ⟨by simp [restriction], fun _ hk => ent_gather hk⟩

/-- **C03 (the code violates the property for repeated indices)** For in-range index lists
`restriction(n, I)` is adjoint-consistent if and only if no index repeats. -/
theorem c03_restriction_adjoint_iff [Nontrivial R] (n : ℕ) (I : List ℕ) (hI : ∀ i ∈ I, i < n) :
    AdjointPair (R := R) (restriction (R := R) n I).shape.1 (restriction (R := R) n I).shape.2
      (restriction n I).times (restriction n I).trans ↔ I.Nodup := by
  constructor
  · intro h
    by_contra hnd
    obtain ⟨I1, i, I2, rfl, hi⟩ := exists_dup_of_not_nodup I hnd
    have hin : i < n := hI i (by simp)
    set y : List R := List.replicate I1.length 0 ++ 1 :: List.replicate I2.length 0 with hy
    have hyl : y.length = (I1 ++ i :: I2).length := by simp [hy]
    have := h.adjoint (unitVec n i) y (by simp [restriction]) (by simp [restriction, hy])
    have e1 : vdot ((restriction (R := R) n (I1 ++ i :: I2)).times (unitVec n i)) y = 1 := by
      simp only [restriction, gather, List.map_append, List.map_cons, hy]
      rw [vdot_append (by simp), vdot_cons, vdot_replicate_zero_right, vdot_replicate_zero_right]
      have : ent (unitVec (R := R) n i) i = 1 := by
        show (unitVec (R := R) n i).getD i 0 = 1
        rw [getD_unitVec n i i hin]; simp
      simp [this]
    have e2 : vdot (unitVec n i) ((restriction (R := R) n (I1 ++ i :: I2)).trans y) = 0 := by
      rw [vdot_unitVec_left (by simp [restriction]) hin]
      show ent _ i = 0
      simp only [restriction, scatterSet, hy]
      rw [List.zip_append (by simp), List.foldl_append, List.zip_cons_cons, List.foldl_cons]
      exact ent_scatterSet_zero (I := I2) I2.length le_rfl hi
    rw [e1, e2] at this
    exact one_ne_zero this
  · intro h; exact pair_restriction n I h hI

example : AdjointPair (R := ℤ) 2 4 (restriction 4 [2, 0]).times (restriction 4 [2, 0]).trans :=
  (c03_restriction_adjoint_iff 4 [2, 0] (by decide)).mpr (by decide)

/-- The concrete failing case: `restriction(1, [0, 0])`. -/
example : ¬ AdjointPair (R := ℤ) 2 1 (restriction 1 [0, 0]).times (restriction 1 [0, 0]).trans :=
  fun h => absurd ((c03_restriction_adjoint_iff (R := ℤ) 1 [0, 0] (by decide)).mp h) (by decide)

/-- **C03 (partial)** `partial_op(A, picks, perm)` computes `(A x[perm])[picks]` and its `trans` is the
exact adjoint.  Missing: repeated picks, for which the claim is false (same scatter as `restriction`). -/
theorem c03_partial_op_partial (A : Op R) (hA : AdjointPair A.shape.1 A.shape.2 A.times A.trans)
    (picks : List ℕ) (hnd : picks.Nodup) (hp : ∀ i ∈ picks, i < A.shape.1)
    (perm : Option (List ℕ))
    (hperm : ∀ p ∈ perm, p.Perm (List.range A.shape.2)) :
    AdjointPair (partialOp A picks perm).shape.1 (partialOp A picks perm).shape.2
      (partialOp A picks perm).times (partialOp A picks perm).trans ∧
    ∀ x, x.length = A.shape.2 → ∀ k, k < picks.length →
      ent ((partialOp A picks perm).times x) k =
        ent (A.times (match perm with
          | none => x
          | some p => (List.range A.shape.2).map fun j => ent x (p.getD j 0))) (picks.getD k 0) := by
  have hR := pair_restriction (R := R) A.shape.1 picks hnd hp
  cases perm with
  | none =>
    refine ⟨AdjointPair.comp (f := (restriction A.shape.1 picks).times)
      (g := (restriction A.shape.1 picks).trans) (f' := A.times) (g' := A.trans) hR hA, ?_⟩
    intro x hx k hk
    exact ent_gather hk
  | some p =>
    have hpp := hperm p rfl
    have hlen : p.length = A.shape.2 := by simpa using hpp.length_eq
    have hP := pair_restriction (R := R) A.shape.2 p (hpp.nodup_iff.mpr List.nodup_range)
      (fun i hi => by simpa using hpp.mem_iff.mp hi)
    rw [hlen] at hP
    have h2 := AdjointPair.comp (f := fun x => (restriction A.shape.1 picks).times (A.times x))
      (g := fun y => A.trans ((restriction A.shape.1 picks).trans y))
      (AdjointPair.comp (f := (restriction A.shape.1 picks).times)
      (g := (restriction A.shape.1 picks).trans) (f' := A.times) (g' := A.trans) hR hA) hP
    constructor
    · refine ⟨h2.times_length, ?_, ?_⟩
      · intro y hy
        have hl : (A.trans (scatterSet (List.replicate A.shape.1 0) picks y)).length = A.shape.2 :=
          hA.trans_length _ (by simp)
        simp [partialOp, hl]
      · intro x y hx hy
        have hl : (A.trans (scatterSet (List.replicate A.shape.1 0) picks y)).length = A.shape.2 :=
          hA.trans_length _ (by simp)
        have := h2.adjoint x y hx hy
        simp only [partialOp, hl]
        exact this
    · intro x hx k hk
      have : gather x p = (List.range A.shape.2).map fun j => ent x (p.getD j 0) := by
        apply ext_getD (n := A.shape.2) (by simp [hlen]) (by simp)
        intro j hj
        show ent _ j = ent _ j
        rw [ent_gather (by omega), ent_tab _ hj]
      simp only [partialOp, ← this]
      exact ent_gather hk

example : AdjointPair demoA.shape.1 demoA.shape.2 demoA.times demoA.trans ∧
    [2, 0, 1].Perm (List.range demoA.shape.2) ∧
    (partialOp demoA [1] (some [2, 0, 1])).times [10, 20, 30] = [4 * 30 + 5 * 10 + 6 * 20] :=
  ⟨demoA_good, by decide, by decide⟩

/-! ## C04 -/

section Heaviside
variable {𝕜 : Type*} [RCLike 𝕜]

theorem ent_sqrtW {n k : ℕ} (h : k < n) : ent (sqrtW 𝕜 n) k = ((√((n - k : ℕ) : ℝ) : ℝ) : 𝕜) :=
  ent_tab _ h

theorem ent_sqrtWi {n k : ℕ} (h : k < n) :
    ent (sqrtWi 𝕜 n) k = 1 / ((√((n - k : ℕ) : ℝ) : ℝ) : 𝕜) := by
  unfold sqrtWi sqrtW
  rw [List.map_map]
  exact ent_tab _ h

@[simp] theorem length_sqrtW (n : ℕ) : (sqrtW 𝕜 n).length = n := by simp [sqrtW]
@[simp] theorem length_sqrtWi (n : ℕ) : (sqrtWi 𝕜 n).length = n := by simp [sqrtWi]

theorem sqrtW_ne {n k : ℕ} (h : k < n) : ((√((n - k : ℕ) : ℝ) : ℝ) : 𝕜) ≠ 0 := by
  have : (0 : ℝ) < ((n - k : ℕ) : ℝ) := by
    have : 0 < n - k := by omega
    exact_mod_cast this
  simpa using (Real.sqrt_pos.mpr this).ne'

theorem sum_range_reflect_split (n j : ℕ) (hj : j < n) (f : ℕ → R) :
    ∑ k ∈ Finset.range n, f k - ∑ k ∈ Finset.range j, f k =
      ∑ k ∈ Finset.range n, if j ≤ k then f k else 0 := by
  rw [← Finset.sum_filter, sub_eq_iff_eq_add, ← Finset.sum_filter_add_sum_filter_not _ (fun k => j ≤ k)]
  congr 1
  refine Finset.sum_congr ?_ fun _ _ => rfl
  ext k; simp; omega

theorem ent_heavisideTransU {n j : ℕ} {y : List R} (hy : y.length = n) (hj : j < n) :
    ent (heavisideTransU y) j = ∑ k ∈ Finset.range n, if j ≤ k then ent y k else 0 := by
  rw [← sum_range_reflect_split n j hj]
  have hlast : ent (cumsum y) ((cumsum y).length - 1) = ∑ k ∈ Finset.range n, ent y k := by
    rw [length_cumsum, hy, ent_cumsum (by omega), Nat.sub_add_cancel (by omega)]
  unfold heavisideTransU
  simp only [hlast]
  cases j with
  | zero => simp [ent_cons_zero]
  | succ j =>
    rw [ent_cons_succ]
    have hlt : j < (cumsum y).dropLast.length := by simp [hy]; omega
    have : ent ((cumsum y).dropLast.map fun a => ∑ k ∈ Finset.range n, ent y k - a) j =
        ∑ k ∈ Finset.range n, ent y k - ent (cumsum y).dropLast j := by
      simp only [ent, List.getD, List.getElem?_map, List.getElem?_eq_getElem hlt, Option.map_some, Option.getD_some]
    rw [this, ent_dropLast (by simp [hy]; omega), ent_cumsum (by omega)]

theorem length_heavisideTransU {n : ℕ} {y : List R} (hy : y.length = n) (hn : 0 < n) :
    (heavisideTransU y).length = n := by
  simp [heavisideTransU, hy]; omega

theorem pair_cumsum (n : ℕ) (hn : 0 < n) : AdjointPair (R := R) n n cumsum heavisideTransU := by
  refine AdjointPair.of_sum (fun x hx => by simp [hx]) (fun y hy => length_heavisideTransU hy hn) ?_
  intro x y hx hy
  have h1 : ∀ i ∈ Finset.range n, star (ent (cumsum x) i) * ent y i =
      ∑ k ∈ Finset.range n, if k ≤ i then star (ent x k) * ent y i else 0 := by
    intro i hi
    have hi' := Finset.mem_range.mp hi
    rw [ent_cumsum (by omega), star_sum, Finset.sum_mul, ← Finset.sum_filter]
    refine Finset.sum_congr ?_ fun _ _ => rfl
    ext k; simp; omega
  have h2 : ∀ j ∈ Finset.range n, star (ent x j) * ent (heavisideTransU y) j =
      ∑ i ∈ Finset.range n, if j ≤ i then star (ent x j) * ent y i else 0 := by
    intro j hj
    rw [ent_heavisideTransU hy (Finset.mem_range.mp hj), Finset.mul_sum]
    refine Finset.sum_congr rfl fun i _ => ?_
    split <;> simp
  rw [Finset.sum_congr rfl h1, Finset.sum_congr rfl h2, Finset.sum_comm]

theorem ndiff_cons_zero_ent {x : List R} {i : ℕ} (hi : i < x.length) :
    ent (ndiff (0 :: x)) i = ent x i - (if i = 0 then 0 else ent x (i - 1)) := by
  rw [ent_ndiff (by simpa using hi), ent_cons_succ]
  cases i with
  | zero => simp [ent_cons_zero]
  | succ i => simp [ent_cons_succ]

theorem ndiff_append_zero_ent {x : List R} {i : ℕ} (hi : i < x.length) :
    ent (vneg (ndiff (x ++ [0]))) i = ent x i - (if i + 1 < x.length then ent x (i + 1) else 0) := by
  rw [ent_vneg, ent_ndiff (by simpa using hi), ent_append, ent_append, if_pos hi]
  split
  · ring
  · have : i + 1 - x.length = 0 := by omega
    rw [this, ent_cons_zero]; ring

theorem pair_ndiff (n : ℕ) : AdjointPair (R := R) n n (fun x => ndiff (0 :: x))
    (fun x => vneg (ndiff (x ++ [0]))) := by
  refine AdjointPair.of_sum (fun x hx => by simp [hx]) (fun y hy => by simp [hy]) ?_
  intro x y hx hy
  have h1 : ∀ i ∈ Finset.range n, star (ent (ndiff (0 :: x)) i) * ent y i =
      star (ent x i) * ent y i - (if i = 0 then 0 else star (ent x (i - 1)) * ent y i) := by
    intro i hi
    rw [ndiff_cons_zero_ent (by simpa [hx] using hi)]
    split <;> simp [sub_mul]
  have h2 : ∀ j ∈ Finset.range n, star (ent x j) * ent (vneg (ndiff (y ++ [0]))) j =
      star (ent x j) * ent y j - (if j + 1 < n then star (ent x j) * ent y (j + 1) else 0) := by
    intro j hj
    rw [ndiff_append_zero_ent (by simpa [hy] using hj), hy]
    split <;> simp [mul_sub]
  rw [Finset.sum_congr rfl h1, Finset.sum_congr rfl h2, Finset.sum_sub_distrib, Finset.sum_sub_distrib]
  congr 1
  cases n with
  | zero => simp
  | succ n =>
    rw [Finset.sum_range_succ', Finset.sum_range_succ]
    simp only [Nat.succ_ne_zero, if_false, Nat.add_sub_cancel, if_true, add_zero]
    have h3 : ¬ (n + 1 < n + 1) := by omega
    rw [if_neg h3, add_zero]
    refine Finset.sum_congr rfl fun j hj => ?_
    rw [if_pos (by have := Finset.mem_range.mp hj; omega)]

theorem pair_vmul (n : ℕ) (w : List 𝕜) (hw : w.length = n) (hreal : ∀ i, i < n → star (ent w i) = ent w i) :
    AdjointPair (R := 𝕜) n n (fun x => vmul x w) (fun x => vmul x w) := by
  refine AdjointPair.of_sum (fun x hx => by simp [hx, hw]) (fun y hy => by simp [hy, hw]) ?_
  intro x y hx hy
  refine Finset.sum_congr rfl fun i hi => ?_
  rw [ent_vmul, ent_vmul, star_mul, hreal i (Finset.mem_range.mp hi)]; ring

theorem star_sqrtW {n i : ℕ} (h : i < n) : star (ent (sqrtW 𝕜 n) i) = ent (sqrtW 𝕜 n) i := by
  rw [ent_sqrtW h]; exact RCLike.conj_ofReal _

theorem star_sqrtWi {n i : ℕ} (h : i < n) : star (ent (sqrtWi 𝕜 n) i) = ent (sqrtWi 𝕜 n) i := by
  rw [ent_sqrtWi h, one_div, star_inv₀]; congr 1; exact RCLike.conj_ofReal _

/-- **C04** `heaviside(n)` and `inv_heaviside(n)` (normalised or not) are adjoint-consistent. -/
theorem c04_heaviside_adjoint (n : ℕ) (hn : 0 < n) (b : Bool) :
    AdjointPair (R := 𝕜) n n (heaviside n b).times (heaviside n b).trans ∧
    AdjointPair (R := 𝕜) n n (invHeaviside n b).times (invHeaviside n b).trans := by
  cases b
  · exact ⟨by simpa [heaviside] using pair_cumsum n hn, by simpa [invHeaviside] using pair_ndiff n⟩
  · constructor
    · have := AdjointPair.comp (pair_cumsum (R := 𝕜) n hn)
        (pair_vmul n (sqrtWi 𝕜 n) (by simp) (fun i hi => star_sqrtWi hi))
      simpa [heaviside] using this
    · have := AdjointPair.comp (pair_vmul n (sqrtW 𝕜 n) (by simp) (fun i hi => star_sqrtW hi))
        (pair_ndiff (R := 𝕜) n)
      simpa [invHeaviside] using this

example : AdjointPair (R := ℂ) 5 5 (heaviside 5 true).times (heaviside 5 true).trans :=
  (c04_heaviside_adjoint 5 (by decide) true).1

theorem ndiff_cumsum {n : ℕ} {x : List R} (hx : x.length = n) : ndiff (0 :: cumsum x) = x := by
  apply ext_getD (n := n) (by simp [hx]) hx
  intro i hi
  show ent _ i = ent _ i
  rw [ndiff_cons_zero_ent (by simpa [hx] using hi), ent_cumsum (by omega), Finset.sum_range_succ]
  cases i with
  | zero => simp
  | succ i => simp only [Nat.succ_ne_zero, if_false, Nat.add_sub_cancel]; rw [ent_cumsum (by omega)]; ring

theorem cumsum_ndiff {n : ℕ} {x : List R} (hx : x.length = n) : cumsum (ndiff (0 :: x)) = x := by
  apply ext_getD (n := n) (by simp [hx]) hx
  intro i hi
  show ent _ i = ent _ i
  rw [ent_cumsum (by simpa [hx] using hi)]
  induction i with
  | zero => rw [Finset.sum_range_one, ndiff_cons_zero_ent (by omega)]; simp
  | succ i ih =>
    rw [Finset.sum_range_succ, ih (by omega), ndiff_cons_zero_ent (by omega)]
    simp

/-- **C04** `heaviside(n)` and `inv_heaviside(n)` are inverse to each other, in both orders. -/
theorem c04_heaviside_inverse (n : ℕ) (b : Bool) (x : List 𝕜) (hx : x.length = n) :
    (invHeaviside n b).times ((heaviside n b).times x) = x ∧
    (heaviside n b).times ((invHeaviside n b).times x) = x := by
  cases b
  · exact ⟨by simpa [heaviside, invHeaviside] using ndiff_cumsum hx,
      by simpa [heaviside, invHeaviside] using cumsum_ndiff hx⟩
  · have hm : ∀ i, i < n → ent (sqrtWi 𝕜 n) i * ent (sqrtW 𝕜 n) i = 1 := by
      intro i hi
      rw [ent_sqrtW hi, ent_sqrtWi hi, one_div, inv_mul_cancel₀ (sqrtW_ne hi)]
    constructor
    · simp only [heaviside, invHeaviside, if_true]
      rw [ndiff_cumsum (n := n) (by simp [hx])]
      apply ext_getD (n := n) (by simp [hx]) hx
      intro i hi
      show ent _ i = ent _ i
      rw [ent_vmul, ent_vmul, mul_assoc, hm i hi, mul_one]
    · simp only [heaviside, invHeaviside, if_true]
      have : vmul (vmul (ndiff (0 :: x)) (sqrtW 𝕜 n)) (sqrtWi 𝕜 n) = ndiff (0 :: x) := by
        apply ext_getD (n := n) (by simp [hx]) (by simp [hx])
        intro i hi
        show ent _ i = ent _ i
        rw [ent_vmul, ent_vmul, mul_assoc, mul_comm (ent (sqrtW 𝕜 n) i), hm i hi, mul_one]
      rw [this, cumsum_ndiff hx]

example : ([3, 1, 4] : List ℝ).length = 3 ∧ cumsum ([3, 1, 4] : List ℤ) = [3, 4, 8] ∧
    ndiff ((0 : ℤ) :: [3, 4, 8]) = [3, 1, 4] := by decide

/-- **C04** the un-normalised operator is the step matrix (running sums), and every column of the
normalised one has unit norm. -/
theorem c04_heaviside_columns (n j : ℕ) (hj : j < n) :
    (∀ x : List 𝕜, x.length = n → ∀ i, i < n →
      ent ((heaviside n false).times x) i = ∑ k ∈ Finset.range (i + 1), ent x k) ∧
    ∑ i ∈ Finset.range n, ‖ent ((heaviside (𝕜 := 𝕜) n true).times (unitVec n j)) i‖ ^ 2 = 1 := by
  constructor
  · intro x hx i hi
    exact ent_cumsum (by omega)
  · have h1 : ∀ i ∈ Finset.range n, ‖ent ((heaviside (𝕜 := 𝕜) n true).times (unitVec n j)) i‖ ^ 2 =
        if j ≤ i then 1 / ((n - j : ℕ) : ℝ) else 0 := by
      intro i hi
      have hi' := Finset.mem_range.mp hi
      simp only [heaviside, if_true]
      rw [ent_cumsum (by simpa using hi')]
      have h2 : ∀ k ∈ Finset.range (i + 1), ent (vmul (unitVec n j) (sqrtWi 𝕜 n)) k =
          if k = j then ent (sqrtWi 𝕜 n) j else 0 := by
        intro k hk
        have hk' := Finset.mem_range.mp hk
        rw [ent_vmul]
        have : ent (unitVec (R := 𝕜) n j) k = if k = j then 1 else 0 := getD_unitVec n j k (by omega)
        rw [this]
        split
        · rename_i h; subst h; simp
        · simp
      rw [Finset.sum_congr rfl h2, Finset.sum_ite_eq']
      by_cases hji : j ≤ i
      · rw [if_pos (by simp; omega), if_pos hji, ent_sqrtWi hj, norm_div, norm_one, RCLike.norm_ofReal,
          div_pow, one_pow, sq_abs, Real.sq_sqrt (Nat.cast_nonneg _)]
      · rw [if_neg (by simp; omega), if_neg hji]; simp
    rw [Finset.sum_congr rfl h1, ← Finset.sum_filter, Finset.sum_const]
    have : (Finset.filter (fun i => j ≤ i) (Finset.range n)).card = n - j := by
      have : Finset.filter (fun i => j ≤ i) (Finset.range n) = Finset.Ico j n := by
        ext k; simp; omega
      rw [this, Nat.card_Ico]
    rw [this, nsmul_eq_mul, mul_one_div, div_self]
    have : 0 < n - j := by omega
    exact_mod_cast this.ne'

example : ∃ n j : ℕ, j < n ∧ n = 7 := ⟨7, 3, by decide, rfl⟩

end Heaviside

/-! ## C12: the code violates the property for complex diagonal operators -/

/-- **C12, negation** `diagonal` and `scalar_mult` always advertise `real = True`; for the diagonal
`[i]` the transpose multiplies with `-i` instead of `i`. -/
theorem c12_complex_diagonal_fails :
    (transpose (diagonal [Complex.I])).times [1] = [-Complex.I] ∧
    (transpose (diagonal [Complex.I])).times [1] ≠ [Complex.I] ∧
    (transpose (scalarMult Complex.I 1)).times [1] ≠ [Complex.I] := by
  have h : -Complex.I ≠ Complex.I := by
    intro h
    have := congrArg Complex.im h
    norm_num at this
  refine ⟨?_, ?_, ?_⟩
  · simp [transpose, diagonal, vmul, vconj]
  · simpa [transpose, diagonal, vmul, vconj] using h
  · simpa [transpose, scalarMult, smul, vconj] using h

/-! ## C11 -/

/-- No `compose` inside the expression. -/
def Expr.NoCompose : Expr R → Prop
  | .leaf _ => True
  | .neg e | .scale e _ _ | .adjoint e | .transpose e | .power e _ | .gram e | .frame e => e.NoCompose
  | .add a b | .subtract a b | .hcat a b => a.NoCompose ∧ b.NoCompose
  | .compose _ _ => False

/-- **C11 (partial)** Linearity: every expression over adjoint-consistent operators really is linear
(as its `linear` flag, always `True`, says).  Safety flags: for expressions without `compose`, the
`jit_safe` and `matrix_safe` flags of the result are exactly the conjunction of those of the
operators involved.  Missing: `compose` and leaves flagged `linear = False`, for which the claim is false
(`c11_flags_fail`). -/
theorem c11_flags_partial (e : Expr R) (T : Op R) (h : e.eval = some T) :
    ((∀ L ∈ e.leaves, AdjointPair L.shape.1 L.shape.2 L.times L.trans) →
      LinearMapOn T.shape.1 T.shape.2 T.times ∧ LinearMapOn T.shape.2 T.shape.1 T.trans) ∧
    (e.NoCompose → T.jit_safe = e.leaves.all (·.jit_safe) ∧
      T.matrix_safe = e.leaves.all (·.matrix_safe)) := by
  constructor
  · intro hl
    have := c01_algebra_preserves_adjoint e T h hl
    exact ⟨this.linear, this.symm.linear⟩
  · revert T
    induction e with
    | leaf L => intro T h _; cases h; simp [Expr.leaves]
    | neg e ih | adjoint e ih | transpose e ih | gram e ih | frame e ih | scale e a c ih =>
      intro T h hn
      simp only [Expr.eval, Option.map_eq_some_iff] at h
      obtain ⟨A, hA, rfl⟩ := h
      exact ih A hA hn
    | power e p ih =>
      intro T h hn
      simp only [Expr.eval, Option.bind_eq_some_iff] at h
      obtain ⟨A, hA, hT⟩ := h
      unfold power at hT
      split at hT
      · cases hT; exact ih A hA hn
      · cases hT
    | compose a b => intro T _ hn; exact hn.elim
    | add a b iha ihb | subtract a b iha ihb | hcat a b iha ihb =>
      intro T h hn
      simp only [Expr.eval, Option.bind_eq_some_iff] at h
      obtain ⟨A, hA, B, hB, hT⟩ := h
      have h1 := iha A hA hn.1
      have h2 := ihb B hB hn.2
      first | unfold add at hT | unfold subtract at hT | unfold hcat at hT
      split at hT
      · cases hT
        simp only [Expr.leaves, List.all_append, ← h1.1, ← h1.2, ← h2.1, ← h2.2, and_self]
      · cases hT

example : (Expr.add (.neg (.leaf (padZeros 2 1 1))) (.leaf (padZeros (R := ℤ) 2 0 2))).eval.isSome ∧
    (Expr.add (.neg (.leaf (padZeros 2 1 1))) (.leaf (padZeros (R := ℤ) 2 0 2))).NoCompose := by
  refine ⟨by decide, ?_⟩
  simp [Expr.NoCompose]

/-- **C11, negation** Negating `real(1)` (flagged nonlinear) yields an operator flagged linear which is
not homogeneous; composing the matrix-unsafe `pad_zeros` with the identity yields an operator
flagged matrix-safe. -/
theorem c11_flags_fail :
    ((realOp 1).linear = false ∧ (neg (realOp 1)).linear = true ∧
      ¬ LinearMapOn 1 1 (neg (realOp 1)).times) ∧
    ∃ T : Op ℤ, compose (padZeros 2 1 1) (identity 2 2) = some T ∧
      (padZeros (R := ℤ) 2 1 1).matrix_safe = false ∧ T.matrix_safe = true := by
  refine ⟨⟨rfl, rfl, fun h => ?_⟩, ?_⟩
  · have := h.smul Complex.I [1] rfl
    simp [neg, realOp, vneg, smul] at this
  · exact ⟨_, rfl, rfl, rfl⟩

example := c02_elementary_adjoint (matrix 2 3 (fun i j => (i : ℤ) - j) true) (.matrix _ _ _ _)

example := c02_elementary_entries 3 2 ([7, 8, 9] : List ℤ) rfl

example := c03_partial_op_partial demoA demoA_good [1] (by decide) (by decide) (some [2, 0, 1]) (by
  intro p hp
  obtain rfl := Option.mem_some_iff.1 hp
  decide)

example := c04_heaviside_inverse 3 true ([3, 1, 4] : List ℝ) rfl

example := c04_heaviside_columns (𝕜 := ℂ) 7 3 (by norm_num)

example (T : Op ℤ) := c11_flags_partial (Expr.add (.neg (.leaf (padZeros 2 1 1))) (.leaf (padZeros (R := ℤ) 2 0 2))) T

end Verif.Lop
