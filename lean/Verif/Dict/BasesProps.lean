import Verif.Dict.BasesModel
import Verif.Dict.SimpleProps
import Verif.Lop.CosineProps
import Verif.Lop.StructProps
import Verif.Lop.Dwt2Props
import Mathlib.LinearAlgebra.Matrix.NonsingularInverse
import Mathlib.LinearAlgebra.Matrix.Notation
import Mathlib.Tactic.IntervalCases

set_option autoImplicit false
/-!
# Properties of wavelet bases (C103), of unions of bases (C104) and of frame bounds (C105)
-/
noncomputable section
namespace Verif.Dict
open Verif.Lop (waverec nextPow2 unitVec dictCosine OneLevel vdot ent)

/-! ## C103 -/

section wavelet
variable {R : Type*} [CommRing R] [StarRing R]

/-- **C103** For an orthonormal wavelet (`D` is the one-level analysis, `S` its synthesis) and `max_level` with `2^max_level ≤ n`:
`wavelet_basis(n, name, level)` exists exactly when `n` is a power of two and the level (default: `max_level`) is at most `max_level`, and
its `n` columns of length `n` are orthonormal. -/
theorem c103_wavelet_basis (D : List R → List R × List R) (S : List R → List R → List R) (h : OneLevel D S) (max_level n : ℕ)
    (hmax : 2 ^ max_level ≤ max n 1) (level : Option ℕ) :
    ((∃ b, waveletBasis S max_level n level = some b) ↔ (∃ k, n = 2 ^ k) ∧ level.getD max_level ≤ max_level) ∧
    ∀ b, waveletBasis S max_level n level = some b →
      (∀ j < n, (b j).length = n) ∧
      (∀ i < n, ∀ j < n, vdot (b i) (b j) = if i = j then 1 else 0) ∧
      (∀ i < n, ∀ k < n, ∑ j ∈ Finset.range n, ent (b j) i * star (ent (b j) k) = if i = k then 1 else 0) := by
  have hpow : nextPow2 n = n ↔ ∃ k, n = 2 ^ k := by
    unfold nextPow2
    constructor
    · intro e; exact ⟨_, e.symm⟩
    · rintro ⟨k, rfl⟩; rw [Nat.clog_pow 2 k (by norm_num)]
  have hval : ∀ b, waveletBasis S max_level n level = some b ↔
      (∃ k, n = 2 ^ k) ∧ level.getD max_level ≤ max_level ∧ b = fun j => waverec S (unitVec n j) (level.getD max_level) := by
    intro b
    unfold waveletBasis
    rw [← hpow]
    by_cases hn : nextPow2 n = n
    · simp only [if_pos hn, hn, true_and]
      cases level with
      | none => simp [eq_comm]
      | some l =>
        simp only [Option.getD_some]
        by_cases hl : l ≤ max_level <;> simp [hl, eq_comm]
    · simp [if_neg hn, hn]
  refine ⟨⟨?_, ?_⟩, ?_⟩
  · rintro ⟨b, hb⟩
    exact ⟨((hval b).1 hb).1, ((hval b).1 hb).2.1⟩
  · rintro ⟨h1, h2⟩
    exact ⟨_, (hval _).2 ⟨h1, h2, rfl⟩⟩
  · intro b hb
    obtain ⟨hn, hl, rfl⟩ := (hval b).1 hb
    set L := level.getD max_level with hL
    obtain ⟨k, hk⟩ := Lop.Dwt2.nextPow2_mul (n := n) (L := L) ((Nat.pow_le_pow_right (by norm_num) hl).trans hmax)
    rw [hpow.2 hn] at hk
    have hu : ∀ j, (unitVec n j : List R).length = k * 2 ^ L := by intro j; rw [Lop.length_unitVec, hk]
    have hrec : ∀ j, waverec S (unitVec n j) L = Lop.recR S L (unitVec n j) := fun j => Lop.waverec_eq S _ k L (hu j)
    have hlr : ∀ j, (Lop.recR S L (unitVec n j : List R)).length = n := by
      intro j; rw [Lop.length_recR h L k _ (hu j), hk]
    have hld : ∀ j, (Lop.decR D L (unitVec n j : List R)).length = n := by
      intro j; rw [Lop.length_decR h L k _ (hu j), hk]
    -- entry (i, j) of the basis is the conjugate of entry j of the analysis of the i-th unit vector
    have hent : ∀ i < n, ∀ j < n, ent (Lop.recR S L (unitVec n j : List R)) i = star (ent (Lop.decR D L (unitVec n i)) j) := by
      intro i hi j hj
      have e := Lop.dec_adj h L k (unitVec n i) (unitVec n j) (hu i) (hu j)
      rw [Lop.vdot_unitVec_right (hld i) hj, Lop.vdot_unitVec_left (hlr j) hi] at e
      exact e.symm
    have hrow : ∀ i < n, ∀ q < n, ∑ j ∈ Finset.range n, ent (Lop.recR S L (unitVec n j : List R)) i *
        star (ent (Lop.recR S L (unitVec n j : List R)) q) = if i = q then 1 else 0 := by
      intro i hi q hq
      have e : ∀ j ∈ Finset.range n, ent (Lop.recR S L (unitVec n j : List R)) i * star (ent (Lop.recR S L (unitVec n j : List R)) q) =
          star ((Lop.decR D L (unitVec n i : List R)).getD j 0) * (Lop.decR D L (unitVec n q : List R)).getD j 0 := by
        intro j hj
        rw [hent i hi j (Finset.mem_range.1 hj), hent q hq j (Finset.mem_range.1 hj), star_star]; rfl
      rw [Finset.sum_congr rfl e, ← Lop.vdot_eq_sum (hld i) (hld q), Lop.dec_adj h L k _ _ (hu i) (by rw [hld, hk]),
        Lop.rec_dec h L k _ (hu q), Lop.vdot_unitVec_left (Lop.length_unitVec n q) hi, Lop.getD_unitVec n q i hi]
    refine ⟨fun j _ => by simp only [hrec, hlr], ?_, ?_⟩
    · intro i hi j hj
      simp only [hrec]
      let B : Matrix (Fin n) (Fin n) R := fun i j => ent (Lop.recR S L (unitVec n j : List R)) i
      have h1 : B * B.conjTranspose = 1 := by
        ext i q
        rw [Matrix.mul_apply, Matrix.one_apply]
        have := hrow i i.2 q q.2
        rw [Finset.sum_range] at this
        simp only [Fin.ext_iff]
        exact this
      have h2 : B.conjTranspose * B = 1 := mul_eq_one_comm.mp h1
      have h3 := congrFun (congrFun h2 ⟨i, hi⟩) ⟨j, hj⟩
      rw [Matrix.mul_apply, Matrix.one_apply] at h3
      rw [Lop.vdot_eq_sum (hlr i) (hlr j), Finset.sum_range]
      simp only [Fin.mk.injEq] at h3
      exact h3
    · intro i hi q hq
      simp only [hrec]
      exact hrow i hi q hq

end wavelet

/-- The hypotheses hold for a rotation wavelet with rational coefficients; two levels in dimension four. -/
theorem ex_oneLevel : OneLevel (Lop.rotD (3 / 5 : ℚ) (4 / 5)) (Lop.rotS (3 / 5) (4 / 5)) ∧ 2 ^ 2 ≤ max 4 1 ∧
    (waveletBasis (Lop.rotS (3 / 5 : ℚ) (4 / 5)) 2 4 none).isSome := by
  refine ⟨Lop.rot_oneLevel _ _ rfl rfl (by norm_num), by norm_num, ?_⟩
  have : nextPow2 4 = 4 := by rw [nextPow2]; decide
  simp [waveletBasis, this]

/-! ## C104 -/

/-- `B` (entries `(i, j)`, `i, j < n`) is an orthonormal basis: its rows and its columns are orthonormal. -/
def IsOnb (n : ℕ) (B : ℕ → ℕ → ℝ) : Prop :=
  (∀ i < n, ∀ j < n, ∑ q ∈ Finset.range n, B q i * B q j = if i = j then 1 else 0) ∧
  (∀ i < n, ∀ j < n, ∑ q ∈ Finset.range n, B i q * B j q = if i = j then 1 else 0)

theorem isOnb_of_columns (n : ℕ) (B : ℕ → ℕ → ℝ)
    (h : ∀ i < n, ∀ j < n, ∑ q ∈ Finset.range n, B q i * B q j = if i = j then 1 else 0) : IsOnb n B := by
  refine ⟨h, fun i hi j hj => ?_⟩
  let M : Matrix (Fin n) (Fin n) ℝ := fun i j => B i j
  have h1 : M.transpose * M = 1 := by
    ext i j
    rw [Matrix.mul_apply, Matrix.one_apply]
    have := h i i.2 j j.2
    rw [Finset.sum_range] at this
    simp only [Fin.ext_iff]
    exact this
  have h2 : M * M.transpose = 1 := mul_eq_one_comm.mp h1
  have h3 := congrFun (congrFun h2 ⟨i, hi⟩) ⟨j, hj⟩
  rw [Matrix.mul_apply, Matrix.one_apply] at h3
  rw [Finset.sum_range]
  simp only [Fin.mk.injEq] at h3
  exact h3

theorem isOnb_eye (n : ℕ) : IsOnb n eyeN := by
  apply isOnb_of_columns
  intro i hi j hj
  unfold eyeN
  rw [Finset.sum_eq_single i]
  · simp
  · intro q _ hq; simp [hq]
  · intro hh; exact absurd (Finset.mem_range.2 hi) hh

theorem isOnb_cosine (n : ℕ) : IsOnb n (dictCosine n) := by
  rcases Nat.eq_zero_or_pos n with rfl | hn
  · exact ⟨fun i hi => by omega, fun i hi => by omega⟩
  · obtain ⟨_, h2, h3⟩ := Lop.c17_dict_cosine n hn
    exact ⟨fun i hi j hj => h3 i j hi hj, fun i hi j hj => h2 i j hi hj⟩

/-- What a dictionary of `N = M n` atoms made of `M` orthonormal bases provides: unit-norm atoms, orthonormal blocks, and
`A Aᵀ = M I` (a tight frame). -/
structure IsUnionOfOnb (n M : ℕ) (A : ℕ → ℕ → ℝ) : Prop where
  unit : ∀ j < M * n, ∑ q ∈ Finset.range n, A q j * A q j = 1
  block : ∀ t < M, IsOnb n fun i j => A i (t * n + j)
  tight : ∀ i < n, ∀ k < n, ∑ j ∈ Finset.range (M * n), A i j * A k j = if i = k then (M : ℝ) else 0

theorem hstackN_apply (n : ℕ) (Ms : List (ℕ → ℕ → ℝ)) (t i j : ℕ) (hj : j < n) :
    hstackN n Ms i (t * n + j) = (Ms.getD t fun _ _ => 0) i j := by
  unfold hstackN
  have h1 : (t * n + j) / n = t := by
    rw [Nat.add_comm, Nat.add_mul_div_right _ _ (by omega), Nat.div_eq_of_lt hj, Nat.zero_add]
  have h2 : (t * n + j) % n = j := by
    rw [Nat.add_comm, Nat.add_mul_mod_self_right, Nat.mod_eq_of_lt hj]
  rw [h1, h2]

theorem sum_range_mul (f : ℕ → ℝ) (M n : ℕ) :
    ∑ j ∈ Finset.range (M * n), f j = ∑ t ∈ Finset.range M, ∑ j ∈ Finset.range n, f (t * n + j) := by
  induction M with
  | zero => simp
  | succ M ih => rw [Nat.succ_mul, Finset.sum_range_add, ih, Finset.sum_range_succ]

theorem isUnion_hstackN (n : ℕ) (Ms : List (ℕ → ℕ → ℝ)) (h : ∀ B ∈ Ms, IsOnb n B) : IsUnionOfOnb n Ms.length (hstackN n Ms) := by
  have hB : ∀ t < Ms.length, IsOnb n (Ms.getD t fun _ _ => 0) := by
    intro t ht
    apply h
    simp [List.getD, ht]
  refine ⟨?_, ?_, ?_⟩
  · intro j hj
    have hn : 0 < n := by
      rcases Nat.eq_zero_or_pos n with h0 | h0
      · subst h0; simp at hj
      · exact h0
    have ht : j / n < Ms.length := Nat.div_lt_of_lt_mul (by rw [Nat.mul_comm]; exact hj)
    have := (hB _ ht).1 (j % n) (Nat.mod_lt _ hn) (j % n) (Nat.mod_lt _ hn)
    rw [if_pos rfl] at this
    exact this
  · intro t ht
    have := hB t ht
    constructor
    · intro i hi j hj
      have := this.1 i hi j hj
      simp only [hstackN_apply n Ms t _ _ hi, hstackN_apply n Ms t _ _ hj]
      exact this
    · intro i hi j hj
      have := this.2 i hi j hj
      rw [← this]
      apply Finset.sum_congr rfl
      intro q hq
      simp only [hstackN_apply n Ms t _ _ (Finset.mem_range.1 hq)]
  · intro i hi k hk
    rw [sum_range_mul]
    have e : ∀ t ∈ Finset.range Ms.length, ∑ j ∈ Finset.range n, hstackN n Ms i (t * n + j) * hstackN n Ms k (t * n + j) =
        if i = k then 1 else 0 := by
      intro t ht
      rw [← (hB t (Finset.mem_range.1 ht)).2 i hi k hk]
      apply Finset.sum_congr rfl
      intro q hq
      rw [hstackN_apply n Ms t _ _ (Finset.mem_range.1 hq), hstackN_apply n Ms t _ _ (Finset.mem_range.1 hq)]
    rw [Finset.sum_congr rfl e, Finset.sum_const, Finset.card_range]
    split_ifs <;> simp

/-- **C104** `dirac_cosine_basis(n)` is the union of the standard basis and the DCT basis, for every `n`: a tight frame of `2n` unit-norm
atoms. -/
theorem c104_dirac_cosine (n : ℕ) :
    IsUnionOfOnb n 2 (diracCosineBasis n) ∧
    (∀ i < n, ∀ j < n, diracCosineBasis n i j = if i = j then 1 else 0) ∧
    (∀ i < n, ∀ j < n, diracCosineBasis n i (n + j) = dictCosine n i j) := by
  refine ⟨?_, ?_, ?_⟩
  · apply isUnion_hstackN n [eyeN, dictCosine n]
    intro B hB
    simp only [List.mem_cons, List.not_mem_nil, or_false] at hB
    rcases hB with rfl | rfl
    · exact isOnb_eye n
    · exact isOnb_cosine n
  · intro i _ j hj
    have := hstackN_apply n [eyeN, dictCosine n] 0 i j hj
    simpa [diracCosineBasis, eyeN] using this
  · intro i _ j hj
    have := hstackN_apply n [eyeN, dictCosine n] 1 i j hj
    simpa [diracCosineBasis] using this

/-- **C104** `dirac_hadamard_cosine_basis(n)` exists exactly for the powers of two and is then the union of the standard, the Hadamard and
the DCT basis: a tight frame of `3n` unit-norm atoms. -/
theorem c104_dirac_hadamard_cosine (n : ℕ) :
    ((∃ A, diracHadamardCosineBasis n = some A) ↔ ∃ k, n = 2 ^ k) ∧
    ∀ A, diracHadamardCosineBasis n = some A → IsUnionOfOnb n 3 A ∧ ∃ H, hadamardBasis n = some H ∧
      (∀ i < n, ∀ j < n, A i j = if i = j then 1 else 0) ∧ (∀ i < n, ∀ j < n, A i (n + j) = H i j) ∧
      (∀ i < n, ∀ j < n, A i (2 * n + j) = dictCosine n i j) := by
  constructor
  · rw [← c69_domain]
    unfold diracHadamardCosineBasis hadamardBasis
    cases hadamard n <;> simp
  · intro A hA
    obtain ⟨H, hH, rfl⟩ : ∃ H, hadamardBasis n = some H ∧ hstackN n [eyeN, H, dictCosine n] = A := by
      simpa [diracHadamardCosineBasis, Option.map_eq_some_iff] using hA
    refine ⟨?_, H, hH, ?_, ?_, ?_⟩
    · apply isUnion_hstackN n [eyeN, H, dictCosine n]
      intro B hB
      simp only [List.mem_cons, List.not_mem_nil, or_false] at hB
      rcases hB with rfl | rfl | rfl
      · exact isOnb_eye n
      · exact isOnb_of_columns n _ (c69_basis n _ hH).1
      · exact isOnb_cosine n
    · intro i _ j hj
      have := hstackN_apply n [eyeN, H, dictCosine n] 0 i j hj
      simpa [eyeN] using this
    · intro i _ j hj
      have := hstackN_apply n [eyeN, H, dictCosine n] 1 i j hj
      simpa using this
    · intro i _ j hj
      have := hstackN_apply n [eyeN, H, dictCosine n] 2 i j hj
      simpa using this

example : ∃ A, diracHadamardCosineBasis 8 = some A := (c104_dirac_hadamard_cosine 8).1.2 ⟨3, rfl⟩

/-! ## C105 -/

/-- Squared norm of a vector. -/
def sqNorm {n : ℕ} (x : Fin n → ℝ) : ℝ := ∑ i, x i ^ 2

theorem sqNorm_nonneg {n : ℕ} (x : Fin n → ℝ) : 0 ≤ sqNorm x := Finset.sum_nonneg fun i _ => sq_nonneg _

theorem sqNorm_eq {n : ℕ} (x : Fin n → ℝ) : sqNorm x = x ⬝ᵥ x := by
  simp only [sqNorm, dotProduct, sq]

theorem sqNorm_mulVec {m k : ℕ} (V : Matrix (Fin m) (Fin k) ℝ) (hV : V.transpose * V = 1) (x : Fin k → ℝ) :
    sqNorm (V.mulVec x) = sqNorm x := by
  rw [sqNorm_eq, sqNorm_eq, Matrix.dotProduct_mulVec, Matrix.vecMul_mulVec, hV, Matrix.vecMul_one]

/-- Bessel's inequality. -/
theorem sqNorm_transpose_le {m k : ℕ} (U : Matrix (Fin m) (Fin k) ℝ) (hU : U.transpose * U = 1) (x : Fin m → ℝ) :
    sqNorm (U.transpose.mulVec x) ≤ sqNorm x := by
  have h0 := sqNorm_nonneg (x - U.mulVec (U.transpose.mulVec x))
  have h1 : x ⬝ᵥ U.mulVec (U.transpose.mulVec x) = sqNorm (U.transpose.mulVec x) := by
    rw [sqNorm_eq, Matrix.dotProduct_mulVec, ← Matrix.mulVec_transpose]
  have h2 := sqNorm_mulVec U hU (U.transpose.mulVec x)
  rw [sqNorm_eq, sub_dotProduct, dotProduct_sub, dotProduct_sub, dotProduct_comm (U.mulVec (U.transpose.mulVec x)) x, h1,
    ← sqNorm_eq, ← sqNorm_eq, h2] at h0
  linarith

theorem sqNorm_adjoint {m n k : ℕ} {A : Matrix (Fin m) (Fin n) ℝ} {U : Matrix (Fin m) (Fin k) ℝ} {s : Fin k → ℝ}
    {V : Matrix (Fin n) (Fin k) ℝ} (h : IsThinSvd A U s V) (x : Fin m → ℝ) :
    sqNorm (A.transpose.mulVec x) = ∑ l, s l ^ 2 * (U.transpose.mulVec x l) ^ 2 := by
  rw [← h.prod, Matrix.transpose_mul, Matrix.transpose_mul, Matrix.transpose_transpose, Matrix.diagonal_transpose, ← Matrix.mulVec_mulVec,
    sqNorm_mulVec V h.right, ← Matrix.mulVec_mulVec]
  unfold sqNorm
  apply Finset.sum_congr rfl
  intro l _
  rw [Matrix.mulVec_diagonal, mul_pow]

/-- **C105 (part).** For a real `m × n` dictionary with `m ≤ n`, `frame_bounds` returns the optimal frame bounds: `lower² ‖x‖² ≤ ‖Aᵀx‖² ≤
upper² ‖x‖²` for every `x`, both with equality for some `x ≠ 0`; and `frame(A)` is the frame operator.  The upper bound holds and is
attained for every shape. -/
theorem c105_frame_bounds_partial {m n k : ℕ} (A : Matrix (Fin m) (Fin n) ℝ) (U : Matrix (Fin m) (Fin (k + 1)) ℝ) (s : Fin (k + 1) → ℝ)
    (V : Matrix (Fin n) (Fin (k + 1)) ℝ) (h : IsThinSvd A U s V) :
    (∀ x, sqNorm (A.transpose.mulVec x) ≤ (frameBounds s).1 ^ 2 * sqNorm x) ∧
    (∃ x, sqNorm x = 1 ∧ sqNorm (A.transpose.mulVec x) = (frameBounds s).1 ^ 2) ∧
    (m ≤ n → ∀ x, (frameBounds s).2 ^ 2 * sqNorm x ≤ sqNorm (A.transpose.mulVec x)) ∧
    (∃ x, sqNorm x = 1 ∧ sqNorm (A.transpose.mulVec x) = (frameBounds s).2 ^ 2) ∧
    0 ≤ (frameBounds s).2 ∧ (frameBounds s).2 ≤ (frameBounds s).1 ∧
    (∀ x, x ⬝ᵥ (frameReal A).mulVec x = sqNorm (A.transpose.mulVec x)) := by
  have hatt : ∀ l : Fin (k + 1), ∃ x, sqNorm x = 1 ∧ sqNorm (A.transpose.mulVec x) = s l ^ 2 := by
    intro l
    have hu : sqNorm (Pi.single l (1 : ℝ) : Fin (k + 1) → ℝ) = 1 := by
      unfold sqNorm
      rw [Finset.sum_eq_single l] <;> simp +contextual [Pi.single_apply]
    refine ⟨U.mulVec (Pi.single l 1), ?_, ?_⟩
    · rw [sqNorm_mulVec U h.left, hu]
    · rw [sqNorm_adjoint h, Matrix.mulVec_mulVec, h.left, Matrix.one_mulVec, Finset.sum_eq_single l] <;>
        simp +contextual [Pi.single_apply]
  refine ⟨fun x => ?_, hatt 0, fun hmn x => ?_, hatt (Fin.last k), h.nonneg _, h.desc _ _ (Fin.zero_le _), fun x => ?_⟩
  · rw [sqNorm_adjoint h]
    have : ∑ l, s l ^ 2 * (U.transpose.mulVec x l) ^ 2 ≤ ∑ l, s 0 ^ 2 * (U.transpose.mulVec x l) ^ 2 := by
      apply Finset.sum_le_sum
      intro l _
      have h1 := h.desc 0 l (Fin.zero_le _)
      have h2 := h.nonneg l
      have : s l ^ 2 ≤ s 0 ^ 2 := by nlinarith
      nlinarith [sq_nonneg (U.transpose.mulVec x l)]
    rw [← Finset.mul_sum] at this
    have hb := sqNorm_transpose_le U h.left x
    exact this.trans (mul_le_mul_of_nonneg_left hb (sq_nonneg _))
  · have hk : k + 1 = m := by rw [h.size]; omega
    subst hk
    have hU : U * U.transpose = 1 := mul_eq_one_comm.mp h.left
    have hx : sqNorm (U.transpose.mulVec x) = sqNorm x := sqNorm_mulVec U.transpose (by rw [Matrix.transpose_transpose, hU]) x
    rw [sqNorm_adjoint h, ← hx, sqNorm, Finset.mul_sum]
    apply Finset.sum_le_sum
    intro l _
    have h1 := h.desc l (Fin.last k) (Fin.le_last _)
    have h2 := h.nonneg (Fin.last k)
    have : s (Fin.last k) ^ 2 ≤ s l ^ 2 := by nlinarith
    show s (Fin.last k) ^ 2 * _ ≤ _
    nlinarith [sq_nonneg (U.transpose.mulVec x l)]
  · rw [frameReal, ← Matrix.mulVec_mulVec, Matrix.dotProduct_mulVec, ← Matrix.mulVec_transpose, sqNorm_eq]

/-- The thin factorisation of `[1 0; 0 0]` exists. -/
theorem ex_thinSvd : IsThinSvd (Matrix.diagonal ![1, 0] : Matrix (Fin 2) (Fin 2) ℝ) (1 : Matrix (Fin 2) (Fin (1 + 1)) ℝ) ![1, 0] 1 := by
  refine ⟨rfl, by simp, by simp, by simp, ?_, ?_⟩
  · intro i; fin_cases i <;> simp
  · intro i j hij
    fin_cases i <;> fin_cases j <;> simp_all

/-- **C105 fails for more rows than columns**: the dictionary with the single atom `(1, 0)` has the lower bound `1`, and `x = (0, 1)` is
orthogonal to every atom. -/
theorem c105_lower_bound_fails :
    ∃ (A : Matrix (Fin 2) (Fin 1) ℝ) (U : Matrix (Fin 2) (Fin (0 + 1)) ℝ) (s : Fin (0 + 1) → ℝ) (V : Matrix (Fin 1) (Fin (0 + 1)) ℝ) (x : Fin 2 → ℝ),
      IsThinSvd A U s V ∧ (frameBounds s).2 = 1 ∧ sqNorm x = 1 ∧ sqNorm (A.transpose.mulVec x) = 0 := by
  refine ⟨!![1; 0], !![1; 0], fun _ => 1, 1, ![0, 1], ⟨rfl, ?_, ?_, ?_, ?_, ?_⟩, rfl, ?_, ?_⟩
  · ext i j; fin_cases i; fin_cases j; simp [Matrix.mul_apply]
  · simp
  · ext i j; fin_cases i <;> fin_cases j <;> simp [Matrix.mul_apply]
  · intro i; norm_num
  · intro i j _; exact le_rfl
  · simp [sqNorm]
  · simp [sqNorm, Matrix.mulVec, dotProduct]

/-- **C105 fails for complex dictionaries**: `frame(A)` drops the imaginary part of the frame operator.  For the single atom `(1, i)` it
returns the identity, although the frame operator has rank one. -/
theorem c105_complex_fails :
    frameComplex (!![1; Complex.I] : Matrix (Fin 2) (Fin 1) ℂ) = 1 ∧
    (!![1; Complex.I] * (!![1; Complex.I] : Matrix (Fin 2) (Fin 1) ℂ).conjTranspose) 0 1 = -Complex.I := by
  constructor
  · ext i j
    fin_cases i <;> fin_cases j <;> simp [frameComplex, Matrix.mul_apply]
  · simp [Matrix.mul_apply]

example := c103_wavelet_basis _ _ ex_oneLevel.1 2 4 ex_oneLevel.2.1 none

example := c105_frame_bounds_partial _ _ _ _ ex_thinSvd

end Verif.Dict
