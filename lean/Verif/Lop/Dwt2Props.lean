import Verif.Lop.Dwt2Model
import Verif.Lop.StructProps
import Mathlib.Algebra.BigOperators.Intervals
import Mathlib.Algebra.BigOperators.Group.Finset.Sigma
import Mathlib.Data.List.GetD

set_option autoImplicit false

/-! # C97: the two-dimensional wavelet transform -/
namespace Verif.Lop
variable {R : Type*} [CommRing R]

/-! ## Specification -/

/-- `X` has shape `p`. -/
def Img.HasShape (X : Img R) (p : ℕ × ℕ) : Prop := X.h = p.1 ∧ X.w = p.2

/-- The arrays `X` and `Y` are equal: same shape, same entries. -/
structure Img.Same (X Y : Img R) : Prop where
  h : X.h = Y.h
  w : X.w = Y.w
  px : ∀ i < X.h, ∀ j < X.w, X.px i j = Y.px i j

/-- The inner product of two arrays of the same shape. -/
def Img.inner [StarRing R] (X Y : Img R) : R := ∑ i ∈ Finset.range X.h, ∑ j ∈ Finset.range X.w, star (X.px i j) * Y.px i j

/-! ## Lemmas -/
namespace Dwt2

theorem Same.refl (X : Img R) : X.Same X := ⟨rfl, rfl, fun _ _ _ _ => rfl⟩
theorem Same.symm {X Y : Img R} (h : X.Same Y) : Y.Same X :=
  ⟨h.h.symm, h.w.symm, fun i hi j hj => (h.px i (h.h ▸ hi) j (h.w ▸ hj)).symm⟩
theorem Same.trans {X Y Z : Img R} (h : X.Same Y) (g : Y.Same Z) : X.Same Z :=
  ⟨h.h.trans g.h, h.w.trans g.w, fun i hi j hj => (h.px i hi j hj).trans (g.px i (h.h ▸ hi) j (h.w ▸ hj))⟩
theorem Same.T {X Y : Img R} (h : X.Same Y) : X.T.Same Y.T := ⟨h.w, h.h, fun i hi j hj => h.px j hj i hi⟩

theorem col_congr {X Y : Img R} (h : X.Same Y) {j : ℕ} (hj : j < X.w) : X.col j = Y.col j := by
  unfold Img.col
  rw [h.h]
  exact List.map_congr_left fun i hi => h.px i (by rw [h.h]; simpa using hi) j hj

theorem length_col (X : Img R) (j : ℕ) : (X.col j).length = X.h := by simp [Img.col]

theorem col_of_getD {l : List R} {m : ℕ} (h : l.length = m) : (List.range m).map (fun i => l.getD i 0) = l := by
  apply List.ext_getElem
  · simp [h]
  · intro i h1 h2; simp [List.getD_eq_getElem?_getD, h2]

theorem getD_col (X : Img R) (i j : ℕ) (hi : i < X.h) : (X.col j).getD i 0 = X.px i j := by
  unfold Img.col
  rw [List.getD_eq_getElem _ _ (by simpa using hi)]
  simp

section axis
variable [StarRing R] {D : List R → List R × List R} {S : List R → List R → List R}

theorem col_dwt1 (h : OneLevel D S) {X : Img R} {k : ℕ} (hX : X.h = 2 * k) (j : ℕ) :
    (dwtAxis0 D X).1.col j = (D (X.col j)).1 := by
  have hh : X.h / 2 = k := by omega
  simp only [dwtAxis0, Img.col, hh]
  exact col_of_getD (h.len k _ (by simp [hX])).1

theorem col_dwt2 (h : OneLevel D S) {X : Img R} {k : ℕ} (hX : X.h = 2 * k) (j : ℕ) :
    (dwtAxis0 D X).2.col j = (D (X.col j)).2 := by
  have hh : X.h / 2 = k := by omega
  simp only [dwtAxis0, Img.col, hh]
  exact col_of_getD (h.len k _ (by simp [hX])).2

theorem col_idwt (h : OneLevel D S) {A B : Img R} (hB : B.h = A.h) (j : ℕ) :
    (idwtAxis0 S A B).col j = S (A.col j) (B.col j) := by
  simp only [idwtAxis0, Img.col]
  exact col_of_getD (h.slen A.h _ _ (by simp) (by simp [hB]))

theorem inner_cols {X Y : Img R} (hY : Y.h = X.h) :
    X.inner Y = ∑ j ∈ Finset.range X.w, vdot (X.col j) (Y.col j) := by
  unfold Img.inner
  rw [Finset.sum_comm]
  refine Finset.sum_congr rfl fun j _ => ?_
  rw [vdot_eq_sum (n := X.h) (length_col X j) ((length_col Y j).trans hY)]
  refine Finset.sum_congr rfl fun i hi => ?_
  have hi := Finset.mem_range.1 hi
  rw [getD_col X i j hi, getD_col Y i j (by omega)]

theorem inner_T (X Y : Img R) : X.T.inner Y.T = X.inner Y := by
  unfold Img.inner Img.T
  exact Finset.sum_comm

theorem inner_congr {X X' Y Y' : Img R} (h : X.Same X') (hw : Y.h = X.h) (hw' : Y.w = X.w) (g : Y.Same Y') :
    X.inner Y = X'.inner Y' := by
  unfold Img.inner
  rw [← h.h, ← h.w]
  refine Finset.sum_congr rfl fun i hi => Finset.sum_congr rfl fun j hj => ?_
  have hi := Finset.mem_range.1 hi
  have hj := Finset.mem_range.1 hj
  rw [h.px i hi j hj, g.px i (by omega) j (by omega)]

theorem axis0_adj (h : OneLevel D S) {X A B : Img R} {k : ℕ} (hX : X.h = 2 * k) (hA : A.h = k) (hB : B.h = k)
    (hAw : A.w = X.w) :
    (dwtAxis0 D X).1.inner A + (dwtAxis0 D X).2.inner B = X.inner (idwtAxis0 S A B) := by
  have h2 : X.h / 2 = k := by omega
  rw [inner_cols (by simp [dwtAxis0, hA, h2]), inner_cols (by simp [dwtAxis0, hB, h2]),
    inner_cols (by simp [idwtAxis0, hA, hX])]
  simp only [col_dwt1 h hX, col_dwt2 h hX, col_idwt h (hB.trans hA.symm)]
  rw [show (dwtAxis0 D X).1.w = X.w from rfl, show (dwtAxis0 D X).2.w = X.w from rfl, ← Finset.sum_add_distrib]
  refine Finset.sum_congr rfl fun j _ => ?_
  exact h.adj k _ _ _ (by rw [length_col, hX]) (by rw [length_col, hA]) (by rw [length_col, hB])

theorem axis0_inv (h : OneLevel D S) {X : Img R} {k : ℕ} (hX : X.h = 2 * k) :
    (idwtAxis0 S (dwtAxis0 D X).1 (dwtAxis0 D X).2).Same X := by
  refine ⟨by simp [idwtAxis0, dwtAxis0]; omega, rfl, fun i hi j hj => ?_⟩
  have hi' : i < X.h := by simp [idwtAxis0, dwtAxis0] at hi; omega
  show (S _ _).getD i 0 = _
  rw [col_dwt1 h hX, col_dwt2 h hX, h.inv k _ (by rw [length_col, hX]), getD_col X i j hi']

theorem idwt0_congr {A A' B B' : Img R} (hA : A.Same A') (hB : B.Same B') (hw : B.w = A.w) :
    (idwtAxis0 S A B).Same (idwtAxis0 S A' B') := by
  refine ⟨by simp [idwtAxis0, hA.h], hA.w, fun i hi j hj => ?_⟩
  have hj : j < A.w := hj
  simp only [idwtAxis0]
  rw [col_congr hA hj, col_congr hB (by omega)]

/-- Analysis and synthesis along axis 1. -/
def dw1 (D : List R → List R × List R) (X : Img R) : Img R × Img R := ((dwtAxis0 D X.T).1.T, (dwtAxis0 D X.T).2.T)
def id1 (S : List R → List R → List R) (A B : Img R) : Img R := (idwtAxis0 S A.T B.T).T

theorem axis1_adj (h : OneLevel D S) {X A B : Img R} {k : ℕ} (hX : X.w = 2 * k) (hA : A.w = k) (hB : B.w = k)
    (hAw : A.h = X.h) :
    (dw1 D X).1.inner A + (dw1 D X).2.inner B = X.inner (id1 S A B) := by
  have := axis0_adj h (X := X.T) (A := A.T) (B := B.T) hX hA hB hAw
  rw [← inner_T, ← inner_T (dw1 D X).2, ← inner_T X]
  exact this

theorem axis1_inv (h : OneLevel D S) {X : Img R} {k : ℕ} (hX : X.w = 2 * k) :
    (id1 S (dw1 D X).1 (dw1 D X).2).Same X :=
  Same.T (axis0_inv h (X := X.T) hX)

theorem id1_congr {A A' B B' : Img R} (hA : A.Same A') (hB : B.Same B') (hw : B.h = A.h) :
    (id1 S A B).Same (id1 S A' B') := Same.T (idwt0_congr (Same.T hA) (Same.T hB) hw)

/-! ### One level -/

/-- The four parts of one level. -/
def aa (D : List R → List R × List R) (X : Img R) := (dw1 D (dwtAxis0 D X).1).1
def ad (D : List R → List R × List R) (X : Img R) := (dw1 D (dwtAxis0 D X).1).2
def da (D : List R → List R × List R) (X : Img R) := (dw1 D (dwtAxis0 D X).2).1
def dd (D : List R → List R × List R) (X : Img R) := (dw1 D (dwtAxis0 D X).2).2

/-- Four blocks as one array. -/
def quad (A B C E : Img R) : Img R := Img.concat0 (Img.concat0 A.T B.T).T (Img.concat0 C.T E.T).T

/-- Synthesis of one level. -/
def syn (S : List R → List R → List R) (A B C E : Img R) : Img R := idwtAxis0 S (id1 S A B) (id1 S C E)

theorem level_adj (h : OneLevel D S) {X A B C E : Img R} {k l : ℕ} (hX : X.HasShape (2 * k, 2 * l))
    (hA : A.HasShape (k, l)) (hB : B.HasShape (k, l)) (hC : C.HasShape (k, l)) (hE : E.HasShape (k, l)) :
    (aa D X).inner A + (ad D X).inner B + (da D X).inner C + (dd D X).inner E = X.inner (syn S A B C E) := by
  obtain ⟨x0, x1⟩ := hX
  obtain ⟨a0, a1⟩ := hA
  obtain ⟨b0, b1⟩ := hB
  obtain ⟨c0, c1⟩ := hC
  obtain ⟨e0, e1⟩ := hE
  have hh : X.h / 2 = k := by simp only at x0; omega
  have h1 := axis1_adj h (X := (dwtAxis0 D X).1) (A := A) (B := B) (k := l) x1 a1 b1 (by simp [dwtAxis0, hh, a0])
  have h2 := axis1_adj h (X := (dwtAxis0 D X).2) (A := C) (B := E) (k := l) x1 c1 e1 (by simp [dwtAxis0, hh, c0])
  have h3 := axis0_adj h (X := X) (A := id1 S A B) (B := id1 S C E) (k := k) x0 a0 c0
    (by simp [id1, idwtAxis0, Img.T, a1, x1])
  rw [syn, ← h3, ← h1, ← h2, aa, ad, da, dd]
  ring

theorem level_inv (h : OneLevel D S) {X : Img R} {k l : ℕ} (hX : X.HasShape (2 * k, 2 * l)) :
    (syn S (aa D X) (ad D X) (da D X) (dd D X)).Same X := by
  have h1 := axis1_inv h (X := (dwtAxis0 D X).1) (k := l) hX.2
  have h2 := axis1_inv h (X := (dwtAxis0 D X).2) (k := l) hX.2
  exact Same.trans (idwt0_congr h1 h2 rfl) (axis0_inv h hX.1)

theorem syn_congr {A A' B B' C C' E E' : Img R} (hA : A.Same A') (hB : B.Same B') (hC : C.Same C') (hE : E.Same E')
    (h1 : B.h = A.h) (h2 : E.h = C.h) (h3 : C.w = A.w) : (syn S A B C E).Same (syn S A' B' C' E') :=
  idwt0_congr (id1_congr hA hB h1) (id1_congr hC hE h2) (by simp [id1, idwtAxis0, Img.T, h3])

/-! ### All levels -/

/-- Analysis of all levels, recursively. -/
def dec2 (D : List R → List R × List R) : ℕ → Img R → Img R
  | 0, X => X
  | L + 1, X => Img.set01 (X.h / 2) (X.w / 2) (dec2 D L (aa D X)) (quad (aa D X) (ad D X) (da D X) (dd D X))

/-- Synthesis of all levels, recursively. -/
def rec2 (S : List R → List R → List R) (k l : ℕ) (C : Img R) : ℕ → Img R
  | 0 => Img.slice01 0 k 0 l C
  | L + 1 => syn S (rec2 S k l C L) (Img.slice01 0 (k * 2 ^ L) (l * 2 ^ L) (l * 2 ^ (L + 1)) C)
      (Img.slice01 (k * 2 ^ L) (k * 2 ^ (L + 1)) 0 (l * 2 ^ L) C)
      (Img.slice01 (k * 2 ^ L) (k * 2 ^ (L + 1)) (l * 2 ^ L) (l * 2 ^ (L + 1)) C)

theorem dec2_shape (L k l : ℕ) (X : Img R) (hX : X.HasShape (k * 2 ^ L, l * 2 ^ L)) :
    (dec2 D L X).HasShape (k * 2 ^ L, l * 2 ^ L) := by
  obtain ⟨x0, x1⟩ := hX
  cases L with
  | zero => exact ⟨x0, x1⟩
  | succ L =>
    have h2 : ∀ k : ℕ, k * 2 ^ (L + 1) = 2 * (k * 2 ^ L) := fun k => by ring
    simp only [h2] at x0 x1 ⊢
    constructor <;> simp [dec2, Img.set01, quad, Img.concat0, Img.T, aa, ad, da, dd, dw1, dwtAxis0] <;> omega

theorem rec2_shape (k l L : ℕ) (C : Img R) : (rec2 S k l C L).HasShape (k * 2 ^ L, l * 2 ^ L) := by
  induction L with
  | zero => simp [rec2, Img.slice01, Img.HasShape]
  | succ L ih =>
    simp only [rec2, syn, id1, idwtAxis0, Img.T, Img.HasShape, ih.1, ih.2]
    constructor <;> ring

theorem part_shape {k l : ℕ} {X : Img R} (hX : X.HasShape (2 * k, 2 * l)) :
    (aa D X).HasShape (k, l) ∧ (ad D X).HasShape (k, l) ∧ (da D X).HasShape (k, l) ∧ (dd D X).HasShape (k, l) := by
  obtain ⟨x0, x1⟩ := hX
  simp only at x0 x1
  simp only [aa, ad, da, dd, dw1, dwtAxis0, Img.T, Img.HasShape, x0, x1]
  omega

/-- The blocks of `dec2 (L+1) X`. -/
theorem dec2_blocks {k l L : ℕ} {X : Img R} (hX : X.HasShape (2 * k, 2 * l)) :
    (∀ i j, i < k → j < l → (dec2 D (L + 1) X).px i j = (dec2 D L (aa D X)).px i j) ∧
    (∀ i j, i < k → j < l → (dec2 D (L + 1) X).px i (l + j) = (ad D X).px i j) ∧
    (∀ i j, i < k → j < l → (dec2 D (L + 1) X).px (k + i) j = (da D X).px i j) ∧
    (∀ i j, i < k → j < l → (dec2 D (L + 1) X).px (k + i) (l + j) = (dd D X).px i j) := by
  obtain ⟨⟨a0, a1⟩, ⟨b0, b1⟩, ⟨c0, c1⟩, ⟨e0, e1⟩⟩ := part_shape (D := D) hX
  obtain ⟨x0, x1⟩ := hX
  simp only at x0 x1 a0 a1 b0 b1 c0 c1 e0 e1
  have hk : X.h / 2 = k := by omega
  have hl : X.w / 2 = l := by omega
  simp only [dec2, Img.set01, quad, Img.concat0, Img.T, hk, hl, a0, a1, c0, c1]
  refine ⟨fun i j hi hj => ?_, fun i j hi hj => ?_, fun i j hi hj => ?_, fun i j hi hj => ?_⟩ <;> simp [hi, hj]

theorem inner_split {k l : ℕ} {X C : Img R} (hX : X.HasShape (2 * k, 2 * l)) :
    X.inner C = (Img.slice01 0 k 0 l X).inner (Img.slice01 0 k 0 l C) +
      (Img.slice01 0 k l (2 * l) X).inner (Img.slice01 0 k l (2 * l) C) +
      (Img.slice01 k (2 * k) 0 l X).inner (Img.slice01 k (2 * k) 0 l C) +
      (Img.slice01 k (2 * k) l (2 * l) X).inner (Img.slice01 k (2 * k) l (2 * l) C) := by
  obtain ⟨x0, x1⟩ := hX
  simp only at x0 x1
  simp only [Img.inner, Img.slice01, x0, x1]
  rw [show 2 * k - k = k by omega, show 2 * l - l = l by omega, two_mul k, two_mul l, Finset.sum_range_add]
  simp only [Finset.sum_range_add, Finset.sum_add_distrib, Nat.sub_zero, Nat.zero_add]
  ring

theorem slice_congr {a0 b0 a1 b1 : ℕ} {X Y : Img R} (h : ∀ i < b0, ∀ j < b1, X.px i j = Y.px i j) :
    (Img.slice01 a0 b0 a1 b1 X).Same (Img.slice01 a0 b0 a1 b1 Y) := by
  refine ⟨rfl, rfl, fun i hi j hj => ?_⟩
  simp only [Img.slice01] at hi hj ⊢
  exact h _ (by omega) _ (by omega)

theorem rec2_congr (k l L : ℕ) {C C' : Img R} (h : ∀ i < k * 2 ^ L, ∀ j < l * 2 ^ L, C.px i j = C'.px i j) :
    (rec2 S k l C L).Same (rec2 S k l C' L) := by
  induction L with
  | zero => exact slice_congr (by simpa using h)
  | succ L ih =>
    have h2 : ∀ k : ℕ, k * 2 ^ (L + 1) = 2 * (k * 2 ^ L) := fun k => by ring
    have i1 := ih fun i hi j hj => h i (by rw [h2]; omega) j (by rw [h2]; omega)
    obtain ⟨s0, s1⟩ := rec2_shape (S := S) k l L C
    refine syn_congr i1 (slice_congr fun i hi j hj => h i (by rw [h2]; omega) j hj)
      (slice_congr fun i hi j hj => h i hi j (by rw [h2]; omega)) (slice_congr h) ?_ ?_ ?_
    · simp [Img.slice01, s0]
    · simp [Img.slice01]
    · simp [Img.slice01, s1]

theorem dec2_adj (h : OneLevel D S) (k l L : ℕ) (X C : Img R) (hX : X.HasShape (k * 2 ^ L, l * 2 ^ L))
    (hC : C.HasShape (k * 2 ^ L, l * 2 ^ L)) : (dec2 D L X).inner C = X.inner (rec2 S k l C L) := by
  induction L generalizing X C with
  | zero =>
    obtain ⟨x0, x1⟩ := hX
    simp only [pow_zero, mul_one] at x0 x1
    simp [dec2, rec2, Img.inner, Img.slice01]
  | succ L ih =>
    have h2 : ∀ k : ℕ, k * 2 ^ (L + 1) = 2 * (k * 2 ^ L) := fun k => by ring
    rw [h2, h2] at hX hC
    obtain ⟨pa, pb, pc, pe⟩ := part_shape (D := D) hX
    obtain ⟨q1, q2, q3, q4⟩ := dec2_blocks (D := D) (L := L) hX
    have hs := dec2_shape (D := D) (L + 1) k l X (by rw [h2, h2]; exact hX)
    rw [h2, h2] at hs
    have hsl := dec2_shape (D := D) L k l _ pa
    rw [inner_split hs]
    set m := k * 2 ^ L with hm
    set n := l * 2 ^ L with hn
    have e1 : (Img.slice01 0 m 0 n (dec2 D (L + 1) X)).Same (dec2 D L (aa D X)) :=
      ⟨by simp [Img.slice01, hsl.1], by simp [Img.slice01, hsl.2], fun i hi j hj => by
        simp only [Img.slice01, Nat.sub_zero, Nat.zero_add] at hi hj ⊢; exact q1 i j hi hj⟩
    have e2 : (Img.slice01 0 m n (2 * n) (dec2 D (L + 1) X)).Same (ad D X) :=
      ⟨by simp [Img.slice01, pb.1], by simp [Img.slice01, pb.2]; omega, fun i hi j hj => by
        simp only [Img.slice01, Nat.sub_zero, Nat.zero_add] at hi hj ⊢; exact q2 i j hi (by omega)⟩
    have e3 : (Img.slice01 m (2 * m) 0 n (dec2 D (L + 1) X)).Same (da D X) :=
      ⟨by simp [Img.slice01, pc.1]; omega, by simp [Img.slice01, pc.2], fun i hi j hj => by
        simp only [Img.slice01, Nat.sub_zero, Nat.zero_add] at hi hj ⊢; exact q3 i j (by omega) hj⟩
    have e4 : (Img.slice01 m (2 * m) n (2 * n) (dec2 D (L + 1) X)).Same (dd D X) :=
      ⟨by simp [Img.slice01, pe.1]; omega, by simp [Img.slice01, pe.2]; omega, fun i hi j hj => by
        simp only [Img.slice01] at hi hj ⊢; exact q4 i j (by omega) (by omega)⟩
    rw [inner_congr e1 (Y := Img.slice01 0 m 0 n C) rfl rfl (Same.refl _),
      inner_congr e2 (Y := Img.slice01 0 m n (2 * n) C) rfl rfl (Same.refl _),
      inner_congr e3 (Y := Img.slice01 m (2 * m) 0 n C) rfl rfl (Same.refl _),
      inner_congr e4 (Y := Img.slice01 m (2 * m) n (2 * n) C) rfl rfl (Same.refl _)]
    have hr := rec2_shape (S := S) k l L C
    rw [ih _ _ pa ⟨by simp [Img.slice01], by simp [Img.slice01]⟩]
    have hc : (rec2 S k l (Img.slice01 0 m 0 n C) L).Same (rec2 S k l C L) :=
      rec2_congr k l L fun i _ j _ => by simp [Img.slice01]
    rw [inner_congr (Same.refl (aa D X)) (by rw [hc.h, hr.1, pa.1]) (by rw [hc.w, hr.2, pa.2]) hc]
    rw [level_adj h hX hr ⟨by simp [Img.slice01], by simp [Img.slice01]; omega⟩
      ⟨by simp [Img.slice01]; omega, by simp [Img.slice01]⟩ ⟨by simp [Img.slice01]; omega, by simp [Img.slice01]; omega⟩]
    rw [rec2, h2, h2]

theorem rec2_dec2 (h : OneLevel D S) (k l L : ℕ) (X : Img R) (hX : X.HasShape (k * 2 ^ L, l * 2 ^ L)) :
    (rec2 S k l (dec2 D L X) L).Same X := by
  induction L generalizing X with
  | zero =>
    obtain ⟨x0, x1⟩ := hX
    simp only [pow_zero, mul_one] at x0 x1
    exact ⟨by simp [rec2, Img.slice01, x0], by simp [rec2, Img.slice01, x1], fun i _ j _ => by
      simp [rec2, Img.slice01, dec2]⟩
  | succ L ih =>
    have h2 : ∀ k : ℕ, k * 2 ^ (L + 1) = 2 * (k * 2 ^ L) := fun k => by ring
    rw [h2, h2] at hX
    obtain ⟨pa, pb, pc, pe⟩ := part_shape (D := D) hX
    obtain ⟨q1, q2, q3, q4⟩ := dec2_blocks (D := D) (L := L) hX
    refine Same.trans ?_ (level_inv h hX)
    have hr := rec2_shape (S := S) k l L (dec2 D (L + 1) X)
    have e1 : (rec2 S k l (dec2 D (L + 1) X) L).Same (aa D X) :=
      Same.trans (rec2_congr k l L fun i hi j hj => q1 i j hi hj) (ih _ pa)
    rw [rec2, h2, h2]
    set m := k * 2 ^ L with hm
    set n := l * 2 ^ L with hn
    refine syn_congr e1 ?_ ?_ ?_ (by simp [Img.slice01, hr.1]) (by simp [Img.slice01])
      (by simp [Img.slice01, hr.2])
    · exact ⟨by simp [Img.slice01, pb.1], by simp [Img.slice01, pb.2]; omega, fun i hi j hj => by
        simp only [Img.slice01, Nat.sub_zero, Nat.zero_add] at hi hj ⊢; exact q2 i j hi (by omega)⟩
    · exact ⟨by simp [Img.slice01, pc.1]; omega, by simp [Img.slice01, pc.2], fun i hi j hj => by
        simp only [Img.slice01, Nat.sub_zero, Nat.zero_add] at hi hj ⊢; exact q3 i j (by omega) hj⟩
    · exact ⟨by simp [Img.slice01, pe.1]; omega, by simp [Img.slice01, pe.2]; omega, fun i hi j hj => by
        simp only [Img.slice01] at hi hj ⊢; exact q4 i j (by omega) (by omega)⟩

/-! ### The loops -/

theorem dec_fold (L k l : ℕ) (s : Dec2State R) (hs : s.image.HasShape (k * 2 ^ L, l * 2 ^ L)) (h0 : s.n0 = s.image.h)
    (h1 : s.n1 = s.image.w) (he : ∀ i < s.n0, ∀ j < s.n1, s.result.px i j = s.image.px i j) :
    ((List.range L).foldl (fun s _ => wavedec2Step D 0 1 s) s).result = Img.set01 s.n0 s.n1 (dec2 D L s.image) s.result := by
  induction L generalizing s with
  | zero =>
    simp only [List.range_zero, List.foldl_nil, dec2, Img.set01]
    have : s.result.px = fun i j => if i < s.n0 ∧ j < s.n1 then s.image.px i j else s.result.px i j := by
      funext i j
      split_ifs with h
      · exact he i h.1 j h.2
      · rfl
    rw [← this]
  | succ L ih =>
    have h2 : ∀ k : ℕ, k * 2 ^ (L + 1) = 2 * (k * 2 ^ L) := fun k => by ring
    rw [h2, h2] at hs
    obtain ⟨pa, pb, pc, pe⟩ := part_shape (D := D) hs
    rw [List.range_succ_eq_map]
    simp only [List.foldl_cons, List.foldl_map]
    have hi : (wavedec2Step D 0 1 s).image = aa D s.image := rfl
    have hn0 : (wavedec2Step D 0 1 s).n0 = k * 2 ^ L := pa.1
    have hn1 : (wavedec2Step D 0 1 s).n1 = l * 2 ^ L := pa.2
    have hr : (wavedec2Step D 0 1 s).result =
      Img.set01 s.n0 s.n1 (quad (aa D s.image) (ad D s.image) (da D s.image) (dd D s.image)) s.result := rfl
    obtain ⟨s0, s1⟩ := hs
    simp only at s0 s1
    rw [ih (wavedec2Step D 0 1 s) (by rw [hi]; exact pa) (by rw [hi, hn0, pa.1]) (by rw [hi, hn1, pa.2]) ?_]
    · rw [hi, hn0, hn1, hr]
      simp only [Img.set01, dec2]
      congr 1
      funext i j
      by_cases a : i < k * 2 ^ L ∧ j < l * 2 ^ L
      · have t0 : i < s.n0 ∧ j < s.n1 := by omega
        have t1 : i < s.image.h / 2 ∧ j < s.image.w / 2 := by omega
        simp only [if_pos a, if_pos t0, if_pos t1]
      · have : ¬ (i < s.image.h / 2 ∧ j < s.image.w / 2) := by omega
        simp only [if_neg a, if_neg this]
    · intro i hi' j hj'
      rw [hn0] at hi'
      rw [hn1] at hj'
      rw [hr, hi]
      have : i < s.n0 ∧ j < s.n1 := by omega
      have p1 := pa.1
      have p2 := pa.2
      simp only at p1 p2
      simp only [Img.set01, if_pos this, quad, Img.concat0, Img.T, p1, p2, if_pos hi', if_pos hj']

theorem wavedec2_eq (L k l : ℕ) (X : Img R) (hX : X.HasShape (k * 2 ^ L, l * 2 ^ L)) :
    (wavedec2 D X L 0 1).Same (dec2 D L X) := by
  obtain ⟨s0, s1⟩ := dec2_shape (D := D) L k l X hX
  rw [wavedec2, dec_fold L k l _ hX rfl rfl (fun _ _ _ _ => rfl)]
  refine ⟨by rw [s0]; exact hX.1, by rw [s1]; exact hX.2, fun i hi j hj => ?_⟩
  have : i < X.dim 0 ∧ j < X.dim 1 := ⟨hi, hj⟩
  simp only [Img.set01, if_pos this]

theorem rec_fold (k l L : ℕ) (C : Img R) :
    (List.range L).foldl (fun s _ => waverec2Step S C 0 1 s)
      { caa := C.slice 0 0 k 0 l, mid0 := k, mid1 := l, end0 := k * 2, end1 := l * 2 } =
      { caa := rec2 S k l C L, mid0 := k * 2 ^ L, mid1 := l * 2 ^ L, end0 := k * 2 ^ (L + 1), end1 := l * 2 ^ (L + 1) } := by
  induction L with
  | zero => simp [rec2, Img.slice]
  | succ L ih =>
    rw [List.range_succ, List.foldl_append, ih]
    simp only [List.foldl_cons, List.foldl_nil, waverec2Step]
    congr 1 <;> ring

theorem waverec2_eq (k l L : ℕ) (C : Img R) (hC : C.HasShape (k * 2 ^ L, l * 2 ^ L)) :
    waverec2 S C L 0 1 = rec2 S k l C L := by
  have h0 : C.dim 0 >>> L = k := by
    rw [show C.dim 0 = k * 2 ^ L from hC.1, Nat.shiftRight_eq_div_pow, Nat.mul_div_cancel _ (by positivity)]
  have h1 : C.dim 1 >>> L = l := by
    rw [show C.dim 1 = l * 2 ^ L from hC.2, Nat.shiftRight_eq_div_pow, Nat.mul_div_cancel _ (by positivity)]
  simp only [waverec2, h0, h1]
  rw [rec_fold]


/-! ### Exchanged axes -/

theorem T_T (X : Img R) : X.T.T = X := rfl

/-- The state with all arrays transposed. -/
def swD (s : Dec2State R) : Dec2State R := { s with result := s.result.T, image := s.image.T }

theorem set_T (n0 n1 : ℕ) (C X : Img R) : Img.set01 n1 n0 C.T X.T = (Img.set01 n0 n1 C X).T := by
  simp only [Img.set01, Img.T]
  congr 1
  funext i j
  by_cases h : i < n1 <;> by_cases g : j < n0 <;> simp [h, g]

theorem decStep_swap (s : Dec2State R) : wavedec2Step D 1 0 (swD s) = swD (wavedec2Step D 0 1 s) := by
  have : wavedec2Step D 1 0 (swD s) = { swD (wavedec2Step D 0 1 s) with
    result := Img.set01 s.n1 s.n0 (quad (aa D s.image) (ad D s.image) (da D s.image) (dd D s.image)).T s.result.T } := rfl
  rw [this, set_T]
  rfl

theorem wavedec2_swap (X : Img R) (L : ℕ) : wavedec2 D X L 1 0 = (wavedec2 D X.T L 0 1).T := by
  have : ∀ (l : List ℕ) (s : Dec2State R), l.foldl (fun s _ => wavedec2Step D 1 0 s) (swD s) =
      swD (l.foldl (fun s _ => wavedec2Step D 0 1 s) s) := by
    intro l
    induction l with
    | nil => intro s; rfl
    | cons a l ih => intro s; rw [List.foldl_cons, decStep_swap, ih, List.foldl_cons]
  have := this (List.range L) { result := X.T, image := X.T, n0 := X.T.dim 0, n1 := X.T.dim 1 }
  exact congrArg Dec2State.result this

/-- The state with all arrays transposed. -/
def swR (s : Rec2State R) : Rec2State R := { s with caa := s.caa.T }

theorem recStep_swap (C : Img R) (s : Rec2State R) : waverec2Step S C 1 0 (swR s) = swR (waverec2Step S C.T 0 1 s) := rfl

theorem waverec2_swap (C : Img R) (L : ℕ) : waverec2 S C L 1 0 = (waverec2 S C.T L 0 1).T := by
  have : ∀ (l : List ℕ) (s : Rec2State R), l.foldl (fun s _ => waverec2Step S C 1 0 s) (swR s) =
      swR (l.foldl (fun s _ => waverec2Step S C.T 0 1 s) s) := by
    intro l
    induction l with
    | nil => intro s; rfl
    | cons a l ih => intro s; rw [List.foldl_cons, recStep_swap, ih, List.foldl_cons]
  exact congrArg Rec2State.caa (this (List.range L)
    { caa := C.T.slice 0 0 (C.T.dim 0 >>> L) 0 (C.T.dim 1 >>> L), mid0 := C.T.dim 0 >>> L, mid1 := C.T.dim 1 >>> L,
      end0 := (C.T.dim 0 >>> L) * 2, end1 := (C.T.dim 1 >>> L) * 2 })

/-! ### Padding and cropping -/

/-- `B` is an orthonormal analysis of arrays of shape `p` into arrays of shape `q`, with synthesis `E`. -/
structure Ortho (p q : ℕ × ℕ) (B E : Img R → Img R) : Prop where
  out : ∀ X, X.HasShape p → (B X).HasShape q
  back : ∀ C, C.HasShape q → (E C).HasShape p
  adj : ∀ X C, X.HasShape p → C.HasShape q → (B X).inner C = X.inner (E C)
  inv : ∀ X, X.HasShape p → (E (B X)).Same X

theorem ortho_levels (h : OneLevel D S) (k l L : ℕ) :
    Ortho (k * 2 ^ L, l * 2 ^ L) (k * 2 ^ L, l * 2 ^ L) (fun X : Img R => wavedec2 D X L 0 1) (fun C => waverec2 S C L 0 1) := by
  have sh : ∀ X : Img R, X.HasShape (k * 2 ^ L, l * 2 ^ L) → (wavedec2 D X L 0 1).HasShape (k * 2 ^ L, l * 2 ^ L) := by
    intro X hX
    have h1 := wavedec2_eq (D := D) L k l X hX
    have h2 := dec2_shape (D := D) L k l X hX
    exact ⟨h1.h.trans h2.1, h1.w.trans h2.2⟩
  refine ⟨sh, ?_, ?_, ?_⟩
  · intro C hC
    simp only [waverec2_eq k l L C hC]
    exact rec2_shape k l L C
  · intro X C hX hC
    simp only [waverec2_eq k l L C hC]
    have h1 := wavedec2_eq (D := D) L k l X hX
    rw [← dec2_adj h k l L X C hX hC]
    have hs := sh X hX
    exact inner_congr h1 (hC.1.trans hs.1.symm) (hC.2.trans hs.2.symm) (Same.refl C)
  · intro X hX
    simp only [waverec2_eq k l L _ (sh X hX)]
    have h1 := wavedec2_eq (D := D) L k l X hX
    have hs := sh X hX
    exact Same.trans (rec2_congr k l L fun i hi j hj => h1.px i (by rw [hs.1]; exact hi) j (by rw [hs.2]; exact hj))
      (rec2_dec2 h k l L X hX)

theorem Ortho.swap {p q : ℕ × ℕ} {B E : Img R → Img R} (h : Ortho p q B E) :
    Ortho (p.2, p.1) (q.2, q.1) (fun X => (B X.T).T) (fun C => (E C.T).T) := by
  refine ⟨fun X hX => ?_, fun C hC => ?_, fun X C hX hC => ?_, fun X hX => ?_⟩
  · have := h.out X.T ⟨hX.2, hX.1⟩
    exact ⟨this.2, this.1⟩
  · have := h.back C.T ⟨hC.2, hC.1⟩
    exact ⟨this.2, this.1⟩
  · have := h.adj X.T C.T ⟨hX.2, hX.1⟩ ⟨hC.2, hC.1⟩
    rw [← inner_T, ← inner_T X]
    exact this
  · exact Same.T (h.inv X.T ⟨hX.2, hX.1⟩)

theorem Ortho.pad {h w hh ww : ℕ} {q : ℕ × ℕ} {B E : Img R → Img R} (o : Ortho (hh, ww) q B E) (h0 : h ≤ hh) (h1 : w ≤ ww) :
    Ortho (h, w) q (fun X => B (Img.padTo (hh - h) (ww - w) X)) (fun C => Img.crop h w (E C)) := by
  have ps : ∀ X : Img R, X.HasShape (h, w) → (Img.padTo (hh - h) (ww - w) X).HasShape (hh, ww) := by
    intro X hX
    obtain ⟨x0, x1⟩ := hX
    simp only at x0 x1
    constructor <;> simp [Img.padTo, x0, x1] <;> omega
  refine ⟨fun X hX => o.out _ (ps X hX), fun C hC => ?_, fun X C hX hC => ?_, fun X hX => ?_⟩
  · obtain ⟨e0, e1⟩ := o.back C hC
    simp only at e0 e1
    exact ⟨by simp [Img.crop, e0, h0], by simp [Img.crop, e1, h1]⟩
  · rw [o.adj _ C (ps X hX) hC]
    obtain ⟨x0, x1⟩ := hX
    simp only at x0 x1
    simp only [Img.inner, Img.padTo, Img.crop, x0, x1]
    rw [show h + (hh - h) = hh by omega, show w + (ww - w) = ww by omega]
    symm
    apply Finset.sum_subset_zero_on_sdiff (by simpa using h0)
    · intro i hi
      have hi : ¬ i < h := by simpa using (Finset.mem_sdiff.1 hi).2
      simp [hi]
    · intro i hi
      have hi : i < h := Finset.mem_range.1 hi
      apply Finset.sum_subset_zero_on_sdiff (by simpa using h1)
      · intro j hj
        have hj : ¬ j < w := by simpa using (Finset.mem_sdiff.1 hj).2
        simp [hj]
      · intro j hj
        have hj : j < w := Finset.mem_range.1 hj
        simp [hi, hj]
  · have := o.inv _ (ps X hX)
    obtain ⟨x0, x1⟩ := hX
    obtain ⟨t0, t1⟩ := o.back _ (o.out _ (ps X ⟨x0, x1⟩))
    simp only at x0 x1 t0 t1
    refine ⟨by simp [Img.crop, t0, x0, h0], by simp [Img.crop, t1, x1, h1], fun i hi j hj => ?_⟩
    simp only [Img.crop, t0, t1] at hi hj ⊢
    rw [this.px i (by omega) j (by omega)]
    have : i < X.h ∧ j < X.w := by omega
    simp only [Img.padTo, if_pos this]

theorem nextPow2_mul {n L : ℕ} (h : 2 ^ L ≤ max n 1) : ∃ k, nextPow2 n = k * 2 ^ L := by
  have h1 : 2 ^ L ≤ nextPow2 n := by
    have := le_nextPow2 n
    have h0 : 1 ≤ nextPow2 n := Nat.one_le_two_pow
    omega
  have : L ≤ Nat.clog 2 n := (Nat.pow_le_pow_iff_right (by norm_num)).1 h1
  exact ⟨2 ^ (Nat.clog 2 n - L), by rw [nextPow2, ← pow_add]; congr 1; omega⟩

end axis
end Dwt2

/-! ## The property -/
section
variable [StarRing R] {D : List R → List R × List R} {S : List R → List R → List R}
open Dwt2

/-- **C97** Let the one-level transform and its synthesis be an orthonormal pair, and let `maxLevel n` satisfy `2^maxLevel ≤ n`
(`maxLevel n = 0` for `n = 0`).  A level above the smaller maximum of the two axes is rejected.  For every other level (level 0
included) `dwt2D((h, w), level)` maps arrays of shape `(h, w)` to arrays of shape `(2^⌈log h⌉, 2^⌈log w⌉)`, `trans` is its adjoint
and inverts it, and it preserves inner products.  With `axes = (1, 0)` the same holds for square shapes.
With `basis=True` the two functions are exchanged. -/
theorem c97_dwt2D_partial (hDS : OneLevel D S) (maxLevel : ℕ → ℕ) (hmax : ∀ n, 2 ^ maxLevel n ≤ max n 1)
    (h w level : ℕ) (ax0 ax1 : Fin 2) (hax : ax0 ≠ ax1) (hsq : ax0 = 0 ∨ h = w) :
    (min (maxLevel h) (maxLevel w) < level → ∀ b, dwt2D D S maxLevel (h, w) level ax0 ax1 b = none) ∧
    (level ≤ min (maxLevel h) (maxLevel w) → ∃ A Bs,
      dwt2D D S maxLevel (h, w) level ax0 ax1 false = some A ∧ dwt2D D S maxLevel (h, w) level ax0 ax1 true = some Bs ∧
      A.outShape = (nextPow2 h, nextPow2 w) ∧ A.inShape = (h, w) ∧
      Bs.outShape = (h, w) ∧ Bs.inShape = (nextPow2 h, nextPow2 w) ∧ Bs.times = A.trans ∧ Bs.trans = A.times ∧
      (∀ X, X.HasShape (h, w) → (A.times X).HasShape (nextPow2 h, nextPow2 w)) ∧
      (∀ C, C.HasShape (nextPow2 h, nextPow2 w) → (A.trans C).HasShape (h, w)) ∧
      (∀ X C, X.HasShape (h, w) → C.HasShape (nextPow2 h, nextPow2 w) → (A.times X).inner C = X.inner (A.trans C)) ∧
      (∀ X, X.HasShape (h, w) → (A.trans (A.times X)).Same X) ∧
      (∀ X Y, X.HasShape (h, w) → Y.HasShape (h, w) → (A.times X).inner (A.times Y) = X.inner Y)) := by
  have key : level ≤ min (maxLevel h) (maxLevel w) →
      Ortho (h, w) (nextPow2 h, nextPow2 w)
        (fun X => wavedec2 D (Img.padTo (nextPow2 h - h) (nextPow2 w - w) X) level ax0 ax1)
        (fun C => Img.crop h w (waverec2 S C level ax0 ax1)) := by
    intro hl
    obtain ⟨k, hk⟩ := nextPow2_mul (n := h) (L := level)
      ((Nat.pow_le_pow_right (by norm_num) (le_trans hl (min_le_left _ _))).trans (hmax h))
    obtain ⟨l, hl'⟩ := nextPow2_mul (n := w) (L := level)
      ((Nat.pow_le_pow_right (by norm_num) (le_trans hl (min_le_right _ _))).trans (hmax w))
    rcases (by omega : ax0 = 0 ∨ ax0 = 1) with rfl | rfl
    · obtain rfl : ax1 = 1 := by omega
      have := ortho_levels hDS k l level
      rw [← hk, ← hl'] at this
      exact Ortho.pad this (le_nextPow2 h) (le_nextPow2 w)
    · obtain rfl : ax1 = 0 := by omega
      have := Ortho.swap (ortho_levels hDS l k level)
      simp only [← hk, ← hl', ← wavedec2_swap, ← waverec2_swap] at this
      exact Ortho.pad this (le_nextPow2 h) (le_nextPow2 w)
  have hh : (if ax0 = 0 then h else w) = h := by rcases hsq with rfl | rfl <;> simp
  have hw : (if ax1 = 0 then h else w) = w := by
    rcases hsq with rfl | rfl
    · rw [if_neg (Ne.symm hax)]
    · simp
  have ho : (if ax0 = 0 then (nextPow2 h, nextPow2 w) else (nextPow2 w, nextPow2 h)) = (nextPow2 h, nextPow2 w) := by
    rcases hsq with rfl | rfl <;> simp
  constructor
  · intro hl b
    simp only [dwt2D, hh, hw]
    rw [if_neg (by omega)]
  · intro hl
    have o := key hl
    refine ⟨{ times := fun X => wavedec2 D (Img.padTo (nextPow2 h - h) (nextPow2 w - w) X) level ax0 ax1,
              trans := fun C => Img.crop h w (waverec2 S C level ax0 ax1),
              outShape := (nextPow2 h, nextPow2 w), inShape := (h, w) },
            { trans := fun X => wavedec2 D (Img.padTo (nextPow2 h - h) (nextPow2 w - w) X) level ax0 ax1,
              times := fun C => Img.crop h w (waverec2 S C level ax0 ax1),
              inShape := (nextPow2 h, nextPow2 w), outShape := (h, w) }, ?_, ?_, rfl, rfl, rfl, rfl, rfl, rfl,
      o.out, o.back, o.adj, o.inv, ?_⟩
    · simp only [dwt2D, hh, hw, ho, if_pos hl]; rfl
    · simp only [dwt2D, hh, hw, ho, if_pos hl]; rfl
    · intro X Y hX hY
      have h1 := o.adj X _ hX (o.out Y hY)
      simp only at h1 ⊢
      rw [h1]
      have h2 := o.inv Y hY
      have h3 := o.back _ (o.out Y hY)
      exact inner_congr (Same.refl X) (h3.1.trans hX.1.symm) (h3.2.trans hX.2.symm) h2

/-- **C97** (refutation for `axes = (1, 0)` and arrays which are not square) whatever the wavelet is, `trans` of the operator for
shape `(2, 4)` returns a `(2, 2)` array: the inverse transform is cropped with the sizes of the two axes exchanged. -/
theorem c97_axes_fails (D : List R → List R × List R) (S : List R → List R → List R) (maxLevel : ℕ → ℕ) :
    ∃ A, dwt2D D S maxLevel (2, 4) 0 1 0 false = some A ∧ A.inShape = (2, 4) ∧ A.outShape = (2, 4) ∧
      ∀ C, C.HasShape (2, 4) → (A.trans C).HasShape (2, 2) := by
  refine ⟨_, by simp only [dwt2D]; rw [if_pos (by simp)]; rfl, rfl, ?_, ?_⟩
  · simp [nextPow2, show Nat.clog 2 4 = 2 by decide, show Nat.clog 2 2 = 1 by decide]
  · intro C hC
    obtain ⟨c0, c1⟩ := hC
    simp only at c0 c1
    simp [waverec2, Img.crop, Img.HasShape, Img.slice, Img.slice01, Img.dim, c0, c1]

/-- The hypotheses hold for a rotation wavelet and `maxLevel = ⌊log₂⌋`; one level of the transform of a 3 × 4 image, and the image
recovered from it. -/
example : OneLevel (rotD (3 / 5 : ℚ) (4 / 5)) (rotS (3 / 5) (4 / 5)) ∧ (∀ n, 2 ^ Nat.log 2 n ≤ max n 1) :=
  ⟨rot_oneLevel _ _ rfl rfl (by norm_num), fun n => by
    rcases Nat.eq_zero_or_pos n with rfl | h
    · simp
    · exact (Nat.pow_log_le_self 2 (by omega)).trans (le_max_left _ _)⟩

example : (dwt2D (rotD (3 / 5 : ℚ) (4 / 5)) (rotS (3 / 5) (4 / 5)) (fun _ => 1) (3, 4) 1 0 1 false).map
    (fun A => let X : Img ℚ := ⟨3, 4, fun i j => 25 * ((i : ℚ) + 2 * j)⟩
      ((List.range 4).map (A.times X).col, (List.range 4).map (A.trans (A.times X)).col)) =
    some ([[84, 66, -13, 88], [280, 150, 15, 200], [-38, -12, -9, -16], [-10, 0, -5, 0]], (List.range 4).map fun j : ℕ => [50 * (j : ℚ), 25 + 50 * j, 50 + 50 * j]) := by
  decide +kernel

end
/-- **C20, every accepted level.** With `2^max_level ≤ n` (which `dwt_max_level` guarantees) the divisibility hypothesis of `c20_dwt` is met
by every level that is not rejected. -/
theorem c20_dwt_levels {R : Type*} [CommRing R] [StarRing R] (D : List R → List R × List R) (S : List R → List R → List R)
    (h : OneLevel D S) (max_level n : ℕ) (hmax : 2 ^ max_level ≤ max n 1) (level : ℕ) (hlev : 1 ≤ level) (hl : level ≤ max_level) :
    ∃ T, dwt D S max_level n level = some T ∧ T.shape = (nextPow2 n, n) ∧
      (∀ x, x.length = n → T.trans (T.times x) = x) ∧
      AdjointPair (nextPow2 n) n T.times T.trans ∧
      (∀ x y, x.length = n → y.length = n → vdot (T.times x) (T.times y) = vdot x y) := by
  obtain ⟨k, hk⟩ := Dwt2.nextPow2_mul (n := n) (L := level) ((Nat.pow_le_pow_right (by norm_num) hl).trans hmax)
  exact (c20_dwt D S h max_level n level hlev ⟨k, by rw [hk, Nat.mul_comm]⟩).2 hl

example : 2 ^ 2 ≤ max 5 1 ∧ 1 ≤ 2 := by norm_num

example := c97_dwt2D_partial (rot_oneLevel (3 / 5 : ℚ) (4 / 5) rfl rfl (by norm_num)) (fun n => Nat.log 2 n) (fun n => by
    rcases Nat.eq_zero_or_pos n with rfl | h
    · simp
    · exact (Nat.pow_log_le_self 2 (by omega)).trans (le_max_left _ _)) 3 4 1 0 1 (by norm_num) (.inl rfl)

example := c20_dwt_levels _ _ (rot_oneLevel (3 / 5 : ℚ) (4 / 5) rfl rfl (by norm_num)) 2 5 (by norm_num) 2 (by norm_num) le_rfl

end Verif.Lop
