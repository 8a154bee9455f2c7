import Verif.Lop.TwoDModel
import Verif.Lop.FourierProps
import Verif.Lop.BasicProps
import Mathlib.Data.List.GetD
import Mathlib.Tactic.FinCases

set_option autoImplicit false

/-!
# C22: operators act on 2-D arrays column by column
-/
namespace Verif.Lop
variable {R : Type*} [CommRing R] [StarRing R]

/-! ## Specification -/

/-- A 2-D array with `n` rows and at least one column (all rows have the same length). -/
structure IsArr (n : ℕ) (X : Arr2 R) : Prop where
  cols_pos : 0 < X.cols
  rows_len : X.rows.length = n
  row_len : ∀ r ∈ X.rows, r.length = X.cols

/-- `f2` maps arrays with `n` rows to arrays with `m` rows and as many columns, and column `j` of the result is `f1` of
column `j` of the argument. -/
def ColumnWise {S : Type*} [CommRing S] (m n : ℕ) (f1 : List R → List S) (f2 : Arr2 R → Arr2 S) : Prop :=
  ∀ X, IsArr n X → IsArr m (f2 X) ∧ (f2 X).cols = X.cols ∧ ∀ j, j < X.cols → (f2 X).col j = f1 (X.col j)

/-- Both directions of an operator act column by column. -/
def Op2.ColumnWise (T : Op2 R) : Prop :=
  Lop.ColumnWise T.shape.1 T.shape.2 T.times T.times2 ∧ Lop.ColumnWise T.shape.2 T.shape.1 T.trans T.trans2

/-- No `transpose` node is applied to an operator which is not flagged real. -/
def Expr2.RealTransposes : Expr2 R → Prop
  | .leaf _ => True
  | .transpose e => e.RealTransposes ∧ ∀ T, e.eval = some T → T.real = true
  | .neg e | .scale e _ _ | .adjoint e | .power e _ | .gram e | .frame e => e.RealTransposes
  | .add a b | .subtract a b | .compose a b | .hcat a b => a.RealTransposes ∧ b.RealTransposes

/-! ## Lemmas -/

theorem IsArr.col_len {n : ℕ} {X : Arr2 R} (h : IsArr n X) (j : ℕ) : (X.col j).length = n := by
  simp [Arr2.col, h.rows_len]

theorem columnWise_along {S : Type*} [CommRing S] [StarRing S] {m n : ℕ} (f : List R → List S) (hf : ∀ x, x.length = n → (f x).length = m) :
    ColumnWise m n f (applyAlong0 f) := by
  intro X hX
  have hc : (applyAlong0 f X).cols = X.cols := by simp [applyAlong0, ofCols]
  have hh : (((List.range X.cols).map fun j => f (X.col j)).headD []).length = m := by
    obtain ⟨k, hk⟩ : ∃ k, X.cols = k + 1 := ⟨X.cols - 1, by have := hX.cols_pos; omega⟩
    rw [hk, List.range_succ_eq_map]; simp only [List.map_cons, List.headD_cons]
    exact hf _ (hX.col_len 0)
  refine ⟨⟨by rw [hc]; exact hX.cols_pos, ?_, ?_⟩, hc, ?_⟩
  · simp only [applyAlong0, ofCols, List.length_map, List.length_range]; exact hh
  · intro r hr
    rw [hc]
    simp only [applyAlong0, ofCols, List.mem_map, List.mem_range] at hr
    obtain ⟨i, -, rfl⟩ := hr
    simp
  · intro j hj
    have hl := hf _ (hX.col_len j)
    have e1 : (applyAlong0 f X).col j = (List.range m).map fun i => ent (f (X.col j)) i := by
      unfold Arr2.col
      have e0 : (applyAlong0 f X).rows = (List.range m).map fun i => ((List.range X.cols).map fun j => f (X.col j)).map fun c => ent c i := by
        rw [← hh]; rfl
      rw [e0, List.map_map]
      refine List.map_congr_left fun i _ => ?_
      simp only [Function.comp_apply, List.map_map]
      rw [ent_tab _ hj]; rfl
    rw [e1]
    refine List.ext_getElem (by simp [hl]) ?_
    intro i h1 h2
    simp only [List.getElem_map, List.getElem_range]
    rw [ent, List.getD_eq_getElem _ _ h2]

theorem ColumnWise.comp {S T : Type*} [CommRing S] [StarRing S] [CommRing T] {l m n : ℕ} {f1 : List S → List T} {g1 : List R → List S}
    {f2 : Arr2 S → Arr2 T} {g2 : Arr2 R → Arr2 S} (hf : ColumnWise l m f1 f2)
    (hg : ColumnWise m n g1 g2) : ColumnWise l n (fun x => f1 (g1 x)) (fun X => f2 (g2 X)) := by
  intro X hX
  obtain ⟨a1, a2, a3⟩ := hg X hX
  obtain ⟨b1, b2, b3⟩ := hf _ a1
  exact ⟨b1, by rw [b2, a2], fun j hj => by rw [b3 j (by omega), a3 j hj]⟩

theorem columnWise_rows {n : ℕ} (g : List R → List R) (h : R → R) (hl : ∀ r, (g r).length = r.length)
    (he : ∀ r j, j < r.length → ent (g r) j = h (ent r j)) :
    ColumnWise n n (fun x => x.map h) (fun X => { cols := X.cols, rows := X.rows.map g }) := by
  intro X hX
  refine ⟨⟨hX.cols_pos, by simp [hX.rows_len], ?_⟩, rfl, ?_⟩
  · intro r hr
    simp only [List.mem_map] at hr
    obtain ⟨r', hr', rfl⟩ := hr
    rw [hl, hX.row_len _ hr']
  · intro j hj
    simp only [Arr2.col, List.map_map]
    refine List.map_congr_left fun r hr => ?_
    exact he r j (by rw [hX.row_len r hr]; exact hj)

theorem columnWise_neg (n : ℕ) : ColumnWise (R := R) n n vneg Arr2.neg :=
  columnWise_rows vneg (- ·) (by simp [vneg]) (fun _ _ _ => ent_vneg)

theorem columnWise_smul (n : ℕ) (a : R) : ColumnWise (R := R) n n (smul a) (fun X => X.smul a) :=
  columnWise_rows (smul a) (a * ·) (by simp [smul]) (fun _ _ _ => ent_smul)

theorem columnWise_zip {m n : ℕ} {f1 g1 : List R → List R} {f2 g2 : Arr2 R → Arr2 R} (op : List R → List R → List R) (h : R → R → R)
    (hop : ∀ x y, op x y = List.zipWith h x y)
    (hf : ColumnWise m n f1 f2) (hg : ColumnWise m n g1 g2) :
    ColumnWise m n (fun x => op (f1 x) (g1 x))
      (fun X => { cols := (f2 X).cols, rows := List.zipWith op (f2 X).rows (g2 X).rows }) := by
  intro X hX
  obtain ⟨a1, a2, a3⟩ := hf X hX
  obtain ⟨b1, b2, b3⟩ := hg X hX
  refine ⟨⟨a1.cols_pos, by simp [a1.rows_len, b1.rows_len], ?_⟩, a2, ?_⟩
  · intro r hr
    rw [List.mem_iff_getElem] at hr
    obtain ⟨i, hi, rfl⟩ := hr
    simp only [List.getElem_zipWith, hop, List.length_zipWith]
    rw [a1.row_len _ (List.getElem_mem _), b1.row_len _ (List.getElem_mem _), a2, b2, min_self]
  · intro j hj
    beta_reduce
    rw [← a3 j hj, ← b3 j hj, hop]
    simp only [Arr2.col, List.map_zipWith, List.zipWith_map]
    refine List.ext_getElem (by simp) ?_
    intro i h1 h2
    simp only [List.length_zipWith] at h1 h2
    simp only [List.getElem_zipWith, hop]
    have e1 := a1.row_len _ (List.getElem_mem (l := (f2 X).rows) (n := i) (by omega))
    have e2 := b1.row_len _ (List.getElem_mem (l := (g2 X).rows) (n := i) (by omega))
    rw [a2] at e1; rw [b2] at e2
    simp only [ent]
    rw [List.getD_eq_getElem _ _ (by simp; omega), List.getD_eq_getElem _ _ (by omega), List.getD_eq_getElem _ _ (by omega)]
    simp

theorem columnWise_concat {m₁ m₂ n : ℕ} {f1 g1 : List R → List R} {f2 g2 : Arr2 R → Arr2 R}
    (hf : ColumnWise m₁ n f1 f2) (hg : ColumnWise m₂ n g1 g2) :
    ColumnWise (m₁ + m₂) n (fun x => f1 x ++ g1 x) (fun X => (f2 X).concat (g2 X)) := by
  intro X hX
  obtain ⟨a1, a2, a3⟩ := hf X hX
  obtain ⟨b1, b2, b3⟩ := hg X hX
  refine ⟨⟨a1.cols_pos, by simp [Arr2.concat, a1.rows_len, b1.rows_len], ?_⟩, a2, ?_⟩
  · intro r hr
    simp only [Arr2.concat, List.mem_append] at hr ⊢
    rcases hr with hr | hr
    · exact a1.row_len r hr
    · rw [b1.row_len r hr, b2, a2]
  · intro j hj
    beta_reduce
    rw [← a3 j hj, ← b3 j hj]
    simp [Arr2.col, Arr2.concat]

theorem columnWise_take {n k : ℕ} (hk : k ≤ n) : ColumnWise (R := R) k n (fun x => x.take k) (Arr2.takeRows k) := by
  intro X hX
  refine ⟨⟨hX.cols_pos, by simp [Arr2.takeRows, hX.rows_len, hk], fun r hr => hX.row_len r (List.mem_of_mem_take hr)⟩, rfl, ?_⟩
  intro j _; simp [Arr2.col, Arr2.takeRows, List.map_take]

theorem columnWise_drop {n k l : ℕ} (hk : k + l = n) : ColumnWise (R := R) l n (fun x => x.drop k) (Arr2.dropRows k) := by
  intro X hX
  refine ⟨⟨hX.cols_pos, by simp [Arr2.dropRows, hX.rows_len]; omega, fun r hr => hX.row_len r (List.mem_of_mem_drop hr)⟩, rfl, ?_⟩
  intro j _; simp [Arr2.col, Arr2.dropRows, List.map_drop]

theorem columnWise_applyN {n : ℕ} {f1 : List R → List R} {f2 : Arr2 R → Arr2 R} (h : ColumnWise n n f1 f2) (p : ℤ) :
    ColumnWise n n (fun x => applyN f1 p x) (fun X => applyN f2 p X) := by
  have key : ∀ k : ℕ, ∀ c : ℕ, (p - c).toNat = k →
      ColumnWise n n (fun x => applyNFrom f1 p x c) (fun X => applyNFrom f2 p X c) := by
    intro k
    induction k with
    | zero =>
      intro c hc X hX
      have hlt : ¬ (c : ℤ) < p := by omega
      beta_reduce
      rw [applyNFrom, if_neg hlt]
      refine ⟨hX, rfl, fun j _ => ?_⟩
      rw [applyNFrom, if_neg hlt]
    | succ k ih =>
      intro c hc X hX
      have hlt : (c : ℤ) < p := by omega
      have := (ih (c + 1) (by push_cast; omega)).comp h X hX
      beta_reduce at this ⊢
      rw [applyNFrom, if_pos hlt]
      refine ⟨this.1, this.2.1, fun j hj => ?_⟩
      rw [applyNFrom.eq_def f1 p (X.col j) c, if_pos hlt]
      exact this.2.2 j hj
  exact key _ 0 rfl

/-! ## The theorems -/

/-- C22 (algebra): if every operator an expression is built from acts on 2-D arrays column by column, so does the
operator the expression evaluates to, in both directions, for every expression of the operator algebra in which
`transpose` is used on real operators only; and its 1-D action is that of the 1-D model. -/
theorem c22_algebra_columnwise_partial (e : Expr2 R) (T : Op2 R) (h : e.eval = some T)
    (hl : ∀ L ∈ e.leaves, L.ColumnWise) (hr : e.RealTransposes) :
    T.ColumnWise ∧ e.forget.eval = some T.toOp := by
  induction e generalizing T with
  | leaf L => cases h; exact ⟨hl L (by simp [Expr2.leaves]), rfl⟩
  | neg e ih =>
    simp only [Expr2.eval, Option.map_eq_some_iff] at h
    obtain ⟨A, hA, rfl⟩ := h
    obtain ⟨i1, i2⟩ := ih A hA hl hr
    exact ⟨⟨(columnWise_neg _).comp i1.1, (columnWise_neg _).comp i1.2⟩, by simp [Expr2.forget, Expr.eval, i2, neg2]⟩
  | scale e a c ih =>
    simp only [Expr2.eval, Option.map_eq_some_iff] at h
    obtain ⟨A, hA, rfl⟩ := h
    obtain ⟨i1, i2⟩ := ih A hA hl hr
    exact ⟨⟨(columnWise_smul _ _).comp i1.1, (columnWise_smul _ _).comp i1.2⟩, by simp [Expr2.forget, Expr.eval, i2, scale2]⟩
  | adjoint e ih =>
    simp only [Expr2.eval, Option.map_eq_some_iff] at h
    obtain ⟨A, hA, rfl⟩ := h
    obtain ⟨i1, i2⟩ := ih A hA hl hr
    exact ⟨⟨i1.2, i1.1⟩, by simp [Expr2.forget, Expr.eval, i2, adjoint2]⟩
  | transpose e ih =>
    simp only [Expr2.eval, Option.map_eq_some_iff] at h
    obtain ⟨A, hA, rfl⟩ := h
    obtain ⟨i1, i2⟩ := ih A hA hl hr.1
    have hreal := hr.2 A hA
    refine ⟨?_, by simp [Expr2.forget, Expr.eval, i2, transpose2]⟩
    simp only [Op2.ColumnWise, transpose2, transpose, hreal, if_true]
    exact ⟨i1.2, i1.1⟩
  | power e p ih =>
    simp only [Expr2.eval, Option.bind_eq_some_iff, power2, Option.map_eq_some_iff] at h
    obtain ⟨A, hA, T', hT', rfl⟩ := h
    obtain ⟨i1, i2⟩ := ih A hA hl hr
    refine ⟨?_, by simp [Expr2.forget, Expr.eval, i2, hT']⟩
    unfold power at hT'
    split at hT'
    · rename_i hs
      cases hT'
      have j1 := i1.1
      have j2 := i1.2
      rw [hs] at j1 j2
      exact ⟨by simpa [hs] using columnWise_applyN j1 p, by simpa [hs] using columnWise_applyN j2 p⟩
    · cases hT'
  | add a b iha ihb =>
    simp only [Expr2.eval, Option.bind_eq_some_iff, add2, Option.map_eq_some_iff] at h
    obtain ⟨A, hA, B, hB, T', hT', rfl⟩ := h
    obtain ⟨i1, i2⟩ := iha A hA (fun L hL => hl L (by simp [Expr2.leaves, hL])) hr.1
    obtain ⟨k1, k2⟩ := ihb B hB (fun L hL => hl L (by simp [Expr2.leaves, hL])) hr.2
    refine ⟨?_, by simp [Expr2.forget, Expr.eval, i2, k2, hT']⟩
    unfold Lop.add at hT'
    split at hT'
    · rename_i hs
      cases hT'
      have j1 := k1.1
      have j2 := k1.2
      rw [← hs.1, ← hs.2] at j1 j2
      exact ⟨columnWise_zip vadd (· + ·) (fun _ _ => rfl) i1.1 j1, columnWise_zip vadd (· + ·) (fun _ _ => rfl) i1.2 j2⟩
    · cases hT'
  | subtract a b iha ihb =>
    simp only [Expr2.eval, Option.bind_eq_some_iff, subtract2, Option.map_eq_some_iff] at h
    obtain ⟨A, hA, B, hB, T', hT', rfl⟩ := h
    obtain ⟨i1, i2⟩ := iha A hA (fun L hL => hl L (by simp [Expr2.leaves, hL])) hr.1
    obtain ⟨k1, k2⟩ := ihb B hB (fun L hL => hl L (by simp [Expr2.leaves, hL])) hr.2
    refine ⟨?_, by simp [Expr2.forget, Expr.eval, i2, k2, hT']⟩
    unfold Lop.subtract at hT'
    split at hT'
    · rename_i hs
      cases hT'
      have j1 := k1.1
      have j2 := k1.2
      rw [← hs.1, ← hs.2] at j1 j2
      exact ⟨columnWise_zip vsub (· - ·) (fun _ _ => rfl) i1.1 j1, columnWise_zip vsub (· - ·) (fun _ _ => rfl) i1.2 j2⟩
    · cases hT'
  | compose a b iha ihb =>
    simp only [Expr2.eval, Option.bind_eq_some_iff, compose2, Option.map_eq_some_iff] at h
    obtain ⟨A, hA, B, hB, T', hT', rfl⟩ := h
    obtain ⟨i1, i2⟩ := iha A hA (fun L hL => hl L (by simp [Expr2.leaves, hL])) hr.1
    obtain ⟨k1, k2⟩ := ihb B hB (fun L hL => hl L (by simp [Expr2.leaves, hL])) hr.2
    refine ⟨?_, by simp [Expr2.forget, Expr.eval, i2, k2, hT']⟩
    unfold Lop.compose at hT'
    split at hT'
    · rename_i hs
      cases hT'
      have j1 := k1.1
      have j2 := k1.2
      rw [← hs] at j1 j2
      exact ⟨i1.1.comp j1, j2.comp i1.2⟩
    · cases hT'
  | hcat a b iha ihb =>
    simp only [Expr2.eval, Option.bind_eq_some_iff, hcat2, Option.map_eq_some_iff] at h
    obtain ⟨A, hA, B, hB, T', hT', rfl⟩ := h
    obtain ⟨i1, i2⟩ := iha A hA (fun L hL => hl L (by simp [Expr2.leaves, hL])) hr.1
    obtain ⟨k1, k2⟩ := ihb B hB (fun L hL => hl L (by simp [Expr2.leaves, hL])) hr.2
    refine ⟨?_, by simp [Expr2.forget, Expr.eval, i2, k2, hT']⟩
    unfold Lop.hcat at hT'
    split at hT'
    · rename_i hs
      cases hT'
      have j1 := k1.1
      have j2 := k1.2
      rw [← hs] at j1 j2
      exact ⟨columnWise_zip vadd (· + ·) (fun _ _ => rfl) (i1.1.comp (columnWise_take (Nat.le_add_right _ _))) (j1.comp (columnWise_drop rfl)),
        columnWise_concat i1.2 j2⟩
    · cases hT'
  | gram e ih =>
    simp only [Expr2.eval, Option.map_eq_some_iff] at h
    obtain ⟨A, hA, rfl⟩ := h
    obtain ⟨i1, i2⟩ := ih A hA hl hr
    exact ⟨⟨i1.2.comp i1.1, i1.2.comp i1.1⟩, by simp [Expr2.forget, Expr.eval, i2, gram2]⟩
  | frame e ih =>
    simp only [Expr2.eval, Option.map_eq_some_iff] at h
    obtain ⟨A, hA, rfl⟩ := h
    obtain ⟨i1, i2⟩ := ih A hA hl hr
    exact ⟨⟨i1.1.comp i1.2, i1.1.comp i1.2⟩, by simp [Expr2.forget, Expr.eval, i2, frame2]⟩

/-- C22 (operators built with `apply_along_axis`, and `times_2d`/`trans_2d` of any operator, matrix-safe or not): an
operator whose 1-D functions have the lengths of its shape acts column by column. -/
theorem c22_along_axis (T : Op R) (h1 : ∀ x, x.length = T.shape.2 → (T.times x).length = T.shape.1)
    (h2 : ∀ x, x.length = T.shape.1 → (T.trans x).length = T.shape.2) :
    (alongAxis T).ColumnWise ∧ ColumnWise T.shape.1 T.shape.2 T.times (times2d T) ∧
      ColumnWise T.shape.2 T.shape.1 T.trans (trans2d T) :=
  ⟨⟨columnWise_along _ h1, columnWise_along _ h2⟩, columnWise_along _ h1, columnWise_along _ h2⟩

/-- The hypotheses of `c22_along_axis` hold for `pad_zeros(2, 1, 1)`, which is not matrix safe. -/
example : ColumnWise (R := ℤ) 4 2 (padZeros 2 1 1).times (times2d (padZeros 2 1 1)) :=
  (c22_along_axis (padZeros 2 1 1) (by intro x hx; simp [padZeros] at hx ⊢; omega) (by intro x hx; simp [padZeros] at hx ⊢; omega)).2.1

theorem col_getD {n : ℕ} {X : Arr2 R} (h : IsArr n X) (i j : ℕ) : ent (X.rows.getD i []) j = ent (X.col j) i := by
  by_cases hi : i < X.rows.length
  · have : i < (X.col j).length := by simpa [Arr2.col] using hi
    rw [List.getD_eq_getElem _ _ hi, ent, ent, List.getD_eq_getElem _ _ this]
    simp [Arr2.col, ent]
  · rw [List.getD_eq_default _ _ (by omega), ent_eq_zero (x := X.col j) (by simp [Arr2.col]; omega)]
    simp [ent]

theorem columnWise_matMat (m n : ℕ) (a : ℕ → ℕ → R) : ColumnWise m n (matVec m n a) (matMat m n a) := by
  intro X hX
  refine ⟨⟨hX.cols_pos, by simp [matMat], ?_⟩, rfl, ?_⟩
  · intro r hr
    simp only [matMat, List.mem_map] at hr ⊢
    obtain ⟨i, -, rfl⟩ := hr
    simp
  · intro j hj
    simp only [matMat, matVec, Arr2.col, List.map_map]
    refine List.map_congr_left fun i _ => ?_
    simp only [Function.comp_apply]
    rw [ent_tab _ hj]
    exact Finset.sum_congr rfl fun l _ => by rw [col_getD hX]; rfl

/-- C22 (constructors with their own 2-D branches): `matrix`, `scalar_mult`, `flipud`, `sum`, `symmetrize`,
`restriction`. -/
theorem c22_constructors (m n : ℕ) (a : ℕ → ℕ → R) (isReal : Bool) (alpha : R) (I : List ℕ) (hI : ∀ i ∈ I, i < n) :
    (matrix2 m n a isReal).ColumnWise ∧ (scalarMult2 alpha n).ColumnWise ∧ (flipud2 (R := R) n).ColumnWise ∧
    (sum2 (R := R) n).ColumnWise ∧ (symmetrize2 (R := R) n).ColumnWise ∧ (restriction2 (R := R) n I).ColumnWise := by
  have hflip : ColumnWise (R := R) n n List.reverse (fun X => { cols := X.cols, rows := X.rows.reverse }) := by
    intro X hX
    refine ⟨⟨hX.cols_pos, by simp [hX.rows_len], fun r hr => hX.row_len r (by simpa using hr)⟩, rfl, fun j _ => ?_⟩
    simp [Arr2.col]
  have hid : ColumnWise (R := R) n n (fun x => x) (fun X => X) := fun X hX => ⟨hX, rfl, fun j _ => rfl⟩
  refine ⟨⟨columnWise_matMat m n a, ?_⟩, ⟨columnWise_smul _ _, columnWise_smul _ _⟩, ⟨hflip, hflip⟩, ⟨?_, ?_⟩, ⟨?_, ?_⟩, ⟨?_, ?_⟩⟩
  · intro X hX
    obtain ⟨q1, q2, q3⟩ := columnWise_matMat n m (fun j i => star (a i j)) X hX
    refine ⟨q1, q2, fun j hj => ?_⟩
    have := q3 j hj
    refine this.trans ?_
    simp only [matrix2, matrix, matVec, vecMat, vconj, List.map_map]
    refine List.map_congr_left fun i _ => ?_
    simp only [Function.comp_apply]
    rw [star_sum]
    refine Finset.sum_congr rfl fun l _ => ?_
    have : ent (List.map star (X.col j)) l = star (ent (X.col j) l) := ent_vconj
    rw [this, star_mul', star_star, mul_comm]
  · intro X hX
    refine ⟨⟨hX.cols_pos, by simp [sum2, sum], ?_⟩, rfl, ?_⟩
    · intro r hr; simp [sum2] at hr ⊢; subst hr; simp
    · intro j hj
      simp only [sum2, Arr2.col, List.map_cons, List.map_nil]
      rw [ent_tab _ hj]; simp [sum, Arr2.col]
  · intro X hX
    have h1 : X.rows.length = 1 := hX.rows_len
    obtain ⟨r, hr⟩ := List.length_eq_one_iff.mp h1
    refine ⟨⟨hX.cols_pos, by simp [sum2, sum, hr], ?_⟩, rfl, ?_⟩
    · intro r' hr'
      refine hX.row_len r' ?_
      simp [sum2, hr] at hr'
      rw [hr, hr'.2]; simp
    · intro j hj
      simp [sum2, sum, Arr2.col, hr, ent]
  · have h := columnWise_concat hflip hid
    rw [← two_mul] at h
    exact h
  · have h1 : ColumnWise (R := R) n (2 * n) (fun x => x.drop n) (Arr2.dropRows n) := columnWise_drop (by omega)
    have h2 : ColumnWise (R := R) n (2 * n) (fun x => (x.take n).reverse)
        (fun X => { cols := X.cols, rows := (X.rows.take n).reverse }) := hflip.comp (columnWise_take (by omega))
    exact columnWise_zip vadd (· + ·) (fun _ _ => rfl) h1 h2
  · intro X hX
    refine ⟨⟨hX.cols_pos, by simp [restriction2, restriction], ?_⟩, rfl, ?_⟩
    · intro r hr
      simp only [restriction2, List.mem_map] at hr ⊢
      obtain ⟨i, hi, rfl⟩ := hr
      have : i < X.rows.length := by rw [hX.rows_len]; exact hI i hi
      rw [List.getD_eq_getElem _ _ this]
      exact hX.row_len _ (List.getElem_mem _)
    · intro j hj
      simp only [restriction2, restriction, gather]
      unfold Arr2.col
      simp only [List.map_map]
      refine List.map_congr_left fun i _ => ?_
      simp only [Function.comp_apply]
      exact col_getD hX i j
  · exact columnWise_along _ (by intro x _; simp [restriction2, restriction])

example : (symmetrize2 (R := ℤ) 3).ColumnWise ∧ (restriction2 (R := ℤ) 3 [2, 0]).ColumnWise :=
  ⟨(c22_constructors 1 3 (fun _ _ => 1) true 1 [2, 0] (by decide)).2.2.2.2.1,
   (c22_constructors 1 3 (fun _ _ => 1) true 1 [2, 0] (by decide)).2.2.2.2.2⟩

/-- C22 (Fourier bases). -/
theorem c22_fourier (n : ℕ) (hn : 0 < n) : (fourierBasis2 n).ColumnWise ∧ (diracFourierBasis2 n).ColumnWise := by
  have hd : ColumnWise n n (dft n) (applyAlong0 (dft n)) := columnWise_along _ (by simp [dft])
  have hi : ColumnWise n n (idft n) (applyAlong0 (idft n)) := columnWise_along _ (by simp [idft])
  have hid : ColumnWise (R := ℂ) n n (fun x => x) (fun X => X) := fun X hX => ⟨hX, rfl, fun j _ => rfl⟩
  refine ⟨⟨(columnWise_smul _ _).comp hi, (columnWise_smul _ _).comp hd⟩, ?_, ?_⟩
  · exact columnWise_zip vadd (· + ·) (fun _ _ => rfl) (columnWise_take (n := 2 * n) (by show n ≤ 2 * n; omega))
      ((columnWise_smul _ _).comp (hi.comp (columnWise_drop (n := 2 * n) (by omega))))
  · have h := columnWise_concat hid ((columnWise_smul _ (1 / ((Real.sqrt n : ℝ) : ℂ))).comp hd)
    rw [← two_mul] at h
    exact h

theorem columnWise_realPart (n : ℕ) : ColumnWise n n (fun x : List ℂ => x.map fun z => (z.re : ℂ)) Arr2.realPart := by
  intro X hX
  refine ⟨⟨hX.cols_pos, by simp [Arr2.realPart, hX.rows_len], ?_⟩, rfl, ?_⟩
  · intro r hr
    obtain ⟨r0, h0, rfl⟩ := List.mem_map.mp hr
    rw [List.length_map]; exact hX.row_len r0 h0
  · intro j hj
    simp only [Arr2.col, Arr2.realPart, List.map_map]
    refine List.map_congr_left fun r hr => ?_
    have hl := hX.row_len r hr
    have hj' : j < r.length := by omega
    simp only [Function.comp_apply, ent]
    rw [List.getD_eq_getElem _ _ (by simpa using hj'), List.getD_eq_getElem _ _ hj', List.getElem_map]

theorem fft_c2c (m n : ℕ) (h : m ≤ n) : fft m n .c2c =
    some { times := fun x => dft n x, trans := fun w => (smul (n : ℂ) (idft n w)).take m, shape := (n, m), real := false } := if_pos h

theorem fft_r2c (m n : ℕ) (h : m ≤ n) : fft m n .r2c =
    some { times := fun x => dft n (x.map fun z => (z.re : ℂ)), trans := fun w => (smul (n : ℂ) (idft n w)).take m,
           shape := (n, m), real := false } := if_pos h

/-- **C15** on 2-D arrays with the default `axis=0`, both directions of `fft` act column by column in both modes. -/
theorem c15_fft_columns (m n : ℕ) (h : m ≤ n) (mode : FftMode) (hm : mode = .r2c ∨ mode = .c2c) :
    ∃ T, fft2 false m n mode = some T ∧ fft m n mode = some T.toOp ∧ T.shape = (n, m) ∧ T.ColumnWise := by
  have hd : ColumnWise n m (dft n) (applyAlong0 (dft n)) := columnWise_along _ (by simp [dft])
  have hi : ColumnWise n n (idft n) (applyAlong0 (idft n)) := columnWise_along _ (by simp [idft])
  have ht := (columnWise_take (R := ℂ) h).comp ((columnWise_smul n (n : ℂ)).comp hi)
  rcases hm with rfl | rfl
  · refine ⟨_, by rw [fft2, fft_r2c m n h]; rfl, fft_r2c m n h, rfl, ?_, ht⟩
    exact hd.comp (columnWise_realPart m)
  · exact ⟨_, by rw [fft2, fft_c2c m n h]; rfl, fft_c2c m n h, rfl, hd, ht⟩

/-- **C15** with `axis=1` the forward direction acts row by row. The backward direction acts row by row on arrays with at most `m`
rows when `n = m`. Missing: every other case (`c15_axis_fails`). -/
theorem c15_axis_partial (m n : ℕ) (h : m ≤ n) : ∃ T, fft2 true m n .c2c = some T ∧
    (∀ X, (T.times2 X).rows = X.rows.map T.times) ∧
    (n = m → ∀ W, W.rows.length ≤ m → (T.trans2 W).rows = W.rows.map T.trans) := by
  refine ⟨_, by rw [fft2, fft_c2c m n h]; rfl, fun X => rfl, ?_⟩
  rintro rfl W hW
  show (List.map _ (List.map _ W.rows)).take n = _
  rw [List.take_of_length_le (by simpa using hW), List.map_map]
  refine List.map_congr_left fun r _ => ?_
  simp only [Function.comp_apply]
  rw [List.take_of_length_le (by simp [smul, idft])]

/-- **C15, refutation** with `axis=1` the backward direction crops the rows instead of the transformed axis: for `m = 1`, `n = 2` the
image of a 1 × 2 array is not 1 × 1, and for `m = n = 1` the second row of a 2 × 1 array is lost. -/
theorem c15_axis_fails :
    (∃ T, fft2 true 1 2 .c2c = some T ∧ ∀ W, W.rows.length = 1 → ∀ r ∈ (T.trans2 W).rows, r.length ≠ 1) ∧
    (∃ T, fft2 true 1 1 .c2c = some T ∧ ∀ W, W.rows.length = 2 → (T.trans2 W).rows.length ≠ 2) := by
  refine ⟨⟨_, by rw [fft2, fft_c2c 1 2 (by norm_num)]; rfl, ?_⟩,
    ⟨_, by rw [fft2, fft_c2c 1 1 le_rfl]; rfl, ?_⟩⟩
  · intro W _ r hr
    have hr' : r ∈ (List.map (Lop.smul ((2 : ℕ) : ℂ)) (List.map (idft 2) W.rows)) := List.mem_of_mem_take hr
    simp only [List.map_map, List.mem_map] at hr'
    obtain ⟨w, -, rfl⟩ := hr'
    simp [smul, idft]
  · intro W hW
    show (List.take 1 _).length ≠ 2
    rw [List.length_take]; omega

example : ∃ T : Op2 ℂ, fft2 false 1 2 .c2c = some T ∧ T.ColumnWise := by
  obtain ⟨T, h, -, -, hc⟩ := c15_fft_columns 1 2 (by norm_num) .c2c (Or.inr rfl)
  exact ⟨T, h, hc⟩

example : ∃ T : Op2 ℂ, fft2 true 1 1 .c2c = some T ∧ (T.trans2 { cols := 1, rows := [[3]] }).rows = [T.trans [3]] := by
  obtain ⟨T, h, -, hc⟩ := c15_axis_partial 1 1 le_rfl
  exact ⟨T, h, hc rfl { cols := 1, rows := [[3]] } (by simp)⟩

theorem map_foldl_set {α β : Type*} (g : α → β) (I : List ℕ) (v z : List α) :
    ((I.zip v).foldl (fun acc p => acc.set p.1 p.2) z).map g =
      (I.zip (v.map g)).foldl (fun acc p => acc.set p.1 p.2) (z.map g) := by
  induction I generalizing v z with
  | nil => simp
  | cons i I ih =>
    cases v with
    | nil => simp
    | cons a v => simp only [List.zip_cons_cons, List.foldl_cons, List.map_cons]; rw [ih, List.map_set]

theorem mem_foldl_set {α : Type*} (I : List ℕ) (v z : List α) {r : α}
    (h : r ∈ (I.zip v).foldl (fun acc p => acc.set p.1 p.2) z) : r ∈ z ∨ r ∈ v := by
  induction I generalizing v z with
  | nil => left; simpa using h
  | cons i I ih =>
    cases v with
    | nil => left; simpa using h
    | cons a v =>
      simp only [List.zip_cons_cons, List.foldl_cons] at h
      rcases ih v (z.set i a) h with h | h
      · rcases List.mem_or_eq_of_mem_set h with h | h
        · exact Or.inl h
        · exact Or.inr (by simp [h])
      · exact Or.inr (by simp [h])

theorem columnWise_scatter (m k : ℕ) (I : List ℕ) :
    ColumnWise (R := R) m k (fun x => scatterSet (List.replicate m 0) I x) (fun X => (zeros2 m X.cols).scatterRows I X) := by
  intro X hX
  refine ⟨⟨hX.cols_pos, ?_, ?_⟩, rfl, ?_⟩
  · have := congrArg List.length (map_foldl_set (fun _ => (0 : R)) I X.rows (zeros2 (R := R) m X.cols).rows)
    rw [List.length_map] at this
    exact this.trans ((length_foldl_set _ _).trans (by simp [zeros2]))
  · intro r hr
    rcases mem_foldl_set _ _ _ hr with h | h
    · rw [List.eq_of_mem_replicate h]; simp [Arr2.scatterRows, zeros2]
    · exact hX.row_len r h
  · intro j hj
    simp only [Arr2.col, Arr2.scatterRows, zeros2, map_foldl_set, scatterSet, List.map_replicate]
    congr 2
    simp [ent, hj]

theorem columnWise_gather {n : ℕ} (I : List ℕ) (hI : ∀ i ∈ I, i < n) :
    ColumnWise (R := R) I.length n (fun x => gather x I) (fun X => X.gatherRows I) := by
  intro X hX
  refine ⟨⟨hX.cols_pos, by simp [Arr2.gatherRows], ?_⟩, rfl, ?_⟩
  · intro r hr
    simp only [Arr2.gatherRows, List.mem_map] at hr ⊢
    obtain ⟨i, hi, rfl⟩ := hr
    have : i < X.rows.length := by rw [hX.rows_len]; exact hI i hi
    rw [List.getD_eq_getElem _ _ this]
    exact hX.row_len _ (List.getElem_mem _)
  · intro j hj
    simp only [Arr2.gatherRows, gather]
    unfold Arr2.col
    simp only [List.map_map]
    refine List.map_congr_left fun i _ => ?_
    simp only [Function.comp_apply]
    exact col_getD hX i j

/-- C22 (`partial_op`): if `A` acts column by column, so does `partial_op(A, picks, perm)`, for in-range picks and a
permutation argument of the right length. -/
theorem c22_partial_op (A : Op2 R) (hA : A.ColumnWise) (picks : List ℕ) (hp : ∀ i ∈ picks, i < A.shape.1)
    (perm : Option (List ℕ)) (hperm : ∀ q, perm = some q → q.length = A.shape.2 ∧ ∀ i ∈ q, i < A.shape.2) :
    (partialOp2 A picks perm).ColumnWise := by
  have hs := columnWise_scatter (R := R) A.shape.1 picks.length picks
  cases perm with
  | none => exact ⟨(columnWise_gather picks hp).comp hA.1, hA.2.comp hs⟩
  | some q =>
    obtain ⟨q1, q2⟩ := hperm q rfl
    have hg := columnWise_gather (R := R) q q2
    rw [q1] at hg
    refine ⟨(columnWise_gather picks hp).comp (hA.1.comp hg), ?_⟩
    intro X hX
    obtain ⟨a1, a2, a3⟩ := hA.2.comp hs X hX
    beta_reduce at a1 a2 a3
    obtain ⟨b1, b2, b3⟩ := columnWise_scatter (R := R) A.shape.2 A.shape.2 q _ a1
    beta_reduce at b1 b2 b3
    have e : (A.trans2 ((zeros2 A.shape.1 X.cols).scatterRows picks X)).rows.length = A.shape.2 := a1.rows_len
    have e2 : (partialOp2 A picks (some q)).trans2 X =
        (zeros2 A.shape.2 (A.trans2 ((zeros2 A.shape.1 X.cols).scatterRows picks X)).cols).scatterRows q
          (A.trans2 ((zeros2 A.shape.1 X.cols).scatterRows picks X)) := by
      show (zeros2 (A.trans2 ((zeros2 A.shape.1 X.cols).scatterRows picks X)).rows.length _).scatterRows q _ = _
      rw [e]
    rw [e2]
    refine ⟨b1, b2.trans a2, fun j hj => ?_⟩
    rw [b3 j (by rw [a2]; exact hj), a3 j hj]
    have e3 : (A.trans (scatterSet (List.replicate A.shape.1 0) picks (X.col j))).length = A.shape.2 := by
      rw [← a3 j hj]; exact a1.col_len j
    show _ = scatterSet (List.replicate (A.trans (scatterSet (List.replicate A.shape.1 0) picks (X.col j))).length 0) q _
    rw [e3]

/-- `partial_op(flipud(3), [2, 0], perm=[1, 2, 0])`. -/
example : (partialOp2 (flipud2 (R := ℤ) 3) [2, 0] (some [1, 2, 0])).ColumnWise :=
  c22_partial_op _ (c22_constructors 1 3 (fun _ _ => 1) true (1 : ℤ) [] (by simp)).2.2.1 _ (by simp [flipud2, flipud]) _
    (by simp [flipud2, flipud])

/-- Multiplying row `i` by `p[i]`, and applying `h p[i]` to its entries in general. -/
theorem columnWise_diag {S : Type*} [CommRing S] [StarRing S] {n : ℕ} (p : List ℂ) (hp : p.length = n) (h : ℂ → R → S)
    (h0 : ∀ z, h z 0 = 0) :
    ColumnWise (R := R) n n (fun x => List.zipWith h p x)
      (fun X => { cols := X.cols, rows := List.zipWith (fun z r => r.map (h z)) p X.rows }) := by
  intro X hX
  refine ⟨⟨hX.cols_pos, by simp [hp, hX.rows_len], ?_⟩, rfl, ?_⟩
  · intro r hr
    rw [List.mem_iff_getElem] at hr
    obtain ⟨i, hi, rfl⟩ := hr
    simp only [List.getElem_zipWith, List.length_map]
    exact hX.row_len _ (List.getElem_mem _)
  · intro j hj
    simp only [Arr2.col]
    rw [List.map_zipWith, List.zipWith_map_right]
    refine List.ext_getElem (by simp) fun i h1 h2 => ?_
    simp only [List.getElem_zipWith, ent]
    rw [List.getD_eq_getElem?_getD, List.getElem?_map]
    by_cases hj' : j < (X.rows[i]'(by simp at h1; omega)).length
    · simp [hj']
    · simp [hj', h0]

theorem columnWise_congr {S : Type*} [CommRing S] {m n : ℕ} {f1 g1 : List R → List S} {f2 g2 : Arr2 R → Arr2 S}
    (h : ColumnWise m n f1 f2) (h1 : ∀ x, x.length = n → g1 x = f1 x) (h2 : ∀ X, IsArr n X → g2 X = f2 X) :
    ColumnWise m n g1 g2 := by
  intro X hX
  rw [h2 X hX]
  exact ⟨(h X hX).1, (h X hX).2.1, fun j hj => by rw [h1 _ (hX.col_len j)]; exact (h X hX).2.2 j hj⟩

theorem columnWise_append_zero {n : ℕ} {f1 : List ℝ → List ℂ} {f2 : Arr2 ℝ → Arr2 ℂ} (h : ColumnWise n n f1 f2) :
    ColumnWise (n + 1) n (fun x => f1 x ++ [0]) (fun X => (f2 X).concat { cols := X.cols, rows := [List.replicate X.cols 0] }) := by
  intro X hX
  obtain ⟨a1, a2, a3⟩ := h X hX
  refine ⟨⟨a1.cols_pos, by simp [Arr2.concat, a1.rows_len], ?_⟩, a2, ?_⟩
  · intro r hr
    simp only [Arr2.concat, List.mem_append, List.mem_singleton] at hr ⊢
    rcases hr with hr | rfl
    · exact a1.row_len r hr
    · simp [a2]
  · intro j hj
    beta_reduce
    rw [← a3 j hj]
    simp [Arr2.col, Arr2.concat, ent, hj]

theorem columnWise_flip (n : ℕ) : ColumnWise (R := R) n n List.reverse (fun X => { cols := X.cols, rows := X.rows.reverse }) := by
  intro X hX
  refine ⟨⟨hX.cols_pos, by simp [hX.rows_len], fun r hr => hX.row_len r (by simpa using hr)⟩, rfl, fun j _ => ?_⟩
  simp [Arr2.col]

theorem cosine_times2 (n : ℕ) : ColumnWise n n (cosineBasis n).times (cosineBasis2 n).times2 := by
  have hu : ColumnWise (R := ℝ) n n (fun x => vmul (phiF n) (toC x))
      (fun X => { cols := X.cols, rows := List.zipWith (fun p r => r.map fun z : ℝ => p * (z : ℂ)) (phiF n) X.rows }) := by
    have := columnWise_diag (R := ℝ) (n := n) (phiF n) (by simp [phiF]) (fun p (z : ℝ) => p * (z : ℂ)) (by simp)
    simpa [vmul, toC, List.zipWith_map_right] using this
  have hc := columnWise_append_zero hu
  refine columnWise_congr ((columnWise_take (R := ℝ) (n := 2 * n) (k := n) (by omega)).comp
    ((columnWise_along (R := ℂ) (m := 2 * n) (n := n + 1) (irfft (2 * n)) (by simp [irfft])).comp hc)) ?_ ?_
  · intro x hx
    have e2 : (vmul (phiF n) (toC x) ++ [0]).length = n + 1 := by simp [phiF, toC, hx]
    simp only [cosineBasis, e2, Nat.add_sub_cancel]
  · intro X hX
    have e := (hc X hX).1.rows_len
    beta_reduce at e
    simp only [cosineBasis2, e, Nat.add_sub_cancel]

theorem cosine_trans2 (n : ℕ) : ColumnWise n n (cosineBasis n).trans (cosineBasis2 n).trans2 := by
  have hid : ColumnWise (R := ℝ) n n (fun x => x) (fun X => X) := fun X hX => ⟨hX, rfl, fun j _ => rfl⟩
  have hc := columnWise_concat hid (columnWise_flip n)
  have h1 : ColumnWise (R := ℝ) (min ((n + n) / 2 + 1) (n + n)) (n + n) (rfft (n + n)) (applyAlong0 (rfft (n + n))) :=
    columnWise_along _ (by simp [rfft])
  have hd : ColumnWise (R := ℂ) n n (fun x => (vmul (phiA n) x).map Complex.re)
      (fun X => { cols := X.cols, rows := List.zipWith (fun p r => r.map fun z => (p * z).re) (phiA n) X.rows }) := by
    have := columnWise_diag (R := ℂ) (S := ℝ) (n := n) (phiA n) (by simp [phiA]) (fun p z => (p * z).re) (by simp)
    simpa [vmul, List.map_zipWith] using this
  refine columnWise_congr (hd.comp ((columnWise_take (R := ℂ) (by omega)).comp (h1.comp hc))) ?_ ?_
  · intro x hx
    have e4 : (x ++ x.reverse).length = n + n := by simp [hx]
    simp only [cosineBasis, e4]
  · intro X hX
    have e := (hc X hX).1.rows_len
    beta_reduce at e
    simp only [cosineBasis2, e]

/-- C22 (`cosine_basis`). -/
theorem c22_cosine (n : ℕ) : (cosineBasis2 n).ColumnWise := ⟨cosine_times2 n, cosine_trans2 n⟩

example : ((cosineBasis2 4).times2 { cols := 2, rows := [[2, 0], [0, 1], [0, 0], [0, 0]] }).col 1 = (cosineBasis 4).times [0, 1, 0, 0] :=
  ((c22_cosine 4).1 _ ⟨by norm_num, rfl, by simp⟩).2.2 1 (by norm_num)

/-- C22 is violated: the `transpose` of a complex operator uses the conjugate *transpose* of a 2-D input, so it does
not act column by column: for the 1 × 1 Fourier basis (the identity) and a 1 × 2 input the shape is already wrong;
for `matrix([[0, i], [0, 0]])` the values of a square input are. -/
theorem c22_complex_transpose_fails :
    (matrix2 2 2 (fun i j => if i = 0 ∧ j = 1 then Complex.I else 0) false).ColumnWise ∧
    ¬ (transpose2 (matrix2 2 2 (fun i j => if i = 0 ∧ j = 1 then Complex.I else 0) false)).ColumnWise := by
  refine ⟨(c22_constructors 2 2 _ false (1 : ℂ) [] (by simp)).1, fun h => ?_⟩
  have hX : IsArr 2 ({ cols := 2, rows := [[1, 0], [0, 0]] } : Arr2 ℂ) := ⟨by norm_num, rfl, by simp⟩
  have h1 := (h.1 _ hX).2.2 0 (by norm_num)
  simp [transpose2, transpose, matrix2, matrix, Arr2.col, Arr2.hermitian, matMat, vecMat, vconj, ent, List.range_succ,
    Finset.sum_range_succ] at h1
  exact Complex.I_ne_zero h1.symm

/-- C22 is violated by `pad_zeros` (flagged `matrix_safe=False`), which pads both axes; `times_2d` is right (see the
example below `c22_along_axis`). -/
theorem c22_pad_zeros_fails : ¬ (padZeros2 (R := ℤ) 1 1 0).ColumnWise := by
  intro h
  have hX : IsArr 1 ({ cols := 1, rows := [[5]] } : Arr2 ℤ) := ⟨by norm_num, rfl, by simp⟩
  exact absurd (h.1 _ hX).2.1 (by decide)

/-- **C22** (what `pad_zeros` does instead) on an array with `n` rows `times` pads both axes: entry `(i, j)` of the result is entry `(i - before, j - before)` of the input
inside and zero outside. `trans` acts column by column. -/
theorem c22_pad_zeros_values (n before after : ℕ) (X : Arr2 R) (hX : IsArr n X) :
    ((padZeros2 n before after).times2 X).cols = before + X.cols + after ∧ ((padZeros2 n before after).times2 X).rows.length = before + n + after ∧
    (∀ r ∈ ((padZeros2 n before after).times2 X).rows, r.length = before + X.cols + after) ∧
    (∀ i j, ent (((padZeros2 n before after).times2 X).rows.getD i []) j =
      if (before ≤ i ∧ i < before + n) ∧ before ≤ j ∧ j < before + X.cols then ent (X.rows.getD (i - before) []) (j - before) else 0) ∧
    ∀ Y : Arr2 R, IsArr (before + n + after) Y → ((padZeros2 n before after).trans2 Y).cols = Y.cols ∧
      ∀ j, j < Y.cols → ((padZeros2 n before after).trans2 Y).col j = (padZeros2 n before after).trans (Y.col j) := by
  obtain ⟨h0, hr, hl⟩ := hX
  refine ⟨rfl, ?_, ?_, fun i j => ?_, fun Y hY => ⟨rfl, fun j hj => ?_⟩⟩
  · simp [padZeros2, hr]; omega
  · intro r h
    simp only [padZeros2, List.mem_append, List.mem_replicate, List.mem_map] at h
    rcases h with (⟨-, rfl⟩ | ⟨a, ha, rfl⟩) | ⟨-, rfl⟩
    · simp
    · rw [length_pad, hl a ha]
    · simp
  · simp only [padZeros2]
    by_cases h1 : i < before
    · rw [List.append_assoc, List.getD_append _ _ _ _ (by simpa using h1), List.getD_replicate _ h1, ent_replicate_zero, if_neg (by omega)]
    · by_cases h2 : i < before + n
      · rw [List.append_assoc, List.getD_append_right _ _ _ _ (by simpa using h1), List.length_replicate,
          List.getD_append _ _ _ _ (by simp [hr]; omega), List.getD_eq_getElem _ _ (by simp [hr]; omega), List.getElem_map, ent_pad,
          hl _ (List.getElem_mem _), List.getD_eq_getElem _ _ (by omega)]
        by_cases h3 : before ≤ j ∧ j < before + X.cols
        · rw [if_pos h3, if_pos ⟨⟨by omega, h2⟩, h3⟩]
        · rw [if_neg h3, if_neg fun h => h3 h.2]
      · rw [List.getD_append_right _ _ _ _ (by simp [hr]; omega), if_neg (by omega)]
        by_cases h3 : i - (before + n) < after
        · rw [List.getD_replicate _ (by simp [hr]; omega), ent_replicate_zero]
        · rw [List.getD_eq_default _ _ (by simp [hr]; omega)]; simp [ent]
  · simp [padZeros2, padZeros, Arr2.col, slice, List.map_take, List.map_drop]

example : IsArr 2 ({ cols := 1, rows := [[5], [6]] } : Arr2 ℤ) := ⟨by norm_num, rfl, by simp⟩

/-- Non-vacuity of the algebra theorem: `2 (A B) + [I, 0]`-like expressions over `matrix` and `identity`. -/
example : ∃ T, (Expr2.add (.compose (.leaf (matrix2 2 2 (fun i j => (i + j : ℤ)) true)) (.leaf (flipud2 2)))
    (.transpose (.leaf (alongAxis (identity 2 2))))).eval = some T ∧ T.ColumnWise := by
  refine ⟨_, rfl, (c22_algebra_columnwise_partial (Expr2.add (.compose (.leaf (matrix2 2 2 (fun i j => (i + j : ℤ)) true)) (.leaf (flipud2 2)))
    (.transpose (.leaf (alongAxis (identity 2 2))))) _ rfl ?_ ?_).1⟩
  · intro L hL
    simp only [Expr2.leaves, List.cons_append, List.nil_append, List.mem_cons, List.not_mem_nil, or_false] at hL
    rcases hL with rfl | rfl | rfl
    · exact (c22_constructors 2 2 _ true (1 : ℤ) [] (by simp)).1
    · exact (c22_constructors 2 2 (fun _ _ => 1) true (1 : ℤ) [] (by simp)).2.2.1
    · exact (c22_along_axis _ (by intro x hx; simpa [identity] using hx) (by intro x hx; simpa [identity] using hx)).1
  · simp [Expr2.RealTransposes, Expr2.eval, alongAxis, identity]

example := c22_fourier 5 (by norm_num)

example := c22_pad_zeros_values 2 1 2 ({ cols := 1, rows := [[5], [6]] } : Arr2 ℤ) ⟨by norm_num, rfl, by simp⟩

end Verif.Lop
