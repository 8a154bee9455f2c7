import Verif.Lop.AlgebraRefine
import Verif.Lop.UtilModel
import Mathlib.Data.Complex.Basic

set_option autoImplicit false

/-!
# Properties of the operator algebra (C01, C10, C11, C12, C21)
-/
set_option linter.unusedSectionVars false
namespace Verif.Lop
variable {R : Type*} [CommRing R] [StarRing R]

/-! ## Concrete operators used to show that hypotheses can be met -/

/-- The operator of the 2 × 3 integer matrix `[[1,2,3],[4,5,6]]`. -/
def demoA : Op ℤ :=
  { times := fun x => [x.getD 0 0 + 2 * x.getD 1 0 + 3 * x.getD 2 0, 4 * x.getD 0 0 + 5 * x.getD 1 0 + 6 * x.getD 2 0]
    trans := fun y => [y.getD 0 0 + 4 * y.getD 1 0, 2 * y.getD 0 0 + 5 * y.getD 1 0, 3 * y.getD 0 0 + 6 * y.getD 1 0]
    shape := (2, 3) }

theorem demoA_good : AdjointPair demoA.shape.1 demoA.shape.2 demoA.times demoA.trans := by
  refine ⟨fun _ _ => rfl, fun _ _ => rfl, ?_⟩
  intro x y hx hy
  match x, y, hx, hy with
  | [a, b, c], [d, e], _, _ => simp [demoA]; ring

theorem demoA_real : demoA.RealSound := fun _ _ _ _ _ => rfl

/-- `-(3 A^T A)^2`-like expression of depth 5 over `demoA`. -/
def demoE : Expr ℤ :=
  .neg (.power (.scale (.compose (.transpose (.leaf demoA)) (.leaf demoA)) 3 false) 2)

/-! ## C01 -/

/-- **C01** Every operator expression built from adjoint-consistent operators is adjoint-consistent
(and shape-correct), whatever the nesting. -/
theorem c01_algebra_preserves_adjoint (e : Expr R) (T : Op R) (h : e.eval = some T)
    (hl : ∀ L ∈ e.leaves, AdjointPair L.shape.1 L.shape.2 L.times L.trans) :
    AdjointPair T.shape.1 T.shape.2 T.times T.trans := by
  have main : ∀ (e : Expr R) (T : Op R), e.eval = some T → (∀ L ∈ e.leaves, L.Good) → T.Good := by
    intro e
    induction e with
    | leaf L => intro T h hl; cases h; exact hl L (by simp [Expr.leaves])
    | neg e ih | adjoint e ih | transpose e ih | gram e ih | frame e ih | scale e a c ih =>
      intro T h hl
      simp only [Expr.eval, Option.map_eq_some_iff] at h
      obtain ⟨A, hA, rfl⟩ := h
      have := ih A hA hl
      first
        | exact good_neg this | exact good_adjoint this | exact good_transpose this
        | exact good_gram this | exact good_frame this | exact good_scale this _ _
    | power e p ih =>
      intro T h hl
      simp only [Expr.eval, Option.bind_eq_some_iff] at h
      obtain ⟨A, hA, hT⟩ := h
      exact good_power (ih A hA hl) hT
    | add a b iha ihb | subtract a b iha ihb | compose a b iha ihb | hcat a b iha ihb =>
      intro T h hl
      simp only [Expr.eval, Option.bind_eq_some_iff] at h
      obtain ⟨A, hA, B, hB, hT⟩ := h
      have h1 := iha A hA fun L hL => hl L (by simp [Expr.leaves, hL])
      have h2 := ihb B hB fun L hL => hl L (by simp [Expr.leaves, hL])
      first
        | exact good_add h1 h2 hT | exact good_subtract h1 h2 hT
        | exact good_compose h1 h2 hT | exact good_hcat h1 h2 hT
  exact main e T h hl

example : ∃ T, demoE.eval = some T ∧ T.shape = (3, 3) ∧ T.times [1, 0, 0] = [-13518, -17856, -22194] ∧
    ∀ L ∈ demoE.leaves, AdjointPair L.shape.1 L.shape.2 L.times L.trans := by
  refine ⟨_, rfl, rfl, ?_, ?_⟩
  · show vneg (applyN _ (2 : ℤ) _) = _
    rw [applyN_eq]; rfl
  · intro L hL
    have : L = demoA := by simpa [demoE, Expr.leaves] using hL
    exact this ▸ demoA_good

/-- **C01, refinement** An operator expression means what matrix algebra says: the operator it
evaluates to has the shape and the matrix of the denoted matrix expression (`-M`, `aM`, `Mᴴ`, `Mᵀ`, `Mᵏ`, `M+N`,
`M-N`, `MN`, `[M N]`, `MᴴM`, `MMᴴ`), multiplies every vector with that matrix, and its `trans` multiplies
with the conjugate transpose. -/
theorem c01_algebra_is_matrix_algebra (e : Expr R) (T : Op R) (h : e.eval = some T)
    (hl : ∀ L ∈ e.leaves, AdjointPair L.shape.1 L.shape.2 L.times L.trans ∧ L.RealSound)
    (hs : e.RealScalars) :
    T.shape = (e.den.rows, e.den.cols) ∧
    (∀ x, x.length = e.den.cols → T.times x = (List.range e.den.rows).map fun i =>
      ∑ j ∈ Finset.range e.den.cols, e.den.entry i j * x.getD j 0) ∧
    (∀ y, y.length = e.den.rows → T.trans y = (List.range e.den.cols).map fun j =>
      ∑ i ∈ Finset.range e.den.rows, star (e.den.entry i j) * y.getD i 0) := by
  obtain ⟨g, _, s1, s2, s3⟩ := expr_refines e T h hl hs
  have s1' : T.shape.1 = e.den.rows := s1
  have s2' : T.shape.2 = e.den.cols := s2
  refine ⟨Prod.ext s1 s2, fun x hx => ?_, fun y hy => ?_⟩
  · apply ext_getD (n := e.den.rows) (by rw [← s1']; exact g.times_length x (by rw [hx, s2'])) (by simp)
    intro i hi
    rw [AdjointPair.getD_times g (by rw [hx, s2']) (by rw [s1']; exact hi), s2']
    simp only [List.getD, List.getElem?_map, List.getElem?_range hi, Option.map_some, Option.getD_some]
    refine Finset.sum_congr rfl fun j hj => ?_
    have := s3 i j (by show i < T.shape.1; omega) (by show j < T.shape.2; rw [s2']; exact Finset.mem_range.mp hj)
    rw [← this, ← s2']; rfl
  · apply ext_getD (n := e.den.cols) (by rw [← s2']; exact g.trans_length y (by rw [hy, s1'])) (by simp)
    intro j hj
    rw [AdjointPair.getD_times g.symm (by rw [hy, s1']) (by rw [s2']; exact hj), s1']
    simp only [List.getD, List.getElem?_map, List.getElem?_range hj, Option.map_some, Option.getD_some]
    refine Finset.sum_congr rfl fun i hi => ?_
    have hi' := Finset.mem_range.mp hi
    have := s3 i j (by show i < T.shape.1; omega) (by show j < T.shape.2; omega)
    rw [← this, ← s1', entryOf, AdjointPair.getD_trans_unit g (by omega) (by omega)]; rfl

example : (∀ L ∈ demoE.leaves, AdjointPair L.shape.1 L.shape.2 L.times L.trans ∧ L.RealSound) ∧
    demoE.RealScalars ∧ demoE.den.entry 0 1 = -17856 := by
  refine ⟨?_, ?_, ?_⟩
  · intro L hL
    have : L = demoA := by simpa [demoE, Expr.leaves] using hL
    exact this ▸ ⟨demoA_good, demoA_real⟩
  · simp [demoE, Expr.RealScalars]
  · decide

/-- Which expressions are accepted: shapes must fit (stated on the denoted matrices). -/
def Expr.WellShaped : Expr R → Prop
  | .leaf _ => True
  | .neg e | .scale e _ _ | .adjoint e | .transpose e | .gram e | .frame e => e.WellShaped
  | .power e _ => e.WellShaped ∧ e.den.rows = e.den.cols
  | .add a b | .subtract a b =>
      a.WellShaped ∧ b.WellShaped ∧ a.den.rows = b.den.rows ∧ a.den.cols = b.den.cols
  | .compose a b => a.WellShaped ∧ b.WellShaped ∧ a.den.cols = b.den.rows
  | .hcat a b => a.WellShaped ∧ b.WellShaped ∧ a.den.rows = b.den.rows

/-- **C01, error branch** An operator expression is rejected exactly when some sub-expression has
mismatching dimensions. -/
theorem c01_rejects_iff_misshaped (e : Expr R) : e.eval.isSome ↔ e.WellShaped := by
  have main : ∀ e : Expr R, (e.WellShaped → ∃ T, e.eval = some T) ∧
      (∀ T, e.eval = some T → e.WellShaped ∧ T.shape = (e.den.rows, e.den.cols)) := by
    intro e
    induction e with
    | leaf L => exact ⟨fun _ => ⟨L, rfl⟩, fun T h => by cases h; exact ⟨trivial, rfl⟩⟩
    | neg e ih | adjoint e ih | transpose e ih | gram e ih | frame e ih | scale e a c ih =>
      constructor
      · intro h
        obtain ⟨T, hT⟩ := ih.1 h
        simp [Expr.eval, hT]
      · intro T h
        simp only [Expr.eval, Option.map_eq_some_iff] at h
        obtain ⟨A, hA, rfl⟩ := h
        obtain ⟨w, s⟩ := ih.2 A hA
        exact ⟨w, by simp [neg, scale, adjoint, transpose, gram, frame, s, Expr.den,
          Mat.conjTranspose, Mat.transpose, Mat.mul]⟩
    | power e p ih =>
      constructor
      · rintro ⟨h, hs⟩
        obtain ⟨T, hT⟩ := ih.1 h
        have s := (ih.2 T hT).2
        simp [Expr.eval, hT, power, s, hs]
      · intro T h
        simp only [Expr.eval, Option.bind_eq_some_iff] at h
        obtain ⟨A, hA, hT⟩ := h
        obtain ⟨w, s⟩ := ih.2 A hA
        unfold power at hT
        split at hT
        · rename_i hsq
          cases hT
          rw [s] at hsq
          exact ⟨⟨w, hsq⟩, by simp only [s, Expr.den, Mat.pow_rows, Mat.pow_cols _ hsq]⟩
        · cases hT
    | add a b iha ihb | subtract a b iha ihb | compose a b iha ihb | hcat a b iha ihb =>
      constructor
      · rintro ⟨ha, hb, hs⟩
        obtain ⟨A, hA⟩ := iha.1 ha
        obtain ⟨B, hB⟩ := ihb.1 hb
        have sA := (iha.2 A hA).2
        have sB := (ihb.2 B hB).2
        simp [Expr.eval, hA, hB, add, subtract, compose, hcat, sA, sB, hs]
      · intro T h
        simp only [Expr.eval, Option.bind_eq_some_iff] at h
        obtain ⟨A, hA, B, hB, hT⟩ := h
        obtain ⟨wA, sA⟩ := iha.2 A hA
        obtain ⟨wB, sB⟩ := ihb.2 B hB
        first | unfold add at hT | unfold subtract at hT | unfold compose at hT | unfold hcat at hT
        split at hT
        · rename_i hsh
          cases hT
          rw [sA, sB] at hsh
          exact ⟨⟨wA, wB, hsh⟩, by simp [sA, sB, Expr.den, Mat.map₂, Mat.mul, Mat.hcat]⟩
        · cases hT
  constructor
  · intro h
    obtain ⟨T, hT⟩ := Option.isSome_iff_exists.mp h
    exact ((main e).2 T hT).1
  · intro h
    obtain ⟨T, hT⟩ := (main e).1 h
    rw [hT]; rfl

example : demoE.WellShaped ∧ ¬ (Expr.compose (.leaf demoA) (.leaf demoA)).WellShaped := by
  simp [demoE, Expr.WellShaped, Expr.den, Mat.mul, Mat.transpose, Op.mat, demoA]

/-! ## C21 -/

/-- `A` applied `k` times. -/
def applyTimes (f : List R → List R) : ℕ → List R → List R
  | 0, x => x
  | k + 1, x => f (applyTimes f k x)

/-- **C21** `A ** p` applies `A` exactly `p` times (and `trans` exactly `p` times the adjoint);
a non-square operator is rejected, whatever `p`. -/
theorem c21_power (A : Op R) (p : ℕ) :
    (A.shape.1 = A.shape.2 → ∃ T, power A p = some T ∧ T.shape = A.shape ∧
      (∀ x, T.times x = applyTimes A.times p x) ∧ (∀ x, T.trans x = applyTimes A.trans p x)) ∧
    (A.shape.1 ≠ A.shape.2 → ∀ q : ℤ, power A q = none) := by
  have key : ∀ (f : List R → List R) (x : List R), applyN f p x = applyTimes f p x := by
    intro f x
    rw [applyN_eq, Int.toNat_natCast]
    induction p with
    | zero => rfl
    | succ k ih => rw [Function.iterate_succ_apply', ih]; rfl
  constructor
  · intro h
    exact ⟨_, if_pos h, rfl, key _, key _⟩
  · intro h q
    rw [power, if_neg h]

example : (neg (gram demoA)).shape.1 = (neg (gram demoA)).shape.2 ∧ demoA.shape.1 ≠ demoA.shape.2 ∧
    applyTimes (gram demoA).times 2 [1, 0, 0] = [1502, 1984, 2466] := by decide

/-! ## C12 -/

/-- **C12 (partial)** For every adjoint-consistent operator whose `real` flag is truthful,
`transpose(A)` multiplies with the unconjugated transpose of the matrix of `A`, and transposing twice
gives an operator with the functions of `A`.  Missing: operators with complex entries that are flagged
real, for which the claim fails (`c12_complex_diagonal_fails`). -/
theorem c12_transpose_partial (A : Op R) (h : AdjointPair A.shape.1 A.shape.2 A.times A.trans)
    (hr : A.RealSound) :
    (∀ y, y.length = A.shape.1 → (transpose A).times y = (List.range A.shape.2).map fun j =>
      ∑ i ∈ Finset.range A.shape.1, (A.times (unitVec A.shape.2 j)).getD i 0 * y.getD i 0) ∧
    (transpose (transpose A)).times = A.times ∧ (transpose (transpose A)).trans = A.trans ∧
    (transpose (transpose A)).shape = A.shape := by
  refine ⟨fun y hy => ?_, ?_, ?_, rfl⟩
  · apply ext_getD (n := A.shape.2) ((good_transpose h).times_length y hy) (by simp)
    intro j hj
    rw [AdjointPair.getD_times (good_transpose h) hy hj]
    simp only [List.getD, List.getElem?_map, List.getElem?_range hj, Option.map_some, Option.getD_some]
    refine Finset.sum_congr rfl fun i hi => ?_
    have := entry_transpose h hr hj (Finset.mem_range.mp hi)
    simp only [Op.mat, entryOf, List.getD] at this
    simp only [entryOf, List.getD]
    rw [← this]
  · unfold transpose
    cases hre : A.real <;> simp [vconj_vconj]
  · unfold transpose
    cases hre : A.real <;> simp [vconj_vconj]

example : AdjointPair demoA.shape.1 demoA.shape.2 demoA.times demoA.trans ∧ demoA.RealSound :=
  ⟨demoA_good, demoA_real⟩

/-! ## C10 -/

/-- Matrix (given by its columns) times vector: entry `i` is `∑ⱼ M[i,j] x[j]`. -/
def colsMulVec (m : ℕ) (cols : List (List R)) (x : List R) : List R :=
  (List.range m).map fun i => ∑ j ∈ Finset.range cols.length, (cols.getD j []).getD i 0 * x.getD j 0

/-- **C10** For every operator that really is linear, `to_matrix` succeeds and represents it:
the result has `n` columns of length `m` and `to_matrix(T) @ x = T.times(x)`. -/
theorem c10_to_matrix (T : Op R) (hf : T.linear = true)
    (hlin : LinearMapOn T.shape.1 T.shape.2 T.times) :
    ∃ M, toMatrix T = some M ∧ M.length = T.shape.2 ∧ (∀ c ∈ M, c.length = T.shape.1) ∧
      ∀ x, x.length = T.shape.2 → colsMulVec T.shape.1 M x = T.times x := by
  refine ⟨_, by rw [toMatrix, if_pos hf], by simp [eyeCols], ?_, ?_⟩
  · intro c hc
    simp only [eyeCols, List.map_map, List.mem_map] at hc
    obtain ⟨j, _, rfl⟩ := hc
    exact hlin.length _ (by simp)
  · intro x hx
    apply ext_getD (n := T.shape.1) (by simp [colsMulVec]) (hlin.length x hx)
    intro i hi
    rw [LinearMapOn.getD hlin hx]
    simp only [colsMulVec, List.getD, List.getElem?_map, List.getElem?_range hi, Option.map_some, Option.getD_some]
    simp only [eyeCols, List.map_map, List.length_map, List.length_range]
    refine Finset.sum_congr rfl fun j hj => ?_
    simp only [List.getElem?_map, List.getElem?_range (Finset.mem_range.mp hj), Option.map_some, Option.getD_some, entryOf, List.getD]

/-- **C10, second half** A nonlinear-flagged operator is rejected; for an adjoint-consistent
operator `to_adjoint_matrix(T)` is the conjugate transpose of `to_matrix(T)`. -/
theorem c10_to_adjoint_matrix (T : Op R) :
    (T.linear = false → toMatrix T = none ∧ toAdjointMatrix T = none) ∧
    (T.linear = true → AdjointPair T.shape.1 T.shape.2 T.times T.trans →
      ∃ M N, toMatrix T = some M ∧ toAdjointMatrix T = some N ∧ N.length = T.shape.1 ∧
        ∀ i j, i < T.shape.1 → j < T.shape.2 →
          (N.getD i []).getD j 0 = star ((M.getD j []).getD i 0)) := by
  constructor
  · intro h; simp [toMatrix, toAdjointMatrix, h]
  · intro h g
    refine ⟨_, _, by rw [toMatrix, if_pos h], by rw [toAdjointMatrix, if_pos h], by simp [eyeCols], ?_⟩
    intro i j hi hj
    have := AdjointPair.getD_trans_unit g hi hj
    simp only [List.getD] at this
    simp only [eyeCols, List.map_map, List.getD, List.getElem?_map, List.getElem?_range hi,
      List.getElem?_range hj, Option.map_some, Option.getD_some, Function.comp]
    exact this

/-- **C10, third part** `column(T, i)` and `columns(T, I)` are the columns of `to_matrix(T)` in the
order asked for; a negative index counts from the end. -/
theorem c10_columns (T : Op R) (M : List (List R)) (hM : toMatrix T = some M) :
    (∀ i, i < T.shape.2 → column T i = M.getD i [] ∧ column T (i - T.shape.2) = M.getD i []) ∧
    ∀ I : List ℕ, (∀ i ∈ I, i < T.shape.2) →
      columns T (I.map (fun i : ℕ => (i : ℤ))) = I.map fun i => M.getD i [] := by
  unfold toMatrix at hM
  split at hM
  · cases hM
    have e1 : ∀ i, i < T.shape.2 → basisVec (R := R) T.shape.2 i = unitVec T.shape.2 i := by
      intro i hi
      have h0 : ¬ ((i : ℤ) < 0) := by omega
      simp [basisVec, unitVec, wrapIdx, h0]
    have e2 : ∀ i, i < T.shape.2 → basisVec (R := R) T.shape.2 (i - T.shape.2) = unitVec T.shape.2 i := by
      intro i hi
      have h0 : ((i : ℤ) - T.shape.2 < 0) := by omega
      have h1 : (i : ℤ) < T.shape.2 := by omega
      simp [basisVec, unitVec, wrapIdx, h1]
    have e3 : ∀ i, i < T.shape.2 → T.times (unitVec T.shape.2 i) =
        ((eyeCols T.shape.2).map T.times).getD i [] := by
      intro i hi
      simp only [eyeCols, List.map_map, List.getD, List.getElem?_map, List.getElem?_range hi,
        Option.map_some, Option.getD_some, Function.comp]
    refine ⟨fun i hi => ⟨?_, ?_⟩, fun I hI => ?_⟩
    · rw [column, e1 i hi, e3 i hi]
    · rw [column, e2 i hi, e3 i hi]
    · simp only [columns, Op.times_2d, List.map_map]
      refine List.map_congr_left fun i hi => ?_
      simp only [Function.comp]
      rw [e1 i (hI i hi), e3 i (hI i hi)]
  · cases hM

example : LinearMapOn demoA.shape.1 demoA.shape.2 demoA.times ∧ demoA.linear = true ∧
    toMatrix demoA = some [[1, 4], [2, 5], [3, 6]] ∧ toAdjointMatrix demoA = some [[1, 2, 3], [4, 5, 6]] ∧
    columns demoA [2, 0, -2] = [[3, 6], [1, 4], [2, 5]] :=
  ⟨demoA_good.linear, rfl, by decide, by decide, by decide⟩

private theorem demoE_leaves : ∀ L ∈ demoE.leaves, AdjointPair L.shape.1 L.shape.2 L.times L.trans ∧ L.RealSound := by
  intro L hL
  have : L = demoA := by simpa [demoE, Expr.leaves] using hL
  exact this ▸ ⟨demoA_good, demoA_real⟩

example (T : Op ℤ) (h : demoE.eval = some T) := c01_algebra_preserves_adjoint demoE T h fun L hL => (demoE_leaves L hL).1

example (T : Op ℤ) (h : demoE.eval = some T) := c01_algebra_is_matrix_algebra demoE T h demoE_leaves (by simp [demoE, Expr.RealScalars])

example := c12_transpose_partial demoA demoA_good demoA_real

example := c10_to_matrix demoA rfl demoA_good.linear

example := c10_columns demoA [[1, 4], [2, 5], [3, 6]] (by decide)

end Verif.Lop
