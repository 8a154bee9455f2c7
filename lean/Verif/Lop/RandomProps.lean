import Verif.Lop.RandomModel
import Verif.Lop.BasicProps
import Verif.Dict.SimpleProps

set_option autoImplicit false

/-!
# Properties of the random sensing operators (C145)
-/
noncomputable section
namespace Verif.Lop
open Verif.Dict

/-- The operator `T` is multiplication by the `m × n` matrix `a` in one direction and by its transpose in the other, reports the shape `(m, n)`, and its directions are adjoint. -/
structure IsMatrix (T : Op ℝ) (m n : ℕ) (a : ℕ → ℕ → ℝ) : Prop where
  shape : T.shape = (m, n)
  adjoint : AdjointPair m n T.times T.trans
  times : ∀ x i, x.length = n → i < m → ent (T.times x) i = ∑ j ∈ Finset.range n, a i j * ent x j
  trans : ∀ y j, y.length = m → j < n → ent (T.trans y) j = ∑ i ∈ Finset.range m, a i j * ent y i

theorem isMatrix_matrix (m n : ℕ) (a : ℕ → ℕ → ℝ) : IsMatrix (matrix m n a true) m n a :=
  ⟨rfl, pair_matrix m n a true, fun x i _ hi => by simp only [matrix]; rw [matVec, ent_tab _ hi],
   fun y j _ hj => by
    simp only [matrix]
    rw [ent_vconj, vecMat, ent_tab _ hj, star_sum]
    refine Finset.sum_congr rfl fun i _ => ?_
    rw [ent_vconj, star_mul, star_star, star_trivial]⟩

/-! ## Sparse storage -/

theorem sum_ite_filter {β : Type*} (l : List β) (p : β → Bool) (f : β → ℝ) : ((l.filter p).map f).sum = (l.map fun e => if p e then f e else 0).sum := by
  induction l with
  | nil => rfl
  | cons a l ih =>
    rw [List.filter_cons]
    by_cases h : p a
    · simp [h, ih]
    · simp [h, ih]

theorem sum_range_map (n : ℕ) (f : ℕ → ℝ) : ((List.range n).map f).sum = ∑ j ∈ Finset.range n, f j := by
  induction n with
  | zero => rfl
  | succ n ih => rw [List.range_succ, List.map_append, List.sum_append, ih, Finset.sum_range_succ]; simp

/-- A sum over the stored entries of a sparse matrix is the sum over all its positions, when the summand vanishes with the entry. -/
theorem bcoo_sum (m n : ℕ) (a : ℕ → ℕ → ℝ) (p : ℕ × ℕ × ℝ → Bool) (f : ℕ × ℕ × ℝ → ℝ) (hf : ∀ e, e.2.2 = 0 → f e = 0) :
    (((bcooFromDense m n a).filter p).map f).sum = ∑ i ∈ Finset.range m, ∑ j ∈ Finset.range n, if p (i, j, a i j) then f (i, j, a i j) else 0 := by
  rw [bcooFromDense, List.filter_filter, sum_ite_filter, List.map_flatMap, ← sum_range_map]
  have h : ∀ l : List ℕ, (l.flatMap fun i => ((List.range n).map fun j => (i, j, a i j)).map fun e => if (p e && decide (e.2.2 ≠ 0)) then f e else 0).sum
      = (l.map fun i => ∑ j ∈ Finset.range n, if p (i, j, a i j) then f (i, j, a i j) else 0).sum := by
    intro l
    induction l with
    | nil => rfl
    | cons i l ih =>
      rw [List.flatMap_cons, List.sum_append, ih, List.map_cons, List.sum_cons, List.map_map, sum_range_map]
      congr 1
      refine Finset.sum_congr rfl fun j _ => ?_
      by_cases h0 : a i j = 0
      · simp [h0, hf (i, j, 0) rfl]
      · simp [h0]
  exact h _

theorem bcooMatVec_fromDense (m n : ℕ) (a : ℕ → ℕ → ℝ) (x : List ℝ) : bcooMatVec m (bcooFromDense m n a) x = matVec m n a x := by
  rw [bcooMatVec, matVec]
  refine List.map_congr_left fun i hi => ?_
  rw [bcoo_sum m n a (fun e => decide (e.1 = i)) (fun e => e.2.2 * ent x e.2.1) (fun e he => by simp [he])]
  rw [Finset.sum_eq_single i]
  · simp
  · intro b _ hb; simp [hb]
  · intro h; exact absurd (Finset.mem_range.2 (List.mem_range.1 hi)) h

theorem bcooVecMat_fromDense (m n : ℕ) (a : ℕ → ℕ → ℝ) (x : List ℝ) : bcooVecMat n (bcooFromDense m n a) x = vecMat m n a x := by
  rw [bcooVecMat, vecMat]
  refine List.map_congr_left fun j hj => ?_
  rw [bcoo_sum m n a (fun e => decide (e.2.1 = j)) (fun e => ent x e.1 * e.2.2) (fun e he => by simp [he])]
  refine Finset.sum_congr rfl fun i _ => ?_
  rw [Finset.sum_eq_single j]
  · simp
  · intro b _ hb; simp [hb]
  · intro h; exact absurd (Finset.mem_range.2 (List.mem_range.1 hj)) h

/-- A matrix in sparse storage acts as the dense matrix. -/
theorem isMatrix_sparse (m n : ℕ) (a : ℕ → ℕ → ℝ) : IsMatrix (sparseRealMatrix m n (bcooFromDense m n a)) m n a := by
  have ht : (sparseRealMatrix m n (bcooFromDense m n a)).times = (matrix m n a true).times := funext fun x => bcooMatVec_fromDense m n a x
  have hc : ∀ y : List ℝ, vconj y = y := fun y => by rw [vconj]; exact (List.map_congr_left fun a _ => star_trivial a).trans (List.map_id' y)
  have hr : (sparseRealMatrix m n (bcooFromDense m n a)).trans = (matrix m n a true).trans := funext fun x => by
    simp only [sparseRealMatrix, matrix, hc, bcooVecMat_fromDense]
  have h := isMatrix_matrix m n a
  exact ⟨rfl, by rw [ht, hr]; exact h.adjoint, by rw [ht]; exact h.times, by rw [hr]; exact h.trans⟩

/-! ## Columns of unit norm -/

/-- The columns of the operator: its values at the unit vectors. -/
theorem IsMatrix.column {T : Op ℝ} {m n : ℕ} {a : ℕ → ℕ → ℝ} (h : IsMatrix T m n a) {i j : ℕ} (hi : i < m) (hj : j < n) : ent (T.times (unitVec n j)) i = a i j := by
  rw [h.times _ i (by simp [unitVec]) hi, Finset.sum_eq_single j]
  · rw [unitVec, ent_tab _ hj, if_pos rfl, mul_one]
  · intro b hb hbj; rw [unitVec, ent_tab _ (Finset.mem_range.1 hb), if_neg hbj, mul_zero]
  · intro h; exact absurd (Finset.mem_range.2 hj) h

/-- **C145** `gaussian_dict`: a matrix operator of the declared shape (square by default); each column is a positive multiple of the drawn one, with unit norm (when it is not zero), or `1/√m` times the drawn matrix without normalisation. -/
theorem c145_gaussian (g : ℕ → ℕ → ℝ) (m : ℕ) (n : Option ℕ) (normalize : Bool) :
    ∃ a, IsMatrix (gaussianDict g m n normalize) m (n.getD m) a ∧
      (normalize = true → ∀ j, (∃ i < m, g i j ≠ 0) → ∑ i ∈ Finset.range m, a i j ^ 2 = 1 ∧ ∃ c > 0, ∀ i, a i j = c * g i j) ∧
      (normalize = false → ∀ i j, a i j = g i j / Real.sqrt m) := by
  refine ⟨_, isMatrix_matrix _ _ _, fun hn j ⟨i, hi, hij⟩ => ?_, fun hn i j => by simp [gaussianEntry, hn]⟩
  have hpos : 0 < ∑ k ∈ Finset.range m, g k j ^ 2 := Finset.sum_pos' (fun k _ => sq_nonneg _) ⟨i, Finset.mem_range.2 hi, by positivity⟩
  refine ⟨?_, (Real.sqrt (∑ k ∈ Finset.range m, g k j ^ 2))⁻¹, by positivity, fun i => by simp [gaussianEntry, hn, div_eq_inv_mul]⟩
  simp only [gaussianEntry, hn, if_true, div_pow, Real.sq_sqrt hpos.le]
  rw [← Finset.sum_div, div_self hpos.ne']

/-- **C145** `rademacher_dict`: all entries are `±1/√m` with the signs of the draw (columns of unit norm), or `±1` without normalisation. -/
theorem c145_rademacher (bits : ℕ → ℕ → Bool) (m : ℕ) (hm : 0 < m) (n : Option ℕ) (normalize : Bool) :
    ∃ a, IsMatrix (rademacherDict bits m n normalize) m (n.getD m) a ∧
      (∀ i j, a i j = (if bits i j then 1 else -1) / (if normalize then Real.sqrt m else 1)) ∧
      (normalize = true → ∀ j, ∑ i ∈ Finset.range m, a i j ^ 2 = 1) := by
  refine ⟨_, isMatrix_matrix _ _ _, fun i j => ?_, fun hn j => ?_⟩
  · cases normalize <;> simp only [rademacherEntry, rademacherMtx, if_true, Bool.false_eq_true, if_false] <;> cases bits i j <;> norm_num
  · have h : ∀ i ∈ Finset.range m, rademacherEntry m normalize bits i j ^ 2 = 1 / (m : ℝ) := fun i _ => by
      simp only [rademacherEntry, hn, if_true, rademacherMtx, div_pow, Real.sq_sqrt (Nat.cast_nonneg m)]
      cases bits i j <;> norm_num
    rw [Finset.sum_congr rfl h, Finset.sum_const, Finset.card_range, nsmul_eq_mul, mul_one_div, div_self (by positivity)]

/-- **C145** `sparse_binary_dict`: whether the matrix is stored densely or sparsely, the operator is the matrix with `d` (by default 10) equal non-zero entries in each column, at the drawn rows; with normalisation the columns have unit norm. -/
theorem c145_sparse_binary (idx : ℕ → List ℕ) (m : ℕ) (n d : Option ℕ) (normalize dense : Bool) (hd : 0 < d.getD 10)
    (hidx : ∀ j, (idx j).Nodup ∧ (idx j).length = d.getD 10 ∧ ∀ i ∈ idx j, i < m) :
    ∃ a, IsMatrix (sparseBinaryDict idx m n d normalize dense) m (n.getD m) a ∧
      (∀ i j, a i j = if i ∈ idx j then (if normalize then 1 / Real.sqrt (d.getD 10 : ℕ) else 1) else 0) ∧
      (normalize = true → ∀ j, ∑ i ∈ Finset.range m, a i j ^ 2 = 1) := by
  refine ⟨sparseBinaryEntry (d.getD 10) normalize idx, ?_, fun i j => ?_, fun hn j => ?_⟩
  · cases dense
    · exact isMatrix_sparse _ _ _
    · exact isMatrix_matrix _ _ _
  · obtain ⟨h1, h2, h3⟩ := hidx j
    cases normalize
    · have hp : (idx j).mergeSort.Perm (idx j) := List.mergeSort_perm _ _
      have hl : (idx j).mergeSort.length = d.getD 10 := by rw [hp.length_eq, h2]
      simp only [sparseBinaryEntry, Bool.false_eq_true, if_false]
      rw [← hl, buildSignal_ones _ (hp.nodup_iff.mpr h1)]
      simp only [hp.mem_iff]
    · simp only [sparseBinaryEntry, if_true]
      exact (c70_sparse_binary m _ hd idx j h1 h2 h3).1 i
  · obtain ⟨h1, h2, h3⟩ := hidx j
    simp only [sparseBinaryEntry, hn, if_true]
    exact (c70_sparse_binary m _ hd idx j h1 h2 h3).2.2

/-! ## Orthonormal rows -/

theorem vdot_comm_real (x y : List ℝ) : vdot x y = vdot y x := by
  simp only [vdot, star_trivial]
  rw [List.zipWith_comm]
  simp only [mul_comm]

theorem vdot_self_nonneg (x : List ℝ) : 0 ≤ vdot x x := by
  rw [vdot_eq_sum (n := x.length) rfl rfl]
  exact Finset.sum_nonneg fun i _ => by rw [star_trivial]; exact mul_self_nonneg _

theorem IsMatrix.times_trans {T : Op ℝ} {m n : ℕ} {A : Matrix (Fin m) (Fin n) ℝ} (h : IsMatrix T m n (matEntry A)) (hA : A * A.transpose = 1)
    (y : List ℝ) (hy : y.length = m) : T.times (T.trans y) = y := by
  have hl := h.adjoint.trans_length y hy
  refine List.ext_getElem (by rw [h.adjoint.times_length _ hl, hy]) fun i hi hi' => ?_
  have him : i < m := hy ▸ hi'
  have e1 : (T.times (T.trans y))[i] = ent (T.times (T.trans y)) i := by simp [ent, List.getD, hi]
  have e2 : y[i] = ent y i := by simp [ent, List.getD, hi']
  rw [e1, e2, h.times _ i hl him]
  have : ∀ j ∈ Finset.range n, matEntry A i j * ent (T.trans y) j = ∑ k ∈ Finset.range m, matEntry A i j * matEntry A k j * ent y k := fun j hj => by
    rw [h.trans y j hy (Finset.mem_range.1 hj), Finset.mul_sum]
    exact Finset.sum_congr rfl fun k _ => by ring
  rw [Finset.sum_congr rfl this, Finset.sum_comm]
  have hk : ∀ k ∈ Finset.range m, (∑ j ∈ Finset.range n, matEntry A i j * matEntry A k j * ent y k) = (if i = k then 1 else 0) * ent y k := fun k hk => by
    have hkm := Finset.mem_range.1 hk
    rw [← Finset.sum_mul]
    congr 1
    have := congrFun (congrFun hA ⟨i, him⟩) ⟨k, hkm⟩
    rw [Matrix.mul_apply, Matrix.one_apply, ] at this
    simp only [Matrix.transpose_apply, Fin.mk.injEq] at this
    rw [← this, Finset.sum_range]
    exact Finset.sum_congr rfl fun j _ => by simp [matEntry, him, hkm]
  rw [Finset.sum_congr rfl hk]
  simp only [ite_mul, one_mul, zero_mul, Finset.sum_ite_eq, Finset.mem_range, him, if_true]

/-- **C145** `random_orthonormal_rows_dict`: for every drawn matrix of full rank, `T T^H = I`: measuring a back-projected vector returns it, back-projection preserves the norm and measuring never increases it. -/
theorem c145_orthonormal_rows {n m : ℕ} (D Q : Matrix (Fin n) (Fin m) ℝ) (R : Matrix (Fin m) (Fin m) ℝ) (h : IsQR D Q R) (hD : ∀ x, D.mulVec x = 0 → x = 0) :
    ∃ a, IsMatrix (randomOrthonormalRowsDict Q R) m n a ∧
      (∀ y, y.length = m → (randomOrthonormalRowsDict Q R).times ((randomOrthonormalRowsDict Q R).trans y) = y) ∧
      (∀ y, y.length = m → vdot ((randomOrthonormalRowsDict Q R).trans y) ((randomOrthonormalRowsDict Q R).trans y) = vdot y y) ∧
      ∀ x, x.length = n → vdot ((randomOrthonormalRowsDict Q R).times x) ((randomOrthonormalRowsDict Q R).times x) ≤ vdot x x := by
  have hT : IsMatrix (randomOrthonormalRowsDict Q R) m n (matEntry (randomOrthonormalRows Q R)) := isMatrix_matrix _ _ _
  generalize randomOrthonormalRowsDict Q R = T at hT ⊢
  have ht := hT.times_trans (c70_orthonormal_partial D Q R h hD).2.1
  refine ⟨_, hT, ht, fun y hy => ?_, fun x hx => ?_⟩
  · rw [← hT.adjoint.adjoint _ y (hT.adjoint.trans_length y hy) hy, ht y hy]
  · have hl := hT.adjoint.times_length x hx
    have hp := hT.adjoint.trans_length _ hl
    have e : vdot (vsub x (T.trans (T.times x))) (vsub x (T.trans (T.times x))) = vdot x x - vdot (T.times x) (T.times x) := by
      have hs := hT.adjoint.adjoint (T.trans (T.times x)) (T.times x) hp hl
      rw [ht _ hl] at hs
      have hx' := hT.adjoint.adjoint x (T.times x) hx hl
      rw [vdot_vsub_left _ (by rw [hx, hp]), vdot_vsub_right _ (by rw [hx, hp]), vdot_vsub_right _ (by rw [hx, hp]), ← hx', ← hs,
        vdot_comm_real (T.trans (T.times x)) x, ← hx']
      ring
    have h0 : 0 ≤ vdot (vsub x (T.trans (T.times x))) (vsub x (T.trans (T.times x))) := vdot_self_nonneg _
    linarith

/-- **C145** `random_onb_dict`: for every drawn matrix of full rank the two directions are inverse to each other and preserve the norm. -/
theorem c145_onb {n : ℕ} (D Q R : Matrix (Fin n) (Fin n) ℝ) (h : IsQR D Q R) (hD : ∀ x, D.mulVec x = 0 → x = 0) :
    ∃ a, IsMatrix (randomOnbDict Q R) n n a ∧
      ∀ x, x.length = n → (randomOnbDict Q R).times ((randomOnbDict Q R).trans x) = x ∧ (randomOnbDict Q R).trans ((randomOnbDict Q R).times x) = x ∧
        vdot ((randomOnbDict Q R).times x) ((randomOnbDict Q R).times x) = vdot x x ∧ vdot ((randomOnbDict Q R).trans x) ((randomOnbDict Q R).trans x) = vdot x x := by
  have hT : IsMatrix (randomOnbDict Q R) n n (matEntry (signFixed Q R)) := isMatrix_matrix _ _ _
  have hq := (c70_orthonormal_partial D Q R h hD).1
  generalize randomOnbDict Q R = T at hT ⊢
  have ht := hT.times_trans (mul_eq_one_comm.1 hq)
  have hT' : IsMatrix { times := T.trans, trans := T.times, shape := (n, n) } n n (matEntry (signFixed Q R).transpose) := by
    have e : ∀ i j, matEntry (signFixed Q R).transpose i j = matEntry (signFixed Q R) j i := fun i j => by simp [matEntry, and_comm]
    exact ⟨rfl, hT.adjoint.symm, fun x i hx hi => by simp only [e]; exact hT.trans x i hx hi, fun y j hy hj => by simp only [e]; exact hT.times y j hy hj⟩
  have ht' := hT'.times_trans (by simpa using hq)
  refine ⟨_, hT, fun x hx => ⟨ht x hx, ht' x hx, ?_, ?_⟩⟩
  · rw [hT.adjoint.adjoint x _ hx (hT.adjoint.times_length x hx)]
    exact congrArg _ (ht' x hx)
  · rw [← hT.adjoint.adjoint _ x (hT.adjoint.trans_length x hx) hx, ht x hx]

/-! ## The matrix-free binary operator -/

theorem binary_times (bits : ℕ → ℕ → Bool) (m : ℕ) (x : List ℝ) (k : ℕ) :
    ((List.range k).foldl (fun y i => vadd y (smul (ent x i) (binaryColumn bits m i))) (List.replicate m 0)).length = m ∧
    ∀ i < m, ent ((List.range k).foldl (fun y i => vadd y (smul (ent x i) (binaryColumn bits m i))) (List.replicate m 0)) i = ∑ j ∈ Finset.range k, (if bits j i then 1 else 0) * ent x j := by
  induction k with
  | zero => exact ⟨by simp, fun i _ => by simpa using ent_replicate_zero m i⟩
  | succ k ih =>
    rw [List.range_succ, List.foldl_append, List.foldl_cons, List.foldl_nil]
    have hl : (smul (ent x k) (binaryColumn bits m k)).length = m := by simp [smul, binaryColumn]
    refine ⟨by rw [vadd, List.length_zipWith, ih.1, hl, min_self], fun i hi => ?_⟩
    rw [ent_vadd (by rw [ih.1, hl]), ih.2 i hi, Finset.sum_range_succ, ent_smul, binaryColumn, ent_tab _ hi, mul_comm (ent x k)]

theorem binary_trans (bits : ℕ → ℕ → Bool) (m n : ℕ) (y : List ℝ) (k : ℕ) (hk : k ≤ n) :
    ((List.range k).foldl (fun x i => x.set i (vdot (binaryColumn bits m i) y)) (List.replicate n 0)).length = n ∧
    ∀ j, ent ((List.range k).foldl (fun x i => x.set i (vdot (binaryColumn bits m i) y)) (List.replicate n 0)) j = if j < k then vdot (binaryColumn bits m j) y else 0 := by
  induction k with
  | zero => exact ⟨by simp, fun i => by simpa using ent_replicate_zero n i⟩
  | succ k ih =>
    have ih := ih (by omega)
    rw [List.range_succ, List.foldl_append, List.foldl_cons, List.foldl_nil]
    refine ⟨by rw [List.length_set, ih.1], fun j => ?_⟩
    rw [ent_set, ih.1, ih.2 j]
    by_cases h : j = k
    · subst h; simp [show j < n by omega]
    · have h1 : (j < k + 1) ↔ j < k := by omega
      have h2 : ¬ k = j := fun h' => h h'.symm
      simp [h, h1, h2]

/-- **C145** `binary_dict_alg`, the action: the two directions multiply by the 0/1 matrix of the draws and by its transpose, and are adjoint. Missing: the shape it reports, see `c145_binary_shape_fails`. -/
theorem c145_binary_partial (bits : ℕ → ℕ → Bool) (m : ℕ) (n : Option ℕ) :
    AdjointPair m (n.getD m) (binaryDictAlg bits m n).times (binaryDictAlg bits m n).trans ∧
    (∀ x i, x.length = n.getD m → i < m → ent ((binaryDictAlg bits m n).times x) i = ∑ j ∈ Finset.range (n.getD m), (if bits j i then 1 else 0) * ent x j) ∧
    ∀ y j, y.length = m → j < n.getD m → ent ((binaryDictAlg bits m n).trans y) j = ∑ i ∈ Finset.range m, (if bits j i then 1 else 0) * ent y i := by
  have h2 : ∀ y j, y.length = m → j < n.getD m → ent ((binaryDictAlg bits m n).trans y) j = ∑ i ∈ Finset.range m, (if bits j i then 1 else 0) * ent y i := by
    intro y j hy hj
    simp only [binaryDictAlg]
    rw [(binary_trans bits m _ y _ le_rfl).2 j, if_pos hj, vdot_eq_sum (n := m) (by simp [binaryColumn]) hy]
    refine Finset.sum_congr rfl fun i hi => ?_
    change star (ent (binaryColumn bits m j) i) * ent y i = _
    rw [binaryColumn, ent_tab _ (Finset.mem_range.1 hi), star_trivial]
  have h1 : ∀ x i, x.length = n.getD m → i < m → ent ((binaryDictAlg bits m n).times x) i = ∑ j ∈ Finset.range (n.getD m), (if bits j i then 1 else 0) * ent x j :=
    fun x i _ hi => (binary_times bits m x _).2 i hi
  refine ⟨AdjointPair.of_sum (fun x _ => (binary_times bits m x _).1) (fun y _ => (binary_trans bits m _ y _ le_rfl).1) fun x y hx hy => ?_, h1, h2⟩
  have e1 : ∀ i ∈ Finset.range m, star (ent ((binaryDictAlg bits m n).times x) i) * ent y i = ∑ j ∈ Finset.range (n.getD m), (if bits j i then 1 else 0) * ent x j * ent y i := fun i hi => by
    rw [star_trivial, h1 x i hx (Finset.mem_range.1 hi), Finset.sum_mul]
  have e2 : ∀ j ∈ Finset.range (n.getD m), star (ent x j) * ent ((binaryDictAlg bits m n).trans y) j = ∑ i ∈ Finset.range m, (if bits j i then 1 else 0) * ent x j * ent y i := fun j hj => by
    rw [star_trivial, h2 y j hy (Finset.mem_range.1 hj), Finset.mul_sum]
    exact Finset.sum_congr rfl fun i _ => by ring
  rw [Finset.sum_congr rfl e1, Finset.sum_congr rfl e2, Finset.sum_comm]

/-- **C145** fails for the shape reported by `binary_dict_alg`: it is transposed, so unless the matrix is square the operator does not map vectors of the declared input size to the declared output size. -/
theorem c145_binary_shape_fails (bits : ℕ → ℕ → Bool) (m n : ℕ) (hmn : m ≠ n) :
    (binaryDictAlg bits m (some n)).shape ≠ (m, n) ∧
    ¬ ∃ x, x.length = (binaryDictAlg bits m (some n)).shape.2 ∧ ((binaryDictAlg bits m (some n)).times x).length = (binaryDictAlg bits m (some n)).shape.1 := by
  refine ⟨fun h => hmn (by simpa [binaryDictAlg] using (congrArg Prod.fst h).symm), ?_⟩
  rintro ⟨x, _, h⟩
  exact hmn ((binary_times bits m x _).1.symm.trans h)

/-! ## Concrete cases -/

example := c145_gaussian (fun i j => (i : ℝ) + j + 1) 3 (some 5) true
example (g : ℕ → ℕ → ℝ) := c145_gaussian g 3 none false
example (bits : ℕ → ℕ → Bool) := c145_rademacher bits 4 (by norm_num) (some 9) true
example := c145_sparse_binary (fun j => if j % 2 = 0 then [4, 1, 2] else [0, 3, 1]) 5 (some 8) (some 3) true false (by decide)
  (fun j => by by_cases h : j % 2 = 0 <;> simp [h])
example := c145_orthonormal_rows _ _ _ ex_qr.1 ex_qr.2
example := c145_onb _ _ _ ex_qr.1 ex_qr.2
example := c145_binary_partial (fun i k => i % 2 == k % 2) 3 (some 5)
example := c145_binary_shape_fails (fun i k => i % 2 == k % 2) 3 5 (by decide)

end Verif.Lop
