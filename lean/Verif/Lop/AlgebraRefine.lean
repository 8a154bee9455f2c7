import Verif.Lop.MatSpec
import Mathlib.Algebra.Star.BigOperators

set_option autoImplicit false

/-!
# Helper lemmas: operator expressions refine matrix algebra
-/
set_option linter.unusedSectionVars false
set_option linter.unusedVariables false
namespace Verif.Lop
variable {R : Type*} [CommRing R] [StarRing R]

/-! ## Each combinator preserves adjointness -/

theorem good_neg {A : Op R} (h : A.Good) : (neg A).Good := AdjointPair.neg h
theorem good_scale {A : Op R} (h : A.Good) (a : R) (c : Bool) : (scale A a c).Good := AdjointPair.smul h a
theorem good_adjoint {A : Op R} (h : A.Good) : (adjoint A).Good := AdjointPair.symm h
theorem good_transpose {A : Op R} (h : A.Good) : (transpose A).Good := by
  unfold Op.Good transpose
  cases A.real
  · simpa using (AdjointPair.conj h).symm
  · simpa using AdjointPair.symm h
theorem good_power {A T : Op R} {p : ℤ} (h : A.Good) (hT : power A p = some T) : T.Good := by
  unfold power at hT
  split at hT
  · rename_i hs
    cases hT
    unfold Op.Good
    simp only [applyN_eq]
    have h' : AdjointPair A.shape.2 A.shape.2 A.times A.trans := by
      have h0 := h
      unfold Op.Good at h0
      rwa [hs] at h0
    rw [hs]
    exact h'.iterate _
  · cases hT
theorem good_add {A B T : Op R} (hA : A.Good) (hB : B.Good) (hT : add A B = some T) : T.Good := by
  unfold add at hT
  split at hT
  · rename_i hs
    cases hT
    exact AdjointPair.add hA (by rw [hs.1, hs.2]; exact hB)
  · cases hT
theorem good_subtract {A B T : Op R} (hA : A.Good) (hB : B.Good) (hT : subtract A B = some T) :
    T.Good := by
  unfold subtract at hT
  split at hT
  · rename_i hs
    cases hT
    exact AdjointPair.sub hA (by rw [hs.1, hs.2]; exact hB)
  · cases hT
theorem good_compose {A B T : Op R} (hA : A.Good) (hB : B.Good) (hT : compose A B = some T) :
    T.Good := by
  unfold compose at hT
  split at hT
  · rename_i hs
    cases hT
    have hB' : AdjointPair A.shape.2 B.shape.2 B.times B.trans := by rw [hs]; exact hB
    exact AdjointPair.comp (f := A.times) (g := A.trans) hA hB'
  · cases hT
theorem good_hcat {A B T : Op R} (hA : A.Good) (hB : B.Good) (hT : hcat A B = some T) : T.Good := by
  unfold hcat at hT
  split at hT
  · rename_i hs
    cases hT
    exact AdjointPair.hcat hA (by rw [hs]; exact hB)
  · cases hT
theorem good_gram {A : Op R} (h : A.Good) : (gram A).Good :=
  AdjointPair.comp (f := A.trans) (g := A.times) (f' := A.times) (g' := A.trans) (AdjointPair.symm h) h
theorem good_frame {A : Op R} (h : A.Good) : (frame A).Good :=
  AdjointPair.comp (f := A.times) (g := A.trans) (f' := A.trans) (g' := A.times) h (AdjointPair.symm h)

/-! ## Entries of the combinators -/

theorem entry_neg (A : Op R) (i j : ℕ) : (neg A).mat.entry i j = - A.mat.entry i j := by
  simp only [Op.mat, neg, entryOf, getD_vneg]

theorem entry_scale (A : Op R) (a : R) (c : Bool) (i j : ℕ) :
    (scale A a c).mat.entry i j = a * A.mat.entry i j := by
  simp only [Op.mat, scale, entryOf, getD_smul]

theorem entry_adjoint {A : Op R} (h : A.Good) {i j : ℕ} (hi : i < A.shape.2) (hj : j < A.shape.1) :
    (adjoint A).mat.entry i j = star (A.mat.entry j i) :=
  AdjointPair.getD_trans_unit h hj hi

theorem entry_transpose {A : Op R} (h : A.Good) (hr : A.RealSound) {i j : ℕ}
    (hi : i < A.shape.2) (hj : j < A.shape.1) :
    (transpose A).mat.entry i j = A.mat.entry j i := by
  have e1 := AdjointPair.getD_trans_unit h hj hi
  unfold Op.mat transpose entryOf
  cases hre : A.real
  · simp only [Bool.false_eq_true, if_false, vconj_unitVec, getD_vconj, e1, star_star]; rfl
  · simp only [if_true, e1]
    exact hr hre j i hj hi

theorem entry_compose {A B T : Op R} (hA : A.Good) (hB : B.Good) (hT : compose A B = some T)
    {i j : ℕ} (hi : i < A.shape.1) :
    T.mat.entry i j = ∑ k ∈ Finset.range A.shape.2, A.mat.entry i k * B.mat.entry k j := by
  unfold compose at hT
  split at hT
  · rename_i hs
    cases hT
    simp only [Op.mat, entryOf]
    exact AdjointPair.getD_times hA (by rw [hs]; exact hB.times_length _ (by simp)) hi
  · cases hT

theorem take_unitVec (n n' j : ℕ) :
    (unitVec (R := R) (n + n') j).take n = if j < n then unitVec n j else List.replicate n 0 := by
  apply ext_getD (n := n) (by simp) (by split <;> simp)
  intro i hi
  have : ((unitVec (R := R) (n + n') j).take n).getD i 0 = (unitVec (R := R) (n + n') j).getD i 0 := by
    simp only [List.getD, List.getElem?_take, hi, if_true]
  rw [this, getD_unitVec _ _ _ (by omega)]
  split
  · rename_i h; subst h; rw [if_pos hi, getD_unitVec _ _ _ hi]; simp
  · rename_i h
    split
    · rw [getD_unitVec _ _ _ hi, if_neg h]
    · simp [List.getD, hi]

theorem drop_unitVec (n n' j : ℕ) :
    (unitVec (R := R) (n + n') j).drop n =
      if j < n then List.replicate n' 0 else unitVec n' (j - n) := by
  apply ext_getD (n := n') (by simp) (by split <;> simp)
  intro i hi
  have : ((unitVec (R := R) (n + n') j).drop n).getD i 0 = (unitVec (R := R) (n + n') j).getD (n + i) 0 := by
    simp [List.getD]
  rw [this, getD_unitVec _ _ _ (by omega)]
  split
  · rename_i h; subst h; rw [if_neg (by omega), getD_unitVec _ _ _ hi]; simp
  · rename_i h
    split
    · simp [List.getD, hi]
    · rw [getD_unitVec _ _ _ hi, if_neg (by omega)]

theorem AdjointPair.getD_times_zero {m n : ℕ} {f g : List R → List R} (h : AdjointPair m n f g)
    (i : ℕ) : (f (List.replicate n 0)).getD i 0 = 0 := by
  have : f (List.replicate n 0) = List.replicate m 0 := by
    apply ext_vdot_left (n := m) (h.times_length _ (by simp)) (by simp)
    intro z hz
    rw [h.adjoint _ _ (by simp) hz, vdot_replicate_zero_left, vdot_replicate_zero_left]
  rw [this]
  by_cases hi : i < m <;> simp [List.getD, hi]

theorem entry_hcat {A B T : Op R} (hA : A.Good) (hB : B.Good) (hT : hcat A B = some T)
    {i j : ℕ} :
    T.mat.entry i j = if j < A.shape.2 then A.mat.entry i j else B.mat.entry i (j - A.shape.2) := by
  unfold hcat at hT
  split at hT
  · rename_i hs
    cases hT
    simp only [Op.mat, entryOf, take_unitVec, drop_unitVec]
    by_cases hj : j < A.shape.2
    · simp only [hj, if_true]
      rw [getD_vadd (n := A.shape.1) (hA.times_length _ (by simp))
        (by rw [hs]; exact hB.times_length _ (by simp)), AdjointPair.getD_times_zero hB, add_zero]
    · simp only [hj, if_false]
      rw [getD_vadd (n := A.shape.1) (hA.times_length _ (by simp))
        (by rw [hs]; exact hB.times_length _ (by simp)), AdjointPair.getD_times_zero hA, zero_add]
  · cases hT

theorem entry_iterate {n : ℕ} {f g : List R → List R} (h : AdjointPair n n f g) (k : ℕ) (M : Mat R)
    (hr : M.rows = n) (hc : M.cols = n)
    (hM : ∀ i j, i < n → j < n → entryOf n f i j = M.entry i j) :
    ∀ i j, i < n → j < n → entryOf n (f^[k]) i j = (M.pow k).entry i j := by
  induction k with
  | zero => intro i j hi hj; simp only [entryOf, Mat.pow, Mat.one, Function.iterate_zero, id, getD_unitVec _ _ _ hi]
  | succ k ih =>
    intro i j hi hj
    unfold entryOf
    rw [Function.iterate_succ_apply', AdjointPair.getD_times h ((h.iterate k).times_length _ (by simp)) hi]
    simp only [Mat.pow, Mat.mul, hc]
    refine Finset.sum_congr rfl fun l hl => ?_
    have hl' := Finset.mem_range.mp hl
    rw [hM i l hi hl', ← ih l j hl' hj]; rfl

theorem Mat.pow_rows (M : Mat R) (k : ℕ) : (M.pow k).rows = M.rows := by
  cases k <;> simp [Mat.pow, Mat.one, Mat.mul]

theorem Mat.pow_cols (M : Mat R) (h : M.rows = M.cols) (k : ℕ) : (M.pow k).cols = M.cols := by
  induction k with
  | zero => simp [Mat.pow, Mat.one, h]
  | succ k ih => simpa [Mat.pow, Mat.mul] using ih

theorem Mat.pow_real (M : Mat R) (h : M.rows = M.cols)
    (hM : ∀ i j, i < M.rows → j < M.cols → star (M.entry i j) = M.entry i j) (k : ℕ) :
    ∀ i j, i < M.rows → j < M.cols → star ((M.pow k).entry i j) = (M.pow k).entry i j := by
  induction k with
  | zero => intro i j _ _; simp only [Mat.pow, Mat.one]; split <;> simp
  | succ k ih =>
    intro i j hi hj
    simp only [Mat.pow, Mat.mul, star_sum, star_mul']
    refine Finset.sum_congr rfl fun l hl => ?_
    have hl' := Finset.mem_range.mp hl
    rw [hM i l hi hl', ih l j (by omega) hj]

/-- The combined invariant behind the refinement theorem. -/
theorem expr_refines (e : Expr R) : ∀ T : Op R, e.eval = some T →
    (∀ L ∈ e.leaves, L.Good ∧ L.RealSound) → e.RealScalars →
    T.Good ∧ T.RealSound ∧ T.mat.Same e.den := by
  induction e with
  | leaf L =>
    intro T h hl _
    cases h
    exact ⟨(hl L (by simp [Expr.leaves])).1, (hl L (by simp [Expr.leaves])).2, rfl, rfl, fun _ _ _ _ => rfl⟩
  | neg e ih =>
    intro T h hl hs
    simp only [Expr.eval, Option.map_eq_some_iff] at h
    obtain ⟨A, hA, rfl⟩ := h
    obtain ⟨g, r, s⟩ := ih A hA hl hs
    refine ⟨good_neg g, fun hr i j hi hj => ?_, s.1, s.2.1, fun i j hi hj => ?_⟩
    · rw [entry_neg, star_neg, r hr i j hi hj]
    · rw [entry_neg, s.2.2 i j hi hj]; rfl
  | scale e a c ih =>
    intro T h hl hs
    simp only [Expr.eval, Option.map_eq_some_iff] at h
    obtain ⟨A, hA, rfl⟩ := h
    obtain ⟨g, r, s⟩ := ih A hA hl hs.2
    refine ⟨good_scale g a c, fun hr i j hi hj => ?_, s.1, s.2.1, fun i j hi hj => ?_⟩
    · have hr' : A.real = true ∧ c = false := by simpa [scale] using hr
      rw [entry_scale, star_mul', r hr'.1 i j hi hj, hs.1 hr'.2]
    · rw [entry_scale, s.2.2 i j hi hj]; rfl
  | adjoint e ih =>
    intro T h hl hs
    simp only [Expr.eval, Option.map_eq_some_iff] at h
    obtain ⟨A, hA, rfl⟩ := h
    obtain ⟨g, r, s⟩ := ih A hA hl hs
    refine ⟨good_adjoint g, fun hr i j hi hj => ?_, s.2.1, s.1, fun i j hi hj => ?_⟩
    · rw [entry_adjoint g hi hj, r hr j i hj hi, r hr j i hj hi]
    · rw [entry_adjoint g hi hj, s.2.2 j i hj hi]; rfl
  | transpose e ih =>
    intro T h hl hs
    simp only [Expr.eval, Option.map_eq_some_iff] at h
    obtain ⟨A, hA, rfl⟩ := h
    obtain ⟨g, r, s⟩ := ih A hA hl hs
    refine ⟨good_transpose g, fun hr i j hi hj => ?_, s.2.1, s.1, fun i j hi hj => ?_⟩
    · rw [entry_transpose g r hi hj, r hr j i hj hi]
    · rw [entry_transpose g r hi hj, s.2.2 j i hj hi]; rfl
  | power e p ih =>
    intro T h hl hs
    simp only [Expr.eval, Option.bind_eq_some_iff] at h
    obtain ⟨A, hA, hT⟩ := h
    obtain ⟨g, r, s⟩ := ih A hA hl hs
    have gT := good_power g hT
    unfold power at hT
    split at hT
    · rename_i hsq
      cases hT
      have g' : AdjointPair A.shape.2 A.shape.2 A.times A.trans := by
        have g0 := g
        unfold Op.Good at g0
        rwa [hsq] at g0
      have s1 : A.shape.1 = e.den.rows := s.1
      have s2 : A.shape.2 = e.den.cols := s.2.1
      have key : ∀ i j, i < A.shape.2 → j < A.shape.2 →
          entryOf A.shape.2 (A.times^[p.toNat]) i j = (e.den.pow p.toNat).entry i j :=
        entry_iterate g' p.toNat e.den (by omega) (by omega)
          (fun i j hi hj => s.2.2 i j (by show i < A.shape.1; omega) hj)
      have key2 : ∀ i j, i < A.shape.2 → j < A.shape.2 →
          entryOf A.shape.2 (A.times^[p.toNat]) i j = (A.mat.pow p.toNat).entry i j :=
        entry_iterate g' p.toNat A.mat hsq rfl (fun i j hi hj => rfl)
      simp only [Op.Good, applyN_eq] at gT
      simp only [Op.RealSound, Op.Good, Op.mat, applyN_eq, Mat.Same, Expr.den]
      refine ⟨gT, fun hr i j hi hj => ?_, ?_, ?_, fun i j hi hj => key i j (by omega) hj⟩
      · rw [key2 i j (by omega) hj]
        exact Mat.pow_real A.mat hsq (r hr) _ i j hi hj
      · rw [Mat.pow_rows]; exact s1
      · rw [Mat.pow_cols _ (by omega)]; exact s2
    · cases hT
  | add a b iha ihb =>
    intro T h hl hs
    simp only [Expr.eval, Option.bind_eq_some_iff] at h
    obtain ⟨A, hA, B, hB, hT⟩ := h
    obtain ⟨gA, rA, sA⟩ := iha A hA (fun L hL => hl L (by simp [Expr.leaves, hL])) hs.1
    obtain ⟨gB, rB, sB⟩ := ihb B hB (fun L hL => hl L (by simp [Expr.leaves, hL])) hs.2
    have gT := good_add gA gB hT
    unfold add at hT
    split at hT
    · rename_i hsh
      cases hT
      have key : ∀ i j, (Op.mat (R := R) { times := fun x => vadd (A.times x) (B.times x), trans := fun x => vadd (A.trans x) (B.trans x), shape := A.shape, jit_safe := A.jit_safe && B.jit_safe, matrix_safe := A.matrix_safe && B.matrix_safe, real := A.real && B.real }).entry i j = A.mat.entry i j + B.mat.entry i j := by
        intro i j
        simp only [Op.mat, entryOf]
        rw [getD_vadd (n := A.shape.1) (gA.times_length _ (by simp)) (by rw [hsh.1, hsh.2]; exact gB.times_length _ (by simp)), hsh.2]
      refine ⟨gT, fun hr i j hi hj => ?_, sA.1, sA.2.1, fun i j hi hj => ?_⟩
      · simp only [Bool.and_eq_true] at hr
        have hi' : i < B.shape.1 := hsh.1 ▸ hi
        have hj' : j < B.shape.2 := hsh.2 ▸ hj
        rw [key, star_add, rA hr.1 i j hi hj, rB hr.2 i j hi' hj']
      · have hi' : i < B.shape.1 := hsh.1 ▸ hi
        have hj' : j < B.shape.2 := hsh.2 ▸ hj
        rw [key, sA.2.2 i j hi hj, sB.2.2 i j hi' hj']; rfl
    · cases hT
  | subtract a b iha ihb =>
    intro T h hl hs
    simp only [Expr.eval, Option.bind_eq_some_iff] at h
    obtain ⟨A, hA, B, hB, hT⟩ := h
    obtain ⟨gA, rA, sA⟩ := iha A hA (fun L hL => hl L (by simp [Expr.leaves, hL])) hs.1
    obtain ⟨gB, rB, sB⟩ := ihb B hB (fun L hL => hl L (by simp [Expr.leaves, hL])) hs.2
    have gT := good_subtract gA gB hT
    unfold subtract at hT
    split at hT
    · rename_i hsh
      cases hT
      have key : ∀ i j, (Op.mat (R := R) { times := fun x => vsub (A.times x) (B.times x), trans := fun x => vsub (A.trans x) (B.trans x), shape := A.shape, jit_safe := A.jit_safe && B.jit_safe, matrix_safe := A.matrix_safe && B.matrix_safe, real := A.real && B.real }).entry i j = A.mat.entry i j - B.mat.entry i j := by
        intro i j
        simp only [Op.mat, entryOf]
        rw [getD_vsub (n := A.shape.1) (gA.times_length _ (by simp)) (by rw [hsh.1, hsh.2]; exact gB.times_length _ (by simp)), hsh.2]
      refine ⟨gT, fun hr i j hi hj => ?_, sA.1, sA.2.1, fun i j hi hj => ?_⟩
      · simp only [Bool.and_eq_true] at hr
        have hi' : i < B.shape.1 := hsh.1 ▸ hi
        have hj' : j < B.shape.2 := hsh.2 ▸ hj
        rw [key, star_sub, rA hr.1 i j hi hj, rB hr.2 i j hi' hj']
      · have hi' : i < B.shape.1 := hsh.1 ▸ hi
        have hj' : j < B.shape.2 := hsh.2 ▸ hj
        rw [key, sA.2.2 i j hi hj, sB.2.2 i j hi' hj']; rfl
    · cases hT
  | compose a b iha ihb =>
    intro T h hl hs
    simp only [Expr.eval, Option.bind_eq_some_iff] at h
    obtain ⟨A, hA, B, hB, hT⟩ := h
    obtain ⟨gA, rA, sA⟩ := iha A hA (fun L hL => hl L (by simp [Expr.leaves, hL])) hs.1
    obtain ⟨gB, rB, sB⟩ := ihb B hB (fun L hL => hl L (by simp [Expr.leaves, hL])) hs.2
    have gT := good_compose gA gB hT
    have key := fun i j (hi : i < A.shape.1) => entry_compose (i := i) (j := j) gA gB hT hi
    unfold compose at hT
    split at hT
    · rename_i hsh
      cases hT
      refine ⟨gT, fun hr i j hi hj => ?_, sA.1, sB.2.1, fun i j hi hj => ?_⟩
      · simp only [Bool.and_eq_true] at hr
        rw [key i j hi, star_sum]
        refine Finset.sum_congr rfl fun k hk => ?_
        have hk' := Finset.mem_range.mp hk
        rw [star_mul', rA hr.1 i k hi hk', rB hr.2 k j (hsh ▸ hk') hj]
      · rw [key i j hi]
        have : A.shape.2 = a.den.cols := sA.2.1
        show _ = ∑ k ∈ Finset.range a.den.cols, _
        rw [← this]
        refine Finset.sum_congr rfl fun k hk => ?_
        have hk' : k < A.shape.2 := Finset.mem_range.mp hk
        rw [sA.2.2 i k hi hk', sB.2.2 k j (show k < B.shape.1 from hsh ▸ hk') hj]
    · cases hT
  | hcat a b iha ihb =>
    intro T h hl hs
    simp only [Expr.eval, Option.bind_eq_some_iff] at h
    obtain ⟨A, hA, B, hB, hT⟩ := h
    obtain ⟨gA, rA, sA⟩ := iha A hA (fun L hL => hl L (by simp [Expr.leaves, hL])) hs.1
    obtain ⟨gB, rB, sB⟩ := ihb B hB (fun L hL => hl L (by simp [Expr.leaves, hL])) hs.2
    have gT := good_hcat gA gB hT
    have key := fun i j => entry_hcat (i := i) (j := j) gA gB hT
    unfold hcat at hT
    split at hT
    · rename_i hsh
      cases hT
      have cA : A.shape.2 = a.den.cols := sA.2.1
      have cB : B.shape.2 = b.den.cols := sB.2.1
      refine ⟨gT, fun hr i j hi hj => ?_, sA.1, ?_, fun i j hi hj => ?_⟩
      · simp only [Bool.and_eq_true] at hr
        rw [key i j]
        split
        · rename_i hlt; exact rA hr.1 i j hi hlt
        · rename_i hge
          exact rB hr.2 i _ (hsh ▸ hi) (by have : j < A.shape.2 + B.shape.2 := hj; omega)
      · show A.shape.2 + B.shape.2 = a.den.cols + b.den.cols
        omega
      · rw [key i j]
        simp only [Expr.den, Mat.hcat, ← cA]
        split
        · rename_i hlt; exact sA.2.2 i j hi hlt
        · rename_i hge
          exact sB.2.2 i _ (hsh ▸ hi : i < B.shape.1) (by have : j < A.shape.2 + B.shape.2 := hj; show _ < B.shape.2; omega)
    · cases hT
  | gram e ih =>
    intro T h hl hs
    simp only [Expr.eval, Option.map_eq_some_iff] at h
    obtain ⟨A, hA, rfl⟩ := h
    obtain ⟨g, r, s⟩ := ih A hA hl hs
    have key : ∀ i j, i < A.shape.2 → j < A.shape.2 → (gram A).mat.entry i j =
        ∑ k ∈ Finset.range A.shape.1, star (A.mat.entry k i) * A.mat.entry k j := by
      intro i j hi hj
      have := AdjointPair.getD_times (AdjointPair.symm g) (x := A.times (unitVec A.shape.2 j))
        (g.times_length _ (by simp)) hi
      refine this.trans (Finset.sum_congr rfl fun k hk => ?_)
      rw [entryOf, AdjointPair.getD_trans_unit g (Finset.mem_range.mp hk) hi]; rfl
    refine ⟨good_gram g, fun hr i j hi hj => ?_, s.2.1, s.2.1, fun i j hi hj => ?_⟩
    · rw [key i j hi hj, star_sum]
      refine Finset.sum_congr rfl fun k hk => ?_
      have hk' := Finset.mem_range.mp hk
      rw [star_mul', star_star, r hr k i hk' hi, r hr k j hk' hj]
    · rw [key i j hi hj]
      have : A.shape.1 = e.den.rows := s.1
      show _ = ∑ k ∈ Finset.range e.den.rows, _
      rw [← this]
      refine Finset.sum_congr rfl fun k hk => ?_
      have hk' := Finset.mem_range.mp hk
      rw [s.2.2 k i hk' hi, s.2.2 k j hk' hj]; rfl
  | frame e ih =>
    intro T h hl hs
    simp only [Expr.eval, Option.map_eq_some_iff] at h
    obtain ⟨A, hA, rfl⟩ := h
    obtain ⟨g, r, s⟩ := ih A hA hl hs
    have key : ∀ i j, i < A.shape.1 → j < A.shape.1 → (frame A).mat.entry i j =
        ∑ k ∈ Finset.range A.shape.2, A.mat.entry i k * star (A.mat.entry j k) := by
      intro i j hi hj
      have := AdjointPair.getD_times g (x := A.trans (unitVec A.shape.1 j))
        (g.trans_length _ (by simp)) hi
      refine this.trans (Finset.sum_congr rfl fun k hk => ?_)
      rw [AdjointPair.getD_trans_unit g hj (Finset.mem_range.mp hk)]; rfl
    refine ⟨good_frame g, fun hr i j hi hj => ?_, s.1, s.1, fun i j hi hj => ?_⟩
    · rw [key i j hi hj, star_sum]
      refine Finset.sum_congr rfl fun k hk => ?_
      have hk' := Finset.mem_range.mp hk
      rw [star_mul', star_star, r hr i k hi hk', r hr j k hj hk']
    · rw [key i j hi hj]
      have : A.shape.2 = e.den.cols := s.2.1
      show _ = ∑ k ∈ Finset.range e.den.cols, _
      rw [← this]
      refine Finset.sum_congr rfl fun k hk => ?_
      have hk' := Finset.mem_range.mp hk
      rw [s.2.2 i k hi hk', s.2.2 j k hj hk']; rfl

end Verif.Lop
