import Verif.Lop.AxisModel
import Verif.Lop.BasicProps
import Verif.Lop.ConvNdProps
import Mathlib.Data.List.GetD

set_option autoImplicit false

/-!
# Operators along an axis of an array with any number of dimensions (C140)
-/
set_option linter.unusedSectionVars false
namespace Verif.Lop
variable {R : Type*} [CommRing R] [StarRing R] {d : ℕ}

/-! ## Specification -/

/-- The argument `axis` names the axis `a` of an array with `d` dimensions: it is its number, or its number counted from the end. The axis of a 1-D
array is named by anything. -/
def AxisIs (d : ℕ) (axis : ℤ) (a : Fin d) : Prop := d = 1 ∨ axis = a ∨ axis = (a : ℤ) - d

/-- `Y` is `X` with the map `f` (to vectors of length `m`) applied to every 1-D slice along the axis `a`. -/
structure Along (f : List R → List R) (m : ℕ) (a : Fin d) (X Y : Nd d R) : Prop where
  shape : Y.shape = Function.update X.shape a m
  slices : ∀ i, (∀ b, b ≠ a → i b < X.shape b) → Y.fibre a i = f (X.fibre a i)

/-- The arrays have the same shape and the same entries. -/
def Nd.Same (X Y : Nd d R) : Prop := X.shape = Y.shape ∧ ∀ i, (∀ b, i b < X.shape b) → X.get i = Y.get i

/-- An operator on arrays acts along the axis `a` as the operator `T` acts on 1-D arrays, in both directions. -/
def OpNd.ActsAlong (D : OpNd R) (T : Op R) (a : Fin d) : Prop :=
  (∀ X : Nd d R, X.shape a = T.shape.2 → ∃ Y, D.times d X = some Y ∧ Along T.times T.shape.1 a X Y) ∧
  ∀ Y : Nd d R, Y.shape a = T.shape.1 → ∃ X, D.trans d Y = some X ∧ Along T.trans T.shape.2 a Y X

/-! ## Helpers -/

@[simp] theorem length_fibre (X : Nd d R) (a : Fin d) (i : Fin d → ℕ) : (X.fibre a i).length = X.shape a := by simp [Nd.fibre]

theorem fibre_update (X : Nd d R) (a : Fin d) (i : Fin d → ℕ) (k : ℕ) : X.fibre a (Function.update i a k) = X.fibre a i := by
  simp [Nd.fibre, Function.update_idem]

theorem ent_fibre (X : Nd d R) (a : Fin d) (i : Fin d → ℕ) {k : ℕ} (hk : k < X.shape a) :
    ent (X.fibre a i) k = X.get (Function.update i a k) := ent_tab (fun k => X.get (Function.update i a k)) hk

theorem map_ent_eq {x : List R} {m : ℕ} (h : x.length = m) : (List.range m).map (ent x) = x := by
  subst h
  apply List.ext_getElem (by simp)
  intro k h1 h2
  simp [ent, h2]

theorem normAxis_of {axis : ℤ} {a : Fin d} (h : axis = a ∨ axis = (a : ℤ) - d) : normAxis d axis = some a := by
  have := a.2
  unfold normAxis
  rcases h with h | h
  · rw [dif_pos (by omega)]
    congr 1
    exact Fin.ext (by simp; omega)
  · rw [dif_neg (by omega), dif_pos (by omega)]
    congr 1
    exact Fin.ext (by simp; omega)

theorem npAlongAxis_along {f : List R → List R} {m n : ℕ} (hf : ∀ x, x.length = n → (f x).length = m) {axis : ℤ} {a : Fin d}
    (h : axis = a ∨ axis = (a : ℤ) - d) (X : Nd d R) (hX : X.shape a = n) : ∃ Y, npAlongAxis f axis X = some Y ∧ Along f m a X Y := by
  refine ⟨_, by rw [npAlongAxis, normAxis_of h]; rfl, ?_, ?_⟩
  · simp only [hf _ ((length_fibre X a _).trans hX)]
  · intro i _
    rw [Nd.fibre]
    simp only [Function.update_self, fibre_update, hf _ ((length_fibre X a _).trans hX)]
    exact map_ent_eq (hf _ ((length_fibre X a i).trans hX))

theorem ndToList_eq (X : Nd 1 R) (i : Fin 1 → ℕ) : ndToList X = X.fibre 0 i := by
  refine List.map_congr_left fun k _ => congrArg X.get ?_
  funext b
  have : b = 0 := Subsingleton.elim b 0
  subst this
  simp

theorem ndOfList_along {f : List R → List R} {m n : ℕ} (hf : ∀ x, x.length = n → (f x).length = m) (X : Nd 1 R) (hX : X.shape 0 = n) :
    Along f m 0 X (ndOfList (f (ndToList X))) := by
  have hl : (f (ndToList X)).length = m := hf _ (by simp [ndToList, hX])
  refine ⟨?_, ?_⟩
  · funext b
    have : b = 0 := Subsingleton.elim b 0
    subst this
    simp [ndOfList, hl]
  · intro i _
    rw [← ndToList_eq X i, Nd.fibre]
    simp only [ndOfList, Function.update_self, hl]
    exact map_ent_eq hl

theorem alongFun_along {f : List R → List R} {m n : ℕ} (hf : ∀ x, x.length = n → (f x).length = m) {axis : ℤ} {a : Fin d}
    (h : AxisIs d axis a) (X : Nd d R) (hX : X.shape a = n) : ∃ Y, alongFun f axis d X = some Y ∧ Along f m a X Y := by
  match d, X with
  | 1, X =>
    have : a = 0 := Subsingleton.elim a 0
    subst this
    exact ⟨_, rfl, ndOfList_along hf X hX⟩
  | 0, X => exact a.elim0
  | e + 2, X =>
    have h' := h.resolve_left (by omega)
    exact npAlongAxis_along hf h' X hX

theorem sum_fibres (s : Fin d → ℕ) (a : Fin d) (m : ℕ) (g : (Fin d → ℕ) → R) :
    ∑ i ∈ idxBox (Function.update s a m), g i =
      ∑ j ∈ idxBox (Function.update s a 1), ∑ k ∈ Finset.range m, g (Function.update j a k) := by
  rw [← Finset.sum_product']
  symm
  apply Finset.sum_nbij' (fun p : (Fin d → ℕ) × ℕ => Function.update p.1 a p.2) (fun i => (Function.update i a 0, i a))
  · rintro ⟨j, k⟩ h
    simp only [Finset.mem_product, mem_idxBox, Finset.mem_range] at h ⊢
    intro b
    by_cases hb : b = a
    · subst hb; simpa using h.2
    · have := h.1 b; simpa [hb] using this
  · intro i h
    simp only [Finset.mem_product, mem_idxBox, Finset.mem_range] at h ⊢
    refine ⟨fun b => ?_, by simpa using h a⟩
    by_cases hb : b = a
    · subst hb; simp
    · have := h b; simpa [hb] using this
  · rintro ⟨j, k⟩ h
    simp only [Finset.mem_product, mem_idxBox, Finset.mem_range] at h
    have h0 : j a = 0 := by have := h.1 a; simp at this; exact this
    simp only [Function.update_idem, Function.update_self, Prod.mk.injEq, and_true]
    rw [← h0, Function.update_eq_self]
  · intro i h
    simp
  · rintro ⟨j, k⟩ h
    rfl

theorem along_inner {f g : List R → List R} {m n : ℕ} (hp : AdjointPair m n f g) {a : Fin d} {X Y Z W : Nd d R} (hX : X.shape a = n)
    (hY : Y.shape = Function.update X.shape a m) (hZ : Along f m a X Z) (hW : Along g n a Y W) :
    ndInner Z.shape Z.get Y.get = ndInner X.shape X.get W.get := by
  have hXs : X.shape = Function.update X.shape a n := by rw [← hX, Function.update_eq_self]
  have hYa : Y.shape a = m := by rw [hY]; simp
  have hZa : Z.shape a = m := by rw [hZ.shape]; simp
  have hWa : W.shape a = n := by rw [hW.shape]; simp
  unfold ndInner
  rw [hZ.shape]
  rw [show idxBox X.shape = idxBox (Function.update X.shape a n) from congrArg idxBox hXs, sum_fibres X.shape a m, sum_fibres X.shape a n]
  refine Finset.sum_congr rfl fun j hj => ?_
  have hj' : ∀ b, b ≠ a → j b < X.shape b := by
    intro b hb
    have := (mem_idxBox _ _).1 hj b
    simpa [hb] using this
  have hj2 : ∀ b, b ≠ a → j b < Y.shape b := by
    intro b hb
    rw [hY]
    simpa [hb] using hj' b hb
  have h1 := hp.adjoint (X.fibre a j) (Y.fibre a j) (by simp [hX]) (by simp [hYa])
  rw [← hZ.slices j hj', ← hW.slices j hj2, vdot_eq_sum (n := m) (by simp [hZa]) (by simp [hYa]),
    vdot_eq_sum (n := n) (by simp [hX]) (by simp [hWa])] at h1
  refine (Finset.sum_congr rfl fun k hk => ?_).trans (h1.trans (Finset.sum_congr rfl fun k hk => ?_))
  · have hk := Finset.mem_range.1 hk
    have e1 := ent_fibre Z a j (k := k) (by omega)
    have e2 := ent_fibre Y a j (k := k) (by omega)
    unfold ent at e1 e2
    rw [e1, e2]
  · have hk := Finset.mem_range.1 hk
    have e1 := ent_fibre X a j (k := k) (by omega)
    have e2 := ent_fibre W a j (k := k) (by omega)
    unfold ent at e1 e2
    rw [e1, e2]

theorem along_inverse {f g : List R → List R} {m n : ℕ} (hg : ∀ x, x.length = n → g (f x) = x) {a : Fin d} {X Y Z : Nd d R}
    (hX : X.shape a = n) (hY : Along f m a X Y) (hZ : Along g n a Y Z) : X.Same Z := by
  have hs : Z.shape = X.shape := by
    rw [hZ.shape, hY.shape, Function.update_idem, ← hX, Function.update_eq_self]
  refine ⟨hs.symm, fun i hi => ?_⟩
  have h1 := hY.slices i fun b _ => hi b
  have h2 := hZ.slices i fun b hb => by rw [hY.shape]; simpa [hb] using hi b
  rw [h1, hg _ (by simp [hX])] at h2
  have e1 := ent_fibre Z a i (k := i a) (by rw [hs]; exact hi a)
  have e2 := ent_fibre X a i (k := i a) (hi a)
  rw [h2, e2, Function.update_eq_self] at e1
  exact e1

theorem ix2_update0 (i : Fin 2 → ℕ) (l : ℕ) : ix2 l (i 1) = Function.update i 0 l := by
  funext b
  fin_cases b <;> simp [ix2]

theorem ix2_update1 (i : Fin 2 → ℕ) (l : ℕ) : ix2 (i 0) l = Function.update i 1 l := by
  funext b
  fin_cases b <;> simp [ix2]

theorem shape2_0 (s : Fin 2 → ℕ) (m : ℕ) : ![m, s 1] = Function.update s 0 m := by
  funext b
  fin_cases b <;> simp

theorem shape2_1 (s : Fin 2 → ℕ) (m : ℕ) : ![s 0, m] = Function.update s 1 m := by
  funext b
  fin_cases b <;> simp

theorem matMulNd_along (m n : ℕ) (a : ℕ → ℕ → R) (X : Nd 2 R) (hX : X.shape 0 = n) : Along (matVec m n a) m 0 X (matMulNd m n a X) := by
  refine ⟨shape2_0 _ _, fun i _ => ?_⟩
  have : (matMulNd m n a X).shape 0 = m := rfl
  rw [Nd.fibre, this, matVec]
  refine List.map_congr_left fun k _ => ?_
  simp only [matMulNd]
  refine Finset.sum_congr rfl fun l hl => ?_
  rw [ent_fibre X 0 i (by rw [hX]; exact Finset.mem_range.1 hl)]
  have e : Function.update i 0 k 1 = i 1 := by simp
  rw [Function.update_self, e, ix2_update0]

theorem mulMatNd_along (m n : ℕ) (a : ℕ → ℕ → R) (X : Nd 2 R) (hX : X.shape 1 = m) : Along (vecMat m n a) n 1 X (mulMatNd m n a X) := by
  refine ⟨shape2_1 _ _, fun i _ => ?_⟩
  have : (mulMatNd m n a X).shape 1 = n := rfl
  rw [Nd.fibre, this, vecMat]
  refine List.map_congr_left fun k _ => ?_
  simp only [mulMatNd]
  refine Finset.sum_congr rfl fun l hl => ?_
  rw [ent_fibre X 1 i (by rw [hX]; exact Finset.mem_range.1 hl)]
  have e : Function.update i 1 k 0 = i 0 := by simp
  rw [Function.update_self, e, ix2_update1]

theorem vecMat_transpose (m n : ℕ) (a : ℕ → ℕ → R) (x : List R) : vecMat n m (fun j i => a i j) x = matVec m n a x := by
  unfold vecMat matVec
  exact List.map_congr_left fun i _ => Finset.sum_congr rfl fun j _ => mul_comm _ _

theorem matVec_transpose (m n : ℕ) (a : ℕ → ℕ → R) (x : List R) : matVec n m (fun j i => a i j) x = vecMat m n a x :=
  (vecMat_transpose n m (fun j i => a i j) x).symm

theorem vecMat_star (m n : ℕ) (a : ℕ → ℕ → R) (x : List R) :
    vecMat m n (fun i j => star (a i j)) x = vconj (vecMat m n a (vconj x)) := by
  unfold vecMat
  rw [vconj, List.map_map]
  refine List.map_congr_left fun i _ => ?_
  simp only [Function.comp_apply, star_sum]
  refine Finset.sum_congr rfl fun l _ => ?_
  rw [ent_vconj, star_mul', star_star]

theorem Along.congr {f g : List R → List R} {m : ℕ} {a : Fin d} {X Y : Nd d R} (h : Along f m a X Y)
    (e : ∀ x, f x = g x) : Along g m a X Y := ⟨h.shape, fun i hi => (h.slices i hi).trans (e _)⟩

/-- The 2-D branches: axis 0 is named by `0`, axis 1 by `1` or `-1`. -/
theorem branch2 {axis : ℤ} {a : Fin 2} (h : AxisIs 2 axis a) (hn : axis ≠ -2) : (axis = 0 ∧ a = 0) ∨ (axis ≠ 0 ∧ a = 1) := by
  have h := h.resolve_left (by omega)
  fin_cases a
  · left; simp at h; constructor
    · omega
    · rfl
  · right; simp at h; constructor
    · omega
    · rfl

theorem matrixTimesNd_along (m n : ℕ) (A : ℕ → ℕ → R) {axis : ℤ} {a : Fin d} (h : AxisIs d axis a) (h2 : d = 2 → axis ≠ -2)
    (X : Nd d R) (hX : X.shape a = n) : ∃ Y, matrixTimesNd m n A axis d X = some Y ∧ Along (matVec m n A) m a X Y := by
  match d, X with
  | 0, X => exact a.elim0
  | 1, X =>
    have : a = 0 := Subsingleton.elim a 0
    subst this
    exact ⟨_, rfl, ndOfList_along (n := n) (fun x _ => by simp [matVec]) X hX⟩
  | 2, X =>
    rcases branch2 h (h2 rfl) with ⟨e, rfl⟩ | ⟨e, rfl⟩
    · exact ⟨_, by rw [matrixTimesNd, if_pos e], matMulNd_along m n A X hX⟩
    · exact ⟨_, by rw [matrixTimesNd, if_neg e], (mulMatNd_along n m _ X hX).congr (vecMat_transpose m n A)⟩
  | e + 3, X => exact npAlongAxis_along (n := n) (fun x _ => by simp [matVec]) (h.resolve_left (by omega)) X hX

theorem matrixTransNd_along (m n : ℕ) (A : ℕ → ℕ → R) {axis : ℤ} {a : Fin d} (h : AxisIs d axis a) (h2 : d = 2 → axis ≠ -2)
    (X : Nd d R) (hX : X.shape a = m) :
    ∃ Y, matrixTransNd m n A axis d X = some Y ∧ Along (fun x => vconj (vecMat m n A (vconj x))) n a X Y := by
  match d, X with
  | 0, X => exact a.elim0
  | 1, X =>
    have : a = 0 := Subsingleton.elim a 0
    subst this
    exact ⟨_, rfl, ndOfList_along (f := fun x => vconj (vecMat m n A (vconj x))) (n := m) (fun x _ => by simp [vecMat, vconj]) X hX⟩
  | 2, X =>
    rcases branch2 h (h2 rfl) with ⟨e, rfl⟩ | ⟨e, rfl⟩
    · exact ⟨_, by rw [matrixTransNd, if_pos e], (matMulNd_along n m _ X hX).congr fun x =>
        (matVec_transpose m n (fun i j => star (A i j)) x).trans (vecMat_star m n A x)⟩
    · exact ⟨_, by rw [matrixTransNd, if_neg e], (mulMatNd_along m n _ X hX).congr (vecMat_star m n A)⟩
  | e + 3, X => exact npAlongAxis_along (f := fun x => vconj (vecMat m n A (vconj x))) (n := m) (fun x _ => by simp [vecMat, vconj]) (h.resolve_left (by omega)) X hX

theorem sparseTransNd_along (m n : ℕ) (A : ℕ → ℕ → R) {axis : ℤ} {a : Fin d} (h : AxisIs d axis a) (h2 : d = 2 → axis ≠ -2)
    (X : Nd d R) (hX : X.shape a = m) : ∃ Y, sparseTransNd m n A axis d X = some Y ∧ Along (vecMat m n A) n a X Y := by
  match d, X with
  | 0, X => exact a.elim0
  | 1, X =>
    have : a = 0 := Subsingleton.elim a 0
    subst this
    exact ⟨_, rfl, ndOfList_along (n := m) (fun x _ => by simp [vecMat]) X hX⟩
  | 2, X =>
    rcases branch2 h (h2 rfl) with ⟨e, rfl⟩ | ⟨e, rfl⟩
    · exact ⟨_, by rw [sparseTransNd, if_pos e], (matMulNd_along n m _ X hX).congr (matVec_transpose m n A)⟩
    · exact ⟨_, by rw [sparseTransNd, if_neg e], mulMatNd_along m n A X hX⟩
  | e + 3, X => exact npAlongAxis_along (n := m) (fun x _ => by simp [vecMat]) (h.resolve_left (by omega)) X hX

theorem restrictionTimesNd_along (n : ℕ) (I : List ℕ) (hI : ∀ i ∈ I, i < n) {axis : ℤ} {a : Fin d} (h : AxisIs d axis a)
    (h2 : d = 2 → axis ≠ -2) (X : Nd d R) (hX : X.shape a = n) :
    ∃ Y, restrictionTimesNd I axis d X = some Y ∧ Along (fun x => gather x I) I.length a X Y := by
  have key : ∀ (a : Fin 2) (X : Nd 2 R) (i : Fin 2 → ℕ), X.shape a = n →
      (List.range I.length).map (fun k => X.get (Function.update i a (I.getD k 0))) = gather (X.fibre a i) I := by
    intro a X i hX
    apply List.ext_getElem (by simp [gather])
    intro k hk1 hk2
    have hk : k < I.length := by simpa [gather] using hk2
    have := hI _ (List.getElem_mem hk)
    simp only [List.getElem_map, List.getElem_range, gather]
    rw [List.getD_eq_getElem _ _ hk, ent_fibre X a i (by omega)]
  match d, X with
  | 0, X => exact a.elim0
  | 1, X =>
    have : a = 0 := Subsingleton.elim a 0
    subst this
    exact ⟨_, rfl, ndOfList_along (f := fun x => gather x I) (n := n) (fun x _ => by simp [gather]) X hX⟩
  | 2, X =>
    rcases branch2 h (h2 rfl) with ⟨e, rfl⟩ | ⟨e, rfl⟩
    · refine ⟨_, by rw [restrictionTimesNd, if_pos e], shape2_0 _ _, fun i _ => ?_⟩
      rw [← key 0 X i hX, Nd.fibre]
      refine List.map_congr_left fun k _ => ?_
      show X.get (ix2 _ _) = _
      have e : Function.update i 0 k 1 = i 1 := by simp
      rw [Function.update_self, e, ix2_update0]
    · refine ⟨_, by rw [restrictionTimesNd, if_neg e], shape2_1 _ _, fun i _ => ?_⟩
      rw [← key 1 X i hX, Nd.fibre]
      refine List.map_congr_left fun k _ => ?_
      show X.get (ix2 _ _) = _
      have e : Function.update i 1 k 0 = i 0 := by simp
      rw [Function.update_self, e, ix2_update1]
  | e + 3, X => exact npAlongAxis_along (f := fun x => gather x I) (n := n) (fun x _ => by simp [gather]) (h.resolve_left (by omega)) X hX

/-! ## Properties -/

section instances
/-- A 2 × 2 × 3 array of numbers. -/
def exNd : Nd 3 ℤ := { shape := ![2, 2, 3], get := fun i => 6 * i 0 + 3 * i 1 + i 2 }
/-- The matrix `[[1, 2], [0, 3], [1, 1]]`. -/
def exAxMat : ℕ → ℕ → ℤ := fun i j => if i = 0 then j + 1 else if i = 1 then 3 * j else 1
end instances

/-- **C140** an operator built with `apply_along_axis` (any 1-D operator with the sizes it announces) acts along the named axis of arrays with any number of
dimensions: every 1-D slice along that axis is transformed by the 1-D operator, the other axes are untouched. -/
theorem c140_along (T : Op R) (h1 : ∀ x, x.length = T.shape.2 → (T.times x).length = T.shape.1)
    (h2 : ∀ y, y.length = T.shape.1 → (T.trans y).length = T.shape.2) (axis : ℤ) (a : Fin d) (h : AxisIs d axis a) :
    (alongNd T axis).ActsAlong T a :=
  ⟨fun X hX => alongFun_along h1 h X hX, fun Y hY => alongFun_along h2 h Y hY⟩

/-- Flipping the middle axis of a 2 × 2 × 3 array, named 1 or -2. -/
example (axis : ℤ) (h : axis = 1 ∨ axis = -2) : ∃ Y, (alongNd (flipud (R := ℤ) 2) axis).times 3 exNd = some Y ∧
    Along (fun x => x.reverse) 2 1 exNd Y :=
  (c140_along (d := 3) (flipud (R := ℤ) 2) (pair_flipud 2).times_length (pair_flipud 2).trans_length axis 1
    (Or.inr (by rcases h with rfl | rfl <;> simp))).1 exNd rfl

/-- **C140** the operator on arrays keeps the adjoint relation of the 1-D operator: for the inner product over all entries,
`<times X, Y> = <X, trans Y>`. -/
theorem c140_adjoint (D : OpNd R) (T : Op R) (hT : AdjointPair T.shape.1 T.shape.2 T.times T.trans) (a : Fin d) (hD : D.ActsAlong T a)
    (X Y : Nd d R) (hX : X.shape a = T.shape.2) (hY : Y.shape = Function.update X.shape a T.shape.1) :
    ∃ Z W, D.times d X = some Z ∧ D.trans d Y = some W ∧ Z.shape = Y.shape ∧ W.shape = X.shape ∧
      ndInner Z.shape Z.get Y.get = ndInner X.shape X.get W.get := by
  obtain ⟨Z, e1, hZ⟩ := hD.1 X hX
  obtain ⟨W, e2, hW⟩ := hD.2 Y (by rw [hY]; simp)
  refine ⟨Z, W, e1, e2, hZ.shape.trans hY.symm, ?_, along_inner hT hX hY hZ hW⟩
  rw [hW.shape, hY, Function.update_idem, ← hX, Function.update_eq_self]

/-- A 3 × 2 matrix along the first axis of a 2 × 2 × 3 array. -/
example (Y : Nd 3 ℤ) (hY : Y.shape = ![3, 2, 3]) : ∃ Z W, (alongNd (matrix 3 2 exAxMat true) 0).times 3 exNd = some Z ∧
    (alongNd (matrix 3 2 exAxMat true) 0).trans 3 Y = some W ∧ Z.shape = Y.shape ∧ W.shape = exNd.shape ∧
    ndInner Z.shape Z.get Y.get = ndInner exNd.shape exNd.get W.get :=
  c140_adjoint _ (matrix 3 2 exAxMat true) (pair_matrix 3 2 exAxMat true) 0
    (c140_along _ (pair_matrix 3 2 exAxMat true).times_length (pair_matrix 3 2 exAxMat true).trans_length 0 0 (Or.inr (Or.inl rfl)))
    exNd Y rfl (by rw [hY]; funext b; fin_cases b <;> simp [exNd, matrix])

/-- **C140** an operator with `trans (times x) = x` on 1-D arrays reconstructs arrays of any number of dimensions. -/
theorem c140_inverse (D : OpNd R) (T : Op R) (hT : ∀ x, x.length = T.shape.2 → T.trans (T.times x) = x) (a : Fin d) (hD : D.ActsAlong T a)
    (X : Nd d R) (hX : X.shape a = T.shape.2) : ∃ Y Z, D.times d X = some Y ∧ D.trans d Y = some Z ∧ X.Same Z := by
  obtain ⟨Y, e1, hY⟩ := hD.1 X hX
  obtain ⟨Z, e2, hZ⟩ := hD.2 Y (by rw [hY.shape]; simp)
  exact ⟨Y, Z, e1, e2, along_inverse hT hX hY hZ⟩

/-- Flipping twice along the last axis of a 2 × 2 × 3 array. -/
example : ∃ Y Z, (alongNd (flipud (R := ℤ) 3) (-1)).times 3 exNd = some Y ∧ (alongNd (flipud (R := ℤ) 3) (-1)).trans 3 Y = some Z ∧ exNd.Same Z :=
  c140_inverse _ (flipud (R := ℤ) 3) (fun x _ => by simp [flipud]) 2
    (c140_along _ (pair_flipud 3).times_length (pair_flipud 3).trans_length (-1) 2 (Or.inr (Or.inr (by simp)))) exNd rfl

/-- **C140** an axis that the array does not have raises. -/
theorem c140_bad_axis (T : Op R) (axis : ℤ) (hd : d ≠ 1) (h : axis < -d ∨ (d : ℤ) ≤ axis) (X : Nd d R) :
    (alongNd T axis).times d X = none ∧ (alongNd T axis).trans d X = none := by
  have hn : normAxis d axis = none := by
    unfold normAxis
    rw [dif_neg (by omega), dif_neg (by omega)]
  have key : ∀ f : List R → List R, alongFun f axis d X = none := by
    intro f
    match d, X with
    | 0, X => simp only [alongFun, npAlongAxis]; rw [hn]; rfl
    | e + 2, X => simp only [alongFun, npAlongAxis]; rw [hn]; rfl
  exact ⟨key _, key _⟩

example : (alongNd (flipud (R := ℤ) 2) 3).times 3 exNd = none ∧ (alongNd (flipud (R := ℤ) 2) 3).trans 3 exNd = none :=
  c140_bad_axis _ 3 (by simp) (Or.inr (by simp)) exNd

/-- **C140** `matrix(A, axis)`, `sparse_real_matrix(A, axis)` and `restriction(n, I, axis)`, which have branches of their own for 2-D arrays, act along the named
axis too, in both directions. Missing: the first axis of a 2-D array named `-2` (`c140_negative_axis_fails`). -/
theorem c140_branches_partial (m n : ℕ) (A : ℕ → ℕ → R) (c : Bool) (I : List ℕ) (hI : ∀ i ∈ I, i < n) (axis : ℤ) (a : Fin d)
    (h : AxisIs d axis a) (h2 : d = 2 → axis ≠ -2) :
    (matrixNd m n A axis).ActsAlong (matrix m n A c) a ∧ (sparseMatrixNd m n A axis).ActsAlong (realMatrix m n A) a ∧
    (restrictionNd n I axis).ActsAlong (restriction (R := R) n I) a :=
  ⟨⟨fun X hX => matrixTimesNd_along m n A h h2 X hX, fun Y hY => matrixTransNd_along m n A h h2 Y hY⟩,
   ⟨fun X hX => matrixTimesNd_along m n A h h2 X hX, fun Y hY => sparseTransNd_along m n A h h2 Y hY⟩,
   ⟨fun X hX => restrictionTimesNd_along n I hI h h2 X hX,
    fun Y hY => alongFun_along (f := fun x => scatterSet (List.replicate n 0) I x) (n := I.length) (fun y _ => by simp [restriction]) h Y hY⟩⟩

/-- Rows 1 and 0 of the last axis of a 2-D array. -/
example : (restrictionNd 2 [1, 0] (-1)).ActsAlong (restriction (R := ℤ) 2 [1, 0]) (1 : Fin 2) :=
  (c140_branches_partial 3 2 exAxMat true [1, 0] (by simp) (-1) (1 : Fin 2) (Or.inr (Or.inr (by simp))) (by simp)).2.2

/-- **C140** hence `<times X, Y> = <X, trans Y>` for them (`sparse_real_matrix`: real entries; `restriction`: no repeated index). -/
theorem c140_branches_adjoint_partial (m n : ℕ) (A : ℕ → ℕ → R) (c : Bool) (I : List ℕ) (hI : ∀ i ∈ I, i < n) (hnd : I.Nodup) (axis : ℤ) (a : Fin d)
    (h : AxisIs d axis a) (h2 : d = 2 → axis ≠ -2) (hA : ∀ i j, i < m → j < n → star (A i j) = A i j) (X : Nd d R) (hX : X.shape a = n) :
    (∀ D : OpNd R, D = matrixNd m n A axis ∨ D = sparseMatrixNd m n A axis → ∀ Y : Nd d R, Y.shape = Function.update X.shape a m →
      ∃ Z W, D.times d X = some Z ∧ D.trans d Y = some W ∧ Z.shape = Y.shape ∧ W.shape = X.shape ∧
        ndInner Z.shape Z.get Y.get = ndInner X.shape X.get W.get) ∧
    ∀ Y : Nd d R, Y.shape = Function.update X.shape a I.length →
      ∃ Z W, (restrictionNd n I axis).times d X = some Z ∧ (restrictionNd n I axis).trans d Y = some W ∧ Z.shape = Y.shape ∧
        W.shape = X.shape ∧ ndInner Z.shape Z.get Y.get = ndInner X.shape X.get W.get := by
  obtain ⟨p1, p2, p3⟩ := c140_branches_partial m n A c I hI axis a h h2
  refine ⟨?_, fun Y hY => c140_adjoint _ (restriction (R := R) n I) (pair_restriction n I hnd hI) a p3 X Y hX hY⟩
  rintro D (rfl | rfl) Y hY
  · exact c140_adjoint _ (matrix m n A c) (pair_matrix m n A c) a p1 X Y hX hY
  · exact c140_adjoint _ (realMatrix m n A) (pair_realMatrix m n A hA) a p2 X Y hX hY

/-- The 3 × 2 matrix and the choice of the second entry along the middle axis of a 2 × 2 × 3 array. -/
example := c140_branches_adjoint_partial 3 2 exAxMat true [1] (by simp) (by simp) 1 (1 : Fin 3) (Or.inr (Or.inl rfl)) (by simp)
  (fun _ _ _ _ => rfl) exNd rfl

/-- **C140, refutation** for the axis `-2`, the first axis of a 2-D array, the three operators act along the second axis instead: the first row of a 2 × 2 array asked
for with `restriction(2, [0], axis=-2)` comes out as its first column. -/
theorem c140_negative_axis_fails : AxisIs 2 (-2) 0 ∧
    ¬ (restrictionNd 2 [0] (-2)).ActsAlong (restriction (R := ℤ) 2 [0]) (0 : Fin 2) ∧
    ¬ (matrixNd 1 2 (fun _ _ => (1 : ℤ)) (-2)).ActsAlong (matrix 1 2 (fun _ _ => (1 : ℤ)) true) (0 : Fin 2) ∧
    ¬ (sparseMatrixNd 1 2 (fun _ _ => (1 : ℤ)) (-2)).ActsAlong (realMatrix 1 2 (fun _ _ => (1 : ℤ))) (0 : Fin 2) := by
  have key : ∀ (D : OpNd ℤ) (T : Op ℤ), T.shape = (1, 2) → (∃ Y, D.times 2 { shape := ![2, 2], get := fun i => i 0 } = some Y ∧ Y.shape = ![2, 1]) →
      ¬ D.ActsAlong T (0 : Fin 2) := by
    rintro D T hT ⟨Y, e, hs⟩ ⟨h, _⟩
    obtain ⟨Z, e', hZ⟩ := h { shape := ![2, 2], get := fun i => i 0 } (by rw [hT]; rfl)
    have : Y = Z := by rw [e] at e'; exact Option.some.inj e'
    subst this
    have h0 := congrFun hZ.shape 0
    rw [hs, hT] at h0
    simp at h0
  refine ⟨Or.inr (Or.inr (by simp)), key _ _ rfl ⟨_, rfl, rfl⟩, key _ _ rfl ⟨_, rfl, rfl⟩, key _ _ rfl ⟨_, rfl, rfl⟩⟩

end Verif.Lop
