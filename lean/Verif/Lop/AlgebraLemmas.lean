import Verif.Lop.Vec
import Verif.Lop.Model

set_option autoImplicit false

/-! Helper lemmas for the operator algebra. -/
set_option linter.unusedSectionVars false
namespace Verif.Lop
variable {R : Type*} [CommRing R] [StarRing R]

theorem applyNFrom_eq {α : Type*} (f : α → α) (n : ℤ) (x : α) (c : ℕ) :
    applyNFrom f n x c = f^[(n - c).toNat] x := by
  generalize hk : (n - c).toNat = k
  induction k generalizing x c with
  | zero =>
    rw [applyNFrom, if_neg (by omega)]; rfl
  | succ k ih =>
    rw [applyNFrom, if_pos (by omega), ih (f x) (c + 1) (by omega), Function.iterate_succ_apply]

theorem applyN_eq {α : Type*} (f : α → α) (n : ℤ) (x : α) : applyN f n x = f^[n.toNat] x := by
  rw [applyN, applyNFrom_eq]; simp

theorem AdjointPair.symm {m n : ℕ} {f g : List R → List R} (h : AdjointPair m n f g) :
    AdjointPair n m g f :=
  ⟨h.trans_length, h.times_length, fun y x hy hx => by
    rw [← star_vdot, ← h.adjoint x y hx hy, star_vdot]⟩

theorem AdjointPair.comp {m k n : ℕ} {f g f' g' : List R → List R}
    (h : AdjointPair m k f g) (h' : AdjointPair k n f' g') :
    AdjointPair m n (fun x => f (f' x)) (fun y => g' (g y)) :=
  ⟨fun x hx => h.times_length _ (h'.times_length x hx),
   fun y hy => h'.trans_length _ (h.trans_length y hy),
   fun x y hx hy => by
    rw [h.adjoint _ _ (h'.times_length x hx) hy, h'.adjoint _ _ hx (h.trans_length y hy)]⟩

theorem AdjointPair.id (n : ℕ) : AdjointPair (R := R) n n (fun x => x) (fun y => y) :=
  ⟨fun _ h => h, fun _ h => h, fun _ _ _ _ => rfl⟩

theorem AdjointPair.iterate {n : ℕ} {f g : List R → List R} (h : AdjointPair n n f g) (k : ℕ) :
    AdjointPair n n (f^[k]) (g^[k]) := by
  induction k with
  | zero => exact AdjointPair.id n
  | succ k ih =>
    have := ih.comp h
    rw [Function.iterate_succ, Function.iterate_succ']
    exact this

theorem AdjointPair.neg {m n : ℕ} {f g : List R → List R} (h : AdjointPair m n f g) :
    AdjointPair m n (fun x => vneg (f x)) (fun y => vneg (g y)) :=
  ⟨fun x hx => by simp [h.times_length x hx], fun y hy => by simp [h.trans_length y hy],
   fun x y hx hy => by rw [vdot_vneg_left, vdot_vneg_right, h.adjoint x y hx hy]⟩

theorem AdjointPair.smul {m n : ℕ} {f g : List R → List R} (h : AdjointPair m n f g) (a : R) :
    AdjointPair m n (fun x => Lop.smul a (f x)) (fun y => Lop.smul (star a) (g y)) :=
  ⟨fun x hx => by simp [h.times_length x hx], fun y hy => by simp [h.trans_length y hy],
   fun x y hx hy => by rw [vdot_smul_left, vdot_smul_right, h.adjoint x y hx hy]⟩

theorem AdjointPair.add {m n : ℕ} {f g f' g' : List R → List R} (h : AdjointPair m n f g)
    (h' : AdjointPair m n f' g') :
    AdjointPair m n (fun x => vadd (f x) (f' x)) (fun y => vadd (g y) (g' y)) :=
  ⟨fun x hx => by simp [h.times_length x hx, h'.times_length x hx],
   fun y hy => by simp [h.trans_length y hy, h'.trans_length y hy],
   fun x y hx hy => by
    rw [vdot_vadd_left _ (by rw [h.times_length x hx, h'.times_length x hx]),
      vdot_vadd_right _ (by rw [h.trans_length y hy, h'.trans_length y hy]),
      h.adjoint x y hx hy, h'.adjoint x y hx hy]⟩

theorem AdjointPair.sub {m n : ℕ} {f g f' g' : List R → List R} (h : AdjointPair m n f g)
    (h' : AdjointPair m n f' g') :
    AdjointPair m n (fun x => vsub (f x) (f' x)) (fun y => vsub (g y) (g' y)) := by
  have := h.add h'.neg
  simpa only [← vsub_eq] using this

theorem AdjointPair.conj {m n : ℕ} {f g : List R → List R} (h : AdjointPair m n f g) :
    AdjointPair m n (fun x => vconj (f (vconj x))) (fun y => vconj (g (vconj y))) :=
  ⟨fun x hx => by simp [h.times_length (vconj x) (by simpa using hx)],
   fun y hy => by simp [h.trans_length (vconj y) (by simpa using hy)],
   fun x y hx hy => by
    have := h.adjoint (vconj x) (vconj y) (by simpa using hx) (by simpa using hy)
    calc vdot (vconj (f (vconj x))) y
        = vdot (vconj (f (vconj x))) (vconj (vconj y)) := by rw [vconj_vconj]
      _ = star (vdot (f (vconj x)) (vconj y)) := vdot_vconj _ _
      _ = star (vdot (vconj x) (g (vconj y))) := by rw [this]
      _ = vdot (vconj (vconj x)) (vconj (g (vconj y))) := (vdot_vconj _ _).symm
      _ = _ := by rw [vconj_vconj]⟩

theorem AdjointPair.hcat {m n n' : ℕ} {f g f' g' : List R → List R} (h : AdjointPair m n f g)
    (h' : AdjointPair m n' f' g') :
    AdjointPair m (n + n') (fun x => vadd (f (x.take n)) (f' (x.drop n)))
      (fun y => g y ++ g' y) := by
  have l1 : ∀ x : List R, x.length = n + n' → (x.take n).length = n := by intro x hx; simp; omega
  have l2 : ∀ x : List R, x.length = n + n' → (x.drop n).length = n' := by intro x hx; simp; omega
  refine ⟨fun x hx => ?_, fun y hy => ?_, fun x y hx hy => ?_⟩
  · simp [h.times_length _ (l1 x hx), h'.times_length _ (l2 x hx)]
  · simp [h.trans_length y hy, h'.trans_length y hy]
  · rw [vdot_vadd_left _ (by rw [h.times_length _ (l1 x hx), h'.times_length _ (l2 x hx)]),
      h.adjoint _ _ (l1 x hx) hy, h'.adjoint _ _ (l2 x hx) hy]
    conv_rhs => rw [← List.take_append_drop n x]
    rw [vdot_append (by rw [l1 x hx, h.trans_length y hy])]

/-- The `j`-th unit vector of length `n`. -/
def unitVec (n j : ℕ) : List R := (List.range n).map fun k => if k = j then 1 else 0

@[simp] theorem length_unitVec (n j : ℕ) : (unitVec (R := R) n j).length = n := by simp [unitVec]

theorem getD_unitVec (n j k : ℕ) (hk : k < n) :
    (unitVec (R := R) n j).getD k 0 = if k = j then 1 else 0 := by
  simp [unitVec, List.getD, hk]

theorem vdot_unitVec_left {n j : ℕ} {x : List R} (hx : x.length = n) (hj : j < n) :
    vdot (unitVec n j) x = x.getD j 0 := by
  rw [vdot_eq_sum (n := n) (by simp) hx, Finset.sum_eq_single j]
  · rw [getD_unitVec n j j hj]; simp
  · intro k hk hne
    rw [getD_unitVec n j k (Finset.mem_range.mp hk), if_neg hne]; simp
  · intro h; exact absurd (Finset.mem_range.mpr hj) h

theorem vdot_unitVec_right {n j : ℕ} {x : List R} (hx : x.length = n) (hj : j < n) :
    vdot x (unitVec n j) = star (x.getD j 0) := by
  rw [← star_vdot, vdot_unitVec_left hx hj]

theorem getD_vadd {n i : ℕ} {x y : List R} (hx : x.length = n) (hy : y.length = n) :
    (vadd x y).getD i 0 = x.getD i 0 + y.getD i 0 := by
  by_cases hi : i < n
  · simp [vadd, List.getD, hi, hx, hy]
  · have h1 : x[i]? = none := List.getElem?_eq_none (by omega)
    have h2 : y[i]? = none := List.getElem?_eq_none (by omega)
    simp [vadd, List.getD, h1, h2, List.getElem?_zipWith]

theorem getD_vneg (x : List R) (i : ℕ) : (vneg x).getD i 0 = - x.getD i 0 := by
  simp only [vneg, List.getD, List.getElem?_map]
  cases x[i]? <;> simp

theorem getD_vsub {n i : ℕ} {x y : List R} (hx : x.length = n) (hy : y.length = n) :
    (vsub x y).getD i 0 = x.getD i 0 - y.getD i 0 := by
  rw [vsub_eq, getD_vadd hx (by simpa using hy), getD_vneg, sub_eq_add_neg]

theorem getD_smul (a : R) (x : List R) (i : ℕ) : (smul a x).getD i 0 = a * x.getD i 0 := by
  simp only [smul, List.getD, List.getElem?_map]
  cases x[i]? <;> simp

theorem getD_vconj (x : List R) (i : ℕ) : (vconj x).getD i 0 = star (x.getD i 0) := by
  simp only [vconj, List.getD, List.getElem?_map]
  cases x[i]? <;> simp

theorem vconj_unitVec (n j : ℕ) : vconj (unitVec (R := R) n j) = unitVec n j := by
  apply ext_getD (n := n) (by simp) (by simp)
  intro i hi
  rw [getD_vconj, getD_unitVec n j i hi]
  split <;> simp

/-- Entry `(i, j)` of the matrix of the map `f` on `R^n`. -/
def entryOf (n : ℕ) (f : List R → List R) (i j : ℕ) : R := (f (unitVec n j)).getD i 0

theorem AdjointPair.getD_trans_unit {m n : ℕ} {f g : List R → List R} (h : AdjointPair m n f g)
    {i j : ℕ} (hi : i < m) (hj : j < n) :
    (g (unitVec m i)).getD j 0 = star (entryOf n f i j) := by
  rw [← vdot_unitVec_left (h.trans_length _ (by simp)) hj, ← h.adjoint _ _ (by simp) (by simp),
    vdot_unitVec_right (h.times_length _ (by simp)) hi, entryOf]

/-- An adjoint pair acts as multiplication with its matrix of entries. -/
theorem AdjointPair.getD_times {m n : ℕ} {f g : List R → List R} (h : AdjointPair m n f g)
    {x : List R} (hx : x.length = n) {i : ℕ} (hi : i < m) :
    (f x).getD i 0 = ∑ j ∈ Finset.range n, entryOf n f i j * x.getD j 0 := by
  rw [← vdot_unitVec_left (h.times_length x hx) hi, ← star_vdot, h.adjoint x _ hx (by simp),
    star_vdot, vdot_eq_sum (h.trans_length _ (by simp)) hx]
  refine Finset.sum_congr rfl fun j hj => ?_
  rw [h.getD_trans_unit hi (Finset.mem_range.mp hj), star_star]

theorem AdjointPair.linear {m n : ℕ} {f g : List R → List R} (h : AdjointPair m n f g) :
    LinearMapOn m n f := by
  refine ⟨h.times_length, fun x y hx hy => ?_, fun a x hx => ?_⟩
  · apply ext_vdot_left (n := m) (h.times_length _ (by simp [hx, hy]))
      (by simp [h.times_length x hx, h.times_length y hy])
    intro z hz
    rw [h.adjoint _ _ (by simp [hx, hy]) hz, vdot_vadd_left _ (by rw [hx, hy]),
      vdot_vadd_left _ (by rw [h.times_length x hx, h.times_length y hy]),
      h.adjoint x z hx hz, h.adjoint y z hy hz]
  · apply ext_vdot_left (n := m) (h.times_length _ (by simp [hx])) (by simp [h.times_length x hx])
    intro z hz
    rw [h.adjoint _ _ (by simp [hx]) hz, vdot_smul_left, vdot_smul_left, h.adjoint x z hx hz]

/-- A linear map acts as multiplication with the matrix of images of the unit vectors. -/
theorem LinearMapOn.getD {m n : ℕ} {f : List R → List R} (h : LinearMapOn m n f)
    {x : List R} (hx : x.length = n) {i : ℕ} :
    (f x).getD i 0 = ∑ j ∈ Finset.range n, entryOf n f i j * x.getD j 0 := by
  have key : ∀ k, k ≤ n →
      (f ((List.range n).map fun j => if j < k then x.getD j 0 else 0)).getD i 0 =
        ∑ j ∈ Finset.range k, entryOf n f i j * x.getD j 0 := by
    intro k
    induction k with
    | zero =>
      intro _
      have e : ((List.range n).map fun j => if j < 0 then x.getD j 0 else 0) =
          Lop.smul (0 : R) ((List.range n).map fun _ => 0) := by
        simp [Lop.smul]
      rw [e, h.smul _ _ (by simp), getD_smul]
      simp
    | succ k ih =>
      intro hk
      have e : ((List.range n).map fun j => if j < k + 1 then x.getD j 0 else 0) =
          vadd ((List.range n).map fun j => if j < k then x.getD j 0 else 0)
            (Lop.smul (x.getD k 0) (unitVec n k)) := by
        apply ext_getD (n := n) (by simp) (by simp)
        intro l hl
        rw [getD_vadd (n := n) (by simp) (by simp), getD_smul, getD_unitVec n k l hl]
        simp only [List.getD, List.getElem?_map, List.getElem?_range hl, Option.map_some, Option.getD_some]
        rcases lt_trichotomy l k with h1 | h1 | h1
        · simp [h1, Nat.lt_succ_of_lt h1, h1.ne]
        · subst h1; simp
        · have : ¬ l < k + 1 := by omega
          simp [this, h1.ne', h1.not_gt]
      rw [e, h.add _ _ (by simp) (by simp), h.smul _ _ (by simp),
        getD_vadd (n := m) (h.length _ (by simp)) (by rw [length_smul]; exact h.length _ (by simp)),
        ih (by omega), getD_smul, Finset.sum_range_succ, entryOf]
      ring
  rw [← key n le_rfl]
  congr 2
  apply ext_getD (n := n) hx (by simp)
  intro l hl
  simp [List.getD, hl]

end Verif.Lop
