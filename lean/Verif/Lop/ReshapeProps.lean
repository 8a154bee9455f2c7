import Verif.Lop.ReshapeModel
import Verif.Lop.StructProps

set_option autoImplicit false
/-!
# Properties of `reshape` and `arr2vec` (C13)
-/
set_option linter.unusedSectionVars false
namespace Verif.Lop
variable {R : Type*} [CommRing R] [StarRing R]

/-- Valid multi-indices of an array of the given shape. -/
def ValidIdx (shape idx : List ℕ) : Prop := List.Forall₂ (fun n i => i < n) shape idx

/-- Sum of `f` over all multi-indices of a shape. -/
def sumIdx : List ℕ → (List ℕ → R) → R
  | [], f => f []
  | n :: ns, f => ∑ i ∈ Finset.range n, sumIdx ns fun is => f (i :: is)

/-- Inner product of two arrays. -/
def arrDot (shape : List ℕ) (X Y : List ℕ → R) : R := sumIdx shape fun I => star (X I) * Y I

theorem flatC_lt {s i : List ℕ} (h : ValidIdx s i) : flatC s i < s.prod := by
  induction h with
  | nil => simp [flatC]
  | @cons n i ns is hi h ih =>
    simp only [flatC, List.prod_cons]
    calc i * ns.prod + flatC ns is < i * ns.prod + ns.prod := by omega
      _ = (i + 1) * ns.prod := by ring
      _ ≤ n * ns.prod := Nat.mul_le_mul_right _ hi

theorem flatF_lt {s i : List ℕ} (h : ValidIdx s i) : flatF s i < s.prod := by
  induction h with
  | nil => simp [flatF]
  | @cons n i ns is hi h ih =>
    simp only [flatF, List.prod_cons]
    calc i + n * flatF ns is < n + n * flatF ns is := by omega
      _ = n * (flatF ns is + 1) := by ring
      _ ≤ n * ns.prod := Nat.mul_le_mul_left _ ih

theorem unflatC_flatC {s i : List ℕ} (h : ValidIdx s i) : unflatC s (flatC s i) = i := by
  induction h with
  | nil => rfl
  | @cons n i ns is hi h ih =>
    have hl := flatC_lt h
    simp only [flatC, unflatC]
    rw [Nat.mul_comm, Nat.mul_add_div (by omega), Nat.div_eq_of_lt hl, Nat.mul_add_mod, Nat.mod_eq_of_lt hl, ih,
      Nat.add_zero]

theorem unflatF_flatF {s i : List ℕ} (h : ValidIdx s i) : unflatF s (flatF s i) = i := by
  induction h with
  | nil => rfl
  | @cons n i ns is hi h ih =>
    simp only [flatF, unflatF]
    rw [Nat.add_mul_mod_self_left, Nat.mod_eq_of_lt hi, Nat.add_mul_div_left _ _ (by omega), Nat.div_eq_of_lt hi,
      Nat.zero_add, ih]

theorem valid_unflatC {s : List ℕ} {k : ℕ} (h : k < s.prod) : ValidIdx s (unflatC s k) ∧ flatC s (unflatC s k) = k := by
  induction s generalizing k with
  | nil => simp at h; exact ⟨.nil, by simp [flatC, h]⟩
  | cons n ns ih =>
    simp only [List.prod_cons] at h
    have hp : 0 < ns.prod := by
      rcases Nat.eq_zero_or_pos ns.prod with e | e
      · simp [e] at h
      · exact e
    obtain ⟨h1, h2⟩ := ih (Nat.mod_lt k hp)
    refine ⟨.cons (Nat.div_lt_of_lt_mul (by rwa [Nat.mul_comm] at h)) h1, ?_⟩
    simp only [flatC, unflatC, h2]
    exact Nat.div_add_mod' k _

theorem valid_unflatF {s : List ℕ} {k : ℕ} (h : k < s.prod) : ValidIdx s (unflatF s k) ∧ flatF s (unflatF s k) = k := by
  induction s generalizing k with
  | nil => simp at h; exact ⟨.nil, by simp [flatF, h]⟩
  | cons n ns ih =>
    simp only [List.prod_cons] at h
    have hp : 0 < n := by
      rcases Nat.eq_zero_or_pos n with e | e
      · simp [e] at h
      · exact e
    obtain ⟨h1, h2⟩ := ih (Nat.div_lt_of_lt_mul h)
    refine ⟨.cons (Nat.mod_lt _ hp) h1, ?_⟩
    simp only [flatF, unflatF, h2]
    exact Nat.mod_add_div k _

theorem sumIdx_C (s : List ℕ) (f : List ℕ → R) : sumIdx s f = ∑ k ∈ Finset.range s.prod, f (unflatC s k) := by
  induction s generalizing f with
  | nil => simp [sumIdx, unflatC]
  | cons n ns ih =>
    simp only [sumIdx, List.prod_cons, unflatC]
    rw [sum_range_mul]
    refine Finset.sum_congr rfl fun i _ => ?_
    rw [ih]
    refine Finset.sum_congr rfl fun k hk => ?_
    have hk := Finset.mem_range.mp hk
    rw [Nat.mul_comm, Nat.mul_add_div (by omega), Nat.div_eq_of_lt hk, Nat.mul_add_mod, Nat.mod_eq_of_lt hk,
      Nat.add_zero]

theorem sumIdx_F (s : List ℕ) (f : List ℕ → R) : sumIdx s f = ∑ k ∈ Finset.range s.prod, f (unflatF s k) := by
  induction s generalizing f with
  | nil => simp [sumIdx, unflatF]
  | cons n ns ih =>
    simp only [sumIdx, List.prod_cons, unflatF]
    rw [Nat.mul_comm, sum_range_mul, Finset.sum_comm]
    conv_lhs => enter [2, i]; rw [ih]
    refine Finset.sum_congr rfl fun i hi => ?_
    have hi := Finset.mem_range.mp hi
    refine Finset.sum_congr rfl fun q _ => ?_
    rw [Nat.add_comm, Nat.add_mul_mod_self_right, Nat.mod_eq_of_lt hi, Nat.add_mul_div_right _ _ (by omega),
      Nat.div_eq_of_lt hi, Nat.zero_add]

theorem sumIdx_congr (s : List ℕ) (f g : List ℕ → R) (h : ∀ I, ValidIdx s I → f I = g I) :
    sumIdx s f = sumIdx s g := by
  rw [sumIdx_C, sumIdx_C]
  exact Finset.sum_congr rfl fun k hk => h _ (valid_unflatC (Finset.mem_range.mp hk)).1

/-- **C13** `reshape(in, out, order)` is accepted exactly when the sizes agree, and for the orders C and F
`times` and `trans` invert each other (entry by entry), `times` moves each entry to its place by a bijection of the
valid indices, and the pair is adjoint. The order A is accepted by the constructor and raises when applied. -/
theorem c13_reshape (in_shape out_shape : List ℕ) :
    (in_shape.prod ≠ out_shape.prod → ∀ o, reshape (R := R) in_shape out_shape o = none) ∧
    (in_shape.prod = out_shape.prod → ∀ o, ∃ T : ArrOp R, reshape in_shape out_shape o = some T ∧
      T.inShape = in_shape ∧ T.outShape = out_shape ∧
      (o = .A → ∀ x, T.times x = none ∧ T.trans x = none) ∧
      (o ≠ .A → ∃ t t' : (List ℕ → R) → (List ℕ → R), (∀ x, T.times x = some (t x)) ∧ (∀ y, T.trans y = some (t' y)) ∧
        (∀ x I, ValidIdx in_shape I → t' (t x) I = x I) ∧
        (∀ y J, ValidIdx out_shape J → t (t' y) J = y J) ∧
        (∃ p : List ℕ → List ℕ, Set.BijOn p {J | ValidIdx out_shape J} {I | ValidIdx in_shape I} ∧
          ∀ x J, ValidIdx out_shape J → t x J = x (p J)) ∧
        (∀ x y, arrDot out_shape (t x) y = arrDot in_shape x (t' y)))) := by
  have bij : ∀ (fl : List ℕ → List ℕ → ℕ) (un : List ℕ → ℕ → List ℕ)
      (h1 : ∀ s i, ValidIdx s i → fl s i < s.prod) (h2 : ∀ s i, ValidIdx s i → un s (fl s i) = i)
      (h3 : ∀ s k, k < s.prod → ValidIdx s (un s k) ∧ fl s (un s k) = k),
      in_shape.prod = out_shape.prod →
      Set.BijOn (fun J => un in_shape (fl out_shape J)) {J | ValidIdx out_shape J} {I | ValidIdx in_shape I} := by
    intro fl un h1 h2 h3 he
    refine ⟨?_, ?_, ?_⟩
    · intro J hJ
      exact (h3 _ _ (by rw [he]; exact h1 _ _ hJ)).1
    · intro J hJ J' hJ' hh
      have e := congrArg (fl in_shape) hh
      simp only at e
      rw [(h3 _ _ (by rw [he]; exact h1 _ _ hJ)).2, (h3 _ _ (by rw [he]; exact h1 _ _ hJ')).2] at e
      rw [← h2 _ _ hJ, e, h2 _ _ hJ']
    · intro I hI
      have hk : fl in_shape I < out_shape.prod := by rw [← he]; exact h1 _ _ hI
      refine ⟨un out_shape (fl in_shape I), (h3 _ _ hk).1, ?_⟩
      simp only
      rw [(h3 _ _ hk).2, h2 _ _ hI]
  refine ⟨fun h o => if_neg h, fun he o => ⟨_, if_pos he, rfl, rfl, ?_, ?_⟩⟩
  · rintro rfl x; exact ⟨rfl, rfl⟩
  · intro ho
    cases o with
    | A => exact absurd rfl ho
    | C =>
      refine ⟨_, _, fun x => rfl, fun y => rfl, ?_, ?_, ?_, ?_⟩
      · intro x I hI
        try simp only
        rw [(valid_unflatC (by rw [← he]; exact flatC_lt hI)).2, unflatC_flatC hI]
      · intro y J hJ
        try simp only
        rw [(valid_unflatC (by rw [he]; exact flatC_lt hJ)).2, unflatC_flatC hJ]
      · exact ⟨_, bij flatC unflatC (fun _ _ => flatC_lt) (fun _ _ => unflatC_flatC) (fun _ _ => valid_unflatC) he,
          fun x J _ => rfl⟩
      · intro x y
        unfold arrDot
        rw [sumIdx_C, sumIdx_C, he]
        refine Finset.sum_congr rfl fun k hk => ?_
        have hk := Finset.mem_range.mp hk
        try simp only
        rw [(valid_unflatC hk).2, (valid_unflatC (by rw [he]; exact hk)).2]
    | F =>
      refine ⟨_, _, fun x => rfl, fun y => rfl, ?_, ?_, ?_, ?_⟩
      · intro x I hI
        try simp only
        rw [(valid_unflatF (by rw [← he]; exact flatF_lt hI)).2, unflatF_flatF hI]
      · intro y J hJ
        try simp only
        rw [(valid_unflatF (by rw [he]; exact flatF_lt hJ)).2, unflatF_flatF hJ]
      · exact ⟨_, bij flatF unflatF (fun _ _ => flatF_lt) (fun _ _ => unflatF_flatF) (fun _ _ => valid_unflatF) he,
          fun x J _ => rfl⟩
      · intro x y
        unfold arrDot
        rw [sumIdx_F, sumIdx_F, he]
        refine Finset.sum_congr rfl fun k hk => ?_
        have hk := Finset.mem_range.mp hk
        try simp only
        rw [(valid_unflatF hk).2, (valid_unflatF (by rw [he]; exact hk)).2]

/-- **C13** (entries) in a 2-D array with `q` columns entry `(i, j)` of the argument ends at position `i·q + j` of
the C-ordered vector, and with `p` rows at position `i + p·j` of the F-ordered one. -/
theorem c13_reshape_entries (p q : ℕ) (x : List ℕ → R) (i j : ℕ) (hi : i < p) (hj : j < q) :
    (∃ T v, arr2vec (R := R) [p, q] = some T ∧ T.times x = some v ∧ v [i * q + j] = x [i, j]) ∧
    (∃ T v, reshape (R := R) [p, q] [p * q] .F = some T ∧ T.times x = some v ∧ v [i + p * j] = x [i, j]) := by
  have hv : ValidIdx [p, q] [i, j] := .cons hi (.cons hj .nil)
  refine ⟨⟨_, _, if_neg (by simp), rfl, ?_⟩, ⟨_, _, if_pos (by simp), rfl, ?_⟩⟩
  · have := unflatC_flatC hv
    simp only [flatC, List.prod_cons, List.prod_nil, Nat.mul_one, Nat.add_zero] at this ⊢
    rw [this]
  · have := unflatF_flatF hv
    simp only [flatF, Nat.mul_zero, Nat.add_zero] at this ⊢
    rw [this]

/-- **C13** `arr2vec(shape)` is the C-order reshape to a vector, for every non-empty shape. -/
theorem c13_arr2vec (shape : List ℕ) (h : shape ≠ []) :
    arr2vec (R := R) shape = reshape shape [shape.prod] .C := by
  rw [arr2vec, if_neg h, reshape, if_pos (by simp)]

example : ((reshape (R := ℤ) [2, 3] [3, 2] .F).bind fun T => T.times fun I => 10 * (I.getD 0 0 : ℤ) + I.getD 1 0).map
    (fun y => (y [0, 0], y [1, 0], y [2, 0], y [0, 1], y [1, 1], y [2, 1])) = some (0, 10, 1, 11, 2, 12) := by decide

example := c13_reshape_entries 2 3 (fun I => 10 * (I.getD 0 0 : ℤ) + I.getD 1 0) 1 2 (by norm_num) (by norm_num)

example := c13_arr2vec (R := ℤ) [2, 3] (by simp)

end Verif.Lop
