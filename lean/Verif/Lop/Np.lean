import Verif.Lop.AlgebraLemmas

set_option autoImplicit false

/-!
# The `jax.numpy` array functions used by the operators, on lists

Each is the obvious list function; `getD` lemmas give the entries.
-/
set_option linter.unusedSectionVars false
namespace Verif.Lop
variable {R : Type*} [CommRing R] [StarRing R]

/-- Entry `i` of an array (only used for indices in range). -/
def ent (x : List R) (i : ℕ) : R := x.getD i 0

/-- `jnp.cumsum` with a running accumulator. -/
def cumsumFrom (acc : R) : List R → List R
  | [] => []
  | a :: x => (acc + a) :: cumsumFrom (acc + a) x

/-- `jnp.cumsum(x)`. -/
def cumsum (x : List R) : List R := cumsumFrom 0 x

/-- `jnp.diff(x)`: `x[1:] - x[:-1]`. -/
def ndiff (x : List R) : List R := vsub x.tail x.dropLast

/-- `x * y`, entry by entry. -/
def vmul (x y : List R) : List R := List.zipWith (· * ·) x y

/-- `jnp.pad(x, (before, after))`. -/
def pad (before after : ℕ) (x : List R) : List R :=
  List.replicate before 0 ++ x ++ List.replicate after 0

/-- `x[a:b]`. -/
def slice (a b : ℕ) (x : List R) : List R := (x.take b).drop a

/-- `x[I]` for a list of (in-range, non-negative) indices. -/
def gather (x : List R) (I : List ℕ) : List R := I.map (ent x)

/-- `z.at[I].set(v)`: the updates are performed from left to right, so the last one wins
(XLA leaves the order unspecified for repeated indices; on CPU it is left to right). -/
def scatterSet (z : List R) (I : List ℕ) (v : List R) : List R :=
  (I.zip v).foldl (fun acc p => acc.set p.1 p.2) z

/-! ## Entries -/

theorem ent_eq_zero {x : List R} {i : ℕ} (h : x.length ≤ i) : ent x i = 0 := by
  simp [ent, List.getD, List.getElem?_eq_none h]

theorem ent_tab {n i : ℕ} (f : ℕ → R) (hi : i < n) : ent ((List.range n).map f) i = f i := by
  simp [ent, List.getD, hi]

theorem ent_append {x y : List R} {i : ℕ} :
    ent (x ++ y) i = if i < x.length then ent x i else ent y (i - x.length) := by
  unfold ent List.getD
  split
  · rename_i h; rw [List.getElem?_append_left h]
  · rename_i h; rw [List.getElem?_append_right (by omega)]

theorem ent_replicate_zero (n i : ℕ) : ent (List.replicate n (0 : R)) i = 0 := by
  by_cases h : i < n <;> simp [ent, List.getD, h]

theorem ent_take {x : List R} {n i : ℕ} (h : i < n) : ent (x.take n) i = ent x i := by
  unfold ent List.getD; simp only [List.getElem?_take, h, if_true]

theorem ent_drop {x : List R} {n i : ℕ} : ent (x.drop n) i = ent x (n + i) := by
  unfold ent List.getD; simp only [List.getElem?_drop]

theorem ent_tail {x : List R} {i : ℕ} : ent x.tail i = ent x (i + 1) := by
  rw [← List.drop_one, ent_drop, Nat.add_comm]

theorem ent_dropLast {x : List R} {i : ℕ} (h : i + 1 < x.length) : ent x.dropLast i = ent x i := by
  rw [List.dropLast_eq_take, ent_take (by omega)]

theorem ent_reverse {x : List R} {i : ℕ} (h : i < x.length) :
    ent x.reverse i = ent x (x.length - 1 - i) := by
  unfold ent List.getD; rw [List.getElem?_reverse h]

theorem ent_cons_zero (a : R) (x : List R) : ent (a :: x) 0 = a := by simp [ent]
theorem ent_cons_succ (a : R) (x : List R) (i : ℕ) : ent (a :: x) (i + 1) = ent x i := by simp [ent]

theorem ent_vmul {x y : List R} {i : ℕ} : ent (vmul x y) i = ent x i * ent y i := by
  unfold ent vmul List.getD
  rw [List.getElem?_zipWith]
  cases x[i]? <;> cases y[i]? <;> simp

theorem ent_vneg {x : List R} {i : ℕ} : ent (vneg x) i = - ent x i := getD_vneg x i
theorem ent_smul {a : R} {x : List R} {i : ℕ} : ent (smul a x) i = a * ent x i := getD_smul a x i
theorem ent_vconj {x : List R} {i : ℕ} : ent (vconj x) i = star (ent x i) := getD_vconj x i
theorem ent_vadd {x y : List R} {i : ℕ} (h : x.length = y.length) :
    ent (vadd x y) i = ent x i + ent y i := getD_vadd (n := y.length) h rfl
theorem ent_vsub {x y : List R} {i : ℕ} (h : x.length = y.length) :
    ent (vsub x y) i = ent x i - ent y i := getD_vsub (n := y.length) h rfl

@[simp] theorem length_vmul (x y : List R) : (vmul x y).length = min x.length y.length := by
  simp [vmul]
@[simp] theorem length_cumsumFrom (a : R) (x : List R) : (cumsumFrom a x).length = x.length := by
  induction x generalizing a with
  | nil => rfl
  | cons b x ih => simp [cumsumFrom, ih]
@[simp] theorem length_cumsum (x : List R) : (cumsum x).length = x.length := by simp [cumsum]
@[simp] theorem length_ndiff (x : List R) : (ndiff x).length = x.length - 1 := by simp [ndiff]
@[simp] theorem length_pad (b a : ℕ) (x : List R) : (pad b a x).length = b + x.length + a := by
  simp [pad]; omega
@[simp] theorem length_slice (a b : ℕ) (x : List R) :
    (slice a b x).length = min b x.length - a := by simp [slice]
@[simp] theorem length_gather (x : List R) (I : List ℕ) : (gather x I).length = I.length := by
  simp [gather]

theorem length_foldl_set (l : List (ℕ × R)) (z : List R) :
    (l.foldl (fun acc p => acc.set p.1 p.2) z).length = z.length := by
  induction l generalizing z with
  | nil => rfl
  | cons p l ih => simp [ih]

@[simp] theorem length_scatterSet (z : List R) (I : List ℕ) (v : List R) :
    (scatterSet z I v).length = z.length := length_foldl_set _ _

theorem ent_cumsumFrom (a : R) (x : List R) (i : ℕ) (h : i < x.length) :
    ent (cumsumFrom a x) i = a + ∑ k ∈ Finset.range (i + 1), ent x k := by
  induction x generalizing a i with
  | nil => simp at h
  | cons b x ih =>
    cases i with
    | zero => simp [cumsumFrom, ent]
    | succ i =>
      rw [cumsumFrom, ent_cons_succ, ih _ _ (by simpa using h), Finset.sum_range_succ' _ (i + 1)]
      simp only [ent_cons_succ, ent_cons_zero]
      ring

theorem ent_cumsum {x : List R} {i : ℕ} (h : i < x.length) :
    ent (cumsum x) i = ∑ k ∈ Finset.range (i + 1), ent x k := by
  rw [cumsum, ent_cumsumFrom _ _ _ h, zero_add]

theorem ent_ndiff {x : List R} {i : ℕ} (h : i + 1 < x.length) :
    ent (ndiff x) i = ent x (i + 1) - ent x i := by
  rw [ndiff, ent_vsub (by simp), ent_tail, ent_dropLast h]

theorem ent_pad {b a : ℕ} {x : List R} {i : ℕ} :
    ent (pad b a x) i = if b ≤ i ∧ i < b + x.length then ent x (i - b) else 0 := by
  unfold pad
  rw [ent_append, ent_append]
  simp only [List.length_append, List.length_replicate, ent_replicate_zero]
  by_cases h1 : i < b
  · simp [h1, h1.not_ge, Nat.lt_add_right]
  · by_cases h2 : i < b + x.length
    · simp [h1, h2, not_lt.mp h1]
    · simp [h2]

theorem ent_slice {a b : ℕ} {x : List R} {i : ℕ} (h : a + i < b) :
    ent (slice a b x) i = ent x (a + i) := by
  rw [slice, ent_drop, ent_take h]

theorem ent_gather {x : List R} {I : List ℕ} {i : ℕ} (h : i < I.length) :
    ent (gather x I) i = ent x (I.getD i 0) := by
  simp [gather, ent, List.getD, h]

theorem ent_set {z : List R} {k i : ℕ} {v : R} :
    ent (z.set k v) i = if k = i ∧ i < z.length then v else ent z i := by
  unfold ent List.getD
  rw [List.getElem?_set]
  by_cases h : k = i
  · subst h
    by_cases h2 : k < z.length <;> simp [h2]
  · simp [h]

/-- Scatter followed by an indexed sum, for distinct in-range indices. -/
theorem scatter_sum {n : ℕ} (I : List ℕ) (v : List R) (hl : I.length = v.length)
    (hnd : I.Nodup) (hI : ∀ i ∈ I, i < n) (z : List R) (hz : z.length = n) (w : ℕ → R)
    (hz0 : ∀ i ∈ I, ent z i = 0) :
    ∑ i ∈ Finset.range n, w i * ent (scatterSet z I v) i =
      ∑ i ∈ Finset.range n, w i * ent z i + ∑ k ∈ Finset.range I.length, w (I.getD k 0) * ent v k := by
  induction I generalizing v z with
  | nil => simp [scatterSet]
  | cons a I ih =>
    match v, hl with
    | b :: v, hl =>
      have e : scatterSet z (a :: I) (b :: v) = scatterSet (z.set a b) I v := rfl
      have hnd' := List.nodup_cons.mp hnd
      rw [e, ih v (by simpa using hl) hnd'.2 (fun i hi => hI i (by simp [hi])) _ (by simpa using hz)]
      · rw [List.length_cons, Finset.sum_range_succ']
        have ha : a < n := hI a (by simp)
        have : ∑ i ∈ Finset.range n, w i * ent (z.set a b) i =
            ∑ i ∈ Finset.range n, w i * ent z i + w a * b := by
          have h1 : ∀ i ∈ Finset.range n, w i * ent (z.set a b) i =
              w i * ent z i + if i = a then w a * b else 0 := by
            intro i hi
            rw [ent_set]
            have hi' := Finset.mem_range.mp hi
            by_cases h : a = i
            · subst h
              simp [hz, hi', hz0 a (by simp)]
            · simp [h, Ne.symm h]
          rw [Finset.sum_congr rfl h1, Finset.sum_add_distrib, Finset.sum_ite_eq' , if_pos (by simpa using ha)]
        rw [this]
        simp [ent]
        ring
      · intro i hi
        rw [ent_set, if_neg, hz0 i (by simp [hi])]
        rintro ⟨h, _⟩
        exact hnd'.1 (h ▸ hi)

/-- Entry of a scatter at a non-updated position. -/
theorem ent_scatterSet_of_notMem {I : List ℕ} {v z : List R} {i : ℕ} (h : i ∉ I) :
    ent (scatterSet z I v) i = ent z i := by
  unfold scatterSet
  induction I generalizing v z with
  | nil => simp
  | cons a I ih =>
    cases v with
    | nil => simp
    | cons b v =>
      simp only [List.zip_cons_cons, List.foldl_cons]
      rw [ih (fun hi => h (by simp [hi])), ent_set, if_neg]
      rintro ⟨rfl, _⟩
      exact h (by simp)

/-- Entry of a scatter at the k-th updated position (distinct indices). -/
theorem ent_scatterSet_of_nodup {I : List ℕ} {v z : List R} {k : ℕ} (hnd : I.Nodup)
    (hl : I.length = v.length) (hk : k < I.length) (hI : I.getD k 0 < z.length) :
    ent (scatterSet z I v) (I.getD k 0) = ent v k := by
  induction I generalizing v z k with
  | nil => simp at hk
  | cons a I ih =>
    match v, hl with
    | b :: v, hl =>
      have hnd' := List.nodup_cons.mp hnd
      have e : scatterSet z (a :: I) (b :: v) = scatterSet (z.set a b) I v := rfl
      rw [e]
      cases k with
      | zero =>
        simp only [List.getD_cons_zero] at hI ⊢
        rw [ent_scatterSet_of_notMem hnd'.1, ent_set, if_pos ⟨rfl, hI⟩]
        simp [ent]
      | succ k =>
        simp only [List.getD_cons_succ] at hI ⊢
        rw [ih hnd'.2 (by simpa using hl) (by simpa using hk) (by simpa using hI), ent_cons_succ]

/-- Adjointness from indexed sums. -/
theorem AdjointPair.of_sum {m n : ℕ} {f g : List R → List R}
    (hf : ∀ x, x.length = n → (f x).length = m) (hg : ∀ y, y.length = m → (g y).length = n)
    (h : ∀ x y, x.length = n → y.length = m →
      ∑ i ∈ Finset.range m, star (ent (f x) i) * ent y i =
      ∑ j ∈ Finset.range n, star (ent x j) * ent (g y) j) : AdjointPair m n f g :=
  ⟨hf, hg, fun x y hx hy => by
    rw [vdot_eq_sum (hf x hx) hy, vdot_eq_sum hx (hg y hy)]; exact h x y hx hy⟩

end Verif.Lop
