import Verif.Lop.StructModel
import Verif.Lop.BasicProps

set_option autoImplicit false
/-!
# Properties of `block_diag`, `windowed_op`, `dwt` and the dot tests (C08, C09, C19, C20)
-/
set_option linter.unusedSectionVars false
namespace Verif.Lop
variable {R : Type*} [CommRing R] [StarRing R]

/-! ## C08 -/

/-- The block structure used in the statement: `xs` is a list of vectors, one of the right length for each
operator. -/
def Fits (size : Op R → ℕ) (ops : List (Op R)) (xs : List (List R)) : Prop :=
  List.Forall₂ (fun op x => x.length = size op) ops xs

theorem blocks_eq (size : Op R → ℕ) (f : Op R → List R → List R) (ops : List (Op R)) (xs : List (List R))
    (h : Fits size ops xs) (pre : List R) (start : ℕ) (hpre : pre.length = start) :
    List.zipWith (fun (op : Op R) (s : ℕ × ℕ) => f op (slice s.1 s.2 (pre ++ xs.flatten))) ops
      (slicesFrom start (ops.map size)) = List.zipWith f ops xs := by
  induction h generalizing pre start with
  | nil => simp
  | @cons op x ops xs hx h ih =>
    simp only [List.map_cons, slicesFrom, List.zipWith_cons_cons, List.flatten_cons]
    have h1 : slice start (start + size op) (pre ++ (x ++ xs.flatten)) = x := by
      rw [slice, ← List.append_assoc, List.take_append_of_le_length (by simp; omega),
        List.take_of_length_le (by simp; omega), List.drop_append_of_le_length (by omega),
        List.drop_of_length_le (by omega), List.nil_append]
    rw [h1]
    congr 1
    have := ih (pre ++ x) (start + size op) (by simp; omega)
    rw [List.append_assoc] at this
    exact this

theorem exists_fits (size : Op R → ℕ) (ops : List (Op R)) (x : List R)
    (hx : x.length = (ops.map size).sum) : ∃ xs, Fits size ops xs ∧ xs.flatten = x := by
  induction ops generalizing x with
  | nil => exact ⟨[], .nil, by simp at hx; simp [hx]⟩
  | cons op ops ih =>
    simp only [List.map_cons, List.sum_cons] at hx
    obtain ⟨xs, h, hf⟩ := ih (x.drop (size op)) (by simp; omega)
    exact ⟨x.take (size op) :: xs, .cons (by simp; omega) h, by simp [hf]⟩

theorem length_flatten_zipWith (size size' : Op R → ℕ) (f : Op R → List R → List R) (ops : List (Op R))
    (xs : List (List R)) (h : Fits size ops xs)
    (hf : ∀ op ∈ ops, ∀ x, x.length = size op → (f op x).length = size' op) :
    ((List.zipWith f ops xs).flatten).length = (ops.map size').sum := by
  induction h with
  | nil => simp
  | @cons op x ops xs hx h ih =>
    simp only [List.zipWith_cons_cons, List.flatten_cons, List.length_append, List.map_cons, List.sum_cons]
    rw [ih (fun op h' => hf op (List.mem_cons_of_mem _ h')), hf op (by simp) x hx]

theorem vdot_blocks (ops : List (Op R)) (hg : ∀ op ∈ ops, AdjointPair op.shape.1 op.shape.2 op.times op.trans)
    (xs ys : List (List R)) (hx : Fits (fun op => op.shape.2) ops xs) (hy : Fits (fun op => op.shape.1) ops ys) :
    vdot (List.zipWith (fun op x => op.times x) ops xs).flatten ys.flatten =
      vdot xs.flatten (List.zipWith (fun op y => op.trans y) ops ys).flatten := by
  induction hx generalizing ys with
  | nil => cases hy; simp
  | @cons op x ops xs hx h ih =>
    cases hy with
    | @cons _ y _ ys hy h' =>
      have hop := hg op (by simp)
      simp only [List.zipWith_cons_cons, List.flatten_cons]
      rw [vdot_append (by rw [hop.times_length x hx, hy]), vdot_append (by rw [hop.trans_length y hy, hx]),
        hop.adjoint x y hx hy, ih (fun op h => hg op (List.mem_cons_of_mem _ h)) ys h']

/-- **C08** `block_diag` rejects fewer than two operators.  Otherwise the sizes add up, `times` maps the
concatenation of `x1, …, xk` to the concatenation of `A1 x1, …, Ak xk`, `trans` does the same with the
adjoints, and the result is adjoint-consistent whenever all the blocks are. -/
theorem c08_block_diag (ops : List (Op R)) :
    (ops.length < 2 → blockDiag ops = none) ∧
    (2 ≤ ops.length → ∃ T, blockDiag ops = some T ∧
      T.shape = ((ops.map fun op => op.shape.1).sum, (ops.map fun op => op.shape.2).sum) ∧
      (∀ xs, Fits (fun op => op.shape.2) ops xs →
        T.times xs.flatten = (List.zipWith (fun op x => op.times x) ops xs).flatten) ∧
      (∀ ys, Fits (fun op => op.shape.1) ops ys →
        T.trans ys.flatten = (List.zipWith (fun op y => op.trans y) ops ys).flatten) ∧
      ((∀ op ∈ ops, AdjointPair op.shape.1 op.shape.2 op.times op.trans) →
        AdjointPair T.shape.1 T.shape.2 T.times T.trans)) := by
  constructor
  · intro h; exact if_neg (by omega)
  · intro h
    have e1 : ∀ xs, Fits (fun op => op.shape.2) ops xs →
        (List.zipWith (fun (op : Op R) (s : ℕ × ℕ) => op.times (slice s.1 s.2 xs.flatten)) ops
          (slicesFrom 0 (ops.map fun op => op.shape.2))).flatten =
        (List.zipWith (fun op x => op.times x) ops xs).flatten := by
      intro xs hx
      have := blocks_eq (fun op => op.shape.2) (fun op x => op.times x) ops xs hx [] 0 rfl
      simp only [List.nil_append] at this
      rw [this]
    have e2 : ∀ ys, Fits (fun op => op.shape.1) ops ys →
        (List.zipWith (fun (op : Op R) (s : ℕ × ℕ) => op.trans (slice s.1 s.2 ys.flatten)) ops
          (slicesFrom 0 (ops.map fun op => op.shape.1))).flatten =
        (List.zipWith (fun op y => op.trans y) ops ys).flatten := by
      intro xs hx
      have := blocks_eq (fun op => op.shape.1) (fun op x => op.trans x) ops xs hx [] 0 rfl
      simp only [List.nil_append] at this
      rw [this]
    refine ⟨_, if_pos h, rfl, e1, e2, fun hg => ⟨?_, ?_, ?_⟩⟩
    · intro x hx
      obtain ⟨xs, hf, rfl⟩ := exists_fits (fun op => op.shape.2) ops x hx
      simp only
      rw [e1 xs hf]
      exact length_flatten_zipWith _ (fun op => op.shape.1) _ ops xs hf fun op ho x hx => (hg op ho).times_length x hx
    · intro y hy
      obtain ⟨ys, hf, rfl⟩ := exists_fits (fun op => op.shape.1) ops y hy
      simp only
      rw [e2 ys hf]
      exact length_flatten_zipWith _ (fun op => op.shape.2) _ ops ys hf fun op ho x hx => (hg op ho).trans_length x hx
    · intro x y hx hy
      obtain ⟨xs, hfx, rfl⟩ := exists_fits (fun op => op.shape.2) ops x hx
      obtain ⟨ys, hfy, rfl⟩ := exists_fits (fun op => op.shape.1) ops y hy
      simp only
      rw [e1 xs hfx, e2 ys hfy]
      exact vdot_blocks ops hg xs ys hfx hfy

example : (blockDiag [sum (R := ℤ) 2, diagonal [2, 3, 4]]).map (fun T => (T.times [1, 10, 5, 6, 7], T.trans [1, 1, 1, 1])) =
    some ([11, 10, 18, 28], [1, 1, 2, 3, 4]) ∧ (blockDiag [sum (R := ℤ) 2]).isNone := by decide

/-! ## C09 -/

@[simp] theorem length_addAt (y : List R) (s : ℕ) (v : List R) : (addAt y s v).length = y.length := by simp [addAt]
@[simp] theorem length_setAt (y : List R) (s : ℕ) (v : List R) : (setAt y s v).length = y.length := by simp [setAt]

theorem length_foldl_addAt (s : ℕ → ℕ) (v : ℕ → List R) (nb : ℕ) (y : List R) :
    ((List.range nb).foldl (fun y i => addAt y (s i) (v i)) y).length = y.length := by
  induction nb with
  | zero => rfl
  | succ nb ih => rw [List.range_succ, List.foldl_append]; simp [ih]

theorem ent_foldl_addAt (s : ℕ → ℕ) (v : ℕ → List R) (nb : ℕ) (y : List R) (t : ℕ) (ht : t < y.length) :
    ent ((List.range nb).foldl (fun y i => addAt y (s i) (v i)) y) t =
      ent y t + ∑ i ∈ Finset.range nb, if s i ≤ t ∧ t < s i + (v i).length then ent (v i) (t - s i) else 0 := by
  induction nb with
  | zero => simp
  | succ nb ih =>
    rw [List.range_succ, List.foldl_append, Finset.sum_range_succ, ← add_assoc, ← ih]
    simp only [List.foldl_cons, List.foldl_nil]
    rw [addAt, ent_tab _ (by rw [length_foldl_addAt]; exact ht)]

theorem length_foldl_setAt (s : ℕ → ℕ) (v : ℕ → List R) (nb : ℕ) (y : List R) :
    ((List.range nb).foldl (fun y i => setAt y (s i) (v i)) y).length = y.length := by
  induction nb with
  | zero => rfl
  | succ nb ih => rw [List.range_succ, List.foldl_append]; simp [ih]

theorem ent_foldl_setAt (tn : ℕ) (v : ℕ → List R) (nb : ℕ) (hv : ∀ i, i < nb → (v i).length = tn) (y : List R)
    (i s : ℕ) (hi : i < nb) (hs : s < tn) (hy : nb * tn ≤ y.length) :
    ent ((List.range nb).foldl (fun y i => setAt y (i * tn) (v i)) y) (i * tn + s) = ent (v i) s := by
  induction nb with
  | zero => omega
  | succ nb ih =>
    have hle : i * tn ≤ nb * tn := Nat.mul_le_mul_right _ (by omega)
    have hnb : (nb + 1) * tn = nb * tn + tn := by ring
    rw [List.range_succ, List.foldl_append]
    simp only [List.foldl_cons, List.foldl_nil]
    rw [setAt, ent_tab _ (by rw [length_foldl_setAt]; omega), hv nb (by omega)]
    by_cases h : i = nb
    · subst h
      rw [if_pos (by omega)]
      congr 1; omega
    · have h1 : (i + 1) * tn ≤ nb * tn := Nat.mul_le_mul_right _ (by omega)
      have h2 : (i + 1) * tn = i * tn + tn := by ring
      rw [if_neg (by omega), ih (fun i hi => hv i (by omega)) (by omega) (by omega)]

theorem le_nBlocks (m w off : ℕ) (h : 0 < off) : m ≤ w + (nBlocks m w off - 1) * off ∧ 1 ≤ nBlocks m w off := by
  have h1 : 1 ≤ nBlocks m w off := by
    unfold nBlocks; omega
  refine ⟨?_, h1⟩
  have hoff : (0 : ℚ) < off := by exact_mod_cast h
  have h2 : ⌈((m : ℚ) - w) / off⌉ ≤ ((nBlocks m w off - 1 : ℕ) : ℤ) := by
    unfold nBlocks; omega
  have h3 : ((m : ℚ) - w) / off ≤ ((nBlocks m w off - 1 : ℕ) : ℚ) := by
    have := Int.ceil_le.mp h2
    exact_mod_cast this
  rw [div_le_iff₀ hoff] at h3
  have h4 : (m : ℚ) ≤ ((w + (nBlocks m w off - 1) * off : ℕ) : ℚ) := by
    push_cast; linarith
  exact_mod_cast h4

/-- The number of windows is the smallest one that covers the `m` samples. -/
theorem nBlocks_minimal (m w off : ℕ) (h : 0 < off) (k : ℕ) (hk : 1 ≤ k) (hc : m ≤ w + (k - 1) * off) :
    nBlocks m w off ≤ k := by
  have hoff : (0 : ℚ) < off := by exact_mod_cast h
  have h3 : ((m : ℚ) - w) / off ≤ ((k - 1 : ℕ) : ℚ) := by
    rw [div_le_iff₀ hoff]
    have h4 : (m : ℚ) ≤ ((w + (k - 1) * off : ℕ) : ℚ) := by exact_mod_cast hc
    push_cast at h4; linarith
  have h2 : ⌈((m : ℚ) - w) / off⌉ ≤ ((k - 1 : ℕ) : ℤ) := Int.ceil_le.mpr (by exact_mod_cast h3)
  unfold nBlocks; omega

theorem sum_window (N a w : ℕ) (F : ℕ → R) (h : a + w ≤ N) :
    ∑ t ∈ Finset.range N, (if a ≤ t ∧ t < a + w then F t else 0) = ∑ s ∈ Finset.range w, F (a + s) := by
  obtain ⟨r, rfl⟩ := Nat.exists_eq_add_of_le h
  rw [Finset.sum_range_add, Finset.sum_range_add]
  rw [Finset.sum_eq_zero (s := Finset.range a), Finset.sum_eq_zero (s := Finset.range r), zero_add, add_zero]
  · refine Finset.sum_congr rfl fun s hs => ?_
    have := Finset.mem_range.mp hs
    rw [if_pos (by omega)]
  · intro s _; rw [if_neg (by omega)]
  · intro t ht
    have := Finset.mem_range.mp ht
    rw [if_neg (by omega)]

theorem sum_range_mul (nb tn : ℕ) (F : ℕ → R) :
    ∑ k ∈ Finset.range (nb * tn), F k = ∑ i ∈ Finset.range nb, ∑ s ∈ Finset.range tn, F (i * tn + s) := by
  induction nb with
  | zero => simp
  | succ nb ih => rw [Finset.sum_range_succ, Nat.succ_mul, Finset.sum_range_add, ih]

/-- **C09** `windowed_op(m, T, overlap)` rejects an overlap that is not smaller than the window.  Otherwise the
number of windows is the smallest that covers `m` samples; `times` is the overlap-add of the block outputs
truncated to `m` samples; block `i` of `trans y` is `T^H` applied to window `i` of the zero-extended `y`; and
the two are adjoint whenever `T` is.  The storage cast is assumed to be the identity, as it is on real numbers; for
complex data the claim is false, see `c09_complex_fails`. -/
theorem c09_windowed_partial (cast : R → R) (hc : ∀ a, cast a = a) (m : ℕ) (T : Op R) (overlap : ℤ)
    (hT : AdjointPair T.shape.1 T.shape.2 T.times T.trans) :
    (T.shape.1 ≤ overlap → windowedOp cast m T overlap = none) ∧
    (overlap < T.shape.1 → ∃ W nb, ∃ off : ℕ, windowedOp cast m T overlap = some W ∧
      (off : ℤ) = T.shape.1 - overlap ∧
      1 ≤ nb ∧ m ≤ T.shape.1 + (nb - 1) * off ∧
      (∀ k, 1 ≤ k → m ≤ T.shape.1 + (k - 1) * off → nb ≤ k) ∧
      W.shape = (m, nb * T.shape.2) ∧
      (∀ x, x.length = nb * T.shape.2 → ∀ t, t < m → ent (W.times x) t =
        ∑ i ∈ Finset.range nb, if i * off ≤ t ∧ t < i * off + T.shape.1 then
          ent (T.times (slice (i * T.shape.2) (i * T.shape.2 + T.shape.2) x)) (t - i * off) else 0) ∧
      (∀ y, y.length = m → ∀ i, i < nb → ∀ s, s < T.shape.2 →
        ent (W.trans y) (i * T.shape.2 + s) =
          ent (T.trans ((List.range T.shape.1).map fun k => ent y (i * off + k))) s) ∧
      AdjointPair m (nb * T.shape.2) W.times W.trans) := by
  obtain rfl : cast = id := funext hc
  have hcast : ∀ y, y.length = T.shape.1 → (T.trans y).map id = T.trans y := fun _ _ => List.map_id _
  set tm := T.shape.1 with htm
  set tn := T.shape.2 with htn
  refine ⟨fun h => if_neg (by omega), fun h => ?_⟩
  obtain ⟨off, hoff⟩ : ∃ off : ℕ, (off : ℤ) = tm - overlap := ⟨(tm - overlap).toNat, by omega⟩
  have hoff' : ((tm : ℤ) - overlap).toNat = off := by omega
  have hpos : 0 < off := by omega
  obtain ⟨hcov, hnb1⟩ := le_nBlocks m tm off hpos
  set nb := nBlocks m tm off with hnb
  have hwin : ∀ i, i < nb → i * off + tm ≤ tm + (nb - 1) * off := by
    intro i hi
    have : i * off ≤ (nb - 1) * off := Nat.mul_le_mul_right _ (by omega)
    omega
  have hblk : ∀ x : List R, x.length = nb * tn → ∀ i, i < nb →
      (slice (i * tn) (i * tn + tn) x).length = tn := by
    intro x hx i hi
    have : (i + 1) * tn ≤ nb * tn := Nat.mul_le_mul_right _ (by omega)
    have h2 : (i + 1) * tn = i * tn + tn := by ring
    rw [length_slice]; omega
  let tms : List R → List R := fun x =>
    ((List.range nb).foldl (fun y i => addAt y (i * off) (T.times (slice (i * tn) (i * tn + tn) x)))
      (List.replicate (tm + (nb - 1) * off) 0)).take m
  let trs : List R → List R := fun x =>
    (List.range nb).foldl
      (fun y i => setAt y (i * tn) ((T.trans (slice (i * off) (i * off + tm)
        (x ++ List.replicate (tm + (tm + (nb - 1) * off) - m) 0))).map id))
      (List.replicate (tn * nb) 0)
  have hW : windowedOp id m T overlap = some { times := tms, trans := trs, shape := (m, nb * tn), real := T.real } := by
    unfold windowedOp
    simp only [← htm, ← htn, hoff', ← hnb, if_pos h, ite_self]
    simp only [tms, trs, List.map_id]
  have ht1 : ∀ x, x.length = nb * tn → ∀ t, t < m → ent (tms x) t =
        ∑ i ∈ Finset.range nb, if i * off ≤ t ∧ t < i * off + tm then
          ent (T.times (slice (i * tn) (i * tn + tn) x)) (t - i * off) else 0 := by
    intro x hx t ht
    simp only [tms]
    rw [ent_take ht, ent_foldl_addAt _ _ _ _ _ (by simp; omega), ent_replicate_zero, zero_add]
    refine Finset.sum_congr rfl fun i hi => ?_
    rw [hT.times_length _ (hblk x hx i (Finset.mem_range.mp hi))]
  have hpad : ∀ y : List R, y.length = m → ∀ i, i < nb →
      slice (i * off) (i * off + tm) (y ++ List.replicate (tm + (tm + (nb - 1) * off) - m) 0) =
        (List.range tm).map fun k => ent y (i * off + k) := by
    intro y hy i hi
    have hw := hwin i hi
    apply ext_getD (n := tm)
    · rw [length_slice]; simp [hy]; omega
    · simp
    · intro k hk
      change ent _ k = ent _ k
      rw [ent_slice (by omega), ent_tab _ hk, ent_append]
      split
      · rfl
      · rw [ent_replicate_zero, ent_eq_zero (by omega)]
  have ht2 : ∀ y, y.length = m → ∀ i, i < nb → ∀ s, s < tn →
        ent (trs y) (i * tn + s) =
          ent (T.trans ((List.range tm).map fun k => ent y (i * off + k))) s := by
    intro y hy i hi s hs
    simp only [trs]
    rw [ent_foldl_setAt tn _ nb ?_ _ i s hi hs (by simp [Nat.mul_comm]), hpad y hy i hi, hcast _ (by simp [htm])]
    intro i hi
    rw [hpad y hy i hi, hcast _ (by simp [htm]), hT.trans_length _ (by simp [htm])]
  refine ⟨_, nb, off, hW, hoff, hnb1, hcov, fun k hk hc => nBlocks_minimal m tm off hpos k hk hc, rfl, ht1, ht2, ?_⟩
  refine AdjointPair.of_sum ?_ ?_ ?_
  · intro x hx
    simp only [tms]
    rw [List.length_take, length_foldl_addAt, List.length_replicate]; omega
  · intro y hy
    simp only [trs]
    rw [length_foldl_setAt]; simp [Nat.mul_comm]
  · intro x y hx hy
    have e1 : ∀ t ∈ Finset.range m, star (ent (tms x) t) * ent y t =
        ∑ i ∈ Finset.range nb, if i * off ≤ t ∧ t < i * off + tm then
          star (ent (T.times (slice (i * tn) (i * tn + tn) x)) (t - i * off)) * ent y t else 0 := by
      intro t ht
      rw [ht1 x hx t (Finset.mem_range.mp ht), star_sum, Finset.sum_mul]
      refine Finset.sum_congr rfl fun i _ => ?_
      split <;> simp
    rw [Finset.sum_congr rfl e1, Finset.sum_comm, sum_range_mul]
    refine Finset.sum_congr rfl fun i hi => ?_
    have hi' := Finset.mem_range.mp hi
    have hw := hwin i hi'
    set xi := slice (i * tn) (i * tn + tn) x with hxi
    have hxil : xi.length = tn := hblk x hx i hi'
    have e2 : ∑ t ∈ Finset.range m, (if i * off ≤ t ∧ t < i * off + tm then
        star (ent (T.times xi) (t - i * off)) * ent y t else 0) =
        ∑ t ∈ Finset.range (tm + (nb - 1) * off), (if i * off ≤ t ∧ t < i * off + tm then
        star (ent (T.times xi) (t - i * off)) * ent y t else 0) := by
      obtain ⟨r, hr⟩ := Nat.exists_eq_add_of_le hcov
      rw [hr, Finset.sum_range_add, left_eq_add]
      refine Finset.sum_eq_zero fun s _ => ?_
      rw [ent_eq_zero (x := y) (by omega)]
      simp
    rw [e2, sum_window _ _ _ _ hw]
    have h3 := hT.adjoint xi ((List.range tm).map fun k => ent y (i * off + k)) hxil (by simp [htm])
    rw [vdot_eq_sum (n := tm) (hT.times_length _ hxil) (by simp),
      vdot_eq_sum (n := tn) hxil (hT.trans_length _ (by simp [htm]))] at h3
    refine Eq.trans (Finset.sum_congr rfl fun s hs => ?_) (h3.trans (Finset.sum_congr rfl fun s hs => ?_))
    · have hs' := Finset.mem_range.mp hs
      rw [Nat.add_sub_cancel_left]
      change _ = star (ent _ s) * ent _ s
      rw [ent_tab _ hs']
    · have hs' := Finset.mem_range.mp hs
      rw [ht2 y hy i hi' s hs']
      change star (ent xi s) * ent _ s = _
      rw [hxi, ent_slice (by omega)]

example : (windowedOp id 5 (diagonal [1, 2, 3] : Op ℤ) 1).map
    (fun W => (W.shape, W.times [1, 1, 1, 10, 10, 10], W.trans [1, 1, 1, 1, 1])) =
    some ((5, 6), [1, 2, 13, 20, 30], [1, 2, 3, 1, 2, 3]) ∧
    (windowedOp id 5 (diagonal [1, 2, 3] : Op ℤ) 3).isNone := by decide +kernel

/-- **C09, refutation for complex operators** the result of `trans` is stored in a real array: for the complex
`1 × 1` matrix `i` the storage cast (real part) makes `trans` zero and the pair is not adjoint. For an operator with the flag
`real`, like the identity, complex input loses its imaginary part in both directions, and the pair is not adjoint either. -/
theorem c09_complex_fails :
    (∃ W, windowedOp (fun z : ℂ => (z.re : ℂ)) 1 (matrix 1 1 (fun _ _ => Complex.I) false) 0 = some W ∧
      ¬ AdjointPair 1 1 W.times W.trans) ∧
    ∃ W, windowedOp (fun z : ℂ => (z.re : ℂ)) 1 (identity 1 1) 0 = some W ∧ ¬ AdjointPair 1 1 W.times W.trans := by
  have h1 : nBlocks 1 1 1 = 1 := by simp [nBlocks]
  constructor
  · rcases hW : windowedOp (fun z : ℂ => (z.re : ℂ)) 1 (matrix 1 1 (fun _ _ => Complex.I) false) 0 with _ | W
    · simp [windowedOp, matrix] at hW
    · refine ⟨W, rfl, fun h => ?_⟩
      have := h.adjoint [1] [1] rfl rfl
      unfold windowedOp at hW
      rw [if_pos (by simp [matrix])] at hW
      cases hW
      simp [matrix, h1, vdot, addAt, setAt, slice, ent, matVec, vecMat, vconj] at this
  · rcases hW : windowedOp (fun z : ℂ => (z.re : ℂ)) 1 (identity 1 1) 0 with _ | W
    · simp [windowedOp, identity] at hW
    · refine ⟨W, rfl, fun h => ?_⟩
      have := h.adjoint [Complex.I] [1] rfl rfl
      unfold windowedOp at hW
      rw [if_pos (by simp [identity])] at hW
      cases hW
      simp [identity, h1, vdot, addAt, setAt, slice, ent] at this

/-! ## C19 -/

/-- **C19** (part) If the dot test succeeds and the two inner products have a non-negative sum (up to `eps`),
their mismatch is less than the tolerance times their mean; an exactly adjoint pair passes whenever that sum is
positive.  Missing: the test is not sound when the sum is negative (`c19_dot_test_fails`). -/
theorem c19_dot_test_partial (A : Op ℝ) (u v : List ℝ) (eps tol : ℝ) (htol : 0 < tol) :
    (0 ≤ vdot (A.times u) v + vdot u (A.trans v) + eps → dotTestReal A u v eps tol →
      |vdot (A.times u) v - vdot u (A.trans v)| <
        tol * ((vdot (A.times u) v + vdot u (A.trans v) + eps) / 2)) ∧
    (vdot (A.times u) v = vdot u (A.trans v) → 2 * vdot (A.times u) v + eps ≠ 0 →
      dotTestReal A u v eps tol) := by
  constructor
  · rintro h0 ⟨hd, ht⟩
    have hpos : 0 < (vdot (A.times u) v + vdot u (A.trans v) + eps) / 2 :=
      lt_of_le_of_ne (by linarith) (Ne.symm hd)
    rwa [div_lt_iff₀ hpos] at ht
  · intro he hne
    refine ⟨?_, ?_⟩
    · rw [← he]; intro h; apply hne; linarith
    · rw [he]; simpa using htol

/-- **C19** (part, complex) the same for real and imaginary parts. -/
theorem c19_dot_test_complex_partial (A : Op ℂ) (u v : List ℂ) (eps tol : ℝ) (htol : 0 < tol) :
    (0 ≤ (vdot (A.times u) v).re + (vdot u (A.trans v)).re + eps →
      0 ≤ (vdot (A.times u) v).im + (vdot u (A.trans v)).im + eps → dotTestComplex A u v eps tol →
      |(vdot (A.times u) v).re - (vdot u (A.trans v)).re| <
        tol * (((vdot (A.times u) v).re + (vdot u (A.trans v)).re + eps) / 2) ∧
      |(vdot (A.times u) v).im - (vdot u (A.trans v)).im| <
        tol * (((vdot (A.times u) v).im + (vdot u (A.trans v)).im + eps) / 2)) ∧
    (vdot (A.times u) v = vdot u (A.trans v) → 2 * (vdot (A.times u) v).re + eps ≠ 0 →
      2 * (vdot (A.times u) v).im + eps ≠ 0 → dotTestComplex A u v eps tol) := by
  constructor
  · rintro h0 h1 ⟨⟨hd, ht⟩, hd', ht'⟩
    have hpos := lt_of_le_of_ne (by linarith) (Ne.symm hd)
    have hpos' := lt_of_le_of_ne (by linarith) (Ne.symm hd')
    exact ⟨by rwa [div_lt_iff₀ hpos] at ht, by rwa [div_lt_iff₀ hpos'] at ht'⟩
  · intro he hne hne'
    refine ⟨⟨?_, ?_⟩, ?_, ?_⟩
    · rw [← he]; intro h; apply hne; linarith
    · rw [he]; simpa using htol
    · rw [← he]; intro h; apply hne'; linarith
    · rw [he]; simpa using htol

/-- **C19, refutation** A pair that is not adjoint at all (`times = 5x`, `trans = x`) passes the dot test for the
test vectors `u = [1]`, `v = [-1]`, because the mean of the two inner products is negative. -/
theorem c19_dot_test_fails (tol : ℝ) (htol : 0 < tol) :
    ∃ A : Op ℝ, A.shape = (1, 1) ∧ vdot (A.times [1]) [-1] = -5 ∧ vdot [1] (A.trans [-1]) = -1 ∧
      dotTestReal A [1] [-1] 1e-15 tol := by
  refine ⟨{ times := smul 5, trans := fun x => x, shape := (1, 1) }, rfl, ?_, ?_, ?_⟩
  · simp [vdot, smul]
  · simp [vdot]
  · have e1 : vdot (smul (5 : ℝ) [1]) [-1] = -5 := by simp [vdot, smul]
    have e2 : vdot ([1] : List ℝ) [-1] = -1 := by simp [vdot]
    unfold dotTestReal
    simp only [e1, e2]
    constructor
    · norm_num
    · have : |(-5 : ℝ) - -1| / ((-5 + -1 + 1e-15) / 2) < 0 := by
        apply div_neg_of_pos_of_neg <;> norm_num
      linarith

/-! ## C20 -/

/-- What is assumed of the external one-level transform pair: on even lengths `2k` it produces two
vectors of length `k`, synthesis inverts analysis, and synthesis is the adjoint of analysis. -/
structure OneLevel (D : List R → List R × List R) (S : List R → List R → List R) : Prop where
  len : ∀ k x, x.length = 2 * k → (D x).1.length = k ∧ (D x).2.length = k
  slen : ∀ k a d, a.length = k → d.length = k → (S a d).length = 2 * k
  inv : ∀ k x, x.length = 2 * k → S (D x).1 (D x).2 = x
  adj : ∀ k x a d, x.length = 2 * k → a.length = k → d.length = k →
    vdot (D x).1 a + vdot (D x).2 d = vdot x (S a d)

/-- Multi-level analysis, recursively. -/
def decR (D : List R → List R × List R) : ℕ → List R → List R
  | 0, x => x
  | L + 1, x => decR D L (D x).1 ++ (D x).2

/-- Multi-level synthesis, recursively (on a vector of length `k·2^L`). -/
def recR (S : List R → List R → List R) : ℕ → List R → List R
  | 0, c => c
  | L + 1, c => S (recR S L (c.take (c.length / 2))) (c.drop (c.length / 2))

theorem wavedec_fold (D : List R → List R × List R) (L : ℕ) (p : List R × List R) :
    let q := (List.range L).foldl (fun (s : List R × List R) _ => let p := D s.1; (p.1, p.2 ++ s.2)) p
    q.1 ++ q.2 = decR D L p.1 ++ p.2 := by
  induction L generalizing p with
  | zero => rfl
  | succ L ih =>
    rw [List.range_succ_eq_map]
    simp only [List.foldl_cons, List.foldl_map]
    have := ih ((D p.1).1, (D p.1).2 ++ p.2)
    simp only at this
    rw [this, decR, List.append_assoc]

theorem wavedec_eq (D : List R → List R × List R) (L : ℕ) (x : List R) :
    wavedec D x (L + 1) = decR D (L + 1) x := by
  have := wavedec_fold D L (D x)
  simp only at this
  rw [wavedec]
  simpa [decR] using this

theorem waverec_fold (S : List R → List R → List R) (c : List R) (k : ℕ) (L : ℕ) (h : k * 2 ^ L ≤ c.length) :
    (List.range L).foldl (fun (s : List R × ℕ × ℕ) _ =>
      let d := slice s.2.1 s.2.2 c
      (S s.1 d, s.2.2, s.2.2 * 2)) (c.take k, k, k * 2) =
      (recR S L (c.take (k * 2 ^ L)), k * 2 ^ L, k * 2 ^ (L + 1)) := by
  induction L with
  | zero => simp [recR]
  | succ L ih =>
    have h2 : k * 2 ^ (L + 1) = 2 * (k * 2 ^ L) := by ring
    rw [List.range_succ, List.foldl_append, ih (by omega)]
    simp only [List.foldl_cons, List.foldl_nil, recR]
    have hl : (c.take (k * 2 ^ (L + 1))).length / 2 = k * 2 ^ L := by
      rw [List.length_take]; omega
    rw [hl, List.take_take, Nat.min_eq_left (by omega), slice]
    ring_nf

theorem waverec_eq (S : List R → List R → List R) (c : List R) (k L : ℕ) (h : c.length = k * 2 ^ L) :
    waverec S c L = recR S L c := by
  rw [waverec]
  have h1 : c.length >>> L = k := by
    rw [Nat.shiftRight_eq_div_pow, h, Nat.mul_div_cancel _ (by positivity)]
  simp only [h1]
  rw [waverec_fold S c k L (by omega), ← h, List.take_length]

theorem length_decR {D : List R → List R × List R} {S : List R → List R → List R} (h : OneLevel D S) (L k : ℕ) (x : List R)
    (hx : x.length = k * 2 ^ L) : (decR D L x).length = k * 2 ^ L := by
  induction L generalizing x with
  | zero => simpa [decR] using hx
  | succ L ih =>
    have h2 : k * 2 ^ (L + 1) = 2 * (k * 2 ^ L) := by ring
    obtain ⟨l1, l2⟩ := h.len (k * 2 ^ L) x (by omega)
    simp only [decR, List.length_append]
    rw [ih _ l1, l2]; omega

theorem length_recR {D : List R → List R × List R} {S : List R → List R → List R} (h : OneLevel D S) (L k : ℕ) (c : List R)
    (hc : c.length = k * 2 ^ L) : (recR S L c).length = k * 2 ^ L := by
  induction L generalizing c with
  | zero => simpa [recR] using hc
  | succ L ih =>
    have h2 : k * 2 ^ (L + 1) = 2 * (k * 2 ^ L) := by ring
    have h3 : c.length / 2 = k * 2 ^ L := by omega
    simp only [recR]
    rw [h.slen (k * 2 ^ L) _ _ (ih _ (by simp; omega)) (by simp; omega)]; omega

theorem rec_dec {D : List R → List R × List R} {S : List R → List R → List R} (h : OneLevel D S) (L k : ℕ) (x : List R)
    (hx : x.length = k * 2 ^ L) : recR S L (decR D L x) = x := by
  induction L generalizing x with
  | zero => rfl
  | succ L ih =>
    have h2 : k * 2 ^ (L + 1) = 2 * (k * 2 ^ L) := by ring
    obtain ⟨l1, l2⟩ := h.len (k * 2 ^ L) x (by omega)
    have l3 := length_decR h L k _ l1
    have hhalf : (decR D L (D x).1 ++ (D x).2).length / 2 = k * 2 ^ L := by
      rw [List.length_append, l2, l3]; omega
    simp only [recR, decR]
    rw [hhalf, List.take_left' l3, List.drop_left' l3, ih _ l1, h.inv (k * 2 ^ L) x (by omega)]

theorem dec_adj {D : List R → List R × List R} {S : List R → List R → List R} (h : OneLevel D S) (L k : ℕ) (x c : List R)
    (hx : x.length = k * 2 ^ L) (hc : c.length = k * 2 ^ L) :
    vdot (decR D L x) c = vdot x (recR S L c) := by
  induction L generalizing x c with
  | zero => rfl
  | succ L ih =>
    have h2 : k * 2 ^ (L + 1) = 2 * (k * 2 ^ L) := by ring
    obtain ⟨l1, l2⟩ := h.len (k * 2 ^ L) x (by omega)
    have h3 : c.length / 2 = k * 2 ^ L := by omega
    have l4 : (c.take (k * 2 ^ L)).length = k * 2 ^ L := by simp; omega
    have l5 : (c.drop (k * 2 ^ L)).length = k * 2 ^ L := by simp; omega
    simp only [recR, decR, h3]
    rw [← h.adj (k * 2 ^ L) x _ _ (by omega) (length_recR h L k _ l4) l5, ← ih _ _ l1 l4,
      ← vdot_append (by rw [length_decR h L k _ l1, l4]), List.take_append_drop]

theorem le_nextPow2 (n : ℕ) : n ≤ nextPow2 n := Nat.le_pow_clog (by norm_num) n

theorem take_pad {n k : ℕ} {x : List R} (hx : x.length = n) : (pad 0 k x).take n = x := by
  simp [pad, ← hx]

/-- **C20** Given a one-level perfect-reconstruction pair, `dwt(n, level)` for `level ≥ 1` (not more than the
maximal level, whose power of two divides the padded length) maps `n` samples to `nextPow2 n` coefficients,
`trans` inverts `times`, the pair is adjoint, and `times` preserves inner products.  A level above the maximum
is rejected. -/
theorem c20_dwt (D : List R → List R × List R) (S : List R → List R → List R) (h : OneLevel D S)
    (max_level n level : ℕ) (hlev : 1 ≤ level) (hdiv : 2 ^ level ∣ nextPow2 n) :
    (max_level < level → dwt D S max_level n level = none) ∧
    (level ≤ max_level → ∃ T, dwt D S max_level n level = some T ∧
      T.shape = (nextPow2 n, n) ∧
      (∀ x, x.length = n → T.trans (T.times x) = x) ∧
      AdjointPair (nextPow2 n) n T.times T.trans ∧
      (∀ x y, x.length = n → y.length = n → vdot (T.times x) (T.times y) = vdot x y)) := by
  refine ⟨fun hl => if_neg (by omega), fun hl => ?_⟩
  obtain ⟨L, rfl⟩ : ∃ L, level = L + 1 := ⟨level - 1, by omega⟩
  obtain ⟨k, hk⟩ := hdiv
  have hm : nextPow2 n = k * 2 ^ (L + 1) := by rw [hk, Nat.mul_comm]
  have hle := le_nextPow2 n
  have hpad : ∀ x : List R, x.length = n → (pad 0 (nextPow2 n - n) x).length = k * 2 ^ (L + 1) := by
    intro x hx; simp [hx]; omega
  have hinv : ∀ x : List R, x.length = n →
      (waverec S (wavedec D (pad 0 (nextPow2 n - n) x) (L + 1)) (L + 1)).take n = x := by
    intro x hx
    rw [wavedec_eq, waverec_eq S _ k _ (length_decR h _ _ _ (hpad x hx)), rec_dec h _ k _ (hpad x hx), take_pad hx]
  have hadj : AdjointPair (nextPow2 n) n (fun x => wavedec D (pad 0 (nextPow2 n - n) x) (L + 1))
      (fun c => (waverec S c (L + 1)).take n) := by
    refine ⟨?_, ?_, ?_⟩
    · intro x hx
      rw [wavedec_eq, length_decR h _ k _ (hpad x hx), hm]
    · intro c hc
      rw [waverec_eq S _ k _ (by omega), List.length_take, length_recR h _ k _ (by omega)]; omega
    · intro x c hx hc
      rw [wavedec_eq, waverec_eq S _ k _ (by omega), dec_adj h _ k _ _ (hpad x hx) (by omega)]
      have l := length_recR h (L + 1) k c (by omega)
      rw [show pad 0 (nextPow2 n - n) x = x ++ List.replicate (nextPow2 n - n) 0 from by simp [pad]]
      conv_lhs => rw [← List.take_append_drop n (recR S (L + 1) c)]
      rw [vdot_append (by simp; omega), vdot_replicate_zero_left, add_zero]
  refine ⟨_, if_pos hl, rfl, hinv, hadj, ?_⟩
  intro x y hx hy
  rw [hadj.adjoint x _ hx (hadj.times_length y hy)]
  congr 1
  exact hinv y hy

/-- A concrete one-level pair: even/odd samples mixed by a rotation with real `c² + s² = 1` (`c = s = 1/√2` is the
Haar wavelet with periodization). -/
def rotD (c s : R) : List R → List R × List R
  | a :: b :: x => ((c * a + s * b) :: (rotD c s x).1, (s * a - c * b) :: (rotD c s x).2)
  | _ => ([], [])

def rotS (c s : R) : List R → List R → List R
  | p :: a, q :: d => (c * p + s * q) :: (s * p - c * q) :: rotS c s a d
  | _, _ => []

theorem rot_oneLevel (c s : R) (hc : star c = c) (hs : star s = s) (h : c * c + s * s = 1) :
    OneLevel (rotD c s) (rotS c s) := by
  have split2 : ∀ (k : ℕ) (x : List R), x.length = 2 * (k + 1) → ∃ a b y, x = a :: b :: y ∧ y.length = 2 * k := by
    intro k x hx
    match x, hx with
    | [], hx => simp at hx
    | [a], hx => simp at hx; omega
    | a :: b :: y, hx => exact ⟨a, b, y, rfl, by simp at hx; omega⟩
  refine ⟨?_, ?_, ?_, ?_⟩
  · intro k
    induction k with
    | zero => intro x hx; simp at hx; subst hx; simp [rotD]
    | succ k ih =>
      intro x hx
      obtain ⟨a, b, y, rfl, hy⟩ := split2 k x hx
      simp [rotD, ih y hy]
  · intro k
    induction k with
    | zero => intro a d ha hd; simp at ha hd; subst ha hd; simp [rotS]
    | succ k ih =>
      intro a d ha hd
      match a, d, ha, hd with
      | p :: a, q :: d, ha, hd =>
        simp only [rotS, List.length_cons]
        rw [ih a d (by simpa using ha) (by simpa using hd)]; ring
  · intro k
    induction k with
    | zero => intro x hx; simp at hx; subst hx; simp [rotD, rotS]
    | succ k ih =>
      intro x hx
      obtain ⟨a, b, y, rfl, hy⟩ := split2 k x hx
      simp only [rotD, rotS, ih y hy]
      congr 1
      · linear_combination a * h
      · congr 1
        linear_combination b * h
  · intro k
    induction k with
    | zero =>
      intro x a d hx ha hd; simp at hx ha hd; subst hx ha hd; simp [rotD, rotS]
    | succ k ih =>
      intro x a d hx ha hd
      obtain ⟨u, v, y, rfl, hy⟩ := split2 k x hx
      match a, d, ha, hd with
      | p :: a, q :: d, ha, hd =>
        simp only [rotS, rotD, vdot_cons, star_add, star_sub, star_mul', hc, hs]
        rw [← ih y a d hy (by simpa using ha) (by simpa using hd)]
        ring

example : (dwt (rotD (3 / 5 : ℚ) (4 / 5)) (rotS (3 / 5) (4 / 5)) 2 3 2).map
    (fun T => (T.times [5, 10, 15], T.trans (T.times [5, 10, 15]))) =
    some ([69 / 5, 17 / 5, -2, 12], [5, 10, 15]) := by
  decide +kernel

/-- **C20, limit of the claim** `level = 0` is accepted, but then `times` still performs one level while `trans`
does nothing: the round trip is lost. -/
theorem c20_level_zero_fails : ∃ T, dwt (rotD (3 / 5 : ℚ) (4 / 5)) (rotS (3 / 5) (4 / 5)) 1 2 0 = some T ∧
    T.trans (T.times [5, 10]) ≠ [5, 10] := by
  refine ⟨_, if_pos (by norm_num), ?_⟩
  decide +kernel

example (A : Op ℝ) := c19_dot_test_partial A [1, 2] [3] 1e-15 1e-3 (by norm_num)

example (A : Op ℂ) := c19_dot_test_complex_partial A [1, 2] [3] 1e-15 1e-3 (by norm_num)

example := c19_dot_test_fails 1e-3 (by norm_num)

example := c20_dwt _ _ (rot_oneLevel (3 / 5 : ℚ) (4 / 5) rfl rfl (by norm_num)) 2 3 2 (by norm_num) (by decide)

end Verif.Lop
