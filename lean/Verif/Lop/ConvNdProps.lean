import Verif.Lop.ConvNdModel
import Mathlib.Analysis.Complex.Basic
import Mathlib.Algebra.Star.BigOperators
import Mathlib.Order.Fin.Basic
import Mathlib.Tactic.Ring
import Mathlib.Tactic.LinearCombination
import Mathlib.Tactic.FinCases

set_option autoImplicit false

/-!
# Properties of the N-dimensional convolution operator (C100)
-/
namespace Verif.Lop
variable {R : Type*} [CommRing R] {d f : ℕ}

/-! ## Specification -/

/-- The weight of the input entry `p` in the output entry `k` of the convolution along `axes` with a filter whose origin is `offset`: the
filter entry `k + offset - p`, when that lies in the filter and `p` and `k` agree on the axes that are not filtered. -/
def convWeight (h : NdArr f R) (offset : Fin f → ℕ) (axes : Fin f → Fin d) (k p : Fin d → ℕ) : R :=
  if (∀ a, (∀ i, axes i ≠ a) → k a = p a) ∧
      ∀ i, p (axes i) ≤ k (axes i) + offset i ∧ k (axes i) + offset i - p (axes i) < h.shape i then
    h.get fun i => k (axes i) + offset i - p (axes i)
  else 0

/-- Inner product of two arrays of shape `s`. -/
def ndInner [StarRing R] (s : Fin d → ℕ) (x y : (Fin d → ℕ) → R) : R := ∑ k ∈ idxBox s, star (x k) * y k

/-! ## Helpers -/

theorem mem_idxBox (s k : Fin d → ℕ) : k ∈ idxBox s ↔ ∀ a, k a < s a := by
  simp [idxBox]

private theorem foldl_update_of_notMem {α : Type*} (axes : Fin f → Fin d) (w : Fin f → α) (a : Fin d) :
    ∀ (l : List (Fin f)) (v : Fin d → α), (∀ i ∈ l, axes i ≠ a) →
      l.foldl (fun v i => Function.update v (axes i) (w i)) v a = v a
  | [], _, _ => rfl
  | i :: l, v, h => by
    rw [List.foldl_cons, foldl_update_of_notMem axes w a l _ fun j hj => h j (List.mem_cons_of_mem _ hj),
      Function.update_of_ne (h i (List.mem_cons_self ..)).symm]

private theorem foldl_update_of_mem {α : Type*} (axes : Fin f → Fin d) (hinj : Function.Injective axes) (w : Fin f → α) (i : Fin f) :
    ∀ (l : List (Fin f)) (v : Fin d → α), i ∈ l → l.foldl (fun v i => Function.update v (axes i) (w i)) v (axes i) = w i
  | [], _, h => by simp at h
  | j :: l, v, h => by
    rw [List.foldl_cons]
    by_cases hi : i ∈ l
    · exact foldl_update_of_mem axes hinj w i l _ hi
    · rw [foldl_update_of_notMem]
      · have : i = j := by simpa [hi] using h
        subst this
        simp
      · intro k hk he
        exact hi (hinj he ▸ hk)

theorem setAxes_of_forall_ne {α : Type*} (axes : Fin f → Fin d) (w : Fin f → α) (v : Fin d → α) (a : Fin d) (h : ∀ i, axes i ≠ a) :
    setAxes axes w v a = v a := foldl_update_of_notMem axes w a _ v fun i _ => h i

theorem setAxes_axes {α : Type*} (axes : Fin f → Fin d) (hinj : Function.Injective axes) (w : Fin f → α) (v : Fin d → α) (i : Fin f) :
    setAxes axes w v (axes i) = w i := foldl_update_of_mem axes hinj w i _ v (List.mem_finRange i)

theorem ravelC_setAxes (axes : Fin f → Fin d) (hmono : StrictMono axes) (s : Fin f → ℕ) (j : Fin d → ℕ)
    (hj : ∀ a, (∀ i, axes i ≠ a) → j a = 0) :
    ravelC (setAxes axes s fun _ => 1) j = ravelC s fun i => j (axes i) := by
  have hinj := hmono.injective
  unfold ravelC
  have h1 : ∀ a, ∏ b ∈ Finset.univ.filter (a < ·), setAxes axes s (fun _ => 1) b =
      ∏ i ∈ Finset.univ.filter (fun i => a < axes i), s i := by
    intro a
    symm
    apply Finset.prod_of_injOn axes hinj.injOn
    · intro i hi
      simpa using hi
    · intro b _ hb2
      rename_i hb1
      apply setAxes_of_forall_ne
      intro i hi
      apply hb2
      subst hi
      refine ⟨i, ?_, rfl⟩
      simpa using hb1
    · intro i _
      rw [setAxes_axes axes hinj]
  simp only [h1]
  symm
  apply Finset.sum_of_injOn axes hinj.injOn
  · intro i _; simp
  · intro a _ ha
    rw [hj a, zero_mul]
    intro i hi
    apply ha
    exact ⟨i, by simp, hi⟩
  · intro i _
    simp only [hmono.lt_iff_lt]

/-- The filter extended to the data dimensions. -/
private def extFilter (h : NdArr f R) (axes : Fin f → Fin d) : NdArr d R :=
  { shape := setAxes axes h.shape fun _ => 1, data := h.data }

private theorem ext_eq (h : NdArr f R) (axes : Fin f → Fin d) (hmono : StrictMono axes) :
    (if e : d = f then { shape := fun a => h.shape (a.cast e), data := h.data }
      else { shape := setAxes axes h.shape fun _ => 1, data := h.data } : NdArr d R) = extFilter h axes := by
  split
  · rename_i e
    subst e
    have : axes = id := by
      apply (hmono.range_inj strictMono_id).1
      rw [Set.range_id, Set.range_eq_univ]
      exact Finite.injective_iff_surjective.mp hmono.injective
    subst this
    unfold extFilter
    congr 1
    funext a
    exact (setAxes_axes id hmono.injective _ _ a).symm
  · rfl

private theorem ndZext_nat (s : Fin d → ℕ) (x : (Fin d → ℕ) → R) (k : Fin d → ℕ) (hk : k ∈ idxBox s) (q : Fin d → ℤ)
    (hq : ∀ a, q a = k a) : ndZext s x q = x k := by
  have hk := (mem_idxBox s k).1 hk
  unfold ndZext
  rw [if_pos]
  · congr 1; funext a; simp [hq]
  · intro a; rw [hq]; exact ⟨by positivity, by exact_mod_cast hk a⟩

/-- Correlation as a sum over the entries of the array. -/
private theorem corr_eq (sh s : Fin d → ℕ) (x g : (Fin d → ℕ) → R) (c : Fin d → ℤ) :
    ∑ j ∈ idxBox s, ndZext sh x (fun a => c a + j a) * g j = ∑ p ∈ idxBox sh, ndZext s g (fun a => p a - c a) * x p := by
  have e1 : ∑ j ∈ idxBox s, ndZext sh x (fun a => c a + j a) * g j =
      ∑ j ∈ (idxBox s).filter (fun j => ∀ a, 0 ≤ c a + j a ∧ c a + j a < sh a), x (fun a => (c a + j a).toNat) * g j := by
    rw [Finset.sum_filter]
    apply Finset.sum_congr rfl
    intro j _
    unfold ndZext
    split <;> simp
  have e2 : ∑ p ∈ idxBox sh, ndZext s g (fun a => p a - c a) * x p =
      ∑ p ∈ (idxBox sh).filter (fun p => ∀ a, 0 ≤ (p a : ℤ) - c a ∧ (p a : ℤ) - c a < s a), x p * g (fun a => (p a - c a).toNat) := by
    rw [Finset.sum_filter]
    apply Finset.sum_congr rfl
    intro j _
    unfold ndZext
    split <;> simp [mul_comm]
  rw [e1, e2]
  apply Finset.sum_nbij' (fun j a => (c a + j a).toNat) (fun p a => (p a - c a).toNat)
  · intro j hj
    simp only [Finset.mem_filter, mem_idxBox] at hj ⊢
    refine ⟨fun a => ?_, fun a => ?_⟩
    · have := hj.2 a; omega
    · have := hj.2 a; have := hj.1 a; omega
  · intro p hp
    simp only [Finset.mem_filter, mem_idxBox] at hp ⊢
    refine ⟨fun a => ?_, fun a => ?_⟩
    · have := hp.2 a; omega
    · have := hp.2 a; have := hp.1 a; omega
  · intro j hj
    simp only [Finset.mem_filter, mem_idxBox] at hj
    funext a
    have := hj.2 a; have := hj.1 a
    simp only []
    omega
  · intro p hp
    simp only [Finset.mem_filter, mem_idxBox] at hp
    funext a
    have := hp.2 a; have := hp.1 a
    simp only []
    omega
  · intro j hj
    simp only [Finset.mem_filter, mem_idxBox] at hj
    have e : j = fun a => (((fun a => (c a + j a).toNat) a : ℕ) - c a : ℤ).toNat := by
      funext a
      have := hj.2 a; have := hj.1 a
      simp only []
      omega
    rw [← e]

private theorem ndZext_rev (s : Fin d → ℕ) (g : (Fin d → ℕ) → R) (q : Fin d → ℤ) :
    ndZext s (fun j => g fun a => s a - 1 - j a) q = ndZext s g fun a => (s a : ℤ) - 1 - q a := by
  unfold ndZext
  by_cases h : ∀ a, 0 ≤ q a ∧ q a < s a
  · rw [if_pos h, if_pos]
    · show g _ = g _
      congr 1; funext a; have := h a; simp only []; omega
    · intro a; have := h a; simp only []; constructor <;> omega
  · rw [if_neg h, if_neg]
    intro h2
    apply h
    intro a; have := h2 a; simp only [] at this; constructor <;> omega

/-- The extended filter at `k + off - p` is the weight. -/
private theorem weight_eq (h : NdArr f R) (offset : Fin f → ℕ) (axes : Fin f → Fin d) (hmono : StrictMono axes) (k p : Fin d → ℕ) :
    ndZext (extFilter h axes).shape (extFilter h axes).get (fun a => (k a : ℤ) + (setAxes axes offset (fun _ => 0) a : ℕ) - p a) =
      convWeight h offset axes k p := by
  have hinj := hmono.injective
  have hiff : (∀ a, 0 ≤ (k a : ℤ) + (setAxes axes offset (fun _ => 0) a : ℕ) - p a ∧
      (k a : ℤ) + (setAxes axes offset (fun _ => 0) a : ℕ) - p a < (extFilter h axes).shape a) ↔
      ((∀ a, (∀ i, axes i ≠ a) → k a = p a) ∧
      ∀ i, p (axes i) ≤ k (axes i) + offset i ∧ k (axes i) + offset i - p (axes i) < h.shape i) := by
    constructor
    · intro H
      refine ⟨fun a ha => ?_, fun i => ?_⟩
      · have := H a
        simp only [extFilter, setAxes_of_forall_ne axes _ _ a ha] at this
        omega
      · have := H (axes i)
        simp only [extFilter, setAxes_axes axes hinj] at this
        omega
    · rintro ⟨H1, H2⟩ a
      by_cases ha : ∀ i, axes i ≠ a
      · simp only [extFilter, setAxes_of_forall_ne axes _ _ a ha]
        have := H1 a ha
        omega
      · push Not at ha
        obtain ⟨i, rfl⟩ := ha
        simp only [extFilter, setAxes_axes axes hinj]
        have := H2 i
        omega
  unfold ndZext convWeight
  by_cases hc : ((∀ a, (∀ i, axes i ≠ a) → k a = p a) ∧
      ∀ i, p (axes i) ≤ k (axes i) + offset i ∧ k (axes i) + offset i - p (axes i) < h.shape i)
  · rw [if_pos hc, if_pos (hiff.2 hc)]
    unfold NdArr.get
    show h.data (ravelC (setAxes axes h.shape fun _ => 1) _) = _
    rw [ravelC_setAxes axes hmono]
    · congr 2
      funext i
      simp only [setAxes_axes axes hinj]
      have := hc.2 i
      omega
    · intro a ha
      simp only [setAxes_of_forall_ne axes _ _ a ha]
      have := hc.1 a ha
      omega
  · rw [if_neg hc, if_neg (fun H => hc (hiff.1 H))]

private theorem times_eq (shape : Fin d → ℕ) (h : NdArr f R) (offset : Fin f → ℕ) (axes : Fin f → Fin d) (hmono : StrictMono axes)
    (x : (Fin d → ℕ) → R) (k : Fin d → ℕ) :
    (convolveND shape h offset axes).times x k = ∑ p ∈ idxBox shape, convWeight h offset axes k p * x p := by
  simp only [convolveND, ext_eq h axes hmono, convDilated]
  have := corr_eq shape (extFilter h axes).shape x (fun j => (extFilter h axes).get fun a => (extFilter h axes).shape a - 1 - j a)
    (fun a => ((k a + setAxes axes offset (fun _ => 0) a : ℕ) : ℤ) - ((extFilter h axes).shape a - 1))
  have e : ∀ j : Fin d → ℕ, (fun a => ((k a + setAxes axes offset (fun _ => 0) a : ℕ) : ℤ) + j a - ((extFilter h axes).shape a - 1)) =
      fun a => ((k a + setAxes axes offset (fun _ => 0) a : ℕ) : ℤ) - ((extFilter h axes).shape a - 1) + j a := by
    intro j; funext a; ring
  simp only [e]
  rw [this]
  apply Finset.sum_congr rfl
  intro p _
  rw [ndZext_rev, ← weight_eq h offset axes hmono k p]
  congr 2
  funext a
  push_cast
  ring

private theorem trans_eq (shape : Fin d → ℕ) (h : NdArr f R) (offset : Fin f → ℕ) (axes : Fin f → Fin d) (hmono : StrictMono axes)
    (hoff : ∀ i, offset i < h.shape i) (x : (Fin d → ℕ) → R) (k : Fin d → ℕ) :
    (convolveND shape h offset axes).trans x k = ∑ p ∈ idxBox shape, convWeight h offset axes p k * x p := by
  have hinj := hmono.injective
  simp only [convolveND, ext_eq h axes hmono, convDilated]
  have := corr_eq shape (extFilter h axes).shape x (extFilter h axes).get
    (fun a => (k a : ℤ) - (setAxes axes offset (fun _ => 0) a : ℕ))
  have e : ∀ j : Fin d → ℕ, (fun a => ((k a + setAxes axes (fun i => h.shape i - 1 - offset i) (fun _ => 0) a : ℕ) : ℤ) + j a -
      ((extFilter h axes).shape a - 1)) =
      fun a => (k a : ℤ) - (setAxes axes offset (fun _ => 0) a : ℕ) + j a := by
    intro j; funext a
    by_cases ha : ∀ i, axes i ≠ a
    · simp only [extFilter, setAxes_of_forall_ne axes _ _ a ha]
      push_cast; ring
    · push Not at ha
      obtain ⟨i, rfl⟩ := ha
      simp only [extFilter, setAxes_axes axes hinj]
      have := hoff i
      omega
  simp only [e]
  rw [this]
  apply Finset.sum_congr rfl
  intro p _
  rw [← weight_eq h offset axes hmono p k]
  congr 2
  funext a
  ring

/-! ## The property -/

/-- **C100 (part).** For a filter along increasing axes with its origin inside the filter, in any number of dimensions, both directions
return arrays of the declared shape, the forward direction is the convolution, and for a filter with real entries the backward direction
is the adjoint. Missing, because the code does not provide it: filters with complex entries, axes in another order, and origins outside
the filter. -/
theorem c100_convolveND_partial [StarRing R] (shape : Fin d → ℕ) (h : NdArr f R) (offset : Fin f → ℕ) (axes : Fin f → Fin d)
    (hmono : StrictMono axes) (hoff : ∀ i, offset i < h.shape i) :
    (convolveND shape h offset axes).shape = shape ∧ (convolveND shape h offset axes).timesShape = shape ∧ (convolveND shape h offset axes).transShape = shape ∧
    (∀ x k, (convolveND shape h offset axes).times x k = ∑ p ∈ idxBox shape, convWeight h offset axes k p * x p) ∧
    ((∀ i ∈ idxBox h.shape, star (h.get i) = h.get i) → ∀ x y,
      ndInner shape ((convolveND shape h offset axes).times x) y = ndInner shape x ((convolveND shape h offset axes).trans y)) := by
  have hinj := hmono.injective
  refine ⟨rfl, ?_, ?_, times_eq shape h offset axes hmono, ?_⟩
  · funext a
    simp only [convolveND, ext_eq h axes hmono, sliceLen]
    by_cases ha : ∀ i, axes i ≠ a
    · simp only [extFilter, setAxes_of_forall_ne axes _ _ a ha]
      omega
    · push Not at ha
      obtain ⟨i, rfl⟩ := ha
      simp only [extFilter, setAxes_axes axes hinj]
      have := hoff i
      omega
  · funext a
    simp only [convolveND, ext_eq h axes hmono, sliceLen]
    by_cases ha : ∀ i, axes i ≠ a
    · simp only [extFilter, setAxes_of_forall_ne axes _ _ a ha]
      omega
    · push Not at ha
      obtain ⟨i, rfl⟩ := ha
      simp only [extFilter, setAxes_axes axes hinj]
      have := hoff i
      omega
  · intro hreal x y
    have hw : ∀ k p, star (convWeight h offset axes k p) = convWeight h offset axes k p := by
      intro k p
      unfold convWeight
      split
      · rename_i hc
        exact hreal _ ((mem_idxBox _ _).2 fun i => (hc.2 i).2)
      · simp
    unfold ndInner
    simp only [times_eq shape h offset axes hmono, trans_eq shape h offset axes hmono hoff, star_sum, star_mul', hw, Finset.sum_mul,
      Finset.mul_sum]
    rw [Finset.sum_comm]
    apply Finset.sum_congr rfl; intro p _
    apply Finset.sum_congr rfl; intro k _
    ring

/-- A `2 × 3` filter along the first and the last axis of a three-dimensional array meets the hypotheses. -/
example : StrictMono (![0, 2] : Fin 2 → Fin 3) ∧
    ∀ i, (![1, 1] : Fin 2 → ℕ) i < ({ shape := ![2, 3], data := fun n => (n : ℤ) } : NdArr 2 ℤ).shape i := by
  constructor
  · intro a b; fin_cases a <;> fin_cases b <;> simp
  · intro i; fin_cases i <;> simp

/-- **C100, two dimensions.** `convolve2D` accepts exactly the filters with two dimensions and is then the same operator. -/
theorem c100_convolve2D (shape : Fin d → ℕ) (h : NdArr f R) (offset : Fin f → ℕ) (axes : Fin f → Fin d) (T : NdOp d R) :
    convolve2D shape h offset axes = some T ↔ f = 2 ∧ T = convolveND shape h offset axes := by
  unfold convolve2D
  split <;> simp_all [eq_comm]

/-- **C100 fails for complex filters**: with the one-entry filter `[i]` on arrays of length one, the backward direction is not the
adjoint. -/
theorem c100_complex_fails :
    ∃ (h : NdArr 1 ℂ) (x y : (Fin 1 → ℕ) → ℂ), h.shape = (fun _ => 1) ∧
      ndInner (fun _ => 1) ((convolveND (fun _ => 1) h (fun _ => 0) id).times x) y ≠
      ndInner (fun _ => 1) x ((convolveND (fun _ => 1) h (fun _ => 0) id).trans y) := by
  refine ⟨⟨fun _ => 1, fun _ => Complex.I⟩, fun _ => 1, fun _ => 1, rfl, ?_⟩
  have hb : idxBox (fun _ : Fin 1 => 1) = {fun _ => 0} := by
    ext k
    rw [mem_idxBox, Finset.mem_singleton]
    constructor
    · intro hk; funext a; have := hk a; omega
    · rintro rfl a; simp
  have ht := trans_eq (fun _ : Fin 1 => 1) (⟨fun _ => 1, fun _ => Complex.I⟩ : NdArr 1 ℂ) (fun _ => 0) id strictMono_id
    (fun _ => Nat.one_pos)
  unfold ndInner
  simp only [times_eq _ _ _ id strictMono_id, ht, hb, Finset.sum_singleton,
    convWeight, NdArr.get]
  simp
  intro hI
  have := congrArg Complex.im hI
  simp at this
  norm_num at this

/-- **C100 fails for an origin outside the filter**: the result is shorter than the declared shape. -/
theorem c100_offset_fails (n m : ℕ) (hn : 0 < n) (h : NdArr 1 ℤ) (hm : h.shape = fun _ => m) (hpos : 0 < m) (off : ℕ) (hoff : m ≤ off) :
    (convolveND (fun _ => n) h (fun _ => off) id).timesShape 0 < n := by
  have h0 := setAxes_axes (α := ℕ) (id : Fin 1 → Fin 1) Function.injective_id
  simp only [convolveND, sliceLen]
  have e1 := h0 (fun _ => off) (fun _ => 0) 0
  have e2 := h0 (fun i => off + (fun _ => n) (id i)) (fun _ => n) 0
  simp only [id] at e1 e2 ⊢
  rw [e1, e2]
  simp only [dif_pos, hm]
  omega

example : 2 ≤ 2 ∧ ({ shape := fun _ => 2, data := fun _ => 1 } : NdArr 1 ℤ).shape = fun _ => 2 := ⟨le_rfl, rfl⟩

/-- **C100 fails for axes out of order**: with a `1 × 2` filter along the axes `(1, 0)` of a `3 × 3` array, the backward direction returns
an array with two rows. -/
theorem c100_axes_fails (data : ℕ → ℤ) :
    (convolveND (fun _ : Fin 2 => 3) { shape := ![1, 2], data := data } (fun _ => 0) ![1, 0]).transShape 0 = 2 := by
  simp only [convolveND, sliceLen]
  rfl

/-- A filter of shape `(2, 3)` on the first and the last axis of a three-dimensional array. -/
example := c100_convolveND_partial ![4, 5, 6] ({ shape := ![2, 3], data := fun n => (n : ℤ) } : NdArr 2 ℤ) ![1, 1] ![0, 2]
  (by intro a b; fin_cases a <;> fin_cases b <;> simp) (by intro i; fin_cases i <;> simp)

example := c100_offset_fails 5 2 (by norm_num) ({ shape := fun _ => 2, data := fun _ => 1 } : NdArr 1 ℤ) rfl (by norm_num) 2 le_rfl

end Verif.Lop
