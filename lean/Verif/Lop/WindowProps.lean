import Verif.Lop.StructProps
import Verif.Lop.CosineProps

set_option autoImplicit false

/-!
# C09: the windowed operator of an orthonormal basis is a frame
-/
namespace Verif.Lop
variable {R : Type*} [CommRing R] [StarRing R]

/-- The number of windows of length `w`, `off` apart, among the first `nb`, which contain position `t`. -/
def windowsAt (nb off w t : ℕ) : ℕ := ((Finset.range nb).filter fun i => i * off ≤ t ∧ t < i * off + w).card

/-- **C09** When `T T^H = I` on windows (a unitary `T`, e.g. a basis), `W W^H` of the windowed operator `W` multiplies each
sample by the number of windows which contain it. -/
theorem c09_windowed_frame (cast : R → R) (hc : ∀ a, cast a = a) (m : ℕ) (T : Op R) (overlap : ℤ)
    (hT : AdjointPair T.shape.1 T.shape.2 T.times T.trans)
    (hTT : ∀ y, y.length = T.shape.1 → T.times (T.trans y) = y)
    (W : Op R) (hW : windowedOp cast m T overlap = some W) :
    ∃ nb off : ℕ, (off : ℤ) = T.shape.1 - overlap ∧ W.shape = (m, nb * T.shape.2) ∧
      m ≤ T.shape.1 + (nb - 1) * off ∧ 1 ≤ nb ∧
      ∀ y, y.length = m → W.times (W.trans y) = (List.range m).map fun t => (windowsAt nb off T.shape.1 t : R) * ent y t := by
  obtain ⟨h1, h2⟩ := c09_windowed_partial cast hc m T overlap hT
  have hov : overlap < T.shape.1 := by
    by_contra hc
    rw [h1 (by omega)] at hW
    cases hW
  obtain ⟨W', nb, off, e, hoff, hnb, hm, -, hs, ht, htr, hadj⟩ := h2 hov
  obtain rfl : W' = W := Option.some_inj.1 (e.symm.trans hW)
  refine ⟨nb, off, hoff, hs, hm, hnb, fun y hy => ?_⟩
  have hl : (W'.trans y).length = nb * T.shape.2 := hadj.trans_length y hy
  apply ext_getD (n := m) (hadj.times_length _ hl) (by simp)
  intro t ht'
  change ent _ t = ent _ t
  rw [ht _ hl t ht', ent_tab _ ht']
  have hb : ∀ i ∈ Finset.range nb, slice (i * T.shape.2) (i * T.shape.2 + T.shape.2) (W'.trans y) =
      T.trans ((List.range T.shape.1).map fun k => ent y (i * off + k)) := by
    intro i hi
    have hi := Finset.mem_range.mp hi
    have h3 : (i + 1) * T.shape.2 ≤ nb * T.shape.2 := Nat.mul_le_mul_right _ (by omega)
    have h4 : (i + 1) * T.shape.2 = i * T.shape.2 + T.shape.2 := by ring
    apply ext_getD (n := T.shape.2)
    · rw [length_slice, hl]; omega
    · exact hT.trans_length _ (by simp)
    · intro s hs
      change ent _ s = ent _ s
      rw [ent_slice (by omega), htr y hy i hi s hs]
  have e2 : ∀ i ∈ Finset.range nb, (if i * off ≤ t ∧ t < i * off + T.shape.1 then
          ent (T.times (slice (i * T.shape.2) (i * T.shape.2 + T.shape.2) (W'.trans y))) (t - i * off) else 0) =
      if i * off ≤ t ∧ t < i * off + T.shape.1 then ent y t else 0 := by
    intro i hi
    split
    · rename_i hc
      rw [hb i hi, hTT _ (by simp), ent_tab _ (by omega)]
      congr 1; omega
    · rfl
  rw [Finset.sum_congr rfl e2, ← Finset.sum_filter, Finset.sum_const, nsmul_eq_mul]
  rfl

/-- Every position of the signal is in some window when the overlap is not negative. -/
theorem windowsAt_pos {nb off w m t : ℕ} (hw : 0 < w) (ho : off ≤ w) (hnb : 1 ≤ nb) (hm : m ≤ w + (nb - 1) * off) (ht : t < m) :
    1 ≤ windowsAt nb off w t := by
  rw [windowsAt, Nat.one_le_iff_ne_zero, Finset.card_ne_zero]
  rcases Nat.eq_zero_or_pos off with rfl | hop
  · refine ⟨0, Finset.mem_filter.2 ⟨Finset.mem_range.2 (by omega), by omega, ?_⟩⟩
    rw [Nat.mul_zero] at hm
    omega
  by_cases h : t / off < nb
  · refine ⟨t / off, Finset.mem_filter.2 ⟨Finset.mem_range.2 h, Nat.div_mul_le_self _ _, ?_⟩⟩
    have := Nat.lt_div_mul_add hop (a := t)
    omega
  · refine ⟨nb - 1, Finset.mem_filter.2 ⟨Finset.mem_range.2 (by omega), ?_, by omega⟩⟩
    exact (Nat.mul_le_mul_right off (by omega)).trans (Nat.div_mul_le_self t off)

/-- **C09** With an overlap of half the window every sample is in one or two windows. -/
theorem c09_half_overlap {nb h t : ℕ} (hh : 0 < h) : windowsAt nb h (2 * h) t ≤ 2 := by
  have : ((Finset.range nb).filter fun i => i * h ≤ t ∧ t < i * h + 2 * h) ⊆ {t / h, t / h - 1} := by
    intro i
    simp only [Finset.mem_filter, Finset.mem_range, Finset.mem_insert, Finset.mem_singleton]
    rintro ⟨-, h1, h2⟩
    have a1 : i ≤ t / h := (Nat.le_div_iff_mul_le hh).2 h1
    have a2 : t / h < i + 2 := (Nat.div_lt_iff_lt_mul hh).2 (by rw [add_mul]; exact h2)
    omega
  exact (Finset.card_le_card this).trans (Finset.card_le_two)

/-- Three windows of length two with the identity. -/
example (W : Op ℤ) (hW : windowedOp id 4 (identity 2 2 : Op ℤ) 1 = some W) := c09_windowed_frame id (fun _ => rfl) 4 (identity 2 2 : Op ℤ) 1
  (c02_elementary_adjoint _ (.identity 2 2)) (fun y hy => by
    match y, hy with
    | [a, b], _ => simp [identity]) W hW

example : (windowedOp id 4 (identity 2 2 : Op ℤ) 1).isSome := by decide +kernel

example := c09_half_overlap (nb := 3) (h := 2) (t := 3) (by norm_num)

end Verif.Lop
