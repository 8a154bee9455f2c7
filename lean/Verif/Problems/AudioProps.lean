import Verif.Problems.AudioModel
import Verif.Lop.TwoDProps
import Verif.Lop.WindowProps

set_option autoImplicit false

/-! # C122: the source separation problem -/
namespace Verif.Problems
open Verif.Lop

variable {R : Type*} [CommRing R] [StarRing R]

/-! ## Specification -/

/-- Entry `(t, j)` of a 2-D array. -/
def at2 (X : Arr2 R) (t j : ℕ) : R := ent (X.rows.getD t []) j

/-- The inner product of two `n × c` arrays. -/
def frob (n c : ℕ) (X Y : Arr2 R) : R := ∑ t ∈ Finset.range n, ∑ j ∈ Finset.range c, star (at2 X t j) * at2 Y t j

/-! ## Lemmas -/

theorem filterMap_getElem? {α β : Type*} (f : α → Option β) (l : List α) (h : ∀ a ∈ l, (f a).isSome) (i : ℕ) :
    (l.filterMap f)[i]? = l[i]?.bind f := by
  induction l generalizing i with
  | nil => simp
  | cons a l ih =>
    obtain ⟨b, hb⟩ := Option.isSome_iff_exists.1 (h a (by simp))
    rw [List.filterMap_cons_some hb]
    cases i with
    | zero => simp [hb]
    | succ i => simpa using ih (fun a ha => h a (by simp [ha])) i

theorem everyNth_spec {α : Type*} (k : ℕ) (hk : 0 < k) (l : List α) :
    (everyNth k l).length = (l.length + k - 1) / k ∧ ∀ i, (everyNth k l)[i]? = l[i * k]? := by
  have hs : ∀ a ∈ List.range ((l.length + k - 1) / k), (l[a * k]?).isSome := by
    intro a ha
    have ha := List.mem_range.1 ha
    have h1 : (a + 1) * k ≤ l.length + k - 1 := (Nat.le_div_iff_mul_le hk).1 ha
    rw [add_mul, one_mul] at h1
    rw [List.getElem?_eq_getElem (by omega)]
    rfl
  have key : ∀ i, (everyNth k l)[i]? = l[i * k]? := by
    intro i
    unfold everyNth
    rw [filterMap_getElem? _ _ hs]
    by_cases hi : i < (l.length + k - 1) / k
    · rw [List.getElem?_range hi]; rfl
    · rw [List.getElem?_eq_none (by simpa using hi), List.getElem?_eq_none]
      · rfl
      · rw [not_lt, Nat.div_le_iff_le_mul_add_pred hk] at hi
        have : k * i = i * k := mul_comm _ _
        omega
  refine ⟨?_, key⟩
  unfold everyNth
  rw [List.length_filterMap_eq_countP, List.countP_eq_length.2, List.length_range]
  exact hs

theorem at2_col {n : ℕ} {X : Arr2 R} (h : IsArr n X) (t j : ℕ) : at2 X t j = ent (X.col j) t := col_getD h t j

theorem arr_ext {n : ℕ} {X Y : Arr2 R} (hX : IsArr n X) (hY : IsArr n Y) (hc : X.cols = Y.cols)
    (h : ∀ t < n, ∀ j < X.cols, at2 X t j = at2 Y t j) : X = Y := by
  obtain ⟨c, r⟩ := X
  obtain ⟨c', r'⟩ := Y
  obtain rfl : c = c' := hc
  congr 1
  refine List.ext_getElem (hX.rows_len.trans hY.rows_len.symm) fun t h1 h2 => ?_
  have ht : t < n := by have := hX.rows_len; simp only at this; omega
  have l1 := hX.row_len r[t] (List.getElem_mem h1)
  have l2 := hY.row_len r'[t] (List.getElem_mem h2)
  refine ext_getD (n := c) l1 l2 fun j hj => ?_
  have := h t ht j hj
  unfold at2 ent at this
  simp only at this
  rwa [List.getD_eq_getElem _ _ h1, List.getD_eq_getElem _ _ h2] at this

theorem mulTranspose_arr {m n k : ℕ} (hm : 0 < m) (a : ℕ → ℕ → R) {X : Arr2 R} (hX : IsArr k X) :
    IsArr k (mulTranspose m n a X) ∧ (mulTranspose m n a X).cols = m ∧
    ∀ t < k, ∀ i < m, at2 (mulTranspose m n a X) t i = ∑ l ∈ Finset.range n, a i l * at2 X t l := by
  refine ⟨⟨hm, by simp [mulTranspose, hX.rows_len], fun r hr => ?_⟩, rfl, fun t ht i hi => ?_⟩
  · simp only [mulTranspose, List.mem_map] at hr ⊢
    obtain ⟨_, -, rfl⟩ := hr
    simp
  · have h1 : t < X.rows.length := by rw [hX.rows_len]; exact ht
    unfold at2
    rw [List.getD_eq_getElem _ _ (by simpa [mulTranspose] using h1), List.getD_eq_getElem _ _ h1]
    simp only [mulTranspose, List.getElem_map]
    rw [ent_tab _ hi]
    exact Finset.sum_congr rfl fun _ _ => mul_comm _ _

theorem mulConj_arr {m n k : ℕ} (hn : 0 < n) (a : ℕ → ℕ → R) {X : Arr2 R} (hX : IsArr k X) :
    IsArr k (mulConj m n a X) ∧ (mulConj m n a X).cols = n ∧
    ∀ t < k, ∀ j < n, at2 (mulConj m n a X) t j = ∑ i ∈ Finset.range m, star (a i j) * at2 X t i := by
  refine ⟨⟨hn, by simp [mulConj, hX.rows_len], fun r hr => ?_⟩, rfl, fun t ht i hi => ?_⟩
  · simp only [mulConj, List.mem_map] at hr ⊢
    obtain ⟨_, -, rfl⟩ := hr
    simp
  · have h1 : t < X.rows.length := by rw [hX.rows_len]; exact ht
    unfold at2
    rw [List.getD_eq_getElem _ _ (by simpa [mulConj] using h1), List.getD_eq_getElem _ _ h1]
    simp only [mulConj, List.getElem_map]
    rw [ent_tab _ hi]
    exact Finset.sum_congr rfl fun _ _ => mul_comm _ _

/-- **C02, C22** `matrix(A, axis=1)` multiplies the rows of a 2-D array with `A`, and its two directions are adjoint. -/
theorem c122_matrix_axis1 (m n k : ℕ) (hm : 0 < m) (hn : 0 < n) (a : ℕ → ℕ → R) (isReal : Bool) (X Y : Arr2 R) (hX : IsArr k X)
    (hY : IsArr k Y) :
    (∀ t < k, ∀ i < m, at2 ((matrixAxis1 m n a isReal).times2 X) t i = ∑ l ∈ Finset.range n, a i l * at2 X t l) ∧
    frob k m ((matrixAxis1 m n a isReal).times2 X) Y = frob k n X ((matrixAxis1 m n a isReal).trans2 Y) := by
  obtain ⟨-, -, h1⟩ := mulTranspose_arr (n := n) hm a hX
  obtain ⟨-, -, h2⟩ := mulConj_arr (m := m) hn a hY
  refine ⟨h1, Finset.sum_congr rfl fun t ht => ?_⟩
  have ht := Finset.mem_range.1 ht
  have e1 : ∀ i ∈ Finset.range m, star (at2 ((matrixAxis1 m n a isReal).times2 X) t i) * at2 Y t i =
      ∑ l ∈ Finset.range n, star (a i l) * star (at2 X t l) * at2 Y t i := by
    intro i hi
    rw [show at2 ((matrixAxis1 m n a isReal).times2 X) t i = _ from h1 t ht i (Finset.mem_range.1 hi), star_sum, Finset.sum_mul]
    exact Finset.sum_congr rfl fun l _ => by rw [star_mul']
  have e2 : ∀ l ∈ Finset.range n, star (at2 X t l) * at2 ((matrixAxis1 m n a isReal).trans2 Y) t l =
      ∑ i ∈ Finset.range m, star (a i l) * star (at2 X t l) * at2 Y t i := by
    intro l hl
    rw [show at2 ((matrixAxis1 m n a isReal).trans2 Y) t l = _ from h2 t ht l (Finset.mem_range.1 hl), Finset.mul_sum]
    exact Finset.sum_congr rfl fun i _ => by ring
  rw [Finset.sum_congr rfl e1, Finset.sum_congr rfl e2, Finset.sum_comm]

/-- A 3 × 2 array, with rows multiplied by a 2 × 2 matrix. -/
example : IsArr 3 ({ cols := 2, rows := [[1, 2], [3, 4], [5, 6]] } : Arr2 ℤ) ∧
    at2 ((matrixAxis1 2 2 (fun i j => 10 * (i : ℤ) + j) true).times2 ({ cols := 2, rows := [[1, 2], [3, 4], [5, 6]] } : Arr2 ℤ)) 1 1 = 74 :=
  ⟨⟨by norm_num, rfl, by simp⟩, by decide⟩

/-- The parts of the problem. -/
theorem audioProblem_parts {guitar : List ℝ} {piano : List (List ℝ)} {p : ℕ} {mixing : ℕ → ℕ → ℝ} {P : Problem2 ℝ}
    (hP : audioProblem guitar piano p mixing = some P) : ∃ signal W, audioSignal guitar piano = some signal ∧
      windowedOp id (everyNth 6 guitar).length (cosineBasis 512) 256 = some W ∧
      P.y = signal ∧ P.b = mulTranspose p 2 mixing signal ∧ P.reconstruct = (alongAxis W).times2 ∧
      P.Phi.times2 = mulTranspose p 2 mixing ∧ P.Phi.trans2 = mulConj p 2 mixing ∧
      P.Psi.times2 = (alongAxis W).times2 ∧ P.Psi.trans2 = (alongAxis W).trans2 ∧
      (∀ X, P.A.times2 X = mulTranspose p 2 mixing ((alongAxis W).times2 X)) ∧
      (∀ Y, P.A.trans2 Y = (alongAxis W).trans2 (mulConj p 2 mixing Y)) ∧ P.A.shape = (p, W.shape.2) ∧ P.Psi.shape = W.shape := by
  unfold audioProblem at hP
  obtain ⟨signal, hs, hP⟩ := Option.bind_eq_some_iff.1 hP
  obtain ⟨W, hW, hP⟩ := Option.bind_eq_some_iff.1 hP
  obtain ⟨P1, h1, hP⟩ := Option.bind_eq_some_iff.1 hP
  obtain ⟨P2, h2, hP⟩ := Option.bind_eq_some_iff.1 hP
  obtain ⟨P3, h3, rfl⟩ := Option.map_eq_some_iff.1 hP
  unfold jit2 at h1 h2 h3
  split_ifs at h1 h2 h3
  cases h1; cases h2; cases h3
  exact ⟨signal, W, hs, hW, rfl, rfl, rfl, rfl, rfl, rfl, rfl, fun _ => rfl, fun _ => rfl, rfl, rfl⟩

theorem audioSignal_spec {guitar : List ℝ} {piano : List (List ℝ)} {s : Arr2 ℝ} (h : audioSignal guitar piano = some s) :
    IsArr ((guitar.length + 5) / 6) s ∧ s.cols = 2 ∧ (everyNth 6 guitar).length = (guitar.length + 5) / 6 ∧
    ∀ t < (guitar.length + 5) / 6, guitar[6 * t]? = some (at2 s t 0) ∧
      (everyNth 5 piano).flatten[5000 + t]? = some (at2 s t 1) := by
  unfold audioSignal at h
  simp only at h
  split_ifs at h with hl
  cases h
  obtain ⟨e1, e2⟩ := everyNth_spec 6 (by norm_num) guitar
  have e1' : (everyNth 6 guitar).length = (guitar.length + 5) / 6 := e1
  refine ⟨⟨by norm_num, by simp only [List.length_zipWith]; omega, fun r hr => ?_⟩, rfl, e1', fun t ht => ?_⟩
  · obtain ⟨i, hi, rfl⟩ := List.mem_iff_getElem.1 hr
    simp
  · have t1 : t < (everyNth 6 guitar).length := by omega
    have t2 : t < (slice 5000 (5000 + (everyNth 6 guitar).length) (everyNth 5 piano).flatten).length := by omega
    unfold at2
    rw [List.getD_eq_getElem _ _ (by simp only [List.length_zipWith]; omega), List.getElem_zipWith]
    constructor
    · rw [mul_comm, ← e2, List.getElem?_eq_getElem t1]; rfl
    · have : (slice 5000 (5000 + (everyNth 6 guitar).length) (everyNth 5 piano).flatten)[t]? =
          (everyNth 5 piano).flatten[5000 + t]? := by
        unfold slice
        rw [List.getElem?_drop, List.getElem?_take, if_pos (by omega)]
      rw [← this, List.getElem?_eq_getElem t2]; rfl

/-- **C122** The sources are every sixth sample of the guitar file, and as many samples of every fifth row of the piano
file, from sample 5000 on. Each channel of the data `b` is the mixture of the two sources, which is what `Phi` does;
`A` is `Phi` after `reconstruct`, so coefficients which reconstruct the sources satisfy `A x = b`. -/
theorem c122_problem (guitar : List ℝ) (piano : List (List ℝ)) (p : ℕ) (hp : 0 < p) (mixing : ℕ → ℕ → ℝ) (P : Problem2 ℝ)
    (hP : audioProblem guitar piano p mixing = some P) :
    let m := (guitar.length + 5) / 6
    IsArr m P.y ∧ P.y.cols = 2 ∧
    (∀ t < m, guitar[6 * t]? = some (at2 P.y t 0) ∧ (everyNth 5 piano).flatten[5000 + t]? = some (at2 P.y t 1)) ∧
    IsArr m P.b ∧ P.b.cols = p ∧
    (∀ t < m, ∀ i < p, at2 P.b t i = mixing i 0 * at2 P.y t 0 + mixing i 1 * at2 P.y t 1) ∧
    P.Phi.times2 P.y = P.b ∧ (∀ X, P.Psi.times2 X = P.reconstruct X) ∧ (∀ X, P.A.times2 X = P.Phi.times2 (P.reconstruct X)) ∧
    ∀ X, P.reconstruct X = P.y → P.A.times2 X = P.b := by
  obtain ⟨s, W, hs, hW, a1, a2, a3, a4, a5, a6, a7, a8, a9, a10, -⟩ := audioProblem_parts hP
  obtain ⟨s1, s2, s3, s4⟩ := audioSignal_spec hs
  obtain ⟨b1, b2, b3⟩ := mulTranspose_arr (n := 2) hp mixing s1
  refine ⟨a1 ▸ s1, a1 ▸ s2, a1 ▸ s4, a2 ▸ b1, a2 ▸ b2, fun t ht i hi => ?_, ?_, fun X => by rw [a6, a3], fun X => ?_, fun X hX => ?_⟩
  · rw [a2, a1, b3 t ht i hi, Finset.sum_range_succ, Finset.sum_range_one]
  · rw [a4, a1, a2]
  · rw [a8, a4, a3]
  · rw [a8, ← a3, hX, a1, a2]

/-- The windowed cosine basis of the problem, on arrays. -/
theorem audio_window {m : ℕ} {W : Op ℝ} (hW : windowedOp id m (cosineBasis 512) 256 = some W) :
    ∃ nb, W.shape = (m, nb * 512) ∧ AdjointPair m (nb * 512) W.times W.trans ∧
      (∀ y, y.length = m → W.times (W.trans y) = (List.range m).map fun t => (windowsAt nb 256 512 t : ℝ) * ent y t) ∧
      ∀ t < m, 1 ≤ windowsAt nb 256 512 t := by
  obtain ⟨-, c2, -, c4, -⟩ := c17_cosine_orthonormal 512 (by norm_num)
  obtain ⟨nb, off, hoff, hsh, hm, hnb, hfr⟩ := c09_windowed_frame id (fun _ => rfl) m (cosineBasis 512) 256 c2 c4 W hW
  have hoff' : off = 256 := by
    have : ((cosineBasis 512).shape.1 : ℤ) = 512 := rfl
    rw [this] at hoff; omega
  subst hoff'
  obtain ⟨W', nb', off', e, -, -, -, -, hs', -, -, hadj⟩ :=
    (c09_windowed_partial id (fun _ => rfl) m (cosineBasis 512) 256 c2).2 (by change (256 : ℤ) < (512 : ℕ); norm_num)
  obtain rfl : W' = W := Option.some_inj.1 (e.symm.trans hW)
  have hnn : nb' * 512 = nb * 512 := (congrArg Prod.snd hs').symm.trans (congrArg Prod.snd hsh)
  exact ⟨nb, hsh, hnn ▸ hadj, hfr, fun t ht => windowsAt_pos (by norm_num) (by norm_num) hnb hm ht⟩

/-- **C122** The dictionary can represent every signal: there are coefficients which reconstruct the two sources exactly,
and they satisfy `A x = b`. With a mixing matrix which can be undone (`unmix`), the solutions of `A x = b` are exactly the
coefficients which reconstruct the sources. -/
theorem c122_solvable (guitar : List ℝ) (piano : List (List ℝ)) (p : ℕ) (hp : 0 < p) (mixing : ℕ → ℕ → ℝ) (P : Problem2 ℝ)
    (hP : audioProblem guitar piano p mixing = some P) :
    (∃ X, IsArr P.A.shape.2 X ∧ X.cols = 2 ∧ P.reconstruct X = P.y ∧ P.A.times2 X = P.b) ∧
    ∀ unmix : ℕ → ℕ → ℝ, (∀ i < 2, ∀ j < 2, ∑ l ∈ Finset.range p, unmix i l * mixing l j = if i = j then 1 else 0) →
      ∀ X, IsArr P.A.shape.2 X → X.cols = 2 → (P.A.times2 X = P.b ↔ P.reconstruct X = P.y) := by
  obtain ⟨y1, y2, -, b1, b2, b3, p1, -, p2, p3⟩ := c122_problem guitar piano p hp mixing P hP
  obtain ⟨s, W, hs, hW, a1, a2, a3, a4, a5, a6, a7, a8, a9, a10, -⟩ := audioProblem_parts hP
  obtain ⟨-, -, s3, -⟩ := audioSignal_spec hs
  rw [s3] at hW
  obtain ⟨nb, w1, w2, w3, w4⟩ := audio_window hW
  have hcw : ColumnWise ((guitar.length + 5) / 6) (nb * 512) W.times (alongAxis W).times2 := columnWise_along _ w2.times_length
  have hct : ColumnWise (nb * 512) ((guitar.length + 5) / 6) W.trans (alongAxis W).trans2 := columnWise_along _ w2.trans_length
  have hn : P.A.shape.2 = nb * 512 := by rw [a10, w1]
  rw [hn]
  refine ⟨?_, ?_⟩
  · set m := (guitar.length + 5) / 6 with hm
    -- each sample divided by the number of its windows
    let Z : Arr2 ℝ := { cols := 2, rows := (List.range m).map fun t => (List.range 2).map fun j => at2 P.y t j / windowsAt nb 256 512 t }
    have hZ : IsArr m Z := ⟨by norm_num, by simp [Z], fun r hr => by
      simp only [Z, List.mem_map] at hr
      obtain ⟨_, -, rfl⟩ := hr
      simp [Z]⟩
    have hZe : ∀ t < m, ∀ j < 2, at2 Z t j = at2 P.y t j / windowsAt nb 256 512 t := by
      intro t ht j hj
      unfold at2
      rw [List.getD_eq_getElem _ _ (by simpa [Z] using ht)]
      simp only [Z, List.getElem_map, List.getElem_range]
      rw [ent_tab _ hj]
      rfl
    obtain ⟨t1, t2, t3⟩ := hct Z hZ
    have t2 : ((alongAxis W).trans2 Z).cols = 2 := t2
    obtain ⟨f1, f2, f3⟩ := hcw _ t1
    have hrec : P.reconstruct ((alongAxis W).trans2 Z) = P.y := by
      rw [a3]
      refine arr_ext f1 y1 (f2.trans (t2.trans y2.symm)) fun t ht j hj => ?_
      rw [f2, t2] at hj
      rw [at2_col f1, f3 j (by omega), t3 j hj, w3 _ (hZ.col_len j), ent_tab _ ht, ← at2_col hZ, hZe t ht j hj]
      have : (windowsAt nb 256 512 t : ℝ) ≠ 0 := by
        have := w4 t ht
        exact_mod_cast (by omega : windowsAt nb 256 512 t ≠ 0)
      field_simp
    exact ⟨_, t1, t2, hrec, p3 _ hrec⟩
  · intro unmix hu X hX hc
    refine ⟨fun h => ?_, p3 X⟩
    obtain ⟨f1, f2, f3⟩ := hcw X hX
    rw [p2, a4, a3] at h
    rw [a3]
    obtain ⟨-, -, g3⟩ := mulTranspose_arr (n := 2) hp mixing f1
    refine arr_ext f1 y1 (f2.trans (hc.trans y2.symm)) fun t ht j hj => ?_
    rw [f2, hc] at hj
    have e : ∀ (V : Arr2 ℝ), (∑ l ∈ Finset.range p, unmix j l * (mixing l 0 * at2 V t 0 + mixing l 1 * at2 V t 1)) = at2 V t j := by
      intro V
      have h0 := hu j hj 0 (by norm_num)
      have h1 := hu j hj 1 (by norm_num)
      have : ∀ l ∈ Finset.range p, unmix j l * (mixing l 0 * at2 V t 0 + mixing l 1 * at2 V t 1) =
          unmix j l * mixing l 0 * at2 V t 0 + unmix j l * mixing l 1 * at2 V t 1 := fun l _ => by ring
      rw [Finset.sum_congr rfl this, Finset.sum_add_distrib, ← Finset.sum_mul, ← Finset.sum_mul, h0, h1]
      have hj' : j = 0 ∨ j = 1 := by omega
      rcases hj' with rfl | rfl <;> simp
    rw [← e ((alongAxis W).times2 X), ← e P.y]
    refine Finset.sum_congr rfl fun l hl => ?_
    have hl := Finset.mem_range.1 hl
    rw [← b3 t ht l hl, ← h, g3 t ht l hl, Finset.sum_range_succ, Finset.sum_range_one]

/-- **C122** The combined operator and its adjoint: `⟨A X, Y⟩ = ⟨X, A^H Y⟩` for all coefficient arrays `X` and data `Y`. -/
theorem c122_adjoint (guitar : List ℝ) (piano : List (List ℝ)) (p : ℕ) (hp : 0 < p) (mixing : ℕ → ℕ → ℝ) (P : Problem2 ℝ)
    (hP : audioProblem guitar piano p mixing = some P) (X Y : Arr2 ℝ) (hX : IsArr P.A.shape.2 X) (hXc : X.cols = 2)
    (hY : IsArr ((guitar.length + 5) / 6) Y) :
    frob ((guitar.length + 5) / 6) p (P.A.times2 X) Y = frob P.A.shape.2 2 X (P.A.trans2 Y) := by
  obtain ⟨s, W, hs, hW, a1, a2, a3, a4, a5, a6, a7, a8, a9, a10, -⟩ := audioProblem_parts hP
  obtain ⟨-, -, s3, -⟩ := audioSignal_spec hs
  rw [s3] at hW
  obtain ⟨nb, w1, w2, -, -⟩ := audio_window hW
  have hcw : ColumnWise ((guitar.length + 5) / 6) (nb * 512) W.times (alongAxis W).times2 := columnWise_along _ w2.times_length
  have hct : ColumnWise (nb * 512) ((guitar.length + 5) / 6) W.trans (alongAxis W).trans2 := columnWise_along _ w2.trans_length
  have hn : P.A.shape.2 = nb * 512 := by rw [a10, w1]
  rw [hn] at hX ⊢
  obtain ⟨f1, f2, f3⟩ := hcw X hX
  obtain ⟨g1, g2, g3⟩ := mulConj_arr (m := p) (n := 2) (by norm_num) mixing hY
  obtain ⟨k1, k2, k3⟩ := hct _ g1
  rw [a8, a9]
  rw [show mulTranspose p 2 mixing ((alongAxis W).times2 X) = (matrixAxis1 p 2 mixing true).times2 ((alongAxis W).times2 X) from rfl,
    (c122_matrix_axis1 p 2 _ hp (by norm_num) mixing true _ Y f1 hY).2]
  show frob _ 2 ((alongAxis W).times2 X) (mulConj p 2 mixing Y) = _
  unfold frob
  rw [Finset.sum_comm]
  conv_rhs => rw [Finset.sum_comm]
  refine Finset.sum_congr rfl fun j hj => ?_
  have hj := Finset.mem_range.1 hj
  have h := w2.adjoint (X.col j) ((mulConj p 2 mixing Y).col j) (hX.col_len j) (g1.col_len j)
  rw [vdot_eq_sum (w2.times_length _ (hX.col_len j)) (g1.col_len j),
    vdot_eq_sum (hX.col_len j) (w2.trans_length _ (g1.col_len j))] at h
  refine Eq.trans (Finset.sum_congr rfl fun t _ => ?_) (h.trans (Finset.sum_congr rfl fun t _ => ?_))
  · rw [at2_col f1, at2_col g1, f3 j (by omega)]; rfl
  · rw [at2_col k1, at2_col hX, k3 j (by omega)]; rfl

/-- **C122** is violated by the shape: `A.shape[0]` is the number of channels, while `A` returns arrays with one row for each
sample: a solver that allocates by `A.shape` allocates the wrong array. -/
theorem c122_shape_fails (guitar : List ℝ) (piano : List (List ℝ)) (p : ℕ) (hp : 0 < p) (mixing : ℕ → ℕ → ℝ) (P : Problem2 ℝ)
    (hP : audioProblem guitar piano p mixing = some P) (hne : p ≠ (guitar.length + 5) / 6) (X : Arr2 ℝ) (hX : IsArr P.A.shape.2 X) :
    P.A.shape.1 = p ∧ (P.A.times2 X).rows.length = (guitar.length + 5) / 6 ∧ (P.A.times2 X).rows.length ≠ P.A.shape.1 := by
  obtain ⟨s, W, hs, hW, a1, a2, a3, a4, a5, a6, a7, a8, a9, a10, -⟩ := audioProblem_parts hP
  obtain ⟨-, -, s3, -⟩ := audioSignal_spec hs
  rw [s3] at hW
  obtain ⟨nb, w1, w2, -, -⟩ := audio_window hW
  have hcw : ColumnWise ((guitar.length + 5) / 6) (nb * 512) W.times (alongAxis W).times2 := columnWise_along _ w2.times_length
  have hn : P.A.shape.2 = nb * 512 := by rw [a10, w1]
  rw [hn] at hX
  have h1 : P.A.shape.1 = p := by rw [a10]
  have h2 : (P.A.times2 X).rows.length = (guitar.length + 5) / 6 := by
    rw [a8]
    exact (mulTranspose_arr (n := 2) hp mixing (hcw X hX).1).1.rows_len
  exact ⟨h1, h2, by rw [h1, h2]; exact hne.symm⟩

/-- The problem exists for files that are long enough: 7 guitar samples give two samples, and a piano file of 25010 rows of one sample
gives 5002. The default mixing matrix can be undone. -/
theorem ex_audio : (∃ P, audioProblem (List.replicate 7 (1 : ℝ)) (List.replicate 25010 [(2 : ℝ)]) 2 (fun i j => if i = j then 1 else 0.5) = some P) := by
  obtain ⟨e1, -⟩ := everyNth_spec 6 (by norm_num) (List.replicate 7 (1 : ℝ))
  have e2 : (everyNth 5 (List.replicate 25010 [(2 : ℝ)])).flatten.length = 5002 := by
    obtain ⟨e3, e4⟩ := everyNth_spec 5 (by norm_num) (List.replicate 25010 [(2 : ℝ)])
    rw [List.length_flatten]
    have : ∀ l ∈ everyNth 5 (List.replicate 25010 [(2 : ℝ)]), l.length = 1 := by
      intro l hl
      obtain ⟨i, hi⟩ := List.mem_iff_getElem?.1 hl
      rw [e4] at hi
      have := List.mem_of_getElem? hi
      rw [List.mem_replicate] at this
      rw [this.2]; rfl
    rw [List.map_congr_left this, List.map_const', List.sum_replicate, e3, List.length_replicate]
    rfl
  have e1' : (everyNth 6 (List.replicate 7 (1 : ℝ))).length = 2 := by rw [e1, List.length_replicate]
  have hs : ∃ s, audioSignal (List.replicate 7 (1 : ℝ)) (List.replicate 25010 [(2 : ℝ)]) = some s := by
    unfold audioSignal
    simp only
    rw [if_pos (by rw [length_slice, e1', e2]; norm_num)]
    exact ⟨_, rfl⟩
  obtain ⟨s, hs⟩ := hs
  obtain ⟨-, c2, -, c4, -⟩ := c17_cosine_orthonormal 512 (by norm_num)
  obtain ⟨W, _, _, hW, -⟩ := (c09_windowed_partial id (fun _ => rfl) (everyNth 6 (List.replicate 7 (1 : ℝ))).length (cosineBasis 512) 256 c2).2
    (by change (256 : ℤ) < (512 : ℕ); norm_num)
  have hj : W.jit_safe = true := by
    unfold windowedOp at hW
    simp only at hW
    rw [if_pos (by change (256 : ℤ) < (512 : ℕ); norm_num)] at hW
    cases hW; rfl
  unfold audioProblem
  simp only [hs, Option.bind_some, hW]
  simp [jit2, matrixAxis1, matrix, alongAxis, composeIgnore, hj]

/-- The default mixing matrix (problems/prob401.py:33-34) can be undone. -/
example : ∃ unmix : ℕ → ℕ → ℝ, ∀ i < 2, ∀ j < 2, ∑ l ∈ Finset.range 2, unmix i l *
    (fun i j => if i = 0 then (if j = 0 then (0.1375 : ℝ) else 0.7250) else (if j = 0 then 0.9905 else 0.6888)) l j = if i = j then 1 else 0 := by
  let d : ℝ := 0.1375 * 0.6888 - 0.7250 * 0.9905
  refine ⟨fun i j => (if i = 0 then (if j = 0 then (0.6888 : ℝ) else -0.7250) else (if j = 0 then -0.9905 else 0.1375)) / d, fun i hi j hj => ?_⟩
  have h1 : i = 0 ∨ i = 1 := by omega
  have h2 : j = 0 ∨ j = 1 := by omega
  rcases h1 with rfl | rfl <;> rcases h2 with rfl | rfl <;> simp [d, Finset.sum_range_succ] <;> norm_num

/-! Instances. -/

theorem ex_isArr : IsArr 3 ({ cols := 2, rows := [[1, 2], [3, 4], [5, 6]] } : Arr2 ℤ) := ⟨by norm_num, rfl, by simp⟩

example := c122_matrix_axis1 (R := ℤ) 2 2 3 two_pos two_pos (fun i j => 10 * (i : ℤ) + j) true _ _ ex_isArr ex_isArr

/-- A 7-sample guitar, a constant piano, two microphones; the mixing matrix `[[1, 1/2], [1/2, 1]]` is inverted by `[[4/3, -2/3], [-2/3, 4/3]]`. -/
example : ∃ P, audioProblem (List.replicate 7 (1 : ℝ)) (List.replicate 25010 [(2 : ℝ)]) 2 (fun i j => if i = j then 1 else 0.5) = some P ∧
    IsArr 2 P.y ∧ P.Phi.times2 P.y = P.b ∧ ∀ X, IsArr P.A.shape.2 X → X.cols = 2 → (P.A.times2 X = P.b ↔ P.reconstruct X = P.y) := by
  obtain ⟨P, hP⟩ := ex_audio
  have h1 := c122_problem _ _ 2 two_pos _ P hP
  refine ⟨P, hP, h1.1, h1.2.2.2.2.2.2.1, (c122_solvable _ _ 2 two_pos _ P hP).2 (fun i j => if i = j then 4 / 3 else -2 / 3) fun i hi j hj => ?_⟩
  have h1 : i = 0 ∨ i = 1 := by omega
  have h2 : j = 0 ∨ j = 1 := by omega
  rcases h1 with rfl | rfl <;> rcases h2 with rfl | rfl <;> simp [Finset.sum_range_succ] <;> norm_num

example (P : Problem2 ℝ) (hP : audioProblem (List.replicate 7 (1 : ℝ)) (List.replicate 25010 [(2 : ℝ)]) 2 (fun i j => if i = j then 1 else 0.5) = some P)
    (X Y : Arr2 ℝ) (hX : IsArr P.A.shape.2 X) (hXc : X.cols = 2) (hY : IsArr 2 Y) := c122_adjoint _ _ 2 two_pos _ P hP X Y hX hXc hY

/-- Three microphones and two samples: the reported shape is wrong. -/
example (P : Problem2 ℝ) (hP : audioProblem (List.replicate 7 (1 : ℝ)) (List.replicate 25010 [(2 : ℝ)]) 3 (fun i j => if i = j then 1 else 0.5) = some P)
    (X : Arr2 ℝ) (hX : IsArr P.A.shape.2 X) := c122_shape_fails _ _ 3 (by norm_num) _ P hP (by simp) X hX

end Verif.Problems
