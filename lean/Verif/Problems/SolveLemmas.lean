import Verif.Problems.Props
import Verif.Lop.AlgebraRefine
import Verif.Pursuit.CoherenceRip
import Mathlib.Analysis.InnerProductSpace.PiL2

set_option autoImplicit false
/-!
# The atoms of an operator, and unions of the standard basis with another orthonormal basis (C135)
-/
noncomputable section
namespace Verif.Problems
open Verif.Lop

variable {𝕜 : Type*} [RCLike 𝕜]

/-- A list as a vector of `𝕜^m`. -/
def euc (m : ℕ) (x : List 𝕜) : EuclideanSpace 𝕜 (Fin m) := WithLp.toLp 2 fun i => x.getD i 0

/-- Atom `i` of an operator: the image of the `i`-th unit vector. -/
def atomOf (T : Op 𝕜) (m : ℕ) (i : ℕ) : EuclideanSpace 𝕜 (Fin m) := euc m (T.times (unitVec T.shape.2 i))

theorem inner_euc {m : ℕ} {x y : List 𝕜} (hx : x.length = m) (hy : y.length = m) : inner 𝕜 (euc m x) (euc m y) = vdot x y := by
  rw [vdot_eq_sum hx hy, PiLp.inner_apply, ← Fin.sum_univ_eq_sum_range (fun i => star (x.getD i 0) * y.getD i 0) m]
  refine Finset.sum_congr rfl fun i _ => ?_
  rw [RCLike.inner_apply, mul_comm]; rfl

theorem norm_euc {m : ℕ} {x : List 𝕜} (hx : x.length = m) (h : vdot x x = 1) : ‖euc m x‖ = 1 := by
  have := inner_self_eq_norm_sq_to_K (𝕜 := 𝕜) (euc m x)
  rw [inner_euc hx hx, h] at this
  have h2 : ‖euc m x‖ ^ 2 = 1 := by exact_mod_cast this.symm
  nlinarith [norm_nonneg (euc m x)]

theorem vdot_unit {n i j : ℕ} (hi : i < n) : vdot (unitVec (R := 𝕜) n i) (unitVec n j) = if i = j then 1 else 0 := by
  rw [vdot_unitVec_left (by simp) hi, getD_unitVec _ _ _ hi]

/-- A linear operator acts as the combination of its atoms. -/
theorem euc_times {m n : ℕ} (T : Op 𝕜) (hn : T.shape.2 = n) (h : LinearMapOn m n T.times) {x : List 𝕜} (hx : x.length = n) :
    euc m (T.times x) = ∑ i ∈ Finset.range n, x.getD i 0 • atomOf T m i := by
  ext k
  rw [WithLp.ofLp_sum, Finset.sum_apply]
  show (T.times x).getD k 0 = _
  rw [h.getD hx]
  refine Finset.sum_congr rfl fun j _ => ?_
  rw [mul_comm]
  simp only [entryOf, atomOf, euc, hn]
  rfl

/-- What is used of the union of the standard basis with the orthonormal basis `B` of `n` vectors. -/
structure Pair (n : ℕ) (B T : Op 𝕜) : Prop where
  shape : T.shape.2 = n + n
  times : ∀ s c : List 𝕜, s.length = n → c.length = n → T.times (s ++ c) = vadd (B.times c) s
  adj : AdjointPair n n B.times B.trans
  iso : ∀ x y, x.length = n → y.length = n → vdot (B.times x) (B.times y) = vdot x y

namespace Pair
variable {n : ℕ} {B T : Op 𝕜}

theorem split (h : Pair n B T) {x : List 𝕜} (hx : x.length = n + n) : T.times x = vadd (B.times (x.drop n)) (x.take n) := by
  conv_lhs => rw [← List.take_append_drop n x]
  exact h.times _ _ (by simp [hx]) (by simp [hx])

theorem linear (h : Pair n B T) : LinearMapOn n (n + n) T.times := by
  have hl := h.adj.linear
  refine ⟨fun x hx => ?_, fun x y hx hy => ?_, fun a x hx => ?_⟩
  · rw [h.split hx, length_vadd, hl.length _ (by simp [hx])]; simp [hx]
  · have lx := hl.length (x.drop n) (by simp [hx])
    have ly := hl.length (y.drop n) (by simp [hy])
    rw [h.split (by simp [hx, hy]), h.split hx, h.split hy]
    have e1 : (vadd x y).drop n = vadd (x.drop n) (y.drop n) := by simp [vadd, List.drop_zipWith]
    have e2 : (vadd x y).take n = vadd (x.take n) (y.take n) := by simp [vadd, List.take_zipWith]
    rw [e1, e2, hl.add _ _ (by simp [hx]) (by simp [hy])]
    refine ext_getD (n := n) (by simp [lx, ly, hx, hy]) (by simp [lx, ly, hx, hy]) fun i hi => ?_
    rw [getD_vadd (n := n) (by simp [lx, ly, hx, hy]) (by simp [lx, ly, hx, hy]), getD_vadd (n := n) (by simp [lx, ly]) (by simp [lx, ly]), getD_vadd (n := n) (by simp [hx, hy]) (by simp [hx, hy]),
      getD_vadd (n := n) (by simp [lx, ly, hx, hy]) (by simp [lx, ly, hx, hy]), getD_vadd (n := n) (by simp [lx, hx]) (by simp [lx, hx]), getD_vadd (n := n) (by simp [ly, hy]) (by simp [ly, hy])]
    ring
  · have lx := hl.length (x.drop n) (by simp [hx])
    rw [h.split (by simp [hx]), h.split hx]
    have e1 : (Lop.smul a x).drop n = Lop.smul a (x.drop n) := by simp [Lop.smul, List.map_drop]
    have e2 : (Lop.smul a x).take n = Lop.smul a (x.take n) := by simp [Lop.smul, List.map_take]
    rw [e1, e2, hl.smul _ _ (by simp [hx])]
    refine ext_getD (n := n) (by simp [lx, hx]) (by simp [lx, hx]) fun i hi => ?_
    rw [getD_vadd (n := n) (by simp [lx, hx]) (by simp [lx, hx]), getD_smul, getD_smul, getD_smul, getD_vadd (n := n) (by simp [lx, hx]) (by simp [lx, hx]), mul_add]

theorem atom_lt (h : Pair n B T) {i : ℕ} (hi : i < n) : atomOf T n i = euc n (unitVec n i) := by
  have hl := h.adj.linear
  rw [atomOf, h.shape, h.split (by simp), take_unitVec, drop_unitVec, if_pos hi, if_pos hi]
  have h0 : B.times (List.replicate n 0) = List.replicate n 0 := by
    have := hl.smul 0 (List.replicate n 0) (by simp)
    have lx := hl.length (List.replicate n 0) (by simp)
    have e : Lop.smul (0 : 𝕜) (List.replicate n 0) = List.replicate n 0 := by simp [Lop.smul]
    rw [e] at this
    rw [this]
    refine List.ext_getElem (by simp [Lop.smul, lx]) fun i _ _ => by simp [Lop.smul]
  rw [h0]
  congr 1
  refine ext_getD (n := n) (by simp) (by simp) fun k hk => ?_
  rw [getD_vadd (n := n) (by simp) (by simp)]
  simp [List.getD, hk]

theorem atom_ge (h : Pair n B T) {i : ℕ} (hi : n ≤ i) : atomOf T n i = euc n (B.times (unitVec n (i - n))) := by
  have hl := h.adj.linear
  have lx := hl.length (unitVec n (i - n)) (by simp)
  rw [atomOf, h.shape, h.split (by simp), take_unitVec, drop_unitVec, if_neg (by omega), if_neg (by omega)]
  congr 1
  refine ext_getD (n := n) (by simp [lx]) lx fun k hk => ?_
  rw [getD_vadd (n := n) (by simp [lx]) (by simp [lx])]
  simp [List.getD, hk]

theorem norm_atom (h : Pair n B T) {i : ℕ} (hi : i < n + n) : ‖atomOf T n i‖ = 1 := by
  have hl := h.adj.linear
  by_cases hin : i < n
  · rw [h.atom_lt hin]
    exact norm_euc (by simp) (by rw [vdot_unit hin, if_pos rfl])
  · rw [h.atom_ge (by omega)]
    refine norm_euc (hl.length _ (by simp)) ?_
    rw [h.iso _ _ (by simp) (by simp), vdot_unit (by omega), if_pos rfl]

/-- Atoms of one basis are orthogonal; the inner product of a spike with a vector of `B` is an entry of that vector. -/
theorem inner_atom (h : Pair n B T) {i j : ℕ} (hi : i < n + n) (hj : j < n + n) (hij : i ≠ j) (hle : i < j) :
    inner 𝕜 (atomOf T n i) (atomOf T n j) = if i < n ∧ n ≤ j then (B.times (unitVec n (j - n))).getD i 0 else 0 := by
  have hl := h.adj.linear
  by_cases hin : i < n
  · by_cases hjn : j < n
    · rw [if_neg (by omega), h.atom_lt hin, h.atom_lt hjn, inner_euc (by simp) (by simp), vdot_unit hin, if_neg hij]
    · rw [if_pos ⟨hin, by omega⟩, h.atom_lt hin, h.atom_ge (by omega), inner_euc (by simp) (hl.length _ (by simp)),
        vdot_unitVec_left (hl.length _ (by simp)) hin]
  · rw [if_neg (by omega), h.atom_ge (by omega), h.atom_ge (by omega), inner_euc (hl.length _ (by simp)) (hl.length _ (by simp)),
      h.iso _ _ (by simp) (by simp), vdot_unit (by omega), if_neg (by omega)]

/-- The coherence of the union is bounded by the largest entry of `B`. -/
theorem coh (h : Pair n B T) {mu : ℝ} (hmu : 0 ≤ mu) (hB : ∀ i k, i < n → k < n → ‖(B.times (unitVec n k)).getD i 0‖ ≤ mu)
    {i j : ℕ} (hi : i < n + n) (hj : j < n + n) (hij : i ≠ j) : ‖inner 𝕜 (atomOf T n i) (atomOf T n j)‖ ≤ mu := by
  have key : ∀ i j, i < n + n → j < n + n → i < j → ‖inner 𝕜 (atomOf T n i) (atomOf T n j)‖ ≤ mu := by
    intro i j hi hj hlt
    rw [h.inner_atom hi hj (by omega) hlt]
    split_ifs with hc
    · exact hB _ _ hc.1 (by omega)
    · simpa using hmu
  rcases lt_or_gt_of_ne hij with hlt | hlt
  · exact key i j hi hj hlt
  · rw [norm_inner_symm]; exact key j i hj hi hlt

end Pair

theorem prob003_pair (n : ℕ) (hn : 0 < n) (ci : List ℕ) (cv : List ℝ) (si : List ℕ) (sv : List ℝ) (P : Problem ℝ)
    (hP : prob003 n ci cv si sv = some P) : Pair n (cosineBasis n) P.A := by
  obtain ⟨h, T, h1, h2, hsh, ht⟩ := dirac_pair n (cosineBasis n) rfl rfl
  rw [prob003, h1, Option.bind_some, h2] at hP
  obtain ⟨-, c2, -, -, c5⟩ := c17_cosine_orthonormal n hn
  cases hP
  exact ⟨by rw [hsh], ht, c2, c5⟩

theorem prob004_pair (n : ℕ) (hn : 0 < n) (ci : List ℕ) (cv : List ℂ) (si : List ℕ) (sv : List ℂ) (P : Problem ℂ)
    (hP : prob004 n ci cv si sv = some P) : Pair n (fourierBasis n) P.A := by
  obtain ⟨h, T, h1, h2, hsh, ht⟩ := dirac_pair n (fourierBasis n) rfl rfl
  rw [prob004, h1, Option.bind_some, h2] at hP
  obtain ⟨c1, -, -, c4, -⟩ := c14_fourier_unitary n hn
  cases hP
  exact ⟨by rw [hsh], ht, c1, fun x y hx hy => (c4 x y hx hy).1⟩

theorem cosine_col (n : ℕ) (hn : 0 < n) {i k : ℕ} (hi : i < n) (hk : k < n) : ((cosineBasis n).times (unitVec n k)).getD i 0 = dctEntry n i k := by
  have := (c17_cosine_orthonormal n hn).1 (unitVec n k) (by simp) i hi
  have e : ((cosineBasis n).times (unitVec n k)).getD i 0 = ent ((cosineBasis n).times (unitVec n k)) i := rfl
  rw [e, this]
  rw [Finset.sum_eq_single k]
  · rw [ent, getD_unitVec _ _ _ hk, if_pos rfl, mul_one]
  · intro b hb hne
    rw [ent, getD_unitVec _ _ _ (Finset.mem_range.mp hb), if_neg hne, mul_zero]
  · intro h; exact absurd (Finset.mem_range.mpr hk) h

theorem fourier_col (n : ℕ) (hn : 0 < n) {i k : ℕ} (hi : i < n) (hk : k < n) :
    ‖((fourierBasis n).times (unitVec n k)).getD i 0‖ = 1 / Real.sqrt n := by
  have := (c14_fourier_unitary n hn).2.2.2.2 i k hi hk
  have e : ((fourierBasis n).times (unitVec n k)).getD i 0 = ent ((fourierBasis n).times (unitVec n k)) i := rfl
  rw [e, this, norm_div]
  have : (2 * Real.pi * Complex.I * (i * k) / n : ℂ) = ((2 * Real.pi * (i * k) / n : ℝ) : ℂ) * Complex.I := by push_cast; ring
  rw [this, Complex.norm_exp_ofReal_mul_I, Complex.norm_real, Real.norm_of_nonneg (Real.sqrt_nonneg _)]

theorem dct_le (n i k : ℕ) (hn : 0 < n) : |dctEntry n i k| ≤ Real.sqrt (2 / n) := by
  rw [dctEntry, abs_mul]
  have h1 := Real.abs_cos_le_one (Real.pi * k * (2 * i + 1) / (2 * n))
  have h2 : |(if k = 0 then 1 / Real.sqrt n else Real.sqrt (2 / n))| ≤ Real.sqrt (2 / n) := by
    split_ifs
    · rw [abs_of_nonneg (by positivity), ← Real.sqrt_one, ← Real.sqrt_div zero_le_one]
      exact Real.sqrt_le_sqrt (by gcongr; norm_num)
    · rw [abs_of_nonneg (Real.sqrt_nonneg _)]
  calc _ ≤ Real.sqrt (2 / n) * 1 := mul_le_mul h2 h1 (abs_nonneg _) (Real.sqrt_nonneg _)
    _ = _ := mul_one _

end Verif.Problems
