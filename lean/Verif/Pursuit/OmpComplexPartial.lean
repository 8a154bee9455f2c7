import Verif.Pursuit.OmpComplexProps
import Verif.Pursuit.OmpProps

set_option autoImplicit false
/-! # C45 on complex data with a real Gram matrix -/
noncomputable section
namespace Verif.Pursuit

/-- `solve_Lx_b` solves `L x = b` on complex triangular systems. -/
theorem fwdSubC_spec {L : ℕ → ℕ → ℂ} {k : ℕ} (hL : LowerRegular L k) (b : ℕ → ℂ) {i : ℕ} (hi : i < k) :
    ∑ j ∈ Finset.range k, L i j * fwdSubC L b j = b i := by
  have h1 : ∑ j ∈ Finset.range k, L i j * fwdSubC L b j = ∑ j ∈ Finset.range (i + 1), L i j * fwdSubC L b j := by
    symm
    refine Finset.sum_subset (fun j hj => by simp at hj ⊢; omega) fun j hj hj' => ?_
    simp at hj hj'
    rw [(hL i hi).2 j hj (by omega), zero_mul]
  rw [h1, Finset.sum_range_succ]
  conv_lhs => rw [fwdSubC.eq_def L b i]
  rw [mul_div_cancel₀ _ (hL i hi).1, Finset.sum_range fun j => L i j * fwdSubC L b j]
  ring

theorem fwdSubC_ofReal (L : ℕ → ℕ → ℝ) (b : ℕ → ℝ) (i : ℕ) : fwdSubC (fun i j => (L i j : ℂ)) (fun i => (b i : ℂ)) i = (fwdSub L b i : ℂ) := by
  induction i using Nat.strong_induction_on with
  | _ i ih =>
    rw [fwdSubC.eq_def, fwdSub.eq_def]
    push_cast
    congr 2
    exact Finset.sum_congr rfl fun j _ => by rw [ih j j.2]

/-- On real entries with a non-negative pivot the complex update is the real one. -/
theorem gramCholUpdateC_ofReal (L : ℕ → ℕ → ℝ) (k : ℕ) (v : ℕ → ℝ) (h : 0 < gramCholUpdate L k v k k) :
    gramCholUpdateC (fun i j => (L i j : ℂ)) k (fun i => (v i : ℂ)) = fun i j => (gramCholUpdate L k v i j : ℂ) := by
  have hp : 0 < 1 - ∑ j ∈ Finset.range k, fwdSub L v j * fwdSub L v j := by
    have : gramCholUpdate L k v k k = Real.sqrt (1 - ∑ j ∈ Finset.range k, fwdSub L v j * fwdSub L v j) := by simp [gramCholUpdate]
    rw [this] at h
    exact Real.sqrt_pos.1 h
  have hs : ((1 : ℂ) - ∑ j ∈ Finset.range k, (fwdSub L v j : ℂ) * (fwdSub L v j : ℂ)) ^ (1 / 2 : ℂ) =
      ((Real.sqrt (1 - ∑ j ∈ Finset.range k, fwdSub L v j * fwdSub L v j) : ℝ) : ℂ) := by
    rw [Real.sqrt_eq_rpow, Complex.ofReal_cpow hp.le]
    push_cast
    rfl
  funext i j
  simp only [gramCholUpdateC, gramCholUpdate, fwdSubC_ofReal, hs]
  split_ifs <;> simp

variable {E : Type*} [NormedAddCommGroup E] [InnerProductSpace ℂ E]

/-- The state of `operator_solve` after `j` passes on complex data. -/
def ompSeqC (solve : (ℕ → ℕ → ℂ) → ℕ → (ℕ → ℂ) → ℕ → ℂ) (phi : ℕ → E) (n : ℕ) (y : E) (j : ℕ) : OmpStateC E :=
  (ompStepC solve phi n y)^[j] (ompInitC phi n y)

theorem ompSeqC_succ (solve : (ℕ → ℕ → ℂ) → ℕ → (ℕ → ℂ) → ℕ → ℂ) (phi : ℕ → E) (n : ℕ) (y : E) (j : ℕ) :
    ompSeqC solve phi n y (j + 1) = ompStepC solve phi n y (ompSeqC solve phi n y j) := by
  simp only [ompSeqC, Function.iterate_succ_apply']

theorem ompSeqC_k (solve : (ℕ → ℕ → ℂ) → ℕ → (ℕ → ℂ) → ℕ → ℂ) (phi : ℕ → E) (n : ℕ) (y : E) (j : ℕ) : (ompSeqC solve phi n y j).k = j + 1 := by
  induction j with
  | zero => rfl
  | succ j ih => rw [ompSeqC_succ]; simp only [ompStepC, ih]

/-- Coefficients of `solve` for a real factor: the two conventions for the transpose agree. -/
theorem solves_real {solve : (ℕ → ℕ → ℂ) → ℕ → (ℕ → ℂ) → ℕ → ℂ}
    (hs : (∀ L k b, LowerRegular L k → SolvesT L k b (solve L k b)) ∨ (∀ L k b, LowerRegular L k → SolvesH L k b (solve L k b)))
    {R : ℕ → ℕ → ℝ} {k : ℕ} (hR : LowerTri R k) (b : ℕ → ℂ) (i : ℕ) (hi : i < k) :
    ∑ j ∈ Finset.range k, ((∑ l ∈ Finset.range k, R i l * R j l : ℝ) : ℂ) * solve (fun i j => (R i j : ℂ)) k b j = b i := by
  have hreg : LowerRegular (fun i j => (R i j : ℂ)) k := fun i hi =>
    ⟨by simpa using hR.diag i hi, fun j hj hij => by simpa using hR.zero i j hij hj⟩
  rcases hs with hs | hs
  · have := hs _ k b hreg i hi
    rw [← this]
    push_cast
    rfl
  · have := hs _ k b hreg i hi
    rw [← this]
    push_cast
    simp

/-- What holds after every pass. -/
structure OmpGoodC (phi : ℕ → E) (n : ℕ) (y : E) (s : OmpStateC E) : Prop where
  range : ∀ i, s.I i < n
  atoms : ∀ i, s.phiI i = phi (s.I i)
  factor : ∃ R : ℕ → ℕ → ℝ, s.L = (fun i j => (R i j : ℂ)) ∧ LowerTri R s.k ∧
    ∀ i j, i < s.k → j < s.k → ((∑ l ∈ Finset.range s.k, R i l * R j l : ℝ) : ℂ) = inner ℂ (phi (s.I i)) (phi (s.I j))
  resid : s.r = y - ∑ i ∈ Finset.range s.k, s.x i • phi (s.I i)
  normal : ∀ i < s.k, inner ℂ (phi (s.I i)) s.r = 0

theorem bestC_spec (phi : ℕ → E) {n : ℕ} (hn : 0 < n) (r : E) :
    absMaxIdx (corr ℂ phi n r) < n ∧ ∀ i, i < n → ‖inner ℂ (phi i) r‖ ≤ ‖inner ℂ (phi (absMaxIdx (corr ℂ phi n r))) r‖ := by
  have hne : corr ℂ phi n r ≠ [] := by
    intro h
    have := corr_length (𝕜 := ℂ) phi n r
    rw [h] at this; simp at this; omega
  obtain ⟨h1, h2, -⟩ := c51_abs_max_idx (corr ℂ phi n r) hne
  rw [corr_length] at h1
  refine ⟨h1, fun i hi => ?_⟩
  have := h2 i (by rw [corr_length]; exact hi)
  rwa [corr_getD phi n r hi, corr_getD phi n r h1] at this

/-- With a real Gram factor the coefficients solve the normal equations. -/
theorem normal_of_factor {solve : (ℕ → ℕ → ℂ) → ℕ → (ℕ → ℂ) → ℕ → ℂ}
    (hs : (∀ L k b, LowerRegular L k → SolvesT L k b (solve L k b)) ∨ (∀ L k b, LowerRegular L k → SolvesH L k b (solve L k b)))
    {R : ℕ → ℕ → ℝ} {k : ℕ} (hR : LowerTri R k) (a : ℕ → E) (y : E)
    (hG : ∀ i j, i < k → j < k → ((∑ l ∈ Finset.range k, R i l * R j l : ℝ) : ℂ) = inner ℂ (a i) (a j)) (b : ℕ → ℂ)
    (hb : ∀ i < k, b i = inner ℂ (a i) y) (i : ℕ) (hi : i < k) :
    inner ℂ (a i) (y - ∑ j ∈ Finset.range k, solve (fun i j => (R i j : ℂ)) k b j • a j) = 0 := by
  have := solves_real hs hR b i hi
  rw [inner_sub_right, _root_.inner_sum, sub_eq_zero, ← hb i hi, ← this]
  refine Finset.sum_congr rfl fun j hj => ?_
  rw [inner_smul_right, hG i j hi (Finset.mem_range.1 hj), mul_comm]

theorem ompInitC_good (phi : ℕ → E) {n : ℕ} (hn : 0 < n) (hu : ∀ i, i < n → ‖phi i‖ = 1) (y : E) : OmpGoodC phi n y (ompInitC phi n y) := by
  obtain ⟨hb, -⟩ := bestC_spec phi hn y
  have e := corr_getD (𝕜 := ℂ) phi n y hb
  set b := absMaxIdx (corr ℂ phi n y) with hbd
  have hnorm : inner ℂ (phi b) (phi b) = 1 := by rw [inner_self_eq_norm_sq_to_K, hu b hb]; norm_num
  have k1 : ∀ i, i < (ompInitC phi n y).k → i = 0 := fun i hi => by simp [ompInitC] at hi; exact hi
  refine ⟨fun i => hb, fun i => rfl, ⟨fun _ _ => 1, ?_, ⟨fun i j hij hj => ?_, fun i _ => one_ne_zero⟩, fun i j _ _ => ?_⟩, ?_, fun i _ => ?_⟩
  · simp [ompInitC]
  · have := k1 j hj; omega
  · show ((∑ l ∈ Finset.range 1, (1 : ℝ) * 1 : ℝ) : ℂ) = inner ℂ (phi b) (phi b)
    rw [hnorm]; simp
  · simp [ompInitC]
  · show inner ℂ (phi b) (y - (corr ℂ phi n y).getD b 0 • phi b) = 0
    rw [e, inner_sub_right, inner_smul_right, hnorm]; ring

theorem ompStepC_good {solve : (ℕ → ℕ → ℂ) → ℕ → (ℕ → ℂ) → ℕ → ℂ}
    (hs : (∀ L k b, LowerRegular L k → SolvesT L k b (solve L k b)) ∨ (∀ L k b, LowerRegular L k → SolvesH L k b (solve L k b)))
    (phi : ℕ → E) {n : ℕ} (hn : 0 < n) (hu : ∀ i, i < n → ‖phi i‖ = 1)
    (hreal : ∀ i j, i < n → j < n → (inner ℂ (phi i) (phi j)).im = 0) (y : E) (s : OmpStateC E) (h : OmpGoodC phi n y s)
    (hcor : ∃ i, i < n ∧ inner ℂ (phi i) s.r ≠ 0) : OmpGoodC phi n y (ompStepC solve phi n y s) := by
  obtain ⟨hb, hmax⟩ := bestC_spec phi hn s.r
  set b := absMaxIdx (corr ℂ phi n s.r) with hbd
  have hbne : inner ℂ (phi b) s.r ≠ 0 := by
    obtain ⟨i, hi, hne⟩ := hcor
    intro h0
    have := hmax i hi
    rw [h0, norm_zero] at this
    exact hne (norm_le_zero_iff.mp this)
  obtain ⟨R, hL, hR, hG⟩ := h.factor
  letI : InnerProductSpace ℝ E := InnerProductSpace.rclikeToReal ℂ E
  have hri : ∀ u v : E, inner ℝ u v = (inner ℂ u v).re := fun u v => real_inner_eq_re_inner ℂ u v
  have hro : ∀ i j, i < n → j < n → ((inner ℝ (phi i) (phi j) : ℝ) : ℂ) = inner ℂ (phi i) (phi j) := fun i j hi hj => by
    rw [hri]; exact Complex.ext (by simp) (by simp [hreal i j hi hj])
  have hch : IsChol R s.k s.phiI := by
    refine ⟨hR, fun i j hi hj => ?_⟩
    have := congrArg Complex.re (hG i j hi hj)
    rw [Complex.ofReal_re] at this
    rw [this, h.atoms i, h.atoms j, hri]
  have hind : ∀ c : ℕ → ℝ, phi b - ∑ j ∈ Finset.range s.k, c j • s.phiI j ≠ 0 := by
    intro c h0
    apply hbne
    have h1 : inner ℂ (phi b - ∑ j ∈ Finset.range s.k, c j • s.phiI j) s.r = 0 := by rw [h0, inner_zero_left]
    rw [inner_sub_left, sum_inner] at h1
    have z : ∑ j ∈ Finset.range s.k, inner ℂ (c j • s.phiI j) s.r = 0 := Finset.sum_eq_zero fun j hj => by
      have hj' := Finset.mem_range.1 hj
      rw [RCLike.real_smul_eq_coe_smul (K := ℂ), inner_smul_left, h.atoms j, h.normal j hj', mul_zero]
    rwa [z, sub_zero] at h1
  obtain ⟨⟨hR', hG'⟩, hpos⟩ := c45_gram_chol_update hch (phi b) (hu b hb) hind
  set R' := gramCholUpdate R s.k fun j => inner ℝ (s.phiI j) (phi b) with hRd
  have hv : (fun j => inner ℂ (s.phiI j) (phi b)) = fun j => ((inner ℝ (s.phiI j) (phi b) : ℝ) : ℂ) := funext fun j => by
    rw [h.atoms j, hro _ _ (h.range j) hb]
  have hL' : (ompStepC solve phi n y s).L = fun i j => (R' i j : ℂ) := by
    show gramCholUpdateC s.L s.k (fun j => inner ℂ (s.phiI j) (phi b)) = _
    rw [hL, hv, gramCholUpdateC_ofReal R s.k _ hpos]
  set I' := Function.update s.I s.k b with hI'
  have hatoms : ∀ i, Function.update s.phiI s.k (phi b) i = phi (I' i) := fun i => by
    by_cases hi : i = s.k
    · subst hi; simp [hI']
    · simp [hI', Function.update_of_ne hi, h.atoms i]
  have hrange : ∀ i, I' i < n := fun i => by
    by_cases hi : i = s.k
    · subst hi; simpa [hI'] using hb
    · simpa [hI', Function.update_of_ne hi] using h.range i
  have hG2 : ∀ i j, i < s.k + 1 → j < s.k + 1 →
      ((∑ l ∈ Finset.range (s.k + 1), R' i l * R' j l : ℝ) : ℂ) = inner ℂ (phi (I' i)) (phi (I' j)) := fun i j hi hj => by
    rw [hG' i j hi hj, hatoms i, hatoms j, hro _ _ (hrange i) (hrange j)]
  have hr : (ompStepC solve phi n y s).r = y - ∑ j ∈ Finset.range (s.k + 1), (ompStepC solve phi n y s).x j • phi (I' j) := by
    show y - ∑ j ∈ Finset.range (s.k + 1), (ompStepC solve phi n y s).x j • Function.update s.phiI s.k (phi b) j = _
    congr 1
    exact Finset.sum_congr rfl fun j _ => by rw [hatoms j]
  refine ⟨hrange, hatoms, ⟨R', hL', hR', hG2⟩, hr, fun i hi => ?_⟩
  have hx : (ompStepC solve phi n y s).x = solve (fun i j => (R' i j : ℂ)) (s.k + 1) fun j => (corr ℂ phi n y).getD (I' j) 0 := by
    rw [← hL']; rfl
  rw [hr, hx]
  exact normal_of_factor hs hR' (fun i => phi (I' i)) y hG2 _ (fun i _ => corr_getD phi n y (hrange i)) i hi

/-- **C45** (what holds on complex data) when the inner products of the atoms are real numbers, as for a real dictionary stored in a complex array, and the
residual of every earlier pass is correlated with some atom, `operator_solve` on a complex `y` does compute the least-squares solution: after every pass the residual is `y` minus the
combination of the selected atoms, it is orthogonal to each of them, and no other coefficients on these atoms leave a smaller residual. -/
theorem c45_complex_partial (solve : (ℕ → ℕ → ℂ) → ℕ → (ℕ → ℂ) → ℕ → ℂ)
    (hs : (∀ L k b, LowerRegular L k → SolvesT L k b (solve L k b)) ∨ (∀ L k b, LowerRegular L k → SolvesH L k b (solve L k b)))
    (phi : ℕ → E) (n : ℕ) (hn : 0 < n) (hu : ∀ i, i < n → ‖phi i‖ = 1) (hreal : ∀ i j, i < n → j < n → (inner ℂ (phi i) (phi j)).im = 0) (y : E) (j : ℕ)
    (hcor : ∀ j' < j, ∃ i, i < n ∧ inner ℂ (phi i) (ompSeqC solve phi n y j').r ≠ 0) :
    let s := ompSeqC solve phi n y j
    s.k = j + 1 ∧ (∀ i < s.k, s.I i < n) ∧ s.r = y - ∑ i ∈ Finset.range s.k, s.x i • phi (s.I i) ∧
    (∀ i < s.k, inner ℂ (phi (s.I i)) s.r = 0) ∧
    ∀ z : ℕ → ℂ, ‖s.r‖ ≤ ‖y - ∑ i ∈ Finset.range s.k, z i • phi (s.I i)‖ := by
  intro s
  have h : OmpGoodC phi n y s := by
    have : ∀ l, l ≤ j → OmpGoodC phi n y (ompSeqC solve phi n y l) := by
      intro l
      induction l with
      | zero => exact fun _ => ompInitC_good phi hn hu y
      | succ l ih =>
        intro hl
        rw [ompSeqC_succ]
        exact ompStepC_good hs phi hn hu hreal y _ (ih (by omega)) (hcor l (by omega))
    exact this j le_rfl
  refine ⟨ompSeqC_k solve phi n y j, fun i _ => h.range i, h.resid, h.normal, fun z => ?_⟩
  have e : y - ∑ i ∈ Finset.range s.k, z i • phi (s.I i) = s.r + ∑ i ∈ Finset.range s.k, (s.x i - z i) • phi (s.I i) := by
    rw [h.resid]; simp only [sub_smul, Finset.sum_sub_distrib]; abel
  have ho : inner ℂ s.r (∑ i ∈ Finset.range s.k, (s.x i - z i) • phi (s.I i)) = 0 := by
    rw [_root_.inner_sum]
    refine Finset.sum_eq_zero fun i hi => ?_
    rw [inner_smul_right, ← inner_conj_symm, h.normal i (Finset.mem_range.1 hi)]; simp
  rw [e]
  have := norm_add_sq (𝕜 := ℂ) s.r (∑ i ∈ Finset.range s.k, (s.x i - z i) • phi (s.I i))
  rw [ho] at this
  simp only [map_zero, mul_zero, add_zero] at this
  refine le_of_sq_le_sq ?_ (norm_nonneg _)
  rw [this]; nlinarith [sq_nonneg ‖∑ i ∈ Finset.range s.k, (s.x i - z i) • phi (s.I i)‖]

/-- Non-vacuity: the real orthonormal basis of `ℂ²` and the complex signal `(2, i)`. -/
example : ∃ (solve : (ℕ → ℕ → ℂ) → ℕ → (ℕ → ℂ) → ℕ → ℂ) (phi : ℕ → EuclideanSpace ℂ (Fin 2)) (y : EuclideanSpace ℂ (Fin 2)),
    (∀ L k b, LowerRegular L k → SolvesT L k b (solve L k b)) ∧ (∀ i < 2, ‖phi i‖ = 1) ∧
    (∀ i j, i < 2 → j < 2 → (inner ℂ (phi i) (phi j)).im = 0) ∧ (∃ i, i < 2 ∧ inner ℂ (phi i) (ompSeqC solve phi 2 y 0).r ≠ 0) := by
  obtain ⟨f, hf⟩ := exists_solvesT
  refine ⟨f, fun i => if i = 0 then !₂[1, 0] else !₂[0, 1], !₂[2, Complex.I], hf, fun i hi => ?_, fun i j _ _ => ?_, 1, by norm_num, ?_⟩
  · obtain rfl | rfl : i = 0 ∨ i = 1 := by omega
    · simp [norm2]
    · simp [norm2]
  · by_cases h1 : i = 0 <;> by_cases h2 : j = 0 <;> simp [h1, h2, inner2, norm2]
  · have hp : corr ℂ (fun i => if i = 0 then (!₂[1, 0] : EuclideanSpace ℂ (Fin 2)) else !₂[0, 1]) 2 !₂[2, Complex.I] = [2, Complex.I] := by
      simp only [corr, List.range_succ, List.range_zero, List.nil_append, List.cons_append, List.map_cons, List.map_nil]
      simp [inner2]
    have hi : absMaxIdx [(2 : ℂ), Complex.I] = 0 := by rw [absMaxIdx_two, if_neg]; norm_num
    have hr : (ompSeqC f (fun i => if i = 0 then (!₂[1, 0] : EuclideanSpace ℂ (Fin 2)) else !₂[0, 1]) 2 !₂[2, Complex.I] 0).r = !₂[0, Complex.I] := by
      simp only [ompSeqC, Function.iterate_zero, id, ompInitC, hp, hi]
      ext i; fin_cases i <;> simp
    rw [hr]
    simp [inner2]

end Verif.Pursuit
