import Verif.Pursuit.GreedyFails
import Verif.Pursuit.NormalizedProps
import Verif.Pursuit.OmpProps

set_option autoImplicit false
/-!
# The full-length signal of a solution (C146)
-/
noncomputable section
namespace Verif.Pursuit
open Verif.Loop
open scoped RealInnerProductSpace

variable {𝕜 : Type*} [RCLike 𝕜] {E : Type*} [NormedAddCommGroup E] [InnerProductSpace 𝕜 E]

/-- `RecoverySolution.x` (pursuit/defs.py:83-85). -/
def GState.signal (s : GState 𝕜 E) : ℕ → 𝕜 := buildSignal s.I s.x

/-- `RecoverySolution.x` (pursuit/defs.py:83-85) of a solution of OMP. -/
def OmpState.signal {E : Type*} (s : OmpState E) : ℕ → ℝ := buildSignal ((List.range s.k).map s.I) ((List.range s.k).map s.x)

/-- What a user expects of a solution with the signal `x` of length `n` and the residual `r`: the signal explains the data up to the residual, and has at most `K` non-zero entries. -/
structure Explains (phi : ℕ → E) (n : ℕ) (y : E) (K : ℕ) (x : ℕ → 𝕜) (r : E) : Prop where
  residual : ∑ i ∈ Finset.range n, x i • phi i + r = y
  sparse : {i | x i ≠ 0}.ncard ≤ K
  inside : ∀ i, n ≤ i → x i = 0

theorem explains_of_list (phi : ℕ → E) (n : ℕ) (y : E) (I : List ℕ) (x : List 𝕜) (r : E) (hd : I.Nodup) (hr : ∀ i ∈ I, i < n) (hl : x.length = I.length) (h : r = y - lin phi I x) :
    Explains phi n y I.length (buildSignal I x) r := by
  refine ⟨?_, ?_, fun i hi => buildSignal_not_mem _ _ _ fun h => absurd (hr i h) (by omega)⟩
  · rw [h, lin_eq_synth phi n I x hd hr hl, synth]; abel
  · have hs : {i | buildSignal I x i ≠ 0} ⊆ (I.toFinset : Set ℕ) := fun i hi => by
      by_contra hn
      exact hi (buildSignal_not_mem _ _ _ (by simpa using hn))
    refine (Set.ncard_le_ncard hs (Finset.finite_toSet _)).trans ?_
    rw [Set.ncard_coe_finset]
    exact List.toFinset_card_le I

theorem GoodState.explains {phi : ℕ → E} {n : ℕ} {y : E} {K : ℕ} {s : GState 𝕜 E} (h : GoodState phi n y K s) (hd : s.I.Nodup) : Explains phi n y K s.signal s.r :=
  h.size ▸ explains_of_list phi n y s.I s.x s.r hd h.range h.coeff h.residual

/-- **C146** IHT with a given step, `matrix_solve` and `operator_solve`. -/
theorem c146_iht (phi : ℕ → E) (n : ℕ) (mu : ℝ) (y : E) (K : ℕ) (hK : K ≤ n) (maxIters : ℕ) (rtol : ℝ) (s : GState 𝕜 E) (h : IhtSolve phi n mu y K maxIters rtol s) :
    Explains phi n y K s.signal s.r ∧ s.rr = ‖s.r‖ ^ 2 := by
  obtain ⟨h1, h2, -⟩ := c50_iht_state phi n mu y K hK _ s h.1
  exact ⟨h1.explains h2, h1.normsq⟩

/-- **C146** IHT with the normalised step, when the result is a number. -/
theorem c146_niht (phi : ℕ → E) (n : ℕ) (y : E) (K : ℕ) (hK : K ≤ n) (maxIters : ℕ) (rtol : ℝ) (s : GState 𝕜 E) (h : NihtSolve phi n y K maxIters rtol (some s)) :
    Explains phi n y K s.signal s.r ∧ s.rr = ‖s.r‖ ^ 2 := by
  obtain ⟨h1, h2, -⟩ := c50_niht_state phi n y K hK _ s h.1
  exact ⟨h1.explains h2, h1.normsq⟩

/-- **C146** HTP with a given step, `matrix_solve` and `operator_solve`. -/
theorem c146_htp (phi : ℕ → E) (n : ℕ) (mu : ℝ) (lstsq : List ℕ → E → List 𝕜) (y : E) (K : ℕ) (hl : ∀ I, IsLstsq phi I y (lstsq I y)) (hK : K ≤ n) (maxIters : ℕ) (rtol : ℝ) (s : GState 𝕜 E)
    (h : HtpSolve phi n mu lstsq y K maxIters rtol s) : Explains phi n y K s.signal s.r ∧ s.rr = ‖s.r‖ ^ 2 := by
  obtain ⟨h1, h2, -⟩ := c49_htp_state phi n mu lstsq y K hl hK _ s h.1
  exact ⟨h1.explains h2, h1.normsq⟩

/-- **C146** subspace pursuit, both versions, for results whose indices are distinct. Missing: repeated indices, see `c146_sp_fails`. -/
theorem c146_sp_partial (phi : ℕ → E) (n : ℕ) (lstsq : List ℕ → E → List 𝕜) (y : E) (K : ℕ) (hl : ∀ I z, IsLstsq phi I z (lstsq I z)) (hK : K ≤ n) (maxIters : ℕ) (rtol : ℝ) (s : GState 𝕜 E)
    (h : SpMatrixSolve phi n lstsq y K maxIters rtol s ∨ y ≠ 0 ∧ SpOperatorSolve phi n lstsq y K maxIters rtol s) (hd : s.I.Nodup) :
    Explains phi n y K s.signal s.r ∧ s.rr = ‖s.r‖ ^ 2 := by
  have h1 : GoodState phi n y K s := by
    rcases h with h | ⟨hy, h⟩
    · exact (c48_sp_state phi n lstsq y K (fun I => hl I y) hK _ s h.1).1
    · exact ((c48_sp_operator phi n lstsq y hy K maxIters rtol hl hK).2 s h).1
  exact ⟨h1.explains hd, h1.normsq⟩

/-- **C146** CoSaMP, both versions, for results whose indices are distinct. Missing: repeated indices. -/
theorem c146_cosamp_partial (phi : ℕ → E) (n : ℕ) (lstsq : List ℕ → E → List 𝕜) (y : E) (K : ℕ) (hl : ∀ I z, IsLstsq phi I z (lstsq I z)) (hK : K ≤ n) (maxIters : ℕ) (rtol : ℝ) (s : GState 𝕜 E)
    (h : CosampMatrixSolve phi n lstsq y K maxIters rtol s ∨ y ≠ 0 ∧ CosampOperatorSolve phi n lstsq y K maxIters rtol s) (hd : s.I.Nodup) :
    Explains phi n y K s.signal s.r ∧ s.rr = ‖s.r‖ ^ 2 := by
  have h1 : GoodState phi n y K s := by
    rcases h with h | ⟨hy, h⟩
    · exact c47_cosamp_state phi n lstsq y K (fun I => hl I y) hK _ s h.1
    · exact (c47_cosamp_operator phi n lstsq y hy K maxIters rtol hl hK s h).1
  exact ⟨h1.explains hd, h1.normsq⟩

section
variable {E : Type*} [NormedAddCommGroup E] [InnerProductSpace ℝ E]

theorem lin_range (phi : ℕ → E) (J : ℕ → ℕ) (x : ℕ → ℝ) (k : ℕ) : ∀ m, lin phi ((List.range' m k).map J) ((List.range' m k).map x) = ∑ i ∈ Finset.range k, x (m + i) • phi (J (m + i)) := by
  induction k with
  | zero => intro m; simp [lin]
  | succ k ih =>
    intro m
    rw [List.range'_succ, List.map_cons, List.map_cons, lin, ih, Finset.sum_range_succ', add_comm]
    congr 1
    refine Finset.sum_congr rfl fun i _ => ?_
    rw [show m + (i + 1) = m + 1 + i by omega]

theorem OmpGood.explains {phi : ℕ → E} {n : ℕ} {y : E} {s : OmpState E} (h : OmpGood phi n y s) : Explains phi n y s.k s.signal s.r := by
  have hk : ((List.range s.k).map s.I).length = s.k := by simp
  have := explains_of_list phi n y ((List.range s.k).map s.I) ((List.range s.k).map s.x) s.r ?_ ?_ (by simp) ?_
  · rw [hk] at this; exact this
  · refine List.Nodup.map_on (fun i hi j hj hij => h.distinct i j (List.mem_range.1 hi) (List.mem_range.1 hj) hij) List.nodup_range
  · intro i hi
    obtain ⟨j, hj, rfl⟩ := List.mem_map.1 hi
    exact h.range j (List.mem_range.1 hj)
  · have := lin_range phi s.I s.x s.k 0
    rw [h.residual, List.range_eq_range', this]
    simp

/-- **C146** `omp.matrix_solve` on a dictionary of unit-norm atoms, while the residual is correlated with some atom: `K` atoms are used. Missing: what happens after an exact fit (see C46). -/
theorem c146_omp_matrix_partial (phi : ℕ → E) (n : ℕ) (hn : 0 < n) (hu : ∀ i, i < n → ‖phi i‖ = 1) (y : E) (K : ℕ) (s : OmpState E) (h : ompMatrixSolve phi n y K = some s)
    (hcor : ∀ j < K - 1, ∃ i, i < n ∧ ⟪phi i, (ompSeq phi n y j).r⟫ ≠ 0) : Explains phi n y K s.signal s.r ∧ s.rr = ‖s.r‖ ^ 2 := by
  have hK : 2 ≤ K := by
    by_contra hK
    rw [(c46_matrix_solve phi n y K).2 (by omega)] at h
    cases h
  obtain ⟨h1, h2⟩ := (c46_matrix_solve phi n y K).1 hK
  rw [h1] at h
  cases h
  obtain ⟨-, g, -, e⟩ := c45_omp_least_squares_partial phi n hn hu y (K - 1) hcor
  have ge := g.explains
  rw [h2] at ge
  exact ⟨ge, e⟩

/-- **C146** `omp.operator_solve` on a spanning dictionary of unit-norm atoms, when the first atom is not an exact fit. Missing: what happens after an exact fit (see C46). -/
theorem c146_omp_operator_partial (phi : ℕ → E) (n : ℕ) (hn : 0 < n) (hu : ∀ i, i < n → ‖phi i‖ = 1) (hspan : ∀ r : E, r ≠ 0 → ∃ i, i < n ∧ ⟪phi i, r⟫ ≠ 0)
    (y : E) (hy : y ≠ 0) (K : ℕ) (hK : 1 ≤ K) (rtol : ℝ) (hfirst : (ompInit phi n ((1 / ‖y‖) • y)).r ≠ 0) (s : OmpState E) (h : OmpOperatorSolve phi n y K rtol s) :
    Explains phi n y s.k s.signal s.r ∧ s.k ≤ K := by
  obtain ⟨g, -, hk, -⟩ := (c46_operator_solve_partial phi n hn hu hspan y hy K hK rtol hfirst).2 s h
  exact ⟨g.explains, hk⟩
end

/-- The coefficients of every state of subspace pursuit are those of `lstsq` on its support. -/
theorem sp_coeff (phi : ℕ → E) (n : ℕ) (lstsq : List ℕ → E → List 𝕜) (y : E) (K : ℕ) (c : GState 𝕜 E → Prop) (s : GState 𝕜 E)
    (h : Reach c (spBody phi n lstsq y K) (spInit phi n lstsq y K) s) : s.x = lstsq s.I y := by
  cases h with
  | init => rfl
  | step _ _ => rfl

/-- **C146 fails** for subspace pursuit when an index is repeated: with atoms `e0, e1` in three-dimensional space, `y = 2 e0 + e1 + e2` and `K = 2`, the solution selects `e0` twice, the two coefficients are both
stored at the same position of the signal, one overwriting the other, and so the signal does not explain the data up to the residual. -/
theorem c146_sp_fails (lstsq : List ℕ → EuclideanSpace ℝ (Fin 3) → List ℝ) (hl : ∀ I y, IsLstsq spaceAtoms I y (lstsq I y)) :
    ∃ s, SpMatrixSolve spaceAtoms 2 lstsq !₂[2, 1, 1] 2 2 (1 / 10) s ∧ s.signal 0 = 1 ∧ ¬ Explains spaceAtoms 2 !₂[2, 1, 1] 2 s.signal s.r := by
  obtain ⟨s, hs, hI, -⟩ := c48_distinct_fails lstsq hl
  refine ⟨s, hs, ?_⟩
  have hx := sp_coeff _ _ _ _ _ _ s hs.1
  have hg := (c48_sp_state spaceAtoms 2 lstsq !₂[2, 1, 1] 2 (fun I => hl I _) le_rfl _ s hs.1).1
  rw [hI] at hx
  have hL := hl [0, 0] !₂[2, 1, 1]
  rw [← hx] at hL
  have hlen := hL.length
  have hr := hg.residual
  rw [hI] at hr
  match hxe : s.x, hlen with
  | [a, b], _ =>
    rw [hxe] at hL hr
    have n0 := hL.normal 0 (by simp)
    rw [space0] at n0
    simp [lin, spaceAtoms] at n0
    have hm := hL.minNorm [1, 1] rfl (fun i hi => by
      have : i = 0 := by simpa using hi
      subst this
      rw [space0]; simp [lin, spaceAtoms]; norm_num)
    simp at hm
    have hb : b = 1 := by nlinarith [sq_nonneg (a - b)]
    have ha : a = 1 := by linarith
    subst ha; subst hb
    have hsig : ∀ j, s.signal j = if j = 0 then 1 else 0 := fun j => by
      rw [GState.signal, hI, hxe]
      by_cases h : j = 0
      · subst h; simp [buildSignal]
      · simp [buildSignal, h, Ne.symm h]
    refine ⟨by rw [hsig, if_pos rfl], fun he => ?_⟩
    have h0 := congrFun (congrArg (WithLp.ofLp) he.residual) 0
    rw [hr] at h0
    simp [hsig, lin, spaceAtoms, Finset.sum_range_succ] at h0
    norm_num at h0

/-! ## Concrete cases -/

example : ∃ lstsq : List ℕ → EuclideanSpace ℝ (Fin 3) → List ℝ, ∀ I y, IsLstsq spaceAtoms I y (lstsq I y) :=
  ⟨fun I y => (exists_lstsq spaceAtoms I y).choose, fun I y => (exists_lstsq spaceAtoms I y).choose_spec⟩

example (lstsq : List ℕ → EuclideanSpace ℝ (Fin 3) → List ℝ) (hl : ∀ I y, IsLstsq spaceAtoms I y (lstsq I y)) :
    (∃ s, SpMatrixSolve spaceAtoms 2 lstsq !₂[2, 1, 1] 1 5 (1 / 10) s) ∧ ∀ s, SpMatrixSolve spaceAtoms 2 lstsq !₂[2, 1, 1] 1 5 (1 / 10) s → Explains spaceAtoms 2 !₂[2, 1, 1] 1 s.signal s.r := by
  refine ⟨(c48_sp_matrix_stop spaceAtoms 2 lstsq !₂[2, 1, 1] 1 5 (1 / 10) (fun I => hl I _) (by norm_num)).1, fun s h => (c146_sp_partial spaceAtoms 2 lstsq _ 1 hl (by norm_num) 5 _ s (Or.inl h) ?_).1⟩
  have := (c48_sp_state spaceAtoms 2 lstsq !₂[2, 1, 1] 1 (fun I => hl I _) (by norm_num) _ s h.1).1.size
  match s.I, this with
  | [_], _ => simp

example (lstsq : List ℕ → EuclideanSpace ℝ (Fin 3) → List ℝ) (hl : ∀ I y, IsLstsq spaceAtoms I y (lstsq I y)) :
    (∃ s, CosampMatrixSolve spaceAtoms 2 lstsq !₂[2, 1, 1] 1 5 (1 / 10) s) ∧ ∀ s, CosampMatrixSolve spaceAtoms 2 lstsq !₂[2, 1, 1] 1 5 (1 / 10) s → Explains spaceAtoms 2 !₂[2, 1, 1] 1 s.signal s.r := by
  have hy : (!₂[2, 1, 1] : EuclideanSpace ℝ (Fin 3)) ≠ 0 := fun h => by simpa using congrFun (congrArg WithLp.ofLp h) 0
  refine ⟨(c47_cosamp_stop spaceAtoms 2 lstsq !₂[2, 1, 1] hy 1 5 (1 / 10) hl (by norm_num)).1, fun s h => (c146_cosamp_partial spaceAtoms 2 lstsq _ 1 hl (by norm_num) 5 _ s (Or.inl h) ?_).1⟩
  have := (c47_cosamp_state spaceAtoms 2 lstsq !₂[2, 1, 1] 1 (fun I => hl I _) (by norm_num) _ s h.1).size
  match s.I, this with
  | [_], _ => simp

example : (∃ s : GState ℝ _, IhtSolve spaceAtoms 2 1 !₂[2, 1, 1] 2 7 (1 / 10) s) ∧ ∀ s : GState ℝ _, IhtSolve spaceAtoms 2 1 !₂[2, 1, 1] 2 7 (1 / 10) s → Explains spaceAtoms 2 !₂[2, 1, 1] 2 s.signal s.r :=
  ⟨(c50_iht_stop (𝕜 := ℝ) spaceAtoms 2 1 !₂[2, 1, 1] 2 7 (1 / 10) le_rfl).1, fun s h => (c146_iht spaceAtoms 2 1 _ 2 le_rfl 7 _ s h).1⟩

example (lstsq : List ℕ → EuclideanSpace ℝ (Fin 3) → List ℝ) (hl : ∀ I y, IsLstsq spaceAtoms I y (lstsq I y)) :
    (∃ s, HtpSolve spaceAtoms 2 1 lstsq !₂[2, 1, 1] 2 7 (1 / 10) s) ∧ ∀ s, HtpSolve spaceAtoms 2 1 lstsq !₂[2, 1, 1] 2 7 (1 / 10) s → Explains spaceAtoms 2 !₂[2, 1, 1] 2 s.signal s.r :=
  ⟨(c49_htp_stop spaceAtoms 2 1 lstsq !₂[2, 1, 1] 2 7 (1 / 10) (fun I => hl I _) le_rfl).1, fun s h => (c146_htp spaceAtoms 2 1 lstsq _ 2 (fun I => hl I _) le_rfl 7 _ s h).1⟩

end Verif.Pursuit
