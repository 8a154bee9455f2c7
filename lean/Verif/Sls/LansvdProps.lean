import Verif.Sls.LanProps
import Verif.Sls.LansvdModel
import Mathlib.Analysis.InnerProductSpace.Orthonormal
import Mathlib.LinearAlgebra.FiniteDimensional.Lemmas
import Mathlib.Tactic.IntervalCases

set_option autoImplicit false
/-!
# Lanczos SVD (C95)
-/
noncomputable section
namespace Verif.Sls
open scoped RealInnerProductSpace

/-! ## Specification -/

/-- Entry `(l, c)` of the lower bidiagonal matrix with diagonal `alpha` and subdiagonal `beta_1, beta_2, …`. -/
def bidiag (alpha beta : ℕ → ℝ) (l c : ℕ) : ℝ := if l = c then alpha c else if l = c + 1 then beta (c + 1) else 0

/-- The contract of `bdsqr(alpha, beta, j)`: the reduced SVD `B = P diag(S) Qh` of the `(j+1) × j` bidiagonal matrix, singular values in decreasing order, and the bottom row of `P`. -/
structure BdsqrOk (alpha beta : ℕ → ℝ) (j : ℕ) (P : ℕ → ℕ → ℝ) (S : ℕ → ℝ) (Qh : ℕ → ℕ → ℝ) (bot : ℕ → ℝ) : Prop where
  orthoP : ∀ a < j, ∀ b < j, ∑ l ∈ Finset.range (j + 1), P l a * P l b = if a = b then 1 else 0
  orthoQ : ∀ a < j, ∀ b < j, ∑ c ∈ Finset.range j, Qh a c * Qh b c = if a = b then 1 else 0
  factor : ∀ l ≤ j, ∀ c < j, bidiag alpha beta l c = ∑ i ∈ Finset.range j, P l i * S i * Qh i c
  nonneg : ∀ i < j, 0 ≤ S i
  anti : ∀ a b, a ≤ b → b < j → S b ≤ S a
  bottom : ∀ i < j, bot i = P j i

/-- `bdsqr` meets its contract on `alpha`, `beta`, `j`. -/
def SvdEnvOk (senv : SvdEnv) (alpha beta : ℕ → ℝ) (j : ℕ) : Prop := BdsqrOk alpha beta j (senv.bdsqr alpha beta j).1 (senv.bdsqr alpha beta j).2.1 (senv.bdsqr alpha beta j).2.2.1 (senv.bdsqr alpha beta j).2.2.2

/-! ## Lemmas -/

section
variable {E F G : Type*} [NormedAddCommGroup E] [InnerProductSpace ℝ E] [NormedAddCommGroup F] [InnerProductSpace ℝ F] [NormedAddCommGroup G] [InnerProductSpace ℝ G]

theorem OrthoCols.inner_sum {j : ℕ} {Q : ℕ → G} (h : OrthoCols j Q) (x y : ℕ → ℝ) :
    ⟪∑ l ∈ Finset.range j, x l • Q l, ∑ l ∈ Finset.range j, y l • Q l⟫ = ∑ l ∈ Finset.range j, x l * y l := by
  rw [sum_inner]
  refine Finset.sum_congr rfl fun a ha => ?_
  rw [_root_.inner_sum, Finset.sum_eq_single a]
  · rw [real_inner_smul_left, real_inner_smul_right, h a (Finset.mem_range.mp ha) a (Finset.mem_range.mp ha), if_pos rfl, mul_one]
  · intro b hb hba
    rw [real_inner_smul_left, real_inner_smul_right, h a (Finset.mem_range.mp ha) b (Finset.mem_range.mp hb), if_neg (Ne.symm hba)]; ring
  · intro ha'; exact absurd ha ha'

theorem BdsqrOk.row {alpha beta : ℕ → ℝ} {j : ℕ} {P : ℕ → ℕ → ℝ} {S : ℕ → ℝ} {Qh : ℕ → ℕ → ℝ} {bot : ℕ → ℝ} (h : BdsqrOk alpha beta j P S Qh bot) {l i : ℕ} (hl : l ≤ j) (hi : i < j) :
    ∑ c ∈ Finset.range j, bidiag alpha beta l c * Qh i c = P l i * S i := by
  have : ∀ c ∈ Finset.range j, bidiag alpha beta l c * Qh i c = ∑ a ∈ Finset.range j, P l a * S a * (Qh a c * Qh i c) := by
    intro c hc
    rw [h.factor l hl c (Finset.mem_range.mp hc), Finset.sum_mul]
    exact Finset.sum_congr rfl fun a _ => by ring
  rw [Finset.sum_congr rfl this, Finset.sum_comm, Finset.sum_eq_single i]
  · rw [← Finset.mul_sum, h.orthoQ i hi i hi, if_pos rfl, mul_one]
  · intro a ha hai
    rw [← Finset.mul_sum, h.orthoQ a (Finset.mem_range.mp ha) i hi, if_neg hai, mul_zero]
  · intro h'; exact absurd (Finset.mem_range.mpr hi) h'

theorem BdsqrOk.col {alpha beta : ℕ → ℝ} {j : ℕ} {P : ℕ → ℕ → ℝ} {S : ℕ → ℝ} {Qh : ℕ → ℕ → ℝ} {bot : ℕ → ℝ} (h : BdsqrOk alpha beta j P S Qh bot) {c i : ℕ} (hc : c < j) (hi : i < j) :
    ∑ l ∈ Finset.range (j + 1), P l i * bidiag alpha beta l c = S i * Qh i c := by
  have : ∀ l ∈ Finset.range (j + 1), P l i * bidiag alpha beta l c = ∑ a ∈ Finset.range j, S a * Qh a c * (P l i * P l a) := by
    intro l hl
    rw [h.factor l (by have := Finset.mem_range.mp hl; omega) c hc, Finset.mul_sum]
    exact Finset.sum_congr rfl fun a _ => by ring
  rw [Finset.sum_congr rfl this, Finset.sum_comm, Finset.sum_eq_single i]
  · rw [← Finset.mul_sum, h.orthoP i hi i hi, if_pos rfl, mul_one]
  · intro a ha hai
    rw [← Finset.mul_sum, h.orthoP i hi a (Finset.mem_range.mp ha), if_neg (Ne.symm hai), mul_zero]
  · intro h'; exact absurd (Finset.mem_range.mpr hi) h'

/-- The last row of the bidiagonal matrix. -/
theorem BdsqrOk.last {alpha beta : ℕ → ℝ} {j : ℕ} {P : ℕ → ℕ → ℝ} {S : ℕ → ℝ} {Qh : ℕ → ℕ → ℝ} {bot : ℕ → ℝ} (h : BdsqrOk alpha beta j P S Qh bot) {i : ℕ} (hi : i < j) :
    beta j * Qh i (j - 1) = bot i * S i := by
  rw [h.bottom i hi, ← h.row le_rfl hi, Finset.sum_eq_single (j - 1)]
  · rw [bidiag, if_neg (by omega), if_pos (by omega), Nat.sub_add_cancel (by omega)]
  · intro c hc hcj
    have := Finset.mem_range.mp hc
    rw [bidiag, if_neg (by omega), if_neg (by omega), zero_mul]
  · intro h'; exact absurd (Finset.mem_range.mpr (by omega)) h'

/-- The columns of `A V`. -/
theorem LanInv.times_col {A : E →ₗ[ℝ] F} {trans : F → E} {j : ℕ} {s : LanState E F} (hi : LanInv A trans j s) :
    ∃ q, (∀ i < j, ⟪s.U i, q⟫ = 0) ∧ ‖q‖ = s.beta j ∧ ∀ c < j, A (s.V c) = ∑ l ∈ Finset.range j, bidiag s.alpha s.beta l c • s.U l + if c = j - 1 then q else 0 := by
  obtain ⟨q, h1, h2, h3, -⟩ := hi.last
  refine ⟨q, h2, h3, fun c hc => ?_⟩
  split_ifs with hl
  · rw [Finset.sum_eq_single c]
    · rw [bidiag, if_pos rfl, hl, h1]
    · intro l hl' hlc
      have := Finset.mem_range.mp hl'
      rw [bidiag, if_neg hlc, if_neg (by omega), zero_smul]
    · intro h'; exact absurd (Finset.mem_range.mpr hc) h'
  · rw [add_zero, hi.ti c (by omega), ← Finset.add_sum_erase _ _ (Finset.mem_range.mpr hc), Finset.sum_eq_single (c + 1)]
    · rw [bidiag, bidiag, if_pos rfl, if_neg (by omega), if_pos rfl]
    · intro l hl' hlc
      have := Finset.mem_erase.mp hl'
      rw [bidiag, if_neg this.1, if_neg hlc, zero_smul]
    · intro h'
      exact absurd (Finset.mem_erase.mpr ⟨by omega, Finset.mem_range.mpr (by omega)⟩) h'

/-- All `j` Ritz vectors: products, and the residual of the singular vector equation. -/
theorem ritz {A : E →ₗ[ℝ] F} {trans : F → E} {j : ℕ} {s : LanState E F} (hi : LanInv A trans j s) {P : ℕ → ℕ → ℝ} {S : ℕ → ℝ} {Qh : ℕ → ℕ → ℝ} {bot : ℕ → ℝ}
    (h : BdsqrOk s.alpha s.beta j P S Qh bot) :
    ∃ q, (∀ i < j, ⟪s.U i, q⟫ = 0) ∧ ‖q‖ = s.beta j ∧ ∀ i < j, A (∑ c ∈ Finset.range j, Qh i c • s.V c) = S i • (∑ l ∈ Finset.range j, P l i • s.U l) + Qh i (j - 1) • q := by
  obtain ⟨q, h1, h2, h3⟩ := hi.times_col
  refine ⟨q, h1, h2, fun i hij => ?_⟩
  have hpos := hi.pos
  rw [map_sum]
  have : ∀ c ∈ Finset.range j, A (Qh i c • s.V c) = ∑ l ∈ Finset.range j, (bidiag s.alpha s.beta l c * Qh i c) • s.U l + if c = j - 1 then Qh i c • q else 0 := by
    intro c hc
    rw [map_smul, h3 c (Finset.mem_range.mp hc), smul_add, Finset.smul_sum, smul_ite, smul_zero]
    congr 1
    exact Finset.sum_congr rfl fun l _ => by rw [smul_smul, mul_comm]
  rw [Finset.sum_congr rfl this, Finset.sum_add_distrib, Finset.sum_comm, Finset.sum_ite_eq' (Finset.range j) (j - 1), if_pos (Finset.mem_range.mpr (by omega)), Finset.smul_sum]
  congr 1
  refine Finset.sum_congr rfl fun l hl => ?_
  rw [← Finset.sum_smul, h.row (Finset.mem_range.mp hl).le hij, smul_smul, mul_comm]

theorem ritz_U {A : E →ₗ[ℝ] F} {trans : F → E} {j : ℕ} {s : LanState E F} (hi : LanInv A trans j s) {P : ℕ → ℕ → ℝ} {S : ℕ → ℝ} {Qh : ℕ → ℕ → ℝ} {bot : ℕ → ℝ}
    (h : BdsqrOk s.alpha s.beta j P S Qh bot) (a : ℕ) (ha : a < j) (b : ℕ) (hb : b < j) :
    ⟪∑ l ∈ Finset.range j, P l a • s.U l, ∑ l ∈ Finset.range j, P l b • s.U l⟫ = (if a = b then 1 else 0) - bot a * bot b := by
  rw [hi.U.inner_sum, ← h.orthoP a ha b hb, Finset.sum_range_succ, h.bottom a ha, h.bottom b hb]; ring

theorem ritz_V {A : E →ₗ[ℝ] F} {trans : F → E} {j : ℕ} {s : LanState E F} (hi : LanInv A trans j s) {P : ℕ → ℕ → ℝ} {S : ℕ → ℝ} {Qh : ℕ → ℕ → ℝ} {bot : ℕ → ℝ}
    (h : BdsqrOk s.alpha s.beta j P S Qh bot) : OrthoCols j (fun i => ∑ c ∈ Finset.range j, Qh i c • s.V c) := by
  intro a ha b hb
  rw [hi.V.inner_sum, h.orthoQ a ha b hb]

theorem ritz_AV {A : E →ₗ[ℝ] F} {trans : F → E} {j : ℕ} {s : LanState E F} (hi : LanInv A trans j s) {P : ℕ → ℕ → ℝ} {S : ℕ → ℝ} {Qh : ℕ → ℕ → ℝ} {bot : ℕ → ℝ}
    (h : BdsqrOk s.alpha s.beta j P S Qh bot) (a : ℕ) (ha : a < j) (b : ℕ) (hb : b < j) :
    ⟪A (∑ c ∈ Finset.range j, Qh a c • s.V c), A (∑ c ∈ Finset.range j, Qh b c • s.V c)⟫ = if a = b then S a ^ 2 else 0 := by
  obtain ⟨q, h1, h2, h3⟩ := ritz hi h
  have hq : ∀ i, ⟪∑ l ∈ Finset.range j, P l i • s.U l, q⟫ = 0 := by
    intro i
    rw [sum_inner]
    exact Finset.sum_eq_zero fun l hl => by rw [real_inner_smul_left, h1 l (Finset.mem_range.mp hl), mul_zero]
  rw [h3 a ha, h3 b hb, inner_add_left, inner_add_right, inner_add_right]
  simp only [real_inner_smul_left, real_inner_smul_right]
  rw [real_inner_comm _ q, hq a, hq b, real_inner_self_eq_norm_sq, h2, ritz_U hi h a ha b hb]
  have ea := h.last ha
  have eb := h.last hb
  split_ifs with hab
  · subst hab
    linear_combination (s.beta j * Qh a (j - 1) + bot a * S a) * ea
  · linear_combination (s.beta j * Qh b (j - 1)) * ea + bot a * S a * eb

theorem lanSteps_le (m n k : ℕ) : lanSteps m n k ≤ lanMax m n k := min_le_right _ _

theorem le_lanSteps {m n k : ℕ} (h : k ≤ lanMax m n k) : k ≤ lanSteps m n k := le_min (by omega) h

/-- A result of `lansvd_simple` comes from a state that satisfies the invariant. -/
theorem lansvd_inv {env : LanEnv E F} {senv : SvdEnv} {A : E →ₗ[ℝ] F} {trans : F → E} {o : LanOptions} (hs : LanSetting env A trans o) {m n k : ℕ} (hk : 0 < k) {p0 : F} (hp0 : trans p0 ≠ 0)
    {r : SvdOut E F} (h : lansvd env senv A trans m n k p0 o = some r) (hd : r.state.dropped = 0) :
    k ≤ lanSteps m n k ∧ LanInv A trans (lanSteps m n k) r.state ∧ r = lansvdFinish senv n k (lanSteps m n k) o.machEps r.state := by
  unfold lansvd at h
  split_ifs at h with hkl
  obtain ⟨s, h1, rfl⟩ := Option.map_eq_some_iff.mp h
  have hks := le_lanSteps hkl
  have hle := lanSteps_le m n k
  have := lanbproFrom_inv hs hp0 (lanSteps m n k - 1) (by omega) s h1 hd.le
  rw [Nat.sub_add_cancel (by omega)] at this
  exact ⟨hks, this, rfl⟩

/-! ## Properties -/

/-- **C95** `U, S, V, … = lansvd_simple(A, k, p0)`, when it returns without NaN and no nonzero residual was replaced: the `k` columns of `V` are orthonormal, `S` is decreasing and non-negative, `‖A V_i‖ = S_i` and the vectors `A V_i` are orthogonal
(so every `S_i` is at most the norm of `A`), `‖U_i‖ ≤ 1`, and the residual of the singular vector equation is `‖A V_i - S_i U_i‖² = S_i² (1 - ‖U_i‖²)`.
What is missing from the full statement: the columns of `U` are not orthonormal (`c95_left_vectors_fail`), and `n_converged` is 0 when the decomposition is exact (`c95_count_fails`). -/
theorem c95_lansvd_partial {env : LanEnv E F} {senv : SvdEnv} {A : E →ₗ[ℝ] F} {trans : F → E} {o : LanOptions} (hs : LanSetting env A trans o) {m n k : ℕ} (hk : 0 < k) {p0 : F} (hp0 : trans p0 ≠ 0)
    {r : SvdOut E F} (h : lansvd env senv A trans m n k p0 o = some r) (hd : r.state.dropped = 0)
    (hse : SvdEnvOk senv r.state.alpha r.state.beta (lanSteps m n k)) :
    OrthoCols k r.V ∧ (∀ i < k, 0 ≤ r.S i) ∧ (∀ a b, a ≤ b → b < k → r.S b ≤ r.S a) ∧ (∀ i < k, ‖A (r.V i)‖ = r.S i) ∧ (∀ a < k, ∀ b < k, a ≠ b → ⟪A (r.V a), A (r.V b)⟫ = 0) ∧
    (∀ i < k, ‖r.U i‖ ≤ 1 ∧ ‖A (r.V i) - r.S i • r.U i‖ ^ 2 = r.S i ^ 2 * (1 - ‖r.U i‖ ^ 2)) := by
  obtain ⟨hkj, hi, hr⟩ := lansvd_inv hs hk hp0 h hd
  set j := lanSteps m n k with hj
  set s := r.state with hst
  have hB : BdsqrOk _ _ _ _ _ _ _ := hse
  rw [hr]
  refine ⟨fun a ha b hb => ritz_V hi hB a (by omega) b (by omega), fun i hik => hB.nonneg i (by omega), fun a b hab hbk => hB.anti a b hab (by omega), fun i hik => ?_, fun a ha b hb hab => ?_, fun i hik => ?_⟩
  · have := ritz_AV hi hB i (by omega) i (by omega)
    rw [if_pos rfl, real_inner_self_eq_norm_sq] at this
    exact (pow_left_inj₀ (norm_nonneg _) (hB.nonneg i (by omega)) two_ne_zero).mp this
  · have := ritz_AV hi hB a (by omega) b (by omega)
    rwa [if_neg hab] at this
  · obtain ⟨q, h1, h2, h3⟩ := ritz hi hB
    have hU := ritz_U hi hB i (by omega) i (by omega)
    rw [if_pos rfl, real_inner_self_eq_norm_sq] at hU
    have hres : A ((lansvdFinish senv n k j o.machEps s).V i) - (lansvdFinish senv n k j o.machEps s).S i • (lansvdFinish senv n k j o.machEps s).U i = (senv.bdsqr s.alpha s.beta j).2.2.1 i (j - 1) • q := by
      rw [sub_eq_iff_eq_add']
      exact h3 i (by omega)
    refine ⟨?_, ?_⟩
    · show ‖∑ l ∈ Finset.range j, (senv.bdsqr s.alpha s.beta j).1 l i • s.U l‖ ≤ 1
      refine (sq_le_one_iff₀ (norm_nonneg _)).mp ?_
      rw [hU]
      nlinarith [mul_self_nonneg ((senv.bdsqr s.alpha s.beta j).2.2.2 i)]
    · rw [hres, norm_smul, mul_pow, h2, Real.norm_eq_abs, sq_abs]
      show _ = (senv.bdsqr s.alpha s.beta j).2.1 i ^ 2 * (1 - ‖∑ l ∈ Finset.range j, (senv.bdsqr s.alpha s.beta j).1 l i • s.U l‖ ^ 2)
      rw [hU]
      have := hB.last (i := i) (by omega)
      linear_combination (s.beta j * (senv.bdsqr s.alpha s.beta j).2.2.1 i (j - 1) + (senv.bdsqr s.alpha s.beta j).2.2.2 i * (senv.bdsqr s.alpha s.beta j).2.1 i) * this

/-- **C95** When the number of iterations reaches the number of columns of `A` (which happens for `n ≤ 9`, and whenever `n ≤ 2k`), the values and right vectors are exact: there is an orthonormal basis `W` of eigenvectors of `AᵀA` whose eigenvalues `T_i²` decrease, and `S`, `V` are its first `k` entries. -/
theorem c95_lansvd_exact {env : LanEnv E F} {senv : SvdEnv} {A : E →ₗ[ℝ] F} {trans : F → E} {o : LanOptions} (hs : LanSetting env A trans o) {m n k : ℕ} (hk : 0 < k) {p0 : F} (hp0 : trans p0 ≠ 0)
    {r : SvdOut E F} (h : lansvd env senv A trans m n k p0 o = some r) (hd : r.state.dropped = 0)
    (hse : SvdEnvOk senv r.state.alpha r.state.beta (lanSteps m n k)) [FiniteDimensional ℝ E] (hn : Module.finrank ℝ E = n) (hnj : lanSteps m n k = n) :
    ∃ (W : ℕ → E) (T : ℕ → ℝ), OrthoCols n W ∧ (∀ i < n, 0 ≤ T i ∧ trans (A (W i)) = T i ^ 2 • W i) ∧ (∀ a b, a ≤ b → b < n → T b ≤ T a) ∧ k ≤ n ∧ ∀ i < k, r.V i = W i ∧ r.S i = T i := by
  obtain ⟨hkj, hi, hr⟩ := lansvd_inv hs hk hp0 h hd
  rw [hnj] at hkj hi hr hse
  set s := r.state with hst
  have hB : BdsqrOk _ _ _ _ _ _ _ := hse
  have hW := ritz_V hi hB
  refine ⟨r.V, r.S, ?_, ?_, ?_, hkj, fun i _ => ⟨rfl, rfl⟩⟩
  · rw [hr]; exact hW
  · intro i hin
    rw [hr]
    refine ⟨hB.nonneg i hin, ?_⟩
    set W : ℕ → E := fun i => ∑ c ∈ Finset.range n, (senv.bdsqr s.alpha s.beta n).2.2.1 i c • s.V c with hWdef
    show trans (A (W i)) = (senv.bdsqr s.alpha s.beta n).2.1 i ^ 2 • W i
    have hon : Orthonormal ℝ (fun i : Fin n => W i) := by
      rw [orthonormal_iff_ite]
      intro a b
      rw [hW a a.2 b b.2]
      simp only [Fin.ext_iff]
    have htop : Submodule.span ℝ (Set.range fun i : Fin n => W i) = ⊤ := hon.linearIndependent.span_eq_top_of_card_eq_finrank' (by simpa using hn.symm)
    rw [← sub_eq_zero]
    set x := trans (A (W i)) - (senv.bdsqr s.alpha s.beta n).2.1 i ^ 2 • W i with hx
    have hall : ∀ w ∈ Submodule.span ℝ (Set.range fun i : Fin n => W i), ⟪w, x⟫ = 0 := by
      intro w hw
      induction hw using Submodule.span_induction with
      | mem w hw =>
        obtain ⟨c, rfl⟩ := hw
        rw [hx, inner_sub_right, ← hs.adj, real_inner_smul_right, ritz_AV hi hB c c.2 i hin, hW c c.2 i hin]
        split_ifs with hci
        · rw [hci]; ring
        · ring
      | zero => exact inner_zero_left _
      | add a b _ _ ha hb => rw [inner_add_left, ha, hb, add_zero]
      | smul t a _ ha => rw [real_inner_smul_left, ha, mul_zero]
    have := hall x (by rw [htop]; trivial)
    exact inner_self_eq_zero.mp this
  · intro a b hab hbn
    rw [hr]; exact hB.anti a b hab hbn

end

/-- **C95** is violated: for `A = [[1, 0], [1, 1], [0, 1]]`, `k = 2` and the first unit vector the run meets the hypotheses of `c95_lansvd_exact`, so `S` and `V` are exact, but both columns of `U` are shorter than 1 and `A V_i ≠ S_i U_i`, whatever signs `bdsqr` chooses. -/
theorem c95_left_vectors_fail (senv : SvdEnv) (hse : ∀ alpha beta, alpha 0 = 1 → alpha 1 = 1 → beta 1 = 1 → beta 2 = 1 → SvdEnvOk senv alpha beta 2) :
    ∃ r, lansvd (exEnv _ _) senv exA exT 3 2 2 !₂[1, 0, 0] exOptions = some r ∧ r.state.dropped = 0 ∧ SvdEnvOk senv r.state.alpha r.state.beta 2 ∧
      ∀ i < 2, ‖r.U i‖ < 1 ∧ exA (r.V i) ≠ r.S i • r.U i := by
  obtain ⟨s, h1, h2, a0, a1, b1, b2⟩ := exA_run
  have hB : SvdEnvOk senv s.alpha s.beta 2 := hse _ _ a0 a1 b1 b2
  have hr : lansvd (exEnv _ _) senv exA exT 3 2 2 !₂[1, 0, 0] exOptions = some (lansvdFinish senv 2 2 2 exOptions.machEps s) := by
    show (lanbpro (exEnv _ _) exA exT 2 !₂[1, 0, 0] exOptions).map _ = _
    rw [h1]; rfl
  refine ⟨_, hr, h2, hB, fun i hi => ?_⟩
  obtain ⟨-, -, -, -, -, h⟩ := c95_lansvd_partial exA_setting (by norm_num) exA_start hr h2 hB
  obtain ⟨-, h5⟩ := h i hi
  obtain ⟨-, hinv, -⟩ := lansvd_inv exA_setting (by norm_num) exA_start hr h2
  have hU := ritz_U hinv hB i hi i hi
  rw [if_pos rfl, real_inner_self_eq_norm_sq] at hU
  have hB' : BdsqrOk _ _ _ _ _ _ _ := hB
  have hlast := hB'.last hi
  have hr0 := hB'.row (l := 0) (by norm_num) hi
  have hr1 := hB'.row (l := 1) (by norm_num) hi
  have hr2 := hB'.row (l := 2) (by norm_num) hi
  have hc1 := hB'.col (c := 1) (by norm_num) hi
  have hQ := hB'.orthoQ i hi i hi
  have hbt := hB'.bottom i hi
  simp only [Finset.sum_range_succ, Finset.sum_range_zero, bidiag] at hr0 hr1 hr2 hc1 hQ
  norm_num [a0, a1, b1, b2] at hr0 hr1 hr2 hc1 hQ hlast
  generalize (senv.bdsqr s.alpha s.beta 2).2.2.1 i 0 = x at *
  generalize (senv.bdsqr s.alpha s.beta 2).2.2.1 i 1 = y at *
  have hS : (senv.bdsqr s.alpha s.beta 2).2.1 i ≠ 0 := by
    intro h0
    rw [h0] at hr0 hr2
    rw [hr0, hr2] at hQ
    norm_num at hQ
  have hb : (senv.bdsqr s.alpha s.beta 2).2.2.2 i ≠ 0 := by
    intro h0
    have hp2 : (senv.bdsqr s.alpha s.beta 2).1 2 i = 0 := by rw [← hbt, h0]
    have hy : y = 0 := by rw [hr2, hp2, zero_mul]
    rw [hy, hp2] at hc1
    have hp1 : (senv.bdsqr s.alpha s.beta 2).1 1 i = 0 := by linarith
    rw [hp1, hy] at hr1
    have hx : x = 0 := by linarith
    rw [hx, hy] at hQ
    norm_num at hQ
  have hpos : 0 < (senv.bdsqr s.alpha s.beta 2).2.2.2 i * (senv.bdsqr s.alpha s.beta 2).2.2.2 i := mul_self_pos.mpr hb
  have hlt : ‖(lansvdFinish senv 2 2 2 exOptions.machEps s).U i‖ ^ 2 < 1 := by
    refine lt_of_eq_of_lt hU ?_
    linarith
  refine ⟨(sq_lt_one_iff₀ (norm_nonneg _)).mp hlt, fun heq => ?_⟩
  rw [heq, sub_self, norm_zero] at h5
  have : (lansvdFinish senv 2 2 2 exOptions.machEps s).S i ≠ 0 := hS
  have h6 : 0 < (lansvdFinish senv 2 2 2 exOptions.machEps s).S i ^ 2 * (1 - ‖(lansvdFinish senv 2 2 2 exOptions.machEps s).U i‖ ^ 2) := mul_pos (by positivity) (by linarith)
  rw [← h5] at h6
  norm_num at h6

/-- **C95** is violated: for every `1 × 1` matrix `a ≠ 0` the triplet is exact, but the bounds are NaN and `n_converged` is 0. -/
theorem c95_count_fails (env : LanEnv ℝ ℝ) (senv : SvdEnv) (a : ℝ) (ha : a ≠ 0) (o : LanOptions) (hs : LanSetting env (LinearMap.lsmul ℝ ℝ a) (fun y => a * y) o)
    (hse : ∀ alpha beta, alpha 0 = |a| → beta 1 = 0 → SvdEnvOk senv alpha beta 1) :
    ∃ r, lansvd env senv (LinearMap.lsmul ℝ ℝ a) (fun y => a * y) 1 1 1 1 o = some r ∧ r.state.dropped = 0 ∧ ‖r.U 0‖ = 1 ∧ ‖r.V 0‖ = 1 ∧ a * r.V 0 = r.S 0 * r.U 0 ∧ r.bnd = none ∧ r.nConverged = 0 := by
  obtain ⟨⟨s, h1, h2, h3⟩, -⟩ := c94_one_by_one_fails env a ha o hs
  have hp0 : (fun y => a * y) (1 : ℝ) ≠ 0 := by simpa using ha
  have hr : lansvd env senv (LinearMap.lsmul ℝ ℝ a) (fun y => a * y) 1 1 1 1 o = some (lansvdFinish senv 1 1 1 o.machEps s) := by
    show (lanbpro env (LinearMap.lsmul ℝ ℝ a) (fun y => a * y) 1 1 o).map _ = _
    rw [h1]; rfl
  obtain ⟨hU, hV, -, -, -, htr, -, q, -, hq, hqU, -⟩ := c94_bidiagonal_partial hs 1 one_pos 1 hp0 s h1 h3
  have hU0 : |s.U 0| = 1 := hU.norm one_pos
  have hV0 : |s.V 0| = 1 := hV.norm one_pos
  have halpha : s.alpha 0 = |a| := by
    have : a * s.U 0 = s.alpha 0 * s.V 0 := htr
    have h4 := congrArg abs this
    rw [abs_mul, abs_mul, hU0, hV0, mul_one, mul_one] at h4
    obtain ⟨hpos, -⟩ : 0 ≤ s.alpha 0 ∧ True := ⟨(lanbproFrom_inv hs hp0 0 one_pos s h1 h3.le).alpha 0 one_pos, trivial⟩
    rw [abs_of_nonneg hpos] at h4
    exact h4.symm
  have hbeta : s.beta 1 = 0 := by
    rw [← hq, norm_eq_zero]
    have := hqU 0 one_pos
    rcases mul_eq_zero.mp this with h | h
    · exact h
    · have h' : s.U 0 = 0 := h
      rw [h', abs_zero] at hU0
      norm_num at hU0
  have hB := hse _ _ halpha hbeta
  have hB' : BdsqrOk _ _ _ _ _ _ _ := hB
  obtain ⟨oV, -, -, hS, -, hres⟩ := c95_lansvd_partial hs one_pos hp0 hr h3 hB
  have hlast := hB'.last one_pos
  rw [hbeta, zero_mul] at hlast
  have hSne : (lansvdFinish senv 1 1 1 o.machEps s).S 0 ≠ 0 := by
    rw [← hS 0 one_pos]
    refine norm_ne_zero_iff.mpr (mul_ne_zero ha ?_)
    exact norm_ne_zero_iff.mp (by rw [oV.norm one_pos]; norm_num)
  have hbot : (senv.bdsqr s.alpha s.beta 1).2.2.2 0 = 0 := (mul_eq_zero.mp hlast.symm).resolve_right hSne
  obtain ⟨-, hinv, -⟩ := lansvd_inv hs one_pos hp0 hr h3
  have hUn := ritz_U hinv hB' 0 one_pos 0 one_pos
  rw [if_pos rfl, real_inner_self_eq_norm_sq, hbot, mul_zero, sub_zero] at hUn
  have hUn' : ‖(lansvdFinish senv 1 1 1 o.machEps s).U 0‖ = 1 := (pow_eq_one_iff_of_nonneg (norm_nonneg _) two_ne_zero).mp hUn
  refine ⟨_, hr, h3, hUn', oV.norm one_pos, ?_, ?_, ?_⟩
  · have := (hres 0 one_pos).2
    rw [hUn', one_pow, sub_self, mul_zero] at this
    exact sub_eq_zero.mp (norm_eq_zero.mp (pow_eq_zero_iff two_ne_zero |>.mp this))
  · show s.p.map _ = none
    rw [h2]; rfl
  · show countConverged 1 1 (s.p.map _) _ = 0
    rw [h2]
    simp [countConverged, List.findIdx, List.findIdx.go, List.range_succ]

/-! ## The hypotheses can be met -/

/-- The SVD of the bidiagonal matrix of the example. -/
def exSvd : SvdEnv where
  bdsqr _ _ _ := (fun l i => if i = 0 then (if l = 1 then 2 else 1) / Real.sqrt 6 else (if l = 0 then 1 else if l = 1 then 0 else -1) / Real.sqrt 2, fun i => if i = 0 then Real.sqrt 3 else 1,
    fun i c => (if i = 1 ∧ c = 1 then -1 else 1) / Real.sqrt 2, fun i => if i = 0 then 1 / Real.sqrt 6 else -1 / Real.sqrt 2)
  refineBounds _ _ bnd _ := bnd

theorem exSvd_ok (alpha beta : ℕ → ℝ) (a0 : alpha 0 = 1) (a1 : alpha 1 = 1) (b1 : beta 1 = 1) (b2 : beta 2 = 1) : SvdEnvOk exSvd alpha beta 2 := by
  have h2 : Real.sqrt 2 * Real.sqrt 2 = 2 := Real.mul_self_sqrt (by norm_num)
  have h3 : Real.sqrt 3 * Real.sqrt 3 = 3 := Real.mul_self_sqrt (by norm_num)
  have h6 : Real.sqrt 6 = Real.sqrt 2 * Real.sqrt 3 := by rw [← Real.sqrt_mul (by norm_num)]; norm_num
  have p2 : Real.sqrt 2 ≠ 0 := by positivity
  have p3 : Real.sqrt 3 ≠ 0 := by positivity
  constructor
  · intro a ha b hb
    interval_cases a <;> interval_cases b <;> simp [exSvd, Finset.sum_range_succ, h6] <;> field_simp <;> nlinarith
  · intro a ha b hb
    interval_cases a <;> interval_cases b <;> simp [exSvd, Finset.sum_range_succ] <;> field_simp <;> nlinarith
  · intro l hl c hc
    interval_cases l <;> interval_cases c <;> simp [exSvd, Finset.sum_range_succ, bidiag, a0, a1, b1, b2, h6] <;> field_simp <;> nlinarith
  · intro i hi
    interval_cases i <;> simp [exSvd]
  · intro a b hab hb
    interval_cases b <;> interval_cases a <;> simp [exSvd]
  · intro i hi
    interval_cases i <;> simp [exSvd]

/-- The hypotheses of `c95_lansvd_partial`, `c95_lansvd_exact` and `c95_left_vectors_fail` are met. -/
example : ∃ r, lansvd (exEnv _ _) exSvd exA exT 3 2 2 !₂[1, 0, 0] exOptions = some r ∧ r.state.dropped = 0 ∧ SvdEnvOk exSvd r.state.alpha r.state.beta (lanSteps 3 2 2) ∧ lanSteps 3 2 2 = 2 ∧
    Module.finrank ℝ (EuclideanSpace ℝ (Fin 2)) = 2 := by
  obtain ⟨r, h1, h2, h3, -⟩ := c95_left_vectors_fail exSvd exSvd_ok
  exact ⟨r, h1, h2, h3, rfl, by simp⟩

/-- The hypotheses of `c95_count_fails` are met. -/
example : ∃ senv : SvdEnv, ∀ alpha beta, alpha 0 = |(2 : ℝ)| → beta 1 = 0 → SvdEnvOk senv alpha beta 1 := by
  refine ⟨⟨fun alpha _ _ => (fun l _ => if l = 0 then 1 else 0, fun _ => alpha 0, fun _ _ => 1, fun _ => 0), fun _ _ bnd _ => bnd⟩, fun alpha beta h0 h1 => ?_⟩
  constructor
  · intro a ha b hb
    interval_cases a; interval_cases b
    simp [Finset.sum_range_succ]
  · intro a ha b hb
    interval_cases a; interval_cases b
    simp
  · intro l hl c hc
    interval_cases c
    interval_cases l <;> simp [bidiag, h1]
  · intro i _
    simp [h0]
  · intro a b _ _
    exact le_rfl
  · intro i _
    simp

/-! ## The number of iterations and the count of converged values -/

/-- **C95** The number of iterations is `k + max(8, k)`, or the smaller dimension when that is less: the limit `max(20, 4k)` never matters. The assertion only asks for
`k ≤ min(m, n)`. -/
theorem c95_steps (m n k : ℕ) : lanSteps m n k = min (k + max 8 k) (min m n) ∧ (k ≤ lanMax m n k ↔ k ≤ min m n) := by
  unfold lanSteps lanMax
  omega

example : lanSteps 100 50 10 = 20 ∧ lanSteps 100 15 10 = 15 := by decide

/-- **C95** The values counted as converged are the leading values, at most `min(j, k)` of them, whose error bound is below their magnitude; the count stops at the first value
for which this fails. -/
theorem c95_count (j k : ℕ) (bnd : Option (ℕ → ℝ)) (S : ℕ → ℝ) :
    countConverged j k bnd S ≤ j ∧ (∀ i < countConverged j k bnd S, i < k ∧ ∃ b, bnd = some b ∧ b i < |S i|) ∧
    (countConverged j k bnd S < min j k → ∀ b, bnd = some b → |S (countConverged j k bnd S)| ≤ b (countConverged j k bnd S)) := by
  classical
  unfold countConverged
  set f : ℕ → Bool := fun i => !(decide (i < min j k) && (match bnd with | none => false | some b => decide (b i < |S i|))) with hf
  have hle : (List.range j).findIdx f ≤ j := (List.findIdx_le_length).trans_eq List.length_range
  refine ⟨hle, fun i hi => ?_, fun hc b hb => ?_⟩
  · have := List.not_of_lt_findIdx hi
    rw [List.getElem_range] at this
    simp only [hf, Bool.not_eq_false', Bool.and_eq_true, decide_eq_true_eq] at this
    obtain ⟨h1, h2⟩ := this
    refine ⟨by omega, ?_⟩
    cases bnd with
    | none => cases h2
    | some b => exact ⟨b, rfl, by simpa using h2⟩
  · have hlt : (List.range j).findIdx f < (List.range j).length := by rw [List.length_range]; exact hc.trans_le (min_le_left _ _)
    have := List.findIdx_getElem (w := hlt)
    rw [List.getElem_range] at this
    subst hb
    simp only [hf, Bool.not_eq_true', Bool.and_eq_false_iff, decide_eq_false_iff_not, not_lt] at this hc ⊢
    rcases this with h | h
    · exact absurd hc (not_lt.2 h)
    · exact h

example : countConverged 3 2 (some fun _ => 1) (fun i => if i = 0 then 2 else 1) = 1 := by
  obtain ⟨-, h2, h3⟩ := c95_count 3 2 (some fun _ => 1) (fun i => if i = 0 then 2 else 1)
  set c := countConverged 3 2 (some fun _ => 1) (fun i => if i = 0 then 2 else 1)
  have a1 : ¬ 1 < c := fun h => by
    obtain ⟨-, b, hb, hl⟩ := h2 1 h
    injection hb with hb; subst hb
    norm_num at hl
  have a2 : c ≠ 0 := fun h => by
    have := h3 (by omega) _ rfl
    rw [h] at this
    norm_num at this
  omega

/-! Instances. -/

section
variable (r : SvdOut (EuclideanSpace ℝ (Fin 2)) (EuclideanSpace ℝ (Fin 3))) (h : lansvd (exEnv _ _) exSvd exA exT 3 2 2 !₂[1, 0, 0] exOptions = some r) (hd : r.state.dropped = 0)
  (hse : SvdEnvOk exSvd r.state.alpha r.state.beta (lanSteps 3 2 2))

example := c95_lansvd_partial exA_setting two_pos exA_start h hd hse
example := c95_lansvd_exact exA_setting two_pos exA_start h hd hse (by simp) rfl

end

example (senv : SvdEnv) (hse : ∀ alpha beta, alpha 0 = |(2 : ℝ)| → beta 1 = 0 → SvdEnvOk senv alpha beta 1) :=
  c95_count_fails (exEnv ℝ ℝ) senv 2 (by norm_num) exOptions (exEnv_setting _ _ (fun x y => by simp; ring) _ (by norm_num [exOptions]) (by norm_num [exOptions])) hse

end Verif.Sls
