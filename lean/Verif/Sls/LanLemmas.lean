import Verif.Sls.LanModel
import Mathlib.Tactic.LinearCombination
import Mathlib.Tactic.Positivity

set_option autoImplicit false
/-!
# Lanczos bidiagonalisation: specification of the external functions and lemmas
-/
noncomputable section
namespace Verif.Sls
open scoped RealInnerProductSpace

variable {E F G : Type*} [NormedAddCommGroup E] [InnerProductSpace ℝ E] [NormedAddCommGroup F] [InnerProductSpace ℝ F] [NormedAddCommGroup G] [InnerProductSpace ℝ G]

/-! ## Specification -/

/-- The first `j` columns are orthonormal. -/
def OrthoCols (j : ℕ) (Q : ℕ → G) : Prop := ∀ a < j, ∀ b < j, ⟪Q a, Q b⟫ = if a = b then 1 else 0

/-- The contract of `reorth_mgs`: for columns that are orthonormal, apart from zero columns, it subtracts from the vector its projections on the marked columns, and returns the norm of the result. -/
def ReorthOk (reorth : ℕ → (ℕ → G) → G → ℝ → (ℕ → Bool) → ℝ → G × ℝ) : Prop :=
  ∀ (k j : ℕ) (Q : ℕ → G) (r : G) (mask : ℕ → Bool) (gamma : ℝ), OrthoCols j Q → (∀ i, j ≤ i → Q i = 0) →
    let r' := r - ∑ i ∈ Finset.range k, if mask i then ⟪Q i, r⟫ • Q i else 0
    reorth k Q r ‖r‖ mask gamma = (r', ‖r'‖)

/-- The contract of `do_elr`: it subtracts from the vector its projection on the unit vector `w`, and returns the norm and the coefficient. -/
def ElrOk (elr : G → G → ℝ → ℝ → G × ℝ × ℝ) : Prop :=
  ∀ (w r : G) (gamma : ℝ), ‖w‖ = 1 → elr w r ‖r‖ gamma = (r - ⟪w, r⟫ • w, ‖r - ⟪w, r⟫ • w‖, ⟪w, r⟫)

/-- The setting: `A` with its adjoint, the contracts of the external functions, positive tolerances, and a start vector not in the kernel of the adjoint. -/
structure LanSetting (env : LanEnv E F) (A : E →ₗ[ℝ] F) (trans : F → E) (o : LanOptions) : Prop where
  adj : ∀ x y, ⟪A x, y⟫ = ⟪x, trans y⟫
  reorthE : ReorthOk env.reorthE
  reorthF : ReorthOk env.reorthF
  elrE : ElrOk env.elrE
  elrF : ElrOk env.elrF
  est : ∀ a b, 0 < a 0 → 0 < env.normEst a b
  eps : 0 < o.eps
  maxMN : 0 < o.maxMN

/-- The state after `j` columns: `U`, `V` have orthonormal columns; `A V = U B + p e_jᵀ`, `Aᵀ U = V Bᵀ` for the lower bidiagonal `B` with diagonal `alpha` and subdiagonal `beta`; the residual vector `p` is orthogonal to `U`. -/
structure LanInv (A : E →ₗ[ℝ] F) (trans : F → E) (j : ℕ) (s : LanState E F) : Prop where
  iters : s.iters = j
  pos : 0 < j
  U : OrthoCols j s.U
  V : OrthoCols j s.V
  Uz : ∀ i, j ≤ i → s.U i = 0
  Vz : ∀ i, j ≤ i → s.V i = 0
  tr0 : trans (s.U 0) = s.alpha 0 • s.V 0
  tr : ∀ i, i + 1 < j → trans (s.U (i + 1)) = s.alpha (i + 1) • s.V (i + 1) + s.beta (i + 1) • s.V i
  ti : ∀ i, i + 1 < j → A (s.V i) = s.alpha i • s.U i + s.beta (i + 1) • s.U (i + 1)
  last : ∃ q, A (s.V (j - 1)) = s.alpha (j - 1) • s.U (j - 1) + q ∧ (∀ i < j, ⟪s.U i, q⟫ = 0) ∧ ‖q‖ = s.beta j ∧ (q ≠ 0 → s.p = some q)
  pok : ∀ p, s.p = some p → (∀ i < j, ⟪s.U i, p⟫ = 0) ∧ ((s.beta j ≠ 0 ∧ ‖p‖ = s.beta j) ∨ (s.beta j = 0 ∧ ‖p‖ = 1))
  alpha0 : 0 < s.alpha 0
  alpha : ∀ i < j, 0 ≤ s.alpha i
  beta : ∀ i ≤ j, 0 ≤ s.beta i
  anorm : 0 < s.anorm

/-! ## Lemmas -/

theorem safeDivS_norm (p : G) (b : ℝ) (h : (b ≠ 0 ∧ ‖p‖ = b) ∨ (b = 0 ∧ ‖p‖ = 1)) : ‖safeDivS p b‖ = 1 := by
  unfold safeDivS
  rcases h with ⟨h1, h2⟩ | ⟨h1, h2⟩
  · rw [if_neg h1, norm_smul, h2, Real.norm_eq_abs, abs_of_nonneg (by rw [← h2]; positivity)]
    field_simp
  · rw [if_pos h1, h2]

theorem safeDivS_smul (p : G) (b : ℝ) : b • safeDivS p b = if b = 0 then 0 else p := by
  unfold safeDivS
  split_ifs with h
  · rw [h, zero_smul]
  · rw [smul_smul, mul_one_div_cancel h, one_smul]

theorem safeDivS_orth (w p : G) (b : ℝ) (h : ⟪w, p⟫ = 0) : ⟪w, safeDivS p b⟫ = 0 := by
  unfold safeDivS
  split_ifs
  · exact h
  · rw [real_inner_smul_right, h, mul_zero]

theorem OrthoCols.norm {j : ℕ} {Q : ℕ → G} (h : OrthoCols j Q) {i : ℕ} (hi : i < j) : ‖Q i‖ = 1 := by
  have := h i hi i hi
  rw [if_pos rfl, real_inner_self_eq_norm_sq] at this
  nlinarith [norm_nonneg (Q i)]

theorem OrthoCols.update {j : ℕ} {Q : ℕ → G} (h : OrthoCols j Q) {v : G} (hv : ‖v‖ = 1) (ho : ∀ i < j, ⟪Q i, v⟫ = 0) : OrthoCols (j + 1) (Function.update Q j v) := by
  intro a ha b hb
  by_cases ha' : a = j <;> by_cases hb' : b = j
  · subst ha' hb'
    simp [hv]
  · subst ha'
    rw [Function.update_self, Function.update_of_ne hb', if_neg (Ne.symm hb'), real_inner_comm]
    exact ho b (by omega)
  · subst hb'
    rw [Function.update_self, Function.update_of_ne ha', if_neg ha']
    exact ho a (by omega)
  · rw [Function.update_of_ne ha', Function.update_of_ne hb']
    exact h a (by omega) b (by omega)

/-- A vector orthogonal to all columns is left unchanged by `reorth_mgs`. -/
theorem ReorthOk.fix {reorth : ℕ → (ℕ → G) → G → ℝ → (ℕ → Bool) → ℝ → G × ℝ} (h : ReorthOk reorth) {k j : ℕ} {Q : ℕ → G} {r : G} (mask : ℕ → Bool) (gamma : ℝ)
    (hQ : OrthoCols j Q) (hz : ∀ i, j ≤ i → Q i = 0) (hr : ∀ i < j, ⟪Q i, r⟫ = 0) : reorth k Q r ‖r‖ mask gamma = (r, ‖r‖) := by
  have h0 : ∑ i ∈ Finset.range k, (if mask i then ⟪Q i, r⟫ • Q i else 0) = 0 := by
    refine Finset.sum_eq_zero fun i _ => ?_
    split_ifs
    · by_cases hi : i < j
      · rw [hr i hi, zero_smul]
      · rw [hz i (by omega), smul_zero]
    · rfl
  have := h k j Q r mask gamma hQ hz
  simp only at this
  rw [h0, sub_zero] at this
  exact this

theorem ElrOk.fix {elr : G → G → ℝ → ℝ → G × ℝ × ℝ} (h : ElrOk elr) {w r : G} (gamma : ℝ) (hw : ‖w‖ = 1) (hr : ⟪w, r⟫ = 0) : elr w r ‖r‖ gamma = (r, ‖r‖, 0) := by
  rw [h w r gamma hw, hr, zero_smul, sub_zero]

theorem newVecFrom_spec (gen : ℕ → G × ℝ) (P : G × ℝ → Prop) (hg : ∀ i, P (gen i)) : ∀ fuel i s, P s → P (newVecFrom gen fuel i s)
  | 0, _, s, hs => hs
  | fuel + 1, i, s, hs => by
    unfold newVecFrom
    split_ifs
    · exact newVecFrom_spec gen P hg fuel (i + 1) _ (hg i)
    · exact hs

/-- A vector returned by `new_p_vec`/`new_r_vec` is a unit vector orthogonal to the first `j` columns. -/
theorem newVec_spec {reorth : ℕ → (ℕ → G) → G → ℝ → (ℕ → Bool) → ℝ → G × ℝ} (h : ReorthOk reorth) {k j : ℕ} (hjk : j ≤ k) {Q : ℕ → G} (hQ : OrthoCols j Q) (hz : ∀ i, j ≤ i → Q i = 0)
    (draw : ℕ → G) (gamma : ℝ) {w : G} (hw : newVec (fun i => reorth k Q (draw i) ‖draw i‖ (fun i => decide (i < j)) gamma) = some w) :
    ‖w‖ = 1 ∧ ∀ i < j, ⟪Q i, w⟫ = 0 := by
  set gen : ℕ → G × ℝ := fun i => reorth k Q (draw i) ‖draw i‖ (fun i => decide (i < j)) gamma with hgen
  have hg : ∀ n, (gen n).2 = ‖(gen n).1‖ ∧ ∀ i < j, ⟪Q i, (gen n).1⟫ = 0 := by
    intro n
    have := h k j Q (draw n) (fun i => decide (i < j)) gamma hQ hz
    simp only at this
    rw [show gen n = _ from this]
    refine ⟨rfl, fun i hi => ?_⟩
    rw [inner_sub_right, inner_sum, Finset.sum_eq_single i]
    · rw [if_pos (by simpa using hi), real_inner_smul_right, hQ i hi i hi, if_pos rfl, mul_one, sub_self]
    · intro a _ hai
      split_ifs with ha
      · rw [real_inner_smul_right, hQ i hi a (by simpa using ha), if_neg (Ne.symm hai), mul_zero]
      · exact inner_zero_right _
    · intro hi'
      exact absurd (Finset.mem_range.mpr (by omega)) hi'
  have hP := newVecFrom_spec gen (fun s => s.2 = ‖s.1‖ ∧ ∀ i < j, ⟪Q i, s.1⟫ = 0) hg 9 1 _ (hg 0)
  unfold newVec at hw
  simp only at hw
  split_ifs at hw with h0
  obtain rfl := Option.some.inj hw
  refine ⟨?_, fun i hi => ?_⟩
  · rw [norm_smul, ← hP.1, Real.norm_eq_abs, abs_of_nonneg (by rw [hP.1]; positivity)]
    field_simp
  · rw [real_inner_smul_right, hP.2 i hi, mul_zero]

/-- What the first half of an iteration establishes. -/
structure MidInv (A : E →ₗ[ℝ] F) (trans : F → E) (j : ℕ) (s : LanState E F) (c : LanMid E F) : Prop where
  U : c.U = Function.update s.U j c.u
  V : c.V = Function.update s.V j c.v
  Uo : OrthoCols (j + 1) c.U
  Vo : OrthoCols (j + 1) c.V
  tr : trans c.u = c.rNorm • c.v + s.beta j • s.V (j - 1)
  last : A (s.V (j - 1)) = s.alpha (j - 1) • s.U (j - 1) + s.beta j • c.u
  alpha : c.alpha = Function.update s.alpha j c.rNorm
  beta : c.beta = s.beta
  rn : 0 ≤ c.rNorm
  anorm : 0 < c.anorm
  dropped : s.dropped ≤ 0

theorem pos_max {a b : ℝ} (h : 0 < a) : 0 < max a b := lt_max_of_lt_left h

open Classical in
/-- The residual vector chosen at the end of a half iteration. -/
theorem residual_case {r0 : G} {thr d : ℝ} {nv : Option G} {w : G × ℝ} {j : ℕ} {Q : ℕ → G} (hthr : 0 < thr)
    (hw : (if ‖r0‖ < thr then Option.map (fun w => (w, (0 : ℝ))) nv else some (r0, ‖r0‖)) = some w) (hd : (if ‖r0‖ < thr then max d ‖r0‖ else d) ≤ 0)
    (hnv : ∀ x, nv = some x → ‖x‖ = 1 ∧ ∀ i < j, ⟪Q i, x⟫ = 0) (hro : ∀ i < j, ⟪Q i, r0⟫ = 0) :
    ((w.2 ≠ 0 ∧ ‖w.1‖ = w.2) ∨ (w.2 = 0 ∧ ‖w.1‖ = 1)) ∧ (∀ i < j, ⟪Q i, w.1⟫ = 0) ∧ r0 = (if w.2 = 0 then 0 else w.1) ∧ 0 ≤ w.2 ∧ d ≤ 0 := by
  split_ifs at hw hd with h
  · obtain ⟨x, hx, rfl⟩ := Option.map_eq_some_iff.mp hw
    obtain ⟨h1, h2⟩ := hnv x hx
    have h3 : r0 = 0 := norm_le_zero_iff.mp ((le_max_right _ _).trans hd)
    exact ⟨Or.inr ⟨rfl, h1⟩, h2, by simp [h3], le_rfl, (le_max_left _ _).trans hd⟩
  · obtain rfl := Option.some.inj hw
    have h1 : ‖r0‖ ≠ 0 := by
      intro h0; rw [h0] at h; exact h hthr
    exact ⟨Or.inl ⟨h1, rfl⟩, hro, by simp only [if_neg h1], norm_nonneg _, hd⟩

open Classical in
/-- The residual vector `p` chosen at the end of an iteration. -/
theorem residual_pair {r0 : G} {thr d : ℝ} {nv : Option G} {w : Option G × ℝ} {j : ℕ} {Q : ℕ → G} (hthr : 0 < thr)
    (hw : (if ‖r0‖ < thr then (nv, (0 : ℝ)) else (some r0, ‖r0‖)) = w) (hd : (if ‖r0‖ < thr then max d ‖r0‖ else d) ≤ 0)
    (hnv : ∀ x, nv = some x → ‖x‖ = 1 ∧ ∀ i < j, ⟪Q i, x⟫ = 0) (hro : ∀ i < j, ⟪Q i, r0⟫ = 0) :
    (‖r0‖ = w.2 ∧ (r0 ≠ 0 → w.1 = some r0)) ∧ (∀ p, w.1 = some p → (∀ i < j, ⟪Q i, p⟫ = 0) ∧ ((w.2 ≠ 0 ∧ ‖p‖ = w.2) ∨ (w.2 = 0 ∧ ‖p‖ = 1))) ∧ 0 ≤ w.2 ∧ d ≤ 0 := by
  split_ifs at hw hd with h
  · have h3 : r0 = 0 := norm_le_zero_iff.mp ((le_max_right _ _).trans hd)
    subst hw
    exact ⟨⟨by simp [h3], fun h0 => absurd h3 h0⟩, fun p hp => ⟨(hnv p hp).2, Or.inr ⟨rfl, (hnv p hp).1⟩⟩, le_rfl, (le_max_left _ _).trans hd⟩
  · have h1 : ‖r0‖ ≠ 0 := by
      intro h0; rw [h0] at h; exact h hthr
    subst hw
    refine ⟨⟨rfl, fun _ => rfl⟩, fun p hp => ?_, norm_nonneg _, hd⟩
    obtain rfl := Option.some.inj hp
    exact ⟨hro, Or.inl ⟨h1, rfl⟩⟩

theorem anormR_pos {env : LanEnv E F} {A : E →ₗ[ℝ] F} {trans : F → E} {o : LanOptions} (hs : LanSetting env A trans o) {s : LanState E F} (h0 : 0 < s.alpha 0) (h : 0 < s.anorm)
    (a b : ℕ → ℝ) : 0 < anormR env s a b := by
  have h1 : 0 < (if s.iters = 5 then fudge * env.normEst s.alpha s.beta else s.anorm) := by
    split_ifs
    · exact mul_pos (by norm_num [fudge]) (hs.est _ _ h0)
    · exact h
  unfold anormR
  dsimp only
  generalize (if s.iters = 5 then fudge * env.normEst s.alpha s.beta else s.anorm) = x at *
  split_ifs
  · exact lt_max_of_lt_left h1
  · exact lt_max_of_lt_left h1
  · exact h1

theorem lanHalfR_inv {env : LanEnv E F} {A : E →ₗ[ℝ] F} {trans : F → E} {k : ℕ} {o : LanOptions} (hs : LanSetting env A trans o) {j : ℕ} (hjk : j ≤ k) {s : LanState E F}
    (hi : LanInv A trans j s) {p : F} (hp : s.p = some p) {c : LanMid E F} (hc : lanHalfR env trans k o s p = some c) (hd : c.dropped ≤ 0) : MidInv A trans j s c := by
  have hij := hi.iters
  have hpos := hi.pos
  obtain ⟨hpo, hpn⟩ := hi.pok p hp
  set u := safeDivS p (s.beta j) with hu
  have hun : ‖u‖ = 1 := safeDivS_norm _ _ hpn
  have huo : ∀ i < j, ⟪s.U i, u⟫ = 0 := fun i h => safeDivS_orth _ _ _ (hpo i h)
  have hlast : A (s.V (j - 1)) = s.alpha (j - 1) • s.U (j - 1) + s.beta j • u := by
    obtain ⟨q, h1, -, h2, h3⟩ := hi.last
    rw [h1, hu, safeDivS_smul]
    congr 1
    split_ifs with hb
    · rw [hb] at h2; exact norm_eq_zero.mp h2
    · have := h3 (by rintro rfl; rw [norm_zero] at h2; exact hb h2.symm)
      rw [hp] at this
      exact (Option.some.inj this).symm
  have hUo : OrthoCols (j + 1) (Function.update s.U j u) := hi.U.update hun huo
  set r0 := trans u - s.beta j • s.V (j - 1) with hr0
  have hro : ∀ i < j, ⟪s.V i, r0⟫ = 0 := by
    intro i hij'
    rw [hr0, inner_sub_right, ← hs.adj, real_inner_smul_right]
    by_cases hl : i = j - 1
    · rw [hl, hlast, inner_add_left, real_inner_smul_left, real_inner_smul_left, huo (j - 1) (by omega), real_inner_self_eq_norm_sq, hun,
        hi.V (j - 1) (by omega) (j - 1) (by omega), if_pos rfl]
      ring
    · rw [hi.ti i (by omega), inner_add_left, real_inner_smul_left, real_inner_smul_left, huo i hij', huo (i + 1) (by omega), hi.V i hij' (j - 1) (by omega), if_neg hl]
      ring
  have he : (open Classical in if ‖r0‖ < o.gamma * s.beta j ∧ o.elr = true ∧ ¬ s.bFro = true then env.elrE (s.V (j - 1)) r0 ‖r0‖ o.gamma else (r0, ‖r0‖, 0)) = (r0, ‖r0‖, 0) := by
    split_ifs
    · exact hs.elrE.fix _ (hi.V.norm (by omega)) (hro (j - 1) (by omega))
    · rfl
  have hq : ∀ alpha nu numax, (reorthR env k o s r0 ‖r0‖ alpha nu numax).1 = r0 ∧ (reorthR env k o s r0 ‖r0‖ alpha nu numax).2.1 = ‖r0‖ := by
    intro alpha nu numax
    unfold reorthR
    simp only
    split_ifs <;> simp [hs.reorthE.fix _ _ hi.V hi.Vz hro]
  unfold lanHalfR at hc
  simp only [hij, ← hu, ← hr0, he, (hq _ _ _).1, (hq _ _ _).2] at hc
  obtain ⟨w, hw, rfl⟩ := Option.map_eq_some_iff.mp hc
  simp only at hd
  have han := fun a b => anormR_pos hs (s := s) hi.alpha0 hi.anorm a b
  have han2 := han (Function.update s.alpha j ‖r0‖) (Function.update s.beta j (s.beta j + 0))
  obtain ⟨c1, c2, c3, c4, c5⟩ := residual_case (j := j) (Q := s.V) (mul_pos (mul_pos hs.maxMN han2) hs.eps) hw hd
    (fun x hx => newVec_spec hs.reorthE hjk hi.V hi.Vz _ _ hx) hro
  have hv := safeDivS_norm _ _ c1
  refine ⟨rfl, rfl, hUo, hi.V.update hv fun i h => safeDivS_orth _ _ _ (c2 i h), ?_, hlast, ?_, ?_, c4, han2, c5⟩
  · show trans u = w.2 • safeDivS w.1 w.2 + s.beta j • s.V (j - 1)
    rw [safeDivS_smul, ← c3, hr0]; abel
  · show Function.update (Function.update s.alpha j ‖r0‖) j w.2 = _
    rw [Function.update_idem]
  · show Function.update s.beta j (s.beta j + 0) = s.beta
    rw [add_zero, Function.update_eq_self]

theorem of_ite_max {P : Prop} [Decidable P] {a b : ℝ} (h : (if P then max a b else a) ≤ 0) : a ≤ 0 := by
  split_ifs at h
  · exact (le_max_left _ _).trans h
  · exact h

theorem lanHalfP_dropped {env : LanEnv E F} {times : E → F} {k : ℕ} {o : LanOptions} {s : LanState E F} {c : LanMid E F}
    (hd : (lanHalfP env times k o s c).dropped ≤ 0) : c.dropped ≤ 0 := of_ite_max hd

theorem lanHalfR_dropped {env : LanEnv E F} {trans : F → E} {k : ℕ} {o : LanOptions} {s : LanState E F} {p : F} {c : LanMid E F}
    (hc : lanHalfR env trans k o s p = some c) (hd : c.dropped ≤ 0) : s.dropped ≤ 0 := by
  unfold lanHalfR at hc
  simp only at hc
  obtain ⟨w, hw, rfl⟩ := Option.map_eq_some_iff.mp hc
  exact of_ite_max hd

theorem lanHalfP_inv {env : LanEnv E F} {A : E →ₗ[ℝ] F} {trans : F → E} {k : ℕ} {o : LanOptions} (hs : LanSetting env A trans o) {j : ℕ} (hjk : j < k) {s : LanState E F}
    (hi : LanInv A trans j s) {c : LanMid E F} (hm : MidInv A trans j s c) (hd : (lanHalfP env A k o s c).dropped ≤ 0) :
    LanInv A trans (j + 1) (lanHalfP env A k o s c) := by
  have hij := hi.iters
  have hpos := hi.pos
  have hcu : c.U j = c.u := by rw [hm.U, Function.update_self]
  have hcv : c.V j = c.v := by rw [hm.V, Function.update_self]
  have hca : c.alpha j = c.rNorm := by rw [hm.alpha, Function.update_self]
  have hU : ∀ i, i ≠ j → c.U i = s.U i := fun i h => by rw [hm.U, Function.update_of_ne h]
  have hV : ∀ i, i ≠ j → c.V i = s.V i := fun i h => by rw [hm.V, Function.update_of_ne h]
  have hA : ∀ i, i ≠ j → c.alpha i = s.alpha i := fun i h => by rw [hm.alpha, Function.update_of_ne h]
  have hUz : ∀ i, j + 1 ≤ i → c.U i = 0 := fun i h => by rw [hU i (by omega)]; exact hi.Uz i (by omega)
  have hVz : ∀ i, j + 1 ≤ i → c.V i = 0 := fun i h => by rw [hV i (by omega)]; exact hi.Vz i (by omega)
  -- the transpose on the columns of `U`
  have htr0 : trans (c.U 0) = c.alpha 0 • c.V 0 := by
    rw [hU 0 (by omega), hV 0 (by omega), hA 0 (by omega)]; exact hi.tr0
  have htr : ∀ i, i + 1 < j + 1 → trans (c.U (i + 1)) = c.alpha (i + 1) • c.V (i + 1) + s.beta (i + 1) • c.V i := by
    intro i h
    by_cases hl : i + 1 = j
    · rw [hl, hcu, hca, hcv, hV i (by omega), hm.tr, ← hl, Nat.add_sub_cancel]
    · rw [hU _ hl, hA _ hl, hV _ hl, hV i (by omega)]; exact hi.tr i (by omega)
  set p0 := A c.v - c.rNorm • c.u with hp0
  have hpo : ∀ i < j + 1, ⟪c.U i, p0⟫ = 0 := by
    intro i h
    rw [hp0, inner_sub_right, real_inner_smul_right, real_inner_comm, hs.adj, ← hcu, ← hcv, hm.Uo i h j (by omega)]
    cases i with
    | zero => rw [htr0, real_inner_smul_right, hm.Vo j (by omega) 0 (by omega), if_neg (by omega), if_neg (by omega)]; ring
    | succ i =>
      rw [htr i h, inner_add_right, real_inner_smul_right, real_inner_smul_right, hm.Vo j (by omega) (i + 1) h, hm.Vo j (by omega) i (by omega), if_neg (show j ≠ i by omega)]
      by_cases hl : i + 1 = j
      · rw [if_pos hl.symm, if_pos hl, hl, hca]; ring
      · rw [if_neg (Ne.symm hl), if_neg hl]; ring
  have he : (open Classical in if ‖p0‖ < o.gamma * c.rNorm ∧ o.elr = true ∧ ¬ s.bFro = true then env.elrF c.u p0 ‖p0‖ o.gamma else (p0, ‖p0‖, 0)) = (p0, ‖p0‖, 0) := by
    split_ifs
    · refine hs.elrF.fix _ ?_ ?_
      · rw [← hcu]; exact hm.Uo.norm (by omega)
      · rw [← hcu]; exact hpo j (by omega)
    · rfl
  have hq : ∀ mu mumax, (reorthP env k o s c p0 ‖p0‖ mu mumax).1 = p0 ∧ (reorthP env k o s c p0 ‖p0‖ mu mumax).2.1 = ‖p0‖ := by
    intro mu mumax
    unfold reorthP
    simp only
    split_ifs <;> simp [hs.reorthF.fix _ _ hm.Uo hUz hpo]
  unfold lanHalfP at hd ⊢
  simp only [hij, hca, ← hp0, he, (hq _ _).1, (hq _ _).2] at hd ⊢
  have han : ∀ x, 0 < (if c.bEst = true then max c.anorm x else c.anorm) := by
    intro x
    split_ifs
    · exact lt_max_of_lt_left hm.anorm
    · exact hm.anorm
  generalize hw : (open Classical in if ‖p0‖ < _ then (newPVec env (⇑A) k c.U (j + 1) o.gamma, (0 : ℝ)) else (some p0, ‖p0‖)) = w at *
  obtain ⟨c1, c2, c4, c5⟩ := residual_pair (j := j + 1) (Q := c.U) (mul_pos (mul_pos hs.maxMN (han _)) hs.eps) hw hd
    (fun x hx => newVec_spec hs.reorthF (by omega) hm.Uo hUz _ _ hx) hpo
  have ha1 : Function.update c.alpha j (c.rNorm + 0) = c.alpha := by rw [add_zero, ← hca, Function.update_eq_self]
  have hb1 : Function.update (Function.update c.beta (j + 1) ‖p0‖) (j + 1) w.2 = Function.update s.beta (j + 1) w.2 := by rw [Function.update_idem, hm.beta]
  have hb2 : ∀ i, i ≤ j → Function.update s.beta (j + 1) w.2 i = s.beta i := fun i h => Function.update_of_ne (by omega) _ _
  have hti : ∀ i, i + 1 < j + 1 → A (c.V i) = c.alpha i • c.U i + s.beta (i + 1) • c.U (i + 1) := by
    intro i h
    rw [hV i (by omega), hA i (by omega), hU i (by omega)]
    by_cases hl : i + 1 = j
    · have h1 := hm.last
      rw [show j - 1 = i by omega] at h1
      rw [hl, hcu]; exact h1
    · rw [hU _ hl]; exact hi.ti i (by omega)
  refine ⟨rfl, by omega, hm.Uo, hm.Vo, hUz, hVz, ?_, ?_, ?_, ⟨p0, ?_, hpo, ?_, c1.2⟩, ?_, ?_, ?_, ?_, han _⟩
  all_goals simp only [ha1, hb1]
  · exact htr0
  · intro i h; rw [hb2 _ (by omega)]; exact htr i h
  · intro i h; rw [hb2 _ (by omega)]; exact hti i h
  · rw [Nat.add_sub_cancel, hcv, hca, hcu, hp0]; abel
  · rw [Function.update_self]; exact c1.1
  · rw [Function.update_self]; exact c2
  · rw [hA 0 (by omega)]; exact hi.alpha0
  · intro i h
    by_cases hl : i = j
    · rw [hl, hca]; exact hm.rn
    · rw [hA i hl]; exact hi.alpha i (by omega)
  · intro i h
    by_cases hl : i = j + 1
    · rw [hl, Function.update_self]; exact c4
    · rw [hb2 i (by omega)]; exact hi.beta i (by omega)

theorem adj_smul {A : E →ₗ[ℝ] F} {trans : F → E} (adj : ∀ x y, ⟪A x, y⟫ = ⟪x, trans y⟫) (c : ℝ) (y : F) : trans (c • y) = c • trans y := by
  refine ext_inner_left ℝ fun x => ?_
  rw [← adj, real_inner_smul_right, real_inner_smul_right, adj]

theorem lanInit_inv {env : LanEnv E F} {A : E →ₗ[ℝ] F} {trans : F → E} {k : ℕ} {o : LanOptions} (hs : LanSetting env A trans o) (hk : 0 < k) {p0 : F} (hp0 : trans p0 ≠ 0)
    (hd : (lanInit env A trans k p0 o).dropped ≤ 0) : LanInv A trans 1 (lanInit env A trans k p0 o) := by
  have hp : p0 ≠ 0 := by
    rintro rfl
    have := adj_smul hs.adj 0 (0 : F)
    rw [zero_smul, zero_smul] at this
    exact hp0 this
  have hn : ‖p0‖ ≠ 0 := norm_ne_zero_iff.mpr hp
  set u := safeDivS p0 ‖p0‖ with hu
  have hun : ‖u‖ = 1 := safeDivS_norm _ _ (Or.inl ⟨hn, rfl⟩)
  have hr : trans u ≠ 0 := by
    rw [hu, safeDivS, if_neg hn, adj_smul hs.adj]
    exact smul_ne_zero (one_div_ne_zero hn) hp0
  have hrn : ‖trans u‖ ≠ 0 := norm_ne_zero_iff.mpr hr
  have hrpos : 0 < ‖trans u‖ := norm_pos_iff.mpr hr
  set v := safeDivS (trans u) ‖trans u‖ with hv
  have hvn : ‖v‖ = 1 := safeDivS_norm _ _ (Or.inl ⟨hrn, rfl⟩)
  have hvs : trans u = ‖trans u‖ • v := by rw [hv, safeDivS_smul, if_neg hrn]
  set p1 := A v - ‖trans u‖ • u with hp1
  have hpo : ⟪u, p1⟫ = 0 := by
    rw [hp1, inner_sub_right, real_inner_smul_right, real_inner_self_eq_norm_sq, hun, real_inner_comm, hs.adj]
    nth_rw 1 [hvs]
    rw [real_inner_smul_right, real_inner_self_eq_norm_sq, hvn]; ring
  have he : env.elrF u p1 ‖p1‖ o.gamma = (p1, ‖p1‖, 0) := hs.elrF.fix _ hun hpo
  unfold lanInit at hd ⊢
  simp only [← hu, ← hv, ← hp1, he] at hd ⊢
  have hUo : OrthoCols 1 (Function.update (fun _ => 0) 0 u) := by
    intro a ha b hb
    obtain rfl : a = 0 := by omega
    obtain rfl : b = 0 := by omega
    simp [hun]
  have hVo : OrthoCols 1 (Function.update (fun _ => 0) 0 v) := by
    intro a ha b hb
    obtain rfl : a = 0 := by omega
    obtain rfl : b = 0 := by omega
    simp [hvn]
  have hUz : ∀ i, 1 ≤ i → (Function.update (fun _ => 0) 0 u : ℕ → F) i = 0 := fun i h => Function.update_of_ne (by omega) _ _
  have hVz : ∀ i, 1 ≤ i → (Function.update (fun _ => 0) 0 v : ℕ → E) i = 0 := fun i h => Function.update_of_ne (by omega) _ _
  have hfud : 0 < fudge * ‖trans u‖ := mul_pos (by norm_num [fudge]) hrpos
  have hd' : (open Classical in if ‖p1‖ < o.maxMN * (fudge * ‖trans u‖) * o.eps then max 0 ‖p1‖ else 0) ≤ 0 := by
    split_ifs at hd ⊢
    · exact max_le le_rfl hd
    · exact le_rfl
  have hpo' : ∀ i < 1, ⟪(Function.update (fun _ => 0) 0 u : ℕ → F) i, p1⟫ = 0 := by
    intro i hi
    obtain rfl : i = 0 := by omega
    rw [Function.update_self]; exact hpo
  generalize hw : (open Classical in if ‖p1‖ < _ then (newPVec env (⇑A) k (Function.update (fun _ => 0) 0 u) 1 o.gamma, (0 : ℝ)) else (some p1, ‖p1‖)) = w at *
  obtain ⟨c1, c2, c4, -⟩ := residual_pair (j := 1) (Q := Function.update (fun _ => 0) 0 u) (mul_pos (mul_pos hs.maxMN hfud) hs.eps) hw hd'
    (fun x hx => newVec_spec hs.reorthF (by omega) hUo hUz _ _ hx) hpo'
  refine ⟨rfl, one_pos, hUo, hVo, hUz, hVz, ?_, fun i h => by omega, fun i h => by omega, ⟨p1, ?_, hpo', ?_, c1.2⟩, ?_, ?_, ?_, ?_, lt_max_of_lt_left hfud⟩
  · simpa using hvs
  · simp only [Nat.sub_self, Function.update_self]
    rw [hp1]; abel
  · simp only [Function.update_self]; exact c1.1
  · simp only [Function.update_self]; exact c2
  · simpa using hr
  · intro i h
    obtain rfl : i = 0 := by omega
    simp
  · intro i h
    rcases Nat.le_one_iff_eq_zero_or_eq_one.mp h with rfl | rfl
    · simp
    · simp only [Function.update_self]; exact c4

theorem lanbproFrom_inv {env : LanEnv E F} {A : E →ₗ[ℝ] F} {trans : F → E} {k : ℕ} {o : LanOptions} (hs : LanSetting env A trans o) {p0 : F} (hp0 : trans p0 ≠ 0) :
    ∀ (steps : ℕ), steps < k → ∀ s, lanbproFrom env A trans k p0 o steps = some s → s.dropped ≤ 0 → LanInv A trans (steps + 1) s
  | 0, h, s, hr, hd => by
    obtain rfl := Option.some.inj hr
    exact lanInit_inv hs h hp0 hd
  | n + 1, h, s, hr, hd => by
    obtain ⟨s1, h1, h2⟩ := Option.bind_eq_some_iff.mp hr
    obtain ⟨p, hp, h2⟩ := Option.bind_eq_some_iff.mp h2
    obtain ⟨c, h3, rfl⟩ := Option.map_eq_some_iff.mp h2
    have d1 : c.dropped ≤ 0 := lanHalfP_dropped hd
    have d2 : s1.dropped ≤ 0 := lanHalfR_dropped h3 d1
    have hi := lanbproFrom_inv hs hp0 n (by omega) s1 h1 d2
    exact lanHalfP_inv hs h hi (lanHalfR_inv hs h.le hi hp h3 d1) hd

end Verif.Sls
