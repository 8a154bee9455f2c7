import Verif.Opt.CgModel
import Mathlib.LinearAlgebra.Dimension.Constructions
import Mathlib.LinearAlgebra.FiniteDimensional.Defs
import Mathlib.LinearAlgebra.Dimension.Finrank
import Mathlib.Analysis.InnerProductSpace.PiL2

set_option autoImplicit false
/-!
# Conjugate gradients (C37, C38)
-/
noncomputable section
namespace Verif.Opt
open Verif.Loop

variable {E : Type*} [NormedAddCommGroup E] [InnerProductSpace ℝ E]

/-- Symmetric positive definite. -/
structure SPD (A : E →ₗ[ℝ] E) : Prop where
  symm : ∀ x y, inner ℝ (A x) y = inner ℝ x (A y)
  pos : ∀ x, x ≠ 0 → 0 < inner ℝ x (A x)

theorem SPD.nonneg {A : E →ₗ[ℝ] E} (h : SPD A) (x : E) : 0 ≤ inner ℝ x (A x) := by
  by_cases hx : x = 0
  · simp [hx]
  · exact (h.pos x hx).le

theorem spd_id : SPD (LinearMap.id : E →ₗ[ℝ] E) :=
  ⟨fun _ _ => rfl, fun x hx => by simp only [LinearMap.id_apply]; exact real_inner_self_pos.mpr hx⟩

/-- The `k`-th state of the iteration, whether or not the loop would go on. -/
def pcgSeq (A M : E →ₗ[ℝ] E) (b x0 : E) (k : ℕ) : PCGState E := (pcgStep A M)^[k] (pcgInit A M b x0)

section seq
variable {A M : E →ₗ[ℝ] E} {b x0 : E}

theorem pcgSeq_succ (k : ℕ) : pcgSeq A M b x0 (k + 1) = pcgStep A M (pcgSeq A M b x0 k) := Function.iterate_succ_apply' _ _ _

theorem pcg_gamma (k : ℕ) : (pcgSeq A M b x0 k).gamma = inner ℝ (pcgSeq A M b x0 k).r (M (pcgSeq A M b x0 k).r) := by
  cases k with
  | zero => rfl
  | succ k => rw [pcgSeq_succ]; rfl

theorem pcg_iters (k : ℕ) : (pcgSeq A M b x0 k).iters = k + 1 := by
  induction k with
  | zero => rfl
  | succ k ih => rw [pcgSeq_succ]; simp [pcgStep, ih]

theorem pcg_res (k : ℕ) : (pcgSeq A M b x0 k).r = b - A (pcgSeq A M b x0 k).x := by
  induction k with
  | zero => rfl
  | succ k ih => rw [pcgSeq_succ]; simp only [pcgStep, ih, map_add, map_smul]; abel

/-- The search direction is the preconditioned residual plus a multiple of the previous direction. -/
theorem pcg_p_zero : (pcgSeq A M b x0 0).p = M (pcgSeq A M b x0 0).r := rfl

theorem pcg_p_succ (k : ℕ) : ∃ c : ℝ, (pcgSeq A M b x0 (k + 1)).p = M (pcgSeq A M b x0 (k + 1)).r + c • (pcgSeq A M b x0 k).p :=
  ⟨_, by rw [pcgSeq_succ]; rfl⟩

/-- The classical facts up to step `k`. -/
structure CgFacts (A M : E →ₗ[ℝ] E) (b x0 : E) (k : ℕ) : Prop where
  rp : ∀ i j, i < j → j ≤ k → inner ℝ (pcgSeq A M b x0 j).r (pcgSeq A M b x0 i).p = 0
  rz : ∀ i j, i < j → j ≤ k → inner ℝ (pcgSeq A M b x0 j).r (M (pcgSeq A M b x0 i).r) = 0
  conj : ∀ i j, i < j → j ≤ k → inner ℝ (pcgSeq A M b x0 j).p (A (pcgSeq A M b x0 i).p) = 0
  rpk : ∀ j ≤ k, inner ℝ (pcgSeq A M b x0 j).r (pcgSeq A M b x0 j).p = (pcgSeq A M b x0 j).gamma

theorem CgFacts.p_ne {k : ℕ} (h : CgFacts A M b x0 k) (hM : SPD M) {j : ℕ} (hj : j ≤ k) (hr : (pcgSeq A M b x0 j).r ≠ 0) :
    (pcgSeq A M b x0 j).p ≠ 0 := by
  intro hp
  have := h.rpk j hj
  rw [hp, inner_zero_right, pcg_gamma] at this
  exact absurd this (hM.pos _ hr).ne

theorem cg_facts (hA : SPD A) (hM : SPD M) (k : ℕ) (hr : ∀ j < k, (pcgSeq A M b x0 j).r ≠ 0) : CgFacts A M b x0 k := by
  induction k with
  | zero =>
    refine ⟨fun i j h1 h2 => by omega, fun i j h1 h2 => by omega, fun i j h1 h2 => by omega, fun j hj => ?_⟩
    have : j = 0 := by omega
    subst this; rfl
  | succ k ih =>
    have ih := ih fun j hj => hr j (by omega)
    have hrk : (pcgSeq A M b x0 k).r ≠ 0 := hr k (by omega)
    have hpk := ih.p_ne hM le_rfl hrk
    have hpAp := hA.pos _ hpk
    have hγ : 0 < (pcgSeq A M b x0 k).gamma := by rw [pcg_gamma]; exact hM.pos _ hrk
    have e_r : (pcgSeq A M b x0 (k + 1)).r = (pcgSeq A M b x0 k).r -
        ((pcgSeq A M b x0 k).gamma / inner ℝ (pcgSeq A M b x0 k).p (A (pcgSeq A M b x0 k).p)) • A (pcgSeq A M b x0 k).p := by
      rw [pcgSeq_succ]; rfl
    have e_p : (pcgSeq A M b x0 (k + 1)).p = M (pcgSeq A M b x0 (k + 1)).r +
        ((pcgSeq A M b x0 (k + 1)).gamma / (pcgSeq A M b x0 k).gamma) • (pcgSeq A M b x0 k).p := by
      rw [pcgSeq_succ]; rfl
    -- residual ⟂ earlier directions
    have rp : ∀ i ≤ k, inner ℝ (pcgSeq A M b x0 (k + 1)).r (pcgSeq A M b x0 i).p = 0 := by
      intro i hi
      rw [e_r, inner_sub_left, inner_smul_left]
      rcases Nat.lt_or_eq_of_le hi with hlt | rfl
      · rw [ih.rp i k hlt le_rfl, hA.symm, ih.conj i k hlt le_rfl]; simp
      · rw [ih.rpk i le_rfl, real_inner_comm _ (A _)]; simp only [conj_trivial]
        rw [div_mul_cancel₀ _ hpAp.ne', sub_self]
    have rz : ∀ i ≤ k, inner ℝ (pcgSeq A M b x0 (k + 1)).r (M (pcgSeq A M b x0 i).r) = 0 := by
      intro i hi
      cases i with
      | zero => exact rp 0 hi
      | succ i =>
        obtain ⟨c, hc⟩ := pcg_p_succ (A := A) (M := M) (b := b) (x0 := x0) i
        have : M (pcgSeq A M b x0 (i + 1)).r = (pcgSeq A M b x0 (i + 1)).p - c • (pcgSeq A M b x0 i).p := by rw [hc]; abel
        rw [this, inner_sub_right, inner_smul_right, rp (i + 1) hi, rp i (by omega)]; simp
    have rpk : inner ℝ (pcgSeq A M b x0 (k + 1)).r (pcgSeq A M b x0 (k + 1)).p = (pcgSeq A M b x0 (k + 1)).gamma := by
      rw [e_p, inner_add_right, inner_smul_right, rp k le_rfl, mul_zero, add_zero, ← pcg_gamma]
    have conj : ∀ i ≤ k, inner ℝ (pcgSeq A M b x0 (k + 1)).p (A (pcgSeq A M b x0 i).p) = 0 := by
      intro i hi
      have hri : (pcgSeq A M b x0 i).r ≠ 0 := hr i (by omega)
      have hpi := ih.p_ne hM hi hri
      have hpApi := hA.pos _ hpi
      have hγi : 0 < (pcgSeq A M b x0 i).gamma := by rw [pcg_gamma]; exact hM.pos _ hri
      set α := (pcgSeq A M b x0 i).gamma / inner ℝ (pcgSeq A M b x0 i).p (A (pcgSeq A M b x0 i).p) with hα
      have hα0 : α ≠ 0 := (div_pos hγi hpApi).ne'
      have e_ri : (pcgSeq A M b x0 (i + 1)).r = (pcgSeq A M b x0 i).r - α • A (pcgSeq A M b x0 i).p := by
        rw [pcgSeq_succ]; rfl
      have eA : α * inner ℝ (M (pcgSeq A M b x0 (k + 1)).r) (A (pcgSeq A M b x0 i).p) =
          inner ℝ (pcgSeq A M b x0 (k + 1)).r (M (pcgSeq A M b x0 i).r) - inner ℝ (pcgSeq A M b x0 (k + 1)).r (M (pcgSeq A M b x0 (i + 1)).r) := by
        rw [e_ri, map_sub, map_smul, inner_sub_right, inner_smul_right, hM.symm]; ring
      have eA' : inner ℝ (M (pcgSeq A M b x0 (k + 1)).r) (A (pcgSeq A M b x0 i).p) = (inner ℝ (pcgSeq A M b x0 (k + 1)).r (M (pcgSeq A M b x0 i).r) -
          inner ℝ (pcgSeq A M b x0 (k + 1)).r (M (pcgSeq A M b x0 (i + 1)).r)) / α := by
        rw [← eA, mul_div_cancel_left₀ _ hα0]
      rw [e_p, inner_add_left, inner_smul_left, eA']
      simp only [conj_trivial]
      rw [rz i hi]
      rcases Nat.lt_or_eq_of_le hi with hlt | rfl
      · rw [rz (i + 1) hlt, ih.conj i k hlt le_rfl]; simp
      · rw [← pcg_gamma, hα]; field_simp; ring
    refine ⟨fun i j h1 h2 => ?_, fun i j h1 h2 => ?_, fun i j h1 h2 => ?_, fun j h2 => ?_⟩ <;>
      rcases Nat.lt_or_eq_of_le h2 with hlt | rfl
    · exact ih.rp i j h1 (by omega)
    · exact rp i (by omega)
    · exact ih.rz i j h1 (by omega)
    · exact rz i (by omega)
    · exact ih.conj i j h1 (by omega)
    · exact conj i (by omega)
    · exact ih.rpk j (by omega)
    · exact rpk

/-- In dimension `n` a residual vanishes within `n` steps. -/
theorem pcg_exact [FiniteDimensional ℝ E] (hA : SPD A) (hM : SPD M) : ∃ j ≤ Module.finrank ℝ E, (pcgSeq A M b x0 j).r = 0 := by
  by_contra hne
  push Not at hne
  set n := Module.finrank ℝ E with hn
  have hf := cg_facts hA hM n fun j hj => hne j hj.le
  let v : Fin (n + 1) → E := fun i => (pcgSeq A M b x0 i).r
  have horth : ∀ i j : Fin (n + 1), i ≠ j → inner ℝ (v i) (M (v j)) = 0 := by
    intro i j hij
    rcases lt_or_gt_of_ne hij with h | h
    · have := hf.rz i j h (by omega)
      rw [← hM.symm, real_inner_comm]; exact this
    · exact hf.rz j i h (by omega)
  have hli : LinearIndependent ℝ v := by
    rw [Fintype.linearIndependent_iff]
    intro g hg i
    have h1 : inner ℝ (∑ j, g j • v j) (M (v i)) = 0 := by rw [hg, inner_zero_left]
    rw [sum_inner, Finset.sum_eq_single i] at h1
    · rw [inner_smul_left] at h1
      have := hM.pos (v i) (hne i (by omega))
      simp only [conj_trivial] at h1
      exact (mul_eq_zero.mp h1).resolve_right this.ne'
    · intro j _ hj
      rw [inner_smul_left, horth j i hj, mul_zero]
    · intro h; exact absurd (Finset.mem_univ i) h
  have := hli.fintype_card_le_finrank
  simp only [Fintype.card_fin] at this
  omega

/-- The energy of the error drops at every step. -/
theorem pcg_energy (hA : SPD A) (hM : SPD M) (k : ℕ) (hr : ∀ j ≤ k, (pcgSeq A M b x0 j).r ≠ 0) (xs : E) (hxs : A xs = b) :
    inner ℝ ((pcgSeq A M b x0 (k + 1)).x - xs) (A ((pcgSeq A M b x0 (k + 1)).x - xs)) <
      inner ℝ ((pcgSeq A M b x0 k).x - xs) (A ((pcgSeq A M b x0 k).x - xs)) := by
  subst hxs
  have hf := cg_facts hA hM k fun j hj => hr j hj.le
  have hp := hA.pos _ (hf.p_ne hM le_rfl (hr k le_rfl))
  have hγ : 0 < (pcgSeq A M (A xs) x0 k).gamma := by rw [pcg_gamma]; exact hM.pos _ (hr k le_rfl)
  have hrk := hf.rpk k le_rfl
  rw [pcg_res, ← map_sub] at hrk
  set s := pcgSeq A M (A xs) x0 k with hs
  set α := s.gamma / inner ℝ s.p (A s.p) with hα
  have ex : (pcgSeq A M (A xs) x0 (k + 1)).x - xs = (s.x - xs) + α • s.p := by rw [pcgSeq_succ]; simp only [pcgStep, ← hs, ← hα]; abel
  have h1 : inner ℝ (s.x - xs) (A s.p) = -s.gamma := by
    rw [← hA.symm, ← hrk, ← neg_sub xs s.x, map_neg, inner_neg_left]
  have h2 : inner ℝ s.p (A (s.x - xs)) = -s.gamma := by rw [real_inner_comm, hA.symm, h1]
  rw [ex, map_add, map_smul, inner_add_left, inner_add_right, inner_add_right, inner_smul_left, inner_smul_right, inner_smul_left,
    inner_smul_right, h1, h2]
  simp only [conj_trivial]
  have : α * inner ℝ s.p (A s.p) = s.gamma := div_mul_cancel₀ _ hp.ne'
  rw [this]
  have hα0 : 0 < α := div_pos hγ hp
  nlinarith

end seq

/-! ## From the loop to the sequence -/

theorem pcg_reach {A M : E →ₗ[ℝ] E} {b x0 : E} {N : ℕ} {tol atol : ℝ} {isId : Bool} (hid : isId = true → M = LinearMap.id) {s : PCGState E}
    (h : Reach (pcgCond b N tol atol isId) (pcgStep A M) (pcgInit A M b x0) s) :
    ∃ k, s = pcgSeq A M b x0 k ∧ (∀ j < k, (pcgSeq A M b x0 j).r ≠ 0) ∧ ∀ j < k, pcgCond b N tol atol isId (pcgSeq A M b x0 j) := by
  obtain ⟨k, rfl, hk⟩ := h.iterate
  refine ⟨k, rfl, fun j hj hr => ?_, hk⟩
  have h1 := (hk j hj).1
  have h2 : (0 : ℝ) ≤ max (tol ^ 2 * inner ℝ b b) (atol ^ 2) := le_max_of_le_right (sq_nonneg _)
  have hg := pcg_gamma (A := A) (M := M) (b := b) (x0 := x0) j
  have hr' : ((pcgStep A M)^[j] (pcgInit A M b x0)).r = 0 := hr
  rw [hr, inner_zero_left] at hg
  have hg' : ((pcgStep A M)^[j] (pcgInit A M b x0)).gamma = 0 := hg
  rw [hr', hg', inner_zero_left] at h1
  split at h1 <;> linarith

/-- **C38** at every state of `pcg.solve_from`, for symmetric positive definite `A` and `M`: the residual is `b - A x`, the stored energy is
`⟨r, M r⟩`, at most `max_iters` is counted, and if `A x* = b` the energy-norm error of the next iterate is smaller than that of this one. -/
theorem c38_pcg_invariants (A M : E →ₗ[ℝ] E) (hA : SPD A) (hM : SPD M) (isId : Bool) (hid : isId = true → M = LinearMap.id) (b x0 : E) (N : ℕ)
    (tol atol : ℝ) (s : PCGState E) (h : Reach (pcgCond b N tol atol isId) (pcgStep A M) (pcgInit A M b x0) s) :
    s.r = b - A s.x ∧ s.gamma = inner ℝ s.r (M s.r) ∧ (1 ≤ N → 1 ≤ s.iters ∧ s.iters ≤ N) ∧
    (∀ xs, A xs = b → pcgCond b N tol atol isId s → inner ℝ ((pcgStep A M s).x - xs) (A ((pcgStep A M s).x - xs)) <
      inner ℝ (s.x - xs) (A (s.x - xs))) := by
  obtain ⟨k, rfl, hr, hc⟩ := pcg_reach hid h
  refine ⟨pcg_res k, pcg_gamma k, fun hN => ⟨by rw [pcg_iters]; omega, ?_⟩, fun xs hxs hck => ?_⟩
  · cases k with
    | zero => rw [pcg_iters]; omega
    | succ k =>
      have := (hc k (by omega)).2
      rw [pcg_iters] at this ⊢; omega
  · have hk1 : Reach (pcgCond b N tol atol isId) (pcgStep A M) (pcgInit A M b x0) (pcgSeq A M b x0 (k + 1)) := by
      rw [pcgSeq_succ]; exact h.step hck
    obtain ⟨k', hk', hr', _⟩ := pcg_reach hid hk1
    have e : k' = k + 1 := by
      have := congrArg PCGState.iters hk'
      rw [pcg_iters, pcg_iters] at this; omega
    subst e
    rw [← pcgSeq_succ]
    exact pcg_energy hA hM k (fun j hj => hr' j (by omega)) xs hxs

/-- **C38** the search directions of `pcg.solve_from` are `A`-conjugate and the residuals `M`-orthogonal: whenever two different states are seen
by the loop, in either order. -/
theorem c38_pcg_conjugate (A M : E →ₗ[ℝ] E) (hA : SPD A) (hM : SPD M) (isId : Bool) (hid : isId = true → M = LinearMap.id) (b x0 : E) (N : ℕ)
    (tol atol : ℝ) (s t : PCGState E) (hs : Reach (pcgCond b N tol atol isId) (pcgStep A M) (pcgInit A M b x0) s)
    (ht : Reach (pcgCond b N tol atol isId) (pcgStep A M) (pcgInit A M b x0) t) (hne : s.iters < t.iters) :
    inner ℝ t.p (A s.p) = 0 ∧ inner ℝ t.r (M s.r) = 0 ∧ inner ℝ t.r s.p = 0 := by
  obtain ⟨k, rfl, _, _⟩ := pcg_reach hid hs
  obtain ⟨l, rfl, hr, _⟩ := pcg_reach hid ht
  rw [pcg_iters, pcg_iters] at hne
  have hf := cg_facts hA hM l hr
  exact ⟨hf.conj k l (by omega) le_rfl, hf.rz k l (by omega) le_rfl, hf.rp k l (by omega) le_rfl⟩

/-- **C38** stopping: `pcg.solve_from` always returns; the returned residual meets `|r|² ≤ max(tol² |b|², atol²)` unless the iteration limit
was reached, and with a limit above the dimension (`max_iters > n`) it always meets it. -/
theorem c38_pcg_stop (A M : E →ₗ[ℝ] E) (hA : SPD A) (hM : SPD M) (isId : Bool) (hid : isId = true → M = LinearMap.id) (b x0 : E) (N : ℕ)
    (tol atol : ℝ) :
    (∃ s, PcgSolveFrom A M isId b x0 N tol atol s) ∧
    ∀ s, PcgSolveFrom A M isId b x0 N tol atol s →
      (‖b - A s.x‖ ^ 2 ≤ max (tol ^ 2 * ‖b‖ ^ 2) (atol ^ 2) ∨ N ≤ s.iters) ∧
      (FiniteDimensional ℝ E → Module.finrank ℝ E < N → ‖b - A s.x‖ ^ 2 ≤ max (tol ^ 2 * ‖b‖ ^ 2) (atol ^ 2)) := by
  refine ⟨exists_out (fun s => s.iters) N (fun s h => h.2) fun s => Nat.lt_succ_self _, fun s ⟨hr, hc⟩ => ?_⟩
  obtain ⟨k, rfl, hnz, hcs⟩ := pcg_reach hid hr
  have key : ¬ N ≤ (pcgSeq A M b x0 k).iters → ‖b - A (pcgSeq A M b x0 k).x‖ ^ 2 ≤ max (tol ^ 2 * ‖b‖ ^ 2) (atol ^ 2) := by
    intro hN
    have h1 : ¬ ((if isId then (pcgSeq A M b x0 k).gamma else inner ℝ (pcgSeq A M b x0 k).r (pcgSeq A M b x0 k).r) >
        max (tol ^ 2 * inner ℝ b b) (atol ^ 2)) := fun h => hc ⟨h, not_le.mp hN⟩
    have e : (if isId then (pcgSeq A M b x0 k).gamma else inner ℝ (pcgSeq A M b x0 k).r (pcgSeq A M b x0 k).r) =
        ‖b - A (pcgSeq A M b x0 k).x‖ ^ 2 := by
      rw [← pcg_res, ← real_inner_self_eq_norm_sq]
      split
      · rename_i h; rw [pcg_gamma, hid h]; rfl
      · rfl
    rw [e, real_inner_self_eq_norm_sq] at h1
    exact not_lt.mp h1
  refine ⟨?_, fun hfd hlt => ?_⟩
  · by_cases hN : N ≤ (pcgSeq A M b x0 k).iters
    · exact Or.inr hN
    · exact Or.inl (key hN)
  · by_cases hN : N ≤ (pcgSeq A M b x0 k).iters
    · -- then `k` is at least the dimension, so the residual is zero
      rw [pcg_iters] at hN
      obtain ⟨j, hj, hj0⟩ := pcg_exact (b := b) (x0 := x0) hA hM
      have hjk : ¬ j < k := fun h => hnz j h hj0
      have : j = k := by omega
      subst this
      rw [← pcg_res, hj0, norm_zero]
      have : (0 : ℝ) ≤ atol ^ 2 := sq_nonneg _
      exact le_max_of_le_right (by simpa using this)
    · exact key hN

/-! ## Plain conjugate gradients -/

/-- A CG state seen as a PCG state. -/
def CGState.toPcg (s : CGState E) : PCGState E := { x := s.x, r := s.r, p := s.p, gamma := s.rr, iters := s.iters + 1 }

/-- **C38** with the identity as preconditioner, PCG makes the same iterates as CG: same points, residuals, directions and energies. -/
theorem c38_pcg_identity_is_cg (A : E →ₗ[ℝ] E) (b x0 : E) (k : ℕ) :
    ((pcgStep A id)^[k] (pcgInit A id b x0)) = ((cgStep A)^[k] (cgInit A b x0)).toPcg := by
  induction k with
  | zero => rfl
  | succ k ih => rw [Function.iterate_succ_apply', Function.iterate_succ_apply', ih]; rfl

theorem cg_seq (A : E →ₗ[ℝ] E) (b x0 : E) (k : ℕ) : ((cgStep A)^[k] (cgInit A b x0)).toPcg = pcgSeq A LinearMap.id b x0 k :=
  (c38_pcg_identity_is_cg A b x0 k).symm

theorem cg_reach {A : E →ₗ[ℝ] E} {b x0 : E} {N : ℕ} {rtol : ℝ} {s : CGState E}
    (h : Reach (cgCond b N rtol) (cgStep A) (cgInit A b x0) s) :
    ∃ k, s = (cgStep A)^[k] (cgInit A b x0) ∧ s.iters = k ∧ s.toPcg = pcgSeq A LinearMap.id b x0 k ∧
      (∀ j < k, (pcgSeq A LinearMap.id b x0 j).r ≠ 0) ∧ (k ≤ N ∨ k = 0) := by
  obtain ⟨k, rfl, hk⟩ := h.iterate
  have hit : ∀ j, ((cgStep A)^[j] (cgInit A b x0)).iters = j := by
    intro j
    have := congrArg PCGState.iters (cg_seq A b x0 j)
    rw [pcg_iters] at this
    simp only [CGState.toPcg] at this; omega
  refine ⟨k, rfl, hit k, cg_seq A b x0 k, fun j hj hr => ?_, ?_⟩
  · have h1 := (hk j hj).1
    have hg : ((cgStep A)^[j] (cgInit A b x0)).rr = (pcgSeq A LinearMap.id b x0 j).gamma := congrArg PCGState.gamma (cg_seq A b x0 j)
    rw [hg, pcg_gamma, hr, inner_zero_left] at h1
    have : 0 ≤ inner ℝ b b * rtol ^ 2 := mul_nonneg real_inner_self_nonneg (sq_nonneg _)
    linarith
  · cases k with
    | zero => exact Or.inr rfl
    | succ k =>
      have := (hk k (by omega)).2
      rw [hit] at this; left; omega

/-- **C37** at every state of `cg.solve_from`, for symmetric positive definite `A`: the residual is `b - A x`, the stored squared norm is its
squared norm, the counter is at most the limit, no division by zero happens in the next iteration, and the energy-norm error drops. -/
theorem c37_cg_invariants (A : E →ₗ[ℝ] E) (hA : SPD A) (b x0 : E) (N : ℕ) (rtol : ℝ) (s : CGState E)
    (h : Reach (cgCond b N rtol) (cgStep A) (cgInit A b x0) s) :
    s.r = b - A s.x ∧ s.rr = ‖s.r‖ ^ 2 ∧ s.iters ≤ N ∧
    (cgCond b N rtol s → inner ℝ s.p (A s.p) ≠ 0 ∧ s.rr ≠ 0 ∧
      ∀ xs, A xs = b → inner ℝ ((cgStep A s).x - xs) (A ((cgStep A s).x - xs)) < inner ℝ (s.x - xs) (A (s.x - xs))) := by
  obtain ⟨k, hk, hit, hseq, hr, hN⟩ := cg_reach h
  have er : s.r = (pcgSeq A LinearMap.id b x0 k).r := congrArg PCGState.r hseq
  have ex : s.x = (pcgSeq A LinearMap.id b x0 k).x := congrArg PCGState.x hseq
  have ep : s.p = (pcgSeq A LinearMap.id b x0 k).p := congrArg PCGState.p hseq
  have eg : s.rr = (pcgSeq A LinearMap.id b x0 k).gamma := congrArg PCGState.gamma hseq
  refine ⟨by rw [er, ex, pcg_res], by rw [eg, er, pcg_gamma, ← real_inner_self_eq_norm_sq]; rfl, by omega, fun hc => ?_⟩
  obtain ⟨k', _, hit', hseq', hr', _⟩ := cg_reach (h.step hc)
  have e : k' = k + 1 := by rw [← hit', ← hit]; rfl
  subst e
  have hf := cg_facts hA spd_id (k + 1) hr'
  have hrk := hr' k (by omega)
  refine ⟨?_, ?_, fun xs hxs => ?_⟩
  · rw [ep]; exact (hA.pos _ (hf.p_ne spd_id (by omega) hrk)).ne'
  · rw [eg, pcg_gamma]; exact (spd_id.pos _ hrk).ne'
  · have ex' : (cgStep A s).x = (pcgSeq A LinearMap.id b x0 (k + 1)).x := congrArg PCGState.x hseq'
    rw [ex', ex]
    exact pcg_energy hA spd_id k (fun j hj => hr' j (by omega)) xs hxs

/-- **C37** the directions of `cg.solve_from` are `A`-conjugate and the residuals orthogonal. -/
theorem c37_cg_conjugate (A : E →ₗ[ℝ] E) (hA : SPD A) (b x0 : E) (N : ℕ) (rtol : ℝ) (s t : CGState E)
    (hs : Reach (cgCond b N rtol) (cgStep A) (cgInit A b x0) s) (ht : Reach (cgCond b N rtol) (cgStep A) (cgInit A b x0) t)
    (hne : s.iters < t.iters) : inner ℝ t.p (A s.p) = 0 ∧ inner ℝ t.r s.r = 0 ∧ inner ℝ t.r s.p = 0 := by
  obtain ⟨k, _, hk, hks, _, _⟩ := cg_reach hs
  obtain ⟨l, _, hl, hls, hr, _⟩ := cg_reach ht
  have hf := cg_facts hA spd_id l hr
  have e1 : s.p = (pcgSeq A LinearMap.id b x0 k).p := congrArg PCGState.p hks
  have e2 : t.p = (pcgSeq A LinearMap.id b x0 l).p := congrArg PCGState.p hls
  have e3 : s.r = (pcgSeq A LinearMap.id b x0 k).r := congrArg PCGState.r hks
  have e4 : t.r = (pcgSeq A LinearMap.id b x0 l).r := congrArg PCGState.r hls
  rw [e1, e2, e3, e4]
  exact ⟨hf.conj k l (by omega) le_rfl, hf.rz k l (by omega) le_rfl, hf.rp k l (by omega) le_rfl⟩

/-- **C37** optimality: each iterate of `cg.solve_from` has the least energy-norm error among all points reached by adding a combination of the
directions used so far. -/
theorem c37_cg_optimal (A : E →ₗ[ℝ] E) (hA : SPD A) (b x0 : E) (N : ℕ) (rtol : ℝ) (t : CGState E)
    (ht : Reach (cgCond b N rtol) (cgStep A) (cgInit A b x0) t) (xs : E) (hxs : A xs = b) (d : E)
    (hd : d ∈ Submodule.span ℝ {p | ∃ s, Reach (cgCond b N rtol) (cgStep A) (cgInit A b x0) s ∧ s.iters < t.iters ∧ p = s.p}) :
    inner ℝ (t.x - xs) (A (t.x - xs)) ≤ inner ℝ (t.x + d - xs) (A (t.x + d - xs)) := by
  have h0 : inner ℝ t.r d = 0 := by
    induction hd using Submodule.span_induction with
    | mem p hp => obtain ⟨s, hs, hlt, rfl⟩ := hp; exact (c37_cg_conjugate A hA b x0 N rtol s t hs ht hlt).2.2
    | zero => exact inner_zero_right _
    | add x y _ _ h1 h2 => rw [inner_add_right, h1, h2, add_zero]
    | smul c x _ h1 => rw [inner_smul_right, h1, mul_zero]
  have hr := (c37_cg_invariants A hA b x0 N rtol t ht).1
  rw [hr, ← hxs, ← map_sub] at h0
  have e : t.x + d - xs = (t.x - xs) + d := by abel
  have h1 : inner ℝ (A (t.x - xs)) d = 0 := by rw [← neg_sub xs t.x, map_neg, inner_neg_left, h0, neg_zero]
  have h2 : inner ℝ d (A (t.x - xs)) = 0 := by rw [real_inner_comm, h1]
  have h3 : inner ℝ (t.x - xs) (A d) = 0 := by rw [← hA.symm, h1]
  rw [e, map_add, inner_add_left, inner_add_right, inner_add_right, h2, h3]
  have := hA.nonneg d
  linarith

/-- **C37** termination: `cg.solve_from` always returns; the returned residual meets `|b - A x| ≤ rtol |b|` unless the iteration limit was reached,
and with the default limit (the dimension) or a larger one it always meets it, even for `rtol = 0`, when the returned `x` is the exact solution. -/
theorem c37_cg_stop (A : E →ₗ[ℝ] E) (hA : SPD A) (b x0 : E) (N : ℕ) (rtol : ℝ) (hrt : 0 ≤ rtol) :
    (∃ s, CgSolveFrom A b x0 N rtol s) ∧
    ∀ s, CgSolveFrom A b x0 N rtol s →
      (‖b - A s.x‖ ≤ rtol * ‖b‖ ∨ s.iters = N) ∧
      (FiniteDimensional ℝ E → Module.finrank ℝ E ≤ N → ‖b - A s.x‖ ≤ rtol * ‖b‖) := by
  refine ⟨exists_out (fun s => s.iters) N (fun s h => h.2) fun s => Nat.lt_succ_self _, fun s ⟨hr, hc⟩ => ?_⟩
  have hinv := c37_cg_invariants A hA b x0 N rtol s hr
  have key : s.iters ≠ N → ‖b - A s.x‖ ≤ rtol * ‖b‖ := by
    intro hN
    have h1 : ¬ s.rr > inner ℝ b b * rtol ^ 2 := fun h => hc ⟨h, by have := hinv.2.2.1; omega⟩
    rw [hinv.2.1, hinv.1, real_inner_self_eq_norm_sq] at h1
    refine abs_le_of_sq_le_sq' ?_ (by positivity) |>.2
    have := not_lt.mp h1
    linarith [mul_pow rtol ‖b‖ 2, mul_comm (‖b‖ ^ 2) (rtol ^ 2)]
  refine ⟨?_, fun hfd hle => ?_⟩
  · by_cases hN : s.iters = N
    · exact Or.inr hN
    · exact Or.inl (key hN)
  · by_cases hN : s.iters = N
    · obtain ⟨k, _, hk, hks, hnz, _⟩ := cg_reach hr
      obtain ⟨j, hj, hj0⟩ := pcg_exact (b := b) (x0 := x0) hA spd_id
      have hjk : ¬ j < k := fun h => hnz j h hj0
      have : j = k := by omega
      subst this
      have e4 : s.r = (pcgSeq A LinearMap.id b x0 j).r := congrArg PCGState.r hks
      rw [← hinv.1, e4, hj0, norm_zero]; positivity
    · exact key hN

/-- The hypotheses are met by a non-trivial operator: twice the identity on `ℝ³`. -/
theorem ex_spd2 : SPD ((2 : ℝ) • LinearMap.id : EuclideanSpace ℝ (Fin 3) →ₗ[ℝ] EuclideanSpace ℝ (Fin 3)) :=
  ⟨fun x y => by simp [inner_smul_left, inner_smul_right], fun x hx => by
    simp only [LinearMap.smul_apply, LinearMap.id_apply, inner_smul_right]
    exact mul_pos two_pos (real_inner_self_pos.mpr hx)⟩

/-- The matrix `[[2,1],[1,2]]` on `ℝ²`. -/
def exA : EuclideanSpace ℝ (Fin 2) →ₗ[ℝ] EuclideanSpace ℝ (Fin 2) := Matrix.toEuclideanLin !![(2 : ℝ), 1; 1, 2]

/-- and by a non-diagonal matrix, `[[2,1],[1,2]]` on `ℝ²`. -/
theorem ex_spd_mat : SPD exA := by
  unfold exA
  refine ⟨fun x y => ?_, fun x hx => ?_⟩
  · simp [Matrix.toEuclideanLin, Matrix.toLpLin_apply, PiLp.inner_apply, Matrix.mulVec, dotProduct, Fin.sum_univ_two]; ring
  · have h : x 0 ≠ 0 ∨ x 1 ≠ 0 := by
      by_contra hn
      push Not at hn
      exact hx (by ext i; fin_cases i <;> simp [hn.1, hn.2])
    simp [Matrix.toEuclideanLin, Matrix.toLpLin_apply, PiLp.inner_apply, Matrix.mulVec, dotProduct, Fin.sum_univ_two]
    rcases h with h | h
    · have : 0 < x 0 ^ 2 := by positivity
      nlinarith [sq_nonneg (x 0 + x 1), sq_nonneg (x 1)]
    · have : 0 < x 1 ^ 2 := by positivity
      nlinarith [sq_nonneg (x 0 + x 1), sq_nonneg (x 0)]

/-! Instances: `[[2, 1], [1, 2]] x = b` with the identity and with a scaled preconditioner. -/

theorem ex_spd_smul : SPD ((2 : ℝ) • LinearMap.id : EuclideanSpace ℝ (Fin 2) →ₗ[ℝ] EuclideanSpace ℝ (Fin 2)) :=
  ⟨fun x y => by simp [inner_smul_left, inner_smul_right], fun x hx => by
    simp only [LinearMap.smul_apply, LinearMap.id_apply, inner_smul_right]
    exact mul_pos two_pos (real_inner_self_pos.mpr hx)⟩

example (b x0 : EuclideanSpace ℝ (Fin 2)) (s : PCGState (EuclideanSpace ℝ (Fin 2)))
    (h : Reach (pcgCond b 30 (1e-5) 0 false) (pcgStep exA ((2 : ℝ) • (LinearMap.id : EuclideanSpace ℝ (Fin 2) →ₗ[ℝ] EuclideanSpace ℝ (Fin 2)))) (pcgInit exA ((2 : ℝ) • (LinearMap.id : EuclideanSpace ℝ (Fin 2) →ₗ[ℝ] EuclideanSpace ℝ (Fin 2))) b x0) s) :=
  c38_pcg_invariants exA ((2 : ℝ) • (LinearMap.id : EuclideanSpace ℝ (Fin 2) →ₗ[ℝ] EuclideanSpace ℝ (Fin 2))) ex_spd_mat ex_spd_smul false (by simp) b x0 30 (1e-5) 0 s h

example (b x0 : EuclideanSpace ℝ (Fin 2)) (s t : PCGState (EuclideanSpace ℝ (Fin 2)))
    (hs : Reach (pcgCond b 30 (1e-5) 0 false) (pcgStep exA ((2 : ℝ) • (LinearMap.id : EuclideanSpace ℝ (Fin 2) →ₗ[ℝ] EuclideanSpace ℝ (Fin 2)))) (pcgInit exA ((2 : ℝ) • (LinearMap.id : EuclideanSpace ℝ (Fin 2) →ₗ[ℝ] EuclideanSpace ℝ (Fin 2))) b x0) s)
    (ht : Reach (pcgCond b 30 (1e-5) 0 false) (pcgStep exA ((2 : ℝ) • (LinearMap.id : EuclideanSpace ℝ (Fin 2) →ₗ[ℝ] EuclideanSpace ℝ (Fin 2)))) (pcgInit exA ((2 : ℝ) • (LinearMap.id : EuclideanSpace ℝ (Fin 2) →ₗ[ℝ] EuclideanSpace ℝ (Fin 2))) b x0) t)
    (h : s.iters < t.iters) :=
  c38_pcg_conjugate exA ((2 : ℝ) • (LinearMap.id : EuclideanSpace ℝ (Fin 2) →ₗ[ℝ] EuclideanSpace ℝ (Fin 2))) ex_spd_mat ex_spd_smul false (by simp) b x0 30 (1e-5) 0 s t hs ht h

/-- The zero right-hand side is excluded nowhere: with tolerance `1e-5` and 30 iterations the returned point meets the tolerance. -/
example (b : EuclideanSpace ℝ (Fin 2)) : ∃ s, PcgSolveFrom exA ((2 : ℝ) • (LinearMap.id : EuclideanSpace ℝ (Fin 2) →ₗ[ℝ] EuclideanSpace ℝ (Fin 2))) false b 0 30 (1e-5) 0 s ∧
    ‖b - exA s.x‖ ^ 2 ≤ max ((1e-5) ^ 2 * ‖b‖ ^ 2) (0 ^ 2) := by
  obtain ⟨⟨s, hs⟩, h⟩ := c38_pcg_stop exA ((2 : ℝ) • (LinearMap.id : EuclideanSpace ℝ (Fin 2) →ₗ[ℝ] EuclideanSpace ℝ (Fin 2))) ex_spd_mat ex_spd_smul false (by simp) b 0 30 (1e-5) 0
  exact ⟨s, hs, (h s hs).2 inferInstance (by simp)⟩

example (b x0 : EuclideanSpace ℝ (Fin 2)) (s : CGState (EuclideanSpace ℝ (Fin 2)))
    (h : Reach (cgCond b 5 0) (cgStep exA) (cgInit exA b x0) s) := c37_cg_invariants exA ex_spd_mat b x0 5 0 s h

example (b x0 : EuclideanSpace ℝ (Fin 2)) (s t : CGState (EuclideanSpace ℝ (Fin 2)))
    (hs : Reach (cgCond b 5 0) (cgStep exA) (cgInit exA b x0) s) (ht : Reach (cgCond b 5 0) (cgStep exA) (cgInit exA b x0) t)
    (h : s.iters < t.iters) := c37_cg_conjugate exA ex_spd_mat b x0 5 0 s t hs ht h

example (xs x0 : EuclideanSpace ℝ (Fin 2)) (t : CGState (EuclideanSpace ℝ (Fin 2)))
    (ht : Reach (cgCond (exA xs) 5 0) (cgStep exA) (cgInit exA (exA xs) x0) t) :=
  c37_cg_optimal exA ex_spd_mat (exA xs) x0 5 0 t ht xs rfl

/-- Two iterations solve a 2 by 2 system exactly, tolerance zero included. -/
example (b : EuclideanSpace ℝ (Fin 2)) : ∃ s, CgSolveFrom exA b 0 2 0 s ∧ exA s.x = b := by
  obtain ⟨⟨s, hs⟩, h⟩ := c37_cg_stop exA ex_spd_mat b 0 2 0 le_rfl
  have := (h s hs).2 inferInstance (by simp)
  rw [zero_mul, norm_le_zero_iff, sub_eq_zero] at this
  exact ⟨s, hs, this.symm⟩

/-- Both conjugacy statements speak about runs that do step: from `x0 = 0` with `b = (1, 0)` the first step is taken. -/
example : cgCond (EuclideanSpace.single 0 1) 5 0 (cgInit exA (EuclideanSpace.single 0 1) 0) := by
  simp [cgCond, cgInit]

end Verif.Opt
