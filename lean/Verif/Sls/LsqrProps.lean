import Verif.Sls.LsqrLemmas
import Mathlib.Analysis.InnerProductSpace.Adjoint
import Mathlib.Analysis.InnerProductSpace.PiL2

set_option autoImplicit false
/-!
# LSQR (C43, C82, C83)

`A` is any linear operator between real inner product spaces and `At` its adjoint. `LsqrReach … s` says that the loop of
`lsqr(A, b, x0, damp, atol, btol, conlim, max_iters)` passes through the state `s`, `Lsqr … s` that it returns `s`.
-/
noncomputable section
namespace Verif.Sls
open Verif.Loop

variable {E : Type*} [NormedAddCommGroup E] [InnerProductSpace ℝ E] {F : Type*} [NormedAddCommGroup F] [InnerProductSpace ℝ F]

/-- `trans` is the adjoint of `times`. -/
def IsAdj (A : E →ₗ[ℝ] F) (At : F →ₗ[ℝ] E) : Prop := ∀ x y, inner ℝ (A x) y = inner ℝ x (At y)

section lemmas
variable {A : E →ₗ[ℝ] F} {At : F →ₗ[ℝ] E} {b : F} {x0 : E} {damp atol btol conlim : ℝ} {max_iters : ℕ} {s : LsqrState E F}

theorem LInv.grad {U : Submodule ℝ F} {p1 q1 : F} {p2 q2 X : E} (h : LInv A At b x0 damp U p1 q1 p2 q2 X s) :
    At (b - A s.x) - damp ^ 2 • (s.x - x0) = (s.phi_bar * s.rho_bar) • s.v := by
  have e : At (b - A s.x) - damp ^ 2 • (s.x - x0) = At (b - A s.x) + damp • -(damp • (s.x - x0)) := by module
  rw [e, h.rot.res1, h.rot.res2, map_add, map_smul]
  have e1 : At q1 = -(damp • q2) := by rw [← add_eq_zero_iff_eq_neg]; exact h.rot.hAq
  have e0 : At p1 = s.rho_bar • s.v - damp • p2 := by rw [← h.rot.hAp]; abel
  rw [e0, e1]; module

theorem LInv.res_sq {U : Submodule ℝ F} {p1 q1 : F} {p2 q2 X : E} (h : LInv A At b x0 damp U p1 q1 p2 q2 X s) :
    ‖b - A s.x‖ ^ 2 + damp ^ 2 * ‖s.x - x0‖ ^ 2 = s.phi_bar ^ 2 + s.cum_psi_sqr := by
  have e : damp ^ 2 * ‖s.x - x0‖ ^ 2 = ‖-(damp • (s.x - x0))‖ ^ 2 := by rw [norm_neg, norm_smul, mul_pow, Real.norm_eq_abs, sq_abs]
  rw [e, h.rot.res1, h.rot.res2, ← h.rot.hqq, ← real_inner_self_eq_norm_sq, ← real_inner_self_eq_norm_sq]
  simp only [inner_add_left, inner_add_right, real_inner_smul_left, inner_smul_right]
  have a1 : inner ℝ q1 p1 = -inner ℝ q2 p2 := by linarith [h.rot.hqp]
  have a2 : inner ℝ p1 q1 = -inner ℝ p2 q2 := by rw [real_inner_comm, a1, real_inner_comm]
  rcases eq_or_ne s.phi_bar 0 with h0 | h0
  · rw [h0]; ring
  · have t : inner ℝ p1 p1 = 1 - inner ℝ p2 p2 := by linarith [h.rot.hpp h0]
    rw [a1, a2, t]; ring

theorem LInv.grad_norm {U : Submodule ℝ F} {p1 q1 : F} {p2 q2 X : E} (h : LInv A At b x0 damp U p1 q1 p2 q2 X s) :
    s.atr_norm = ‖At (b - A s.x) - damp ^ 2 • (s.x - x0)‖ := by
  rw [h.grad, norm_smul, Real.norm_eq_abs, h.atr_eq]
  rcases eq_or_ne s.rho_bar 0 with h0 | h0
  · rw [h0]; simp
  · rw [h.unit_v (h.alpha_ne h0), mul_one]

/-- A step was made only if the initial normal-equation residual is nonzero. -/
theorem lsqr_first (h : LsqrReach A At b x0 damp atol btol conlim max_iters s) :
    s = lsqrInit A At b x0 ∨ (0 < (lsqrInit A At b x0).atr_norm ∧ 0 < (lsqrInit A At b x0).beta) := by
  refine Reach.inv (fun s => s = lsqrInit A At b x0 ∨ (0 < (lsqrInit A At b x0).atr_norm ∧ 0 < (lsqrInit A At b x0).beta)) h (Or.inl rfl) ?_
  intro s _ hc
  right
  have h0 : 0 ≤ (lsqrInit A At b x0).beta := norm_nonneg _
  have h1 : 0 ≤ (lsqrInit A At b x0).alpha := norm_nonneg _
  have e : (lsqrInit A At b x0).atr_norm = (lsqrInit A At b x0).alpha * (lsqrInit A At b x0).beta := rfl
  have hr : 1 + s.atr_norm / (lsqrInit A At b x0).atr_norm > 1 := hc.2.2.1
  have hne : (lsqrInit A At b x0).atr_norm ≠ 0 := by intro hz; rw [hz, div_zero] at hr; linarith
  rw [e] at hne ⊢
  have h2 := right_ne_zero_of_mul hne
  have h3 := left_ne_zero_of_mul hne
  exact ⟨by positivity, by positivity⟩

end lemmas

/-- **C43** without damping, at every state of the loop the reported residual norm is `|b - A x|`, the reported normal-equation residual norm is
`|Aᵀ (b - A x)|`, and the reported operation counts are the numbers of calls made. -/
theorem c43_residual_norms (A : E →ₗ[ℝ] F) (At : F →ₗ[ℝ] E) (hadj : IsAdj A At) (b : F) (x0 : E) (atol btol conlim : ℝ) (max_iters : ℕ)
    (s : LsqrState E F) (h : LsqrReach A At b x0 0 atol btol conlim max_iters s) :
    s.r_norm = ‖b - A s.x‖ ∧ s.atr_norm = ‖At (b - A s.x)‖ ∧ s.n_times = s.timesCalls ∧ s.n_trans = s.transCalls ∧
    s.n_times = s.iterations ∧ s.n_trans = s.iterations := by
  obtain ⟨U, p1, q1, p2, q2, X, hi⟩ := lsqr_inv hadj h
  refine ⟨?_, ?_, hi.n_times_eq.1, hi.n_trans_eq.1, hi.n_times_eq.2, hi.n_trans_eq.2⟩
  · rw [hi.r_eq, ← hi.res_sq]
    simp [Real.sqrt_sq (norm_nonneg _)]
  · rw [hi.grad_norm]; simp

/-- **C43** with damping, the reported residual norm is `√(|b - A x|² + damp² |x - x0|²)` and the reported normal-equation residual norm is
`|Aᵀ (b - A x) - damp² (x - x0)|`, the norm of half the gradient of the damped objective. -/
theorem c43_damped_norms (A : E →ₗ[ℝ] F) (At : F →ₗ[ℝ] E) (hadj : IsAdj A At) (b : F) (x0 : E) (damp atol btol conlim : ℝ) (max_iters : ℕ)
    (s : LsqrState E F) (h : LsqrReach A At b x0 damp atol btol conlim max_iters s) :
    s.r_norm = Real.sqrt (‖b - A s.x‖ ^ 2 + damp ^ 2 * ‖s.x - x0‖ ^ 2) ∧ s.atr_norm = ‖At (b - A s.x) - damp ^ 2 • (s.x - x0)‖ ∧
    s.n_times = s.timesCalls ∧ s.n_trans = s.transCalls := by
  obtain ⟨U, p1, q1, p2, q2, X, hi⟩ := lsqr_inv hadj h
  exact ⟨by rw [hi.r_eq, ← hi.res_sq], hi.grad_norm, hi.n_times_eq.1, hi.n_trans_eq.1⟩

theorem damped_expand (A : E →ₗ[ℝ] F) (At : F →ₗ[ℝ] E) (hadj : IsAdj A At) (b : F) (x0 x d : E) (damp : ℝ) :
    ‖b - A (x + d)‖ ^ 2 + damp ^ 2 * ‖x + d - x0‖ ^ 2 = ‖b - A x‖ ^ 2 + damp ^ 2 * ‖x - x0‖ ^ 2 + (‖A d‖ ^ 2 + damp ^ 2 * ‖d‖ ^ 2)
      - 2 * inner ℝ (At (b - A x) - damp ^ 2 • (x - x0)) d := by
  have e1 : b - A (x + d) = (b - A x) - A d := by rw [map_add]; abel
  have e2 : x + d - x0 = (x - x0) + d := by abel
  rw [e1, e2, norm_sub_sq_real, norm_add_sq_real, inner_sub_left (At (b - A x)), real_inner_smul_left]
  have : inner ℝ (b - A x) (A d) = inner ℝ (At (b - A x)) d := by rw [real_inner_comm, hadj, real_inner_comm]
  rw [this]; ring

/-- **C83** optimality: after `k` iterations `x - x0` lies in the Krylov space `span {(AᵀA)ⁱ Aᵀ (b - A x0) | i < k}`, and `x` minimises the (damped)
least squares objective over `x0` plus that space. -/
theorem c83_optimal (A : E →ₗ[ℝ] F) (At : F →ₗ[ℝ] E) (hadj : IsAdj A At) (b : F) (x0 : E) (damp atol btol conlim : ℝ) (max_iters : ℕ)
    (s : LsqrState E F) (h : LsqrReach A At b x0 damp atol btol conlim max_iters s) :
    s.x - x0 ∈ krylov A At (b - A x0) (s.iterations - 1) ∧
    ∀ y, y - x0 ∈ krylov A At (b - A x0) (s.iterations - 1) →
      ‖b - A s.x‖ ^ 2 + damp ^ 2 * ‖s.x - x0‖ ^ 2 ≤ ‖b - A y‖ ^ 2 + damp ^ 2 * ‖y - x0‖ ^ 2 := by
  obtain ⟨U, p1, q1, p2, q2, X, hi⟩ := lsqr_inv hadj h
  refine ⟨hi.right.hxV, fun y hy => ?_⟩
  have hd : y - s.x ∈ krylov A At (b - A x0) (s.iterations - 1) := by
    have : y - s.x = (y - x0) - (s.x - x0) := by abel
    rw [this]; exact Submodule.sub_mem _ hy hi.right.hxV
  have e := damped_expand A At hadj b x0 s.x (y - s.x) damp
  rw [hi.grad, real_inner_smul_left, hi.bid.hv _ hd, add_sub_cancel] at e
  rw [e]
  have : 0 ≤ ‖A (y - s.x)‖ ^ 2 + damp ^ 2 * ‖y - s.x‖ ^ 2 := by positivity
  linarith

/-- **C83** the reported residual norm never increases. -/
theorem c83_monotone (A : E →ₗ[ℝ] F) (At : F →ₗ[ℝ] E) (hadj : IsAdj A At) (b : F) (x0 : E) (damp atol btol conlim : ℝ) (max_iters : ℕ)
    (s : LsqrState E F) (h : LsqrReach A At b x0 damp atol btol conlim max_iters s)
    (hc : lsqrCond (lsqrInit A At b x0).beta (lsqrInit A At b x0).atr_norm atol btol conlim max_iters s) :
    (lsqrBody A At damp s).r_norm ≤ s.r_norm := by
  have h' : LsqrReach A At b x0 damp atol btol conlim max_iters (lsqrBody A At damp s) := Reach.step h hc
  rw [(c43_damped_norms A At hadj b x0 damp atol btol conlim max_iters s h).1,
    (c43_damped_norms A At hadj b x0 damp atol btol conlim max_iters _ h').1]
  refine Real.sqrt_le_sqrt ((c83_optimal A At hadj b x0 damp atol btol conlim max_iters _ h').2 s.x ?_)
  exact krylov_mono A At _ (Nat.sub_le_sub_right (Nat.le_succ _) 1) (c83_optimal A At hadj b x0 damp atol btol conlim max_iters s h).1

/-- **C83** no division by zero: the norms used in the stopping test are positive and, whenever the loop runs its body, so are the divisors
`rho_bar`, `rho`, `gamma` of the body, and `gamma_bar` is nonzero. -/
theorem c83_no_zero_division (A : E →ₗ[ℝ] F) (At : F →ₗ[ℝ] E) (hadj : IsAdj A At) (b : F) (x0 : E) (damp atol btol conlim : ℝ) (max_iters : ℕ)
    (s : LsqrState E F) (h : LsqrReach A At b x0 damp atol btol conlim max_iters s) :
    0 < s.A_cond ∧
    (lsqrCond (lsqrInit A At b x0).beta (lsqrInit A At b x0).atr_norm atol btol conlim max_iters s →
      0 < ‖b - A x0‖ ∧ 0 < ‖At (b - A x0)‖ ∧
      let rho_bar := l2norm2 s.rho_bar damp
      let rho := l2norm2 rho_bar ‖A s.v - s.alpha • s.u‖
      0 < rho_bar ∧ 0 < rho ∧ -s.cs2 * rho ≠ 0 ∧ ∀ theta, 0 < l2norm2 (-s.cs2 * rho) theta) := by
  obtain ⟨U, p1, q1, p2, q2, X, hi⟩ := lsqr_inv hadj h
  refine ⟨hi.cond_pos, fun hc => ?_⟩
  have hat : 0 < s.atr_norm := lsqrCond_pos (mul_nonneg (norm_nonneg _) (norm_nonneg _)) hc
  have hpr : s.phi_bar * s.rho_bar ≠ 0 := by rw [hi.atr_eq] at hat; exact abs_pos.mp hat
  have hrb : s.rho_bar ≠ 0 := right_ne_zero_of_mul hpr
  have hr1 : 0 < l2norm2 s.rho_bar damp := Real.sqrt_pos.mpr (by positivity)
  have hr2 : 0 < l2norm2 (l2norm2 s.rho_bar damp) ‖A s.v - s.alpha • s.u‖ := Real.sqrt_pos.mpr (by positivity)
  have hcs := hi.right.hc
  have hne : -s.cs2 * l2norm2 (l2norm2 s.rho_bar damp) ‖A s.v - s.alpha • s.u‖ ≠ 0 := mul_ne_zero (neg_ne_zero.mpr hcs) hr2.ne'
  have hfirst : 0 < (lsqrInit A At b x0).atr_norm ∧ 0 < (lsqrInit A At b x0).beta := by
    rcases lsqr_first (s := lsqrBody A At damp s) (Reach.step h hc) with h1 | h1
    · have := congrArg LsqrState.iterations h1
      have e1 : (lsqrBody A At damp s).iterations = s.iterations + 1 := rfl
      have e2 : (lsqrInit A At b x0).iterations = 1 := rfl
      have := hi.it_pos
      omega
    · exact h1
  refine ⟨hfirst.2, ?_, hr1, hr2, hne, fun theta => Real.sqrt_pos.mpr ?_⟩
  · rw [norm_pos_iff]
    intro h0
    have : (lsqrInit A At b x0).atr_norm = 0 := by
      rw [(LInv.init A At b x0 0).grad_norm]
      show ‖At (b - A x0) - _ • (x0 - x0)‖ = 0
      rw [h0]; simp
    linarith [hfirst.1]
  · have : 0 < (-s.cs2 * l2norm2 (l2norm2 s.rho_bar damp) ‖A s.v - s.alpha • s.u‖) ^ 2 := sq_pos_iff.mpr hne
    positivity

/-- With zero tolerances and a limit above a bound `D` for the dimensions of the Krylov spaces the normal equations hold exactly. -/
theorem lsqr_exact_dim [FiniteDimensional ℝ E] {A : E →ₗ[ℝ] F} {At : F →ₗ[ℝ] E} (hadj : IsAdj A At) {b : F} {x0 : E} {damp : ℝ} {max_iters D : ℕ}
    (hD : ∀ k, Module.finrank ℝ (krylov A At (b - A x0) k) ≤ D) (hmax : D < max_iters) {s : LsqrState E F} (hs : Lsqr A At b x0 damp 0 0 0 max_iters s) :
    At (b - A s.x) - damp ^ 2 • (s.x - x0) = 0 := by
  obtain ⟨hr, hc⟩ := hs
  obtain ⟨U, p1, q1, p2, q2, X, hi⟩ := lsqr_inv hadj hr
  by_cases hit : s.iterations < max_iters
  · rw [← norm_eq_zero, ← hi.grad_norm]
    by_contra hne
    have hatr : 0 < s.atr_norm := lt_of_le_of_ne (by rw [hi.atr_eq]; exact abs_nonneg _) (Ne.symm hne)
    have hpos : 0 < (lsqrInit A At b x0).atr_norm ∧ 0 < (lsqrInit A At b x0).beta := by
      rcases lsqr_first hr with h1 | h1
      · rw [h1] at hatr
        refine ⟨hatr, ?_⟩
        have : (lsqrInit A At b x0).alpha * (lsqrInit A At b x0).beta ≠ 0 := hatr.ne'
        exact lt_of_le_of_ne (norm_nonneg _) (right_ne_zero_of_mul this).symm
      · exact h1
    have hpb : s.phi_bar ≠ 0 := by
      intro h0; rw [hi.atr_eq, h0, zero_mul, abs_zero] at hne; exact hne rfl
    have hcpsi : 0 ≤ s.cum_psi_sqr := by rw [← hi.rot.hqq]; exact add_nonneg real_inner_self_nonneg real_inner_self_nonneg
    have hrn : 0 < s.r_norm := by rw [hi.r_eq]; exact Real.sqrt_pos.mpr (by positivity)
    have hcp := hi.cond_pos
    have hA := hi.A_nonneg
    have hx := hi.xn_nonneg
    refine hc ⟨hit, ?_, ?_, ?_, ?_, ?_, ?_⟩
    · have : 0 < 1 / s.A_cond := by positivity
      linarith
    · have : 0 < s.atr_norm / (lsqrInit A At b x0).atr_norm := div_pos hatr hpos.1
      linarith
    · have h2 := hpos.2
      have : 0 < s.r_norm / (lsqrInit A At b x0).beta / (1 + s.A_norm * s.x_norm / (lsqrInit A At b x0).beta) := by positivity
      linarith
    · rw [lsqrCtol, if_pos rfl]; show 0 < 1 / s.A_cond; positivity
    · exact div_pos hatr hpos.1
    · have h2 : 0 < s.r_norm / (lsqrInit A At b x0).beta := div_pos hrn hpos.2
      show s.r_norm / (lsqrInit A At b x0).beta > 0 + 0 * s.A_norm * s.x_norm / (lsqrInit A At b x0).beta
      simpa using h2
  · have hf := hi.fin inferInstance
    have hle := hD s.iterations
    have hsub : krylov A At (b - A x0) (s.iterations - 1) ≤ krylov A At (b - A x0) s.iterations := krylov_mono _ _ _ (Nat.sub_le _ _)
    have heq : krylov A At (b - A x0) (s.iterations - 1) = krylov A At (b - A x0) s.iterations :=
      Submodule.eq_of_le_of_finrank_le hsub (by omega)
    have hv := hi.bid.hv s.v (by rw [heq]; exact hi.bid.hkout (Submodule.mem_sup_right (Submodule.mem_span_singleton_self _)))
    rw [inner_self_eq_zero] at hv
    rw [hi.grad, hv, smul_zero]

/-- The normal equations characterise the minimisers. -/
theorem lsqr_minimiser {A : E →ₗ[ℝ] F} {At : F →ₗ[ℝ] E} (hadj : IsAdj A At) {b : F} {x0 x : E} {damp : ℝ}
    (hgrad : At (b - A x) - damp ^ 2 • (x - x0) = 0) :
    (∀ y, ‖b - A x‖ ^ 2 + damp ^ 2 * ‖x - x0‖ ^ 2 ≤ ‖b - A y‖ ^ 2 + damp ^ 2 * ‖y - x0‖ ^ 2) ∧
    ((∃ y, A y = b) → damp = 0 → A x = b) := by
  have hmin : ∀ y, ‖b - A x‖ ^ 2 + damp ^ 2 * ‖x - x0‖ ^ 2 ≤ ‖b - A y‖ ^ 2 + damp ^ 2 * ‖y - x0‖ ^ 2 := by
    intro y
    have e := damped_expand A At hadj b x0 x (y - x) damp
    rw [hgrad, inner_zero_left, add_sub_cancel] at e
    rw [e]
    have : 0 ≤ ‖A (y - x)‖ ^ 2 + damp ^ 2 * ‖y - x‖ ^ 2 := by positivity
    linarith
  refine ⟨hmin, ?_⟩
  rintro ⟨y, hy⟩ rfl
  have := hmin y
  rw [hy, sub_self, norm_zero] at this
  have h2 : ‖b - A x‖ = 0 := by
    have h3 := norm_nonneg (b - A x)
    have : ‖b - A x‖ ^ 2 ≤ 0 := by simpa using this
    nlinarith
  exact (sub_eq_zero.mp (norm_eq_zero.mp h2)).symm

/-- **C83** finite termination: `lsqr` always returns. With zero tolerances and a limit above the dimension of the unknown, the returned `x`
satisfies the (damped) normal equations exactly, so it minimises the (damped) least squares objective; in particular `A x = b` if that is solvable
and `damp = 0`. -/
theorem c83_exact (A : E →ₗ[ℝ] F) (At : F →ₗ[ℝ] E) (hadj : IsAdj A At) (b : F) (x0 : E) (damp : ℝ) (max_iters : ℕ) :
    (∀ atol btol conlim, ∃ s, Lsqr A At b x0 damp atol btol conlim max_iters s) ∧
    (FiniteDimensional ℝ E → Module.finrank ℝ E < max_iters → ∀ s, Lsqr A At b x0 damp 0 0 0 max_iters s →
      At (b - A s.x) = damp ^ 2 • (s.x - x0) ∧
      (∀ y, ‖b - A s.x‖ ^ 2 + damp ^ 2 * ‖s.x - x0‖ ^ 2 ≤ ‖b - A y‖ ^ 2 + damp ^ 2 * ‖y - x0‖ ^ 2) ∧
      ((∃ y, A y = b) → damp = 0 → A s.x = b)) := by
  refine ⟨fun atol btol conlim => exists_out (fun s => s.iterations) max_iters (fun s hs => hs.1) fun s => Nat.lt_succ_self _, ?_⟩
  intro hfd hmax s hs
  have h := lsqr_exact_dim hadj (fun k => Submodule.finrank_le _) hmax hs
  exact ⟨sub_eq_zero.mp h, lsqr_minimiser hadj h⟩

/-- The Krylov spaces meet the kernel of `A` only in zero, so `A` embeds them in its range. -/
theorem krylov_rank [FiniteDimensional ℝ E] {A : E →ₗ[ℝ] F} {At : F →ₗ[ℝ] E} (hadj : IsAdj A At) (r : F) (k : ℕ) :
    Module.finrank ℝ (krylov A At r k) ≤ Module.finrank ℝ (LinearMap.range A) := by
  have hker : ∀ x ∈ krylov A At r k, ∀ y, A y = 0 → inner ℝ x y = 0 := by
    intro x hx y hy
    refine Submodule.span_induction (p := fun x _ => inner ℝ x y = 0) ?_ (inner_zero_left _) (fun a b _ _ ha hb => by rw [inner_add_left, ha, hb, add_zero])
      (fun c a _ ha => by rw [real_inner_smul_left, ha, mul_zero]) hx
    rintro _ ⟨i, -, rfl⟩
    obtain ⟨w, hw⟩ : ∃ w, ((At ∘ₗ A) ^ i) (At r) = At w := by
      cases i with
      | zero => exact ⟨r, rfl⟩
      | succ i => exact ⟨A (((At ∘ₗ A) ^ i) (At r)), by rw [pow_succ']; rfl⟩
    rw [hw, real_inner_comm, ← hadj, hy, inner_zero_left]
  have hinj : Function.Injective (A.rangeRestrict.domRestrict (krylov A At r k)) := by
    rw [← LinearMap.ker_eq_bot, LinearMap.ker_eq_bot']
    intro x hx
    have h1 : A (x : E) = 0 := congrArg Subtype.val hx
    have h2 := hker x x.2 x h1
    exact Subtype.ext (inner_self_eq_zero.mp h2)
  exact LinearMap.finrank_le_finrank_of_injective hinj

/-- **C83** the limit only has to exceed the rank of the operator: the same conclusions as in `c83_exact` hold as soon as `max_iters > rank A`. -/
theorem c83_exact_rank [FiniteDimensional ℝ E] (A : E →ₗ[ℝ] F) (At : F →ₗ[ℝ] E) (hadj : IsAdj A At) (b : F) (x0 : E) (damp : ℝ) (max_iters : ℕ)
    (hmax : Module.finrank ℝ (LinearMap.range A) < max_iters) (s : LsqrState E F) (hs : Lsqr A At b x0 damp 0 0 0 max_iters s) :
    At (b - A s.x) = damp ^ 2 • (s.x - x0) ∧
    (∀ y, ‖b - A s.x‖ ^ 2 + damp ^ 2 * ‖s.x - x0‖ ^ 2 ≤ ‖b - A y‖ ^ 2 + damp ^ 2 * ‖y - x0‖ ^ 2) ∧
    ((∃ y, A y = b) → damp = 0 → A s.x = b) := by
  have h := lsqr_exact_dim hadj (krylov_rank hadj (b - A x0)) hmax hs
  exact ⟨sub_eq_zero.mp h, lsqr_minimiser hadj h⟩

/-- **C82** when started from zero, the reported `x_norm` is the norm of the solution at every state; in general after the first iteration it is
the distance from the starting point. -/
theorem c82_x_norm_partial (A : E →ₗ[ℝ] F) (At : F →ₗ[ℝ] E) (hadj : IsAdj A At) (b : F) (x0 : E) (damp atol btol conlim : ℝ) (max_iters : ℕ)
    (s : LsqrState E F) (h : LsqrReach A At b x0 damp atol btol conlim max_iters s) :
    (x0 = 0 → s.x_norm = ‖s.x‖) ∧ (1 < s.iterations → s.x_norm = ‖s.x - x0‖) := by
  obtain ⟨U, p1, q1, p2, q2, X, hi⟩ := lsqr_inv hadj h
  refine ⟨fun h0 => ?_, hi.x_eq⟩
  rcases hi.it_pos.lt_or_eq with h1 | h1
  · rw [hi.x_eq h1, h0, sub_zero]
  · have : s = lsqrInit A At b x0 := by
      cases h with
      | init => rfl
      | @step t ht hc =>
        obtain ⟨_, _, _, _, _, _, hit⟩ := lsqr_inv hadj ht
        have e1 : (lsqrBody A At damp t).iterations = t.iterations + 1 := rfl
        have := hit.it_pos
        omega
    rw [this]; rfl

/-- **C82** fails for a nonzero starting point: solving `1 · x = 2` from `x0 = 1`, the solver reaches `x = 2` and reports `x_norm = 1`. -/
theorem c82_x_norm_fails : ∃ s : LsqrState ℝ ℝ, LsqrReach (LinearMap.id (R := ℝ) (M := ℝ)) (LinearMap.id (R := ℝ) (M := ℝ)) 2 1 0 0 0 0 2 s ∧
    s.x_norm = 1 ∧ ‖s.x‖ = 2 := by
  have hadj : IsAdj (LinearMap.id (R := ℝ) (M := ℝ)) LinearMap.id := fun x y => rfl
  have hb : (lsqrInit (LinearMap.id (R := ℝ) (M := ℝ)) (LinearMap.id (R := ℝ) (M := ℝ)) 2 1).beta = 1 := by
    show ‖(2 : ℝ) - 1‖ = 1; norm_num
  have ha : (lsqrInit (LinearMap.id (R := ℝ) (M := ℝ)) (LinearMap.id (R := ℝ) (M := ℝ)) 2 1).atr_norm = 1 := by
    show ‖lsqrNormalize ‖(2 : ℝ) - 1‖ ((2 : ℝ) - 1)‖ * ‖(2 : ℝ) - 1‖ = 1
    rw [lsqrNormalize_unit _ (by norm_num)]; norm_num
  have hr : (lsqrInit (LinearMap.id (R := ℝ) (M := ℝ)) (LinearMap.id (R := ℝ) (M := ℝ)) 2 1).r_norm = 1 := hb
  have hstep : LsqrReach (LinearMap.id (R := ℝ) (M := ℝ)) (LinearMap.id (R := ℝ) (M := ℝ)) 2 1 0 0 0 0 2 (lsqrBody (LinearMap.id (R := ℝ) (M := ℝ)) (LinearMap.id (R := ℝ) (M := ℝ)) 0
      (lsqrInit (LinearMap.id (R := ℝ) (M := ℝ)) (LinearMap.id (R := ℝ) (M := ℝ)) 2 1)) := by
    refine Reach.step .init ?_
    simp only [lsqrCond, hb, ha, hr]
    refine ⟨?_, ?_, ?_, ?_, ?_, ?_, ?_⟩ <;> simp [lsqrInit, lsqrCtol]
  refine ⟨_, hstep, ?_⟩
  have hx : (lsqrBody (LinearMap.id (R := ℝ) (M := ℝ)) (LinearMap.id (R := ℝ) (M := ℝ)) 0
      (lsqrInit (LinearMap.id (R := ℝ) (M := ℝ)) (LinearMap.id (R := ℝ) (M := ℝ)) 2 1)).x = 2 := by
    have := (c83_optimal _ _ hadj 2 1 0 0 0 0 2 _ hstep).2 2 (Submodule.subset_span ⟨0, one_pos, by
      rw [pow_zero]; show (2 : ℝ) - 1 = 2 - 1; rfl⟩)
    simp only [LinearMap.id_apply, sub_self, norm_zero] at this
    have h2 : (2 - (lsqrBody (LinearMap.id (R := ℝ) (M := ℝ)) (LinearMap.id (R := ℝ) (M := ℝ)) 0
      (lsqrInit (LinearMap.id (R := ℝ) (M := ℝ)) (LinearMap.id (R := ℝ) (M := ℝ)) 2 1)).x) ^ 2 ≤ 0 := by
      have := this
      rw [Real.norm_eq_abs, sq_abs] at this
      nlinarith
    have h3 := sq_nonneg (2 - (lsqrBody (LinearMap.id (R := ℝ) (M := ℝ)) (LinearMap.id (R := ℝ) (M := ℝ)) 0
      (lsqrInit (LinearMap.id (R := ℝ) (M := ℝ)) (LinearMap.id (R := ℝ) (M := ℝ)) 2 1)).x)
    have := pow_eq_zero_iff (two_ne_zero) |>.mp (le_antisymm h2 h3)
    linarith
  constructor
  · rw [(c82_x_norm_partial _ _ hadj 2 1 0 0 0 0 2 _ hstep).2 (by show 1 < 1 + 1; norm_num), hx]; norm_num
  · rw [hx]; norm_num

/-- The ghost part behind `A_norm`: the right vectors used so far are orthonormal. -/
theorem lsqr_A_norm_inv (A : E →ₗ[ℝ] F) (At : F →ₗ[ℝ] E) (hadj : IsAdj A At) (b : F) (x0 : E) (damp atol btol conlim : ℝ) (max_iters : ℕ)
    (s : LsqrState E F) (h : LsqrReach A At b x0 damp atol btol conlim max_iters s) :
    ∃ e : ℕ → E, (∀ i, i < s.iterations - 1 → e i ∈ krylov A At (b - A x0) (s.iterations - 1)) ∧
      (∀ i j, i < s.iterations - 1 → j < s.iterations - 1 → inner ℝ (e i) (e j) = if i = j then (1 : ℝ) else 0) ∧
      s.A_norm ^ 2 = ∑ i ∈ Finset.range (s.iterations - 1), (‖A (e i)‖ ^ 2 + damp ^ 2) := by
  refine Reach.inv' (fun s => ∃ e : ℕ → E, (∀ i, i < s.iterations - 1 → e i ∈ krylov A At (b - A x0) (s.iterations - 1)) ∧
      (∀ i j, i < s.iterations - 1 → j < s.iterations - 1 → inner ℝ (e i) (e j) = if i = j then (1 : ℝ) else 0) ∧
      s.A_norm ^ 2 = ∑ i ∈ Finset.range (s.iterations - 1), (‖A (e i)‖ ^ 2 + damp ^ 2)) h ?_ ?_
  · refine ⟨fun _ => 0, fun i hi => ?_, fun i j hi => ?_, ?_⟩
    · exact absurd hi (Nat.not_lt_zero i)
    · exact absurd hi (Nat.not_lt_zero i)
    · simp [lsqrInit]
  · rintro s hs ⟨e, hmem, horth, hA⟩ hc
    obtain ⟨U, p1, q1, p2, q2, X, hi⟩ := lsqr_inv hadj hs
    obtain ⟨k, hk⟩ : ∃ k, s.iterations = k + 1 := ⟨s.iterations - 1, by have := hi.it_pos; omega⟩
    have hk1 : s.iterations - 1 = k := by omega
    have hk2 : (lsqrBody A At damp s).iterations - 1 = k + 1 := by
      have : (lsqrBody A At damp s).iterations = s.iterations + 1 := rfl
      omega
    rw [hk1] at hmem horth hA
    have hat : 0 < s.atr_norm := lsqrCond_pos (mul_nonneg (norm_nonneg _) (norm_nonneg _)) hc
    have hpr : s.phi_bar * s.rho_bar ≠ 0 := by rw [hi.atr_eq] at hat; exact abs_pos.mp hat
    have hu1 := hi.unit_u (left_ne_zero_of_mul hpr)
    have hv1 := hi.unit_v (hi.alpha_ne (right_ne_zero_of_mul hpr))
    have hvo := hi.bid.hv
    rw [hk1] at hvo
    have bid' := hi.bid.step hadj hi.it_pos hu1 hv1 _ _ rfl rfl
    have hvk : s.v ∈ krylov A At (b - A x0) (k + 1) := by rw [← hk]; exact hi.bid.hkout (mem_sup_self _ _)
    have hupd : ∀ i, i < k → Function.update e k s.v i = e i := fun i hik => Function.update_of_ne (by omega) _ _
    have hself : Function.update e k s.v k = s.v := Function.update_self _ _ _
    refine ⟨Function.update e k s.v, fun i hi' => ?_, fun i j hi' hj' => ?_, ?_⟩
    · rw [hk2] at hi' ⊢
      rcases Nat.lt_succ_iff_lt_or_eq.mp hi' with h1 | rfl
      · rw [hupd i h1]; exact krylov_mono A At _ (Nat.le_succ _) (hmem i h1)
      · rw [hself]; exact hvk
    · rw [hk2] at hi' hj'
      rcases Nat.lt_succ_iff_lt_or_eq.mp hi' with h1 | rfl <;> rcases Nat.lt_succ_iff_lt_or_eq.mp hj' with h2 | rfl
      · rw [hupd i h1, hupd j h2]; exact horth i j h1 h2
      · rw [hupd i h1, hself, real_inner_comm, hvo _ (hmem i h1), if_neg (by omega)]
      · rw [hupd j h2, hself, hvo _ (hmem j h2), if_neg (by omega)]
      · rw [hself, if_pos rfl, real_inner_self_eq_norm_sq, hv1]; norm_num
    · rw [hk2, Finset.sum_range_succ, hself]
      have e1 : ∑ i ∈ Finset.range k, (‖A (Function.update e k s.v i)‖ ^ 2 + damp ^ 2) = s.A_norm ^ 2 := by
        rw [hA]; exact Finset.sum_congr rfl fun i hi' => by rw [hupd i (Finset.mem_range.mp hi')]
      have e2 : (lsqrBody A At damp s).A_norm ^ 2 = s.A_norm ^ 2 + s.alpha ^ 2 + ‖A s.v - s.alpha • s.u‖ ^ 2 + damp ^ 2 :=
        Real.sq_sqrt (by positivity)
      have e3 : inner ℝ (A s.v - s.alpha • s.u) s.u = (0 : ℝ) := by
        have h0 := bid'.hu s.u (mem_sup_self _ _)
        rw [← lsqrNormalize_norm (A s.v - s.alpha • s.u), real_inner_smul_left]
        rw [h0, mul_zero]
      have e4 : ‖A s.v‖ ^ 2 = s.alpha ^ 2 + ‖A s.v - s.alpha • s.u‖ ^ 2 := by
        have : A s.v = (A s.v - s.alpha • s.u) + s.alpha • s.u := by abel
        conv_lhs => rw [this]
        rw [norm_add_sq_real, inner_smul_right, e3, norm_smul, hu1, Real.norm_eq_abs, mul_one, sq_abs]; ring
      rw [e1, e2, e4]; ring

/-- **C82** the reported `A_norm` never exceeds the Frobenius norm of the operator stacked on `damp` times the identity, restricted to the
iterations made: `A_norm² ≤ |A|_F² + (iterations - 1) damp²`, where `|A|_F² = ∑ⱼ |A fⱼ|²` for any orthonormal basis `f`. -/
theorem c82_A_norm {ι κ : Type*} [Fintype ι] [Fintype κ] (f : OrthonormalBasis ι ℝ E) (g : OrthonormalBasis κ ℝ F) (A : E →ₗ[ℝ] F) (At : F →ₗ[ℝ] E)
    (hadj : IsAdj A At) (b : F) (x0 : E) (damp atol btol conlim : ℝ) (max_iters : ℕ) (s : LsqrState E F)
    (h : LsqrReach A At b x0 damp atol btol conlim max_iters s) :
    s.A_norm ^ 2 ≤ ∑ j, ‖A (f j)‖ ^ 2 + (s.iterations - 1 : ℕ) * damp ^ 2 := by
  obtain ⟨e, _, horth, hA⟩ := lsqr_A_norm_inv A At hadj b x0 damp atol btol conlim max_iters s h
  have hon : Orthonormal ℝ (fun i : Fin (s.iterations - 1) => e i) := by
    rw [orthonormal_iff_ite]
    intro i j
    rw [horth i j i.2 j.2]
    exact if_congr (Fin.ext_iff.symm) rfl rfl
  have par : ∀ y : F, ‖y‖ ^ 2 = ∑ k, inner ℝ (g k) y ^ 2 := by
    intro y
    have := g.sum_sq_norm_inner_right y
    rw [← this]
    exact Finset.sum_congr rfl fun k _ => by rw [Real.norm_eq_abs, sq_abs]
  have e1 : ∑ i ∈ Finset.range (s.iterations - 1), ‖A (e i)‖ ^ 2 = ∑ k, ∑ i : Fin (s.iterations - 1), ‖inner ℝ (e i) (At (g k))‖ ^ 2 := by
    rw [Finset.sum_comm, ← Fin.sum_univ_eq_sum_range (fun i => ‖A (e i)‖ ^ 2)]
    refine Finset.sum_congr rfl fun i _ => ?_
    rw [par]
    refine Finset.sum_congr rfl fun k _ => ?_
    rw [Real.norm_eq_abs, sq_abs, ← hadj, real_inner_comm]
  have e2 : ∑ j, ‖A (f j)‖ ^ 2 = ∑ k, ‖At (g k)‖ ^ 2 := by
    have : ∀ k, ‖At (g k)‖ ^ 2 = ∑ j, inner ℝ (A (f j)) (g k) ^ 2 := by
      intro k
      rw [← f.sum_sq_norm_inner_right (At (g k))]
      exact Finset.sum_congr rfl fun j _ => by rw [Real.norm_eq_abs, sq_abs, ← hadj]
    simp only [this]
    rw [Finset.sum_comm]
    refine Finset.sum_congr rfl fun j _ => ?_
    rw [par]
    exact Finset.sum_congr rfl fun k _ => by rw [real_inner_comm]
  rw [hA, Finset.sum_add_distrib, e1, e2, Finset.sum_const, Finset.card_range, nsmul_eq_mul]
  have : ∑ k, ∑ i : Fin (s.iterations - 1), ‖inner ℝ (e i) (At (g k))‖ ^ 2 ≤ ∑ k, ‖At (g k)‖ ^ 2 :=
    Finset.sum_le_sum fun k _ => hon.sum_inner_products_le (At (g k))
  linarith

/-- The hypotheses are met: an adjoint exists for every operator between finite dimensional spaces. -/
example [FiniteDimensional ℝ E] [FiniteDimensional ℝ F] (A : E →ₗ[ℝ] F) : IsAdj A (LinearMap.adjoint A) := fun x y =>
  (LinearMap.adjoint_inner_right A x y).symm

/-- The loop makes its first step whenever `Aᵀ (b - A x0) ≠ 0`, the limit is at least two and the tolerances are below one. -/
theorem lsqr_steps (A : E →ₗ[ℝ] F) (At : F →ₗ[ℝ] E) (b : F) (x0 : E) (damp atol btol conlim : ℝ) (max_iters : ℕ)
    (h0 : At (b - A x0) ≠ 0) (hm : 1 < max_iters) (ha : atol < 1) (hb : btol < 1) (hc : 1 < conlim) :
    LsqrReach A At b x0 damp atol btol conlim max_iters (lsqrBody A At damp (lsqrInit A At b x0)) := by
  have hr : 0 < (lsqrInit A At b x0).beta := by
    show 0 < ‖b - A x0‖
    rw [norm_pos_iff]; rintro h1; rw [h1, map_zero] at h0; exact h0 rfl
  have ht : 0 < (lsqrInit A At b x0).atr_norm := by
    rw [(LInv.init A At b x0 0).grad_norm]
    show 0 < ‖At (b - A x0) - _ • (x0 - x0)‖
    rw [sub_self, smul_zero, sub_zero]; exact norm_pos_iff.mpr h0
  have hrr : (lsqrInit A At b x0).r_norm = (lsqrInit A At b x0).beta := rfl
  refine Reach.step .init ⟨hm, ?_, ?_, ?_, ?_, ?_, ?_⟩
  · show (1 : ℝ) + 1 / 1 > 1; norm_num
  · rw [div_self ht.ne']; norm_num
  · rw [hrr, div_self hr.ne']
    show (1 : ℝ) + 1 / (1 + 0 * _ / _) > 1
    norm_num
  · show (1 : ℝ) / 1 > lsqrCtol conlim
    rw [lsqrCtol, if_neg (by linarith), div_one, gt_iff_lt, div_lt_one (by linarith)]; exact hc
  · rw [div_self ht.ne']; exact ha
  · rw [hrr, div_self hr.ne']
    show (1 : ℝ) > btol + atol * 0 * _ / _
    simpa using hb

/-- Scaling of the plane by 2. -/
def twice : EuclideanSpace ℝ (Fin 2) →ₗ[ℝ] EuclideanSpace ℝ (Fin 2) := (2 : ℝ) • LinearMap.id

/-- A concrete run that takes a step: scaling of the plane by 2, from zero. -/
theorem ex_twice (b : EuclideanSpace ℝ (Fin 2)) (hb : b ≠ 0) :
    IsAdj twice twice ∧ ∃ s, LsqrReach twice twice b 0 0 (1/2) (1/2) 1000 10 s ∧ s.iterations = 2 := by
  have h := lsqr_steps twice twice b 0 0 (1/2) (1/2) 1000 10 (by
    intro h0
    rw [map_zero, sub_zero] at h0
    have h1 : (2 : ℝ) • b = 0 := h0
    exact hb ((smul_eq_zero.mp h1).resolve_left two_ne_zero)) (by norm_num) (by norm_num) (by norm_num) (by norm_num)
  refine ⟨fun x y => ?_, _, h, rfl⟩
  show inner ℝ ((2 : ℝ) • x) y = inner ℝ x ((2 : ℝ) • y)
  rw [real_inner_smul_left, inner_smul_right]

/-! Instances. -/

/-- The rank one operator `x ↦ ⟨e, x⟩ e` with `e = (1, 2, 0)`. -/
def exRankOne : EuclideanSpace ℝ (Fin 3) →ₗ[ℝ] EuclideanSpace ℝ (Fin 3) :=
  LinearMap.smulRight (innerₛₗ ℝ (!₂[1, 2, 0] : EuclideanSpace ℝ (Fin 3))) !₂[1, 2, 0]

theorem exRankOne_adj : IsAdj exRankOne exRankOne := fun x y => by
  show inner ℝ (inner ℝ !₂[1, 2, 0] x • (!₂[1, 2, 0] : EuclideanSpace ℝ (Fin 3))) y = inner ℝ x (inner ℝ !₂[1, 2, 0] y • (!₂[1, 2, 0] : EuclideanSpace ℝ (Fin 3)))
  rw [real_inner_smul_left, real_inner_smul_right, real_inner_comm x]; ring

theorem exRankOne_rank : Module.finrank ℝ (LinearMap.range exRankOne) < 2 := by
  refine lt_of_le_of_lt (Submodule.finrank_mono (t := Submodule.span ℝ {(!₂[1, 2, 0] : EuclideanSpace ℝ (Fin 3))}) ?_)
    (lt_of_le_of_lt ((finrank_span_le_card _).trans (by simp)) one_lt_two)
  rintro _ ⟨x, rfl⟩
  exact Submodule.smul_mem _ _ (Submodule.mem_span_singleton_self _)

example := c83_exact_rank exRankOne exRankOne exRankOne_adj !₂[5, 10, 3] !₂[0, 1, 4] (1 / 2) 2 exRankOne_rank

section
variable (b : EuclideanSpace ℝ (Fin 2)) (hb : b ≠ 0)

example (s) (h : LsqrReach twice twice b 0 0 (1 / 2) (1 / 2) 1000 10 s) := c43_residual_norms twice twice (ex_twice b hb).1 b 0 (1 / 2) (1 / 2) 1000 10 s h
example (s) (h : LsqrReach twice twice b 0 (1 / 3) (1 / 2) (1 / 2) 1000 10 s) := c43_damped_norms twice twice (ex_twice b hb).1 b 0 (1 / 3) (1 / 2) (1 / 2) 1000 10 s h
example (s) (h : LsqrReach twice twice b 0 (1 / 3) (1 / 2) (1 / 2) 1000 10 s) := c83_optimal twice twice (ex_twice b hb).1 b 0 (1 / 3) (1 / 2) (1 / 2) 1000 10 s h
example (s) (h : LsqrReach twice twice b 0 (1 / 3) (1 / 2) (1 / 2) 1000 10 s) (hc) := c83_monotone twice twice (ex_twice b hb).1 b 0 (1 / 3) (1 / 2) (1 / 2) 1000 10 s h hc
example (s) (h : LsqrReach twice twice b 0 (1 / 3) (1 / 2) (1 / 2) 1000 10 s) := c83_no_zero_division twice twice (ex_twice b hb).1 b 0 (1 / 3) (1 / 2) (1 / 2) 1000 10 s h
example := (c83_exact twice twice (ex_twice b hb).1 b 0 (1 / 3) 10).2 inferInstance (by simp)
example (s) (h : LsqrReach twice twice b 0 (1 / 3) (1 / 2) (1 / 2) 1000 10 s) := (c82_x_norm_partial twice twice (ex_twice b hb).1 b 0 (1 / 3) (1 / 2) (1 / 2) 1000 10 s h).1 rfl
example (s) (h : LsqrReach twice twice b 0 (1 / 3) (1 / 2) (1 / 2) 1000 10 s) :=
  c82_A_norm (EuclideanSpace.basisFun (Fin 2) ℝ) (EuclideanSpace.basisFun (Fin 2) ℝ) twice twice (ex_twice b hb).1 b 0 (1 / 3) (1 / 2) (1 / 2) 1000 10 s h

end

end Verif.Sls
