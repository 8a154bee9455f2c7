import Verif.LoopPrefix
import Verif.Pursuit.IhtConvProps
import Verif.Pursuit.NormalizedModel
import Verif.Pursuit.MpProps
import Verif.Pursuit.OmpProps
import Verif.Opt.CgProps
import Verif.Opt.SpgModel
import Verif.Opt.FomModel
import Verif.Sls.LsqrProps
import Verif.Sls.IstaProps
import Verif.Sls.PowerModel
import Verif.Cvx.YallModel
import Verif.Cvx.Spgl1Model
import Verif.Cvx.FocussModel
import Verif.Block.BsblModel
import Verif.Cluster.KmeansProps
import Verif.Cs1bit.Model

set_option autoImplicit false

/-!
# C149: iteration limits and tolerances only cut a run short

Two calls of an iterative solver on the same data that differ in the iteration limit and in the tolerances. If the second call has the larger limit and
the smaller tolerances, its result is obtained from the result of the first by executing the body of the iteration as many times as the two reported
iteration counts differ (`Verif.Loop.Continues`). In particular the reported count is not smaller, and a quantity that decreases along the iteration is
not larger.
-/
namespace Verif.Tools
open Verif.Loop Verif.Pursuit Verif.Opt Verif.Sls Verif.Cvx Verif.Block Verif.Cluster Verif.Cs1bit

section greedy
variable {𝕜 E : Type*} [RCLike 𝕜] [NormedAddCommGroup E] [InnerProductSpace 𝕜 E]

theorem sq_tol {a b c : ℝ} (hc : 0 ≤ c) (ha : 0 ≤ a) (hab : a ≤ b) : c * a ^ 2 ≤ c * b ^ 2 :=
  mul_le_mul_of_nonneg_left (pow_le_pow_left₀ ha hab 2) hc

theorem plain_mono {N N' : ℕ} {t t' : ℝ} (hN : N ≤ N') (ht : t' ≤ t) (u : GState 𝕜 E) (h : plainCond t N u) : plainCond t' N' u :=
  ⟨lt_of_le_of_lt ht h.1, lt_of_lt_of_le h.2 hN⟩

theorem support_mono {N N' K : ℕ} {t t' : ℝ} (hN : N ≤ N') (ht : t' ≤ t) (u : GState 𝕜 E) (h : supportCond t N K u) : supportCond t' N' K u :=
  ⟨⟨lt_of_le_of_lt ht h.1.1, lt_of_lt_of_le h.1.2 hN⟩, h.2⟩

/-- **C149** IHT. -/
theorem c149_iht (phi : ℕ → E) (n : ℕ) (mu : ℝ) (y : E) (K N N' : ℕ) (hN : N ≤ N') (rtol rtol' : ℝ) (h0 : 0 ≤ rtol') (hr : rtol' ≤ rtol)
    (s t : GState 𝕜 E) (hs : IhtSolve phi n mu y K N rtol s) (ht : IhtSolve phi n mu y K N' rtol' t) :
    Continues (ihtBody phi n mu y K) (fun u => u.iters) s t :=
  hs.continues ht (fun u _ => plain_mono hN (sq_tol (sq_nonneg _) h0 hr) u) _ fun _ => rfl

/-- **C149** IHT with a step of at most `1/|Phi|²`: more iterations never leave a larger residual. -/
theorem c149_iht_better (phi : ℕ → E) (n : ℕ) (mu : ℝ) (hmu : 0 < mu) (hb : ∀ z : ℕ → 𝕜, mu * ‖synth phi n z‖ ^ 2 ≤ ∑ i ∈ Finset.range n, ‖z i‖ ^ 2) (y : E)
    (K : ℕ) (hK : K ≤ n) (N N' : ℕ) (hN : N ≤ N') (rtol rtol' : ℝ) (h0 : 0 ≤ rtol') (hr : rtol' ≤ rtol)
    (s t : GState 𝕜 E) (hs : IhtSolve phi n mu y K N rtol s) (ht : IhtSolve phi n mu y K N' rtol' t) : ‖t.r‖ ≤ ‖s.r‖ := by
  refine hs.better ht (fun u _ => plain_mono hN (sq_tol (sq_nonneg _) h0 hr) u) (fun u => ‖u.r‖) fun u hu _ => ?_
  have := c147_iht_descent phi n mu 1 hmu (by simpa using hb) y K hK _ u hu
  rw [sub_self, zero_div, zero_mul, add_zero] at this
  exact le_of_sq_le_sq this (norm_nonneg _)

/-- **C149** HTP. -/
theorem c149_htp (phi : ℕ → E) (n : ℕ) (mu : ℝ) (lstsq : List ℕ → E → List 𝕜) (y : E) (K N N' : ℕ) (hN : N ≤ N') (rtol rtol' : ℝ) (h0 : 0 ≤ rtol')
    (hr : rtol' ≤ rtol) (s t : GState 𝕜 E) (hs : HtpSolve phi n mu lstsq y K N rtol s) (ht : HtpSolve phi n mu lstsq y K N' rtol' t) :
    Continues (htpBody phi n mu lstsq y K) (fun u => u.iters) s t :=
  hs.continues ht (fun u _ => support_mono hN (sq_tol (sq_nonneg _) h0 hr) u) _ fun _ => rfl

/-- **C149** Subspace pursuit. -/
theorem c149_sp (phi : ℕ → E) (n : ℕ) (lstsq : List ℕ → E → List 𝕜) (y : E) (K N N' : ℕ) (hN : N ≤ N') (rtol rtol' : ℝ) (h0 : 0 ≤ rtol')
    (hr : rtol' ≤ rtol) (s t : GState 𝕜 E) (hs : SpMatrixSolve phi n lstsq y K N rtol s) (ht : SpMatrixSolve phi n lstsq y K N' rtol' t) :
    Continues (spBody phi n lstsq y K) (fun u => u.iters) s t :=
  hs.continues ht (fun u _ => plain_mono hN (sq_tol (sq_nonneg _) h0 hr) u) _ fun _ => rfl

/-- **C149** CoSaMP. -/
theorem c149_cosamp (phi : ℕ → E) (n : ℕ) (lstsq : List ℕ → E → List 𝕜) (y : E) (K N N' : ℕ) (hN : N ≤ N') (rtol rtol' : ℝ) (h0 : 0 ≤ rtol')
    (hr : rtol' ≤ rtol) (s t : GState 𝕜 E) (hs : CosampMatrixSolve phi n lstsq y K N rtol s) (ht : CosampMatrixSolve phi n lstsq y K N' rtol' t) :
    Continues (cosampBody phi n lstsq y K) (fun u => u.iters) s t :=
  hs.continues ht (fun u _ => plain_mono hN (sq_tol (sq_nonneg _) h0 hr) u) _ fun _ => rfl

/-- **C149** The operator versions of subspace pursuit and CoSaMP, which run on the normalised measurements and scale the result back. -/
theorem c149_greedy_operator (phi : ℕ → E) (n : ℕ) (lstsq : List ℕ → E → List 𝕜) (y : E) (K N N' : ℕ) (hN : N ≤ N') (rtol rtol' : ℝ) (h0 : 0 ≤ rtol')
    (hr : rtol' ≤ rtol) :
    (∀ s t, SpOperatorSolve phi n lstsq y K N rtol s → SpOperatorSolve phi n lstsq y K N' rtol' t →
      ∃ s' t', s = rescale ‖y‖ s' ∧ t = rescale ‖y‖ t' ∧ Continues (spBody phi n lstsq (((1 / ‖y‖ : ℝ) : 𝕜) • y) K) (fun u => u.iters) s' t') ∧
    ∀ s t, CosampOperatorSolve phi n lstsq y K N rtol s → CosampOperatorSolve phi n lstsq y K N' rtol' t →
      ∃ s' t', s = rescale ‖y‖ s' ∧ t = rescale ‖y‖ t' ∧ Continues (cosampBody phi n lstsq (((1 / ‖y‖ : ℝ) : 𝕜) • y) K) (fun u => u.iters) s' t' := by
  constructor
  · rintro s t ⟨s', hs, e⟩ ⟨t', ht, e'⟩
    exact ⟨s', t', e, e', hs.continues ht (fun u _ => support_mono hN (pow_le_pow_left₀ h0 hr 2) u) _ fun _ => rfl⟩
  · rintro s t ⟨s', hs, e⟩ ⟨t', ht, e'⟩
    exact ⟨s', t', e, e', hs.continues ht (fun u _ => support_mono hN (pow_le_pow_left₀ h0 hr 2) u) _ fun _ => rfl⟩

/-- **C149** IHT with `normalized=True`, where a run may end in NaN. -/
theorem c149_niht (phi : ℕ → E) (n : ℕ) (y : E) (K N N' : ℕ) (hN : N ≤ N') (rtol rtol' : ℝ) (h0 : 0 ≤ rtol') (hr : rtol' ≤ rtol)
    (s t : Option (GState 𝕜 E)) (hs : NihtSolve phi n y K N rtol s) (ht : NihtSolve phi n y K N' rtol' t) :
    ∃ d, t = (fun u : Option (GState 𝕜 E) => u.bind (nihtBody phi n y K))^[d] s := by
  obtain ⟨d, hd, -⟩ := (hs.prefix ht (c' := optCond (plainCond (‖y‖ ^ 2 * rtol' ^ 2) N')) fun u _ hu => by
    cases u with
    | none => exact hu
    | some u => exact plain_mono hN (sq_tol (sq_nonneg _) h0 hr) u hu).2.iterate
  exact ⟨d, hd⟩

/-- **C149** `normest`: both estimates come from one power iteration. -/
theorem c149_normest {F : Type*} (times : E → F) (trans : F → E) (b : E) (N N' : ℕ) (hN : N ≤ N') (tol tol' : ℝ) (hr : tol' ≤ tol) (s t : Option ℝ)
    (hs : NormEst 𝕜 times trans b N tol s) (ht : NormEst 𝕜 times trans b N' tol' t) :
    ∃ (s' : Option (PState E)) (d : ℕ), s = s'.map (fun u => Real.sqrt u.new) ∧
      t = ((neBody 𝕜 times trans)^[d] s').map fun u => Real.sqrt u.new := by
  obtain ⟨s', hs, rfl⟩ := hs
  obtain ⟨t', ht, rfl⟩ := ht
  obtain ⟨d, hd, -⟩ := (hs.prefix ht fun u _ hu => by
    cases u with
    | none => exact hu
    | some u =>
      refine ⟨lt_of_lt_of_le hu.1 hN, ?_⟩
      have := hu.2
      split at this
      · rw [if_pos (by assumption)]; exact this
      · rw [if_neg (by assumption)]; exact lt_of_le_of_lt hr this).2.iterate
  exact ⟨s', d, rfl, by rw [← hd]⟩
end greedy

section real
variable {E F : Type*} [NormedAddCommGroup E] [InnerProductSpace ℝ E] [NormedAddCommGroup F] [InnerProductSpace ℝ F]

/-- **C149** Matching pursuit; on unit-norm atoms the residual norm is not larger. -/
theorem c149_mp (phi : ℕ → E) (n : ℕ) (y : E) (N N' : ℕ) (hN : N ≤ N') (rtol rtol' : ℝ) (h0 : 0 ≤ rtol') (hr : rtol' ≤ rtol) (s t : MpState E)
    (hs : Out (mpCond y rtol N) (mpStep phi n y) (mpInit y) s) (ht : Out (mpCond y rtol' N') (mpStep phi n y) (mpInit y) t) :
    Continues (mpStep phi n y) (fun u => u.iters) s t ∧ (0 < n → (∀ i, i < n → ‖phi i‖ = 1) → ‖t.r‖ ≤ ‖s.r‖) := by
  have hcc : ∀ u, Reach (mpCond y rtol N) (mpStep phi n y) (mpInit y) u → mpCond y rtol N u → mpCond y rtol' N' u :=
    fun u _ h => ⟨lt_of_le_of_lt (sq_tol (sq_nonneg _) h0 hr) h.1, lt_of_lt_of_le h.2 hN⟩
  exact ⟨hs.continues ht hcc _ fun _ => rfl, fun hn hu => hs.better ht hcc (fun u => ‖u.r‖) fun u _ _ => (c44_mp_decrease phi n hn hu y u).1⟩

theorem omp_iterate_I (phi : ℕ → E) (n : ℕ) (y : E) (d : ℕ) (s : OmpState E) :
    ((ompStep phi n y)^[d] s).k = s.k + d ∧ ∀ j, j < s.k → ((ompStep phi n y)^[d] s).I j = s.I j := by
  induction d with
  | zero => exact ⟨rfl, fun _ _ => rfl⟩
  | succ d ih =>
    rw [Function.iterate_succ_apply']
    refine ⟨by show _ + 1 = _; rw [ih.1]; rfl, fun j hj => ?_⟩
    show Function.update _ _ _ j = _
    rw [Function.update_of_ne (by rw [ih.1]; omega), ih.2 j hj]

/-- **C149** OMP, matrix version: the atoms selected with a smaller sparsity are the first ones selected with a larger sparsity. -/
theorem c149_omp_matrix (phi : ℕ → E) (n : ℕ) (y : E) (K K' : ℕ) (hK : K ≤ K') (s t : OmpState E) (hs : ompMatrixSolve phi n y K = some s)
    (ht : ompMatrixSolve phi n y K' = some t) : s.k = K ∧ t.k = K' ∧ Continues (ompStep phi n y) (fun u => u.k) s t ∧ ∀ j, j < K → t.I j = s.I j := by
  unfold ompMatrixSolve at hs ht
  split at hs
  · exact absurd hs (by simp)
  rename_i h1
  rw [if_neg (by omega)] at ht
  obtain rfl := Option.some.inj hs
  obtain rfl := Option.some.inj ht
  have e : (ompStep phi n y)^[K' - 1] (ompInit phi n y) = (ompStep phi n y)^[K' - K] ((ompStep phi n y)^[K - 1] (ompInit phi n y)) := by
    rw [← Function.iterate_add_apply]; congr 1; omega
  have k1 : ((ompStep phi n y)^[K - 1] (ompInit phi n y)).k = K := by
    rw [(omp_iterate_I phi n y _ _).1]; show 1 + _ = _; omega
  have k2 : ((ompStep phi n y)^[K' - 1] (ompInit phi n y)).k = K' := by
    rw [(omp_iterate_I phi n y _ _).1]; show 1 + _ = _; omega
  refine ⟨k1, k2, ⟨by show OmpState.k _ ≤ OmpState.k _; rw [k1, k2]; exact hK, ?_⟩, fun j hj => ?_⟩
  · show _ = (ompStep phi n y)^[OmpState.k _ - OmpState.k _] _
    rw [k1, k2]; exact e
  · rw [e]
    exact (omp_iterate_I phi n y _ _).2 j (by rw [k1]; exact hj)

/-- **C149** OMP, operator version: the same for a larger sparsity and a smaller tolerance. -/
theorem c149_omp_operator (phi : ℕ → E) (n : ℕ) (y : E) (K K' : ℕ) (hK : K ≤ K') (rtol rtol' : ℝ) (h0 : 0 ≤ rtol') (hr : rtol' ≤ rtol) (s t : OmpState E)
    (hs : OmpOperatorSolve phi n y K rtol s) (ht : OmpOperatorSolve phi n y K' rtol' t) : s.k ≤ t.k ∧ ∀ j, j < s.k → t.I j = s.I j := by
  obtain ⟨s', hs, rfl⟩ := hs
  obtain ⟨t', ht, rfl⟩ := ht
  have h := hs.continues ht (fun u _ h => ⟨lt_of_le_of_lt (pow_le_pow_left₀ h0 hr 2) h.1, lt_of_lt_of_le h.2 hK⟩) (fun u => u.k) fun _ => rfl
  refine ⟨h.1, fun j hj => ?_⟩
  show t'.I j = s'.I j
  rw [h.2]
  exact (omp_iterate_I phi n _ _ _).2 j hj

/-- **C149** Conjugate gradients; for a symmetric positive definite operator the energy norm of the error is not larger. -/
theorem c149_cg (A : E →ₗ[ℝ] E) (b x0 : E) (N N' : ℕ) (hN : N ≤ N') (rtol rtol' : ℝ) (h0 : 0 ≤ rtol') (hr : rtol' ≤ rtol) (s t : CGState E)
    (hs : CgSolveFrom A b x0 N rtol s) (ht : CgSolveFrom A b x0 N' rtol' t) :
    Continues (cgStep A) (fun u => u.iters) s t ∧
    (SPD A → ∀ xs, A xs = b → inner ℝ (t.x - xs) (A (t.x - xs)) ≤ inner ℝ (s.x - xs) (A (s.x - xs))) := by
  have hcc : ∀ u, Reach (cgCond b N rtol) (cgStep A) (cgInit A b x0) u → cgCond b N rtol u → cgCond b N' rtol' u :=
    fun u _ h => ⟨lt_of_le_of_lt (sq_tol real_inner_self_nonneg h0 hr) h.1, lt_of_lt_of_le h.2 hN⟩
  refine ⟨hs.continues ht hcc _ fun _ => rfl, fun hA xs hxs => hs.better ht hcc (fun u => inner ℝ (u.x - xs) (A (u.x - xs))) fun u hu hc => ?_⟩
  exact (((c37_cg_invariants A hA b x0 N' rtol' u hu).2.2.2 hc).2.2 xs hxs).le

/-- **C149** Preconditioned conjugate gradients. -/
theorem c149_pcg (A M : E → E) (isId : Bool) (b x0 : E) (N N' : ℕ) (hN : N ≤ N') (tol tol' atol atol' : ℝ) (h0 : 0 ≤ tol') (hr : tol' ≤ tol)
    (h0' : 0 ≤ atol') (hr' : atol' ≤ atol) (s t : PCGState E) (hs : PcgSolveFrom A M isId b x0 N tol atol s)
    (ht : PcgSolveFrom A M isId b x0 N' tol' atol' t) : Continues (pcgStep A M) (fun u => u.iters) s t := by
  refine hs.continues ht (fun u _ h => ⟨lt_of_le_of_lt ?_ h.1, lt_of_lt_of_le h.2 hN⟩) _ fun _ => rfl
  exact max_le_max (mul_le_mul_of_nonneg_right (pow_le_pow_left₀ h0 hr 2) real_inner_self_nonneg) (pow_le_pow_left₀ h0' hr' 2)

/-- **C149** LSQR: smaller `atol` and `btol`, a larger `conlim` (0 is no limit) and a larger `max_iters`. With a true adjoint the residual norm it
reports is not larger. -/
theorem c149_lsqr (A : E →ₗ[ℝ] F) (At : F →ₗ[ℝ] E) (b : F) (x0 : E) (damp : ℝ) (N N' : ℕ) (hN : N ≤ N') (atol atol' btol btol' conlim conlim' : ℝ)
    (ha : atol' ≤ atol) (hb : btol' ≤ btol) (hc : conlim' = 0 ∧ 0 ≤ conlim ∨ 0 < conlim ∧ conlim ≤ conlim') (s t : LsqrState E F)
    (hs : Lsqr A At b x0 damp atol btol conlim N s) (ht : Lsqr A At b x0 damp atol' btol' conlim' N' t) :
    Continues (lsqrBody A At damp) (fun u => u.iterations) s t ∧ (IsAdj A At → t.r_norm ≤ s.r_norm) := by
  have hctol : lsqrCtol conlim' ≤ lsqrCtol conlim := by
    unfold lsqrCtol
    rcases hc with ⟨h1, h2⟩ | ⟨h1, h2⟩
    · rw [if_pos h1]
      split
      · exact le_rfl
      · positivity
    · rw [if_neg h1.ne', if_neg (h1.trans_le h2).ne']
      exact one_div_le_one_div_of_le h1 h2
  have hcc : ∀ u, LsqrReach A At b x0 damp atol btol conlim N u → lsqrCond (lsqrInit A At b x0).beta (lsqrInit A At b x0).atr_norm atol btol conlim N u →
      lsqrCond (lsqrInit A At b x0).beta (lsqrInit A At b x0).atr_norm atol' btol' conlim' N' u := by
    intro u hu h
    have hn : 0 ≤ u.A_norm ∧ 0 ≤ u.x_norm := by
      refine Reach.inv (fun u => 0 ≤ u.A_norm ∧ 0 ≤ u.x_norm) hu ⟨le_rfl, norm_nonneg _⟩ fun v _ _ => ⟨?_, Real.sqrt_nonneg _⟩
      show 0 ≤ l2norm4 _ _ _ _
      unfold l2norm4
      positivity
    have hbn : 0 ≤ (lsqrInit A At b x0).beta := norm_nonneg _
    obtain ⟨h1, h2, h3, h4, h5, h6, h7⟩ := h
    refine ⟨h1.trans_le hN, h2, h3, h4, lt_of_le_of_lt hctol h5, lt_of_le_of_lt ha h6, lt_of_le_of_lt (add_le_add hb ?_) h7⟩
    exact div_le_div_of_nonneg_right (mul_le_mul_of_nonneg_right (mul_le_mul_of_nonneg_right ha hn.1) hn.2) hbn
  exact ⟨hs.continues ht hcc _ fun _ => rfl, fun hadj => hs.better ht hcc (fun u => u.r_norm) fun u hu h =>
    c83_monotone A At hadj b x0 damp atol' btol' conlim' N' u hu h⟩

/-- **C149** ISTA. -/
theorem c149_ista {G : Type*} (p : IstaArgs E F G) (N' : ℕ) (hN : p.maxIters ≤ N') (xtol' rtol' : ℝ) (hx : xtol' ≤ p.xtol) (h0 : 0 ≤ rtol')
    (hr : rtol' ≤ p.rtol) (s t : IstaState E F) (hs : Out (istaCond p) (istaStep p) (istaInit p) s)
    (ht : Out (istaCond { p with maxIters := N', xtol := xtol', rtol := rtol' }) (istaStep { p with maxIters := N', xtol := xtol', rtol := rtol' })
      (istaInit { p with maxIters := N', xtol := xtol', rtol := rtol' }) t) :
    Continues (istaStep p) (fun u => u.iters) s t := by
  refine Out.continues (c' := istaCond { p with maxIters := N', xtol := xtol', rtol := rtol' }) hs ht (fun u _ h => ?_) _ fun _ => rfl
  exact ⟨h.1.trans_le hN, lt_of_le_of_lt hx h.2.1, lt_of_le_of_lt (sq_tol (sq_nonneg _) h0 hr) h.2.2⟩

/-- **C149** ISTA in the setting of its convergence theorem: the objective is not larger. -/
theorem c149_ista_better {G : Type*} [NormedAddCommGroup G] [InnerProductSpace ℝ G] (p : IstaArgs E F G) (A : E →ₗ[ℝ] F) (B : E ≃ₗᵢ[ℝ] G) (R : G → ℝ)
    (hset : IstaSetting p A B R) (N' : ℕ) (hN : p.maxIters ≤ N')
    (xtol' rtol' : ℝ) (hx : xtol' ≤ p.xtol) (h0 : 0 ≤ rtol') (hr : rtol' ≤ p.rtol) (s t : IstaState E F) (hs : Out (istaCond p) (istaStep p) (istaInit p) s)
    (ht : Out (istaCond { p with maxIters := N', xtol := xtol', rtol := rtol' }) (istaStep { p with maxIters := N', xtol := xtol', rtol := rtol' })
      (istaInit { p with maxIters := N', xtol := xtol', rtol := rtol' }) t) : obj p R t.x ≤ obj p R s.x := by
  refine Out.better (c' := istaCond { p with maxIters := N', xtol := xtol', rtol := rtol' }) hs ht (fun u _ h => ?_) (fun u => obj p R u.x) fun u hu _ => ?_
  · exact ⟨h.1.trans_le hN, lt_of_le_of_lt hx h.2.1, lt_of_le_of_lt (sq_tol (sq_nonneg _) h0 hr) h.2.2⟩
  · have hset' : IstaSetting { p with maxIters := N', xtol := xtol', rtol := rtol' } A B R :=
      ⟨hset.times, hset.adj, hset.bTrans, hset.bTimes, hset.step_pos, hset.step_le, hset.conv, hset.prox⟩
    have h := c41_ista_monotone hset' u hu
    have hp := hset.step_pos
    have h2 : 0 ≤ ‖(istaStep { p with maxIters := N', xtol := xtol', rtol := rtol' } u).x - u.x‖ ^ 2 / (2 * p.step) := by positivity
    exact (le_add_of_nonneg_right h2).trans h

/-- **C149** FISTA. -/
theorem c149_fista {G : Type*} (p : IstaArgs E F G) (N' : ℕ) (hN : p.maxIters ≤ N') (xtol' rtol' : ℝ) (hx : xtol' ≤ p.xtol) (h0 : 0 ≤ rtol')
    (hr : rtol' ≤ p.rtol) (s t : FistaState E F) (hs : Out (fistaCond p) (fistaStep p) (fistaInit p) s)
    (ht : Out (fistaCond { p with maxIters := N', xtol := xtol', rtol := rtol' }) (fistaStep { p with maxIters := N', xtol := xtol', rtol := rtol' })
      (fistaInit { p with maxIters := N', xtol := xtol', rtol := rtol' }) t) :
    Continues (fistaStep p) (fun u => u.iters) s t := by
  refine Out.continues (c' := fistaCond { p with maxIters := N', xtol := xtol', rtol := rtol' }) hs ht (fun u _ h => ?_) _ fun _ => rfl
  exact ⟨h.1.trans_le hN, lt_of_le_of_lt hx h.2.1, lt_of_le_of_lt (sq_tol (sq_nonneg _) h0 hr) h.2.2⟩

/-- **C149** `fom`. -/
theorem c149_fom (p : FomArgs E F) (N' : ℕ) (hN : p.opts.maxIters ≤ N') (tol' : ℝ) (hr : tol' ≤ p.opts.tol) (s t : FomState E F) (hs : FomOut p s)
    (ht : FomOut { p with opts := { p.opts with maxIters := N', tol := tol' } } t) : Continues (fomBody p) (fun u => u.iters) s t := by
  refine Out.continues (c' := fomCond { p with opts := { p.opts with maxIters := N', tol := tol' } }) hs ht (fun u _ h => ?_) _ fun _ => rfl
  exact ⟨h.1.trans_le hN, (mul_le_mul_of_nonneg_right hr (le_max_of_le_right zero_le_one)).trans h.2⟩

/-- **C149** k-means from given seeds; the within-cluster sum of squares is not larger. -/
theorem c149_kmeans (pts : ℕ → E) (n k : ℕ) (indices : ℕ → ℕ) (thresh thresh' : ℝ) (hr : thresh' ≤ thresh) (N N' : ℕ) (hN : N ≤ N') (s t : KState E)
    (hs : KmeansWithSeed pts n k indices thresh N s) (ht : KmeansWithSeed pts n k indices thresh' N' t) :
    Continues (kBody pts n k) (fun u => u.iters) s t ∧ (0 < k → wcss pts n t ≤ wcss pts n s) := by
  have hcc : ∀ u, Reach (kCond thresh N) (kBody pts n k) (kInit pts n k indices) u → kCond thresh N u → kCond thresh' N' u := by
    intro u _ h
    refine ⟨?_, h.2.trans_le hN⟩
    have := h.1
    split
    · trivial
    · rename_i q e; rw [e] at this; exact lt_of_le_of_lt hr this
  exact ⟨hs.continues ht hcc _ fun _ => rfl, fun hk => hs.better ht hcc (fun u => wcss pts n u) fun u hu _ => c54_wcss_monotone pts n k hk indices _ u hu⟩
end real

/-- **C149** `spg.solve_from`: larger limits on iterations and function calls, smaller progress and optimality tolerances. -/
theorem c149_spg {n : ℕ} (f : SmoothFn (Vec n)) (proj : Vec n → Vec n) (x0 : Vec n) (o : SpgOpts) (N' F' : ℕ) (hN : o.maxIters ≤ N') (hF : o.maxFCalls ≤ F')
    (pt ot : ℝ) (hp : pt ≤ o.progressTol) (ho : ot ≤ o.optimTol) (s t : SpgState n) (hs : SpgSolveFrom f proj x0 o s)
    (ht : SpgSolveFrom f proj x0 { o with maxIters := N', maxFCalls := F', progressTol := pt, optimTol := ot } t) :
    Continues (spgStep f proj o) (fun u => u.iters) s t := by
  refine Out.continues (c' := spgCond proj { o with maxIters := N', maxFCalls := F', progressTol := pt, optimTol := ot }) hs ht (fun u _ h => ?_) _ fun _ => rfl
  obtain ⟨h1, h2, ⟨i, h3⟩, h4⟩ := h
  exact ⟨h1.trans_le hN, h2.trans (neg_le_neg hp), ⟨i, ho.trans h3⟩, h4.trans_le hF⟩

/-- **C149** the LASSO solver of SPGL1. -/
theorem c149_spgl1_lasso {m n : ℕ} (A : Vec n → Vec m) (At : Vec m → Vec n) (b : Vec m) (tau : ℝ) (x0 : Vec n) (o : Spgl1Opts) (N' : ℕ)
    (hN : o.maxIters ≤ N') (ot : ℝ) (ho : ot ≤ o.optTol) (s t : LassoState m n) (hs : LassoSolveFrom A At b tau x0 o s)
    (ht : LassoSolveFrom A At b tau x0 { o with maxIters := N', optTol := ot } t) :
    Continues (lassoBody A At b tau o) (fun u => u.iterations) s t := by
  refine Out.continues (c' := lassoCond b { o with maxIters := N', optTol := ot }) hs ht (fun u _ h => ?_) _ fun _ => rfl
  exact ⟨h.1.trans_le hN, lt_of_le_of_lt ho h.2.1, (mul_le_mul_of_nonneg_right ho (norm_nonneg _)).trans h.2.2⟩

theorem ratioGt_mono {a b c c' : ℝ} (hc : c' ≤ c) (h : ratioGt a b c) : ratioGt a b c' := by
  rcases h with h | h
  · exact .inl ⟨h.1, lt_of_le_of_lt hc h.2⟩
  · exact .inr h

/-- **C149** YALL1, all three formulations; the body performs two iterations, so it is executed half as often as the counts differ. -/
theorem c149_yall {m n : ℕ} (A : Vec n → Vec m) (At : Vec m → Vec n) (p : YallArgs m n) (hd : ∀ delta, p.form = .con delta → 0 ≤ delta) (x0 z0 : Vec n)
    (N' : ℕ) (hN : p.maxIters ≤ N') (tol' : ℝ) (hr : tol' ≤ p.tol) (s t : YallState m n) (hs : YallOut A At p x0 z0 s)
    (ht : YallOut A At { p with maxIters := N', tol := tol' } x0 z0 t) : Continues (yallBody A At p) (fun u => u.iterations / 2) s t := by
  refine Out.continues (c' := yallCond { p with maxIters := N', tol := tol' }) hs ht (fun u _ h => ?_) _ fun u => ?_
  · have hg : gapInfeasible p u ∨ dInfeasible p u → gapInfeasible { p with maxIters := N', tol := tol' } u ∨ dInfeasible { p with maxIters := N', tol := tol' } u :=
      fun h => h.imp (ratioGt_mono hr) (ratioGt_mono hr)
    have h9 : tol' * (1 - 0.1) ≤ p.tol * (1 - 0.1) := mul_le_mul_of_nonneg_right hr (by norm_num)
    obtain ⟨form, b, w, nonneg, gamma, tol, maxIters⟩ := p
    cases form with
    | bp =>
      obtain ⟨h1, h2, h3⟩ := h
      exact ⟨h1.imp hg fun h => (mul_le_mul_of_nonneg_right hr (norm_nonneg _)).trans h, h2.trans_le hN, ratioGt_mono h9 h3⟩
    | l1l2 rho =>
      obtain ⟨⟨h1, h2⟩, h3⟩ := h
      exact ⟨⟨h1.trans_le hN, ratioGt_mono h9 h2⟩, hg h3⟩
    | con delta =>
      obtain ⟨h1, h2, h3⟩ := h
      exact ⟨h1.imp hg fun h => lt_of_le_of_lt (mul_le_mul_of_nonneg_left (add_le_add_right hr 1) (hd delta rfl)) h, h2.trans_le hN, ratioGt_mono hr h3⟩
  · show (u.iterations + 1 + 1) / 2 = u.iterations / 2 + 1
    omega

/-- **C149** FOCUSS. -/
theorem c149_focuss {m n : ℕ} (Phi : Matrix (Fin m) (Fin n) ℝ) (y : Fin m → ℝ) (p : ℝ) (N N' : ℕ) (hN : N ≤ N') (s t : FocussState m n)
    (hs : FocussSolve Phi y p N s) (ht : FocussSolve Phi y p N' t) : Continues (focussBody Phi y p) (fun u => u.iterations) s t :=
  hs.continues ht (fun _ _ h => h.trans_le hN) _ fun _ => rfl

/-- **C149** BIHT; a run that has already matched every bit does not change. -/
theorem c149_biht {M : ℕ} (phi : ℕ → Meas M) (n : ℕ) (y : Meas M) (K : ℕ) (tau : ℝ) (N N' : ℕ) (hN : N ≤ N') (s t : BState M)
    (hs : Biht phi n y K tau N s) (ht : Biht phi n y K tau N' t) :
    Continues (bihtBody phi n y K tau) (fun u => u.iters) s t ∧ (s.mismatched = 0 → t = s) := by
  have hcc : ∀ u, Reach (bihtCond N) (bihtBody phi n y K tau) (bihtInit phi y K) u → bihtCond N u → bihtCond N' u := fun u _ h => ⟨h.1, h.2.trans_le hN⟩
  exact ⟨hs.continues ht hcc _ fun _ => rfl, fun h => (Out.unique ⟨(hs.prefix ht hcc).1, fun hc => absurd hc.1 (by omega)⟩ ht).symm⟩

/-- **C149** BSBL-EM and BSBL-BO. -/
theorem c149_bsbl {m nb b : ℕ} (svd : Svd b) (Phi : Matrix (Fin m) (Fin (nb * b)) ℝ) (y : Fin m → ℝ) (o : BsblOptions) (N' : ℕ) (hN : o.maxIters ≤ N')
    (e' : ℝ) (he : e' ≤ o.epsilon) (s t : BsblState m nb b) :
    (BsblEm Phi y o s → BsblEm Phi y { o with maxIters := N', epsilon := e' } t → Continues (bsblEmBody Phi y o) (fun u => u.iterations) s t) ∧
    (BsblBo svd Phi y o s → BsblBo svd Phi y { o with maxIters := N', epsilon := e' } t →
      Continues (fun u => bsblBoBody Phi y o u svd) (fun u => u.iterations) s t) := by
  have hcc : ∀ u : BsblState m nb b, bsblCond o u → bsblCond { o with maxIters := N', epsilon := e' } u :=
    fun u h => ⟨h.1.imp fun d hd => ⟨hd.1, lt_of_le_of_lt he hd.2⟩, h.2.trans_le hN⟩
  exact ⟨fun hs ht => Out.continues hs ht (fun u _ => hcc u) _ fun _ => rfl, fun hs ht => Out.continues hs ht (fun u _ => hcc u) _ fun _ => rfl⟩

/-! ## The hypotheses are met: every solver returns, whatever the data, the limit and the tolerances -/

section examples
variable {𝕜 E F : Type*} [RCLike 𝕜] [NormedAddCommGroup E] [InnerProductSpace 𝕜 E]

example (phi : ℕ → E) (n : ℕ) (mu : ℝ) (y : E) (K N : ℕ) (rtol : ℝ) : ∃ s : GState 𝕜 E, IhtSolve phi n mu y K N rtol s :=
  exists_out (fun s => s.iters) N (fun _ h => h.2) fun _ => Nat.lt_succ_self _
example (phi : ℕ → E) (n : ℕ) (mu : ℝ) (l : List ℕ → E → List 𝕜) (y : E) (K N : ℕ) (rtol : ℝ) : ∃ s, HtpSolve phi n mu l y K N rtol s :=
  exists_out (fun s => s.iters) N (fun _ h => h.1.2) fun _ => Nat.lt_succ_self _
example (phi : ℕ → E) (n : ℕ) (l : List ℕ → E → List 𝕜) (y : E) (K N : ℕ) (rtol : ℝ) :
    (∃ s, SpMatrixSolve phi n l y K N rtol s) ∧ (∃ s, CosampMatrixSolve phi n l y K N rtol s) ∧ (∃ s, SpOperatorSolve phi n l y K N rtol s) ∧
      ∃ s, CosampOperatorSolve phi n l y K N rtol s := by
  refine ⟨exists_out (fun s => s.iters) N (fun _ h => h.2) fun _ => Nat.lt_succ_self _,
    exists_out (fun s => s.iters) N (fun _ h => h.2) fun _ => Nat.lt_succ_self _, ?_, ?_⟩
  · obtain ⟨t, ht⟩ := exists_out (c := supportCond (rtol ^ 2) N K) (f := spBody phi n l (((1 / ‖y‖ : ℝ) : 𝕜) • y) K)
      (s0 := spInit phi n l (((1 / ‖y‖ : ℝ) : 𝕜) • y) K) (fun s => s.iters) N (fun _ h => h.1.2) fun _ => Nat.lt_succ_self _
    exact ⟨_, t, ht, rfl⟩
  · obtain ⟨t, ht⟩ := exists_out (c := supportCond (rtol ^ 2) N K) (f := cosampBody phi n l (((1 / ‖y‖ : ℝ) : 𝕜) • y) K)
      (s0 := cosampInit phi n l (((1 / ‖y‖ : ℝ) : 𝕜) • y) K) (fun s => s.iters) N (fun _ h => h.1.2) fun _ => Nat.lt_succ_self _
    exact ⟨_, t, ht, rfl⟩
end examples

/-- A loop over states that may be NaN returns if the counter grows while the state is a number. -/
theorem exists_out_opt {σ : Type*} {c : Option σ → Prop} {f : Option σ → Option σ} {s0 : Option σ} (cnt : σ → ℕ) (N : ℕ) (hn : ¬ c none)
    (hcap : ∀ s, c (some s) → cnt s < N) (hinc : ∀ s t, f (some s) = some t → cnt s < cnt t) : ∃ s, Out c f s0 s := by
  refine exists_out' (fun s => s.elim N cnt) N (fun s h => ?_) fun s h => ?_
  · cases s with
    | none => exact absurd h hn
    | some s => exact hcap s h
  · cases s with
    | none => exact absurd h hn
    | some s =>
      cases e : f (some s) with
      | none => exact hcap s h
      | some t => exact hinc s t e

section examples
variable {𝕜 E F : Type*} [RCLike 𝕜] [NormedAddCommGroup E] [InnerProductSpace 𝕜 E] [NormedAddCommGroup F] [InnerProductSpace 𝕜 F]

example (phi : ℕ → E) (n : ℕ) (y : E) (K N : ℕ) (rtol : ℝ) : ∃ s : Option (GState 𝕜 E), NihtSolve phi n y K N rtol s := by
  refine exists_out_opt (fun s => s.iters) N (fun h => h) (fun s h => h.2) fun s t h => ?_
  obtain ⟨mu, -, rfl⟩ := Option.map_eq_some_iff.mp h
  exact Nat.lt_succ_self _
example (times : E → F) (trans : F → E) (b : E) (N : ℕ) (tol : ℝ) : ∃ s, NormEst 𝕜 times trans b N tol s := by
  obtain ⟨st, h⟩ := exists_out_opt (c := pCond N tol) (f := neBody 𝕜 times trans) (s0 := neInit 𝕜 b) (fun s => s.iters) N (fun h => h) (fun s h => h.1)
    fun s t h => by
      simp only [neBody] at h
      split at h
      · exact absurd h (by simp)
      · obtain rfl := Option.some.inj h
        exact Nat.lt_succ_self _
  exact ⟨_, st, h, rfl⟩
end examples

section examples
variable {E F G : Type*} [NormedAddCommGroup E] [InnerProductSpace ℝ E] [NormedAddCommGroup F] [InnerProductSpace ℝ F]

example (phi : ℕ → E) (n : ℕ) (y : E) (N : ℕ) (rtol : ℝ) : ∃ s, Out (mpCond y rtol N) (mpStep phi n y) (mpInit y) s :=
  exists_out (fun s => s.iters) N (fun _ h => h.2) fun _ => Nat.lt_succ_self _
example (phi : ℕ → E) (n : ℕ) (y : E) : ∃ s t, ompMatrixSolve phi n y 2 = some s ∧ ompMatrixSolve phi n y 5 = some t := ⟨_, _, rfl, rfl⟩
example (phi : ℕ → E) (n : ℕ) (y : E) (K : ℕ) (rtol : ℝ) : ∃ s, OmpOperatorSolve phi n y K rtol s := by
  obtain ⟨t, ht⟩ := exists_out (c := ompCond K rtol) (f := ompStep phi n ((1 / ‖y‖) • y)) (s0 := ompOpInit phi n ((1 / ‖y‖) • y)) (fun s => s.k) K
    (fun _ h => h.2) fun _ => Nat.lt_succ_self _
  exact ⟨_, t, ht, rfl⟩
example (A : E → E) (b x0 : E) (N : ℕ) (rtol : ℝ) : ∃ s, CgSolveFrom A b x0 N rtol s :=
  exists_out (fun s => s.iters) N (fun _ h => h.2) fun _ => Nat.lt_succ_self _
example (A M : E → E) (isId : Bool) (b x0 : E) (N : ℕ) (tol atol : ℝ) : ∃ s, PcgSolveFrom A M isId b x0 N tol atol s :=
  exists_out (fun s => s.iters) N (fun _ h => h.2) fun _ => Nat.lt_succ_self _
example (A : E → F) (At : F → E) (b : F) (x0 : E) (damp atol btol conlim : ℝ) (N : ℕ) : ∃ s, Lsqr A At b x0 damp atol btol conlim N s :=
  exists_out (fun s => s.iterations) N (fun _ h => h.1) fun _ => Nat.lt_succ_self _
example (p : IstaArgs E F G) : (∃ s, Out (istaCond p) (istaStep p) (istaInit p) s) ∧ ∃ s, Out (fistaCond p) (fistaStep p) (fistaInit p) s :=
  ⟨exists_out (fun s => s.iters) p.maxIters (fun _ h => h.1) fun _ => Nat.lt_succ_self _,
    exists_out (fun s => s.iters) p.maxIters (fun _ h => h.1) fun _ => Nat.lt_succ_self _⟩
example (p : FomArgs E F) : ∃ s, FomOut p s := exists_out (fun s => s.iters) p.opts.maxIters (fun _ h => h.1) fun _ => Nat.lt_succ_self _
example (pts : ℕ → E) (n k : ℕ) (indices : ℕ → ℕ) (thresh : ℝ) (N : ℕ) : ∃ s, KmeansWithSeed pts n k indices thresh N s :=
  (c54_terminates pts n k indices thresh N).1
end examples

example {n : ℕ} (f : SmoothFn (Vec n)) (proj : Vec n → Vec n) (x0 : Vec n) (o : SpgOpts) : ∃ s, SpgSolveFrom f proj x0 o s :=
  exists_out (fun s => s.iters) o.maxIters (fun _ h => h.1) fun _ => Nat.lt_succ_self _
example {m n : ℕ} (A : Vec n → Vec m) (At : Vec m → Vec n) (b : Vec m) (tau : ℝ) (x0 : Vec n) (o : Spgl1Opts) : ∃ s, LassoSolveFrom A At b tau x0 o s :=
  exists_out (fun s => s.iterations) o.maxIters (fun _ h => h.1) fun _ => Nat.lt_succ_self _
example {m n : ℕ} (A : Vec n → Vec m) (At : Vec m → Vec n) (p : YallArgs m n) (x0 z0 : Vec n) : ∃ s, YallOut A At p x0 z0 s := by
  refine exists_out (fun s => s.iterations) p.maxIters (fun s h => ?_) fun s => show s.iterations < s.iterations + 1 + 1 by omega
  obtain ⟨form, b, w, nonneg, gamma, tol, maxIters⟩ := p
  cases form with
  | bp => exact h.2.1
  | l1l2 rho => exact h.1.1
  | con delta => exact h.2.1
example {m n : ℕ} (Phi : Matrix (Fin m) (Fin n) ℝ) (y : Fin m → ℝ) (p : ℝ) (N : ℕ) : ∃ s, FocussSolve Phi y p N s :=
  exists_out (fun s => s.iterations) N (fun _ h => h) fun _ => Nat.lt_succ_self _
example {M : ℕ} (phi : ℕ → Meas M) (n : ℕ) (y : Meas M) (K : ℕ) (tau : ℝ) (N : ℕ) : ∃ s, Biht phi n y K tau N s :=
  exists_out (fun s => s.iters) N (fun _ h => h.2) fun _ => Nat.lt_succ_self _
example {m nb b : ℕ} (svd : Svd b) (Phi : Matrix (Fin m) (Fin (nb * b)) ℝ) (y : Fin m → ℝ) (o : BsblOptions) :
    (∃ s, BsblEm Phi y o s) ∧ ∃ s, BsblBo svd Phi y o s :=
  ⟨exists_out (fun s => s.iterations) o.maxIters (fun _ h => h.2) fun _ => Nat.lt_succ_self _,
    exists_out (fun s => s.iterations) o.maxIters (fun _ h => h.2) fun _ => Nat.lt_succ_self _⟩
/-- The two runs differ: on squares of six numbers k-means with one iteration and with ten. -/
example : ∃ s t, KmeansWithSeed (fun i => (i : ℝ) ^ 2) 6 3 id 0 1 s ∧ KmeansWithSeed (fun i => (i : ℝ) ^ 2) 6 3 id 0 10 t ∧ s.iters ≤ t.iters ∧
    wcss (fun i => (i : ℝ) ^ 2) 6 t ≤ wcss (fun i => (i : ℝ) ^ 2) 6 s := by
  obtain ⟨s, hs⟩ := (c54_terminates (fun i => (i : ℝ) ^ 2) 6 3 id 0 1).1
  obtain ⟨t, ht⟩ := (c54_terminates (fun i => (i : ℝ) ^ 2) 6 3 id 0 10).1
  have h := c149_kmeans _ 6 3 id 0 0 le_rfl 1 10 (by norm_num) s t hs ht
  exact ⟨s, t, hs, ht, h.1.1, h.2 (by norm_num)⟩

end Verif.Tools
