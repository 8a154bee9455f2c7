import Verif.LoopMap
import Verif.Opt.CgModel
import Verif.Sls.IstaModel
import Verif.Sls.LsqrModel

set_option autoImplicit false
/-! # C144: units and orthonormal coordinates do not matter to CG, PCG, LSQR, ISTA and FISTA -/
noncomputable section
namespace Verif.Sls
open Verif.Loop Verif.Opt

variable {E E' F F' : Type*} [NormedAddCommGroup E] [InnerProductSpace ℝ E] [NormedAddCommGroup E'] [InnerProductSpace ℝ E']
  [NormedAddCommGroup F] [InnerProductSpace ℝ F] [NormedAddCommGroup F'] [InnerProductSpace ℝ F']

/-! ## Conjugate gradients -/

/-- The state of a CG run in new coordinates `V` and new units `c`. -/
def cgSim (V : E ≃ₗᵢ[ℝ] E') (c : ℝ) (s : CGState E) : CGState E' :=
  { x := c • V s.x, r := c • V s.r, p := c • V s.p, rr := c ^ 2 * s.rr, iters := s.iters }

theorem inner_cV (V : E ≃ₗᵢ[ℝ] E') (c : ℝ) (u v : E) : inner ℝ (c • V u) (c • V v) = c ^ 2 * inner ℝ u v := by
  rw [real_inner_smul_left, real_inner_smul_right, V.inner_map_map]; ring

/-- **C144** (conjugate gradients) Let `A' = V A V⁻¹` be the operator in other orthonormal coordinates (or any isometric space). If `cg.solve_from(A, b, x0)` returns `s`, then
`cg.solve_from(A', cVb, cVx0)` returns exactly the corresponding state: the solution `cVx` after the same number of iterations. -/
theorem c144_cg (V : E ≃ₗᵢ[ℝ] E') (c : ℝ) (hc : c ≠ 0) (A : E →ₗ[ℝ] E) (A' : E' → E') (hA : ∀ v, A' (V v) = V (A v)) (b x0 : E) (maxIters : ℕ) (rtol : ℝ)
    (s : CGState E) (h : CgSolveFrom A b x0 maxIters rtol s) (s' : CGState E') :
    CgSolveFrom A' (c • V b) (c • V x0) maxIters rtol s' ↔ s' = cgSim V c s := by
  have hc2 : c ^ 2 ≠ 0 := pow_ne_zero 2 hc
  have hc3 : 0 < c ^ 2 := by positivity
  have hA' : ∀ v, A' (c • V v) = c • V (A v) := fun v => by rw [← map_smul, hA, map_smul, map_smul]
  have e0 : cgInit A' (c • V b) (c • V x0) = cgSim V c (cgInit A b x0) := by
    have e : c • V b - A' (c • V x0) = c • V (b - A x0) := by rw [hA', map_sub, smul_sub]
    simp only [cgInit, cgSim, e, inner_cV]
  rw [CgSolveFrom, e0]
  refine Out.map (cgSim V c) (fun s _ => ?_) (fun s _ _ => ?_) h s'
  · simp only [cgCond, cgSim, inner_cV, gt_iff_lt, mul_assoc, mul_lt_mul_iff_right₀ hc3]
  · have ea : c ^ 2 * s.rr / (c ^ 2 * inner ℝ s.p (A s.p)) = s.rr / inner ℝ s.p (A s.p) := mul_div_mul_left _ _ hc2
    have er : c • V s.r - (s.rr / inner ℝ s.p (A s.p)) • c • V (A s.p) = c • V (s.r - (s.rr / inner ℝ s.p (A s.p)) • A s.p) := by
      rw [map_sub, map_smul, smul_sub, smul_comm]
    simp only [cgStep, cgSim, hA', inner_cV, ea, er, mul_div_mul_left _ _ hc2]
    congr 1
    · rw [map_add, map_smul, smul_add, smul_comm]
    · rw [map_add, map_smul, smul_add, smul_comm]

/-- The state of a PCG run in new coordinates `V` and new units `c`. -/
def pcgSim (V : E ≃ₗᵢ[ℝ] E') (c : ℝ) (s : PCGState E) : PCGState E' :=
  { x := c • V s.x, r := c • V s.r, p := c • V s.p, gamma := c ^ 2 * s.gamma, iters := s.iters }

/-- **C144** (preconditioned conjugate gradients) the same, with the preconditioner in the new coordinates and the absolute tolerance in the new units. -/
theorem c144_pcg (V : E ≃ₗᵢ[ℝ] E') (c : ℝ) (hc : c ≠ 0) (A M : E →ₗ[ℝ] E) (A' M' : E' → E') (hA : ∀ v, A' (V v) = V (A v)) (hM : ∀ v, M' (V v) = V (M v)) (isId : Bool)
    (b x0 : E) (maxIters : ℕ) (tol atol : ℝ) (s : PCGState E) (h : PcgSolveFrom A M isId b x0 maxIters tol atol s) (s' : PCGState E') :
    PcgSolveFrom A' M' isId (c • V b) (c • V x0) maxIters tol (c * atol) s' ↔ s' = pcgSim V c s := by
  have hc2 : c ^ 2 ≠ 0 := pow_ne_zero 2 hc
  have hc3 : 0 < c ^ 2 := by positivity
  have hA' : ∀ v, A' (c • V v) = c • V (A v) := fun v => by rw [← map_smul, hA, map_smul, map_smul]
  have hM' : ∀ v, M' (c • V v) = c • V (M v) := fun v => by rw [← map_smul, hM, map_smul, map_smul]
  have e0 : pcgInit A' M' (c • V b) (c • V x0) = pcgSim V c (pcgInit A M b x0) := by
    have e : c • V b - A' (c • V x0) = c • V (b - A x0) := by rw [hA', map_sub, smul_sub]
    simp only [pcgInit, pcgSim, e, hM', inner_cV]
  rw [PcgSolveFrom, e0]
  refine Out.map (pcgSim V c) (fun s _ => ?_) (fun s _ _ => ?_) h s'
  · have e : max (tol ^ 2 * (c ^ 2 * inner ℝ b b)) ((c * atol) ^ 2) = c ^ 2 * max (tol ^ 2 * inner ℝ b b) (atol ^ 2) := by
      rw [mul_max_of_nonneg _ _ hc3.le]; congr 1 <;> ring
    have e2 : (if isId = true then c ^ 2 * s.gamma else c ^ 2 * inner ℝ s.r s.r) = c ^ 2 * (if isId = true then s.gamma else inner ℝ s.r s.r) := by split_ifs <;> rfl
    simp only [pcgCond, pcgSim, inner_cV, e, e2, gt_iff_lt, mul_lt_mul_iff_right₀ hc3]
  · have ea : c ^ 2 * s.gamma / (c ^ 2 * inner ℝ s.p (A s.p)) = s.gamma / inner ℝ s.p (A s.p) := mul_div_mul_left _ _ hc2
    have er : c • V s.r - (s.gamma / inner ℝ s.p (A s.p)) • c • V (A s.p) = c • V (s.r - (s.gamma / inner ℝ s.p (A s.p)) • A s.p) := by
      rw [map_sub, map_smul, smul_sub, smul_comm]
    simp only [pcgStep, pcgSim, hA', inner_cV, ea, er, hM', mul_div_mul_left _ _ hc2]
    congr 1
    · rw [map_add, map_smul, smul_add, smul_comm]
    · rw [map_add, map_smul, smul_add, smul_comm]

/-! ## ISTA and FISTA -/

/-- The result of an ISTA run in new coordinates and units; the first state reports the constant `1e10` as its change. -/
def istaSim (V : E ≃ₗᵢ[ℝ] E') (U : F ≃ₗᵢ[ℝ] F') (c : ℝ) (s : IstaState E F) : IstaState E' F' :=
  { x := c • V s.x, r := c • U s.r, rr := c ^ 2 * s.rr, dx := if s.iters = 0 then s.dx else |c| * s.dx, iters := s.iters }

/-- As `istaSim`. -/
def fistaSim (V : E ≃ₗᵢ[ℝ] E') (U : F ≃ₗᵢ[ℝ] F') (c : ℝ) (s : FistaState E F) : FistaState E' F' :=
  { x := c • V s.x, z := c • V s.z, r := c • U s.r, t := s.t, rr := c ^ 2 * s.rr, dx := if s.iters = 0 then s.dx else |c| * s.dx, iters := s.iters }

/-- `p'` is the problem `p` in the coordinates `V` of the unknown, `U` of the data and in units multiplied by `c`: the operators are conjugated, data, start and the tolerance on
the change of `x` are scaled, and the thresholding step of the new problem is that of the old one in the new units (for soft thresholding: the threshold is multiplied by `|c|`). -/
structure SameIsta {G G' : Type*} (V : E ≃ₗᵢ[ℝ] E') (U : F ≃ₗᵢ[ℝ] F') (c : ℝ) (p : IstaArgs E F G) (p' : IstaArgs E' F' G') : Prop where
  times : ∀ x, p'.times (c • V x) = c • U (p.times x)
  trans : ∀ r, p'.trans (c • U r) = c • V (p.trans r)
  shrink : ∀ i x, p'.basisTimes (p'.thresh i (p'.basisTrans (c • V x))) = c • V (p.basisTimes (p.thresh i (p.basisTrans x)))
  b : p'.b = c • U p.b
  x0 : p'.x0 = c • V p.x0
  step : p'.step = p.step
  rtol : p'.rtol = p.rtol
  xtol : p'.xtol = |c| * p.xtol
  maxIters : p'.maxIters = p.maxIters
  xtol_big : p.xtol < 1e10 ∧ |c| * p.xtol < 1e10

theorem norm_cV (V : E ≃ₗᵢ[ℝ] E') (c : ℝ) (u : E) : ‖c • V u‖ = |c| * ‖u‖ := by rw [norm_smul, V.norm_map, Real.norm_eq_abs]

/-- **C144** (ISTA) -/
theorem c144_ista {G G' : Type*} (V : E ≃ₗᵢ[ℝ] E') (U : F ≃ₗᵢ[ℝ] F') (c : ℝ) (hc : c ≠ 0) (p : IstaArgs E F G) (p' : IstaArgs E' F' G') (hp : SameIsta V U c p p')
    (s : IstaState E F) (h : Out (istaCond p) (istaStep p) (istaInit p) s) (s' : IstaState E' F') :
    Out (istaCond p') (istaStep p') (istaInit p') s' ↔ s' = istaSim V U c s := by
  have hc3 : 0 < c ^ 2 := by positivity
  have ha : 0 < |c| := abs_pos.2 hc
  have hres : ∀ x, p'.b - p'.times (c • V x) = c • U (p.b - p.times x) := fun x => by rw [hp.b, hp.times, map_sub, smul_sub]
  have e0 : istaInit p' = istaSim V U c (istaInit p) := by
    simp only [istaInit, istaSim, hp.x0, hres, norm_cV, mul_pow, sq_abs, if_true]
  rw [e0]
  refine Out.map (istaSim V U c) (fun s hs => ?_) (fun s _ _ => ?_) h s'
  · have hd : (istaSim V U c s).dx > p'.xtol ↔ s.dx > p.xtol := by
      have h0 : s.iters = 0 → s.dx = 1e10 := by
        cases hs with
        | init => intro _; rfl
        | step _ _ => intro h; simp [istaStep] at h
      by_cases hi : s.iters = 0
      · simp only [istaSim, if_pos hi, h0 hi, hp.xtol, gt_iff_lt, hp.xtol_big.1, hp.xtol_big.2]
      · simp only [istaSim, if_neg hi, hp.xtol, gt_iff_lt, mul_lt_mul_iff_right₀ ha]
    have hr : (istaSim V U c s).rr > ‖p'.b‖ ^ 2 * p'.rtol ^ 2 ↔ s.rr > ‖p.b‖ ^ 2 * p.rtol ^ 2 := by
      simp only [istaSim, hp.b, hp.rtol, norm_cV, mul_pow, sq_abs, gt_iff_lt, mul_assoc, mul_lt_mul_iff_right₀ hc3]
    rw [istaCond, istaCond, hd, hr, hp.maxIters]; rfl
  · have ex : c • V s.x + p.step • (c • V (p.trans s.r)) = c • V (s.x + p.step • p.trans s.r) := by
      rw [map_add, map_smul, smul_add, smul_comm c]
    have ed : ∀ x, ‖c • V x - c • V s.x‖ = |c| * ‖x - s.x‖ := fun x => by rw [← smul_sub, ← map_sub, norm_cV]
    simp only [istaStep, istaSim, hp.trans, hp.step, ex, hp.shrink, hres, norm_cV, mul_pow, sq_abs, ed, Nat.succ_ne_zero, if_false]

/-- **C144** (FISTA) -/
theorem c144_fista {G G' : Type*} (V : E ≃ₗᵢ[ℝ] E') (U : F ≃ₗᵢ[ℝ] F') (c : ℝ) (hc : c ≠ 0) (p : IstaArgs E F G) (p' : IstaArgs E' F' G') (hp : SameIsta V U c p p')
    (s : FistaState E F) (h : Out (fistaCond p) (fistaStep p) (fistaInit p) s) (s' : FistaState E' F') :
    Out (fistaCond p') (fistaStep p') (fistaInit p') s' ↔ s' = fistaSim V U c s := by
  have hc3 : 0 < c ^ 2 := by positivity
  have ha : 0 < |c| := abs_pos.2 hc
  have hres : ∀ x, p'.b - p'.times (c • V x) = c • U (p.b - p.times x) := fun x => by rw [hp.b, hp.times, map_sub, smul_sub]
  have e0 : fistaInit p' = fistaSim V U c (fistaInit p) := by
    simp only [fistaInit, fistaSim, hp.x0, hres, norm_cV, mul_pow, sq_abs, if_true]
  rw [e0]
  refine Out.map (fistaSim V U c) (fun s hs => ?_) (fun s _ _ => ?_) h s'
  · have hd : (fistaSim V U c s).dx > p'.xtol ↔ s.dx > p.xtol := by
      have h0 : s.iters = 0 → s.dx = 1e10 := by
        cases hs with
        | init => intro _; rfl
        | step _ _ => intro h; simp [fistaStep] at h
      by_cases hi : s.iters = 0
      · simp only [fistaSim, if_pos hi, h0 hi, hp.xtol, gt_iff_lt, hp.xtol_big.1, hp.xtol_big.2]
      · simp only [fistaSim, if_neg hi, hp.xtol, gt_iff_lt, mul_lt_mul_iff_right₀ ha]
    have hr : (fistaSim V U c s).rr > ‖p'.b‖ ^ 2 * p'.rtol ^ 2 ↔ s.rr > ‖p.b‖ ^ 2 * p.rtol ^ 2 := by
      simp only [fistaSim, hp.b, hp.rtol, norm_cV, mul_pow, sq_abs, gt_iff_lt, mul_assoc, mul_lt_mul_iff_right₀ hc3]
    rw [fistaCond, fistaCond, hd, hr, hp.maxIters]; rfl
  · have ex : c • V s.z + p.step • (c • V (p.trans s.r)) = c • V (s.z + p.step • p.trans s.r) := by
      rw [map_add, map_smul, smul_add, smul_comm c]
    have ed : ∀ x, ‖c • V x - c • V s.x‖ = |c| * ‖x - s.x‖ := fun x => by rw [← smul_sub, ← map_sub, norm_cV]
    have ez : ∀ x (q : ℝ), c • V x + q • (c • V x - c • V s.x) = c • V (x + q • (x - s.x)) := fun x q => by
      rw [← smul_sub, ← map_sub, map_add, map_smul, smul_add, smul_comm c]
    simp only [fistaStep, fistaSim, hp.trans, hp.step, ex, hp.shrink, ez, hres, norm_cV, mul_pow, sq_abs, ed, Nat.succ_ne_zero, if_false]

/-! ## LSQR -/

/-- The state of an LSQR run in new coordinates and units: the Krylov vectors keep their length (only the sign of `c` acts on them), the operator norm and condition estimates are the
same, the solution and the norms of solution and residuals are multiplied by `c` or `|c|`. -/
def lsqrSim (V : E ≃ₗᵢ[ℝ] E') (U : F ≃ₗᵢ[ℝ] F') (c : ℝ) (s : LsqrState E F) : LsqrState E' F' :=
  let g := |c|⁻¹ * c
  { x := c • V s.x, w := g • V s.w, u := g • U s.u, v := g • V s.v, alpha := s.alpha, beta := if s.iterations = 1 then |c| * s.beta else s.beta, rho_bar := s.rho_bar, phi_bar := |c| * s.phi_bar, z := |c| * s.z,
    cs2 := s.cs2, sn2 := s.sn2, D_norm_sqr := s.D_norm_sqr, cum_z_sqr := c ^ 2 * s.cum_z_sqr, cum_psi_sqr := c ^ 2 * s.cum_psi_sqr, A_norm := s.A_norm, A_cond := s.A_cond,
    x_norm := |c| * s.x_norm, r_norm := |c| * s.r_norm, atr_norm := |c| * s.atr_norm, iterations := s.iterations, n_times := s.n_times, n_trans := s.n_trans,
    timesCalls := s.timesCalls, transCalls := s.transCalls }

theorem normalize_sim (U : F ≃ₗᵢ[ℝ] F') (g : ℝ) (u : F) (beta : ℝ) : lsqrNormalize beta (g • U u) = g • U (lsqrNormalize beta u) := by
  rw [lsqrNormalize, lsqrNormalize]
  split_ifs
  · rw [map_smul, smul_comm]
  · rfl

theorem lsqrInit_sim (V : E ≃ₗᵢ[ℝ] E') (U : F ≃ₗᵢ[ℝ] F') (c : ℝ) (hc : c ≠ 0) (A : E →ₗ[ℝ] F) (At : F →ₗ[ℝ] E) (A' : E' →ₗ[ℝ] F') (At' : F' →ₗ[ℝ] E')
    (hA : ∀ x, A' (V x) = U (A x)) (hAt : ∀ r, At' (U r) = V (At r)) (b : F) (x0 : E) :
    lsqrInit A' At' (c • U b) (c • V x0) = lsqrSim V U c (lsqrInit A At b x0) := by
  have ha : 0 < |c| := abs_pos.2 hc
  have e : c • U b - A' (c • V x0) = c • U (b - A x0) := by rw [map_smul, hA, map_sub, smul_sub]
  have eu : lsqrNormalize (|c| * ‖b - A x0‖) (c • U (b - A x0)) = (|c|⁻¹ * c) • U (lsqrNormalize ‖b - A x0‖ (b - A x0)) := by
    rw [lsqrNormalize, lsqrNormalize]
    by_cases h0 : ‖b - A x0‖ > 0
    · rw [if_pos (mul_pos ha h0), if_pos h0, map_smul, smul_smul, smul_smul, mul_inv]; congr 1; ring
    · have : b - A x0 = 0 := by simpa using h0
      simp [this]
  have eg : |(|c|⁻¹ * c)| = 1 := by rw [abs_mul, abs_inv, abs_abs, inv_mul_cancel₀ ha.ne']
  have et : ∀ u, At' ((|c|⁻¹ * c) • U u) = (|c|⁻¹ * c) • V (At u) := fun u => by rw [map_smul, hAt]
  simp only [lsqrInit, lsqrSim, counted, e, norm_cV, eu, et, eg, one_mul, normalize_sim, mul_zero, if_true]
  congr 1
  ring

theorem lsqrBody_sim (V : E ≃ₗᵢ[ℝ] E') (U : F ≃ₗᵢ[ℝ] F') (c : ℝ) (hc : c ≠ 0) (A : E →ₗ[ℝ] F) (At : F →ₗ[ℝ] E) (A' : E' →ₗ[ℝ] F') (At' : F' →ₗ[ℝ] E')
    (hA : ∀ x, A' (V x) = U (A x)) (hAt : ∀ r, At' (U r) = V (At r)) (damp : ℝ) (s : LsqrState E F) (hs : s.iterations ≠ 0) :
    lsqrBody A' At' damp (lsqrSim V U c s) = lsqrSim V U c (lsqrBody A At damp s) := by
  have ha : 0 < |c| := abs_pos.2 hc
  set g := |c|⁻¹ * c with hg
  have eg : |g| = 1 := by rw [hg, abs_mul, abs_inv, abs_abs, inv_mul_cancel₀ ha.ne']
  have hgc : |c| * g = c := by rw [hg]; field_simp
  have eA : A' (g • V s.v) - s.alpha • (g • U s.u) = g • U (A s.v - s.alpha • s.u) := by rw [map_smul, hA, map_sub, map_smul, smul_sub, smul_comm s.alpha]
  have en : ∀ u : F, ‖g • U u‖ = ‖u‖ := fun u => by rw [norm_cV, eg, one_mul]
  have env : ∀ u : E, ‖g • V u‖ = ‖u‖ := fun u => by rw [norm_cV, eg, one_mul]
  have et : ∀ u, ∀ q : ℝ, At' (g • U u) - q • (g • V s.v) = g • V (At u - q • s.v) := fun u q => by rw [map_smul, hAt, map_sub, map_smul, smul_sub, smul_comm q]
  have ed : ∀ q : ℝ, ‖q • g • V s.w‖ = ‖q • s.w‖ := fun q => by rw [smul_comm, ← map_smul, env]
  simp only [lsqrBody, lsqrSim, counted, ← hg, eA, en, normalize_sim, et, env, ed]
  have hsq : c ^ 2 = |c| ^ 2 := (sq_abs c).symm
  have hsqrt : ∀ X Y Z : ℝ, X = |c| ^ 2 * Y → Real.sqrt (c ^ 2 * Z + X) = |c| * Real.sqrt (Z + Y) := fun X Y Z h => by
    rw [hsq, h, ← mul_add, Real.sqrt_mul (sq_nonneg _), Real.sqrt_sq ha.le]
  have hsqrt' : ∀ X Y Z W : ℝ, X = |c| ^ 2 * Y → W = |c| ^ 2 * Z → Real.sqrt (X + W) = |c| * Real.sqrt (Y + Z) := fun X Y Z W h h' => by
    rw [h, h', ← mul_add, Real.sqrt_mul (sq_nonneg _), Real.sqrt_sq ha.le]
  have habs : ∀ a X Y : ℝ, X = |c| * Y → a * |X| = |c| * (a * |Y|) := fun a X Y h => by rw [h, abs_mul, abs_abs]; ring
  congr 1
  · rw [map_add, map_smul, smul_add, smul_smul, smul_smul]
    congr 2
    conv_rhs => rw [← hgc]
    ring
  · rw [map_add, map_smul, smul_add, smul_comm g]
  · simp [hs]
  · ring
  · ring
  · rw [hsq]; ring
  · rw [hsq]; ring
  · exact hsqrt _ _ _ (by ring)
  · exact hsqrt' _ _ _ _ (by ring) (by rw [hsq]; ring)
  · exact habs _ _ _ (by ring)

/-- **C144** (LSQR) Let `A' = U A V⁻¹` with adjoint `At' = V At U⁻¹`. If `lsqr(A, b, x0)` returns `s`, then `lsqr(A', cUb, cVx0)` with the same parameters returns exactly the
corresponding state. -/
theorem c144_lsqr (V : E ≃ₗᵢ[ℝ] E') (U : F ≃ₗᵢ[ℝ] F') (c : ℝ) (hc : c ≠ 0) (A : E →ₗ[ℝ] F) (At : F →ₗ[ℝ] E) (A' : E' →ₗ[ℝ] F') (At' : F' →ₗ[ℝ] E')
    (hA : ∀ x, A' (V x) = U (A x)) (hAt : ∀ r, At' (U r) = V (At r)) (b : F) (x0 : E) (damp atol btol conlim : ℝ) (maxIters : ℕ) (s : LsqrState E F)
    (h : Lsqr A At b x0 damp atol btol conlim maxIters s) (s' : LsqrState E' F') :
    Lsqr A' At' (c • U b) (c • V x0) damp atol btol conlim maxIters s' ↔ s' = lsqrSim V U c s := by
  have ha : 0 < |c| := abs_pos.2 hc
  rw [Lsqr, lsqrInit_sim V U c hc A At A' At' hA hAt]
  refine Out.map (lsqrSim V U c) (fun s _ => ?_) (fun s hs _ => lsqrBody_sim V U c hc A At A' At' hA hAt damp s ?_) h s'
  · have e1 : ∀ a b : ℝ, |c| * a / (|c| * b) = a / b := fun a b => mul_div_mul_left a b ha.ne'
    have e2 : ∀ d a b : ℝ, d * (|c| * a) / (|c| * b) = d * a / b := fun d a b => by rw [mul_left_comm, e1]
    have eb : (lsqrSim V U c (lsqrInit A At b x0)).beta = |c| * (lsqrInit A At b x0).beta := rfl
    have ea : (lsqrSim V U c (lsqrInit A At b x0)).atr_norm = |c| * (lsqrInit A At b x0).atr_norm := rfl
    rw [eb, ea]
    simp only [lsqrCond, lsqrSim, e1, e2]
  · cases hs with
    | init => exact one_ne_zero
    | step _ _ => exact Nat.succ_ne_zero _

/-! ## Concrete instances -/

/-- Soft thresholding in other units. -/
theorem soft_scale (c x tau : ℝ) : softThreshold (c * x) (|c| * tau) = c * softThreshold x tau := by
  rw [softThreshold, softThreshold]
  rcases le_total 0 c with h | h
  · rw [abs_of_nonneg h, mul_add c (max _ _), mul_max_of_nonneg _ _ h, mul_min_of_nonneg _ _ h, mul_zero, mul_sub, mul_add]
  · have h' : 0 ≤ -c := by linarith
    have e1 : c * max 0 (x - tau) = -max 0 (-c * (x - tau)) := by rw [← mul_zero (-c), ← mul_max_of_nonneg _ _ h', mul_zero]; ring
    have e2 : c * min 0 (x + tau) = -min 0 (-c * (x + tau)) := by rw [← mul_zero (-c), ← mul_min_of_nonneg _ _ h', mul_zero]; ring
    rw [abs_of_nonpos h, mul_add, e1, e2, ← min_neg_neg, ← max_neg_neg, neg_zero, show c * x - -c * tau = -(-c * (x + tau)) by ring, show c * x + -c * tau = -(-c * (x - tau)) by ring]
    ring

/-- The isometry `v ↦ -v`. -/
abbrev flip1 : ℝ ≃ₗᵢ[ℝ] ℝ := LinearIsometryEquiv.neg ℝ

example (s : CGState ℝ) (h : CgSolveFrom ((2 : ℝ) • LinearMap.id : ℝ →ₗ[ℝ] ℝ) 4 1 10 (1e-3) s) :=
  c144_cg flip1 3 (by norm_num) _ ((2 : ℝ) • LinearMap.id : ℝ →ₗ[ℝ] ℝ) (fun v => by simp) 4 1 10 (1e-3) s h

example : ∃ s, CgSolveFrom ((2 : ℝ) • LinearMap.id : ℝ →ₗ[ℝ] ℝ) 4 1 10 (1e-3) s := exists_out (fun s => s.iters) 10 (fun _ h => h.2) fun _ => Nat.lt_succ_self _

example (s : PCGState ℝ) (h : PcgSolveFrom ((2 : ℝ) • LinearMap.id : ℝ →ₗ[ℝ] ℝ) (LinearMap.id : ℝ →ₗ[ℝ] ℝ) false 4 1 10 (1e-3) 0 s) :=
  c144_pcg flip1 3 (by norm_num) _ _ ((2 : ℝ) • LinearMap.id : ℝ →ₗ[ℝ] ℝ) (LinearMap.id : ℝ →ₗ[ℝ] ℝ) (fun v => by simp) (fun v => by simp) false 4 1 10 (1e-3) 0 s h

example : ∃ s, PcgSolveFrom ((2 : ℝ) • LinearMap.id : ℝ →ₗ[ℝ] ℝ) (LinearMap.id : ℝ →ₗ[ℝ] ℝ) false 4 1 10 (1e-3) 0 s :=
  exists_out (fun s => s.iters) 10 (fun _ h => h.2) fun _ => Nat.lt_succ_self _

example (s : LsqrState ℝ ℝ) (h : Lsqr ((2 : ℝ) • LinearMap.id : ℝ →ₗ[ℝ] ℝ) ((2 : ℝ) • LinearMap.id : ℝ →ₗ[ℝ] ℝ) 4 1 0 (1e-6) (1e-6) (1e8) 10 s) :=
  c144_lsqr flip1 flip1 (-3) (by norm_num) _ _ ((2 : ℝ) • LinearMap.id : ℝ →ₗ[ℝ] ℝ) ((2 : ℝ) • LinearMap.id : ℝ →ₗ[ℝ] ℝ) (fun v => by simp) (fun v => by simp) 4 1 0 (1e-6) (1e-6) (1e8) 10 s h

example : ∃ s, Lsqr ((2 : ℝ) • LinearMap.id : ℝ →ₗ[ℝ] ℝ) ((2 : ℝ) • LinearMap.id : ℝ →ₗ[ℝ] ℝ) 4 1 0 (1e-6) (1e-6) (1e8) 10 s :=
  exists_out (fun s => s.iterations) 10 (fun _ h => h.1) fun _ => Nat.lt_succ_self _

/-- The scalar problem `min (2x - b)²/2 + λ|x|` with soft thresholding. -/
def scalarLasso (b tau xtol : ℝ) : IstaArgs ℝ ℝ ℝ :=
  { times := fun x => 2 * x, trans := fun r => 2 * r, b := b, x0 := 0, step := 1 / 4, thresh := fun _ a => softThreshold a tau, basisTimes := id, basisTrans := id, rtol := 0, xtol := xtol, maxIters := 100 }

theorem scalar_same : SameIsta flip1 flip1 (-3) (scalarLasso 5 1 (1e-3)) (scalarLasso 15 3 (3e-3)) where
  times x := by simp [scalarLasso]; ring
  trans x := by simp [scalarLasso]; ring
  shrink i x := by
    have := soft_scale 3 x 1
    rw [abs_of_nonneg (by norm_num : (0 : ℝ) ≤ 3), mul_one] at this
    simpa [scalarLasso] using this
  b := by simp [scalarLasso]; norm_num
  x0 := by simp [scalarLasso]
  step := rfl
  rtol := rfl
  xtol := by rw [abs_of_nonpos (by norm_num)]; simp only [scalarLasso]; norm_num
  maxIters := rfl
  xtol_big := by rw [abs_of_nonpos (by norm_num)]; simp only [scalarLasso]; norm_num

example (s : IstaState ℝ ℝ) (h : Out (istaCond (scalarLasso 5 1 (1e-3))) (istaStep (scalarLasso 5 1 (1e-3))) (istaInit (scalarLasso 5 1 (1e-3))) s) := c144_ista flip1 flip1 (-3) (by norm_num) _ _ scalar_same s h
example (s : FistaState ℝ ℝ) (h : Out (fistaCond (scalarLasso 5 1 (1e-3))) (fistaStep (scalarLasso 5 1 (1e-3))) (fistaInit (scalarLasso 5 1 (1e-3))) s) := c144_fista flip1 flip1 (-3) (by norm_num) _ _ scalar_same s h
example : (∃ s, Out (istaCond (scalarLasso 5 1 (1e-3))) (istaStep (scalarLasso 5 1 (1e-3))) (istaInit (scalarLasso 5 1 (1e-3))) s) ∧ ∃ s, Out (fistaCond (scalarLasso 5 1 (1e-3))) (fistaStep (scalarLasso 5 1 (1e-3))) (fistaInit (scalarLasso 5 1 (1e-3))) s :=
  ⟨exists_out (fun s => s.iters) 100 (fun _ h => h.1) fun _ => Nat.lt_succ_self _, exists_out (fun s => s.iters) 100 (fun _ h => h.1) fun _ => Nat.lt_succ_self _⟩

end Verif.Sls
