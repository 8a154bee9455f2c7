import Verif.Cvx.Spgl1CProps

set_option autoImplicit false
/-!
# SPGL1 on complex arrays with real entries (C141)

If the entries of `b` and of the start are real and the operator maps real arrays to real arrays, then the complex run is the real run.
-/
noncomputable section
namespace Verif.Cvx
open Verif.Loop Verif.Opt
open scoped RealInnerProductSpace

variable {m n : ℕ}

/-- The complex array with the entries of a real array (`x.astype(complex)`). -/
def toC (x : Vec n) : CVec n := cvec fun i => ((x i : ℝ) : ℂ)

/-- The complex operator `A'` agrees with the real operator `A` on real arrays. -/
def ExtendsC (A : Vec n → Vec m) (A' : CVec n → CVec m) : Prop := ∀ x, A' (toC x) = toC (A x)

theorem toC_apply (x : Vec n) (i : Fin n) : toC x i = ((x i : ℝ) : ℂ) := rfl

theorem toC_sub (x y : Vec n) : toC (x - y) = toC x - toC y := by
  ext i; simp [toC_apply]

theorem toC_neg (x : Vec n) : toC (-x) = -toC x := by
  ext i; simp [toC_apply]

theorem toC_smul (a : ℝ) (x : Vec n) : toC (a • x) = a • toC x := by
  ext i
  show ((a * x i : ℝ) : ℂ) = a • ((x i : ℝ) : ℂ)
  rw [Complex.real_smul]; push_cast; rfl

theorem toC_zero : toC (0 : Vec n) = 0 := by
  ext i; simp [toC_apply]

theorem toC_injective : Function.Injective (toC : Vec n → CVec n) := by
  intro x y h
  ext i
  have := congrArg (fun z : CVec n => z i) h
  simpa [toC_apply] using this

theorem norm_toC (x : Vec n) : ‖toC x‖ = ‖x‖ := by
  rw [EuclideanSpace.norm_eq, EuclideanSpace.norm_eq]
  congr 1
  exact Finset.sum_congr rfl fun i _ => by rw [toC_apply, Complex.norm_real]

theorem linfC_toC (x : Vec n) : linfC (toC x) = linf x := by
  unfold linfC linf
  apply le_antisymm
  · refine (pi_norm_le_iff_of_nonneg (norm_nonneg _)).2 fun i => ?_
    rw [show ‖(toC x).ofLp i‖ = ‖x.ofLp i‖ from Complex.norm_real _]
    exact norm_le_pi_norm x.ofLp i
  · refine (pi_norm_le_iff_of_nonneg (norm_nonneg _)).2 fun i => ?_
    rw [show ‖x.ofLp i‖ = ‖(toC x).ofLp i‖ from (Complex.norm_real _).symm]
    exact norm_le_pi_norm (toC x).ofLp i

theorem l1C_toC (x : Vec n) : l1C (toC x) = l1 x := by
  rw [l1C, l1]
  exact Finset.sum_congr rfl fun i _ => by rw [toC_apply, Complex.norm_real, Real.norm_eq_abs]

theorem vdotC_toC (x y : Vec n) : vdotC (toC x) (toC y) = ((⟪x, y⟫ : ℝ) : ℂ) := by
  rw [vdotC, PiLp.inner_apply, Complex.ofReal_sum]
  refine Finset.sum_congr rfl fun i _ => ?_
  rw [toC_apply, toC_apply, Complex.conj_ofReal, ← Complex.ofReal_mul]
  congr 1
  simp [mul_comm]

theorem objValC_toC (r : Vec m) : objValC (toC r) = objVal r := by
  rw [objValC, objVal, vdotC_toC, Complex.norm_real, Real.norm_eq_abs]

theorem relGapC_toC (b : Vec m) (g : Vec n) (r : Vec m) (f tau : ℝ) : relGapC (toC b) (toC g) (toC r) f tau = relGap b g r f tau := by
  rw [relGapC, relGap, ← toC_sub, vdotC_toC, linfC_toC, ← Complex.ofReal_add, Complex.norm_real, Real.norm_eq_abs]

theorem nextAlphaC_toC (o : Spgl1Opts) (s y : Vec n) : nextAlphaC o (toC s) (toC y) = nextAlpha o s y := by
  simp only [nextAlphaC, nextAlpha, vdotC_toC, Complex.ofReal_re]

theorem firstAlphaC_toC (o : Spgl1Opts) (d : Vec n) : firstAlphaC o (toC d) = firstAlpha o d := by
  simp only [firstAlphaC, firstAlpha, linfC_toC]

theorem shrinkC_real {κ : ℝ} (hκ : 0 ≤ κ) (a : ℝ) :
    ((max (‖(a : ℂ)‖ - κ) 0 : ℝ) : ℂ) * Complex.exp (Complex.I * Complex.arg (a : ℂ)) = ((shrink1 κ a : ℝ) : ℂ) := by
  rw [Complex.norm_real, Real.norm_eq_abs, shrink1]
  rcases le_or_gt 0 a with h | h
  · rw [Complex.arg_ofReal_of_nonneg h, abs_of_nonneg h, min_eq_left (by linarith), max_comm]; simp
  · rw [Complex.arg_ofReal_of_neg h, abs_of_neg h, mul_comm Complex.I, Complex.exp_pi_mul_I, max_eq_left (a := (0 : ℝ)) (by linarith), zero_add]
    rcases le_total 0 (a + κ) with h1 | h1
    · rw [min_eq_left h1, max_eq_right (by linarith)]; simp
    · rw [min_eq_right h1, max_eq_left (by linarith)]; push_cast; ring

/-- **C141** on a complex array with real entries the complex branch of the projection gives the result of the real branch. -/
theorem c141_project_real {q : ℝ} (hq : 0 ≤ q) (x : Vec n) : projectToL1BallC (toC x) q = toC (projectToL1Ball x q) := by
  by_cases h : l1 x > q
  · have h1 : projectToL1BallC (toC x) q = projectInsideBallC (toC x) q := if_pos (by rw [l1C_toC]; exact h)
    have h2 : projectToL1Ball x q = projectInsideBall q x := if_pos h
    rw [h1, h2]
    have ha : (List.ofFn fun i => ‖toC x i‖) = List.ofFn fun i => |x i| := by
      congr 1; funext i; rw [toC_apply, Complex.norm_real, Real.norm_eq_abs]
    obtain ⟨hκ, -⟩ := l1Kappa_spec q hq (List.ofFn fun i => |x i|) (by simp) (by rw [List.sum_ofFn]; exact h)
    ext i
    show ((max (‖toC x i‖ - l1Kappa q (List.ofFn fun i => ‖toC x i‖)) 0 : ℝ) : ℂ) * Complex.exp (Complex.I * Complex.arg (toC x i)) = _
    rw [ha]
    exact shrinkC_real hκ (x i)
  · have h1 : projectToL1BallC (toC x) q = toC x := if_neg (by rw [l1C_toC]; exact h)
    have h2 : projectToL1Ball x q = x := if_neg h
    rw [h1, h2]

/-- A real state of the line search as a complex one. -/
def CurvyState.toC (s : CurvyState m n) : CurvyStateC m n :=
  { alpha := s.alpha, scale := s.scale, xNew := Cvx.toC s.xNew, rNew := Cvx.toC s.rNew, dNew := Cvx.toC s.dNew, gtd := s.gtd, dNormOld := s.dNormOld, fVal := s.fVal,
    fLim := s.fLim, nIters := s.nIters, nSafe := s.nSafe, timesCalls := s.timesCalls }

/-- A real state of the LASSO solver as a complex one. -/
def LassoState.toC (s : LassoState m n) : LassoStateC m n :=
  { x := Cvx.toC s.x, g := Cvx.toC s.g, r := Cvx.toC s.r, fPast := s.fPast, rNorm := s.rNorm, rGap := s.rGap, alpha := s.alpha, alphaNext := s.alphaNext,
    iterations := s.iterations, nTimes := s.nTimes, nTrans := s.nTrans, nLsIters := s.nLsIters, timesCalls := s.timesCalls, transCalls := s.transCalls }

/-- A real state of the basis pursuit solver as a complex one. -/
def BpState.toC (s : BpState m n) : BpStateC m n :=
  { x := Cvx.toC s.x, g := Cvx.toC s.g, r := Cvx.toC s.r, fPast := s.fPast, tau := s.tau, tauChanged := s.tauChanged, rNorm := s.rNorm, rGap := s.rGap,
    rResError := s.rResError, rFError := s.rFError, alpha := s.alpha, alphaNext := s.alphaNext, iterations := s.iterations, nTimes := s.nTimes,
    nTrans := s.nTrans, nNewton := s.nNewton, nLsIters := s.nLsIters, timesCalls := s.timesCalls, transCalls := s.transCalls }

variable {A : Vec n → Vec m} {At : Vec m → Vec n} {A' : CVec n → CVec m} {At' : CVec m → CVec n}

theorem curvyCandidate_toC (hA : ExtendsC A A') {tau : ℝ} (htau : 0 ≤ tau) (b : Vec m) (x g : Vec n) (fMax gamma alpha scale dNormOld : ℝ) (nIters nSafe calls : ℕ) :
    curvyCandidateC A' (toC b) (toC x) (toC g) fMax tau gamma alpha scale dNormOld nIters nSafe calls =
      (curvyCandidate A b x g fMax tau gamma alpha scale dNormOld nIters nSafe calls).toC := by
  simp only [curvyCandidateC, curvyCandidate, CurvyState.toC, Verif.Sls.counted, ← toC_smul, ← toC_sub, c141_project_real htau, hA _, vdotC_toC, objValC_toC, Complex.ofReal_re]

theorem curvyNext_toC (hA : ExtendsC A A') {tau : ℝ} (htau : 0 ≤ tau) (b : Vec m) (x g : Vec n) (fMax gamma : ℝ) (s : CurvyState m n) :
    curvyNextC A' (toC b) (toC x) (toC g) fMax tau gamma s.toC = (curvyNext A b x g fMax tau gamma s).toC := by
  unfold curvyNextC curvyNext
  rw [← curvyCandidate_toC hA htau]
  simp only [CurvyState.toC, norm_toC]

theorem run_toC {σ τ : Type*} (e : σ → τ) {c : σ → Prop} {c' : τ → Prop} [DecidablePred c] [DecidablePred c'] {f : σ → σ} {f' : τ → τ}
    (hc : ∀ s, c' (e s) ↔ c s) (hf : ∀ s, f' (e s) = e (f s)) (k : ℕ) (s : σ) : run c' f' k (e s) = e (run c f k s) := by
  induction k generalizing s with
  | zero => rfl
  | succ k ih =>
    simp only [run]
    by_cases h : c s
    · rw [if_pos h, if_pos ((hc s).2 h), hf, ih]
    · rw [if_neg h, if_neg (fun h' => h ((hc s).1 h'))]

theorem curvyLineSearch_toC (hA : ExtendsC A A') {tau : ℝ} (htau : 0 ≤ tau) (b : Vec m) (x g : Vec n) (alpha0 fMax gamma : ℝ) (calls : ℕ) :
    curvyLineSearchC A' (toC b) (toC x) (toC g) alpha0 fMax tau gamma calls = (curvyLineSearch A b x g alpha0 fMax tau gamma calls).toC := by
  classical
  unfold curvyLineSearchC curvyLineSearch
  simp only [← toC_smul]
  rw [curvyInitC, curvyCandidate_toC hA htau]
  exact run_toC CurvyState.toC (fun s => Iff.rfl) (fun s => curvyNext_toC hA htau b x _ fMax gamma s) 10 _

theorem lassoInit_toC (hA : ExtendsC A A') (hAt : ExtendsC At At') {tau : ℝ} (htau : 0 ≤ tau) (b : Vec m) (x0 : Vec n) (o : Spgl1Opts) :
    lassoInitC A' At' (toC b) tau (toC x0) o = (lassoInit A At b tau x0 o).toC := by
  simp only [lassoInitC, lassoInit, LassoState.toC, Verif.Sls.counted, c141_project_real htau, hA _, hAt _, ← toC_sub, ← toC_neg, objValC_toC, norm_toC, relGapC_toC,
    firstAlphaC_toC]

theorem lassoBody_toC (hA : ExtendsC A A') (hAt : ExtendsC At At') {tau : ℝ} (htau : 0 ≤ tau) (b : Vec m) (o : Spgl1Opts) (s : LassoState m n) :
    lassoBodyC A' At' (toC b) tau o s.toC = (lassoBody A At b tau o s).toC := by
  have h : curvyLineSearchC A' (toC b) s.toC.x s.toC.g s.toC.alphaNext (listMax s.toC.fPast) tau o.gamma s.toC.timesCalls =
    (curvyLineSearch A b s.x s.g s.alphaNext (listMax s.fPast) tau o.gamma s.timesCalls).toC := curvyLineSearch_toC hA htau _ _ _ _ _ _ _
  simp only [lassoBodyC, h]
  simp only [lassoBody, LassoState.toC, CurvyState.toC, Verif.Sls.counted, hAt _, ← toC_sub, ← toC_neg, norm_toC, relGapC_toC, nextAlphaC_toC]

theorem lassoCond_toC (b : Vec m) (o : Spgl1Opts) (s : LassoState m n) : lassoCondC (toC b) o s.toC ↔ lassoCond b o s := by
  simp only [lassoCondC, lassoCond, LassoState.toC, norm_toC]

theorem reach_map {σ τ : Type*} (e : σ → τ) {c : σ → Prop} {c' : τ → Prop} {f : σ → σ} {f' : τ → τ} (hc : ∀ s, c' (e s) ↔ c s) (hf : ∀ s, f' (e s) = e (f s))
    (s0 : σ) (t : τ) : Reach c' f' (e s0) t ↔ ∃ s, Reach c f s0 s ∧ t = e s := by
  constructor
  · intro h
    induction h with
    | init => exact ⟨s0, .init, rfl⟩
    | step _ hc' ih =>
      obtain ⟨s, hs, rfl⟩ := ih
      exact ⟨f s, .step hs ((hc s).1 hc'), hf s⟩
  · rintro ⟨s, hs, rfl⟩
    induction hs with
    | init => exact .init
    | step _ hcs ih => rw [← hf]; exact .step ih ((hc _).2 hcs)

/-- **C141** real data give the real run: `solve_lasso_from` on complex arrays with real entries passes through exactly the states of the run on real arrays, and
returns the same state. -/
theorem c141_lasso_real (hA : ExtendsC A A') (hAt : ExtendsC At At') {tau : ℝ} (htau : 0 ≤ tau) (b : Vec m) (x0 : Vec n) (o : Spgl1Opts) (t : LassoStateC m n) :
    (LassoReachC A' At' (toC b) tau (toC x0) o t ↔ ∃ s, LassoReach A At b tau x0 o s ∧ t = s.toC) ∧
    (LassoSolveFromC A' At' (toC b) tau (toC x0) o t ↔ ∃ s, LassoSolveFrom A At b tau x0 o s ∧ t = s.toC) := by
  have key : ∀ t, LassoReachC A' At' (toC b) tau (toC x0) o t ↔ ∃ s, LassoReach A At b tau x0 o s ∧ t = s.toC := by
    intro t
    unfold LassoReachC LassoReach
    rw [lassoInit_toC hA hAt htau]
    exact reach_map LassoState.toC (lassoCond_toC b o) (lassoBody_toC hA hAt htau b o) _ t
  refine ⟨key t, ?_⟩
  constructor
  · rintro ⟨h, hc⟩
    obtain ⟨s, hs, rfl⟩ := (key t).1 h
    exact ⟨s, ⟨hs, fun h' => hc ((lassoCond_toC b o s).2 h')⟩, rfl⟩
  · rintro ⟨s, ⟨hs, hc⟩, rfl⟩
    exact ⟨(key _).2 ⟨s, hs, rfl⟩, fun h' => hc ((lassoCond_toC b o s).1 h')⟩

theorem bpInit_toC (hA : ExtendsC A A') (hAt : ExtendsC At At') (b : Vec m) (sigma : ℝ) (x0 : Vec n) (o : Spgl1Opts) :
    bpInitC A' At' (toC b) sigma (toC x0) o = (bpInit A At b sigma x0 o).map BpState.toC := by
  have h1 : (0 : ℝ) ≤ l1 x0 := Finset.sum_nonneg fun i _ => abs_nonneg _
  simp only [bpInitC, bpInit, Option.map_map, l1C_toC, Verif.Sls.counted, c141_project_real h1, c141_project_real le_rfl, hA _, hAt _, ← toC_sub, ← toC_neg, objValC_toC,
    norm_toC, relGapC_toC, firstAlphaC_toC, linfC_toC]
  rfl

theorem bpBody_toC (hA : ExtendsC A A') (hAt : ExtendsC At At') (b : Vec m) (sigma : ℝ) (o : Spgl1Opts) (s : BpState m n) (htau : 0 ≤ s.tau) :
    bpBodyC A' At' (toC b) sigma o s.toC = (bpBody A At b sigma o s).map BpState.toC := by
  classical
  have h : curvyLineSearchC A' (toC b) s.toC.x s.toC.g s.toC.alphaNext (listMax s.toC.fPast) s.toC.tau o.gamma s.toC.timesCalls =
    (curvyLineSearch A b s.x s.g s.alphaNext (listMax s.fPast) s.tau o.gamma s.timesCalls).toC := curvyLineSearch_toC hA htau _ _ _ _ _ _ _
  simp only [bpBodyC, h]
  set ls := curvyLineSearch A b s.x s.g s.alphaNext (listMax s.fPast) s.tau o.gamma s.timesCalls with hls
  have e1 : ls.toC.rNew = toC ls.rNew := rfl
  have e2 : ls.toC.xNew = toC ls.xNew := rfl
  simp only [bpBody, ← hls, e1, e2, Verif.Sls.counted, hAt _, ← toC_neg, linfC_toC, norm_toC]
  have hopt : (if changeTau o ls.toC.fVal (s.toC.fPast.headD 0) ‖ls.rNew‖ sigma s.toC.tauChanged then newtonTau s.toC.tau ‖ls.rNew‖ sigma (linf (-At ls.rNew)) else some s.toC.tau) =
    (if changeTau o ls.fVal (s.fPast.headD 0) ‖ls.rNew‖ sigma s.tauChanged then newtonTau s.tau ‖ls.rNew‖ sigma (linf (-At ls.rNew)) else some s.tau) := rfl
  rw [hopt]
  cases hv : (if changeTau o ls.fVal (s.fPast.headD 0) ‖ls.rNew‖ sigma s.tauChanged then newtonTau s.tau ‖ls.rNew‖ sigma (linf (-At ls.rNew)) else some s.tau) with
  | none => simp
  | some t =>
    have ht0 : 0 ≤ t := by
      split at hv
      · exact newtonTau_nonneg hv
      · simp only [Option.some.injEq] at hv; rw [← hv]; exact htau
    simp only [Option.map_some, Option.some.injEq]
    have e3 : s.toC.tau = s.tau := rfl
    have e4 : s.toC.x = toC s.x := rfl
    have e5 : s.toC.g = toC s.g := rfl
    by_cases hred : t < s.tau
    · have hred' : t < s.toC.tau := hred
      simp only [if_pos hred, if_pos hred']
      simp only [BpState.toC, CurvyState.toC, c141_project_real ht0, hA _, hAt _, ← toC_sub, ← toC_neg, objValC_toC, relGapC_toC, nextAlphaC_toC]
      rfl
    · have hred' : ¬ t < s.toC.tau := hred
      simp only [if_neg hred, if_neg hred']
      simp only [BpState.toC, CurvyState.toC, ← toC_sub, relGapC_toC, nextAlphaC_toC]
      rfl

theorem bpCond_toC (b : Vec m) (sigma : ℝ) (o : Spgl1Opts) (s : BpState m n) : bpCondC (toC b) sigma o s.toC ↔ bpCond b sigma o s := by
  simp only [bpCondC, bpCond, BpState.toC, norm_toC]

/-- **C141** real data give the real run of `solve_bpic_from` (so of `solve_bpic` and `solve_bp`). -/
theorem c141_bp_real (hA : ExtendsC A A') (hAt : ExtendsC At At') (b : Vec m) (sigma : ℝ) (x0 : Vec n) (o : Spgl1Opts) (hm : 0 < o.memory) (t : BpStateC m n) :
    BpReachC A' At' (toC b) sigma (toC x0) o t ↔ ∃ s, BpReach A At b sigma x0 o s ∧ t = s.toC := by
  constructor
  · intro h
    induction h with
    | init h =>
      rw [bpInit_toC hA hAt, Option.map_eq_some_iff] at h
      obtain ⟨s, hs, rfl⟩ := h
      exact ⟨s, .init hs, rfl⟩
    | step _ hc hb ih =>
      obtain ⟨s, hs, rfl⟩ := ih
      rw [bpBody_toC hA hAt b sigma o s (bp_inv hm hs).tau0, Option.map_eq_some_iff] at hb
      obtain ⟨s', hs', rfl⟩ := hb
      exact ⟨s', .step hs ((bpCond_toC b sigma o s).1 hc) hs', rfl⟩
  · rintro ⟨s, hs, rfl⟩
    induction hs with
    | init h => exact .init (by rw [bpInit_toC hA hAt, h]; rfl)
    | step hr hc hb ih => exact .step ih ((bpCond_toC b sigma o _).2 hc) (by rw [bpBody_toC hA hAt b sigma o _ (bp_inv hm hr).tau0, hb]; rfl)

/-! ## Concrete cases -/

/-- Multiplication with 4 of a complex entry. -/
def fourC : CVec 1 →ₗ[ℂ] CVec 1 := (4 : ℂ) • LinearMap.id

theorem fourC_extends : ExtendsC (four : Vec 1 → Vec 1) (fourC : CVec 1 → CVec 1) := by
  intro x; ext i; simp [fourC, toC_apply, four]

/-- A complex run with a backtracking line search: the problem `4 x = 1`, `tau = 10`. -/
example : ∃ t : LassoStateC 1 1, LassoReachC fourC fourC (toC (v1 1)) 10 (toC 0) spgl1Default t ∧ 1 ≤ t.nLsIters := by
  obtain ⟨h0, s, h1, h2⟩ := c61_counters_fails
  have := c61_counters_partial four four (v1 1) 10 (by norm_num) 0 spgl1Default (by simp [spgl1Default]) s h1
  refine ⟨s.toC, (c141_lasso_real fourC_extends fourC_extends (by norm_num) _ _ _ _).1.2 ⟨s, h1, rfl⟩, ?_⟩
  show 1 ≤ s.nLsIters
  omega

example := c141_project_real (q := 5) (by norm_num) (vec ![3, -4] : Vec 2)

/-- The identity on a complex entry. -/
def oneC : CVec 1 →ₗ[ℂ] CVec 1 := LinearMap.id

theorem oneC_extends : ExtendsC (one1 : Vec 1 → Vec 1) (oneC : CVec 1 → CVec 1) := fun x => by rw [one1_apply]; rfl

/-- A complex basis pursuit run with a second state, at which the reported residual norm is not that of `x` (the case excluded in `c141_bp_certified`). -/
example : ∃ t : BpStateC 1 1, BpReachC oneC oneC (toC (v1 2)) 13 (toC (v1 (-10))) slowOpts t ∧ t.rNorm ≠ ‖toC (v1 2) - oneC t.x‖ := by
  obtain ⟨_, s, h, hne⟩ := c62_r_norm_fails
  refine ⟨s.toC, (c141_bp_real oneC_extends oneC_extends _ _ _ _ (by norm_num [slowOpts, spgl1Default]) _).2 ⟨s, h, rfl⟩, ?_⟩
  have e : oneC s.toC.x = toC (one1 s.x) := oneC_extends s.x
  rw [e, ← toC_sub, norm_toC]
  exact hne

end Verif.Cvx
