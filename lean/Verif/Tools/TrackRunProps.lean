import Verif.Tools.TrackRunModel
import Verif.Tools.TrackerProps
import Verif.Pursuit.GreedyLemmas
import Mathlib.Analysis.InnerProductSpace.PiL2

set_option autoImplicit false
/-!
# What a progress tracker records of a solver run (C127)
-/
noncomputable section
namespace Verif.Tools
open Verif.Loop Verif.Pursuit Verif.Cvx

section generic
variable {σ : Type*} {c : σ → Prop} {f : σ → σ}

/-- **C127** a watched run reports every state of the loop exactly once and in order, from the initial state to the returned one, with `more=True` for all but the
last; and every loop that returns has such a run. -/
theorem c127_every_state (s0 t : σ) : Out c f s0 t ↔ ∃ N : ℕ, t = f^[N] s0 ∧ Watched c f s0 ((List.range N).map (fun k => (f^[k] s0, true)) ++ [(f^[N] s0, false)]) t := by
  constructor
  · rintro ⟨hr, hc⟩
    obtain ⟨N, rfl, hN⟩ := hr.iterate
    refine ⟨N, rfl, ?_⟩
    clear hr
    induction N generalizing s0 with
    | zero => exact .done hc
    | succ N ih =>
      rw [List.range_succ_eq_map, List.map_cons, List.map_map, List.cons_append]
      refine .step (hN 0 (Nat.succ_pos N)) ?_
      exact ih (f s0) (fun j hj => by rw [← Function.iterate_succ_apply]; exact hN (j + 1) (by omega)) hc
  · rintro ⟨N, -, hw⟩
    generalize (List.range N).map (fun k => (f^[k] s0, true)) ++ [(f^[N] s0, false)] = l at hw
    induction hw with
    | done h => exact ⟨.init, h⟩
    | step h _ ih => exact ⟨(Reach.step .init h).trans ih.1, ih.2⟩

/-- The reports of a watched run are determined. -/
theorem watched_reports {s0 t : σ} {l : List (σ × Bool)} (h : Watched c f s0 l t) :
    ∃ N : ℕ, t = f^[N] s0 ∧ l = (List.range N).map (fun k => (f^[k] s0, true)) ++ [(f^[N] s0, false)] ∧ Out c f s0 t := by
  induction h with
  | done h => exact ⟨0, rfl, rfl, .init, h⟩
  | @step s t l h _ ih =>
    obtain ⟨N, h1, h2, h3⟩ := ih
    refine ⟨N + 1, h1, ?_, (Reach.step .init h).trans h3.1, h3.2⟩
    rw [h2, List.range_succ_eq_map, List.map_cons, List.map_map, List.cons_append]
    rfl

variable {𝕜 E : Type*} [RCLike 𝕜] [NormedAddCommGroup E]

theorem mapM_some {α β : Type*} (g : α → Option β) (h : α → β) (l : List α) (hg : ∀ a ∈ l, g a = some (h a)) : l.mapM g = some (l.map h) := by
  induction l with
  | nil => rfl
  | cons a l ih =>
    rw [List.mapM_cons, hg a (by simp), ih fun b hb => hg b (by simp [hb])]; rfl

/-- **C127** the tracker's history of a watched run: one residual norm, one signal norm, one iteration number per state of the loop, in order, the last ones being those
of the returned state; one SNR per state if a reference was given; the message that the algorithm converged is printed exactly once; a progress line is printed for the states
whose iteration number is a multiple of `every` and for the returned state. -/
theorem c127_history (view : σ → StateView 𝕜 E) (rn : σ → ℝ) (hrn : ∀ s, getRNorm (view s) = some (rn s)) (x0 : Option (List 𝕜)) (every : ℕ) (s0 t : σ)
    (l : List (σ × Bool)) (h : Watched c f s0 l t) :
    ∃ (N : ℕ) (T : Tracker ℝ), t = f^[N] s0 ∧ Out c f s0 t ∧ runTracker x0 every (l.map fun p => (view p.1, p.2)) = some T ∧
      T.rNorms = (List.range (N + 1)).map (fun k => rn (f^[k] s0)) ∧ T.xNorms = (List.range (N + 1)).map (fun k => getXNorm (view (f^[k] s0))) ∧
      T.iterations = (List.range (N + 1)).map (fun k => (view (f^[k] s0)).iterations) ∧
      T.snrs = (match x0 with
        | none => []
        | some x0 => (List.range (N + 1)).map (fun k => signalNoiseRatio x0 (getXLike (view (f^[k] s0)) x0))) ∧
      T.converged = 1 ∧
      T.printed = ((List.range N).map (fun k => (view (f^[k] s0)).iterations)).filter (fun i => decide (i % every = 0)) ++ [(view t).iterations] := by
  obtain ⟨N, h1, rfl, h3⟩ := watched_reports h
  set call : StateView 𝕜 E × Bool → Call ℝ := fun p =>
    { iterations := p.1.iterations, xNorm := getXNorm p.1, rNorm := (getRNorm p.1).getD 0, snr := signalNoiseRatio (x0.getD []) (getXLike p.1 (x0.getD [])), more := p.2 } with hcall
  set L := ((List.range N).map (fun k => (f^[k] s0, true)) ++ [(f^[N] s0, false)]).map (fun p => (view p.1, p.2)) with hLdef
  have hL : L = (List.range N).map (fun k => (view (f^[k] s0), true)) ++ [(view (f^[N] s0), false)] := by
    simp [hLdef]
  have hm : L.mapM (fun p => callOf x0 p.1 p.2) = some (L.map call) := by
    refine mapM_some _ _ _ fun p hp => ?_
    have : ∃ s, p.1 = view s := by
      rw [hL, List.mem_append, List.mem_map] at hp
      rcases hp with ⟨k, _, rfl⟩ | hp
      · exact ⟨_, rfl⟩
      · rw [List.mem_singleton] at hp; exact ⟨_, by rw [hp]⟩
    obtain ⟨s, hs⟩ := this
    simp only [callOf, hcall, hs, hrn, Option.map_some, Option.getD_some]
  obtain ⟨q1, q2, q3, q4, q5, q6⟩ := c75_history (V := ℝ) x0.isSome every (L.map call)
  refine ⟨N, _, h1, h3, by rw [runTracker, hm]; rfl, ?_, ?_, ?_, ?_, ?_, ?_⟩
  · rw [q1, hL, List.range_succ]; simp [hcall, hrn]
  · rw [q2, hL, List.range_succ]; simp [hcall]
  · rw [q3, hL, List.range_succ]; simp [hcall]
  · rw [q4, hL, List.range_succ]
    cases x0 <;> simp [hcall]
  · rw [q6, hL]
    simp [hcall, List.countP_map, List.countP_eq_zero]
  · rw [q5, hL, h1]
    simp only [List.map_append, List.map_map, List.filter_append, List.map_cons, List.map_nil]
    congr 1
    · rw [List.filter_map, List.filter_map, List.map_map]
      congr 1
      refine List.filter_congr fun k _ => ?_
      simp [hcall]
    · simp [hcall]

end generic

section views
variable {𝕜 E : Type*} [RCLike 𝕜] [NormedAddCommGroup E]

theorem energy_nonneg (v : List 𝕜) : 0 ≤ energy v := List.sum_nonneg (by simp only [List.mem_map]; rintro _ ⟨c, _, rfl⟩; positivity)

theorem sum_range_map (n : ℕ) (g : ℕ → ℝ) : ((List.range n).map g).sum = ∑ i ∈ Finset.range n, g i := by
  induction n with
  | zero => rfl
  | succ n ih => rw [List.range_succ, Finset.sum_range_succ, ← ih]; simp

theorem energy_buildSparse (n : ℕ) : ∀ (I : List ℕ) (v : List 𝕜), I.Nodup → (∀ i ∈ I, i < n) → v.length = I.length → energy (buildSparse n I v) = energy v
  | [], v, _, _, hl => by
    have : v = [] := List.eq_nil_of_length_eq_zero (by simpa using hl)
    subst this
    simp [energy, buildSparse, buildSignal]
  | i :: I, [], _, _, hl => by simp at hl
  | i :: I, a :: v, hn, hr, hl => by
    have ih := energy_buildSparse n I v (List.nodup_cons.mp hn).2 (fun j hj => hr j (by simp [hj])) (by simpa using hl)
    simp only [energy, buildSparse, List.map_map, List.map_cons, List.sum_cons] at ih ⊢
    rw [← ih]
    have hi : i ∉ I := (List.nodup_cons.mp hn).1
    rw [show ((fun c : 𝕜 => ‖c‖ ^ 2) ∘ buildSignal (i :: I) (a :: v)) = fun j => ‖buildSignal (i :: I) (a :: v) j‖ ^ 2 from rfl,
      show ((fun c : 𝕜 => ‖c‖ ^ 2) ∘ buildSignal I v) = fun j => ‖buildSignal I v j‖ ^ 2 from rfl, sum_range_map, sum_range_map]
    have hin : i ∈ Finset.range n := Finset.mem_range.mpr (hr i (by simp))
    rw [← Finset.add_sum_erase _ _ hin, ← Finset.add_sum_erase _ (fun j => ‖buildSignal I v j‖ ^ 2) hin]
    have e1 : buildSignal (i :: I) (a :: v) i = a := by
      simp only [buildSignal]
      simp only [true_and]
      rw [if_pos fun h => hi (List.mem_of_mem_take h)]
    have e2 : buildSignal I v i = 0 := buildSignal_not_mem I v i hi
    rw [e1, e2]
    simp only [norm_zero, ne_eq, OfNat.ofNat_ne_zero, not_false_eq_true, zero_pow, zero_add]
    congr 1
    refine Finset.sum_congr rfl fun j hj => ?_
    have : i ≠ j := fun h => (Finset.mem_erase.mp hj).1 h.symm
    simp only [buildSignal, this, false_and, if_false]

/-- **C127** for a state that stores a support and coefficients, with distinct in-range positions, the recorded signal norm is the norm of the full-length signal used
for the SNR. -/
theorem c127_signal_norm (s : StateView 𝕜 E) (x0 : List 𝕜) (I : List ℕ) (v : List 𝕜) (hx : s.x = none) (hs : s.xI = some (I, v)) (hI : I.Nodup)
    (hr : ∀ i ∈ I, i < x0.length) (hl : v.length = I.length) : getXNorm s = norm2 (getXLike s x0) ∧ (getXLike s x0).length = x0.length := by
  simp only [getXNorm, getXLike, hs, hx, norm2, energy_buildSparse _ I v hI hr hl]
  simp [buildSparse]

/-- **C127** the same for the state of matching pursuit: the nonzero values have the norm of the whole vector. -/
theorem c127_mp_norm (n : ℕ) (s : MpState E) (x0 : List ℝ) : getXNorm (mpView n s) = norm2 ((List.range n).map s.x) ∧ getXLike (mpView n s) x0 = (List.range n).map s.x := by
  refine ⟨?_, rfl⟩
  simp only [getXNorm, mpView, norm2, energy]
  congr 1
  generalize List.range n = l
  induction l with
  | nil => rfl
  | cons a l ih =>
    by_cases h : s.x a = 0
    · simp only [List.filter_cons, h, ne_eq, not_true_eq_false, decide_false, Bool.false_eq_true, if_false, List.map_cons, List.sum_cons, norm_zero] at ih ⊢
      rw [ih]; ring
    · simp only [List.filter_cons, h, ne_eq, not_false_eq_true, decide_true, if_true, List.map_cons, List.sum_cons] at ih ⊢
      rw [ih]

/-- **C127** the recorded SNR: `20 log10` of the ratio of the norms of the reference and of the error, if neither vanishes, and a smaller error has a larger SNR. -/
theorem c127_snr_partial (ref u v : List 𝕜) (hr : energy ref ≠ 0) (hu : energy (ref.zipWith (fun a b => a - b) u) ≠ 0) :
    signalNoiseRatio ref u = 20 * Real.logb 10 (norm2 ref / norm2 (ref.zipWith (fun a b => a - b) u)) ∧
    (energy (ref.zipWith (fun a b => a - b) v) ≠ 0 → norm2 (ref.zipWith (fun a b => a - b) u) < norm2 (ref.zipWith (fun a b => a - b) v) →
      signalNoiseRatio ref v < signalNoiseRatio ref u) := by
  have pr : 0 < energy ref := lt_of_le_of_ne (energy_nonneg _) (Ne.symm hr)
  have pu : 0 < energy (ref.zipWith (fun a b => a - b) u) := lt_of_le_of_ne (energy_nonneg _) (Ne.symm hu)
  refine ⟨?_, fun hv hlt => ?_⟩
  · simp only [signalNoiseRatio, if_neg hr, if_neg hu, norm2]
    rw [← Real.sqrt_div pr.le, Real.logb, Real.logb, Real.log_sqrt (by positivity)]
    ring
  · have pv : 0 < energy (ref.zipWith (fun a b => a - b) v) := lt_of_le_of_ne (energy_nonneg _) (Ne.symm hv)
    simp only [signalNoiseRatio, if_neg hr, if_neg hu, if_neg hv]
    have h1 : energy (ref.zipWith (fun a b => a - b) u) < energy (ref.zipWith (fun a b => a - b) v) := (Real.sqrt_lt_sqrt_iff pu.le).1 hlt
    refine mul_lt_mul_of_pos_left ?_ (by norm_num)
    exact Real.logb_lt_logb (by norm_num) (by positivity) (div_lt_div_of_pos_left pr pu h1)

/-- **C127** (failure) exact recovery does not have the largest SNR: a zero error counts as an error of energy `2^-52`, so a tiny nonzero error is rated higher. -/
theorem c127_snr_fails : signalNoiseRatio [(1 : ℝ)] [1] < signalNoiseRatio [(1 : ℝ)] [1 - 2 ^ (-27 : ℤ)] := by
  have e1 : energy [(1 : ℝ)] = 1 := by simp [energy]
  have e2 : energy (List.zipWith (fun a b => a - b) [(1 : ℝ)] [1]) = 0 := by simp [energy]
  have e3 : energy (List.zipWith (fun a b => a - b) [(1 : ℝ)] [1 - 2 ^ (-27 : ℤ)]) = 2 ^ (-54 : ℤ) := by
    simp only [energy, List.zipWith_cons_cons, List.zipWith_nil_left, List.map_cons, List.map_nil, List.sum_cons, List.sum_nil, Real.norm_eq_abs]
    norm_num
  have h1 : (1 : ℝ) ≠ 0 := one_ne_zero
  have h2 : (2 : ℝ) ^ (-54 : ℤ) ≠ 0 := by positivity
  simp only [signalNoiseRatio, e1, e2, e3, if_neg h1, if_neg h2, if_true]
  refine mul_lt_mul_of_pos_left ?_ (by norm_num)
  exact Real.logb_lt_logb (by norm_num) (by positivity) (by norm_num)

end views

/-- **C127** SPGL1 for the LASSO: after the run the tracker holds the residual norms, signal norms and iteration numbers `1, 2, …` of all states, the last residual norm is the
field `r_norm` of the returned state, and convergence is announced once. -/
theorem c127_spgl1_lasso {m n : ℕ} (A : Opt.Vec n → Opt.Vec m) (At : Opt.Vec m → Opt.Vec n) (b : Opt.Vec m) (tau : ℝ) (x0 : Opt.Vec n) (o : Spgl1Opts)
    (ref : Option (List ℝ)) (every : ℕ) (l : List (LassoState m n × Bool)) (t : LassoState m n)
    (h : Watched (lassoCond b o) (lassoBody A At b tau o) (lassoInit A At b tau x0 o) l t) :
    ∃ T : Tracker ℝ, LassoSolveFrom A At b tau x0 o t ∧ runTracker ref every (l.map fun p => (lassoView p.1, p.2)) = some T ∧
      T.iterations = (List.range t.iterations).map (· + 1) ∧ T.rNorms.length = t.iterations ∧ T.rNorms.getLast? = some t.rNorm ∧
      T.xNorms.getLast? = some ‖t.x‖ ∧ T.converged = 1 := by
  obtain ⟨N, T, h1, h2, h3, h4, h5, h6, -, h8, -⟩ := c127_history lassoView (fun s => ‖s.r‖) (fun s => rfl) ref every _ t l h
  have hit : ∀ k, ((lassoBody A At b tau o)^[k] (lassoInit A At b tau x0 o)).iterations = k + 1 := by
    intro k
    induction k with
    | zero => rfl
    | succ k ih => rw [Function.iterate_succ_apply']; simp only [lassoBody, ih]
  have hrn : ∀ k, ((lassoBody A At b tau o)^[k] (lassoInit A At b tau x0 o)).rNorm = ‖((lassoBody A At b tau o)^[k] (lassoInit A At b tau x0 o)).r‖ := by
    intro k
    cases k with
    | zero => rfl
    | succ k => rw [Function.iterate_succ_apply']; rfl
  have hx : ∀ s : LassoState m n, getXNorm (lassoView s) = ‖s.x‖ := by
    intro s
    simp only [getXNorm, lassoView, norm2, energy]
    rw [EuclideanSpace.norm_eq, List.map_ofFn, List.sum_ofFn]
    rfl
  refine ⟨T, h2, h3, ?_, ?_, ?_, ?_, h8⟩
  · rw [h6, h1, hit]
    refine List.map_congr_left fun k _ => ?_
    exact hit k
  · rw [h4, h1, hit]; simp
  · rw [h4, h1, hrn, List.range_succ]; simp
  · rw [h5, h1, List.range_succ]; simp [hx]

section greedy
variable {𝕜 E : Type*} [RCLike 𝕜] [NormedAddCommGroup E] [InnerProductSpace 𝕜 E]

theorem norm2_smul (a : ℝ) (ha : 0 ≤ a) (v : List 𝕜) : norm2 (v.map fun c => (a : 𝕜) * c) = a * norm2 v := by
  simp only [norm2, energy, List.map_map]
  have : (fun c : 𝕜 => ‖c‖ ^ 2) ∘ (fun c => (a : 𝕜) * c) = fun c => a ^ 2 * ‖c‖ ^ 2 := by
    funext c
    simp [mul_pow, abs_of_nonneg ha]
  rw [this, List.sum_map_mul_left, Real.sqrt_mul (by positivity), Real.sqrt_sq ha]

/-- **C127** the operator versions of subspace pursuit and CoSaMP (any loop over their states whose result is scaled back): the tracker sees the problem scaled to `‖y‖ = 1`, so
the last recorded norms are those of the returned signal and residual divided by `‖y‖`. -/
theorem c127_scaled_partial (cnd : GState 𝕜 E → Prop) (body : GState 𝕜 E → GState 𝕜 E) (s0 t : GState 𝕜 E) (y : E) (ref : Option (List 𝕜)) (every : ℕ)
    (l : List (GState 𝕜 E × Bool)) (h : Watched cnd body s0 l t) :
    ∃ T : Tracker ℝ, runTracker ref every (l.map fun p => (greedyView p.1, p.2)) = some T ∧ T.converged = 1 ∧
      (∃ a, T.xNorms.getLast? = some a ∧ norm2 (rescale ‖y‖ t).x = ‖y‖ * a) ∧
      ∃ a, T.rNorms.getLast? = some a ∧ Real.sqrt (rescale ‖y‖ t).rr = ‖y‖ * a := by
  obtain ⟨N, T, h1, h2, h3, h4, h5, h6, -, h8, -⟩ := c127_history greedyView (fun s => Real.sqrt s.rr) (fun s => rfl) ref every _ t l h
  refine ⟨T, h3, h8, ⟨norm2 t.x, ?_, norm2_smul _ (norm_nonneg _) _⟩, Real.sqrt t.rr, ?_, ?_⟩
  · rw [h5, h1, List.range_succ]; simp [getXNorm, greedyView]
  · rw [h4, h1, List.range_succ]; simp
  · simp only [rescale]
    rw [mul_comm, Real.sqrt_mul (by positivity), Real.sqrt_sq (norm_nonneg _)]

end greedy

/-- **C127** (failure) subspace pursuit with operators, one atom `1`, measurement `2` and reference `[2]`: the signal is recovered exactly, but the tracker records
the norm 1 for it, and an SNR of `10 log10 4` (6 dB). -/
theorem c127_scaled_fails : ∃ (lstsq : List ℕ → ℝ → List ℝ) (t : GState ℝ ℝ) (l : List (GState ℝ ℝ × Bool)) (T : Tracker ℝ),
    (∀ I y, I = [0] → IsLstsq (𝕜 := ℝ) (fun _ : ℕ => (1 : ℝ)) I y (lstsq I y)) ∧
    Watched (supportCond ((1e-3 : ℝ) ^ 2) 10 1) (spBody (fun _ => (1 : ℝ)) 1 lstsq (((1 / ‖(2 : ℝ)‖ : ℝ) : ℝ) • 2) 1)
      (spInit (fun _ => (1 : ℝ)) 1 lstsq (((1 / ‖(2 : ℝ)‖ : ℝ) : ℝ) • 2) 1) l t ∧
    SpOperatorSolve (fun _ => (1 : ℝ)) 1 lstsq 2 1 10 1e-3 (rescale ‖(2 : ℝ)‖ t) ∧ (rescale ‖(2 : ℝ)‖ t).I = [0] ∧ (rescale ‖(2 : ℝ)‖ t).x = [2] ∧
    runTracker (some [2]) 1 (l.map fun p => (greedyView p.1, p.2)) = some T ∧ T.xNorms = [1] ∧ T.snrs = [10 * Real.logb 10 4] := by
  have hy : (((1 / ‖(2 : ℝ)‖ : ℝ) : ℝ) • (2 : ℝ)) = 1 := by norm_num
  have hy' : ((((1 / ‖(2 : ℝ)‖ : ℝ) : ℝ) : ℝ) • (2 : ℝ)) = 1 := hy
  set ls : List ℕ → ℝ → List ℝ := fun _ y => [y] with hls
  have hI : largestIndices (corr ℝ (fun _ : ℕ => (1 : ℝ)) 1 (1 : ℝ)) 1 = [0] := by
    simp [largestIndices, corr, argsort]
  have hs0 : spInit (fun _ : ℕ => (1 : ℝ)) 1 ls (1 : ℝ) 1 = { x := [1], I := [0], r := 0, rr := 0, iters := 1, Iprev := [0] } := by
    simp only [spInit, hI, mkState, hls, lin]
    norm_num [List.range_succ]
  have hnc : ¬ supportCond ((1e-3 : ℝ) ^ 2) 10 1 (spInit (fun _ : ℕ => (1 : ℝ)) 1 ls (1 : ℝ) 1) := by
    rw [hs0]
    simp only [supportCond, not_and_or]
    left; left; norm_num
  have hw : Watched (supportCond ((1e-3 : ℝ) ^ 2) 10 1) (spBody (fun _ => (1 : ℝ)) 1 ls (1 : ℝ) 1) (spInit (fun _ => (1 : ℝ)) 1 ls (1 : ℝ) 1)
      [(spInit (fun _ => (1 : ℝ)) 1 ls (1 : ℝ) 1, false)] (spInit (fun _ => (1 : ℝ)) 1 ls (1 : ℝ) 1) := .done hnc
  refine ⟨ls, spInit (fun _ => (1 : ℝ)) 1 ls 1 1, [(spInit (fun _ => (1 : ℝ)) 1 ls 1 1, false)], _, ?_, by rw [hy]; exact hw, ?_, by rw [hs0]; rfl,
    by rw [hs0]; norm_num [rescale], rfl, ?_, ?_⟩
  · rintro I y rfl
    refine ⟨rfl, fun i _ => by simp [hls, lin], fun z hz hn => ?_⟩
    obtain ⟨a, rfl⟩ := List.length_eq_one_iff.mp hz
    have := hn 0 (by simp)
    simp only [lin, smul_eq_mul, mul_one, add_zero, RCLike.inner_apply, conj_trivial] at this
    have : y = a := by linarith
    simp [hls, this]
  · exact ⟨_, ⟨by have e := hy'; change ((RCLike.ofReal (1 / ‖(2 : ℝ)‖) : ℝ) • (2 : ℝ)) = 1 at e; rw [e]; exact .init, by exact hnc⟩, rfl⟩
  · rw [hs0]
    simp [track, newTracker, greedyView, getXNorm, norm2, energy]
  · rw [hs0]
    simp only [List.map_cons, List.map_nil, List.foldl_cons, List.foldl_nil, track, newTracker, Option.isSome_some, if_true, List.nil_append, Option.getD_some]
    congr 1
    have e1 : getXLike (greedyView (𝕜 := ℝ) (E := ℝ) { x := [1], I := [0], r := 0, rr := 0, iters := 1, Iprev := [0] }) [2] = [1] := by
      simp [getXLike, greedyView, buildSparse, buildSignal, List.range_succ]
    rw [e1]
    have e2 : energy [(2 : ℝ)] = 4 := by norm_num [energy]
    have e3 : energy (List.zipWith (fun a b => a - b) [(2 : ℝ)] [1]) = 1 := by norm_num [energy]
    have e4 : signalNoiseRatio [(2 : ℝ)] [1] = 10 * Real.logb 10 4 := by
      simp only [signalNoiseRatio, e2, e3]
      norm_num
    rw [e4]; rfl

/-- **C127** (failure) matching pursuit: the recorded residual norm of every state is `‖y‖`, whatever the residual is, convergence is announced for every state and
not only for the last one, and a progress line is printed for every state whatever `every` is. -/
theorem c127_mp_fails {E : Type*} [NormedAddCommGroup E] [InnerProductSpace ℝ E] (phi : ℕ → E) (n : ℕ) (y : E) (rtol : ℝ) (maxIters : ℕ) (ref : Option (List ℝ)) (every : ℕ)
    (l : List (MpState E × Bool)) (t : MpState E) (h : Watched (mpCond y rtol maxIters) (mpStep phi n y) (mpInit y) l t) :
    ∃ T : Tracker ℝ, runTracker ref every ((mpReports l).map fun p => (mpView n p.1, p.2)) = some T ∧ T.rNorms = List.replicate (t.iters + 1) ‖y‖ ∧
      T.converged = t.iters + 1 ∧ T.printed = List.range (t.iters + 1) := by
  obtain ⟨N, h1, rfl, h3⟩ := watched_reports h
  have hit : ∀ k, ((mpStep phi n y)^[k] (mpInit y)).iters = k := by
    intro k
    induction k with
    | zero => rfl
    | succ k ih => rw [Function.iterate_succ_apply']; simp only [mpStep, ih]
  have hrr : ∀ k, ((mpStep phi n y)^[k] (mpInit y)).rr = ‖y‖ ^ 2 := by
    intro k
    cases k with
    | zero => rfl
    | succ k => rw [Function.iterate_succ_apply']; rfl
  set call : ℕ → Call ℝ := fun k =>
    { iterations := k, xNorm := getXNorm (mpView n ((mpStep phi n y)^[k] (mpInit y))), rNorm := ‖y‖,
      snr := signalNoiseRatio (ref.getD []) (getXLike (mpView n ((mpStep phi n y)^[k] (mpInit y))) (ref.getD [])), more := false } with hcall
  have hL : (mpReports ((List.range N).map (fun k => ((mpStep phi n y)^[k] (mpInit y), true)) ++ [((mpStep phi n y)^[N] (mpInit y), false)])).map
      (fun p => (mpView n p.1, p.2)) = (List.range (N + 1)).map fun k => (mpView n ((mpStep phi n y)^[k] (mpInit y)), false) := by
    rw [List.range_succ]; simp [mpReports]
  have hm : ((List.range (N + 1)).map fun k => (mpView n ((mpStep phi n y)^[k] (mpInit y)), false)).mapM (fun p => callOf ref p.1 p.2) =
      some ((List.range (N + 1)).map call) := by
    rw [List.mapM_map]
    refine mapM_some _ _ _ fun k _ => ?_
    simp only [Function.comp, callOf, getRNorm, mpView, hrr, hit, hcall, Option.map_some, Real.sqrt_sq (norm_nonneg y)]
  obtain ⟨q1, q2, q3, q4, q5, q6⟩ := c75_history (V := ℝ) ref.isSome every ((List.range (N + 1)).map call)
  refine ⟨_, by rw [hL, runTracker, hm]; rfl, ?_, ?_, ?_⟩
  · rw [q1, h1, hit, List.eq_replicate_iff]; simp [hcall]
  · rw [q6, h1, hit, List.countP_map]
    rw [List.countP_eq_length.mpr] <;> simp [hcall]
  · rw [q5, h1, hit]
    rw [List.filter_eq_self.mpr, List.map_map]
    · exact List.map_id' _
    · intro a ha
      obtain ⟨k, _, rfl⟩ := List.mem_map.mp ha
      simp [hcall]

/-- Beside the theorems: a watched run with two reports. -/
example : Watched (fun k : ℕ => k < 2) (· + 1) 0 [(0, true), (1, true), (2, false)] 2 := .step (by norm_num) (.step (by norm_num) (.done (by norm_num)))

/-- Beside `c127_mp_fails`: a run of matching pursuit with a nonzero measurement has at least two reports, and its residual does vanish while the recorded norms stay 1. -/
example : ∃ t l, Watched (mpCond (1 : ℝ) 0 1) (mpStep (fun _ => (1 : ℝ)) 1 1) (mpInit (1 : ℝ)) l t ∧ t.r = 0 ∧ t.iters = 1 := by
  refine ⟨_, _, .step ⟨by norm_num [mpInit], by norm_num [mpInit]⟩ (.done fun h => ?_), ?_, rfl⟩
  · exact absurd h.2 (by norm_num [mpStep, mpInit])
  · simp [mpStep, mpInit, corr, argmax, argmaxFrom]

/-! Instances. -/

/-- Every run that ends can be watched. -/
theorem exists_watched {σ : Type*} {c : σ → Prop} {f : σ → σ} {s0 t : σ} (h : Out c f s0 t) : ∃ l, Watched c f s0 l t := by
  obtain ⟨hr, hn⟩ := h
  suffices ∀ s, Reach c f s0 s → ∀ l t, Watched c f s l t → ∃ l, Watched c f s0 l t from this t hr _ t (.done hn)
  intro s hr
  induction hr with
  | init => exact fun l t h => ⟨l, h⟩
  | step _ hc ih => exact fun l t h => ih _ t (.step hc h)

/-- The counter of the first example with the reconstruction `[3 - k]` and the residual norm `2 - k`. -/
example := c127_history (c := fun k : ℕ => k < 2) (f := (· + 1)) (fun k : ℕ => (⟨k, some [(3 : ℝ) - k], none, none, some (2 - (k : ℝ))⟩ : StateView ℝ ℝ)) (fun k => ‖2 - (k : ℝ)‖)
  (fun _ => rfl) (some [2]) 1 0 2 _ (.step (by norm_num) (.step (by norm_num) (.done (by norm_num))))

example := c127_signal_norm (𝕜 := ℝ) (E := ℝ) ⟨4, none, some ([2, 0], [3, -1]), none, none⟩ [1, 2, 3] [2, 0] [3, -1] rfl rfl (by simp) (by simp) rfl

example := (c127_snr_partial [(3 : ℝ), 4] [3, 3] [3, 2] (by norm_num [energy]) (by norm_num [energy])).2 (by norm_num [energy])
  (Real.sqrt_lt_sqrt (by norm_num [energy]) (by norm_num [energy]))

example {m n : ℕ} (A : Opt.Vec n → Opt.Vec m) (At : Opt.Vec m → Opt.Vec n) (b : Opt.Vec m) (tau : ℝ) (x0 : Opt.Vec n) (o : Spgl1Opts) :=
  c127_spgl1_lasso A At b tau x0 { o with maxIters := 1 } none 1 _ _ (.done fun h => absurd h.1 (by simp [lassoInit]))

/-- With any budget the loop of `spgl1` for the LASSO has a watched run. -/
example {m n : ℕ} (A : Opt.Vec n → Opt.Vec m) (At : Opt.Vec m → Opt.Vec n) (b : Opt.Vec m) (tau : ℝ) (x0 : Opt.Vec n) (o : Spgl1Opts) :
    ∃ l t, Watched (lassoCond b o) (lassoBody A At b tau o) (lassoInit A At b tau x0 o) l t := by
  obtain ⟨t, ht⟩ := exists_out (c := lassoCond b o) (f := lassoBody A At b tau o) (s0 := lassoInit A At b tau x0 o) (fun s => s.iterations) o.maxIters (fun s h => h.1)
    (fun s => Nat.lt_succ_self _)
  exact ⟨_, t, (exists_watched ht).choose_spec⟩

/-- The operator version of subspace pursuit, limited to `N` iterations. -/
example (phi : ℕ → ℂ) (n : ℕ) (lstsq : List ℕ → ℂ → List ℝ) (y : ℂ) (K N : ℕ) (tol : ℝ) : ∃ t : GState ℝ ℂ, ∃ T : Tracker ℝ,
    T.converged = 1 ∧ ∃ a, T.xNorms.getLast? = some a ∧ norm2 (rescale ‖y‖ t).x = ‖y‖ * a := by
  obtain ⟨t, ht⟩ := exists_out (c := plainCond (𝕜 := ℝ) (E := ℂ) tol N) (f := spBody phi n lstsq y K) (s0 := spInit phi n lstsq y K) (fun s => s.iters) N (fun s h => h.2)
    (fun s => Nat.lt_succ_self _)
  obtain ⟨l, hl⟩ := exists_watched ht
  obtain ⟨T, -, h1, h2, -⟩ := c127_scaled_partial _ _ _ _ y none 1 l hl
  exact ⟨t, T, h1, h2⟩

example (ref : Option (List ℝ)) := c127_mp_fails (fun _ => (1 : ℝ)) 1 1 0 1 ref 1 _ _ (.step ⟨by norm_num [mpInit], by norm_num [mpInit]⟩ (.done fun h => absurd h.2 (by norm_num [mpStep, mpInit])))

end Verif.Tools
