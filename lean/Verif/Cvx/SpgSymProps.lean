import Verif.LoopMap
import Verif.Cvx.UnitsProps
import Verif.Cvx.BpModel
import Verif.Cvx.L1lsModel

set_option autoImplicit false
/-! # C162: coordinates of the measurements, signs and order of the unknowns in SPGL1 and l1ls -/
noncomputable section
namespace Verif.Cvx
open Verif.Loop Verif.Opt
open Verif.Sls (counted)
open scoped RealInnerProductSpace

variable {m n : ℕ}

/-! ## Signed permutations -/

/-- The unknowns in the order `σ` and with signs `ε`. -/
def sperm (σ : Equiv.Perm (Fin n)) (ε : Fin n → ℝ) : Vec n →ₗ[ℝ] Vec n where
  toFun x := vec fun i => ε i * x (σ i)
  map_add' x y := by ext i; exact mul_add _ _ _
  map_smul' c x := by ext i; exact mul_left_comm _ _ _

section sperm
variable (σ : Equiv.Perm (Fin n)) {ε : Fin n → ℝ} (hε : ∀ i, ε i = 1 ∨ ε i = -1)

theorem sperm_apply (ε : Fin n → ℝ) (x : Vec n) (i : Fin n) : sperm σ ε x i = ε i * x (σ i) := rfl

include hε

theorem sperm_abs (x : Vec n) (i : Fin n) : |sperm σ ε x i| = |x (σ i)| := by
  rw [sperm_apply, abs_mul]
  rcases hε i with h | h <;> simp [h]

theorem sperm_norm (x : Vec n) : ‖sperm σ ε x‖ = ‖x‖ := by
  rw [EuclideanSpace.norm_eq, EuclideanSpace.norm_eq]
  congr 1
  simp only [Real.norm_eq_abs, sperm_abs σ hε]
  exact Equiv.sum_comp σ fun i => |x i| ^ 2

theorem sperm_l1 (x : Vec n) : l1 (sperm σ ε x) = l1 x := by
  simp only [l1, sperm_abs σ hε]
  exact Equiv.sum_comp σ fun i => |x i|

theorem sperm_linf (x : Vec n) : linf (sperm σ ε x) = linf x := by
  refine le_antisymm ((pi_norm_le_iff_of_nonneg (norm_nonneg _)).2 fun i => ?_) ((pi_norm_le_iff_of_nonneg (norm_nonneg _)).2 fun i => ?_)
  · have : ‖(sperm σ ε x).ofLp i‖ = ‖x.ofLp (σ i)‖ := sperm_abs σ hε x i
    rw [this]
    exact norm_le_pi_norm x.ofLp (σ i)
  · have : ‖(sperm σ ε x).ofLp (σ.symm i)‖ = ‖x.ofLp i‖ := by
      have := sperm_abs σ hε x (σ.symm i)
      rwa [Equiv.apply_symm_apply] at this
    rw [← this]
    exact norm_le_pi_norm (sperm σ ε x).ofLp (σ.symm i)

theorem sperm_inner (x y : Vec n) : ⟪sperm σ ε x, sperm σ ε y⟫ = ⟪x, y⟫ := inner_of_norm _ (sperm_norm σ hε) x y

omit hε in
theorem shrink1_sign {e : ℝ} (he : e = 1 ∨ e = -1) (κ a : ℝ) : shrink1 κ (e * a) = e * shrink1 κ a := by
  rcases he with rfl | rfl
  · rw [one_mul, one_mul]
  · have e1 : -1 * a - κ = -(a + κ) := by ring
    have e2 : -1 * a + κ = -(a - κ) := by ring
    rw [shrink1, shrink1, e1, e2]
    have h1 : max 0 (-(a + κ)) = -min 0 (a + κ) := by rw [← max_neg_neg, neg_zero]
    have h2 : min 0 (-(a - κ)) = -max 0 (a - κ) := by rw [← min_neg_neg, neg_zero]
    rw [h1, h2]
    ring

omit hε in
theorem sortDesc_perm {a b : List ℝ} (h : a.Perm b) : sortDesc a = sortDesc b := by
  unfold sortDesc
  congr 1
  have hs : ∀ l : List ℝ, (l.mergeSort fun s t => decide (s ≤ t)).Pairwise (fun s t => decide (s ≤ t) = true) := fun l =>
    List.pairwise_mergeSort (fun a b c h1 h2 => by simp only [decide_eq_true_eq] at *; exact h1.trans h2) (fun a b => by simp only [Bool.or_eq_true, decide_eq_true_eq]; exact le_total a b) l
  refine List.Perm.eq_of_pairwise (fun x y _ _ h1 h2 => ?_) (hs a) (hs b) (((List.mergeSort_perm a _).trans h).trans (List.mergeSort_perm b _).symm)
  simp only [decide_eq_true_eq] at h1 h2
  exact le_antisymm h1 h2

theorem sperm_proj (x : Vec n) (q : ℝ) : projectToL1Ball (sperm σ ε x) q = sperm σ ε (projectToL1Ball x q) := by
  have hp : (List.ofFn fun i => |sperm σ ε x i|).Perm (List.ofFn fun i => |x i|) := by
    have : (fun i => |sperm σ ε x i|) = (fun i => |x i|) ∘ σ := funext (sperm_abs σ hε x)
    rw [this]
    exact Equiv.Perm.ofFn_comp_perm σ _
  unfold projectToL1Ball
  show (if l1 (sperm σ ε x) > q then projectInsideBall q (sperm σ ε x) else sperm σ ε x) = sperm σ ε (if l1 x > q then projectInsideBall q x else x)
  rw [sperm_l1 σ hε]
  split_ifs
  · have : l1Kappa q (List.ofFn fun i => |sperm σ ε x i|) = l1Kappa q (List.ofFn fun i => |x i|) := by
      unfold l1Kappa
      rw [sortDesc_perm hp]
    ext i
    show shrink1 _ (ε i * x (σ i)) = ε i * shrink1 _ (x (σ i))
    rw [this, shrink1_sign (hε i)]
  · rfl

end sperm

/-! ## SPGL1 -/

theorem run_map {σ τ : Type*} {c : σ → Prop} {c' : τ → Prop} [DecidablePred c] [DecidablePred c'] {f : σ → σ} {f' : τ → τ} (g : σ → τ) (hc : ∀ s, c' (g s) ↔ c s)
    (hf : ∀ s, f' (g s) = g (f s)) : ∀ k s, run c' f' k (g s) = g (run c f k s)
  | 0, _ => rfl
  | k + 1, s => by
    unfold run
    by_cases h : c s
    · rw [if_pos h, if_pos ((hc s).2 h), hf, run_map g hc hf k]
    · rw [if_neg h, if_neg fun h' => h ((hc s).1 h')]

section spgl1
variable {A A' : Vec n → Vec m} {At At' : Vec m → Vec n} {σ : Equiv.Perm (Fin n)} {ε : Fin n → ℝ} {Q : Vec m →ₗᵢ[ℝ] Vec m}
  (hε : ∀ i, ε i = 1 ∨ ε i = -1) (hA : ∀ x, A' (sperm σ ε x) = Q (A x)) (hAt : ∀ r, At' (Q r) = sperm σ ε (At r))

/-- The state of the line search in the new coordinates. -/
def CurvyState.moved (σ : Equiv.Perm (Fin n)) (ε : Fin n → ℝ) (Q : Vec m →ₗᵢ[ℝ] Vec m) (s : CurvyState m n) : CurvyState m n :=
  { s with xNew := sperm σ ε s.xNew, rNew := Q s.rNew, dNew := sperm σ ε s.dNew }

theorem objVal_moved (r : Vec m) : objVal (Q r) = objVal r := by rw [objVal, objVal, Q.inner_map_map]

section
include hε

theorem firstAlpha_moved (o : Spgl1Opts) (d : Vec n) : firstAlpha o (sperm σ ε d) = firstAlpha o d := by rw [firstAlpha, firstAlpha, sperm_linf σ hε]

theorem nextAlpha_moved (o : Spgl1Opts) (s y : Vec n) : nextAlpha o (sperm σ ε s) (sperm σ ε y) = nextAlpha o s y := by
  rw [nextAlpha, nextAlpha, sperm_inner σ hε, sperm_inner σ hε]

theorem relGap_moved (b r : Vec m) (g : Vec n) (f tau : ℝ) : relGap (Q b) (sperm σ ε g) (Q r) f tau = relGap b g r f tau := by
  rw [relGap, relGap, sperm_linf σ hε, ← map_sub, Q.inner_map_map]

include hA

theorem curvyCandidate_moved (b : Vec m) (x g : Vec n) (fMax tau gamma alpha scale dn : ℝ) (k l calls : ℕ) :
    curvyCandidate A' (Q b) (sperm σ ε x) (sperm σ ε g) fMax tau gamma alpha scale dn k l calls =
      (curvyCandidate A b x g fMax tau gamma alpha scale dn k l calls).moved σ ε Q := by
  have e1 : projectToL1Ball (sperm σ ε x - (alpha * scale) • sperm σ ε g) tau = sperm σ ε (projectToL1Ball (x - (alpha * scale) • g) tau) := by
    rw [← map_smul, ← map_sub, sperm_proj σ hε]
  simp only [curvyCandidate, CurvyState.moved, counted, e1, hA, ← map_sub, sperm_inner σ hε, objVal_moved]

theorem curvyNext_moved (b : Vec m) (x g : Vec n) (fMax tau gamma : ℝ) (s : CurvyState m n) :
    curvyNext A' (Q b) (sperm σ ε x) (sperm σ ε g) fMax tau gamma (s.moved σ ε Q) = (curvyNext A b x g fMax tau gamma s).moved σ ε Q := by
  simp only [curvyNext, ← curvyCandidate_moved hε hA]
  simp only [CurvyState.moved, sperm_norm σ hε]

open Classical in
theorem curvy_moved (b : Vec m) (x g : Vec n) (a fMax tau gamma : ℝ) (calls : ℕ) :
    curvyLineSearch A' (Q b) (sperm σ ε x) (sperm σ ε g) a fMax tau gamma calls = (curvyLineSearch A b x g a fMax tau gamma calls).moved σ ε Q := by
  simp only [curvyLineSearch, ← map_smul, curvyInit, curvyCandidate_moved hε hA]
  exact run_map (c := curvyCond) (c' := curvyCond) (CurvyState.moved σ ε Q) (fun _ => Iff.rfl) (fun s => curvyNext_moved hε hA b x (a • g) fMax tau gamma s) 10 _

end

/-- The state of the LASSO solver in the new coordinates. -/
def LassoState.moved (σ : Equiv.Perm (Fin n)) (ε : Fin n → ℝ) (Q : Vec m →ₗᵢ[ℝ] Vec m) (s : LassoState m n) : LassoState m n :=
  { s with x := sperm σ ε s.x, g := sperm σ ε s.g, r := Q s.r }

include hε hA hAt

theorem lassoInit_moved (b : Vec m) (tau : ℝ) (x0 : Vec n) (o : Spgl1Opts) :
    lassoInit A' At' (Q b) tau (sperm σ ε x0) o = (lassoInit A At b tau x0 o).moved σ ε Q := by
  simp only [lassoInit, LassoState.moved, counted, sperm_proj σ hε, hA, ← map_sub, hAt, ← map_neg, objVal_moved, firstAlpha_moved hε, relGap_moved hε, Q.norm_map]

theorem lassoBody_moved (b : Vec m) (tau : ℝ) (o : Spgl1Opts) (s : LassoState m n) :
    lassoBody A' At' (Q b) tau o (s.moved σ ε Q) = (lassoBody A At b tau o s).moved σ ε Q := by
  have e := curvy_moved hε hA b s.x s.g s.alphaNext (listMax s.fPast) tau o.gamma s.timesCalls
  simp only [lassoBody, LassoState.moved, e]
  simp only [CurvyState.moved, counted, hAt, ← map_sub, ← map_neg, nextAlpha_moved hε, relGap_moved hε, Q.norm_map]

/-- **C162** (SPGL1, `solve_lasso`, `solve_lasso_from`) Rotate the measurement coordinates by `Q`, list the unknowns in the order `σ` and change their signs by `ε` (in the operator, its
adjoint, the data and the start). The solver returns exactly the transformed solution, gradient and residual, and the same scalars and counts. -/
theorem c162_lasso (b : Vec m) (tau : ℝ) (x0 : Vec n) (o : Spgl1Opts) (s : LassoState m n) (h : LassoSolveFrom A At b tau x0 o s) (s' : LassoState m n) :
    LassoSolveFrom A' At' (Q b) tau (sperm σ ε x0) o s' ↔ s' = { s with x := sperm σ ε s.x, g := sperm σ ε s.g, r := Q s.r } := by
  unfold LassoSolveFrom
  rw [lassoInit_moved hε hA hAt]
  refine Out.map (c := lassoCond b o) (f := lassoBody A At b tau o) (LassoState.moved σ ε Q) (fun s _ => ?_) (fun s _ _ => lassoBody_moved hε hA hAt b tau o s) h s'
  simp only [lassoCond, LassoState.moved, Q.norm_map]

omit hε hA hAt in
/-- The state of the basis pursuit solver in the new coordinates. -/
def BpState.moved (σ : Equiv.Perm (Fin n)) (ε : Fin n → ℝ) (Q : Vec m →ₗᵢ[ℝ] Vec m) (s : BpState m n) : BpState m n :=
  { s with x := sperm σ ε s.x, g := sperm σ ε s.g, r := Q s.r }

theorem bpInit_moved (b : Vec m) (sigma : ℝ) (x0 : Vec n) (o : Spgl1Opts) :
    bpInit A' At' (Q b) sigma (sperm σ ε x0) o = (bpInit A At b sigma x0 o).map (BpState.moved σ ε Q) := by
  simp only [bpInit, counted, sperm_l1 σ hε, sperm_proj σ hε, hA, ← map_sub, hAt, ← map_neg, objVal_moved, firstAlpha_moved hε, relGap_moved hε, Q.norm_map, sperm_linf σ hε, Option.map_map]
  rfl

theorem bpBody_moved (b : Vec m) (sigma : ℝ) (o : Spgl1Opts) (s : BpState m n) :
    bpBody A' At' (Q b) sigma o (s.moved σ ε Q) = (bpBody A At b sigma o s).map (BpState.moved σ ε Q) := by
  have e := curvy_moved hε hA b s.x s.g s.alphaNext (listMax s.fPast) s.tau o.gamma s.timesCalls
  unfold bpBody
  rw [show (s.moved σ ε Q).tau = s.tau from rfl]
  dsimp only [BpState.moved]
  rw [e]
  generalize curvyLineSearch A b s.x s.g s.alphaNext (listMax s.fPast) s.tau o.gamma s.timesCalls = w
  rw [show ‖(CurvyState.moved σ ε Q w).rNew‖ = ‖w.rNew‖ from Q.norm_map _, show (CurvyState.moved σ ε Q w).fVal = w.fVal from rfl]
  simp only [CurvyState.moved, counted, hAt, ← map_neg, relGap_moved hε, sperm_linf σ hε, sperm_proj σ hε, Option.map_map]
  congr 1
  funext tau
  simp only [Function.comp_def]
  by_cases ht : tau < s.tau
  · simp only [if_pos ht, hA, hAt, ← map_sub, ← map_neg, objVal_moved, nextAlpha_moved hε, sperm_proj σ hε]
    rfl
  · simp only [if_neg ht, ← map_sub, nextAlpha_moved hε]
    rfl

omit hε hA hAt in
theorem bpCond_moved (b : Vec m) (sigma : ℝ) (o : Spgl1Opts) (s : BpState m n) : bpCond (Q b) sigma o (s.moved σ ε Q) ↔ bpCond b sigma o s := by
  simp only [bpCond, BpState.moved, Q.norm_map]

theorem bpReach_moved (b : Vec m) (sigma : ℝ) (x0 : Vec n) (o : Spgl1Opts) (s' : BpState m n) :
    BpReach A' At' (Q b) sigma (sperm σ ε x0) o s' ↔ ∃ s, BpReach A At b sigma x0 o s ∧ s' = s.moved σ ε Q := by
  constructor
  · intro h
    induction h with
    | init h0 =>
      rw [bpInit_moved hε hA hAt, Option.map_eq_some_iff] at h0
      obtain ⟨s, h1, h2⟩ := h0
      exact ⟨s, .init h1, h2.symm⟩
    | step _ hc hs ih =>
      obtain ⟨s, h1, rfl⟩ := ih
      rw [bpBody_moved hε hA hAt, Option.map_eq_some_iff] at hs
      obtain ⟨t, h2, h3⟩ := hs
      exact ⟨t, .step h1 ((bpCond_moved b sigma o s).1 hc) h2, h3.symm⟩
  · rintro ⟨s, h, rfl⟩
    induction h with
    | init h0 => exact .init (by rw [bpInit_moved hε hA hAt, h0]; rfl)
    | step _ hc hs ih => exact .step ih ((bpCond_moved b sigma o _).2 hc) (by rw [bpBody_moved hε hA hAt, hs]; rfl)

/-- **C162** (SPGL1, `solve_bpic`, `solve_bp`, `solve_bpic_from`) as `c162_lasso`; a run of one problem ends in a division by zero exactly if the other does. -/
theorem c162_bpic (b : Vec m) (sigma : ℝ) (x0 : Vec n) (o : Spgl1Opts) (s' : BpState m n) :
    (BpReach A' At' (Q b) sigma (sperm σ ε x0) o s' ∧ ¬ bpCond (Q b) sigma o s') ↔
      ∃ s, (BpReach A At b sigma x0 o s ∧ ¬ bpCond b sigma o s) ∧ s' = { s with x := sperm σ ε s.x, g := sperm σ ε s.g, r := Q s.r } := by
  rw [bpReach_moved hε hA hAt]
  constructor
  · rintro ⟨⟨s, h1, rfl⟩, h2⟩
    exact ⟨s, ⟨h1, fun h => h2 ((bpCond_moved b sigma o s).2 h)⟩, rfl⟩
  · rintro ⟨s, ⟨h1, h2⟩, rfl⟩
    exact ⟨⟨s, h1, rfl⟩, fun h => h2 ((bpCond_moved b sigma o s).1 h)⟩

end spgl1

/-! ## l1ls -/

/-- A loop whose body and condition commute with `g` reaches exactly the images of the reached states. -/
theorem reach_map_iff {S T : Type*} {c : S → Prop} {f : S → S} {c' : T → Prop} {f' : T → T} {s0 : S} (g : S → T) (hc : ∀ s, c' (g s) ↔ c s)
    (hf : ∀ s, f' (g s) = g (f s)) (t : T) : Reach c' f' (g s0) t ↔ ∃ s, Reach c f s0 s ∧ t = g s := by
  constructor
  · intro h
    induction h with
    | init => exact ⟨_, .init, rfl⟩
    | step _ hcs ih =>
      obtain ⟨s, h1, rfl⟩ := ih
      exact ⟨_, .step h1 ((hc s).1 hcs), hf s⟩
  · rintro ⟨s, h, rfl⟩
    exact Reach.map g (fun s _ => (hc s).2) (fun s _ _ => hf s) h

theorem out_map_iff {S T : Type*} {c : S → Prop} {f : S → S} {c' : T → Prop} {f' : T → T} {s0 : S} (g : S → T) (hc : ∀ s, c' (g s) ↔ c s)
    (hf : ∀ s, f' (g s) = g (f s)) (t : T) : Out c' f' (g s0) t ↔ ∃ s, Out c f s0 s ∧ t = g s := by
  unfold Out
  rw [reach_map_iff g hc hf]
  constructor
  · rintro ⟨⟨s, h1, rfl⟩, h2⟩
    exact ⟨s, ⟨h1, fun h => h2 ((hc s).2 h)⟩, rfl⟩
  · rintro ⟨s, ⟨h1, h2⟩, rfl⟩
    exact ⟨⟨s, h1, rfl⟩, fun h => h2 ((hc s).1 h)⟩

/-- Signs and order for the pair of the unknowns and their bounds; the bounds have no signs. -/
def pmove (σ : Equiv.Perm (Fin n)) (ε : Fin n → ℝ) : PVec n →ₗ[ℝ] PVec n where
  toFun v := pv (sperm σ ε v.fst) (sperm σ (fun _ => 1) v.snd)
  map_add' v w := by
    show pv (sperm σ ε (v.fst + w.fst)) (sperm σ (fun _ => 1) (v.snd + w.snd)) = _
    rw [map_add, map_add]
    rfl
  map_smul' c v := by
    show pv (sperm σ ε (c • v.fst)) (sperm σ (fun _ => 1) (c • v.snd)) = _
    rw [map_smul, map_smul]
    rfl

theorem pmove_apply (σ : Equiv.Perm (Fin n)) (ε : Fin n → ℝ) (v : PVec n) : pmove σ ε v = pv (sperm σ ε v.fst) (sperm σ (fun _ => 1) v.snd) := rfl

theorem pmove_pv (σ : Equiv.Perm (Fin n)) (ε : Fin n → ℝ) (a b : Vec n) : pmove σ ε (pv a b) = pv (sperm σ ε a) (sperm σ (fun _ => 1) b) := rfl

theorem pmove_fst (σ : Equiv.Perm (Fin n)) (ε : Fin n → ℝ) (v : PVec n) : (pmove σ ε v).fst = sperm σ ε v.fst := rfl
theorem pmove_snd (σ : Equiv.Perm (Fin n)) (ε : Fin n → ℝ) (v : PVec n) : (pmove σ ε v).snd = sperm σ (fun _ => 1) v.snd := rfl

section l1ls
variable {A A' : Vec n → Vec m} {At At' : Vec m → Vec n} {σ : Equiv.Perm (Fin n)} {ε : Fin n → ℝ} {Q : Vec m →ₗᵢ[ℝ] Vec m} (hε : ∀ i, ε i = 1 ∨ ε i = -1)

include hε in
theorem pmove_inner (v w : PVec n) : ⟪pmove σ ε v, pmove σ ε w⟫ = ⟪v, w⟫ := by
  rw [WithLp.prod_inner_apply, WithLp.prod_inner_apply]
  show ⟪sperm σ ε v.fst, sperm σ ε w.fst⟫ + ⟪sperm σ (fun _ => 1) v.snd, sperm σ (fun _ => 1) w.snd⟫ = _
  rw [sperm_inner σ hε, sperm_inner σ (fun _ => Or.inl rfl)]
  rfl

include hε in
theorem pmove_norm (v : PVec n) : ‖pmove σ ε v‖ = ‖v‖ := by
  rw [norm_eq_sqrt_real_inner, norm_eq_sqrt_real_inner, pmove_inner hε]

include hε in
theorem q12_moved (x u : Vec n) (i : Fin n) :
    (ε i = 1 ∧ q1 (sperm σ ε x) (sperm σ (fun _ => 1) u) i = q1 x u (σ i) ∧ q2 (sperm σ ε x) (sperm σ (fun _ => 1) u) i = q2 x u (σ i)) ∨
    (ε i = -1 ∧ q1 (sperm σ ε x) (sperm σ (fun _ => 1) u) i = q2 x u (σ i) ∧ q2 (sperm σ ε x) (sperm σ (fun _ => 1) u) i = q1 x u (σ i)) := by
  rcases hε i with h | h
  · left
    refine ⟨h, ?_, ?_⟩ <;> simp [q1, q2, vec, sperm_apply, h]
  · right
    refine ⟨h, ?_, ?_⟩ <;> simp [q1, q2, vec, sperm_apply, h, sub_eq_add_neg]

include hε in
theorem d1_moved (x u : Vec n) (t : ℝ) (i : Fin n) : d1 (sperm σ ε x) (sperm σ (fun _ => 1) u) t i = d1 x u t (σ i) := by
  show (q1 _ _ i ^ 2 + q2 _ _ i ^ 2) / t = (q1 _ _ _ ^ 2 + q2 _ _ _ ^ 2) / t
  rcases q12_moved (σ := σ) hε x u i with ⟨_, h1, h2⟩ | ⟨_, h1, h2⟩ <;> rw [h1, h2]
  rw [add_comm]

include hε in
theorem d2_moved (x u : Vec n) (t : ℝ) (i : Fin n) : d2 (sperm σ ε x) (sperm σ (fun _ => 1) u) t i = ε i * d2 x u t (σ i) := by
  show (q1 _ _ i ^ 2 - q2 _ _ i ^ 2) / t = ε i * ((q1 _ _ _ ^ 2 - q2 _ _ _ ^ 2) / t)
  rcases q12_moved (σ := σ) hε x u i with ⟨h, h1, h2⟩ | ⟨h, h1, h2⟩ <;> rw [h1, h2, h] <;> ring

include hε in
theorem gradPhi_moved (lam : ℝ) (x u a : Vec n) (t : ℝ) :
    gradPhi lam (sperm σ ε x) (sperm σ (fun _ => 1) u) (sperm σ ε a) t = pmove σ ε (gradPhi lam x u a t) := by
  unfold gradPhi
  rw [pmove_pv]
  congr 1
  all_goals
    ext i
    show _ = _ * _
    simp only [vec, sperm_apply]
    rcases q12_moved (σ := σ) hε x u i with ⟨h, h1, h2⟩ | ⟨h, h1, h2⟩ <;> simp only [h1, h2, h] <;> ring

variable (hA : ∀ x, A' (sperm σ ε x) = Q (A x)) (hAt : ∀ r, At' (Q r) = sperm σ ε (At r))

include hε hA hAt in
theorem hessian_moved (x u : Vec n) (t : ℝ) (v : PVec n) :
    hessian A' At' (sperm σ ε x) (sperm σ (fun _ => 1) u) t (pmove σ ε v) = pmove σ ε (hessian A At x u t v) := by
  unfold hessian
  rw [pmove_pv, pmove_fst, pmove_snd, hA, ← map_smul, hAt]
  congr 1
  · ext i
    show (sperm σ ε (At _) i + d1 _ _ t i * sperm σ ε v.fst i) + d2 _ _ t i * sperm σ _ v.snd i = ε i * ((At _ (σ i) + d1 _ _ t (σ i) * v.fst (σ i)) + d2 _ _ t (σ i) * v.snd (σ i))
    rw [d1_moved hε, d2_moved hε, sperm_apply, sperm_apply, sperm_apply]
    ring
  · ext i
    show d2 _ _ t i * sperm σ ε v.fst i + d1 _ _ t i * sperm σ _ v.snd i = 1 * (d2 _ _ t (σ i) * v.fst (σ i) + d1 _ _ t (σ i) * v.snd (σ i))
    rw [d1_moved hε, d2_moved hε, sperm_apply, sperm_apply]
    rcases hε i with h | h <;> rw [h] <;> ring

include hε in
theorem prs_moved (x u : Vec n) (t : ℝ) (i : Fin n) : prs (sperm σ ε x) (sperm σ (fun _ => 1) u) t i = prs x u t (σ i) := by
  show (2 * 1 + d1 _ _ t i) * d1 _ _ t i - d2 _ _ t i ^ 2 = (2 * 1 + d1 _ _ t _) * d1 _ _ t _ - d2 _ _ t _ ^ 2
  rw [d1_moved hε, d2_moved hε]
  rcases hε i with h | h <;> rw [h] <;> ring

include hε in
theorem precond_moved (x u : Vec n) (t : ℝ) (v : PVec n) :
    precond (sperm σ ε x) (sperm σ (fun _ => 1) u) t (pmove σ ε v) = pmove σ ε (precond x u t v) := by
  unfold precond
  dsimp only
  rw [pmove_pv, pmove_fst, pmove_snd]
  congr 1
  · ext i
    show d1 _ _ t i / prs _ _ t i * sperm σ ε v.fst i - d2 _ _ t i / prs _ _ t i * sperm σ _ v.snd i =
      ε i * (d1 _ _ t (σ i) / prs _ _ t (σ i) * v.fst (σ i) - d2 _ _ t (σ i) / prs _ _ t (σ i) * v.snd (σ i))
    rw [d1_moved hε, d2_moved hε, prs_moved hε, sperm_apply, sperm_apply]
    ring
  · ext i
    show -(d2 _ _ t i / prs _ _ t i * sperm σ ε v.fst i) + (2 * 1 + d1 _ _ t i) / prs _ _ t i * sperm σ _ v.snd i =
      1 * (-(d2 _ _ t (σ i) / prs _ _ t (σ i) * v.fst (σ i)) + (2 * 1 + d1 _ _ t (σ i)) / prs _ _ t (σ i) * v.snd (σ i))
    rw [d1_moved hε, d2_moved hε, prs_moved hε, sperm_apply, sperm_apply]
    rcases hε i with h | h <;> rw [h] <;> ring

include hε in
theorem getPhi_moved (lam : ℝ) (x u : Vec n) (z : Vec m) (t : ℝ) :
    getPhi lam (sperm σ ε x) (sperm σ (fun _ => 1) u) (Q z) t = getPhi lam x u z t := by
  unfold getPhi
  rw [Q.inner_map_map, ← Finset.sum_add_distrib, ← Finset.sum_add_distrib]
  have e1 : ∑ i, sperm σ (fun _ => 1) u i = ∑ i, u i := by
    simp only [sperm_apply, one_mul]
    exact Equiv.sum_comp σ fun i => u i
  have e2 : ∀ i, Real.log (-(sperm σ ε x i - sperm σ (fun _ => 1) u i)) + Real.log (-(-sperm σ ε x i - sperm σ (fun _ => 1) u i)) =
      Real.log (-(x (σ i) - u (σ i))) + Real.log (-(-x (σ i) - u (σ i))) := by
    intro i
    simp only [sperm_apply, one_mul]
    rcases hε i with h | h <;> rw [h]
    · simp only [one_mul]
    · simp only [neg_one_mul, neg_neg]
      rw [add_comm]
  rw [e1, Finset.sum_congr rfl fun i _ => e2 i, Equiv.sum_comp σ fun i => Real.log (-(x i - u i)) + Real.log (-(-x i - u i))]

include hε hAt in
theorem getNu_moved (lam : ℝ) (z : Vec m) (k : ℕ) : getNu At' lam (Q z) k = (Q (getNu At lam z k).1, (getNu At lam z k).2) := by
  by_cases h : linf (At ((2 : ℝ) • z)) ≠ 0 ∧ lam / linf (At ((2 : ℝ) • z)) < 1
  · have h' : linf (At' ((2 : ℝ) • Q z)) ≠ 0 ∧ lam / linf (At' ((2 : ℝ) • Q z)) < 1 := by rwa [← map_smul, hAt, sperm_linf σ hε]
    rw [show getNu At lam z k = ((lam / linf (At ((2 : ℝ) • z))) • (2 : ℝ) • z, k + 1) from Prod.ext (if_pos h) rfl,
      show getNu At' lam (Q z) k = ((lam / linf (At' ((2 : ℝ) • Q z))) • (2 : ℝ) • Q z, k + 1) from Prod.ext (if_pos h') rfl]
    simp only [← map_smul, hAt, sperm_linf σ hε]
  · have h' : ¬ (linf (At' ((2 : ℝ) • Q z)) ≠ 0 ∧ lam / linf (At' ((2 : ℝ) • Q z)) < 1) := by rwa [← map_smul, hAt, sperm_linf σ hε]
    rw [show getNu At lam z k = ((2 : ℝ) • z, k + 1) from Prod.ext (if_neg h) rfl,
      show getNu At' lam (Q z) k = ((2 : ℝ) • Q z, k + 1) from Prod.ext (if_neg h') rfl]
    simp only [← map_smul]

/-- The state of a PCG run in the new coordinates. -/
def pcgMoved (σ : Equiv.Perm (Fin n)) (ε : Fin n → ℝ) (s : PCGState (PVec n) × ℕ) : PCGState (PVec n) × ℕ :=
  ({ x := pmove σ ε s.1.x, r := pmove σ ε s.1.r, p := pmove σ ε s.1.p, gamma := s.1.gamma, iters := s.1.iters }, s.2)

include hε in
theorem pcgCounted_moved {H H' M M' : PVec n → PVec n} (hH : ∀ v, H' (pmove σ ε v) = pmove σ ε (H v)) (hM : ∀ v, M' (pmove σ ε v) = pmove σ ε (M v))
    (b x0 : PVec n) (k : ℕ) (tol : ℝ) (t : PCGState (PVec n) × ℕ) :
    PcgCounted H' M' (pmove σ ε b) (pmove σ ε x0) k tol t ↔ ∃ s, PcgCounted H M b x0 k tol s ∧ t = pcgMoved σ ε s := by
  have e0 : (pcgInit H' M' (pmove σ ε b) (pmove σ ε x0), (counted H' (pmove σ ε x0) 0).2) = pcgMoved σ ε (pcgInit H M b x0, (counted H x0 0).2) := by
    simp only [pcgInit, pcgMoved, hH, ← map_sub, hM, pmove_inner hε, counted]
  unfold PcgCounted
  rw [e0]
  refine out_map_iff (pcgMoved σ ε) (fun s => ?_) (fun s => ?_) t
  · simp only [pcgCond, pcgMoved, pmove_inner hε]
  · simp only [pcgStep, pcgMoved, hH, hM, ← map_smul, ← map_add, ← map_sub, pmove_inner hε, counted]

def FState.moved (σ : Equiv.Perm (Fin n)) (ε : Fin n → ℝ) (p : FState n) : FState n := { x := sperm σ ε p.x, u := sperm σ (fun _ => 1) p.u, s := p.s }

theorem fInit_moved (x u dx du : Vec n) (s : ℝ) :
    fInit (sperm σ ε x) (sperm σ (fun _ => 1) u) (sperm σ ε dx) (sperm σ (fun _ => 1) du) s = (fInit x u dx du s).moved σ ε := by
  simp only [fInit, FState.moved, map_add, map_smul]

include hε in
theorem fSearch_moved (x u dx du : Vec n) (s : ℝ) (t : FState n) :
    FSearch (sperm σ ε x) (sperm σ (fun _ => 1) u) (sperm σ ε dx) (sperm σ (fun _ => 1) du) s t ↔ ∃ p, FSearch x u dx du s p ∧ t = p.moved σ ε := by
  unfold FSearch
  rw [fInit_moved]
  refine out_map_iff (FState.moved σ ε) (fun p => ?_) (fun p => fInit_moved _ _ _ _ _) t
  unfold fCond FState.moved
  rw [← σ.exists_congr_right (q := fun i => 0 ≤ p.x i - p.u i ∨ 0 ≤ -p.x i - p.u i)]
  refine exists_congr fun i => ?_
  simp only [sperm_apply, one_mul]
  rcases hε i with h | h <;> rw [h]
  · simp only [one_mul]
  · simp only [neg_one_mul, neg_neg]
    exact or_comm

def BtState.moved (σ : Equiv.Perm (Fin n)) (ε : Fin n → ℝ) (Q : Vec m →ₗᵢ[ℝ] Vec m) (b : BtState m n) : BtState m n :=
  { b with p := b.p.moved σ ε, z := Q b.z }

include hε hA in
theorem btNext_moved (y : Vec m) (lam t : ℝ) (k c : ℕ) (p : FState n) : btNext A' (Q y) lam t k c (p.moved σ ε) = (btNext A y lam t k c p).moved σ ε Q := by
  simp only [btNext, counted, FState.moved, BtState.moved, hA, ← map_sub, getPhi_moved hε]

include hε hA in
theorem btReach_moved (y : Vec m) (lam t : ℝ) (x u dx du : Vec n) (phi gdx : ℝ) (k : ℕ) (b' : BtState m n) :
    BtReach A' (Q y) lam t (sperm σ ε x) (sperm σ (fun _ => 1) u) (sperm σ ε dx) (sperm σ (fun _ => 1) du) phi gdx k b' ↔
      ∃ b, BtReach A y lam t x u dx du phi gdx k b ∧ b' = b.moved σ ε Q := by
  constructor
  · intro h
    induction h with
    | init h0 =>
      obtain ⟨p, h1, rfl⟩ := (fSearch_moved hε _ _ _ _ _ _).1 h0
      exact ⟨_, .init h1, btNext_moved hε hA _ _ _ _ _ _⟩
    | step _ hc hs ih =>
      obtain ⟨b, h1, rfl⟩ := ih
      obtain ⟨p, h2, rfl⟩ := (fSearch_moved hε _ _ _ _ _ _).1 hs
      exact ⟨_, .step h1 hc h2, btNext_moved hε hA _ _ _ _ _ _⟩
  · rintro ⟨b, h, rfl⟩
    induction h with
    | init h0 =>
      rw [← btNext_moved hε hA]
      exact .init ((fSearch_moved hε _ _ _ _ _ _).2 ⟨_, h0, rfl⟩)
    | @step b p _ hc hs ih =>
      rw [← btNext_moved hε hA]
      exact BtReach.step (b := b.moved σ ε Q) ih hc ((fSearch_moved hε _ _ _ _ _ _).2 ⟨_, hs, rfl⟩)

/-- The state of l1ls in the new coordinates. -/
def L1lsState.moved (σ : Equiv.Perm (Fin n)) (ε : Fin n → ℝ) (Q : Vec m →ₗᵢ[ℝ] Vec m) (s : L1lsState m n) : L1lsState m n :=
  { s with x := sperm σ ε s.x, u := sperm σ (fun _ => 1) s.u, z := Q s.z, nu := Q s.nu, dxu := pmove σ ε s.dxu }

include hε in
theorem primalObj_moved (lam : ℝ) (x : Vec n) (z : Vec m) : primalObj lam (sperm σ ε x) (Q z) = primalObj lam x z := by
  unfold primalObj
  rw [Q.inner_map_map, sperm_l1 σ hε]

theorem dualObj_moved (y nu : Vec m) : dualObj (Q y) (Q nu) = dualObj y nu := by
  unfold dualObj
  rw [Q.inner_map_map, Q.inner_map_map]

include hε hA hAt in
theorem l1lsBody_moved (y : Vec m) (lam xi : ℝ) (k : ℕ) (s t : L1lsState m n) :
    L1lsBody A' At' (Q y) lam xi k (s.moved σ ε Q) t ↔ ∃ s', L1lsBody A At y lam xi k s s' ∧ t = s'.moved σ ε Q := by
  have eg : gradPhi lam (sperm σ ε s.x) (sperm σ (fun _ => 1) s.u) (At' ((2 : ℝ) • Q s.z)) s.t = pmove σ ε (gradPhi lam s.x s.u (At ((2 : ℝ) • s.z)) s.t) := by
    rw [← map_smul, hAt, gradPhi_moved hε]
  have et : ∀ g : PVec n, pcgTol xi s.gap (pmove σ ε g) = pcgTol xi s.gap g := fun g => by unfold pcgTol; rw [pmove_norm hε]
  unfold L1lsBody
  simp only [L1lsState.moved, counted, eg, et, ← map_neg, pcgCounted_moved hε (hessian_moved hε hA hAt s.x s.u s.t) (precond_moved hε s.x s.u s.t), getPhi_moved hε]
  constructor
  · rintro ⟨_, ⟨w, h1, rfl⟩, bt', ⟨h2, h3⟩, rfl⟩
    simp only [pcgMoved, pmove_fst, pmove_snd, pmove_inner hε] at h2 h3
    obtain ⟨bt, h4, rfl⟩ := (btReach_moved hε hA _ _ _ _ _ _ _ _ _ _ _).1 h2
    refine ⟨_, ⟨w, h1, bt, ⟨h4, h3⟩, rfl⟩, ?_⟩
    simp only [BtState.moved, getNu_moved hε hAt, FState.moved, primalObj_moved hε, dualObj_moved, pcgMoved]
  · rintro ⟨_, ⟨w, h1, bt, ⟨h2, h3⟩, rfl⟩, rfl⟩
    refine ⟨_, ⟨w, h1, rfl⟩, bt.moved σ ε Q, ⟨?_, ?_⟩, ?_⟩
    · simp only [pcgMoved, pmove_fst, pmove_snd, pmove_inner hε]
      exact (btReach_moved hε hA _ _ _ _ _ _ _ _ _ _ _).2 ⟨bt, h2, rfl⟩
    · simp only [pcgMoved, pmove_inner hε]
      exact h3
    · simp only [BtState.moved, getNu_moved hε hAt, FState.moved, primalObj_moved hε, dualObj_moved, pcgMoved]

/-- **C162** (`l1ls.solve_from`) as `c162_lasso`; the bounds `u0` move with their unknowns and have no signs. -/
theorem c162_l1ls (hε : ∀ i, ε i = 1 ∨ ε i = -1) (hA : ∀ x, A' (sperm σ ε x) = Q (A x)) (hAt : ∀ r, At' (Q r) = sperm σ ε (At r))
    (y : Vec m) (lam : ℝ) (x0 u0 : Vec n) (tol xi t0 : ℝ) (maxIters pcgMaxIters : ℕ) (t : L1lsState m n) :
    L1lsSolveFrom A' At' (Q y) lam (sperm σ ε x0) (sperm σ (fun _ => 1) u0) tol xi t0 maxIters pcgMaxIters t ↔
      ∃ s, L1lsSolveFrom A At y lam x0 u0 tol xi t0 maxIters pcgMaxIters s ∧
        t = { s with x := sperm σ ε s.x, u := sperm σ (fun _ => 1) s.u, z := Q s.z, nu := Q s.nu, dxu := pv (sperm σ ε s.dxu.fst) (sperm σ (fun _ => 1) s.dxu.snd) } := by
  have e0 : l1lsInit A' At' (Q y) lam (sperm σ ε x0) (sperm σ (fun _ => 1) u0) t0 = (l1lsInit A At y lam x0 u0 t0).moved σ ε Q := by
    simp only [l1lsInit, L1lsState.moved, counted, hA, ← map_sub, getNu_moved hε hAt, primalObj_moved hε, dualObj_moved, map_zero]
  have hr : L1lsReach A' At' (Q y) lam (sperm σ ε x0) (sperm σ (fun _ => 1) u0) tol xi t0 maxIters pcgMaxIters t ↔
      ∃ s, L1lsReach A At y lam x0 u0 tol xi t0 maxIters pcgMaxIters s ∧ t = s.moved σ ε Q := by
    constructor
    · intro h
      induction h with
      | init => exact ⟨_, .init, e0⟩
      | step _ hc hs ih =>
        obtain ⟨s, h1, rfl⟩ := ih
        obtain ⟨s', h2, rfl⟩ := (l1lsBody_moved hε hA hAt _ _ _ _ _ _).1 hs
        exact ⟨_, .step h1 hc h2, rfl⟩
    · rintro ⟨s, h, rfl⟩
      induction h with
      | init => rw [← e0]; exact .init
      | @step s s' _ hc hs ih => exact L1lsReach.step (s := s.moved σ ε Q) ih hc ((l1lsBody_moved hε hA hAt _ _ _ _ _ _).2 ⟨_, hs, rfl⟩)
  unfold L1lsSolveFrom
  rw [hr]
  constructor
  · rintro ⟨⟨s, h1, rfl⟩, h2⟩
    exact ⟨s, ⟨h1, h2⟩, rfl⟩
  · rintro ⟨s, ⟨h1, h2⟩, rfl⟩
    exact ⟨⟨s, h1, rfl⟩, h2⟩

/-- **C162** (`l1ls.solve` with its default start). -/
theorem c162_l1ls_solve (hε : ∀ i, ε i = 1 ∨ ε i = -1) (hA : ∀ x, A' (sperm σ ε x) = Q (A x)) (hAt : ∀ r, At' (Q r) = sperm σ ε (At r))
    (y : Vec m) (lam tol xi : ℝ) (maxIters pcgMaxIters : ℕ) (t : L1lsState m n) :
    L1lsSolve A' At' (Q y) lam tol xi maxIters pcgMaxIters t ↔
      ∃ s, L1lsSolve A At y lam tol xi maxIters pcgMaxIters s ∧
        t = { s with x := sperm σ ε s.x, u := sperm σ (fun _ => 1) s.u, z := Q s.z, nu := Q s.nu, dxu := pv (sperm σ ε s.dxu.fst) (sperm σ (fun _ => 1) s.dxu.snd) } := by
  have e1 : sperm σ (fun _ => 1) (vec fun _ => 1) = vec fun _ => (1 : ℝ) := by
    ext i
    show (1 : ℝ) * 1 = 1
    norm_num
  have h := c162_l1ls hε hA hAt y lam 0 (vec fun _ => 1) tol xi (defaultT0 n lam) maxIters pcgMaxIters t
  rw [map_zero, e1] at h
  exact h

end l1ls

/-! Two unknowns exchanged, one of them with its sign changed; the identity becomes a quarter turn. -/
def exSw : Equiv.Perm (Fin 2) := Equiv.swap 0 1
def exEp : Fin 2 → ℝ := ![1, -1]
def exTurn (v : Vec 2) : Vec 2 := vec ![-v 1, v 0]

theorem exEp_sign (i : Fin 2) : exEp i = 1 ∨ exEp i = -1 := by
  fin_cases i <;> simp [exEp]

theorem exTurn_hA (x : Vec 2) : exTurn (sperm exSw exEp x) = (LinearIsometry.id : Vec 2 →ₗᵢ[ℝ] Vec 2) x := by
  ext i
  fin_cases i <;> simp [exTurn, vec, sperm_apply, exSw, exEp]

example (b : Vec 2) (tau : ℝ) (o : Spgl1Opts) (s : LassoState 2 2) (h : LassoSolveFrom id id b tau 0 o s) :=
  c162_lasso exEp_sign exTurn_hA (At := id) (At' := sperm exSw exEp) (fun _ => rfl) b tau 0 o s h

example (b : Vec 2) (sigma : ℝ) (o : Spgl1Opts) (s : BpState 2 2) :=
  c162_bpic exEp_sign exTurn_hA (At := id) (At' := sperm exSw exEp) (fun _ => rfl) b sigma 0 o s

example (y : Vec 2) (s : L1lsState 2 2) :=
  c162_l1ls_solve exEp_sign exTurn_hA (At := id) (At' := sperm exSw exEp) (fun _ => rfl) y 1 1e-3 1e-3 100 100 s

end Verif.Cvx
