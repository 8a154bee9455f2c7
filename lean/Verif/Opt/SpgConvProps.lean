import Verif.Opt.SpgRateProps
import Verif.Cvx.NonmonoConv

set_option autoImplicit false
/-!
# The spectral projected gradient solver reaches its tolerance (C126)
-/
noncomputable section
namespace Verif.Opt
open Verif.Loop Filter Topology
open scoped RealInnerProductSpace

variable {n : ℕ}

theorem spgLambda_ge (s y : Vec n) : 1e-10 ≤ spgLambda s y := by
  unfold spgLambda
  simp only
  generalize ⟪s, s⟫ / (⟪s, y⟫ + 2 ^ (-23 : ℤ)) = l
  by_cases h : l < 1e-10
  · rw [if_pos h, if_neg (by norm_num)]; norm_num
  · rw [if_neg h]
    split
    · norm_num
    · exact not_lt.1 h

/-- The projected gradient steps of two lengths bound each other. -/
theorem proj_steps (proj : Vec n → Vec n) (C : Set (Vec n)) (hC : Convex ℝ C) (hproj : ∀ x, IsNearest C x (proj x)) (x g : Vec n) (l : ℝ) (hl : 1e-10 ≤ l) :
    ‖proj (x - g) - x‖ ≤ 1e10 * ‖proj (x - l • g) - x‖ := by
  have h1 := (hproj (x - g)).inner_le hC (hproj (x - l • g)).1
  have h2 := (hproj (x - l • g)).inner_le hC (hproj (x - g)).1
  obtain ⟨u, hu⟩ : ∃ u, u = proj (x - g) - x := ⟨_, rfl⟩
  obtain ⟨v, hv⟩ : ∃ v, v = proj (x - l • g) - x := ⟨_, rfl⟩
  have e1 : x - g - proj (x - g) = -(g + u) := by rw [hu]; abel
  have e2 : proj (x - l • g) - proj (x - g) = v - u := by rw [hu, hv]; abel
  have e3 : x - l • g - proj (x - l • g) = -(l • g + v) := by rw [hv]; abel
  have e4 : proj (x - g) - proj (x - l • g) = -(v - u) := by rw [hu, hv]; abel
  rw [e1, e2] at h1
  rw [e3, e4] at h2
  rw [← hu, ← hv]
  simp only [inner_neg_left, inner_neg_right, inner_add_left, inner_sub_right, real_inner_smul_left, real_inner_self_eq_norm_sq] at h1 h2
  rw [real_inner_comm u v] at h2
  have h3 : l * ‖u‖ ^ 2 + ‖v‖ ^ 2 ≤ (l + 1) * (‖u‖ * ‖v‖) := by
    have h4 := real_inner_le_norm u v
    have hl0 : 0 ≤ l := le_trans (by norm_num) hl
    have h5 := mul_le_mul_of_nonneg_left h1 hl0
    have h6 := mul_le_mul_of_nonneg_left h4 (show 0 ≤ l + 1 by linarith)
    linarith
  have hun := norm_nonneg u
  have hvn := norm_nonneg v
  by_contra hlt
  push Not at hlt
  have h7 : ‖v‖ < ‖u‖ := by linarith
  have h8 : ‖v‖ < l * ‖u‖ := by
    have := mul_le_mul_of_nonneg_right hl hun
    linarith
  have := mul_pos (sub_pos.2 h7) (sub_pos.2 h8)
  nlinarith

section run
variable (f : SmoothFn (Vec n)) (proj : Vec n → Vec n) (C : Set (Vec n)) (o : SpgOpts) (x0 : Vec n)

/-- The states of the loop body applied again and again (not stopping). -/
def spgIter (k : ℕ) : SpgState n := (spgStep f proj o)^[k] (spgInit f proj x0 o)

theorem spgIter_succ (k : ℕ) : spgIter f proj o x0 (k + 1) = spgStep f proj o (spgIter f proj o x0 k) := by
  unfold spgIter
  rw [Function.iterate_succ_apply']

theorem spgIter_counts (k : ℕ) : (spgIter f proj o x0 k).iters = k + 1 ∧ (spgIter f proj o x0 k).fCalls ≤ 50 * k + 2 := by
  induction k with
  | zero => exact ⟨rfl, le_rfl⟩
  | succ k ih =>
    rw [spgIter_succ]
    refine ⟨?_, ?_⟩
    · show (spgIter f proj o x0 k).iters + 1 = _
      rw [ih.1]
    · obtain ⟨_, _, _, _, _, _, h, _⟩ := c39_line_search f.func (spgIter f proj o x0 k).x _ (listMax (spgIter f proj o x0 k).fPast) ((spgIter f proj o x0 k).fPast.headD 0) o.suffDec
        ⟪(spgIter f proj o x0 k).g, proj ((spgIter f proj o x0 k).x - spgLambda ((spgIter f proj o x0 k).x - (spgIter f proj o x0 k).xPrev)
          ((spgIter f proj o x0 k).g - (spgIter f proj o x0 k).gPrev) • (spgIter f proj o x0 k).g) - (spgIter f proj o x0 k).x⟫
      show (spgIter f proj o x0 k).fCalls + _ ≤ _
      have := ih.2
      refine (Nat.add_le_add this h).trans (by omega)

/-- The tests of the loop other than the limits. -/
def SpgGoing (s : SpgState n) : Prop := s.delta ≤ -o.progressTol ∧ ∃ i, |(proj (s.x - s.g) - s.x) i| ≥ o.optimTol

theorem spgIter_reach (k : ℕ) (h : ∀ j, j < k → SpgGoing proj o (spgIter f proj o x0 j)) (M F : ℕ) (hM : k < M) (hF : 50 * k + 2 ≤ F) :
    Reach (spgCond proj { o with maxIters := M, maxFCalls := F }) (spgStep f proj { o with maxIters := M, maxFCalls := F })
      (spgInit f proj x0 { o with maxIters := M, maxFCalls := F }) (spgIter f proj o x0 k) := by
  refine reach_of_iterate (f := spgStep f proj { o with maxIters := M, maxFCalls := F }) fun j hj => ?_
  obtain ⟨h1, h2⟩ := spgIter_counts f proj o x0 j
  refine ⟨?_, (h j hj).1, (h j hj).2, ?_⟩
  · show (spgIter f proj o x0 j).iters < M
    omega
  · show (spgIter f proj o x0 j).fCalls < F
    omega

theorem push_range' (F : ℕ → ℝ) (k M : ℕ) :
    cbufPushLeft ((List.range M).map fun i => F (k - i)) (F (k + 1)) = (List.range M).map fun i => F (k + 1 - i) := by
  unfold cbufPushLeft
  rw [List.length_map, List.length_range]
  apply List.ext_getElem?
  intro i
  rw [List.getElem?_take]
  by_cases hi : i < M
  · rw [if_pos hi]
    cases i with
    | zero => simp [hi]
    | succ i => simp [hi, show i < M by omega, show k + 1 - (i + 1) = k - i by omega]
  · rw [if_neg hi]
    simp [hi]

/-- One step of the solver on a smooth function: the move along the projected direction and the decrease. -/
theorem spg_step_spec (hC : Convex ℝ C) (hproj : ∀ x, IsNearest C x (proj x)) (hg : 0 < o.suffDec) (hg2 : o.suffDec ≤ 1 / 2) (L : ℝ) (hL0 : 0 ≤ L) (hL : L ≤ 5e4)
    (hsm : ∀ x y, |f.func y - f.func x - ⟪f.grad x, y - x⟫| ≤ L / 2 * ‖y - x‖ ^ 2) (s : SpgState n) (hs : SpgInv f C o s) :
    let d := proj (s.x - spgLambda (s.x - s.xPrev) (s.g - s.gPrev) • s.g) - s.x
    let s' := spgStep f proj o s
    ∃ a : ℝ, (1 / 2) ^ 49 ≤ a ∧ a ≤ 1 ∧ s'.x = s.x + a • d ∧ s'.delta = ⟪s.g, d⟫ ∧ s'.fPast = cbufPushLeft s.fPast (f.func s'.x) ∧
      f.func s'.x ≤ listMax s.fPast - o.suffDec * ((1 / 2) ^ 49 * 1e-10) * ‖d‖ ^ 2 := by
  intro d s'
  have hl := spgLambda_pos (s.x - s.xPrev) (s.g - s.gPrev)
  have hde := proj_descent proj C hC hproj s.x s.g hs.feas _ hl.1
  have hmem : f.func s.x ∈ s.fPast := List.mem_of_mem_head? (by rw [hs.head]; rfl)
  have hhead : s.fPast.headD 0 = f.func s.x := by
    have := hs.head
    cases h : s.fPast with
    | nil => rw [h] at this; simp at this
    | cons a l => rw [h] at this; simpa using this
  have hlast : s.fPast.headD 0 ≤ listMax s.fPast := by rw [hhead]; exact le_listMax hmem
  have hdd : ‖d‖ ^ 2 ≤ -1e10 * ⟪s.g, d⟫ := by
    have h0 : ⟪s.g, d⟫ ≤ 0 := by
      by_contra hneg
      have := mul_pos hl.1 (not_le.1 hneg)
      have h2 := sq_nonneg ‖d‖
      linarith
    have := mul_le_mul_of_nonneg_right hl.2 (neg_nonneg.2 h0)
    linarith
  have hacc := c39_line_search_accepts f.func s.x d (listMax s.fPast) (s.fPast.headD 0) o.suffDec ⟪s.g, d⟫ L hg2 hlast (le_listMax hmem) hL0 hL hdd fun a _ _ => by
    have := (abs_le.1 (hsm s.x (s.x + a • d))).2
    rw [add_sub_cancel_left, real_inner_smul_right, norm_smul, Real.norm_eq_abs, mul_pow, sq_abs, ← hs.grad] at this
    linarith
  have hdel : ⟪s.g, d⟫ ≤ 0 := by nlinarith [sq_nonneg ‖d‖]
  have ho := ls_out f.func s.x d (listMax s.fPast) (s.fPast.headD 0) o.suffDec ⟪s.g, d⟫
  have hi := ls_inv f.func s.x d (listMax s.fPast) (s.fPast.headD 0) o.suffDec ⟪s.g, d⟫ _ ho.1
  have hal := c39_line_search_halves f.func s.x d (listMax s.fPast) (s.fPast.headD 0) o.suffDec ⟪s.g, d⟫ hdel (by linarith) hlast _ ho.1
  have hx' : s'.x = (lineSearch f.func s.x d (listMax s.fPast) (s.fPast.headD 0) o.suffDec ⟪s.g, d⟫).xNew := rfl
  have hp' : s'.fPast = cbufPushLeft s.fPast (lineSearch f.func s.x d (listMax s.fPast) (s.fPast.headD 0) o.suffDec ⟪s.g, d⟫).fVal := rfl
  generalize lineSearch f.func s.x d (listMax s.fPast) (s.fPast.headD 0) o.suffDec ⟪s.g, d⟫ = ls at *
  have hlow : (1 / 2 : ℝ) ^ 49 ≤ ls.alpha := by
    rw [hal]
    exact pow_le_pow_of_le_one (by norm_num) (by norm_num) (by have := hi.calls; omega)
  refine ⟨ls.alpha, hlow, hi.le_one, by rw [hx', hi.xNew], rfl, by rw [hp', hi.fVal, hx'], ?_⟩
  rw [hi.fLim, hi.fVal] at hacc
  rw [hx']
  have h1 : ‖d‖ ^ 2 * 1e-10 ≤ -⟪s.g, d⟫ := by
    have := mul_le_mul_of_nonneg_right hdd (show (0 : ℝ) ≤ 1e-10 by norm_num)
    linarith
  have h2 : (1 / 2 : ℝ) ^ 49 * (‖d‖ ^ 2 * 1e-10) ≤ ls.alpha * -⟪s.g, d⟫ := mul_le_mul hlow h1 (by positivity) hi.pos.le
  have h3 := mul_le_mul_of_nonneg_left h2 hg.le
  have e1 : o.suffDec * ((1 / 2) ^ 49 * (‖d‖ ^ 2 * 1e-10)) = o.suffDec * ((1 / 2) ^ 49 * 1e-10) * ‖d‖ ^ 2 := by ring
  have e2 : o.suffDec * (ls.alpha * -⟪s.g, d⟫) = -(ls.alpha * (o.suffDec * ⟪s.g, d⟫)) := by ring
  rw [e1, e2] at h3
  linarith

/-- For a smooth function bounded below the tests of the loop fail at some iterate. -/
theorem spg_not_forever (hC : Convex ℝ C) (hproj : ∀ x, IsNearest C x (proj x)) (hf : f.Pair) (hm : 1 ≤ o.memory) (hg : 0 < o.suffDec) (hg2 : o.suffDec ≤ 1 / 2)
    (ht : 0 < o.progressTol ∨ 0 < o.optimTol) (L B : ℝ) (hL0 : 0 ≤ L) (hL : L ≤ 5e4)
    (hsm : ∀ x y, |f.func y - f.func x - ⟪f.grad x, y - x⟫| ≤ L / 2 * ‖y - x‖ ^ 2) (hB : ∀ x, B ≤ f.func x) :
    ∃ k, ¬ SpgGoing proj o (spgIter f proj o x0 k) := by
  by_contra hcon
  push Not at hcon
  obtain ⟨S, hS⟩ : ∃ S : ℕ → SpgState n, ∀ k, S k = spgIter f proj o x0 k := ⟨_, fun _ => rfl⟩
  have hSs : ∀ k, S (k + 1) = spgStep f proj o (S k) := fun k => by rw [hS, hS, spgIter_succ]
  have hinv : ∀ k, SpgInv f C o (S k) := fun k => by
    have h := spg_inv f proj C { o with maxIters := k + 1, maxFCalls := 50 * k + 2 } hC hproj hf hm x0 _ (spgIter_reach f proj o x0 k (fun j _ => hcon j) _ _ (Nat.lt_succ_self _) le_rfl)
    rw [hS]
    exact ⟨h.feas, h.feasPrev, h.grad, h.mem, h.head, h.delta⟩
  obtain ⟨F, hF⟩ : ∃ F : ℕ → ℝ, ∀ k, F k = f.func (S k).x := ⟨_, fun _ => rfl⟩
  obtain ⟨D, hD⟩ : ∃ D : ℕ → Vec n, ∀ k, D k = proj ((S k).x - spgLambda ((S k).x - (S k).xPrev) ((S k).g - (S k).gPrev) • (S k).g) - (S k).x := ⟨_, fun _ => rfl⟩
  have hstep : ∀ k, ∃ a : ℝ, (1 / 2) ^ 49 ≤ a ∧ a ≤ 1 ∧ (S (k + 1)).x = (S k).x + a • D k ∧ (S (k + 1)).delta = ⟪(S k).g, D k⟫ ∧
      (S (k + 1)).fPast = cbufPushLeft (S k).fPast (F (k + 1)) ∧ F (k + 1) ≤ listMax (S k).fPast - o.suffDec * ((1 / 2) ^ 49 * 1e-10) * ‖D k‖ ^ 2 := fun k => by
    have := spg_step_spec f proj C o hC hproj hg hg2 L hL0 hL hsm (S k) (hinv k)
    rw [hF, hSs, hD]
    exact this
  have hpast : ∀ k, (S k).fPast = (List.range o.memory).map fun i => F (k - i) := by
    intro k
    induction k with
    | zero =>
      have e : (S 0).fPast = List.replicate o.memory (F 0) := by
        rw [hF, hS]
        show List.replicate o.memory (f.gradVal _).2 = _
        rw [show (f.gradVal _) = (f.grad _, f.func _) from hf _]
        rfl
      rw [e]
      simp
    | succ k ih =>
      obtain ⟨_, _, _, _, _, e, _⟩ := hstep k
      rw [e, ih, push_range']
  have hne : ∀ k, (S k).fPast ≠ [] := fun k h0 => by
    have := (hinv k).mem
    rw [h0] at this
    simp at this
    omega
  have hMmono : ∀ k, listMax (S (k + 1)).fPast ≤ listMax (S k).fPast := fun k => by
    obtain ⟨_, _, _, _, _, e, hdec⟩ := hstep k
    refine listMax_le (hne _) fun v hv => ?_
    rw [e, cbufPushLeft] at hv
    rcases List.mem_cons.1 (List.mem_of_mem_take hv) with rfl | h1
    · have : 0 ≤ o.suffDec * ((1 / 2) ^ 49 * 1e-10) * ‖D k‖ ^ 2 := by positivity
      linarith
    · exact le_listMax h1
  have hFM : ∀ k, F k ≤ listMax (S k).fPast := fun k => le_listMax (List.mem_of_mem_head? (by rw [(hinv k).head, hF]; rfl))
  have hM0 : ∀ k, listMax (S k).fPast ≤ listMax (S 0).fPast := fun k => by
    induction k with
    | zero => exact le_rfl
    | succ k ih => exact (hMmono k).trans ih
  -- the gradients are bounded
  obtain ⟨G, hG0, hG⟩ : ∃ G : ℝ, 0 ≤ G ∧ ∀ k, ‖(S k).g‖ ≤ G := by
    refine ⟨Real.sqrt (2 * (L + 1) * (listMax (S 0).fPast - B)), Real.sqrt_nonneg _, fun k => Real.le_sqrt_of_sq_le ?_⟩
    have h1 := (abs_le.1 (hsm (S k).x ((S k).x - (1 / (L + 1)) • (S k).g))).2
    have h2 := hB ((S k).x - (1 / (L + 1)) • (S k).g)
    rw [sub_sub_cancel_left, inner_neg_right, norm_neg, ← (hinv k).grad, real_inner_smul_right, real_inner_self_eq_norm_sq, norm_smul, Real.norm_eq_abs, mul_pow, sq_abs, ← hF] at h1
    have hLp : 0 < L + 1 := by linarith
    have h3 : L / 2 * ((1 / (L + 1)) ^ 2 * ‖(S k).g‖ ^ 2) ≤ 1 / (L + 1) * ‖(S k).g‖ ^ 2 / 2 := by
      have : L / 2 * ((1 / (L + 1)) ^ 2 * ‖(S k).g‖ ^ 2) = (L / (L + 1)) * (1 / (L + 1) * ‖(S k).g‖ ^ 2 / 2) := by
        field_simp
      rw [this]
      have h4 : L / (L + 1) ≤ 1 := by rw [div_le_one hLp]; linarith
      exact mul_le_of_le_one_left (by positivity) h4
    have h5 : 1 / (L + 1) * ‖(S k).g‖ ^ 2 / 2 ≤ F k - B := by linarith
    have h6 : ‖(S k).g‖ ^ 2 ≤ 2 * (L + 1) * (F k - B) := by
      have := mul_le_mul_of_nonneg_left h5 (show 0 ≤ 2 * (L + 1) by positivity)
      have e : 2 * (L + 1) * (1 / (L + 1) * ‖(S k).g‖ ^ 2 / 2) = ‖(S k).g‖ ^ 2 := by field_simp
      linarith
    refine h6.trans (mul_le_mul_of_nonneg_left ?_ (by positivity))
    have := hFM k
    have := hM0 k
    linarith
  have hT : Tendsto (fun k => ‖D k‖) atTop (𝓝 0) := by
    refine Verif.Cvx.nonmono_tendsto F (fun k => ‖D k‖) (fun k => listMax (S k).fPast) (o.suffDec * ((1 / 2) ^ 49 * 1e-10)) (G + L) B o.memory 0 (by positivity)
      (fun k => norm_nonneg _) (fun k => by rw [hF]; exact hB _) (fun k _ => hMmono k) (fun k _ => ?_) (fun k _ => ?_) fun k => ?_
    · obtain ⟨_, _, _, _, _, _, hdec⟩ := hstep k
      exact hdec
    · have h1 : listMax (S k).fPast ∈ (List.range o.memory).map fun i => F (k - i) := hpast k ▸ listMax_mem (hne k)
      obtain ⟨j, hj, e⟩ := List.mem_map.1 h1
      exact ⟨j, (List.mem_range.1 hj).le, e.symm⟩
    · obtain ⟨a, ha, ha1, ex, _, _, _⟩ := hstep k
      have ha0 : 0 ≤ a := le_trans (by positivity) ha
      have h1 := hsm (S k).x (S (k + 1)).x
      rw [← hF, ← hF, ex, add_sub_cancel_left, ← (hinv k).grad, real_inner_smul_right, norm_smul, Real.norm_eq_abs, mul_pow, sq_abs] at h1
      have h2 := abs_real_inner_le_norm (S k).g (D k)
      have h3 := h2.trans (mul_le_mul_of_nonneg_right (hG k) (norm_nonneg (D k)))
      have h4 : |a * ⟪(S k).g, D k⟫| ≤ G * ‖D k‖ := by
        rw [abs_mul, abs_of_nonneg ha0]
        exact (mul_le_of_le_one_left (abs_nonneg _) ha1).trans h3
      have h5 : L / 2 * (a ^ 2 * ‖D k‖ ^ 2) ≤ L * ‖D k‖ ^ 2 := by
        have h6 : a ^ 2 * ‖D k‖ ^ 2 ≤ ‖D k‖ ^ 2 := mul_le_of_le_one_left (by positivity) (pow_le_one₀ ha0 ha1)
        have := mul_le_mul_of_nonneg_left h6 hL0
        have : 0 ≤ L * (a ^ 2 * ‖D k‖ ^ 2) := by positivity
        linarith
      have h7 : 0 ≤ L * ‖D k‖ := by positivity
      have h8 : 0 ≤ G * ‖D k‖ ^ 2 := by positivity
      have h9 : |F (k + 1) - F k| ≤ |F (k + 1) - F k - a * ⟪(S k).g, D k⟫| + |a * ⟪(S k).g, D k⟫| := by
        have := abs_add_le (F (k + 1) - F k - a * ⟪(S k).g, D k⟫) (a * ⟪(S k).g, D k⟫)
        rwa [sub_add_cancel] at this
      show _ ≤ (G + L) * (‖D k‖ + ‖D k‖ ^ 2)
      linarith
  rcases ht with ht | ht
  · have h1 : ∀ k, o.progressTol ≤ G * ‖D k‖ := fun k => by
      obtain ⟨_, _, _, _, e, _, _⟩ := hstep k
      have h2 := (hcon (k + 1)).1
      rw [← hS, e] at h2
      have h3 := (abs_le.1 (abs_real_inner_le_norm (S k).g (D k))).1
      have h4 := mul_le_mul_of_nonneg_right (hG k) (norm_nonneg (D k))
      linarith
    have h5 := hT.const_mul G
    rw [mul_zero] at h5
    have := ge_of_tendsto h5 (Eventually.of_forall h1)
    linarith
  · have h1 : ∀ k, o.optimTol ≤ 1e10 * ‖D k‖ := fun k => by
      obtain ⟨i, hi⟩ := (hcon k).2
      rw [← hS] at hi
      have h2 := proj_steps proj C hC hproj (S k).x (S k).g _ (spgLambda_ge ((S k).x - (S k).xPrev) ((S k).g - (S k).gPrev))
      rw [← hD] at h2
      have h3 := PiLp.norm_apply_le (proj ((S k).x - (S k).g) - (S k).x) i
      rw [Real.norm_eq_abs] at h3
      linarith
    have h5 := hT.const_mul (1e10 : ℝ)
    rw [mul_zero] at h5
    have := ge_of_tendsto h5 (Eventually.of_forall h1)
    linarith

end run

/-- **C126** for every closed convex set with its nearest-point projector, every function bounded below whose gradient model has curvature at most `L ≤ 5e4`, every start, and
options with `0 < gamma ≤ 1/2` and a positive tolerance: with large enough limits on iterations and function calls `spg.solve_from` returns a feasible point at which the last
step promised less than `progress_tol` or every entry of the projected gradient step is below `optim_tol`. -/
theorem c126_terminates (f : SmoothFn (Vec n)) (proj : Vec n → Vec n) (C : Set (Vec n)) (o : SpgOpts) (x0 : Vec n) (hC : Convex ℝ C)
    (hproj : ∀ x, IsNearest C x (proj x)) (hf : f.Pair) (hm : 1 ≤ o.memory) (hg : 0 < o.suffDec) (hg2 : o.suffDec ≤ 1 / 2)
    (ht : 0 < o.progressTol ∨ 0 < o.optimTol) (L B : ℝ) (hL0 : 0 ≤ L) (hL : L ≤ 5e4)
    (hsm : ∀ x y, |f.func y - f.func x - ⟪f.grad x, y - x⟫| ≤ L / 2 * ‖y - x‖ ^ 2) (hB : ∀ x, B ≤ f.func x) :
    ∃ N, ∀ M F, N ≤ M → N ≤ F → ∃ s, SpgSolveFrom f proj x0 { o with maxIters := M, maxFCalls := F } s ∧ s.iters ≤ N ∧ s.fCalls ≤ N ∧ s.x ∈ C ∧
      ((-o.progressTol < s.delta ∧ s.delta ≤ 0) ∨ ∀ i, |(proj (s.x - f.grad s.x) - s.x) i| < o.optimTol) := by
  classical
  have hstop := spg_not_forever f proj C o x0 hC hproj hf hm hg hg2 ht L B hL0 hL hsm hB
  obtain ⟨k, hk, hmin⟩ : ∃ k, ¬ SpgGoing proj o (spgIter f proj o x0 k) ∧ ∀ j, j < k → SpgGoing proj o (spgIter f proj o x0 j) :=
    ⟨Nat.find hstop, Nat.find_spec hstop, fun j hj => not_not.1 (Nat.find_min hstop hj)⟩
  refine ⟨50 * k + 2, fun M F hM hF => ?_⟩
  have hr := spgIter_reach f proj o x0 k hmin M F (by omega) hF
  have hi := spg_inv f proj C { o with maxIters := M, maxFCalls := F } hC hproj hf hm x0 _ hr
  obtain ⟨h1, h2⟩ := spgIter_counts f proj o x0 k
  refine ⟨spgIter f proj o x0 k, ⟨hr, fun hc => hk ⟨hc.2.1, hc.2.2.1⟩⟩, by omega, h2, hi.feas, ?_⟩
  unfold SpgGoing at hk
  rw [not_and_or, not_le] at hk
  rcases hk with h | h
  · exact Or.inl ⟨h, hi.delta⟩
  · right
    push Not at h
    rw [hi.grad] at h
    exact h

/-- **C126** with `progress_tol = 0` and large enough limits SPG on least squares over any closed convex set returns a feasible point at which every entry of the projected gradient
step is below `optim_tol`, and no feasible point `z` improves on it by more than `‖r‖ (‖z - x‖ + ‖r‖ + ‖∇f(x)‖)`, where `‖r‖² ≤ n · optim_tol²`. -/
theorem c126_least_squares_solved {m : ℕ} (A : Matrix (Fin m) (Fin n) ℝ) (b : Vec m) (L : ℝ) (hL : ∀ v : Vec n, ‖matVec A v‖ ^ 2 ≤ L * ‖v‖ ^ 2) (hL0 : 0 ≤ L) (hL5 : L ≤ 5e4)
    (proj : Vec n → Vec n) (C : Set (Vec n)) (hC : Convex ℝ C) (hproj : ∀ x, IsNearest C x (proj x)) (o : SpgOpts) (x0 : Vec n) (hm : 1 ≤ o.memory) (hg : 0 < o.suffDec)
    (hg2 : o.suffDec ≤ 1 / 2) (hp : o.progressTol = 0) (ht : 0 < o.optimTol) :
    ∃ N, ∀ M F, N ≤ M → N ≤ F → ∃ s, SpgSolveFrom (smoothQuadError A b) proj x0 { o with maxIters := M, maxFCalls := F } s ∧ s.x ∈ C ∧
      ∃ r : Vec n, r = proj (s.x - matVec A.transpose (matVec A s.x - b)) - s.x ∧ ‖r‖ ^ 2 ≤ n * o.optimTol ^ 2 ∧
        ∀ z ∈ C, ‖matVec A s.x - b‖ ^ 2 / 2 - ‖r‖ * (‖z - s.x‖ + ‖r‖ + ‖matVec A.transpose (matVec A s.x - b)‖) ≤ ‖matVec A z - b‖ ^ 2 / 2 := by
  obtain ⟨q1, q2, -⟩ := c126_least_squares A b L hL
  have hf : ∀ x, (smoothQuadError A b).func x = ‖matVec A x - b‖ ^ 2 / 2 := fun x => by rw [(c35_quad_error A b x).1]; ring
  have hgr : ∀ x, (smoothQuadError A b).grad x = matVec A.transpose (matVec A x - b) := fun x => by
    ext i; simp [smoothQuadError, matVec, Matrix.mulVec_transpose]
  have hq : ∀ x y, (smoothQuadError A b).func y - (smoothQuadError A b).func x - ⟪(smoothQuadError A b).grad x, y - x⟫ = ‖matVec A (y - x)‖ ^ 2 / 2 := fun x y => by
    have h1 : ⟪(smoothQuadError A b).grad x, y - x⟫ = ⟪matVec A x - b, matVec A (y - x)⟫ := by
      rw [hgr, real_inner_comm, ← inner_matVec, real_inner_comm]
    have e : matVec A y - b = (matVec A x - b) + matVec A (y - x) := by
      ext i; simp [matVec, Matrix.mulVec_sub]
    rw [hf, hf, h1, e, norm_add_sq_real]
    ring
  obtain ⟨N, hN⟩ := c126_terminates (smoothQuadError A b) proj C o x0 hC hproj q1 hm hg hg2 (Or.inr ht) L 0 hL0 hL5
    (fun x y => by rw [hq, abs_of_nonneg (by positivity)]; linarith [hL (y - x)]) q2
  refine ⟨N, fun M F hM hF => ?_⟩
  obtain ⟨s, hs, _, _, hx, hres⟩ := hN M F hM hF
  obtain ⟨_, k2, k3, _⟩ := c39_spg_result (smoothQuadError A b) proj C { o with maxIters := M, maxFCalls := F } hC hproj q1 hm x0 s hs fun x _ z _ => by
    have := hq x z
    have h0 : 0 ≤ ‖matVec A (z - x)‖ ^ 2 / 2 := by positivity
    linarith
  refine ⟨s, hs, hx, _, rfl, ?_, fun z hz => ?_⟩
  · rw [← hgr]
    refine k3 ?_
    rcases hres with h | h
    · rw [hp] at h
      exact absurd (h.1.trans_le h.2) (by norm_num)
    · exact h
  · have := k2 z hz
    rw [hf, hf, hgr] at this
    exact this

/-- The hypotheses are met: projecting `(2, 0, -3)` onto the box `[-1, 1]³`. -/
theorem ex_spg_conv : ∃ (P : Vec 3 → Vec 3) (C : Set (Vec 3)) (o : SpgOpts), Convex ℝ C ∧ (∀ x, IsNearest C x (P x)) ∧ 1 ≤ o.memory ∧ 0 < o.suffDec ∧ o.suffDec ≤ 1 / 2 ∧ o.progressTol = 0 ∧
    0 < o.optimTol ∧ ∀ v : Vec 3, ‖matVec (1 : Matrix (Fin 3) (Fin 3) ℝ) v‖ ^ 2 ≤ 1 * ‖v‖ ^ 2 := by
  obtain ⟨P, h1, h2, _⟩ := (c24_proj_box (some (vec fun _ : Fin 3 => -1)) (some (vec fun _ => 1))).2 (by simp) (by
    rintro a b ha hb i
    simp only [Option.some.injEq] at ha hb
    rw [← ha, ← hb]; norm_num [vec])
  refine ⟨P, _, ⟨0, 1e-5, 1e-4, 1, 1, 10⟩, fun x hx y hy a b ha hb hab => ?_, h2, by norm_num, by norm_num, by norm_num, rfl, by norm_num, fun v => by simp [matVec, vec]⟩
  simp only [boxSet, Set.mem_ofPred_eq, Option.some.injEq, forall_eq'] at hx hy ⊢
  refine ⟨fun i => ?_, fun i => ?_⟩
  · have h1 := hx.1 i
    have h2 := hy.1 i
    simp only [vec_apply] at h1 h2 ⊢
    change -1 ≤ a * x i + b * y i
    nlinarith
  · have h1 := hx.2 i
    have h2 := hy.2 i
    simp only [vec_apply] at h1 h2 ⊢
    change a * x i + b * y i ≤ 1
    nlinarith

example : ∃ (P : Vec 3 → Vec 3) (C : Set (Vec 3)) (o : SpgOpts), ∃ N, ∀ M F, N ≤ M → N ≤ F →
    ∃ s, SpgSolveFrom (smoothQuadError (1 : Matrix (Fin 3) (Fin 3) ℝ) (vec ![2, 0, -3])) P 0 { o with maxIters := M, maxFCalls := F } s ∧ s.x ∈ C := by
  obtain ⟨P, C, o, h1, h2, h3, h4, h5, h6, h7, h8⟩ := ex_spg_conv
  obtain ⟨N, hN⟩ := c126_least_squares_solved (1 : Matrix (Fin 3) (Fin 3) ℝ) (vec ![2, 0, -3]) 1 h8 zero_le_one (by norm_num) P C h1 h2 o 0 h3 h4 h5 h6 h7
  exact ⟨P, C, o, N, fun M F hM hF => (hN M F hM hF).imp fun s hs => ⟨hs.1, hs.2.1⟩⟩

example : ∃ (P : Vec 3 → Vec 3) (o : SpgOpts), ∃ N, ∀ M F, N ≤ M → N ≤ F →
    ∃ s, SpgSolveFrom ⟨fun _ => 1, fun _ => 0, fun _ => (0, 1)⟩ P 0 { o with maxIters := M, maxFCalls := F } s ∧ s.iters ≤ N := by
  obtain ⟨P, C, o, h1, h2, h3, h4, h5, h6, h7, h8⟩ := ex_spg_conv
  obtain ⟨N, hN⟩ := c126_terminates ⟨fun _ => 1, fun _ => 0, fun _ => (0, 1)⟩ P C o 0 h1 h2 (fun _ => rfl) h3 h4 h5 (.inr h7) 0 1 le_rfl (by norm_num)
    (fun x y => by simp) (fun _ => le_rfl)
  exact ⟨P, o, N, fun M F hM hF => (hN M F hM hF).imp fun s hs => ⟨hs.1, hs.2.1⟩⟩

end Verif.Opt
