import Verif.Opt.SpgProps
import Verif.Opt.SmoothProps
import Mathlib.Data.List.GetD

set_option autoImplicit false
/-!
# Spectral projected gradient: iteration bound (C126)
-/
noncomputable section
namespace Verif.Opt
open Verif.Loop
open scoped RealInnerProductSpace

/-- The nearest-point projected gradient steps of length 1 and `l` at one point bound each other. -/
theorem proj_step_compare {n : ℕ} (proj : Vec n → Vec n) (C : Set (Vec n)) (hC : Convex ℝ C) (hproj : ∀ x, IsNearest C x (proj x))
    (x g : Vec n) (l : ℝ) (hl : 0 < l) : ‖proj (x - g) - x‖ ≤ max 1 (1 / l) * ‖proj (x - l • g) - x‖ := by
  set p := proj (x - l • g) with hp
  set q := proj (x - g) with hq
  have h1 := (hproj (x - l • g)).inner_le hC (hproj (x - g)).1
  have h2 := (hproj (x - g)).inner_le hC (hproj (x - l • g)).1
  rw [← hp, ← hq] at h1
  rw [← hp, ← hq] at h2
  have e1 : x - l • g - p = -(p - x) - l • g := by abel
  have e2 : x - g - q = -(q - x) - g := by abel
  have e3 : q - p = (q - x) - (p - x) := by abel
  have e4 : p - q = (p - x) - (q - x) := by abel
  rw [e1, e3] at h1
  rw [e2, e4] at h2
  generalize p - x = u at *
  generalize q - x = v at *
  simp only [inner_sub_left, inner_sub_right, inner_neg_left, inner_smul_left, conj_trivial, real_inner_self_eq_norm_sq] at h1 h2
  have hc : ⟪v, u⟫ ≤ ‖v‖ * ‖u‖ := real_inner_le_norm v u
  have hs : ⟪u, v⟫ = ⟪v, u⟫ := real_inner_comm _ _
  have key : (l * ‖v‖ - ‖u‖) * (‖v‖ - ‖u‖) ≤ 0 := by nlinarith
  rcases le_total ‖v‖ ‖u‖ with h | h
  · calc ‖v‖ ≤ 1 * ‖u‖ := by linarith
      _ ≤ max 1 (1 / l) * ‖u‖ := mul_le_mul_of_nonneg_right (le_max_left _ _) (norm_nonneg _)
  · rcases h.eq_or_lt with h | h
    · rw [← h]
      calc ‖u‖ = 1 * ‖u‖ := (one_mul _).symm
        _ ≤ _ := mul_le_mul_of_nonneg_right (le_max_left _ _) (norm_nonneg _)
    · have h3 : l * ‖v‖ ≤ ‖u‖ := by
        by_contra hh
        push Not at hh
        nlinarith [mul_pos (sub_pos.mpr hh) (sub_pos.mpr h)]
      calc ‖v‖ ≤ 1 / l * ‖u‖ := by rw [one_div, ← div_eq_inv_mul, le_div_iff₀ hl]; linarith
        _ ≤ _ := mul_le_mul_of_nonneg_right (le_max_right _ _) (norm_nonneg _)

theorem spgLambda_lower {n : ℕ} (s y : Vec n) : 1e-10 ≤ spgLambda s y := by
  unfold spgLambda
  simp only
  generalize ⟪s, s⟫ / (⟪s, y⟫ + 2 ^ (-23 : ℤ)) = l
  by_cases h : l < 1e-10
  · rw [if_pos h, if_neg (by norm_num)]; norm_num
  · rw [if_neg h]
    split_ifs
    · norm_num
    · exact not_lt.mp h

/-- The step accepted by the line search is not short. -/
theorem ls_alpha_lower {n : ℕ} (func : Vec n → ℝ) (x d : Vec n) (fMax fLast gamma delta L : ℝ) (hg : gamma ≤ 1 / 2)
    (hl : fLast ≤ fMax) (hx : func x ≤ fMax) (hL0 : 0 < L) (hd : ‖d‖ ^ 2 ≤ -1e10 * delta)
    (hq : ∀ a : ℝ, 0 ≤ a → a ≤ 1 → func (x + a • d) ≤ func x + a * delta + L / 2 * a ^ 2 * ‖d‖ ^ 2) :
    min 1 ((1 - gamma) / (1e10 * L)) ≤ (lineSearch func x d fMax fLast gamma delta).alpha := by
  have hdel : delta ≤ 0 := by nlinarith [sq_nonneg ‖d‖]
  have ho := ls_out func x d fMax fLast gamma delta
  have key := ho.1.inv' (fun t => t.alpha = 1 ∨ 1 - gamma ≤ 1e10 * L * t.alpha) (Or.inl rfl) fun s hr _ hc => by
    right
    have hi := ls_inv func x d fMax fLast gamma delta s hr
    have hal := c39_line_search_halves func x d fMax fLast gamma delta hdel (by linarith) hl s hr
    have hal' := c39_line_search_halves func x d fMax fLast gamma delta hdel (by linarith) hl _ (.step hr hc)
    have h1 := hq s.alpha hi.pos.le hi.le_one
    have hlt : s.fVal > s.fLim := hc.1
    rw [hi.fVal, hi.fLim, hi.xNew] at hlt
    have hapos := hi.pos
    have h2 : s.alpha * (1 - gamma) * (-delta) < L / 2 * s.alpha ^ 2 * ‖d‖ ^ 2 := by nlinarith
    have h3 : L / 2 * s.alpha ^ 2 * ‖d‖ ^ 2 ≤ L / 2 * s.alpha ^ 2 * (-1e10 * delta) :=
      mul_le_mul_of_nonneg_left hd (by positivity)
    have h4 : s.alpha * (-delta) * (1 - gamma) < s.alpha * (-delta) * (1e10 * L * (s.alpha / 2)) := by nlinarith
    have h5 : 0 ≤ s.alpha * (-delta) := mul_nonneg hapos.le (by linarith)
    have h6 := lt_of_mul_lt_mul_left h4 h5
    have e : (lsNext func x d fMax fLast (gamma * delta) delta s).alpha = s.alpha / 2 := by
      rw [hal', hal]
      have := hi.calls1
      change (1 / 2 : ℝ) ^ (s.fCalls + 1 - 1) = _
      rw [show s.fCalls + 1 - 1 = (s.fCalls - 1) + 1 by omega, pow_succ]; ring
    rw [e]; exact h6.le
  rcases key with h | h
  · rw [h]; exact min_le_left _ _
  · refine (min_le_right _ _).trans ?_
    rw [div_le_iff₀ (by positivity)]; linarith

section outer
variable {n : ℕ} (f : SmoothFn (Vec n)) (proj : Vec n → Vec n) (C : Set (Vec n)) (o : SpgOpts)
variable (hC : Convex ℝ C) (hproj : ∀ x, IsNearest C x (proj x)) (hf : f.Pair) (hm : 1 ≤ o.memory)
variable (L : ℝ) (hL0 : 0 < L) (hL : L ≤ 5e4) (hg0 : 0 < o.suffDec) (hg : o.suffDec ≤ 1 / 2)
variable (hq : ∀ x ∈ C, ∀ z ∈ C, f.func z ≤ f.func x + ⟪f.grad x, z - x⟫ + L / 2 * ‖z - x‖ ^ 2)

/-- The decrease guaranteed by a step which promises at least `progress_tol`. -/
def spgEta (o : SpgOpts) (L : ℝ) : ℝ := o.suffDec * min 1 ((1 - o.suffDec) / (1e10 * L)) * o.progressTol

include hC hproj hf hm hL0 hL hg0 hg hq in
/-- One step: the new value is below the largest remembered one by a fixed multiple of the promised decrease. -/
theorem spg_step_decrease (x0 : Vec n) (s : SpgState n) (h : Reach (spgCond proj o) (spgStep f proj o) (spgInit f proj x0 o) s) :
    f.func (spgStep f proj o s).x ≤ listMax s.fPast + o.suffDec * min 1 ((1 - o.suffDec) / (1e10 * L)) * (spgStep f proj o s).delta ∧
    (spgStep f proj o s).fPast = (f.func (spgStep f proj o s).x :: s.fPast).take o.memory ∧ (spgStep f proj o s).delta ≤ 0 ∧
    (spgStep f proj o s).fCalls ≤ s.fCalls + 50 := by
  have hs := spg_inv f proj C o hC hproj hf hm x0 s h
  have hla := spgLambda_pos (s.x - s.xPrev) (s.g - s.gPrev)
  have hdesc := proj_descent proj C hC hproj s.x s.g hs.feas _ hla.1
  have hmove := fun (a : ℝ) (h0 : 0 ≤ a) (h1 : a ≤ 1) => spg_move proj C hC hproj hs.feas (s.x - spgLambda (s.x - s.xPrev) (s.g - s.gPrev) • s.g) h0 h1
  set d := proj (s.x - spgLambda (s.x - s.xPrev) (s.g - s.gPrev) • s.g) - s.x with hd
  have hdel : ⟪s.g, d⟫ ≤ 0 := by
    by_contra hneg
    push Not at hneg
    have := mul_pos hla.1 hneg
    nlinarith [sq_nonneg ‖d‖]
  have hd2 : ‖d‖ ^ 2 ≤ -1e10 * ⟪s.g, d⟫ := by nlinarith
  have hmem : f.func s.x ∈ s.fPast := List.mem_of_mem_head? (by rw [hs.head]; rfl)
  have hhead : s.fPast.headD 0 = f.func s.x := by
    rw [List.headD_eq_head?_getD, hs.head]; rfl
  have hx : f.func s.x ≤ listMax s.fPast := le_listMax hmem
  have hqq : ∀ a : ℝ, 0 ≤ a → a ≤ 1 → f.func (s.x + a • d) ≤ f.func s.x + a * ⟪s.g, d⟫ + L / 2 * a ^ 2 * ‖d‖ ^ 2 := by
    intro a h0 h1
    have := hq s.x hs.feas (s.x + a • d) (hmove a h0 h1)
    rw [add_sub_cancel_left, inner_smul_right, norm_smul, mul_pow, Real.norm_eq_abs, sq_abs, ← hs.grad] at this
    linarith
  have hacc := c39_line_search_accepts f.func s.x d (listMax s.fPast) (s.fPast.headD 0) o.suffDec ⟪s.g, d⟫ L hg (by rw [hhead]; exact hx) hx hL0.le hL hd2 hqq
  have hlow := ls_alpha_lower f.func s.x d (listMax s.fPast) (s.fPast.headD 0) o.suffDec ⟪s.g, d⟫ L hg (by rw [hhead]; exact hx) hx hL0 hd2 hqq
  have ho := ls_out f.func s.x d (listMax s.fPast) (s.fPast.headD 0) o.suffDec ⟪s.g, d⟫
  have hi := ls_inv f.func s.x d (listMax s.fPast) (s.fPast.headD 0) o.suffDec ⟪s.g, d⟫ _ ho.1
  have ex : (spgStep f proj o s).x = (lineSearch f.func s.x d (listMax s.fPast) (s.fPast.headD 0) o.suffDec ⟪s.g, d⟫).xNew := rfl
  have ed : (spgStep f proj o s).delta = ⟪s.g, d⟫ := rfl
  refine ⟨?_, ?_, by rw [ed]; exact hdel, ?_⟩
  · rw [ex, ed, ← hi.fVal]
    refine hacc.trans ?_
    rw [hi.fLim]
    have := mul_le_mul_of_nonneg_left hlow hg0.le
    nlinarith
  · rw [ex, ← hi.fVal, ← hs.mem]; rfl
  · have := hi.calls
    show s.fCalls + _ ≤ _
    exact Nat.add_le_add_left this _

include hC hproj hf hm hL0 hL hg0 hg hq in
/-- Every remembered value has fallen by `spgEta` for each block of `memory` steps before it. -/
theorem spg_window (x0 : Vec n) (htol : 0 < o.progressTol) (s : SpgState n)
    (h : Reach (spgCond proj o) (spgStep f proj o) (spgInit f proj x0 o) s) : 1 ≤ s.iters ∧ s.fCalls ≤ 2 + 50 * (s.iters - 1) ∧
    (s.delta ≤ -o.progressTol → ∀ j, j < o.memory →
      s.fPast.getD j 0 ≤ f.func (spgInit f proj x0 o).x - spgEta o L * (((s.iters - 1) - j + o.memory - 1) / o.memory : ℕ)) := by
  have heta : 0 ≤ spgEta o L := by
    unfold spgEta
    have : 0 ≤ min 1 ((1 - o.suffDec) / (1e10 * L)) := le_min zero_le_one (div_nonneg (by linarith) (by positivity))
    positivity
  refine h.inv' (fun s => 1 ≤ s.iters ∧ s.fCalls ≤ 2 + 50 * (s.iters - 1) ∧
    (s.delta ≤ -o.progressTol → ∀ j, j < o.memory →
      s.fPast.getD j 0 ≤ f.func (spgInit f proj x0 o).x - spgEta o L * (((s.iters - 1) - j + o.memory - 1) / o.memory : ℕ))) ?_ ?_
  · refine ⟨le_rfl, le_rfl, fun _ j hj => ?_⟩
    have e1 : (spgInit f proj x0 o).fPast.getD j 0 = f.func (spgInit f proj x0 o).x := by
      simp only [spgInit, show ∀ x, f.gradVal x = (f.grad x, f.func x) from hf]
      rw [List.getD_eq_getElem _ _ (by simpa using hj), List.getElem_replicate]
    have e2 : ((spgInit f proj x0 o).iters - 1 - j + o.memory - 1) / o.memory = 0 := by
      apply Nat.div_eq_of_lt
      have : (spgInit f proj x0 o).iters = 1 := rfl
      omega
    rw [e1, e2]; simp
  · rintro s hr ⟨hit, hfc, hw⟩ hc
    obtain ⟨h1, h2, h3, h4⟩ := spg_step_decrease f proj C o hC hproj hf hm L hL0 hL hg0 hg hq x0 s hr
    have hs := spg_inv f proj C o hC hproj hf hm x0 s hr
    have hit' : (spgStep f proj o s).iters = s.iters + 1 := rfl
    refine ⟨by omega, by omega, fun hdel j hj => ?_⟩
    have hw := hw hc.2.1
    obtain ⟨k, hk⟩ : ∃ k, s.iters = k + 1 := ⟨s.iters - 1, by omega⟩
    have hne : s.fPast ≠ [] := by
      intro he
      have := hs.mem
      rw [he] at this
      simp at this; omega
    have hmax : listMax s.fPast ≤ f.func (spgInit f proj x0 o).x - spgEta o L * ((k / o.memory : ℕ) : ℝ) := by
      refine listMax_le hne fun v hv => ?_
      obtain ⟨i, hi, rfl⟩ := List.getElem_of_mem hv
      have hi' : i < o.memory := by rw [← hs.mem]; exact hi
      have h5 := hw i hi'
      rw [List.getD_eq_getElem _ _ hi] at h5
      refine h5.trans ?_
      have : k / o.memory ≤ (s.iters - 1 - i + o.memory - 1) / o.memory := Nat.div_le_div_right (by omega)
      have hc : ((k / o.memory : ℕ) : ℝ) ≤ ((s.iters - 1 - i + o.memory - 1) / o.memory : ℕ) := by exact_mod_cast this
      have := mul_le_mul_of_nonneg_left hc heta
      linarith
    rw [h2, hit', hk]
    cases j with
    | zero =>
      obtain ⟨M, hM⟩ : ∃ M, o.memory = M + 1 := ⟨o.memory - 1, by omega⟩
      have e : (f.func (spgStep f proj o s).x :: s.fPast).take o.memory = f.func (spgStep f proj o s).x :: s.fPast.take M := by rw [hM]; rfl
      rw [e, List.getD_cons_zero]
      have e2 : (k + 1 + 1 - 1 - 0 + o.memory - 1) / o.memory = k / o.memory + 1 := by
        rw [show k + 1 + 1 - 1 - 0 + o.memory - 1 = k + o.memory by omega, Nat.add_div_right _ (by omega)]
      rw [e2]
      have : o.suffDec * min 1 ((1 - o.suffDec) / (1e10 * L)) * (spgStep f proj o s).delta ≤ -spgEta o L := by
        unfold spgEta
        have : 0 ≤ o.suffDec * min 1 ((1 - o.suffDec) / (1e10 * L)) :=
          mul_nonneg hg0.le (le_min zero_le_one (div_nonneg (by linarith) (by positivity)))
        nlinarith
      push_cast
      linarith
    | succ j =>
      have h5 := hw j (by omega)
      have e : ((f.func (spgStep f proj o s).x :: s.fPast).take o.memory).getD (j + 1) 0 = s.fPast.getD j 0 := by
        have hl : j < s.fPast.length := by rw [hs.mem]; omega
        rw [List.getD_eq_getElem _ _ (by simp; omega), List.getD_eq_getElem _ _ hl, List.getElem_take, List.getElem_cons_succ]
      rw [e]
      rw [hk] at h5
      convert h5 using 5
      omega

/-- Where the promised decrease of a state comes from. -/
structure SpgDelta (s : SpgState n) : Prop where
  grad : s.gPrev = f.grad s.xPrev
  delta : ∃ l : ℝ, 1e-10 ≤ l ∧ l ≤ 1e10 ∧ s.delta = ⟪s.gPrev, proj (s.xPrev - l • s.gPrev) - s.xPrev⟫

include hC hproj hf hm in
theorem spg_delta (x0 : Vec n) (s : SpgState n) (h : Reach (spgCond proj o) (spgStep f proj o) (spgInit f proj x0 o) s) : SpgDelta f proj s := by
  refine h.inv' _ ⟨?_, 1, by norm_num, by norm_num, ?_⟩ fun s hr hs _ => ?_
  · simp only [spgInit, show ∀ x, f.gradVal x = (f.grad x, f.func x) from hf]
  · simp only [spgInit, one_smul]
  · exact ⟨(spg_inv f proj C o hC hproj hf hm x0 s hr).grad, spgLambda (s.x - s.xPrev) (s.g - s.gPrev), spgLambda_lower _ _, (spgLambda_pos _ _).2, rfl⟩

include hC hproj hf hm hL0 hL hg0 hg hq in
/-- **C126** iteration bound. For a function which is bounded below by `fl` on the convex set and has an upper quadratic model with curvature `L`, every
state of the SPG loop, in particular the returned one, has an iteration count within an explicit bound, whatever `max_iters` is: a block of `memory` iterations
lowers the largest remembered value by at least `eta = suff_dec * a * progress_tol`, where `a` bounds the accepted step lengths from below. -/
theorem c126_iterations (x0 : Vec n) (htol : 0 < o.progressTol) (fl : ℝ) (hfl : ∀ x ∈ C, fl ≤ f.func x) (s : SpgState n)
    (h : Reach (spgCond proj o) (spgStep f proj o) (spgInit f proj x0 o) s) :
    (s.iters : ℝ) ≤ 2 + o.memory * (f.func (spgInit f proj x0 o).x - fl) / (o.suffDec * min 1 ((1 - o.suffDec) / (1e10 * L)) * o.progressTol) ∧
    s.fCalls ≤ 2 + 50 * (s.iters - 1) := by
  have heta : 0 < spgEta o L := by
    unfold spgEta
    have : 0 < min 1 ((1 - o.suffDec) / (1e10 * L)) := lt_min one_pos (div_pos (by linarith) (by positivity))
    positivity
  refine ⟨?_, (spg_window f proj C o hC hproj hf hm L hL0 hL hg0 hg hq x0 htol s h).2.1⟩
  have h1 : 0 ≤ f.func (spgInit f proj x0 o).x - fl := by
    have := (spg_inv f proj C o hC hproj hf hm x0 _ .init).feas
    linarith [hfl _ this]
  have hB : 0 ≤ o.memory * (f.func (spgInit f proj x0 o).x - fl) / (o.suffDec * min 1 ((1 - o.suffDec) / (1e10 * L)) * o.progressTol) :=
    div_nonneg (mul_nonneg (Nat.cast_nonneg _) h1) heta.le
  cases h with
  | init =>
    have : (spgInit f proj x0 o).iters = 1 := rfl
    rw [this]; push_cast; linarith
  | @step t hr hc =>
    obtain ⟨h2, -, h3⟩ := spg_window f proj C o hC hproj hf hm L hL0 hL hg0 hg hq x0 htol t hr
    have ht := spg_inv f proj C o hC hproj hf hm x0 t hr
    have h4 := h3 hc.2.1 0 (by omega)
    have e : t.fPast.getD 0 0 = f.func t.x := by
      rw [← List.headD_eq_getD, List.headD_eq_head?_getD, ht.head]; rfl
    rw [e] at h4
    have h5 := hfl t.x ht.feas
    have hit : (spgStep f proj o t).iters = t.iters + 1 := rfl
    obtain ⟨k, hk⟩ : ∃ k, t.iters = k + 1 := ⟨t.iters - 1, by omega⟩
    rw [hit, hk]
    rw [hk] at h4
    have h6 : k ≤ o.memory * ((k + 1 - 1 - 0 + o.memory - 1) / o.memory) := by
      have := Nat.div_add_mod (k + 1 - 1 - 0 + o.memory - 1) o.memory
      have hlt := Nat.mod_lt (k + 1 - 1 - 0 + o.memory - 1) (by omega : o.memory > 0)
      omega
    have h7 : (k : ℝ) ≤ o.memory * (((k + 1 - 1 - 0 + o.memory - 1) / o.memory : ℕ) : ℝ) := by exact_mod_cast h6
    have h8 : (k : ℝ) * spgEta o L ≤ o.memory * (f.func (spgInit f proj x0 o).x - fl) := by
      have hM : (0 : ℝ) ≤ o.memory := Nat.cast_nonneg _
      calc (k : ℝ) * spgEta o L ≤ o.memory * (((k + 1 - 1 - 0 + o.memory - 1) / o.memory : ℕ) : ℝ) * spgEta o L := mul_le_mul_of_nonneg_right h7 heta.le
        _ = o.memory * (spgEta o L * (((k + 1 - 1 - 0 + o.memory - 1) / o.memory : ℕ) : ℝ)) := by ring
        _ ≤ _ := mul_le_mul_of_nonneg_left (by linarith) hM
    have h9 : (k : ℝ) ≤ o.memory * (f.func (spgInit f proj x0 o).x - fl) / (o.suffDec * min 1 ((1 - o.suffDec) / (1e10 * L)) * o.progressTol) := by
      exact (le_div_iff₀ heta).2 h8
    push_cast
    linarith

include hC hproj hf hm hL0 hL hg0 hg hq in
/-- **C126** with `max_iters` above that bound `B` and `max_f_calls` above `2 + 50 B`, SPG stops at an almost stationary point: every entry of the projected
gradient step at the returned point is below `optim_tol`, or the squared norm of the one at the previous point is below `1e10 * progress_tol`. -/
theorem c126_stationary (x0 : Vec n) (htol : 0 < o.progressTol) (fl : ℝ) (hfl : ∀ x ∈ C, fl ≤ f.func x) (s : SpgState n)
    (h : SpgSolveFrom f proj x0 o s)
    (hit : 2 + o.memory * (f.func (spgInit f proj x0 o).x - fl) / (o.suffDec * min 1 ((1 - o.suffDec) / (1e10 * L)) * o.progressTol) < o.maxIters)
    (hfc : 2 + 50 * (2 + o.memory * (f.func (spgInit f proj x0 o).x - fl) / (o.suffDec * min 1 ((1 - o.suffDec) / (1e10 * L)) * o.progressTol)) < o.maxFCalls) :
    (∀ i, |(proj (s.x - f.grad s.x) - s.x) i| < o.optimTol) ∨
    ‖proj (s.xPrev - f.grad s.xPrev) - s.xPrev‖ ^ 2 < 1e10 * o.progressTol := by
  obtain ⟨h1, h2⟩ := c126_iterations f proj C o hC hproj hf hm L hL0 hL hg0 hg hq x0 htol fl hfl s h.1
  have hs := spg_inv f proj C o hC hproj hf hm x0 s h.1
  have hn := h.2
  simp only [spgCond, not_and_or, not_lt, not_le, not_exists, hs.grad] at hn
  rcases hn with hn | hn | hn | hn
  · have : (o.maxIters : ℝ) ≤ s.iters := by exact_mod_cast hn
    linarith
  · right
    obtain ⟨hgr, l, hl1, hl2, hl3⟩ := spg_delta f proj C o hC hproj hf hm x0 s h.1
    have hl0 : 0 < l := by linarith [show (0 : ℝ) < 1e-10 by norm_num]
    have a1 := proj_descent proj C hC hproj s.xPrev s.gPrev hs.feasPrev l hl0
    have a2 := proj_step_compare proj C hC hproj s.xPrev s.gPrev l hl0
    rw [← hl3] at a1
    rw [← hgr]
    set u := ‖proj (s.xPrev - l • s.gPrev) - s.xPrev‖ with hu
    set v := ‖proj (s.xPrev - s.gPrev) - s.xPrev‖ with hv
    have hu0 : 0 ≤ u := norm_nonneg _
    have a3 : v ^ 2 ≤ (max 1 (1 / l)) ^ 2 * u ^ 2 := by
      rw [← mul_pow]; exact pow_le_pow_left₀ (norm_nonneg _) a2 2
    have a4 : u ^ 2 < l * o.progressTol := by nlinarith
    have a5 : (max 1 (1 / l)) ^ 2 * l ≤ 1e10 := by
      rcases le_total 1 (1 / l) with hh | hh
      · rw [max_eq_right hh]
        have : (1 / l) ^ 2 * l = 1 / l := by field_simp
        rw [this, div_le_iff₀ hl0]
        have : (1e10 : ℝ) * 1e-10 = 1 := by norm_num
        nlinarith
      · rw [max_eq_left hh]; linarith
    have a6 : 0 < (max 1 (1 / l)) ^ 2 := by positivity
    calc v ^ 2 ≤ (max 1 (1 / l)) ^ 2 * u ^ 2 := a3
      _ < (max 1 (1 / l)) ^ 2 * (l * o.progressTol) := mul_lt_mul_of_pos_left a4 a6
      _ = (max 1 (1 / l)) ^ 2 * l * o.progressTol := by ring
      _ ≤ 1e10 * o.progressTol := mul_le_mul_of_nonneg_right a5 htol.le
  · exact Or.inl hn
  · have a1 : (o.maxFCalls : ℝ) ≤ s.fCalls := by exact_mod_cast hn
    have a2 : (s.fCalls : ℝ) ≤ 2 + 50 * ((s.iters - 1 : ℕ) : ℝ) := by exact_mod_cast h2
    have a3 : ((s.iters - 1 : ℕ) : ℝ) ≤ s.iters := by exact_mod_cast Nat.sub_le _ _
    linarith

end outer

/-- **C126** the hypotheses hold for least squares over any closed convex set: `1/2 ‖A x - b‖^2` is at least 0 and has the quadratic model with any
`L` such that `‖A v‖^2 ≤ L ‖v‖^2`. -/
theorem c126_least_squares {m n : ℕ} (A : Matrix (Fin m) (Fin n) ℝ) (b : Vec m) (L : ℝ) (hL : ∀ v : Vec n, ‖matVec A v‖ ^ 2 ≤ L * ‖v‖ ^ 2) :
    (smoothQuadError A b).Pair ∧ (∀ x, 0 ≤ (smoothQuadError A b).func x) ∧
    ∀ x z, (smoothQuadError A b).func z ≤ (smoothQuadError A b).func x + ⟪(smoothQuadError A b).grad x, z - x⟫ + L / 2 * ‖z - x‖ ^ 2 := by
  have hf : ∀ x, (smoothQuadError A b).func x = 1 / 2 * ‖matVec A x - b‖ ^ 2 := fun x => (c35_quad_error A b x).1
  refine ⟨fun _ => rfl, fun x => by rw [hf]; positivity, fun x z => ?_⟩
  have hg : ⟪(smoothQuadError A b).grad x, z - x⟫ = ⟪matVec A x - b, matVec A (z - x)⟫ := by
    have : (smoothQuadError A b).grad x = matVec A.transpose (matVec A x - b) := by
      ext i; simp [smoothQuadError, matVec, Matrix.mulVec_transpose]
    rw [this, real_inner_comm, ← inner_matVec, real_inner_comm]
  have e : matVec A z - b = (matVec A x - b) + matVec A (z - x) := by
    ext i; simp [matVec, Matrix.mulVec_sub]
  rw [hf, hf, hg, e, norm_add_sq_real]
  linarith [hL (z - x)]

/-- Beside the theorems: projecting onto the box `[-1, 1]^3` with a scaled identity meets every hypothesis. -/
theorem ex_spg_rate : ∃ (P : Vec 3 → Vec 3) (C : Set (Vec 3)) (o : SpgOpts) (f : SmoothFn (Vec 3)), Convex ℝ C ∧ (∀ x, IsNearest C x (P x)) ∧ f.Pair ∧ 1 ≤ o.memory ∧
    0 < o.suffDec ∧ o.suffDec ≤ 1 / 2 ∧ 0 < o.progressTol ∧ (∀ x ∈ C, 0 ≤ f.func x) ∧
    (∀ x ∈ C, ∀ z ∈ C, f.func z ≤ f.func x + ⟪f.grad x, z - x⟫ + (1 : ℝ) / 2 * ‖z - x‖ ^ 2) ∧
    2 + 50 * (2 + o.memory * (f.func (spgInit f P 0 o).x - 0) / (o.suffDec * min 1 ((1 - o.suffDec) / (1e10 * 1)) * o.progressTol)) < o.maxFCalls ∧
    2 + o.memory * (f.func (spgInit f P 0 o).x - 0) / (o.suffDec * min 1 ((1 - o.suffDec) / (1e10 * 1)) * o.progressTol) < o.maxIters := by
  obtain ⟨P, h1, h2, _⟩ := (c24_proj_box (some (vec fun _ : Fin 3 => -1)) (some (vec fun _ => 1))).2 (by simp) (by
    rintro a b ha hb i
    simp only [Option.some.injEq] at ha hb
    rw [← ha, ← hb]; norm_num [vec])
  obtain ⟨q1, q2, q3⟩ := c126_least_squares (1 : Matrix (Fin 3) (Fin 3) ℝ) (vec ![2, 0, -3]) 1 (fun v => by simp [matVec, vec])
  set f := smoothQuadError (1 : Matrix (Fin 3) (Fin 3) ℝ) (vec ![2, 0, -3])
  obtain ⟨N, hN⟩ := exists_nat_gt (2 + 50 * (2 + (10 : ℕ) * (f.func (spgInit f P 0 ⟨0, 0, 0, 0, 0, 0⟩).x - 0) / (1e-4 * min 1 ((1 - 1e-4) / (1e10 * 1)) * 1e-9)) : ℝ)
  obtain ⟨N', hN'⟩ := exists_nat_gt (2 + (10 : ℕ) * (f.func (spgInit f P 0 ⟨0, 0, 0, 0, 0, 0⟩).x - 0) / (1e-4 * min 1 ((1 - 1e-4) / (1e10 * 1)) * 1e-9) : ℝ)
  refine ⟨P, _, ⟨1e-9, 1e-5, 1e-4, N', N, 10⟩, f, fun x hx y hy a b ha hb hab => ?_, h2, q1, by norm_num, by norm_num, by norm_num, by norm_num,
    fun x _ => q2 x, fun x _ z _ => q3 x z, hN, hN'⟩
  simp only [boxSet, Set.mem_ofPred_eq, Option.some.injEq, forall_eq'] at hx hy ⊢
  refine ⟨fun i => ?_, fun i => ?_⟩
  · have h1 := hx.1 i
    have h2 := hy.1 i
    simp only [vec_apply] at h1 h2 ⊢
    change -1 ≤ a * x i + b * y i
    nlinarith
  · have h1 := hx.2 i
    have h2 := hy.2 i
    simp only [vec_apply] at h1 h2 ⊢
    change a * x i + b * y i ≤ 1
    nlinarith

example : ∃ (P : Vec 3 → Vec 3) (C : Set (Vec 3)) (o : SpgOpts) (f : SmoothFn (Vec 3)), ∀ s, SpgSolveFrom f P 0 o s →
    s.iters < o.maxIters ∧ ((∀ i, |(P (s.x - f.grad s.x) - s.x) i| < o.optimTol) ∨ ‖P (s.xPrev - f.grad s.xPrev) - s.xPrev‖ ^ 2 < 1e10 * o.progressTol) := by
  obtain ⟨P, C, o, f, h1, h2, h3, h4, h5, h6, h7, h8, h9, h10, h11⟩ := ex_spg_rate
  refine ⟨P, C, o, f, fun s hs => ⟨?_, c126_stationary f P C o h1 h2 h3 h4 1 one_pos (by norm_num) h5 h6 h9 0 h7 0 h8 s hs h11 h10⟩⟩
  exact_mod_cast (c126_iterations f P C o h1 h2 h3 h4 1 one_pos (by norm_num) h5 h6 h9 0 h7 0 h8 s hs.1).1.trans_lt h11

end Verif.Opt
