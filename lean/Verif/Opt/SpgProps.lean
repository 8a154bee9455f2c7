import Verif.Opt.SpgModel
import Verif.Opt.ProjProps

set_option autoImplicit false
/-!
# Spectral projected gradient (C39)
-/
noncomputable section
namespace Verif.Opt
open Verif.Loop
open scoped RealInnerProductSpace

/-- The nearest point of a convex set satisfies the variational inequality. -/
theorem IsNearest.inner_le {E : Type*} [NormedAddCommGroup E] [InnerProductSpace ℝ E] {C : Set E} (hC : Convex ℝ C) {x p w : E}
    (h : IsNearest C x p) (hw : w ∈ C) : ⟪x - p, w - p⟫ ≤ 0 := by
  have key : ∀ t : ℝ, 0 < t → t ≤ 1 → ⟪x - p, w - p⟫ ≤ t / 2 * ‖w - p‖ ^ 2 := by
    intro t h0 h1
    have hm : p + t • (w - p) ∈ C := by
      have e : p + t • (w - p) = (1 - t) • p + t • w := by module
      rw [e]; exact hC h.1 hw (by linarith) h0.le (by ring)
    have h2 := h.le hm
    have e : x - (p + t • (w - p)) = (x - p) - t • (w - p) := by abel
    have h3 : ‖x - p‖ ^ 2 ≤ ‖x - p‖ ^ 2 - 2 * (t * ⟪x - p, w - p⟫) + t ^ 2 * ‖w - p‖ ^ 2 := by
      have := pow_le_pow_left₀ (norm_nonneg _) h2 2
      rwa [e, norm_sub_sq_real (x - p), inner_smul_right, norm_smul, mul_pow, Real.norm_eq_abs, sq_abs] at this
    have h4 : 0 ≤ t * (t / 2 * ‖w - p‖ ^ 2 - ⟪x - p, w - p⟫) := by nlinarith
    have := nonneg_of_mul_nonneg_right h4 h0
    linarith
  by_contra hneg
  push Not at hneg
  set a := ⟪x - p, w - p⟫ with ha
  set B := ‖w - p‖ ^ 2 with hB
  have hB0 : 0 ≤ B := sq_nonneg _
  have h1 := key (min 1 (a / (B + 1))) (lt_min one_pos (by positivity)) (min_le_left _ _)
  have h2 : min 1 (a / (B + 1)) / 2 * B ≤ a / (B + 1) / 2 * B := by
    have := min_le_right 1 (a / (B + 1))
    nlinarith
  have h3 : a / (B + 1) / 2 * B < a := by
    rw [div_div, div_mul_eq_mul_div, div_lt_iff₀ (by positivity)]
    nlinarith
  linarith

theorem foldl_max_ge (l : List ℝ) (a : ℝ) : a ≤ l.foldl max a ∧ ∀ v ∈ l, v ≤ l.foldl max a := by
  induction l generalizing a with
  | nil => exact ⟨le_rfl, by simp⟩
  | cons b l ih =>
    obtain ⟨h1, h2⟩ := ih (max a b)
    refine ⟨(le_max_left a b).trans h1, fun v hv => ?_⟩
    rcases List.mem_cons.mp hv with rfl | hv
    · exact (le_max_right a v).trans h1
    · exact h2 v hv

theorem foldl_max_le (l : List ℝ) (a c : ℝ) (ha : a ≤ c) (h : ∀ v ∈ l, v ≤ c) : l.foldl max a ≤ c := by
  induction l generalizing a with
  | nil => exact ha
  | cons b l ih => exact ih (max a b) (max_le ha (h b (by simp))) fun v hv => h v (by simp [hv])

theorem foldl_max_mem (l : List ℝ) (a : ℝ) : l.foldl max a = a ∨ l.foldl max a ∈ l := by
  induction l generalizing a with
  | nil => exact Or.inl rfl
  | cons b l ih =>
    rcases ih (max a b) with h | h
    · simp only [List.foldl_cons, h]
      rcases max_choice a b with h' | h' <;> rw [h'] <;> simp
    · exact Or.inr (by simp [h])

theorem le_listMax {l : List ℝ} {v : ℝ} (h : v ∈ l) : v ≤ listMax l := by
  cases l with
  | nil => simp at h
  | cons a l =>
    rcases List.mem_cons.mp h with rfl | h
    · exact (foldl_max_ge l _).1
    · exact (foldl_max_ge l a).2 v h

theorem listMax_le {l : List ℝ} (hne : l ≠ []) {c : ℝ} (h : ∀ v ∈ l, v ≤ c) : listMax l ≤ c := by
  cases l with
  | nil => exact absurd rfl hne
  | cons a l => exact foldl_max_le l a c (h a (by simp)) fun v hv => h v (by simp [hv])

theorem listMax_mem {l : List ℝ} (hne : l ≠ []) : listMax l ∈ l := by
  cases l with
  | nil => exact absurd rfl hne
  | cons a l => rcases foldl_max_mem l a with h | h <;> simp [listMax, h]

section ls
variable {n : ℕ} (func : Vec n → ℝ) (x d : Vec n) (fMax fLast gamma delta : ℝ)

theorem ls_out : Out lsCond (lsNext func x d fMax fLast (gamma * delta) delta) (lsInit func x d fMax (gamma * delta))
    (lineSearch func x d fMax fLast gamma delta) := by
  classical
  exact run_out (fun s => s.fCalls) 50 (fun s h => h.2) (fun s _ => Nat.lt_succ_self _) 50 _ (by simp [lsInit])

/-- What the line search maintains. -/
structure LsInv (s : LSState n) : Prop where
  pos : 0 < s.alpha
  le_one : s.alpha ≤ 1
  xNew : s.xNew = x + s.alpha • d
  fVal : s.fVal = func s.xNew
  fLim : s.fLim = fMax + s.alpha * (gamma * delta)
  calls : s.fCalls ≤ 50
  calls1 : 1 ≤ s.fCalls

theorem ls_inv (s : LSState n) (h : Reach lsCond (lsNext func x d fMax fLast (gamma * delta) delta) (lsInit func x d fMax (gamma * delta)) s) :
    LsInv func x d fMax gamma delta s := by
  refine h.inv _ ⟨by simp [lsInit], by simp [lsInit], by simp [lsInit], by simp [lsInit], by simp [lsInit], by simp [lsInit], by simp [lsInit]⟩
    fun s hs hc => ?_
  have hp := hs.pos
  have h1 := hs.le_one
  have ha : 0 < (lsNext func x d fMax fLast (gamma * delta) delta s).alpha ∧ (lsNext func x d fMax fLast (gamma * delta) delta s).alpha ≤ 1 := by
    simp only [lsNext]
    split
    · rename_i h; exact ⟨by linarith [h.1], by linarith [h.2]⟩
    · exact ⟨by linarith, by linarith⟩
  exact ⟨ha.1, ha.2, rfl, rfl, rfl, Nat.succ_le_of_lt hc.2, Nat.succ_le_succ (Nat.zero_le _)⟩

end ls

/-- **C39** the line search: it returns a step `alpha` in `(0, 1]` along `d` with the value of the function there, after between 1 and 50 calls,
and the value meets the non-monotone sufficient decrease condition unless the 50 calls are used up. -/
theorem c39_line_search {n : ℕ} (func : Vec n → ℝ) (x d : Vec n) (fMax fLast gamma delta : ℝ) :
    ∃ alpha : ℝ, 0 < alpha ∧ alpha ≤ 1 ∧
      (lineSearch func x d fMax fLast gamma delta).xNew = x + alpha • d ∧
      (lineSearch func x d fMax fLast gamma delta).fVal = func (x + alpha • d) ∧
      1 ≤ (lineSearch func x d fMax fLast gamma delta).fCalls ∧ (lineSearch func x d fMax fLast gamma delta).fCalls ≤ 50 ∧
      (func (x + alpha • d) ≤ fMax + gamma * alpha * delta ∨ (lineSearch func x d fMax fLast gamma delta).fCalls = 50) := by
  have ho := ls_out func x d fMax fLast gamma delta
  have hi := ls_inv func x d fMax fLast gamma delta _ ho.1
  refine ⟨_, hi.pos, hi.le_one, hi.xNew, by rw [hi.fVal, hi.xNew], hi.calls1, hi.calls, ?_⟩
  by_cases h : (lineSearch func x d fMax fLast gamma delta).fCalls = 50
  · exact Or.inr h
  · left
    have h1 : ¬ (lineSearch func x d fMax fLast gamma delta).fVal > (lineSearch func x d fMax fLast gamma delta).fLim :=
      fun hgt => ho.2 ⟨hgt, by have := hi.calls; omega⟩
    rw [hi.fVal, hi.fLim, hi.xNew] at h1
    linarith [not_lt.mp h1, mul_left_comm ((lineSearch func x d fMax fLast gamma delta).alpha) gamma delta,
      mul_assoc gamma ((lineSearch func x d fMax fLast gamma delta).alpha) delta]

/-- **C39** the interpolation branch of the line search is dead code: for a descent direction every rejected step is simply halved, so after `k`
rejections `alpha = 2^-k` (the formula `-alpha²/(2 denom)` lacks the factor `delta` and is always negative). -/
theorem c39_line_search_halves {n : ℕ} (func : Vec n → ℝ) (x d : Vec n) (fMax fLast gamma delta : ℝ) (hd : delta ≤ 0) (hg : gamma ≤ 1)
    (hl : fLast ≤ fMax) (s : LSState n)
    (h : Reach lsCond (lsNext func x d fMax fLast (gamma * delta) delta) (lsInit func x d fMax (gamma * delta)) s) :
    s.alpha = (1 / 2) ^ (s.fCalls - 1) := by
  refine (h.inv' (fun s => s.alpha = (1 / 2) ^ (s.fCalls - 1)) (by simp [lsInit]) fun s hr hs hc => ?_)
  have hi := ls_inv func x d fMax fLast gamma delta s hr
  have hpos := hi.pos
  have h1 : s.fVal > fMax + s.alpha * (gamma * delta) := by rw [← hi.fLim]; exact hc.1
  have hden : 0 < s.fVal - fLast - s.alpha * delta := by
    have : s.alpha * delta ≤ s.alpha * (gamma * delta) := by
      apply mul_le_mul_of_nonneg_left _ hpos.le
      nlinarith
    linarith
  have hneg : -0.5 * s.alpha ^ 2 / (s.fVal - fLast - s.alpha * delta) < 0 := by
    apply div_neg_of_neg_of_pos _ hden
    have : 0 < s.alpha ^ 2 := by positivity
    linarith
  have e : (lsNext func x d fMax fLast (gamma * delta) delta s).alpha = s.alpha / 2 := by
    simp only [lsNext]
    rw [if_neg]
    rintro ⟨h, _⟩
    linarith
  rw [e, hs]
  have h1 := hi.calls1
  change _ = (1 / 2 : ℝ) ^ (s.fCalls + 1 - 1)
  rw [show s.fCalls + 1 - 1 = (s.fCalls - 1) + 1 by omega, pow_succ]; ring

/-- **C39** the call limit is not reached for well-behaved functions: if `func` lies below its quadratic model with curvature `L` along `d`, with
`|d|² ≤ -1e10 delta` (true for every `spg` direction), `gamma ≤ 1/2` and `L ≤ 5e4`, the line search accepts a step before the 50th call. -/
theorem c39_line_search_accepts {n : ℕ} (func : Vec n → ℝ) (x d : Vec n) (fMax fLast gamma delta L : ℝ) (hg : gamma ≤ 1 / 2)
    (hl : fLast ≤ fMax) (hx : func x ≤ fMax) (hL0 : 0 ≤ L) (hL : L ≤ 5e4) (hd : ‖d‖ ^ 2 ≤ -1e10 * delta)
    (hq : ∀ a : ℝ, 0 ≤ a → a ≤ 1 → func (x + a • d) ≤ func x + a * delta + L / 2 * a ^ 2 * ‖d‖ ^ 2) :
    (lineSearch func x d fMax fLast gamma delta).fVal ≤ (lineSearch func x d fMax fLast gamma delta).fLim := by
  by_contra hlt
  push Not at hlt
  have hdel : delta ≤ 0 := by nlinarith [sq_nonneg ‖d‖]
  have ho := ls_out func x d fMax fLast gamma delta
  have hi := ls_inv func x d fMax fLast gamma delta _ ho.1
  have hal := c39_line_search_halves func x d fMax fLast gamma delta hdel (by linarith) hl _ ho.1
  set s := lineSearch func x d fMax fLast gamma delta with hs
  have h50 : s.fCalls = 50 := by
    by_contra hne
    exact ho.2 ⟨hlt, by have := hi.calls; omega⟩
  rw [h50] at hal
  have h1 := hq s.alpha hi.pos.le hi.le_one
  rw [hi.fVal, hi.fLim, hi.xNew] at hlt
  have hapos := hi.pos
  -- a (1 - gamma) (-delta) < L/2 a^2 |d|^2 ≤ L/2 a^2 1e10 (-delta)
  have h2 : s.alpha * (1 - gamma) * (-delta) < L / 2 * s.alpha ^ 2 * ‖d‖ ^ 2 := by nlinarith
  have h3 : L / 2 * s.alpha ^ 2 * ‖d‖ ^ 2 ≤ L / 2 * s.alpha ^ 2 * (-1e10 * delta) :=
    mul_le_mul_of_nonneg_left hd (by positivity)
  have h4 : s.alpha * (1 - gamma) * (-delta) < s.alpha * (L / 2 * s.alpha * 1e10) * (-delta) := by nlinarith
  have h5 : L / 2 * s.alpha * 1e10 ≤ 1 / 2 := by
    rw [hal]
    have : (1 / 2 : ℝ) ^ (50 - 1) ≤ 2e-15 := by norm_num
    have : L / 2 * (1 / 2 : ℝ) ^ (50 - 1) * 1e10 ≤ 5e4 / 2 * 2e-15 * 1e10 := by
      have h0 : (0 : ℝ) ≤ (1 / 2 : ℝ) ^ (50 - 1) := by positivity
      nlinarith
    refine this.trans (by norm_num)
  have h6 : s.alpha * (L / 2 * s.alpha * 1e10) * (-delta) ≤ s.alpha * (1 - gamma) * (-delta) := by
    apply mul_le_mul_of_nonneg_right _ (by linarith)
    apply mul_le_mul_of_nonneg_left _ hapos.le
    linarith
  linarith

/-! ## The outer loop -/

section outer
variable {n : ℕ} (f : SmoothFn (Vec n)) (proj : Vec n → Vec n) (C : Set (Vec n)) (o : SpgOpts)

/-- `smooth_f` is built consistently: `grad_val` is the pair of `grad` and `func`. -/
def SmoothFn.Pair {E : Type*} (f : SmoothFn E) : Prop := ∀ x, f.gradVal x = (f.grad x, f.func x)

theorem spgLambda_pos (s y : Vec n) : 0 < spgLambda s y ∧ spgLambda s y ≤ 1e10 := by
  unfold spgLambda
  simp only
  generalize ⟪s, s⟫ / (⟪s, y⟫ + 2 ^ (-23 : ℤ)) = l
  have h10 : (0 : ℝ) < 1e-10 := by norm_num
  have h11 : ¬ (1 : ℝ) > 1e10 := by norm_num
  by_cases h : l < 1e-10
  · rw [if_pos h, if_neg h11]; constructor <;> norm_num
  · rw [if_neg h]
    by_cases h' : l > 1e10
    · rw [if_pos h']; constructor <;> norm_num
    · rw [if_neg h']; exact ⟨by linarith [not_lt.mp h], not_lt.mp h'⟩

/-- The projected direction is a descent direction. -/
theorem proj_descent (hC : Convex ℝ C) (hproj : ∀ x, IsNearest C x (proj x)) (x g : Vec n) (hx : x ∈ C) (l : ℝ) (hl : 0 < l) :
    ‖proj (x - l • g) - x‖ ^ 2 ≤ -l * ⟪g, proj (x - l • g) - x⟫ := by
  have h := (hproj (x - l • g)).inner_le hC hx
  set p := proj (x - l • g) with hp
  have e1 : x - l • g - p = -(l • g) - (p - x) := by abel
  have e2 : x - p = -(p - x) := by abel
  rw [e1, e2, inner_neg_right, inner_sub_left, inner_neg_left, inner_smul_left, real_inner_self_eq_norm_sq] at h
  simp only [conj_trivial] at h
  linarith

/-- The facts about a state. -/
structure SpgInv (s : SpgState n) : Prop where
  feas : s.x ∈ C
  feasPrev : s.xPrev ∈ C
  grad : s.g = f.grad s.x
  mem : s.fPast.length = o.memory
  head : s.fPast.head? = some (f.func s.x)
  delta : s.delta ≤ 0

variable (hC : Convex ℝ C) (hproj : ∀ x, IsNearest C x (proj x)) (hf : f.Pair) (hm : 1 ≤ o.memory)

include hC hproj in
theorem spg_move {x : Vec n} (hx : x ∈ C) (y : Vec n) {a : ℝ} (h0 : 0 ≤ a) (h1 : a ≤ 1) : x + a • (proj y - x) ∈ C := by
  have e : x + a • (proj y - x) = (1 - a) • x + a • proj y := by module
  rw [e]; exact hC hx (hproj y).1 (by linarith) h0 (by ring)

theorem l1_nonneg {n : ℕ} (g : Vec n) : 0 ≤ l1 g := Finset.sum_nonneg fun _ _ => abs_nonneg _

include hC hproj hf hm in
theorem spg_inv (x0 : Vec n) (s : SpgState n) (h : Reach (spgCond proj o) (spgStep f proj o) (spgInit f proj x0 o) s) : SpgInv f C o s := by
  refine h.inv _ ?_ fun s hs _ => ?_
  · have hx := (hproj x0).1
    have ht : ∀ a : ℝ, 0 ≤ a → 0 ≤ (if a = 0 then (1 : ℝ) else min 1 (1 / a)) ∧ (if a = 0 then (1 : ℝ) else min 1 (1 / a)) ≤ 1 := by
      intro a ha
      split
      · constructor <;> norm_num
      · exact ⟨le_min zero_le_one (by positivity), min_le_left _ _⟩
    refine ⟨?_, hx, ?_, by simp [spgInit], ?_, ?_⟩
    · simp only [spgInit]
      exact spg_move proj C hC hproj hx _ (ht _ (l1_nonneg _)).1 (ht _ (l1_nonneg _)).2
    · simp only [spgInit, show ∀ x, f.gradVal x = (f.grad x, f.func x) from hf]
    · simp only [spgInit, show ∀ x, f.gradVal x = (f.grad x, f.func x) from hf]
      obtain ⟨k, hk⟩ : ∃ k, o.memory = k + 1 := ⟨o.memory - 1, by omega⟩
      rw [hk, List.replicate_succ]; rfl
    · simp only [spgInit, show ∀ x, f.gradVal x = (f.grad x, f.func x) from hf]
      have := proj_descent proj C hC hproj (proj x0) (f.grad (proj x0)) hx 1 one_pos
      rw [one_smul] at this
      nlinarith [sq_nonneg ‖proj (proj x0 - f.grad (proj x0)) - proj x0‖]
  · obtain ⟨a, h0, h1, hx, hv, _, _, _⟩ := c39_line_search f.func s.x (proj (s.x - spgLambda (s.x - s.xPrev) (s.g - s.gPrev) • s.g) - s.x)
      (listMax s.fPast) (s.fPast.headD 0) o.suffDec ⟪s.g, proj (s.x - spgLambda (s.x - s.xPrev) (s.g - s.gPrev) • s.g) - s.x⟫
    have hl := spgLambda_pos (s.x - s.xPrev) (s.g - s.gPrev)
    refine ⟨?_, hs.feas, rfl, ?_, ?_, ?_⟩
    · simp only [spgStep, hx]
      exact spg_move proj C hC hproj hs.feas _ h0.le h1
    · simp only [spgStep, cbufPushLeft, List.length_take, List.length_cons, hs.mem]; omega
    · simp only [spgStep, cbufPushLeft, hv, hx, hs.mem]
      obtain ⟨k, hk⟩ : ∃ k, o.memory = k + 1 := ⟨o.memory - 1, by omega⟩
      rw [hk]; rfl
    · have := proj_descent proj C hC hproj s.x s.g hs.feas _ hl.1
      simp only [spgStep]
      have h2 := sq_nonneg ‖proj (s.x - spgLambda (s.x - s.xPrev) (s.g - s.gPrev) • s.g) - s.x‖
      by_contra hneg
      push Not at hneg
      have := mul_pos hl.1 hneg
      linarith

include hC hproj hf hm in
/-- **C39** for every convex set with its nearest-point projector and every smooth function: at every state of `spg.solve_from` the iterate is
feasible, the stored gradient and newest stored value are those of the iterate, the direction is a descent direction and the memory keeps its
size; the loop stops within `max_iters` iterations. -/
theorem c39_spg_feasible (x0 : Vec n) (s : SpgState n) (h : Reach (spgCond proj o) (spgStep f proj o) (spgInit f proj x0 o) s) :
    s.x ∈ C ∧ s.xPrev ∈ C ∧ s.g = f.grad s.x ∧ s.fPast.head? = some (f.func s.x) ∧ s.fPast.length = o.memory ∧ s.delta ≤ 0 ∧
    s.iters ≤ max o.maxIters 1 ∧ ∃ s', SpgSolveFrom f proj x0 o s' := by
  obtain ⟨h1, h2, h3, h4, h5, h6⟩ := spg_inv f proj C o hC hproj hf hm x0 s h
  exact ⟨h1, h2, h3, h5, h4, h6, h.cnt_le (fun s => s.iters) o.maxIters (fun s hc => hc.1) fun s => rfl,
    exists_out (fun s => s.iters) o.maxIters (fun s h => h.1) fun s => Nat.lt_succ_self _⟩

include hC hproj hf hm in
/-- **C39** a step whose line search accepts (uses fewer than 50 calls) meets the sufficient decrease condition against the largest remembered
value, so the new value is at most the largest remembered value, and the largest remembered value does not grow. -/
theorem c39_spg_decrease (x0 : Vec n) (s : SpgState n) (h : Reach (spgCond proj o) (spgStep f proj o) (spgInit f proj x0 o) s)
    (hg : 0 ≤ o.suffDec) (hacc : (spgStep f proj o s).fCalls < s.fCalls + 50) :
    (∃ a : ℝ, 0 < a ∧ a ≤ 1 ∧ f.func (spgStep f proj o s).x ≤ listMax s.fPast + o.suffDec * a * (spgStep f proj o s).delta) ∧
    f.func (spgStep f proj o s).x ≤ listMax s.fPast ∧ listMax (spgStep f proj o s).fPast ≤ listMax s.fPast := by
  have hs := spg_inv f proj C o hC hproj hf hm x0 s h
  have hdel : (spgStep f proj o s).delta ≤ 0 := by
    have hl := spgLambda_pos (s.x - s.xPrev) (s.g - s.gPrev)
    have := proj_descent proj C hC hproj s.x s.g hs.feas _ hl.1
    simp only [spgStep]
    have h2 := sq_nonneg ‖proj (s.x - spgLambda (s.x - s.xPrev) (s.g - s.gPrev) • s.g) - s.x‖
    by_contra hneg
    push Not at hneg
    have := mul_pos hl.1 hneg
    linarith
  obtain ⟨a, h0, h1, hx, hv, _, _, hc⟩ := c39_line_search f.func s.x (proj (s.x - spgLambda (s.x - s.xPrev) (s.g - s.gPrev) • s.g) - s.x)
      (listMax s.fPast) (s.fPast.headD 0) o.suffDec ⟪s.g, proj (s.x - spgLambda (s.x - s.xPrev) (s.g - s.gPrev) • s.g) - s.x⟫
  have hc' := hc.resolve_right (by simp only [spgStep] at hacc; omega)
  have e1 : (spgStep f proj o s).x = s.x + a • (proj (s.x - spgLambda (s.x - s.xPrev) (s.g - s.gPrev) • s.g) - s.x) := hx
  have hle : f.func (spgStep f proj o s).x ≤ listMax s.fPast + o.suffDec * a * (spgStep f proj o s).delta := by rw [e1]; exact hc'
  have hle' : f.func (spgStep f proj o s).x ≤ listMax s.fPast := by
    have : o.suffDec * a * (spgStep f proj o s).delta ≤ 0 := mul_nonpos_of_nonneg_of_nonpos (by positivity) hdel
    linarith
  refine ⟨⟨a, h0, h1, hle⟩, hle', ?_⟩
  have hne : (spgStep f proj o s).fPast ≠ [] := by
    simp only [spgStep, cbufPushLeft, hs.mem]
    obtain ⟨k, hk⟩ : ∃ k, o.memory = k + 1 := ⟨o.memory - 1, by omega⟩
    rw [hk]; simp
  refine listMax_le hne fun v hv' => ?_
  simp only [spgStep, cbufPushLeft] at hv'
  have hv2 := List.mem_of_mem_take hv'
  rcases List.mem_cons.mp hv2 with rfl | h3
  · rw [hv, ← e1]; exact hle'
  · exact le_listMax h3

/-- The states of a run in which every line search so far accepted. -/
inductive SpgAccepted (x0 : Vec n) : SpgState n → Prop
  | init : SpgAccepted x0 (spgInit f proj x0 o)
  | step {s : SpgState n} : SpgAccepted x0 s → spgCond proj o s → (spgStep f proj o s).fCalls < s.fCalls + 50 →
      SpgAccepted x0 (spgStep f proj o s)

include hC hproj hf hm in
/-- **C39** as long as every line search accepts, no iterate has a larger value than the first one, the point after the initial projected gradient
step, whose value fills the memory. -/
theorem c39_spg_below_start (x0 : Vec n) (hg : 0 ≤ o.suffDec) (s : SpgState n) (h : SpgAccepted f proj o x0 s) :
    f.func s.x ≤ f.func (spgInit f proj x0 o).x := by
  have hr : ∀ s, SpgAccepted f proj o x0 s → Reach (spgCond proj o) (spgStep f proj o) (spgInit f proj x0 o) s := by
    intro s h
    induction h with
    | init => exact .init
    | step _ hc _ ih => exact .step ih hc
  have key : listMax s.fPast ≤ f.func (spgInit f proj x0 o).x := by
    induction h with
    | init =>
      refine listMax_le ?_ fun v hv => ?_
      · simp only [spgInit]
        obtain ⟨k, hk⟩ : ∃ k, o.memory = k + 1 := ⟨o.memory - 1, by omega⟩
        rw [hk]; simp
      · simp only [spgInit, show ∀ x, f.gradVal x = (f.grad x, f.func x) from hf] at hv
        rw [List.eq_of_mem_replicate hv]
        simp only [spgInit, show ∀ x, f.gradVal x = (f.grad x, f.func x) from hf]; exact le_rfl
    | @step s hs _ hacc ih => exact (c39_spg_decrease f proj C o hC hproj hf hm x0 s (hr s hs) hg hacc).2.2.trans ih
  have hi := spg_inv f proj C o hC hproj hf hm x0 s (hr s h)
  have : f.func s.x ∈ s.fPast := List.mem_of_mem_head? (by rw [hi.head]; rfl)
  exact (le_listMax this).trans key

include hC hproj hf hm in
/-- **C39** what the returned state means: it reached the limit on iterations or on function calls, or the last step promised less than
`progress_tol`, or every entry of the projected gradient step is below `optim_tol`.  In the last case, for a convex function, no
feasible point `z` improves on the returned one by more than `‖r‖ (‖z - x‖ + ‖r‖ + ‖∇f(x)‖)`, where `r`, the projected gradient step,
has `‖r‖² ≤ n·optim_tol²`; in particular, the returned point is a minimiser when that step is zero. -/
theorem c39_spg_result (x0 : Vec n) (s : SpgState n) (h : SpgSolveFrom f proj x0 o s)
    (hconv : ∀ x ∈ C, ∀ z ∈ C, f.func x + ⟪f.grad x, z - x⟫ ≤ f.func z) :
    (o.maxIters ≤ s.iters ∨ o.maxFCalls ≤ s.fCalls ∨ (-o.progressTol < s.delta ∧ s.delta ≤ 0) ∨
      ∀ i, |(proj (s.x - f.grad s.x) - s.x) i| < o.optimTol) ∧
    (∀ z ∈ C, f.func s.x - ‖proj (s.x - f.grad s.x) - s.x‖ * (‖z - s.x‖ + ‖proj (s.x - f.grad s.x) - s.x‖ + ‖f.grad s.x‖) ≤ f.func z) ∧
    ((∀ i, |(proj (s.x - f.grad s.x) - s.x) i| < o.optimTol) → ‖proj (s.x - f.grad s.x) - s.x‖ ^ 2 ≤ n * o.optimTol ^ 2) ∧
    (proj (s.x - f.grad s.x) = s.x → ∀ z ∈ C, f.func s.x ≤ f.func z) := by
  have hs := spg_inv f proj C o hC hproj hf hm x0 s h.1
  have key : ∀ z ∈ C, f.func s.x - ‖proj (s.x - f.grad s.x) - s.x‖ *
      (‖z - s.x‖ + ‖proj (s.x - f.grad s.x) - s.x‖ + ‖f.grad s.x‖) ≤ f.func z := by
    intro z hz
    have h1 := (hproj (s.x - f.grad s.x)).inner_le hC hz
    have h2 := hconv s.x hs.feas z hz
    set p := proj (s.x - f.grad s.x) with hp
    set g := f.grad s.x with hg
    have e1 : s.x - g - p = -(p - s.x) - g := by abel
    have e2 : z - p = (z - s.x) - (p - s.x) := by abel
    rw [e1, e2] at h1
    simp only [inner_sub_left, inner_sub_right, inner_neg_left] at h1
    simp only [← inner_sub_right, ← inner_sub_left] at h1
    have c1 := abs_le.1 (abs_real_inner_le_norm (p - s.x) ((z - s.x) - (p - s.x)))
    have c2 := abs_le.1 (abs_real_inner_le_norm g (p - s.x))
    have c3 : ‖(z - s.x) - (p - s.x)‖ ≤ ‖z - s.x‖ + ‖p - s.x‖ := norm_sub_le _ _
    have c4 := mul_le_mul_of_nonneg_left c3 (norm_nonneg (p - s.x))
    simp only [inner_sub_right] at h1 c1 h2 c2
    nlinarith
  refine ⟨?_, key, ?_, ?_⟩
  · have hn := h.2
    simp only [spgCond, not_and_or, not_lt, not_le, not_exists, hs.grad] at hn
    rcases hn with hn | hn | hn | hn
    · exact Or.inl hn
    · exact Or.inr (Or.inr (Or.inl ⟨hn, hs.delta⟩))
    · exact Or.inr (Or.inr (Or.inr fun i => hn i))
    · exact Or.inr (Or.inl hn)
  · intro hi
    rw [EuclideanSpace.norm_sq_eq]
    calc ∑ i, ‖(proj (s.x - f.grad s.x) - s.x) i‖ ^ 2 ≤ ∑ _i : Fin n, o.optimTol ^ 2 := by
          refine Finset.sum_le_sum fun i _ => ?_
          have := hi i
          rw [Real.norm_eq_abs]
          exact pow_le_pow_left₀ (abs_nonneg _) this.le 2
      _ = n * o.optimTol ^ 2 := by simp
  · intro hp z hz
    have := key z hz
    rw [hp] at this
    simpa using this

end outer

/-- The hypotheses are met: minimising `½|x - c|²` over the box `[-1,1]³` with the library's projector. -/
theorem ex_box : ∃ P, projBox (some (vec fun _ : Fin 3 => -1)) (some (vec fun _ => 1)) = .ok P ∧
    (∀ x, IsNearest (boxSet (some (vec fun _ : Fin 3 => -1)) (some (vec fun _ => 1))) x (P x)) ∧
    Convex ℝ (boxSet (some (vec fun _ : Fin 3 => -1)) (some (vec fun _ => 1))) ∧
    (smoothQuadError (1 : Matrix (Fin 3) (Fin 3) ℝ) (vec ![2, 0, -3])).Pair := by
  obtain ⟨P, h1, h2, _⟩ := (c24_proj_box (some (vec fun _ : Fin 3 => -1)) (some (vec fun _ => 1))).2 (by simp) (by
    rintro a b ha hb i
    simp only [Option.some.injEq] at ha hb
    rw [← ha, ← hb]; norm_num [vec])
  refine ⟨P, h1, h2, fun x hx y hy a b ha hb hab => ?_, fun x => rfl⟩
  simp only [boxSet, Set.mem_ofPred_eq, Option.some.injEq, forall_eq'] at hx hy ⊢
  refine ⟨fun i => ?_, fun i => ?_⟩
  · have h1 := hx.1 i
    have h2 := hy.1 i
    simp only [vec_apply] at h1 h2 ⊢
    change -1 ≤ a * x i + b * y i
    nlinarith
  · have h1 := hx.2 i
    have h2 := hy.2 i
    simp only [vec_apply] at h1 h2 ⊢
    change a * x i + b * y i ≤ 1
    nlinarith

/-! Instances: `½ |x - (2, 0, -3)|²` over the box `[-1, 1]³`, and the line search on `½ |x|²` along `-x`. -/

/-- The box `[-1, 1]³`. -/
abbrev exBox : Set (Vec 3) := boxSet (some (vec fun _ : Fin 3 => -1)) (some (vec fun _ => 1))
/-- `½ |x - (2, 0, -3)|²`. -/
abbrev exLs : SmoothFn (Vec 3) := smoothQuadError (1 : Matrix (Fin 3) (Fin 3) ℝ) (vec ![2, 0, -3])
/-- The default options. -/
def exSpg : SpgOpts := ⟨1e-9, 1e-5, 1e-4, 500, 1000, 10⟩

example (x : Vec 3) (s : LSState 3)
    (h : Reach lsCond (lsNext (fun x => 1 / 2 * ‖x‖ ^ 2) x (-x) (1 / 2 * ‖x‖ ^ 2) (1 / 2 * ‖x‖ ^ 2) (1e-4 * -‖x‖ ^ 2) (-‖x‖ ^ 2))
      (lsInit (fun x => 1 / 2 * ‖x‖ ^ 2) x (-x) (1 / 2 * ‖x‖ ^ 2) (1e-4 * -‖x‖ ^ 2)) s) :=
  c39_line_search_halves _ _ _ _ _ (1e-4) (-‖x‖ ^ 2) (by nlinarith [sq_nonneg ‖x‖]) (by norm_num) le_rfl s h

example (x : Vec 3) := c39_line_search_accepts (fun x => 1 / 2 * ‖x‖ ^ 2) x (-x) (1 / 2 * ‖x‖ ^ 2) (1 / 2 * ‖x‖ ^ 2) (1e-4) (-‖x‖ ^ 2) 1 (by norm_num) le_rfl
  le_rfl zero_le_one (by norm_num) (by rw [norm_neg]; nlinarith [sq_nonneg ‖x‖]) (fun a _ _ => by
    have e : x + a • -x = (1 - a) • x := by module
    rw [e, norm_smul, norm_neg, mul_pow, Real.norm_eq_abs, sq_abs]
    nlinarith)

example : ∃ (P : Vec 3 → Vec 3), ∀ s : SpgState 3,
    Reach (spgCond P exSpg) (spgStep exLs P exSpg) (spgInit exLs P 0 exSpg) s →
    s.x ∈ exBox ∧ (∃ s', SpgSolveFrom exLs P 0 exSpg s') ∧
    ((spgStep exLs P exSpg s).fCalls < s.fCalls + 50 → exLs.func (spgStep exLs P exSpg s).x ≤ listMax s.fPast) := by
  obtain ⟨P, -, h2, h3, h4⟩ := ex_box
  refine ⟨P, fun s hs => ?_⟩
  have h := c39_spg_feasible exLs P exBox exSpg h3 h2 h4 (by norm_num [exSpg]) 0 s hs
  exact ⟨h.1, h.2.2.2.2.2.2.2, fun ha => (c39_spg_decrease exLs P exBox exSpg h3 h2 h4 (by norm_num [exSpg]) 0 s hs (by norm_num [exSpg]) ha).2.1⟩

example : ∃ (P : Vec 3 → Vec 3), ∀ s : SpgState 3, SpgAccepted exLs P exSpg 0 s → exLs.func s.x ≤ exLs.func (spgInit exLs P 0 exSpg).x := by
  obtain ⟨P, -, h2, h3, h4⟩ := ex_box
  exact ⟨P, fun s hs => c39_spg_below_start exLs P exBox exSpg h3 h2 h4 (by norm_num [exSpg]) 0 (by norm_num [exSpg]) s hs⟩

example : ∃ (P : Vec 3 → Vec 3), ∀ s : SpgState 3, SpgSolveFrom exLs P 0 exSpg s → P (s.x - exLs.grad s.x) = s.x → ∀ z ∈ exBox, exLs.func s.x ≤ exLs.func z := by
  obtain ⟨P, -, h2, h3, h4⟩ := ex_box
  refine ⟨P, fun s hs => (c39_spg_result exLs P exBox exSpg h3 h2 h4 (by norm_num [exSpg]) 0 s hs fun x _ z _ => ?_).2.2.2⟩
  have e : ∀ u : Vec 3, exLs.func u = 1 / 2 * ‖u - vec ![2, 0, -3]‖ ^ 2 := fun u => by
    simp only [smoothQuadError, matVec, Matrix.one_mulVec]
    rw [real_inner_self_eq_norm_sq]; norm_num; rfl
  have e' : exLs.grad x = x - vec ![2, 0, -3] := by
    simp only [smoothQuadError, matVec, Matrix.one_mulVec, Matrix.vecMul_one]; rfl
  rw [e, e, e']
  have := norm_add_sq_real (x - vec ![2, 0, -3]) (z - x)
  have e2 : x - vec ![2, 0, -3] + (z - x) = z - vec ![2, 0, -3] := by abel
  rw [e2] at this
  nlinarith [sq_nonneg ‖z - x‖]

end Verif.Opt
