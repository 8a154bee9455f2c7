import Verif.Cvx.BpModel
import Verif.Cvx.BpicProps

set_option autoImplicit false
/-!
# Properties of the SPGL1 tau updates (C107) and of the weighted norms (C108)
-/
namespace Verif.Cvx
open Verif.Opt
open scoped InnerProductSpace

local notation "⟪" x ", " y "⟫" => @inner ℝ _ _ x y

variable {m n : ℕ}

/-- The Newton update at a point of the l1 ball exceeds the l1 norm of a point with residual at most `sigma` by at most the duality gap
over the dual norm of the gradient. -/
theorem newton_le (A : Vec n →ₗ[ℝ] Vec m) (At : Vec m →ₗ[ℝ] Vec n) (hadj : IsAdj A At) (b : Vec m) (sigma tau t : ℝ) (x z : Vec n)
    (hx : l1 x ≤ tau) (hz : ‖b - A z‖ ≤ sigma)
    (h : newtonTau tau ‖b - A x‖ sigma (linf (At (b - A x))) = some t) :
    t ≤ l1 z + (⟪b - A x, (b - A x) - b⟫ + tau * linf (At (b - A x))) / linf (At (b - A x)) := by
  set r := b - A x with hr
  set G := linf (At r) with hG
  unfold newtonTau at h
  split at h
  · simp at h
  rename_i hG0
  simp only [Option.some.injEq] at h
  have hGpos : 0 < G := lt_of_le_of_ne (linf_nonneg _) (Ne.symm hG0)
  have hl1 : ∀ v : Vec n, 0 ≤ l1 v := fun v => Finset.sum_nonneg fun i _ => abs_nonneg _
  have hgap := (lasso_duality A At hadj b tau x x hx hx).1
  rw [← hr, ← hG] at hgap
  have hz1 : ⟪r, b⟫ ≤ ‖r‖ * sigma + G * l1 z := by
    have e : b = (b - A z) + A z := by abel
    have e1 : ⟪r, A z⟫ = ⟪At r, z⟫ := by rw [real_inner_comm, hadj, real_inner_comm]
    have e2 := (abs_le.mp (inner_le_linf (At r) z)).2
    have e3 := real_inner_le_norm r (b - A z)
    have e4 : ‖r‖ * ‖b - A z‖ ≤ ‖r‖ * sigma := mul_le_mul_of_nonneg_left hz (norm_nonneg _)
    rw [e, inner_add_right, e1]
    linarith
  rw [← h]
  apply max_le
  · exact add_nonneg (hl1 z) (div_nonneg hgap hGpos.le)
  · have : tau + ‖r‖ * (‖r‖ - sigma) / G = (tau * G + ‖r‖ * (‖r‖ - sigma)) / G := by field_simp
    rw [this, div_le_iff₀ hGpos]
    have e5 : (l1 z + (⟪r, r - b⟫ + tau * G) / G) * G = l1 z * G + (⟪r, r - b⟫ + tau * G) := by field_simp
    rw [e5, inner_sub_right, real_inner_self_eq_norm_sq]
    nlinarith

/-- **C107** The l1 budget `tau` of `solve_bpic` (and of `solve_bp`, `sigma = 0`) never exceeds the l1 norm of a solution by more than the
current duality gap allows: let `z` be any point with residual norm at most `sigma`.  The first `tau` is at most `‖z‖₁`, and a step that
increases `tau` ends with `tau ≤ ‖z‖₁ + r_gap · max(1, f) / ‖g‖∞`. -/
theorem c107_tau_bound (A : Vec n →ₗ[ℝ] Vec m) (At : Vec m →ₗ[ℝ] Vec n) (hadj : IsAdj A At) (b : Vec m) (sigma : ℝ) (o : Spgl1Opts)
    (hm : 0 < o.memory) (z : Vec n) (hz : ‖b - A z‖ ≤ sigma) :
    (∀ s, bpInit A At b sigma 0 o = some s → s.tau ≤ ∑ i, |z i|) ∧
    (∀ s s', BpicReach A At b sigma o s → bpCond b sigma o s → bpBody A At b sigma o s = some s' → s.tau < s'.tau →
      s'.tau ≤ ∑ i, |z i| + s'.rGap * max 1 (‖s'.r‖ ^ 2 / 2) / linf s'.g) := by
  classical
  constructor
  · intro s h
    unfold bpInit at h
    simp only [Option.map_eq_some_iff] at h
    obtain ⟨t, ht, rfl⟩ := h
    have h0 : l1 (0 : Vec n) = 0 := by simp [l1]
    have hp : projectToL1Ball (0 : Vec n) (l1 (0 : Vec n)) = 0 := project_self 0
    simp only [Verif.Sls.counted, hp, linf_neg] at ht
    have := newton_le A At hadj b sigma (l1 (0 : Vec n)) t 0 z le_rfl hz ht
    have h1 : t ≤ l1 z := by simpa [h0] using this
    exact h1
  · intro s s' hr _ hb hlt
    obtain ⟨hi, _, h3⟩ := bp_body_inv hm (bp_inv hm hr) hb
    obtain ⟨hn, hf, hg⟩ := h3 (not_lt.2 hlt.le)
    have hnew : newtonTau s.tau ‖s'.r‖ sigma (linf s'.g) = some s'.tau := by
      unfold bpBody at hb
      simp only [Option.map_eq_some_iff] at hb
      obtain ⟨t, ht, rfl⟩ := hb
      have hnr : ¬ t < s.tau := not_lt.2 hlt.le
      simp only [if_neg hnr]
      split at ht
      · exact ht
      · simp only [Option.some.injEq] at ht
        simp only [] at hlt
        exact absurd ht (ne_of_lt hlt)
    rw [hi.grad, linf_neg, hi.res] at hnew
    have := newton_le A At hadj b sigma s.tau s'.tau s'.x z hf hz hnew
    refine this.trans_eq ?_
    obtain ⟨h0, _⟩ := lasso_duality A At hadj b s.tau s'.x s'.x hf hf
    have hm1 : 0 < max 1 (‖b - A s'.x‖ ^ 2 / 2) := lt_of_lt_of_le one_pos (le_max_left _ _)
    have e : s'.rGap * max 1 (‖s'.r‖ ^ 2 / 2) = ⟪b - A s'.x, (b - A s'.x) - b⟫ + s.tau * linf (At (b - A s'.x)) := by
      rw [hg, relGap, hi.grad, linf_neg, objVal_eq, hi.res, div_mul_cancel₀ _ hm1.ne', abs_of_nonneg h0]
    rw [e, hi.grad, linf_neg, hi.res]
    rfl

/-- **C107** The step computed by `tau_change` is the step of the loop: for a residual and a gradient that are not zero, `tau` becomes
`max(0, tau + tau_change)`. -/
theorem c107_tau_change (A : Vec n →ₗ[ℝ] Vec m) (At : Vec m →ₗ[ℝ] Vec n) (b : Vec m) (sigma tau : ℝ) (x : Vec n)
    (hr : b - A x ≠ 0) (hg : At (b - A x) ≠ 0) :
    ∃ c, tauChange At (b - A x) ‖b - A x‖ sigma = some c ∧
      newtonTau tau ‖b - A x‖ sigma (linf (computeRgf A At b x).2.1) = some (max 0 (tau + c)) := by
  have h1 : ‖b - A x‖ ≠ 0 := norm_ne_zero_iff.2 hr
  have h2 : linf (At (b - A x)) ≠ 0 := by
    unfold linf
    rw [norm_ne_zero_iff]
    intro h
    apply hg
    ext i
    exact congrFun h i
  have h3 : linf (At ((1 / ‖b - A x‖) • (b - A x))) = linf (At (b - A x)) / ‖b - A x‖ := by
    rw [map_smul]
    unfold linf
    rw [WithLp.ofLp_smul, norm_smul, Real.norm_eq_abs, abs_of_nonneg (by positivity)]
    ring
  refine ⟨(sigma - ‖b - A x‖) / -(linf (At (b - A x)) / ‖b - A x‖), ?_, ?_⟩
  · unfold tauChange
    rw [if_neg h1]
    simp only [h3]
    rw [if_neg (neg_ne_zero.2 (div_ne_zero h2 h1))]
  · show newtonTau tau ‖b - A x‖ sigma (linf (-At (b - A x))) = _
    rw [linf_neg]
    unfold newtonTau
    rw [if_neg h2]
    congr 3
    field_simp
    ring

/-- **C107** The entry points: `solve_bp` is `solve_bpic` with `sigma = 0`, and both start at zero. -/
theorem c107_start (A : Vec n →ₗ[ℝ] Vec m) (At : Vec m →ₗ[ℝ] Vec n) (b : Vec m) (o : Spgl1Opts) (hm : 0 < o.memory) :
    (∀ s, BpSolveReach A At b o s ↔ BpicReach A At b 0 o s) ∧
    (∀ sigma s, bpInit A At b sigma 0 o = some s → s.x = 0 ∧ s.r = b ∧ s.rNorm = ‖b‖) := by
  refine ⟨fun s => Iff.rfl, fun sigma s h => ?_⟩
  obtain ⟨hi, hx, hn, _⟩ := bp_init_inv hm h
  have hr : s.r = b := by rw [hi.res, hx]; simp
  exact ⟨hx, hr, by rw [hn, hr]⟩

/-- With the identity on one entry, `b = 2` and `sigma = 1` the first `tau` is `1`, the l1 norm of the solution. -/
example : IsAdj one1 one1 ∧ ‖v1 2 - one1 (v1 1)‖ ≤ 1 ∧ ∃ s, bpInit one1 one1 (v1 2) 1 0 slowOpts = some s ∧ s.tau = 1 := by
  refine ⟨one1_adj, ?_, ?_⟩
  · rw [one1_apply, v1_sub, v1_norm]; norm_num
  · have hp : projectToL1Ball (0 : Vec 1) (l1 (0 : Vec 1)) = 0 := project_self 0
    have h0 : l1 (0 : Vec 1) = 0 := by simp [l1]
    unfold bpInit
    simp only [Verif.Sls.counted, hp]
    simp only [h0, one1_apply, sub_zero, v1_norm, linf_neg, v1_linf]
    rw [newtonTau, if_neg (by norm_num)]
    refine ⟨_, rfl, ?_⟩
    norm_num

/-! ## C108 -/

/-- **C108** For positive weights the two weighted norms are dual to each other: `|⟨x, y⟩| ≤ ‖x‖_{1,w} ‖y‖_{∞,w}`, and for every `y` some
`x` of weighted norm one attains `⟨x, y⟩ = ‖y‖_{∞,w}` (when there is at least one entry).  With unit weights they are the plain norms. -/
theorem c108_weighted_duality (w : Vec n) (hw : ∀ i, 0 < w i) :
    (∀ x y : Vec n, |⟪x, y⟫| ≤ weightedPrimalL1Norm x w * weightedDualLinfNorm y w) ∧
    (0 < n → ∀ y : Vec n, ∃ x, weightedPrimalL1Norm x w = 1 ∧ ⟪x, y⟫ = weightedDualLinfNorm y w) ∧
    ((∀ i, w i = 1) → ∀ x, weightedPrimalL1Norm x w = l1 x ∧ weightedDualLinfNorm x w = linf x) := by
  refine ⟨fun x y => ?_, fun hn y => ?_, fun h1 x => ?_⟩
  · have h := inner_le_linf (vec fun i => y i / w i) (vec fun i => x i * w i)
    have e : ⟪x, y⟫ = ⟪vec fun i => y i / w i, vec fun i => x i * w i⟫ := by
      rw [Verif.Opt.inner_sum, Verif.Opt.inner_sum]
      apply Finset.sum_congr rfl
      intro i _
      have := (hw i).ne'
      show x i * y i = y i / w i * (x i * w i)
      field_simp
    rw [e]
    refine h.trans_eq ?_
    exact mul_comm _ _
  · haveI : Nonempty (Fin n) := ⟨⟨0, hn⟩⟩
    obtain ⟨i, hi⟩ : ∃ i, linf (vec fun i => y i / w i) = |y i / w i| := by
      obtain ⟨i, _, hi⟩ := Finset.exists_max_image Finset.univ (fun i => |y i / w i|) ⟨⟨0, hn⟩, Finset.mem_univ _⟩
      refine ⟨i, le_antisymm ?_ ?_⟩
      · unfold linf
        exact (pi_norm_le_iff_of_nonneg (abs_nonneg _)).2 fun j => hi j (Finset.mem_univ _)
      · exact abs_le_linf (vec fun i => y i / w i) i
    set sg : ℝ := if 0 ≤ y i then 1 else -1 with hsg
    have habs : |sg| = 1 := by rw [hsg]; split_ifs <;> simp
    have hsy : sg * y i = |y i| := by
      rw [hsg]; split_ifs with h
      · rw [one_mul, abs_of_nonneg h]
      · rw [abs_of_neg (not_le.1 h)]; ring
    refine ⟨vec fun j => if j = i then sg / w i else 0, ?_, ?_⟩
    · unfold weightedPrimalL1Norm l1
      rw [Finset.sum_eq_single i]
      · show |(if i = i then sg / w i else 0) * w i| = 1
        rw [if_pos rfl, div_mul_cancel₀ _ (hw i).ne', habs]
      · intro j _ hj
        show |(if j = i then sg / w i else 0) * w j| = 0
        rw [if_neg hj, zero_mul, abs_zero]
      · intro h; exact absurd (Finset.mem_univ _) h
    · show _ = linf (vec fun i => y i / w i)
      rw [hi, Verif.Opt.inner_sum, Finset.sum_eq_single i]
      · show (if i = i then sg / w i else 0) * y i = _
        rw [if_pos rfl, abs_div, abs_of_pos (hw i), ← hsy]; ring
      · intro j _ hj
        show (if j = i then sg / w i else 0) * y j = 0
        rw [if_neg hj, zero_mul]
      · intro h; exact absurd (Finset.mem_univ _) h
  · have e1 : (vec fun i => x i * w i) = x := by
      ext i; show x i * w i = x i; rw [h1, mul_one]
    have e2 : (vec fun i => x i / w i) = x := by
      ext i; show x i / w i = x i; rw [h1, div_one]
    exact ⟨by rw [weightedPrimalL1Norm, e1], by rw [weightedDualLinfNorm, e2]⟩

example : ∀ i, 0 < (vec ![1, 2] : Vec 2) i := by intro i; fin_cases i <;> simp [vec]

example := c107_tau_bound one1 one1 one1_adj (v1 2) 1 slowOpts (by norm_num [slowOpts, spgl1Default]) (v1 1) (by rw [one1_apply, v1_sub, v1_norm]; norm_num)

theorem v1_ne (a b : ℝ) (h : a ≠ b) : v1 a - one1 (v1 b) ≠ 0 := fun h0 => by
  rw [one1_apply, v1_sub, ← norm_eq_zero, v1_norm, abs_eq_zero, sub_eq_zero] at h0
  exact h h0

example := c107_tau_change one1 one1 (v1 2) 1 1 (v1 1) (v1_ne 2 1 (by norm_num)) (by rw [one1_apply]; exact v1_ne 2 1 (by norm_num))

example := c107_start one1 one1 (v1 2) slowOpts (by norm_num [slowOpts, spgl1Default])

example := c108_weighted_duality (vec ![1, 2] : Vec 2) (by intro i; fin_cases i <;> simp [vec])

end Verif.Cvx
