import Verif.Opt.OwlModel
import Mathlib.Algebra.Order.Chebyshev
import Mathlib.Algebra.Order.Rearrangement

set_option autoImplicit false
/-!
# The sorted `ℓ₁` proximal operator (C33)
-/
noncomputable section
namespace Verif.Opt
open Verif.Loop
open scoped RealInnerProductSpace

/-- Decreasing vectors. -/
def Dec (n : ℕ) : Set (Fin n → ℝ) := {d | Antitone d}

theorem dec_of_adj {n : ℕ} {d : Fin n → ℝ} (h : ∀ i j : Fin n, i.val + 1 = j.val → d j ≤ d i) : Antitone d := by
  have key : ∀ k (i j : Fin n), i.val + k = j.val → d j ≤ d i := by
    intro k
    induction k with
    | zero => intro i j hij; have : i = j := Fin.ext hij; rw [this]
    | succ k ih =>
      intro i j hij
      have h1 := ih i ⟨i.val + k, by omega⟩ rfl
      exact (h ⟨i.val + k, by omega⟩ j (by simp; omega)).trans h1
  intro i j hij
  exact key (j.val - i.val) i j (by have : i.val ≤ j.val := hij; omega)

theorem argsortDesc_anti {n : ℕ} (a : Fin n → ℝ) : Antitone fun i => a (argsortDesc a i) := by
  intro i j hij
  have := Tuple.monotone_sort a (Fin.rev_le_rev.mpr hij)
  simpa [argsortDesc] using this

/-- Rearrangement: a decreasing weight vector pairs best with the decreasing arrangement. -/
theorem rearr {n : ℕ} (lam a : Fin n → ℝ) (hl : Antitone lam) (τ : Equiv.Perm (Fin n)) :
    ∑ i, lam i * a (τ i) ≤ ∑ i, lam i * a (argsortDesc a i) := by
  have hm : Monovary lam (fun i => a (argsortDesc a i)) := (argsortDesc_anti a).monovary hl |>.symm
  have := hm.sum_mul_comp_perm_le_sum_mul (σ := τ.trans (argsortDesc a).symm)
  simpa using this

/-! ## Segments -/

section
variable {n : ℕ} (x : Fin n → ℝ)

theorem owlSeg_succ (i j : Fin n) (hij : i.val + 1 = j.val) :
    (owlMask x j → owlSeg x j = owlSeg x i) ∧ (¬ owlMask x j → owlSeg x j = owlSeg x i + 1) := by
  classical
  have h0 : 0 < (Finset.univ.filter fun k : Fin n => k ≤ i ∧ ¬ owlMask x k).card := by
    apply Finset.card_pos.mpr
    refine ⟨⟨0, by omega⟩, ?_⟩
    simp only [Finset.mem_filter, Finset.mem_univ, true_and]
    refine ⟨Fin.mk_le_of_le_val (Nat.zero_le _), ?_⟩
    rintro ⟨k, hk, _⟩
    simp at hk
  have hle : ∀ k : Fin n, k ≤ j ↔ k ≤ i ∨ k = j := by
    intro k
    rw [Fin.le_def, Fin.le_def, Fin.ext_iff]; omega
  constructor
  · intro hm
    have : (Finset.univ.filter fun k : Fin n => k ≤ j ∧ ¬ owlMask x k) = Finset.univ.filter fun k : Fin n => k ≤ i ∧ ¬ owlMask x k := by
      ext k
      simp only [Finset.mem_filter, Finset.mem_univ, true_and, hle]
      constructor
      · rintro ⟨h1 | rfl, h2⟩
        · exact ⟨h1, h2⟩
        · exact absurd hm h2
      · rintro ⟨h1, h2⟩; exact ⟨Or.inl h1, h2⟩
    unfold owlSeg
    rw [this]
  · intro hm
    have : (Finset.univ.filter fun k : Fin n => k ≤ j ∧ ¬ owlMask x k) =
        insert j (Finset.univ.filter fun k : Fin n => k ≤ i ∧ ¬ owlMask x k) := by
      ext k
      simp only [Finset.mem_filter, Finset.mem_univ, true_and, hle, Finset.mem_insert]
      constructor
      · rintro ⟨h1 | rfl, h2⟩
        · exact Or.inr ⟨h1, h2⟩
        · exact Or.inl rfl
      · rintro (rfl | ⟨h1, h2⟩)
        · exact ⟨Or.inr rfl, hm⟩
        · exact ⟨Or.inl h1, h2⟩
    have hni : j ∉ (Finset.univ.filter fun k : Fin n => k ≤ i ∧ ¬ owlMask x k) := by
      simp only [Finset.mem_filter, Finset.mem_univ, true_and, not_and]
      intro h; rw [Fin.le_def] at h; omega
    have e : owlSeg x j = (Finset.univ.filter fun k : Fin n => k ≤ j ∧ ¬ owlMask x k).card - 1 := rfl
    have e' : owlSeg x i = (Finset.univ.filter fun k : Fin n => k ≤ i ∧ ¬ owlMask x k).card - 1 := rfl
    rw [e, e', this, Finset.card_insert_of_notMem hni]; omega

theorem owlSeg_mono : Monotone (owlSeg x) := by
  have key : ∀ k (i j : Fin n), i.val + k = j.val → owlSeg x i ≤ owlSeg x j := by
    intro k
    induction k with
    | zero => intro i j hij; have : i = j := Fin.ext hij; rw [this]
    | succ k ih =>
      intro i j hij
      have h1 := ih i ⟨i.val + k, by omega⟩ rfl
      obtain ⟨h2, h3⟩ := owlSeg_succ x ⟨i.val + k, by omega⟩ j (by simp; omega)
      by_cases hm : owlMask x j
      · rw [h2 hm]; exact h1
      · rw [h3 hm]; omega
  intro i j hij
  exact key (j.val - i.val) i j (by have : i.val ≤ j.val := hij; omega)

/-- A property of adjacent entries of a segment extends to the whole segment. -/
theorem seg_chain (r : Fin n → Fin n → Prop) (hr : ∀ i, r i i) (ht : ∀ i j k, r i j → r j k → r i k)
    (h : ∀ i j : Fin n, i.val + 1 = j.val → owlMask x j → r i j) : ∀ i j, i ≤ j → owlSeg x i = owlSeg x j → r i j := by
  have key : ∀ k (i j : Fin n), i.val + k = j.val → owlSeg x i = owlSeg x j → r i j := by
    intro k
    induction k with
    | zero => intro i j hij _; have : i = j := Fin.ext hij; rw [this]; exact hr j
    | succ k ih =>
      intro i j hij hs
      have hm1 : owlSeg x i ≤ owlSeg x ⟨i.val + k, by omega⟩ := owlSeg_mono x (by rw [Fin.le_def]; simp)
      have hm2 : owlSeg x ⟨i.val + k, by omega⟩ ≤ owlSeg x j := owlSeg_mono x (by rw [Fin.le_def]; simp; omega)
      obtain ⟨h2, h3⟩ := owlSeg_succ x ⟨i.val + k, by omega⟩ j (by simp; omega)
      have hmask : owlMask x j := by
        by_contra hm
        have := h3 hm
        omega
      exact ht _ _ _ (ih i ⟨i.val + k, by omega⟩ rfl (by omega)) (h ⟨i.val + k, by omega⟩ j (by simp; omega) hmask)
  intro i j hij
  exact key (j.val - i.val) i j (by have : i.val ≤ j.val := hij; omega)

theorem seg_increasing (i j : Fin n) (hij : i ≤ j) (hs : owlSeg x i = owlSeg x j) : x i ≤ x j := by
  refine seg_chain x (fun i j => x i ≤ x j) (fun i => le_rfl) (fun i j k => le_trans) ?_ i j hij hs
  rintro i j hij' ⟨k, hk, hlt⟩
  have : k = i := Fin.ext (by omega)
  subst this
  linarith

end

/-! ## Averaging over segments -/

theorem segAvg_card_pos {n : ℕ} (seg : Fin n → ℕ) (i : Fin n) : (0 : ℝ) < ((Finset.univ.filter fun j => seg j = seg i).card : ℝ) := by
  have : 0 < (Finset.univ.filter fun j => seg j = seg i).card := Finset.card_pos.mpr ⟨i, by simp⟩
  exact_mod_cast this

theorem segAvg_congr {n : ℕ} (seg : Fin n → ℕ) (y : Fin n → ℝ) {i j : Fin n} (h : seg i = seg j) : segAvg seg y i = segAvg seg y j := by
  unfold segAvg; rw [h]

theorem segAvg_sub {n : ℕ} (seg : Fin n → ℕ) (y l : Fin n → ℝ) (i : Fin n) :
    segAvg seg y i - segAvg seg l i = segAvg seg (fun i => y i - l i) i := by
  unfold segAvg; rw [Finset.sum_sub_distrib, sub_div]

/-- Sum over all entries = sum over the segments. -/
theorem sum_by_seg {n : ℕ} (seg : Fin n → ℕ) (f : Fin n → ℝ) :
    ∑ i, f i = ∑ s ∈ Finset.univ.image seg, ∑ i ∈ Finset.univ.filter (fun i => seg i = s), f i :=
  (Finset.sum_fiberwise_of_maps_to (fun i _ => Finset.mem_image_of_mem seg (Finset.mem_univ i)) f).symm

theorem segAvg_on {n : ℕ} (seg : Fin n → ℕ) (y p : Fin n → ℝ) (i0 : Fin n) :
    ∑ i ∈ Finset.univ.filter (fun i => seg i = seg i0), segAvg seg y i * p i =
      segAvg seg y i0 * ∑ i ∈ Finset.univ.filter (fun i => seg i = seg i0), p i := by
  rw [Finset.mul_sum]
  refine Finset.sum_congr rfl fun i hi => ?_
  rw [segAvg_congr seg y (Finset.mem_filter.mp hi).2]

theorem segAvg_dec {n : ℕ} (x d : Fin n → ℝ) (hd : Antitone d) :
    ∑ i, (x i - segAvg (owlSeg x) x i) * d i ≤ 0 := by
  rw [sum_by_seg (owlSeg x)]
  refine Finset.sum_nonpos fun s hs => ?_
  obtain ⟨i0, _, rfl⟩ := Finset.mem_image.mp hs
  simp only [sub_mul, Finset.sum_sub_distrib]
  rw [segAvg_on]
  have hc := segAvg_card_pos (owlSeg x) i0
  have hanti : AntivaryOn x d (Finset.univ.filter fun i => owlSeg x i = owlSeg x i0 : Finset (Fin n)) := by
    intro i hi j hj hlt
    have hi' := (Finset.mem_filter.mp hi).2
    have hj' := (Finset.mem_filter.mp hj).2
    rcases le_total i j with h | h
    · exact absurd (hd h) (not_le.mpr hlt)
    · exact seg_increasing x j i h (by rw [hi', hj'])
  have h1 := hanti.card_mul_sum_le_sum_mul_sum
  have h2 : segAvg (owlSeg x) x i0 * ∑ i ∈ Finset.univ.filter (fun i => owlSeg x i = owlSeg x i0), d i =
      ((∑ i ∈ Finset.univ.filter (fun i => owlSeg x i = owlSeg x i0), x i) * ∑ i ∈ Finset.univ.filter (fun i => owlSeg x i = owlSeg x i0), d i) /
      ((Finset.univ.filter fun j => owlSeg x j = owlSeg x i0).card : ℝ) := by
    unfold segAvg; ring
  rw [h2, sub_nonpos, le_div_iff₀ hc, mul_comm]
  exact h1

theorem segAvg_const {n : ℕ} (seg : Fin n → ℕ) (x p : Fin n → ℝ) (hp : ∀ i j, seg i = seg j → p i = p j) :
    ∑ i, (x i - segAvg seg x i) * p i = 0 := by
  rw [sum_by_seg seg]
  refine Finset.sum_eq_zero fun s hs => ?_
  obtain ⟨i0, _, rfl⟩ := Finset.mem_image.mp hs
  have e : ∀ i ∈ Finset.univ.filter (fun i => seg i = seg i0), (x i - segAvg seg x i) * p i = (x i - segAvg seg x i0) * p i0 := by
    intro i hi
    have := (Finset.mem_filter.mp hi).2
    rw [hp i i0 this, segAvg_congr seg x this]
  rw [Finset.sum_congr rfl e, ← Finset.sum_mul, Finset.sum_sub_distrib, Finset.sum_const, nsmul_eq_mul]
  unfold segAvg
  rw [mul_div_cancel₀ _ (segAvg_card_pos seg i0).ne', sub_self, zero_mul]

/-- `p` solves the isotonic problem for `z`: it is decreasing and `⟨z - p, d - p⟩ ≤ 0` for all decreasing `d`. -/
def Iso {n : ℕ} (z p : Fin n → ℝ) : Prop := Antitone p ∧ ∀ d : Fin n → ℝ, Antitone d → ∑ i, (z i - p i) * (d i - p i) ≤ 0

/-- Where the data do not decrease, the solution is constant. -/
theorem Iso.eq_adj {n : ℕ} {z p : Fin n → ℝ} (h : Iso z p) {i j : Fin n} (hij : i.val + 1 = j.val) (hz : z i ≤ z j) : p i = p j := by
  by_contra hne
  have hlt : p j < p i := lt_of_le_of_ne (h.1 (by rw [Fin.le_def]; omega)) (Ne.symm hne)
  have hijne : i ≠ j := by intro e; rw [e] at hij; omega
  set m := (p i + p j) / 2 with hm
  set d : Fin n → ℝ := fun k => if k = i then m else if k = j then m else p k with hd
  have hdanti : Antitone d := by
    refine dec_of_adj fun a b hab => ?_
    have hpab : p b ≤ p a := h.1 (by rw [Fin.le_def]; omega)
    simp only [hd]
    by_cases hai : a = i
    · have hbj : b = j := Fin.ext (by rw [← hij, ← hab, hai])
      have hbi : b ≠ i := by rw [hbj]; exact hijne.symm
      simp [hai, hbj, hijne.symm]
    · by_cases haj : a = j
      · have hbi : b ≠ i := by intro e; rw [e, haj] at hab; omega
        have hbj : b ≠ j := by intro e; rw [e, haj] at hab; omega
        simp only [haj, hbi, hbj, hijne.symm, if_true, if_false]
        rw [haj] at hpab; linarith
      · by_cases hbi : b = i
        · simp only [hai, haj, hbi, if_true, if_false]
          rw [hbi] at hpab; linarith
        · by_cases hbj : b = j
          · exfalso; apply hai; apply Fin.ext; rw [hbj] at hab; omega
          · simpa only [hai, haj, hbi, hbj, if_false] using hpab
  have h1 := h.2 d hdanti
  have e : ∑ k, (z k - p k) * (d k - p k) = (z i - p i) * (m - p i) + (z j - p j) * (m - p j) := by
    have hsub : ∑ k, (z k - p k) * (d k - p k) = ∑ k ∈ ({i, j} : Finset (Fin n)), (z k - p k) * (d k - p k) := by
      symm
      refine Finset.sum_subset (Finset.subset_univ _) fun k _ hk => ?_
      simp only [Finset.mem_insert, Finset.mem_singleton, not_or] at hk
      simp [hd, hk.1, hk.2]
    rw [hsub, Finset.sum_pair hijne]
    simp [hd, hijne.symm]
  rw [e] at h1
  have : (z i - p i) * (m - p i) + (z j - p j) * (m - p j) = (p i - p j) / 2 * ((z j - z i) + (p i - p j)) := by rw [hm]; ring
  rw [this] at h1
  have : 0 < (p i - p j) / 2 * ((z j - z i) + (p i - p j)) := mul_pos (by linarith) (by linarith)
  linarith

/-- Undoing one averaging step keeps the isotonic solution. -/
theorem Iso.of_avg {n : ℕ} {x p : Fin n → ℝ} (h : Iso (segAvg (owlSeg x) x) p) : Iso x p := by
  refine ⟨h.1, fun d hd => ?_⟩
  have hadj : ∀ i j : Fin n, i.val + 1 = j.val → owlMask x j → p i = p j := fun i j hij hm =>
    h.eq_adj hij (segAvg_congr _ _ ((owlSeg_succ x i j hij).1 hm).symm).le
  have hconst : ∀ i j, owlSeg x i = owlSeg x j → p i = p j := by
    have := seg_chain x (fun i j => p i = p j) (fun i => rfl) (fun i j k => Eq.trans) hadj
    intro i j hs
    rcases le_total i j with hij | hij
    · exact this i j hij hs
    · exact (this j i hij hs.symm).symm
  have h1 := segAvg_dec x d hd
  have h2 := segAvg_const (owlSeg x) x p hconst
  have h3 := h.2 d hd
  have e : ∑ i, (x i - p i) * (d i - p i) = ∑ i, (x i - segAvg (owlSeg x) x i) * d i - ∑ i, (x i - segAvg (owlSeg x) x i) * p i +
      ∑ i, (segAvg (owlSeg x) x i - p i) * (d i - p i) := by
    rw [← Finset.sum_sub_distrib, ← Finset.sum_add_distrib]
    exact Finset.sum_congr rfl fun i _ => by ring
  rw [e]; linarith

/-- If the loop stops, the difference of the two arrays is the isotonic solution for the initial difference. -/
theorem owl_loop {n : ℕ} {s0 s : (Fin n → ℝ) × (Fin n → ℝ)} (h : Out owlCond owlStep s0 s) :
    Iso (fun i => s0.1 i - s0.2 i) (fun i => s.1 i - s.2 i) := by
  obtain ⟨hr, hc⟩ := h
  have hanti : Antitone fun i => s.1 i - s.2 i := dec_of_adj (by unfold owlCond at hc; push Not at hc; exact hc)
  have base : Iso (fun i => s.1 i - s.2 i) (fun i => s.1 i - s.2 i) := ⟨hanti, fun d _ => by simp⟩
  have key : ∀ s1, Reach owlCond owlStep s0 s1 → ∀ p, Iso (fun i => s1.1 i - s1.2 i) p → Iso (fun i => s0.1 i - s0.2 i) p := by
    intro s1 h1
    induction h1 with
    | init => exact fun p hp => hp
    | @step s1 _ _ ih =>
      intro p hp
      apply ih
      apply Iso.of_avg
      have e : (fun i => (owlStep s1).1 i - (owlStep s1).2 i) =
          segAvg (owlSeg fun i => s1.1 i - s1.2 i) fun i => s1.1 i - s1.2 i := by
        funext i; exact segAvg_sub _ _ _ i
      rwa [e] at hp
  exact key s hr _ base

/-- Clipping the isotonic solution at 0 gives the solution among non-negative decreasing vectors. -/
theorem Iso.clip {n : ℕ} {v p : Fin n → ℝ} (h : Iso v p) (d : Fin n → ℝ) (hd : Antitone d) (hd0 : ∀ i, 0 ≤ d i) :
    ∑ i, (v i - max (p i) 0) * (d i - max (p i) 0) ≤ 0 := by
  have hcone : ∀ d : Fin n → ℝ, Antitone d → ∑ i, (v i - p i) * d i ≤ 0 := by
    intro d hd
    have := h.2 (fun i => p i + d i) (h.1.add hd)
    simpa using this
  have h1 := hcone d hd
  have h2 : 0 ≤ ∑ i, (v i - p i) * max (p i) 0 := by
    have := h.2 (fun i => min (p i) 0) (fun i j hij => min_le_min (h.1 hij) le_rfl)
    have e : ∑ i, (v i - p i) * (min (p i) 0 - p i) = -∑ i, (v i - p i) * max (p i) 0 := by
      rw [← Finset.sum_neg_distrib]
      refine Finset.sum_congr rfl fun i _ => ?_
      have := min_add_max (p i) 0
      have e' : min (p i) 0 - p i = -max (p i) 0 := by linarith
      rw [e']; ring
    rw [e] at this; linarith
  have h3 : ∑ i, (p i - max (p i) 0) * (d i - max (p i) 0) ≤ 0 := by
    refine Finset.sum_nonpos fun i _ => ?_
    rcases le_total (p i) 0 with h | h
    · rw [max_eq_right h, sub_zero, sub_zero]; exact mul_nonpos_of_nonpos_of_nonneg h (hd0 i)
    · rw [max_eq_left h]; simp
  have e : ∑ i, (v i - max (p i) 0) * (d i - max (p i) 0) = ∑ i, (v i - p i) * d i - ∑ i, (v i - p i) * max (p i) 0 +
      ∑ i, (p i - max (p i) 0) * (d i - max (p i) 0) := by
    rw [← Finset.sum_sub_distrib, ← Finset.sum_add_distrib]
    exact Finset.sum_congr rfl fun i _ => by ring
  rw [e]; linarith

/-! ## The ordered weighted `ℓ₁` norm -/

theorem owlFunc_ge {n : ℕ} (lam : Fin n → ℝ) (hl : Antitone lam) (x : Vec n) (τ : Equiv.Perm (Fin n)) :
    ∑ i, lam i * |x (τ i)| ≤ owlFunc lam x := rearr lam (fun i => |x i|) hl τ

theorem owlFunc_eq {n : ℕ} (lam : Fin n → ℝ) (hl : Antitone lam) (x : Vec n) (τ : Equiv.Perm (Fin n)) (h : Antitone fun i => |x (τ i)|) :
    owlFunc lam x = ∑ i, lam i * |x (τ i)| := by
  refine le_antisymm ?_ (owlFunc_ge lam hl x τ)
  have hm : Monovary lam (fun i => |x (τ i)|) := (h.monovary hl).symm
  have := hm.sum_mul_comp_perm_le_sum_mul (σ := (argsortDesc fun i => |x i|).trans τ.symm)
  simpa [owlFunc] using this

/-- **C33 partial** (correctness on termination): if `prox_owl1(lam).prox_op(x, t)` returns, for decreasing non-negative weights and
`t > 0`, the result is the proximal point of the ordered weighted `ℓ₁` norm. Missing: the loop need not stop (`c33_owl1_diverges`). -/
theorem c33_prox_owl1_partial {n : ℕ} (lam : Fin n → ℝ) (hl : Antitone lam) (hl0 : ∀ i, 0 ≤ lam i) (x : Vec n) (t : ℝ) (ht : 0 < t)
    (z : Vec n) (hz : OwlProx lam x t z) : IsProx (owlFunc lam) t x z := by
  obtain ⟨s, hout, rfl⟩ := hz
  have hiso := owl_loop hout
  set p : Fin n → ℝ := fun i => s.1 i - s.2 i with hp
  set idx := argsortDesc fun i => |x i| with hidx
  set a : Fin n → ℝ := fun i => |x (idx i)| with ha
  have ha_anti : Antitone a := argsortDesc_anti fun i => |x i|
  have hv : (fun i => (owlInit x fun i => t * lam i).1 i - (owlInit x fun i => t * lam i).2 i) = fun i => a i - t * lam i := rfl
  rw [hv] at hiso
  set q : Fin n → ℝ := fun i => max (p i) 0 with hq
  have hq0 : ∀ i, 0 ≤ q i := fun i => le_max_right _ _
  have hq_anti : Antitone q := fun i j hij => max_le_max (hiso.1 hij) le_rfl
  have hclip := fun d hd hd0 => hiso.clip d hd hd0
  -- entries of `q` vanish where the data vanish
  have hqz : ∀ i, a i = 0 → q i = 0 := by
    classical
    intro i hi
    have hanti : Antitone fun j => if a j = 0 then 0 else q j := by
      intro j k hjk
      simp only
      by_cases hk : a k = 0
      · rw [if_pos hk]; split
        · exact le_rfl
        · exact hq0 j
      · have hj : a j ≠ 0 := by
          intro hj
          have := ha_anti hjk
          rw [hj] at this
          exact hk (le_antisymm this (abs_nonneg _))
        rw [if_neg hk, if_neg hj]; exact hq_anti hjk
    have := hclip _ hanti (fun j => by split <;> [exact le_rfl; exact hq0 j])
    have e : ∀ j, (a j - t * lam j - max (p j) 0) * ((if a j = 0 then 0 else q j) - max (p j) 0) =
        if a j = 0 then (t * lam j + q j) * q j else 0 := by
      intro j
      split
      · rename_i h; rw [h]; simp only [hq]; ring
      · simp [hq]
    simp only [e] at this
    have hnn : ∀ j ∈ (Finset.univ : Finset (Fin n)), 0 ≤ (if a j = 0 then (t * lam j + q j) * q j else 0) := by
      intro j _
      split
      · have := hl0 j; have := hq0 j; positivity
      · exact le_rfl
    have h0 := (Finset.sum_eq_zero_iff_of_nonneg hnn).mp (le_antisymm this (Finset.sum_nonneg hnn)) i (Finset.mem_univ i)
    rw [if_pos hi] at h0
    have h1 := hl0 i
    have h2 := hq0 i
    by_contra hne
    have h3 : 0 < q i := lt_of_le_of_ne h2 (Ne.symm hne)
    have : 0 < (t * lam i + q i) * q i := by positivity
    linarith
  set w := owlFinish x s with hw
  have hwi : ∀ i, w (idx i) = Real.sign (x (idx i)) * q i := by
    intro i
    simp only [hw, owlFinish, vec_apply, hidx, Equiv.symm_apply_apply, hq, hp]
    congr 1
    split
    · rename_i h; rw [max_eq_left (le_of_lt h)]
    · rename_i h; rw [max_eq_right (not_lt.mp h)]
  have hwabs : ∀ i, |w (idx i)| = q i := by
    intro i
    rw [hwi, abs_mul, abs_of_nonneg (hq0 i)]
    rcases lt_trichotomy (x (idx i)) 0 with h | h | h
    · rw [Real.sign_of_neg h]; simp
    · rw [hqz i (by simp [ha, h]), mul_zero]
    · rw [Real.sign_of_pos h]; simp
  have hwx : ∀ i, (w (idx i) - x (idx i)) ^ 2 = (q i - a i) ^ 2 := by
    intro i
    rw [hwi]
    rcases lt_trichotomy (x (idx i)) 0 with h | h | h
    · rw [Real.sign_of_neg h]; simp only [ha, abs_of_neg h]; ring
    · rw [hqz i (by simp [ha, h])]; simp [ha, h]
    · rw [Real.sign_of_pos h]; simp only [ha, abs_of_pos h]; ring
  have hnormw : ‖w - x‖ ^ 2 = ∑ i, (q i - a i) ^ 2 := by
    rw [norm_sq_sum, ← Equiv.sum_comp idx]
    exact Finset.sum_congr rfl fun i _ => by rw [← hwx]; rfl
  have hJw : owlFunc lam w = ∑ i, lam i * q i := by
    rw [owlFunc_eq lam hl w idx (by simpa only [hwabs] using hq_anti)]
    simp only [hwabs]
  -- minimality, not strict
  have hmin : ∀ u : Vec n, owlFunc lam w + ‖w - x‖ ^ 2 / (2 * t) ≤ owlFunc lam u + ‖u - x‖ ^ 2 / (2 * t) := by
    intro u
    set d : Fin n → ℝ := fun i => |u (argsortDesc (fun i => |u i|) i)| with hd
    have hd_anti : Antitone d := argsortDesc_anti fun i => |u i|
    have hJu : owlFunc lam u = ∑ i, lam i * d i := rfl
    have hnu : ∑ i, (d i - a i) ^ 2 ≤ ‖u - x‖ ^ 2 := by
      rw [norm_sq_sum]
      have h1 : ∑ i, a i * |u (idx i)| ≤ ∑ i, a i * d i := rearr a (fun i => |u i|) ha_anti idx
      have h2 : ∑ i, d i ^ 2 = ∑ i, u i ^ 2 := by
        simp only [hd, sq_abs]
        exact Equiv.sum_comp (argsortDesc fun i => |u i|) fun i => u i ^ 2
      have h3 : ∑ i, a i ^ 2 = ∑ i, x i ^ 2 := by
        simp only [ha, sq_abs]
        exact Equiv.sum_comp idx fun i => x i ^ 2
      have h4 : ∑ i, a i * |u (idx i)| = ∑ i, |x i| * |u i| := Equiv.sum_comp idx fun i => |x i| * |u i|
      have h5 : ∑ i, x i * u i ≤ ∑ i, |x i| * |u i| := by
        refine Finset.sum_le_sum fun i _ => ?_
        rw [← abs_mul]; exact le_abs_self _
      have e1 : ∑ i, (d i - a i) ^ 2 = ∑ i, d i ^ 2 - 2 * ∑ i, a i * d i + ∑ i, a i ^ 2 := by
        rw [Finset.mul_sum, ← Finset.sum_sub_distrib, ← Finset.sum_add_distrib]
        exact Finset.sum_congr rfl fun i _ => by ring
      have e2 : ∑ i, (u - x) i ^ 2 = ∑ i, u i ^ 2 - 2 * ∑ i, x i * u i + ∑ i, x i ^ 2 := by
        rw [Finset.mul_sum, ← Finset.sum_sub_distrib, ← Finset.sum_add_distrib]
        exact Finset.sum_congr rfl fun i _ => by simp; ring
      rw [e1, e2, h2, h3]
      linarith
    have hvi := hclip d hd_anti fun i => abs_nonneg _
    have hkey : ∑ i, (q i - a i) ^ 2 + 2 * t * ∑ i, lam i * q i ≤ ∑ i, (d i - a i) ^ 2 + 2 * t * ∑ i, lam i * d i := by
      have e : (∑ i, (d i - a i) ^ 2 + 2 * t * ∑ i, lam i * d i) - (∑ i, (q i - a i) ^ 2 + 2 * t * ∑ i, lam i * q i) =
          ∑ i, (d i - q i) ^ 2 - 2 * ∑ i, (a i - t * lam i - q i) * (d i - q i) := by
        simp only [Finset.mul_sum, ← Finset.sum_sub_distrib, ← Finset.sum_add_distrib]
        exact Finset.sum_congr rfl fun i _ => by ring
      have h0 : 0 ≤ ∑ i, (d i - q i) ^ 2 := Finset.sum_nonneg fun i _ => sq_nonneg _
      have h1 : ∑ i, (a i - t * lam i - q i) * (d i - q i) ≤ 0 := hvi
      linarith
    rw [hJw, hnormw, hJu]
    have e1 : ∑ i, lam i * q i + (∑ i, (q i - a i) ^ 2) / (2 * t) = (∑ i, (q i - a i) ^ 2 + 2 * t * ∑ i, lam i * q i) / (2 * t) := by
      field_simp; ring
    have e2 : ∑ i, lam i * d i + ‖u - x‖ ^ 2 / (2 * t) = (‖u - x‖ ^ 2 + 2 * t * ∑ i, lam i * d i) / (2 * t) := by
      field_simp; ring
    rw [e1, e2]
    exact div_le_div_of_nonneg_right (by linarith) (by positivity)
  -- strictness, from convexity of the norm
  intro u hne
  refine lt_of_le_of_ne (hmin u) fun heq => ?_
  set m : Vec n := (1 / 2 : ℝ) • (u + w) with hm
  have hconv : owlFunc lam m ≤ (owlFunc lam u + owlFunc lam w) / 2 := by
    set τ := argsortDesc (fun i => |m i|) with hτ
    have h1 := owlFunc_ge lam hl u τ
    have h2 := owlFunc_ge lam hl w τ
    have h3 : owlFunc lam m ≤ ∑ i, (lam i * |u (τ i)| + lam i * |w (τ i)|) / 2 := by
      refine Finset.sum_le_sum fun i _ => ?_
      have : |m (τ i)| ≤ (|u (τ i)| + |w (τ i)|) / 2 := by
        have e : m (τ i) = 1 / 2 * (u (τ i) + w (τ i)) := by simp [hm]; ring
        rw [e, abs_mul, abs_of_pos (by norm_num : (0 : ℝ) < 1 / 2)]
        have := abs_add_le (u (τ i)) (w (τ i))
        linarith
      have := mul_le_mul_of_nonneg_left this (hl0 i)
      change lam i * |m (τ i)| ≤ _
      linarith
    rw [← Finset.sum_div, Finset.sum_add_distrib] at h3
    linarith
  have hpar : ‖m - x‖ ^ 2 = (‖u - x‖ ^ 2 + ‖w - x‖ ^ 2) / 2 - ‖u - w‖ ^ 2 / 4 := by
    have e1 : m - x = (1 / 2 : ℝ) • ((u - x) + (w - x)) := by rw [hm]; module
    have e2 : u - w = (u - x) - (w - x) := by abel
    rw [e1, norm_smul, mul_pow, e2, norm_add_sq_real (u - x) (w - x), norm_sub_sq_real (u - x) (w - x), Real.norm_of_nonneg (by norm_num)]; ring
  have hpos : 0 < ‖u - w‖ ^ 2 := by
    have : 0 < ‖u - w‖ := norm_pos_iff.mpr (sub_ne_zero.mpr hne)
    positivity
  have h1 := hmin m
  rw [hpar] at h1
  have e3 : ((‖u - x‖ ^ 2 + ‖w - x‖ ^ 2) / 2 - ‖u - w‖ ^ 2 / 4) / (2 * t) =
      (‖u - x‖ ^ 2 / (2 * t) + ‖w - x‖ ^ 2 / (2 * t)) / 2 - ‖u - w‖ ^ 2 / 4 / (2 * t) := by field_simp
  have h2 : 0 < ‖u - w‖ ^ 2 / 4 / (2 * t) := by positivity
  linarith

/-- A run that stops: two entries, after one averaging step. -/
theorem ex_owlProx : ∃ z, OwlProx ![1, 0] (vec ![2, 2]) 1 z := by
  by_cases h : owlCond (owlInit (vec ![2, 2]) fun i => 1 * (![1, 0] : Fin 2 → ℝ) i)
  · refine ⟨_, _, ⟨.step .init h, ?_⟩, rfl⟩
    -- the average is constant
    set s := owlInit (vec ![2, 2]) fun i => 1 * (![1, 0] : Fin 2 → ℝ) i with hs
    have hx : ∀ i, s.1 i = 2 := by
      intro i
      simp only [hs, owlInit]
      have : ∀ j : Fin 2, |(vec ![2, 2] : Vec 2) j| = 2 := by intro j; fin_cases j <;> norm_num [vec]
      rw [this]
    have hm : owlMask (fun i => s.1 i - s.2 i) 1 := ⟨0, rfl, by simp only [hx]; simp [hs, owlInit]⟩
    have hseg := (owlSeg_succ (fun i => s.1 i - s.2 i) 0 1 rfl).1 hm
    simp only [owlCond, not_not]
    intro i j hij
    have hi : i = 0 := Fin.ext (by have := j.2; simp at *; omega)
    have hj : j = 1 := Fin.ext (by have := j.2; simp at *; omega)
    subst hi hj
    simp only [owlStep]
    rw [segAvg_congr _ s.1 hseg, segAvg_congr _ s.2 hseg]
  · exact ⟨_, _, ⟨.init, h⟩, rfl⟩

/-! ## Divergence -/

/-- The loop alternates between these two shapes. -/
def Shape (x : Fin 3 → ℝ) : Prop := (x 0 = x 1 ∧ x 1 < x 2) ∨ (x 0 < x 1 ∧ x 1 = x 2)

theorem shape_step (x : Fin 3 → ℝ) (h : Shape x) : Shape (segAvg (owlSeg x) x) := by
  have m1 : owlMask x 1 ↔ x 0 < x 1 := by
    constructor
    · rintro ⟨j, hj, hlt⟩
      have : j = 0 := Fin.ext (by simp at hj ⊢; omega)
      subst this; linarith
    · intro h; exact ⟨0, rfl, by linarith⟩
  have m2 : owlMask x 2 ↔ x 1 < x 2 := by
    constructor
    · rintro ⟨j, hj, hlt⟩
      have : j = 1 := Fin.ext (by simp at hj ⊢; omega)
      subst this; linarith
    · intro h; exact ⟨1, rfl, by linarith⟩
  obtain ⟨s1, s1'⟩ := owlSeg_succ x 0 1 rfl
  obtain ⟨s2, s2'⟩ := owlSeg_succ x 1 2 rfl
  have f3 : ∀ P : Fin 3 → Prop, ∀ [DecidablePred P], (Finset.univ.filter P) = (Finset.univ.filter P : Finset (Fin 3)) := fun _ _ => rfl
  rcases h with ⟨h1, h2⟩ | ⟨h1, h2⟩
  · -- segments {0}, {1, 2}
    have e1 := s1' (by rw [m1]; linarith)
    have e2 := s2 (m2.mpr h2)
    right
    have a0 : segAvg (owlSeg x) x 0 = x 0 := by
      have : (Finset.univ.filter fun j => owlSeg x j = owlSeg x 0) = {0} := by
        ext j; fin_cases j <;> simp [e1, e2]
      simp [segAvg, this]
    have a1 : segAvg (owlSeg x) x 1 = (x 1 + x 2) / 2 := by
      have : (Finset.univ.filter fun j => owlSeg x j = owlSeg x 1) = {1, 2} := by
        ext j; fin_cases j <;> simp [e1, e2]
      simp [segAvg, this]
    have a2 : segAvg (owlSeg x) x 2 = segAvg (owlSeg x) x 1 := segAvg_congr _ _ e2
    rw [a2, a0, a1]
    exact ⟨by linarith, rfl⟩
  · -- segments {0, 1}, {2}
    have e1 := s1 (m1.mpr h1)
    have e2 := s2' (by rw [m2]; linarith)
    left
    have a2 : segAvg (owlSeg x) x 2 = x 2 := by
      have : (Finset.univ.filter fun j => owlSeg x j = owlSeg x 2) = {2} := by
        ext j; fin_cases j <;> simp [e1, e2]
      simp [segAvg, this]
    have a1 : segAvg (owlSeg x) x 1 = (x 0 + x 1) / 2 := by
      have : (Finset.univ.filter fun j => owlSeg x j = owlSeg x 1) = {0, 1} := by
        ext j; fin_cases j <;> simp [e1, e2]
      simp [segAvg, this]
    have a0 : segAvg (owlSeg x) x 0 = segAvg (owlSeg x) x 1 := segAvg_congr _ _ e1.symm
    rw [a2, a0, a1]
    exact ⟨rfl, by linarith⟩

/-- **C33 disproof** in exact arithmetic the loop of `prox_owl1` never stops for `x = (5,5,5)`, `lambda = (2,2,0)`, `t = 1`: it averages
`{1,2}` and `{0,1}` in turn for ever, because segments that have become equal are not merged. So no value is returned. -/
theorem c33_owl1_diverges : ¬ ∃ z, OwlProx ![2, 2, 0] (vec ![5, 5, 5]) 1 z := by
  rintro ⟨z, s, ⟨hr, hc⟩, -⟩
  have hinv : Shape (fun i => s.1 i - s.2 i) := by
    refine Reach.inv (fun s => Shape (fun i => s.1 i - s.2 i)) hr ?_ fun s h _ => ?_
    · have : ∀ j : Fin 3, |(vec ![5, 5, 5] : Vec 3) j| = 5 := by intro j; fin_cases j <;> norm_num [vec]
      left
      simp only [owlInit, this]
      constructor <;> norm_num [Matrix.cons_val_two]
    · have e : (fun i => (owlStep s).1 i - (owlStep s).2 i) = segAvg (owlSeg fun i => s.1 i - s.2 i) fun i => s.1 i - s.2 i := by
        funext i; exact segAvg_sub _ _ _ i
      rw [e]; exact shape_step _ h
  apply hc
  intro hall
  rcases hinv with ⟨_, h⟩ | ⟨h, _⟩
  · exact absurd (hall 1 2 rfl) (not_le.mpr h)
  · exact absurd (hall 0 1 rfl) (not_le.mpr h)

/-- Instance: `lambda = (1, 0)`, `x = (2, 2)`, `t = 1`, where the averaging runs. -/
example : ∃ z, IsProx (owlFunc ![1, 0]) 1 (vec ![2, 2]) z := by
  obtain ⟨z, hz⟩ := ex_owlProx
  exact ⟨z, c33_prox_owl1_partial ![1, 0] (by intro i j h; fin_cases i <;> fin_cases j <;> simp_all) (by intro i; fin_cases i <;> simp) _ 1 one_pos z hz⟩

end Verif.Opt
