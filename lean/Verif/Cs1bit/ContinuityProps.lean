import Verif.Cs1bit.Props
import Verif.Pursuit.JointContinuityProps

set_option autoImplicit false
/-!
# C175: one-bit measurements and BIHT are stable under perturbations of the dictionary
-/
noncomputable section
namespace Verif.Cs1bit
open Verif.Loop Verif.Pursuit Filter Topology

variable {M : ℕ}

/-- The signal before thresholding in a pass of BIHT: `x + (tau/2) Phiᵀ r`. -/
def bihtUpdate (phi : ℕ → Meas M) (n : ℕ) (tau : ℝ) (t : BState M) : List ℝ := (List.range n).map fun i => buildSignal t.I t.x i + tau / 2 * (corr ℝ phi n t.r).getD i 0

section helpers
variable {A : Type*} [TopologicalSpace A]

theorem sign_near {f : A → ℝ} {a : A} (hf : ContinuousAt f a) (h : f a ≠ 0) : ∀ᶠ b in 𝓝 a, Real.sign (f b) = Real.sign (f a) := by
  rcases h.lt_or_gt with h | h
  · filter_upwards [hf.eventually_lt_const h] with b hb
    rw [Real.sign_of_neg h, Real.sign_of_neg hb]
  · filter_upwards [hf.eventually_const_lt h] with b hb
    rw [Real.sign_of_pos h, Real.sign_of_pos hb]

theorem signV_near {f : A → Meas M} {a : A} (hf : ContinuousAt f a) (h : ∀ i, f a i ≠ 0) : ∀ᶠ b in 𝓝 a, signV (f b) = signV (f a) := by
  have : ∀ᶠ b in 𝓝 a, ∀ i ∈ (Finset.univ : Finset (Fin M)), Real.sign (f b i) = Real.sign (f a i) := by
    rw [Filter.eventually_all_finset]
    intro i _
    exact sign_near (f := fun b => f b i) ((PiLp.continuous_apply 2 _ i).continuousAt.comp hf) (h i)
  filter_upwards [this] with b hb
  ext i
  exact hb i (Finset.mem_univ i)

/-- A state of BIHT depending on a parameter: all but the coefficients constant near by, the coefficients continuous. -/
structure BStable (g : A → BState M) (a : A) : Prop where
  I : ∀ᶠ b in 𝓝 a, (g b).I = (g a).I
  r : ∀ᶠ b in 𝓝 a, (g b).r = (g a).r
  mismatched : ∀ᶠ b in 𝓝 a, (g b).mismatched = (g a).mismatched
  iters : ∀ᶠ b in 𝓝 a, (g b).iters = (g a).iters
  x : Joint.ListCont (fun b => (g b).x) a

end helpers

theorem bstable_body (phi : ℕ → Meas M) (n : ℕ) (y : Meas M) (K : ℕ) (tau : ℝ) {g : (ℕ → Meas M) → BState M} (hg : BStable g phi) (h1 : NoTies (bihtUpdate phi n tau (g phi)) K)
    (h2 : ∀ i, lin phi (bihtBody phi n y K tau (g phi)).I (bihtBody phi n y K tau (g phi)).x i ≠ 0) : BStable (fun psi => bihtBody psi n y K tau (g psi)) phi := by
  have hphi : ∀ i, ContinuousAt (fun psi : ℕ → Meas M => psi i) phi := fun i => (continuous_apply i).continuousAt
  have hr : ContinuousAt (fun psi => (g psi).r) phi := ContinuousAt.congr continuousAt_const (hg.r.mono fun psi h => h.symm)
  have hz : Joint.ListCont (fun psi => bihtUpdate psi n tau (g psi)) phi := by
    refine Joint.cont_congr (l := fun psi => (List.range n).map fun i => buildSignal (g phi).I (g psi).x i + tau / 2 * (corr ℝ psi n (g psi).r).getD i 0) ?_ (hg.I.mono fun psi h => by simp only [bihtUpdate, h])
    exact Joint.cont_range n fun j _ => (Joint.cont_build hg.x _ j).add (continuousAt_const.mul ((Joint.cont_corr (𝕜 := ℝ) n hphi hr).2 j))
  have hL := Joint.largest_const hz h1
  have hx : Joint.ListCont (fun psi => (bihtBody psi n y K tau (g psi)).x) phi := Joint.gather_const hz hL
  have hI : ∀ᶠ psi in 𝓝 phi, (bihtBody psi n y K tau (g psi)).I = (bihtBody phi n y K tau (g phi)).I := hL
  have hs : ∀ᶠ psi in 𝓝 phi, signV (lin psi (bihtBody psi n y K tau (g psi)).I (bihtBody psi n y K tau (g psi)).x) = signV (lin phi (bihtBody phi n y K tau (g phi)).I (bihtBody phi n y K tau (g phi)).x) := by
    filter_upwards [hI, signV_near (Joint.cont_lin hphi hx (bihtBody phi n y K tau (g phi)).I) h2] with psi a b
    rw [a, b]
  have hr' : ∀ᶠ psi in 𝓝 phi, (bihtBody psi n y K tau (g psi)).r = (bihtBody phi n y K tau (g phi)).r := hs.mono fun psi h => congrArg (y - ·) h
  exact ⟨hI, hr', hr'.mono fun psi h => congrArg countNonzero h, hg.iters.mono fun psi h => congrArg (· + 1) h, hx⟩

theorem bstable_init (phi : ℕ → Meas M) (y : Meas M) (K : ℕ) : BStable (fun psi => bihtInit psi y K) phi := by
  have h0 : ∀ (psi : ℕ → Meas M) (I : List ℕ) (m : ℕ), lin psi I (List.replicate m (0 : ℝ)) = 0 := by
    intro psi I
    induction I with
    | nil => intro m; cases m <;> rfl
    | cons i I ih =>
      intro m
      cases m with
      | zero => rfl
      | succ m =>
        show (0 : ℝ) • psi i + lin psi I (List.replicate m 0) = 0
        rw [ih, zero_smul, add_zero]
  have hr : ∀ psi, (bihtInit psi y K).r = (bihtInit phi y K).r := fun psi => by
    show y - signV (lin psi _ (List.replicate K 0)) = y - signV (lin phi _ (List.replicate K 0))
    rw [h0, h0]
  exact ⟨Eventually.of_forall fun _ => rfl, Eventually.of_forall hr, Eventually.of_forall fun psi => congrArg countNonzero (hr psi), Eventually.of_forall fun _ => rfl, Eventually.of_forall fun _ => rfl, fun j => continuousAt_const⟩

/-- Two results of BIHT with the same support, residual, number of mismatched bits and number of iterations, and coefficients within `ε`. -/
structure BAgree (ε : ℝ) (s s' : BState M) : Prop where
  I : s'.I = s.I
  r : s'.r = s.r
  mismatched : s'.mismatched = s.mismatched
  iters : s'.iters = s.iters
  length : s'.x.length = s.x.length
  x : ∀ j, |s'.x.getD j 0 - s.x.getD j 0| < ε

/-- **C175** if the bits of a signal are those of nonzero linear measurements, all signals and dictionaries near by have the same bits. -/
theorem c175_measure (phi : ℕ → Meas M) (n : ℕ) (x : ℕ → ℝ) (h : ∀ i : Fin M, ∑ j ∈ Finset.range n, x j * phi j i ≠ 0) : ∀ᶠ p in 𝓝 (phi, x), measure1bit p.1 n p.2 = measure1bit phi n x := by
  refine signV_near (f := fun p : (ℕ → Meas M) × (ℕ → ℝ) => applyPhi p.1 n p.2) (a := (phi, x)) ?_ fun i => ?_
  · exact tendsto_finset_sum _ fun j _ => (((continuous_apply j).comp continuous_snd).smul ((continuous_apply j).comp continuous_fst)).continuousAt (x := (phi, x))
  · have : (applyPhi phi n x) i = ∑ j ∈ Finset.range n, x j * phi j i := by simp [applyPhi]
    exact fun e => h i (this ▸ e)

/-- **C175** suppose that in a run of BIHT no selection of the `K` largest entries has a tie and no linear measurement of an iterate is zero. Then with all dictionaries near by BIHT gives the same support, residual, number of mismatched bits and number of
iterations, with coefficients as near as one likes. -/
theorem c175_biht (phi : ℕ → Meas M) (n : ℕ) (y : Meas M) (K : ℕ) (tau : ℝ) (maxIters : ℕ) (s : BState M) (h : Biht phi n y K tau maxIters s)
    (hrun : ∀ t, Reach (bihtCond maxIters) (bihtBody phi n y K tau) (bihtInit phi y K) t → bihtCond maxIters t → NoTies (bihtUpdate phi n tau t) K ∧
      ∀ i, lin phi (bihtBody phi n y K tau t).I (bihtBody phi n y K tau t).x i ≠ 0) (ε : ℝ) (he : 0 < ε) :
    ∀ᶠ psi in 𝓝 phi, ∀ s', Biht psi n y K tau maxIters s' → BAgree ε s s' := by
  obtain ⟨m, rfl, hm⟩ := h.1.iterate
  have hst : ∀ j, j ≤ m → BStable (fun psi => (bihtBody psi n y K tau)^[j] (bihtInit psi y K)) phi := by
    intro j
    induction j with
    | zero => exact fun _ => bstable_init phi y K
    | succ j ih =>
      intro hj
      simp only [Function.iterate_succ_apply']
      obtain ⟨a, b⟩ := hrun _ (reach_iterate j fun l hl => hm l (by omega)) (hm j (by omega))
      exact bstable_body phi n y K tau (ih (by omega)) a b
  have hcs : ∀ᶠ psi in 𝓝 phi, ∀ j ∈ Finset.range (m + 1), (bihtCond maxIters ((bihtBody psi n y K tau)^[j] (bihtInit psi y K)) ↔ bihtCond maxIters ((bihtBody phi n y K tau)^[j] (bihtInit phi y K))) := by
    rw [Filter.eventually_all_finset]
    intro j hj
    have hj' : j ≤ m := by have := Finset.mem_range.1 hj; omega
    filter_upwards [(hst j hj').mismatched, (hst j hj').iters] with psi a b
    unfold bihtCond
    rw [a, b]
  have hS := hst m le_rfl
  have hx : ∀ᶠ psi in 𝓝 phi, ∀ j ∈ Finset.range ((bihtBody phi n y K tau)^[m] (bihtInit phi y K)).x.length,
      |((bihtBody psi n y K tau)^[m] (bihtInit psi y K)).x.getD j 0 - ((bihtBody phi n y K tau)^[m] (bihtInit phi y K)).x.getD j 0| < ε := by
    rw [Filter.eventually_all_finset]
    intro j _
    have := (Metric.tendsto_nhds.1 (hS.x.2 j)) ε he
    filter_upwards [this] with psi h'
    rwa [Real.dist_eq] at h'
  filter_upwards [hcs, hS.I, hS.r, hS.mismatched, hS.iters, hS.x.1, hx] with psi h1 a b c d e f s' hs'
  have ho : Out (bihtCond maxIters) (bihtBody psi n y K tau) (bihtInit psi y K) ((bihtBody psi n y K tau)^[m] (bihtInit psi y K)) :=
    ⟨reach_iterate m fun j hj => (h1 j (Finset.mem_range.2 (by omega))).2 (hm j hj), fun hc => h.2 ((h1 m (Finset.mem_range.2 (by omega))).1 hc)⟩
  rw [Out.unique hs' ho]
  refine ⟨a, b, c, d, e, fun j => ?_⟩
  by_cases hj : j < ((bihtBody phi n y K tau)^[m] (bihtInit phi y K)).x.length
  · exact f j (Finset.mem_range.2 hj)
  · rw [List.getD_eq_getElem?_getD, List.getD_eq_getElem?_getD, List.getElem?_eq_none (by omega), List.getElem?_eq_none (by omega)]
    simpa using he

/-- **C175** measuring and recovering: when moreover the bits are those of a signal `x` with nonzero linear measurements, dictionaries and signals near by, measured and recovered, give results near by. -/
theorem c175_measured (phi : ℕ → Meas M) (n : ℕ) (x : ℕ → ℝ) (hx : ∀ i : Fin M, ∑ j ∈ Finset.range n, x j * phi j i ≠ 0) (K : ℕ) (tau : ℝ) (maxIters : ℕ) (s : BState M) (h : Biht phi n (measure1bit phi n x) K tau maxIters s)
    (hrun : ∀ t, Reach (bihtCond maxIters) (bihtBody phi n (measure1bit phi n x) K tau) (bihtInit phi (measure1bit phi n x) K) t → bihtCond maxIters t → NoTies (bihtUpdate phi n tau t) K ∧
      ∀ i, lin phi (bihtBody phi n (measure1bit phi n x) K tau t).I (bihtBody phi n (measure1bit phi n x) K tau t).x i ≠ 0) (ε : ℝ) (he : 0 < ε) :
    ∀ᶠ p in 𝓝 (phi, x), ∀ s', Biht p.1 n (measure1bit p.1 n p.2) K tau maxIters s' → BAgree ε s s' := by
  have h1 := (continuous_fst.tendsto (phi, x)).eventually (c175_biht phi n _ K tau maxIters s h hrun ε he)
  filter_upwards [c175_measure phi n x hx, h1] with p a b s' hs'
  rw [a] at hs'
  exact b s' hs'

/-- **C175** the condition is needed: the bit of a zero measurement changes under arbitrarily small perturbations of the signal. -/
theorem c175_zero_fails : ¬ ∀ (phi : ℕ → Meas 1) (x : ℕ → ℝ), ∀ᶠ p in 𝓝 (phi, x), measure1bit p.1 1 p.2 = measure1bit phi 1 x := by
  intro h
  have hc : Continuous fun d : ℝ => ((fun _ => !₂[1] : ℕ → Meas 1), (fun _ => d : ℕ → ℝ)) := continuous_const.prodMk (continuous_pi fun _ => continuous_id)
  have h1 := (hc.tendsto 0).eventually (h _ _)
  obtain ⟨d, hd, hpos⟩ := ((h1.filter_mono nhdsWithin_le_nhds).and (self_mem_nhdsWithin (a := (0 : ℝ)) (s := Set.Ioi 0))).exists
  have e := congrArg (fun v : Meas 1 => v 0) hd
  simp only [measure1bit, signV_apply, applyPhi] at e
  simp [Real.sign_of_pos (show 0 < d from hpos)] at e

/-! ## The hypotheses are met: two atoms, two bits, recovered in one pass -/

/-- The atoms `(2, 1)` and `(1, -1)`. -/
def twoAtoms (i : ℕ) : Meas 2 := if i = 0 then !₂[2, 1] else !₂[1, -1]

theorem twoAtoms_measure : measure1bit twoAtoms 2 (fun i => if i = 0 then 1 else 0) = !₂[1, 1] := by
  ext i
  fin_cases i <;> simp [measure1bit, applyPhi, signV_apply, Finset.sum_range_succ, twoAtoms, Real.sign_of_pos]

theorem twoAtoms_update : bihtUpdate twoAtoms 2 1 (bihtInit twoAtoms !₂[1, 1] 1) = [3 / 2, 0] := by
  have hr : (bihtInit twoAtoms !₂[1, 1] 1).r = !₂[1, 1] := by
    ext i
    fin_cases i <;> simp [bihtInit, mkB, signV, lin, List.range_succ]
  simp only [bihtUpdate, hr]
  simp [List.range_succ, corr, twoAtoms, PiLp.inner_apply, Fin.sum_univ_two, bihtInit, mkB, buildSignal]
  norm_num

theorem twoAtoms_select : largestIndices ([3 / 2, 0] : List ℝ) 1 = [0] ∧ NoTies ([3 / 2, 0] : List ℝ) 1 := by
  refine largest_eq (by simp) (by simp) (by simp) ?_
  intro i hi j hj hn
  simp only [List.mem_singleton] at hi hn
  subst hi
  obtain rfl : j = 1 := by simp at hj; omega
  norm_num

theorem twoAtoms_body : bihtBody twoAtoms 2 !₂[1, 1] 1 1 (bihtInit twoAtoms !₂[1, 1] 1) = mkB twoAtoms !₂[1, 1] [0] [3 / 2] 1 := by
  show mkB twoAtoms _ (largestIndices (bihtUpdate twoAtoms 2 1 (bihtInit twoAtoms !₂[1, 1] 1)) 1) (gather 0 (bihtUpdate twoAtoms 2 1 (bihtInit twoAtoms !₂[1, 1] 1)) (largestIndices (bihtUpdate twoAtoms 2 1 (bihtInit twoAtoms !₂[1, 1] 1)) 1)) _ = _
  rw [twoAtoms_update, twoAtoms_select.1]
  rfl

theorem twoAtoms_lin (i : Fin 2) : lin twoAtoms [0] [(3 / 2 : ℝ)] i ≠ 0 := by
  fin_cases i <;> simp [lin, twoAtoms]

theorem twoAtoms_done (N : ℕ) : ¬ bihtCond N (mkB twoAtoms !₂[1, 1] [0] [3 / 2] 1) := by
  rintro ⟨h, -⟩
  have : (mkB twoAtoms !₂[1, 1] [0] [3 / 2] 1).mismatched = 0 := by
    show countNonzero _ = 0
    rw [countNonzero, Finset.card_eq_zero, Finset.filter_eq_empty_iff]
    intro i _
    rw [not_not]
    fin_cases i <;> simp [signV, lin, twoAtoms, Real.sign_of_pos]
  omega

theorem twoAtoms_reach (N : ℕ) (t : BState 2) (ht : Reach (bihtCond N) (bihtBody twoAtoms 2 !₂[1, 1] 1 1) (bihtInit twoAtoms !₂[1, 1] 1) t) : t = bihtInit twoAtoms !₂[1, 1] 1 ∨ t = mkB twoAtoms !₂[1, 1] [0] [3 / 2] 1 := by
  refine ht.inv (fun t => t = bihtInit twoAtoms !₂[1, 1] 1 ∨ t = mkB twoAtoms !₂[1, 1] [0] [3 / 2] 1) (Or.inl rfl) ?_
  rintro t (rfl | rfl) hc
  · exact Or.inr twoAtoms_body
  · exact absurd hc (twoAtoms_done N)

theorem twoAtoms_met (N : ℕ) (t : BState 2) (ht : Reach (bihtCond N) (bihtBody twoAtoms 2 !₂[1, 1] 1 1) (bihtInit twoAtoms !₂[1, 1] 1) t) (hc : bihtCond N t) :
    NoTies (bihtUpdate twoAtoms 2 1 t) 1 ∧ ∀ i, lin twoAtoms (bihtBody twoAtoms 2 !₂[1, 1] 1 1 t).I (bihtBody twoAtoms 2 !₂[1, 1] 1 1 t).x i ≠ 0 := by
  rcases twoAtoms_reach N t ht with rfl | rfl
  · rw [twoAtoms_update, twoAtoms_body]
    exact ⟨twoAtoms_select.2, twoAtoms_lin⟩
  · exact absurd hc (twoAtoms_done N)

example (ε : ℝ) (he : 0 < ε) : ∃ s, Biht twoAtoms 2 !₂[1, 1] 1 1 5 s ∧ ∀ᶠ psi in 𝓝 twoAtoms, ∀ s', Biht psi 2 !₂[1, 1] 1 1 5 s' → BAgree ε s s' := by
  obtain ⟨s, hs⟩ := (c77_biht_stop twoAtoms 2 !₂[1, 1] 1 (by norm_num) 1 5).1
  exact ⟨s, hs, c175_biht twoAtoms 2 _ 1 1 5 s hs (twoAtoms_met 5) ε he⟩

theorem twoAtoms_nonzero (i : Fin 2) : ∑ j ∈ Finset.range 2, (if j = 0 then (1 : ℝ) else 0) * twoAtoms j i ≠ 0 := by
  fin_cases i <;> simp [Finset.sum_range_succ, twoAtoms]

example := c175_measure twoAtoms 2 (fun i => if i = 0 then 1 else 0) twoAtoms_nonzero

example (ε : ℝ) (he : 0 < ε) : ∃ s, Biht twoAtoms 2 (measure1bit twoAtoms 2 fun i => if i = 0 then 1 else 0) 1 1 5 s ∧
    ∀ᶠ p in 𝓝 (twoAtoms, fun i => if i = 0 then (1 : ℝ) else 0), ∀ s', Biht p.1 2 (measure1bit p.1 2 p.2) 1 1 5 s' → BAgree ε s s' := by
  obtain ⟨s, hs⟩ := (c77_biht_stop twoAtoms 2 (measure1bit twoAtoms 2 fun i => if i = 0 then 1 else 0) 1 (by norm_num) 1 5).1
  refine ⟨s, hs, c175_measured twoAtoms 2 _ twoAtoms_nonzero 1 1 5 s hs ?_ ε he⟩
  rw [twoAtoms_measure]
  exact twoAtoms_met 5

end Verif.Cs1bit
