import Verif.Cs1bit.RfpSymProps
import Verif.Pursuit.PhaseSymProps
import Verif.LoopMap

set_option autoImplicit false
/-!
# C178: signs and order of the measurements and signs of the unknowns do not matter to one-bit measurements and BIHT
-/
noncomputable section
namespace Verif.Cs1bit
open Verif.Loop Verif.Pursuit ComplexConjugate

variable {M : ℕ}

/-- The dictionary with atom `j` multiplied by `ω j` and the measurements relabelled by `f`, `τ`. -/
def bitsDict (ω : ℕ → ℝ) (f : Fin M → ℝ) (τ : Equiv.Perm (Fin M)) (phi : ℕ → Meas M) : ℕ → Meas M := fun j => ω j • relabel f τ (phi j)

/-- The same for a result of BIHT: the coefficient of atom `i` multiplied by `ω i`, the residual relabelled. -/
def BState.relabel (ω : ℕ → ℝ) (f : Fin M → ℝ) (τ : Equiv.Perm (Fin M)) (s : BState M) : BState M := { s with x := List.zipWith (fun i c => ω i * c) s.I s.x, r := Verif.Cs1bit.relabel f τ s.r }

theorem relabel_add {m : ℕ} (e : Fin m → ℝ) (σ : Equiv.Perm (Fin m)) (x z : EuclideanSpace ℝ (Fin m)) : relabel e σ (x + z) = relabel e σ x + relabel e σ z := by
  ext i
  simp only [relabel_apply, PiLp.add_apply]
  ring

theorem lin_relabel (f : Fin M → ℝ) (τ : Equiv.Perm (Fin M)) (phi : ℕ → Meas M) : ∀ (I : List ℕ) (x : List ℝ), lin (fun j => relabel f τ (phi j)) I x = relabel f τ (lin phi I x)
  | [], x => by
    cases x <;> (ext i; simp [lin, relabel_apply])
  | _ :: _, [] => by ext i; simp [lin, relabel_apply]
  | i :: I, c :: x => by
    rw [lin, lin, lin_relabel f τ phi I x, relabel_add, relabel_smul]

section
variable {ω : ℕ → ℝ} (hω : ∀ j, ω j = 1 ∨ ω j = -1) {f : Fin M → ℝ} (hf : ∀ i, f i = 1 ∨ f i = -1) (τ : Equiv.Perm (Fin M))

include hf

theorem signV_relabel (v : Meas M) : signV (relabel f τ v) = relabel f τ (signV v) := by
  ext i
  rw [signV_apply, relabel_apply, relabel_apply, signV_apply]
  rcases hf i with h | h
  · rw [h, one_mul, one_mul]
  · rw [h, neg_one_mul, neg_one_mul, Real.sign_neg]

theorem count_relabel (v : Meas M) : countNonzero (relabel f τ v) = countNonzero v := by
  unfold countNonzero
  refine Finset.card_equiv τ fun i => ?_
  simp only [Finset.mem_filter, Finset.mem_univ, true_and, relabel_apply]
  rcases hf i with h | h <;> simp [h]

include hω

theorem mkB_relabel (phi : ℕ → Meas M) (y : Meas M) (I : List ℕ) (x : List ℝ) (k : ℕ) : mkB (bitsDict ω f τ phi) (relabel f τ y) I (unphase ω I x) k = (mkB phi y I x k).relabel ω f τ := by
  have hl : lin (bitsDict ω f τ phi) I (unphase ω I x) = relabel f τ (lin phi I x) := by
    rw [← lin_relabel]
    exact lin_phase (fun i => sign_norm (hω i)) (fun j => relabel f τ (phi j)) I x
  have hr : relabel f τ y - signV (lin (bitsDict ω f τ phi) I (unphase ω I x)) = relabel f τ (y - signV (lin phi I x)) := by rw [hl, signV_relabel hf, relabel_sub]
  unfold mkB BState.relabel
  rw [hr, count_relabel hf]
  rfl

theorem body_relabel (phi : ℕ → Meas M) (n : ℕ) (y : Meas M) (K : ℕ) (tau : ℝ) (s : BState M) :
    bihtBody (bitsDict ω f τ phi) n (relabel f τ y) K tau (s.relabel ω f τ) = (bihtBody phi n y K tau s).relabel ω f τ := by
  have hn : ∀ i, ‖ω i‖ = 1 := fun i => sign_norm (hω i)
  have hcorr : corr ℝ (bitsDict ω f τ phi) n (relabel f τ s.r) = unphaseAll ω (corr ℝ phi n s.r) := by
    have e : corr ℝ (fun j => relabel f τ (phi j)) n (relabel f τ s.r) = corr ℝ phi n s.r := by
      unfold corr
      exact List.map_congr_left fun j _ => relabel_inner hf τ _ _
    rw [← e]
    exact corr_phase ω (fun j => relabel f τ (phi j)) n _
  have hx : ((List.range n).map fun i => buildSignal s.I (unphase ω s.I s.x) i + tau / 2 * (unphaseAll ω (corr ℝ phi n s.r)).getD i 0) =
      unphaseAll ω ((List.range n).map fun i => buildSignal s.I s.x i + tau / 2 * (corr ℝ phi n s.r).getD i 0) := by
    rw [all_range]
    refine List.map_congr_left fun i _ => ?_
    rw [buildSignal_unphase, getD_all]
    ring
  show mkB (bitsDict ω f τ phi) (relabel f τ y) (largestIndices ((List.range n).map fun i => buildSignal s.I (unphase ω s.I s.x) i + tau / 2 * (corr ℝ (bitsDict ω f τ phi) n (relabel f τ s.r)).getD i 0) K)
    (gather 0 ((List.range n).map fun i => buildSignal s.I (unphase ω s.I s.x) i + tau / 2 * (corr ℝ (bitsDict ω f τ phi) n (relabel f τ s.r)).getD i 0)
      (largestIndices ((List.range n).map fun i => buildSignal s.I (unphase ω s.I s.x) i + tau / 2 * (corr ℝ (bitsDict ω f τ phi) n (relabel f τ s.r)).getD i 0) K)) (s.iters + 1) = _
  rw [hcorr, hx, largest_all hn, gather_all, mkB_relabel hω hf]
  rfl

/-- **C178** one-bit measurements: negating and reordering the rows of the dictionary negates and reorders the bits; negating atoms together with the entries of the signal changes nothing. -/
theorem c178_measure (phi : ℕ → Meas M) (n : ℕ) (x : ℕ → ℝ) : measure1bit (bitsDict ω f τ phi) n (fun j => ω j * x j) = relabel f τ (measure1bit phi n x) := by
  unfold measure1bit
  rw [← signV_relabel hf]
  congr 1
  ext i
  simp only [applyPhi, bitsDict, WithLp.ofLp_sum, Finset.sum_apply, PiLp.smul_apply, smul_eq_mul, relabel_apply]
  rw [Finset.mul_sum]
  refine Finset.sum_congr rfl fun j _ => ?_
  linear_combination (x j * f i * phi j (τ i)) * sq_of_sign (hω j)

/-- **C178** (BIHT) if BIHT returns `s`, then after negating and reordering measurements (rows with their bits) and negating atoms it returns exactly the same support, number of mismatched bits and number of iterations, with the coefficients negated with
their atoms and the residual relabelled with the measurements. -/
theorem c178_biht (phi : ℕ → Meas M) (n : ℕ) (y : Meas M) (K : ℕ) (tau : ℝ) (maxIters : ℕ) (s : BState M) (h : Biht phi n y K tau maxIters s) (t : BState M) :
    Biht (bitsDict ω f τ phi) n (relabel f τ y) K tau maxIters t ↔ t = s.relabel ω f τ := by
  have e0 : (bihtInit phi y K).relabel ω f τ = bihtInit (bitsDict ω f τ phi) (relabel f τ y) K := by
    unfold bihtInit
    rw [← mkB_relabel hω hf]
    congr 1
    apply List.ext_getElem
    · simp [unphase]
    · intro i h1 h2
      simp [unphase]
  have := Out.map (c := bihtCond maxIters) (f := bihtBody phi n y K tau) (c' := bihtCond maxIters) (f' := bihtBody (bitsDict ω f τ phi) n (relabel f τ y) K tau) (BState.relabel ω f τ)
    (fun s _ => Iff.rfl) (fun s _ _ => body_relabel hω hf τ phi n y K tau s) h t
  rw [e0] at this
  exact this

end

/-- Atom 0 negated, the first of two bits flipped, the bits exchanged. -/
example (phi : ℕ → Meas 2) (y : Meas 2) : ∃ s, Biht phi 3 y 2 1 10 s ∧ ∀ t, Biht (bitsDict (fun j => if j = 0 then -1 else 1) ![-1, 1] (Equiv.swap 0 1) phi) 3 (relabel ![-1, 1] (Equiv.swap 0 1) y) 2 1 10 t ↔
    t = s.relabel (fun j => if j = 0 then -1 else 1) ![-1, 1] (Equiv.swap 0 1) := by
  obtain ⟨s, hs⟩ := (c77_biht_stop phi 3 y 2 (by norm_num) 1 10).1
  exact ⟨s, hs, c178_biht (fun j => by split_ifs <;> simp) (fun i => by fin_cases i <;> simp) _ phi 3 y 2 1 10 s hs⟩

example (phi : ℕ → Meas 2) (x : ℕ → ℝ) := c178_measure (ω := fun j => if j = 0 then -1 else 1) (f := ![-1, 1]) (fun j => by split_ifs <;> simp) (fun i => by fin_cases i <;> simp) (Equiv.swap 0 1) phi 3 x

end Verif.Cs1bit
