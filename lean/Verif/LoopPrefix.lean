import Verif.Loop

set_option autoImplicit false

/-!
Two runs of the same loop body whose loop conditions are ordered: the run that stops earlier is a prefix of the other.
-/
namespace Verif.Loop

/-- `t` is the state after `cnt t - cnt s` more executions of the body `f` from `s`. -/
def Continues {σ : Type*} (f : σ → σ) (cnt : σ → ℕ) (s t : σ) : Prop := cnt s ≤ cnt t ∧ t = f^[cnt t - cnt s] s

variable {σ : Type*} {c c' : σ → Prop} {f : σ → σ} {s0 s t : σ}

theorem Reach.mono' (h : Reach c f s0 s) (hcc : ∀ u, Reach c f s0 u → c u → c' u) : Reach c' f s0 s := by
  induction h with
  | init => exact .init
  | step hr hc ih => exact .step ih (hcc _ hr hc)

/-- Of two reached states of the same loop one comes after the other. -/
theorem Reach.linear (h : Reach c f s0 s) (h' : Reach c f s0 t) : Reach c f s t ∨ Reach c f t s := by
  induction h with
  | init => exact .inl h'
  | @step u hr hc ih =>
    rcases ih with h1 | h1
    · obtain ⟨k, hk, hj⟩ := h1.iterate
      cases k with
      | zero =>
        rw [Function.iterate_zero, id] at hk
        subst hk
        exact .inr (.step .init hc)
      | succ k =>
        left
        rw [hk, Function.iterate_succ_apply]
        refine reach_of_iterate fun j hj' => ?_
        have := hj (j + 1) (Nat.succ_lt_succ hj')
        rwa [Function.iterate_succ_apply] at this
    · exact .inr (.step h1 hc)

/-- If the first condition implies the second, the second run goes on from the result of the first. -/
theorem Out.prefix (hs : Out c f s0 s) (ht : Out c' f s0 t) (hcc : ∀ u, Reach c f s0 u → c u → c' u) :
    Reach c' f s0 s ∧ Reach c' f s t := by
  have h1 := hs.1.mono' hcc
  refine ⟨h1, ?_⟩
  rcases h1.linear ht.1 with h | h
  · exact h
  · obtain ⟨k, hk, hj⟩ := h.iterate
    cases k with
    | zero =>
      rw [Function.iterate_zero, id] at hk
      rw [hk]
      exact .init
    | succ k => exact absurd (hj 0 (Nat.succ_pos k)) ht.2

theorem cnt_iterate (cnt : σ → ℕ) (hinc : ∀ u, cnt (f u) = cnt u + 1) (k : ℕ) (u : σ) : cnt (f^[k] u) = cnt u + k := by
  induction k with
  | zero => rfl
  | succ k ih => rw [Function.iterate_succ_apply', hinc, ih, Nat.add_assoc]

theorem Reach.continues (h : Reach c f s t) (cnt : σ → ℕ) (hinc : ∀ u, cnt (f u) = cnt u + 1) : Continues f cnt s t := by
  obtain ⟨k, rfl, -⟩ := h.iterate
  unfold Continues
  rw [cnt_iterate cnt hinc]
  exact ⟨Nat.le_add_right _ _, by rw [Nat.add_sub_cancel_left]⟩

/-- The prefix rule with a counter. -/
theorem Out.continues (hs : Out c f s0 s) (ht : Out c' f s0 t) (hcc : ∀ u, Reach c f s0 u → c u → c' u) (cnt : σ → ℕ)
    (hinc : ∀ u, cnt (f u) = cnt u + 1) : Continues f cnt s t := (hs.prefix ht hcc).2.continues cnt hinc

/-- A quantity that no step of the longer run increases is not larger at the end of the longer run. -/
theorem Out.better {R : Type*} [Preorder R] (hs : Out c f s0 s) (ht : Out c' f s0 t) (hcc : ∀ u, Reach c f s0 u → c u → c' u) (M : σ → R)
    (hM : ∀ u, Reach c' f s0 u → c' u → M (f u) ≤ M u) : M t ≤ M s := by
  obtain ⟨h1, h2⟩ := hs.prefix ht hcc
  exact h2.inv' (fun u => M u ≤ M s) le_rfl fun u hu ih hc => (hM u (h1.trans hu) hc).trans ih

end Verif.Loop
