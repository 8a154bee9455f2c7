import Mathlib.Logic.Function.Iterate
import Mathlib.Order.Basic
import Mathlib.Order.Nat
import Mathlib.Data.Nat.Find

set_option autoImplicit false

/-!
The loop primitive `jax.lax.while_loop(cond, body, init)`, modelled as a reachability relation.
-/
namespace Verif.Loop

/-- The states seen by the loop header of `while cond(s): s = body(s)` started at `s0`
(model of `jax.lax.while_loop`, and of the Python `while` loops of the library). -/
inductive Reach {σ : Type*} (c : σ → Prop) (f : σ → σ) (s0 : σ) : σ → Prop
  | init : Reach c f s0 s0
  | step {s : σ} : Reach c f s0 s → c s → Reach c f s0 (f s)

/-- `s` is the value the loop returns: a reached state at which the condition is false. -/
def Out {σ : Type*} (c : σ → Prop) (f : σ → σ) (s0 s : σ) : Prop := Reach c f s0 s ∧ ¬ c s

variable {σ : Type*} {c : σ → Prop} {f : σ → σ} {s0 s : σ}

/-- Invariant rule. -/
theorem Reach.inv (I : σ → Prop) (h : Reach c f s0 s) (h0 : I s0)
    (hs : ∀ s, I s → c s → I (f s)) : I s := by
  induction h with
  | init => exact h0
  | step _ hc ih => exact hs _ ih hc

/-- Invariant rule that may also use that the state is reachable. -/
theorem Reach.inv' (I : σ → Prop) (h : Reach c f s0 s) (h0 : I s0)
    (hs : ∀ s, Reach c f s0 s → I s → c s → I (f s)) : I s := by
  induction h with
  | init => exact h0
  | step hr hc ih => exact hs _ hr ih hc

theorem Reach.trans {s1 : σ} (h : Reach c f s0 s1) (h' : Reach c f s1 s) : Reach c f s0 s := by
  induction h' with
  | init => exact h
  | step _ hc ih => exact .step ih hc

/-- Every reachable state is an iterate of the body, and the condition held at all earlier ones. -/
theorem Reach.iterate (h : Reach c f s0 s) :
    ∃ k : Nat, s = f^[k] s0 ∧ ∀ j, j < k → c (f^[j] s0) := by
  induction h with
  | init => exact ⟨0, rfl, fun j hj => absurd hj (Nat.not_lt_zero j)⟩
  | @step s hr hc ih =>
    obtain ⟨k, rfl, hk⟩ := ih
    refine ⟨k + 1, by rw [Function.iterate_succ_apply'], fun j hj => ?_⟩
    rcases Nat.lt_succ_iff_lt_or_eq.mp hj with h1 | rfl
    · exact hk j h1
    · exact hc

theorem reach_of_iterate {k : Nat} (h : ∀ j, j < k → c (f^[j] s0)) : Reach c f s0 (f^[k] s0) := by
  induction k with
  | zero => exact .init
  | succ k ih =>
    rw [Function.iterate_succ_apply']
    exact .step (ih fun j hj => h j (Nat.lt_succ_of_lt hj)) (h k (Nat.lt_succ_self k))

/-- The loop is deterministic: it returns at most one value. -/
theorem Out.unique {t : σ} (h : Out c f s0 s) (h' : Out c f s0 t) : s = t := by
  obtain ⟨k, rfl, hk⟩ := h.1.iterate
  obtain ⟨l, rfl, hl⟩ := h'.1.iterate
  rcases Nat.lt_trichotomy k l with h1 | rfl | h1
  · exact absurd (hl k h1) h.2
  · rfl
  · exact absurd (hk l h1) h'.2

/-- A loop with an iteration cap returns. -/
theorem exists_out (cnt : σ → Nat) (N : Nat) (hcap : ∀ s, c s → cnt s < N)
    (hinc : ∀ s, cnt s < cnt (f s)) : ∃ s, Out c f s0 s := by
  by_cases h : ∃ k, ¬ c (f^[k] s0)
  · classical
    let k := Nat.find h
    have hk : ¬ c (f^[k] s0) := Nat.find_spec h
    refine ⟨f^[k] s0, reach_of_iterate (fun j hj => ?_), hk⟩
    exact Classical.not_not.mp (Nat.find_min h hj)
  · exfalso
    have h' : ∀ k, c (f^[k] s0) := fun k => Classical.not_not.mp fun hk => h ⟨k, hk⟩
    have hge : ∀ k, k ≤ cnt (f^[k] s0) := by
      intro k
      induction k with
      | zero => exact Nat.zero_le _
      | succ k ih =>
        rw [Function.iterate_succ_apply']
        exact Nat.lt_of_le_of_lt ih (hinc _)
    exact absurd (Nat.lt_of_le_of_lt (hge N) (hcap _ (h' N))) (Nat.lt_irrefl N)

/-- A loop with an iteration cap returns; the counter need only grow while the loop runs. -/
theorem exists_out' (cnt : σ → Nat) (N : Nat) (hcap : ∀ s, c s → cnt s < N)
    (hinc : ∀ s, c s → cnt s < cnt (f s)) : ∃ s, Out c f s0 s := by
  by_cases h : ∃ k, ¬ c (f^[k] s0)
  · classical
    let k := Nat.find h
    have hk : ¬ c (f^[k] s0) := Nat.find_spec h
    refine ⟨f^[k] s0, reach_of_iterate (fun j hj => ?_), hk⟩
    exact Classical.not_not.mp (Nat.find_min h hj)
  · exfalso
    have h' : ∀ k, c (f^[k] s0) := fun k => Classical.not_not.mp fun hk => h ⟨k, hk⟩
    have hge : ∀ k, k ≤ cnt (f^[k] s0) := by
      intro k
      induction k with
      | zero => exact Nat.zero_le _
      | succ k ih =>
        rw [Function.iterate_succ_apply']
        exact Nat.lt_of_le_of_lt ih (hinc _ (h' k))
    exact absurd (Nat.lt_of_le_of_lt (hge N) (hcap _ (h' N))) (Nat.lt_irrefl N)

/-- A capped loop performs at most `N - cnt s0` steps: the counter never exceeds the cap (or its start). -/
theorem Reach.cnt_le (cnt : σ → Nat) (N : Nat) (h : Reach c f s0 s) (hcap : ∀ s, c s → cnt s < N)
    (hinc : ∀ s, cnt (f s) = cnt s + 1) : cnt s ≤ max N (cnt s0) := by
  induction h with
  | init => exact Nat.le_max_right _ _
  | step _ hc _ =>
    rw [hinc]
    exact Nat.le_trans (hcap _ hc) (Nat.le_max_left _ _)

/-- `while c(s): s = f(s)` run for at most `fuel` steps. Used for inner loops that have a built-in cap; `run_out` shows that with enough fuel it
is the value the loop returns. -/
def run {σ : Type*} (c : σ → Prop) [DecidablePred c] (f : σ → σ) : Nat → σ → σ
  | 0, s => s
  | k + 1, s => if c s then run c f k (f s) else s

theorem run_reach [DecidablePred c] (k : Nat) (s : σ) : Reach c f s (run c f k s) := by
  induction k generalizing s with
  | zero => exact .init
  | succ k ih =>
    unfold run
    split
    · rename_i h; exact (Reach.step .init h).trans (ih _)
    · exact .init

theorem run_out [DecidablePred c] (cnt : σ → Nat) (N : Nat) (hcap : ∀ s, c s → cnt s < N) (hinc : ∀ s, c s → cnt s < cnt (f s)) (k : Nat)
    (s : σ) (hk : N ≤ cnt s + k) : Out c f s (run c f k s) := by
  refine ⟨run_reach k s, ?_⟩
  induction k generalizing s with
  | zero => intro h; exact absurd (hcap _ h) (by simp only [run]; omega)
  | succ k ih =>
    unfold run
    split
    · rename_i h
      exact ih _ (by have := hinc _ h; omega)
    · rename_i h; exact h

end Verif.Loop
