import Verif.Loop

set_option autoImplicit false
/-! Two loops whose states are related by a map. -/
namespace Verif.Loop

variable {σ τ : Type*} {c : σ → Prop} {f : σ → σ} {c' : τ → Prop} {f' : τ → τ} {s0 s : σ}

/-- If `g` commutes with the loop bodies and preserves the loop conditions at the states the first loop reaches, it maps reached states to reached states. -/
theorem Reach.map (g : σ → τ) (hc : ∀ s, Reach c f s0 s → c s → c' (g s)) (hf : ∀ s, Reach c f s0 s → c s → f' (g s) = g (f s))
    (h : Reach c f s0 s) : Reach c' f' (g s0) (g s) := by
  induction h with
  | init => exact .init
  | step hr hcs ih => rw [← hf _ hr hcs]; exact .step ih (hc _ hr hcs)

/-- Under the same conditions the second loop returns the image of what the first returns, and nothing else. -/
theorem Out.map (g : σ → τ) (hc : ∀ s, Reach c f s0 s → (c' (g s) ↔ c s)) (hf : ∀ s, Reach c f s0 s → c s → f' (g s) = g (f s))
    (h : Out c f s0 s) (t : τ) : Out c' f' (g s0) t ↔ t = g s := by
  have h' : Out c' f' (g s0) (g s) := ⟨Reach.map g (fun s hs => (hc s hs).2) hf h.1, fun h' => h.2 ((hc s h.1).1 h')⟩
  exact ⟨fun h1 => Out.unique h1 h', fun e => e ▸ h'⟩

end Verif.Loop
