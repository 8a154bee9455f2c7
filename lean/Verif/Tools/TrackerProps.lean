import Verif.Tools.TrackerModel

set_option autoImplicit false
/-!
# Progress tracker (C75)
-/
namespace Verif.Tools

theorem track_all {V : Type*} (cs : List (Call V)) (t : Tracker V) :
    (cs.foldl track t).rNorms = t.rNorms ++ cs.map (·.rNorm) ∧ (cs.foldl track t).xNorms = t.xNorms ++ cs.map (·.xNorm) ∧ (cs.foldl track t).iterations = t.iterations ++ cs.map (·.iterations) ∧
    (cs.foldl track t).snrs = (if t.hasX0 then t.snrs ++ cs.map (·.snr) else t.snrs) ∧
    (cs.foldl track t).printed = t.printed ++ (cs.filter fun c => decide (c.iterations % t.every = 0 ∨ c.more = false)).map (·.iterations) ∧
    (cs.foldl track t).converged = t.converged + cs.countP (fun c => !c.more) ∧ (cs.foldl track t).hasX0 = t.hasX0 ∧ (cs.foldl track t).every = t.every := by
  induction cs generalizing t with
  | nil => simp
  | cons c cs ih =>
    obtain ⟨h1, h2, h3, h4, h5, h6, h7, h8⟩ := ih (track t c)
    simp only [List.foldl_cons, h1, h2, h3, h4, h5, h6, h7, h8]
    refine ⟨by simp [track], by simp [track], by simp [track], ?_, ?_, ?_, rfl, rfl⟩
    · cases h : t.hasX0 <;> simp [track, h]
    · by_cases h : c.iterations % t.every = 0 ∨ c.more = false
      · simp [track, h]
      · simp [track, h]
    · cases h : c.more <;> simp [track, h, List.countP_cons]; omega

/-- **C75** after any sequence of calls the tracker holds, in call order, exactly one residual norm, one norm and one iteration number per call, and one SNR per call when a reference is given (none otherwise); the printed progress
lines are exactly the calls at a multiple of `every` and the final ones. -/
theorem c75_history {V : Type*} (hasX0 : Bool) (every : ℕ) (cs : List (Call V)) :
    (cs.foldl track (newTracker V hasX0 every)).rNorms = cs.map (·.rNorm) ∧ (cs.foldl track (newTracker V hasX0 every)).xNorms = cs.map (·.xNorm) ∧
    (cs.foldl track (newTracker V hasX0 every)).iterations = cs.map (·.iterations) ∧ (cs.foldl track (newTracker V hasX0 every)).snrs = (if hasX0 then cs.map (·.snr) else []) ∧
    (cs.foldl track (newTracker V hasX0 every)).printed = (cs.filter fun c => decide (c.iterations % every = 0 ∨ c.more = false)).map (·.iterations) ∧
    (cs.foldl track (newTracker V hasX0 every)).converged = cs.countP (fun c => !c.more) := by
  obtain ⟨h1, h2, h3, h4, h5, h6, _, _⟩ := track_all cs (newTracker V hasX0 every)
  refine ⟨h1, h2, h3, ?_, h5, h6.trans (Nat.zero_add _)⟩
  cases hasX0 <;> exact h4

/-- **C75** later calls never alter or lose what earlier calls recorded: the history after more calls extends the history before. -/
theorem c75_extends {V : Type*} (t : Tracker V) (cs : List (Call V)) :
    t.rNorms <+: (cs.foldl track t).rNorms ∧ t.xNorms <+: (cs.foldl track t).xNorms ∧ t.iterations <+: (cs.foldl track t).iterations ∧ t.snrs <+: (cs.foldl track t).snrs := by
  obtain ⟨h1, h2, h3, h4, _⟩ := track_all cs t
  refine ⟨⟨_, h1.symm⟩, ⟨_, h2.symm⟩, ⟨_, h3.symm⟩, ?_⟩
  rw [h4]
  cases t.hasX0
  · exact List.prefix_rfl
  · exact ⟨_, rfl⟩

example : (([⟨1, 5, 6, 7, true⟩, ⟨2, 8, 9, 10, true⟩, ⟨3, 11, 12, 13, false⟩] : List (Call ℕ)).foldl track (newTracker ℕ true 2)).printed = [2, 3] := by decide

end Verif.Tools
