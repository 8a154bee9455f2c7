import Mathlib.Data.List.Basic

set_option autoImplicit false
/-!
# Model of the progress tracker (tracker.py)

What the tracker reads of a state: its iteration number and the norms computed by `get_x_norm`, `get_r_norm` (tracker.py:20-31), and the SNR with respect
to `x0` (tracker.py:39-57); these numbers are opaque values here.
-/
namespace Verif.Tools

/-- What one call `tracker(state, more)` sees. -/
structure Call (V : Type*) where
  iterations : ℕ
  xNorm : V
  rNorm : V
  snr : V
  more : Bool

/-- The attributes of `ProgressTracker` (tracker.py:82-88) and the iteration numbers of the progress lines printed so far; `converged` counts the final messages. -/
structure Tracker (V : Type*) where
  rNorms : List V
  xNorms : List V
  iterations : List ℕ
  snrs : List V
  every : ℕ
  hasX0 : Bool
  printed : List ℕ
  converged : ℕ

/-- `ProgressTracker(x0, every)` (tracker.py:82-88). -/
def newTracker (V : Type*) (hasX0 : Bool) (every : ℕ) : Tracker V :=
  { rNorms := [], xNorms := [], iterations := [], snrs := [], every := every, hasX0 := hasX0, printed := [], converged := 0 }

/-- `tracker(state, more)` (tracker.py:106-122), for `every > 0`. -/
def track {V : Type*} (t : Tracker V) (c : Call V) : Tracker V :=
  { t with
    rNorms := t.rNorms ++ [c.rNorm]
    xNorms := t.xNorms ++ [c.xNorm]
    iterations := t.iterations ++ [c.iterations]
    snrs := if t.hasX0 then t.snrs ++ [c.snr] else t.snrs
    printed := if c.iterations % t.every = 0 ∨ c.more = false then t.printed ++ [c.iterations] else t.printed
    converged := if c.more = false then t.converged + 1 else t.converged }

end Verif.Tools
