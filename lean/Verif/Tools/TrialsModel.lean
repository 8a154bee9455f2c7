import Mathlib.Data.List.Basic
import Mathlib.Data.Rat.Defs
import Mathlib.Algebra.Order.Ring.Rat

set_option autoImplicit false
/-!
# Model of the recovery experiment at a fixed dictionary size (tools/trials_at_fixed_m_n.py)

The random generator is abstract: `split key c i` is entry `i` of `jax.random.split(key, c)`.  One trial (sampling the dictionary and the
signal from their keys, running the solver and measuring the recovery) is a function `trial solver K dictKey signalKey` of the keys; its
result is the success flag and the iteration count.  The clock is left out.
-/
namespace Verif.Tools.Trials

variable {Key Solver : Type}

/-- The experiment parameters (tools/trials_at_fixed_m_n.py:82-100) and the two abstract operations; `seed` is `PRNGKey(0)`. -/
structure Setup (Key Solver : Type) where
  split : Key → ℕ → ℕ → Key
  seed : Key
  trial : Solver → ℕ → Key → Key → Bool × ℕ
  numDictTrials : ℕ
  numSignalTrials : ℕ
  ks : List ℕ

/-- The fields of `Row` (tools/trials_at_fixed_m_n.py:32-45) other than the sizes and the run times. -/
structure Row (Solver : Type) where
  method : Solver
  k : ℕ
  trials : ℕ
  successes : ℕ
  failures : ℤ
  successRate : ℚ
  minIters : ℕ
  maxIters : ℕ
  meanIters : ℚ

/-- The accumulators of the two inner loops (tools/trials_at_fixed_m_n.py:136-139); `calls` logs the keys of the dictionary and of the signal of
each call of the solver. -/
structure Acc (Key : Type) where
  trials : ℕ := 0
  successes : ℕ := 0
  iters : List ℕ := []
  calls : List (Key × Key) := []

/-- `signal_keys[nst]` (tools/trials_at_fixed_m_n.py:146-148): the array has `num_dict_trials` entries and an index past its end reads the last. -/
def signalKey (e : Setup Key Solver) (dictKey : Key) (nst : ℕ) : Key :=
  e.split dictKey e.numDictTrials (min nst (e.numDictTrials - 1))

/-- The body of the loop over the signals (tools/trials_at_fixed_m_n.py:147-166). -/
def signalStep (e : Setup Key Solver) (s : Solver) (k : ℕ) (dictKey : Key) (a : Acc Key) (nst : ℕ) : Acc Key :=
  let sk := signalKey e dictKey nst
  let sol := e.trial s k dictKey sk
  { trials := a.trials + 1
    successes := a.successes + (if sol.1 then 1 else 0)
    iters := a.iters ++ [sol.2]
    calls := a.calls ++ [(dictKey, sk)] }

/-- The body of the loop over the dictionaries (tools/trials_at_fixed_m_n.py:141-166). -/
def dictStep (e : Setup Key Solver) (s : Solver) (k : ℕ) (key : Key) (a : Acc Key) (ndt : ℕ) : Acc Key :=
  (List.range e.numSignalTrials).foldl (signalStep e s k (e.split key e.numDictTrials ndt)) a

/-- The accumulators after the loops of one sparsity level (tools/trials_at_fixed_m_n.py:136-166), for the key of that level. -/
def levelAcc (e : Setup Key Solver) (s : Solver) (k : ℕ) (key : Key) : Acc Key :=
  (List.range e.numDictTrials).foldl (dictStep e s k key) {}

/-- The row of one sparsity level (tools/trials_at_fixed_m_n.py:168-181); `none` for the division by zero at line 172 (no trial) or at line 175
(one trial). -/
def mkRow (s : Solver) (k : ℕ) (a : Acc Key) : Option (Row Solver) :=
  if a.trials = 0 then none else
  if a.trials - 1 = 0 then none else
  some { method := s, k := k, trials := a.trials, successes := a.successes, failures := (a.trials : ℤ) - a.successes,
         successRate := (a.successes : ℚ) / a.trials,
         minIters := a.iters.foldl min (a.iters.headD 0), maxIters := a.iters.foldl max 0,
         meanIters := ((a.iters.foldl (· + ·) 0 : ℕ) : ℚ) / (a.iters.length : ℚ) }

/-- What the experiment does to its table and its file: append a row, save the table, or stop with an exception. -/
inductive Op (Solver : Type) where
  | append (r : Row Solver)
  | save
  | raise

/-- The key of a sparsity level from the key of the level before it (tools/trials_at_fixed_m_n.py:134). -/
def nextKey (e : Setup Key Solver) (key : Key) : Key := e.split key 2 0

/-- The loop over the sparsity levels (tools/trials_at_fixed_m_n.py:130-184). -/
def levels (e : Setup Key Solver) (s : Solver) : Key → List ℕ → List (Op Solver)
  | _, [] => []
  | key, k :: ks =>
    let key := nextKey e key
    match mkRow s k (levelAcc e s k key) with
    | none => [Op.raise]
    | some r => Op.append r :: Op.save :: levels e s key ks

/-- `_process(name, solver)` (tools/trials_at_fixed_m_n.py:120-185). -/
def process (e : Setup Key Solver) (s : Solver) : List (Op Solver) :=
  levels e s e.seed e.ks ++ [Op.save]

/-- `__call__(destination)` (tools/trials_at_fixed_m_n.py:108-114). -/
def call (e : Setup Key Solver) (solvers : List Solver) : List (Op Solver) := solvers.flatMap (process e)

/-- The table in memory, the file (`none` before the first save) and whether an exception has ended the experiment. -/
structure Store (Solver : Type) where
  df : List (Row Solver) := []
  file : Option (List (Row Solver)) := none
  raised : Bool := false

/-- One operation on the store: `df.loc[len(df)] = row` and `save` (tools/trials_at_fixed_m_n.py:116-118, 183-185). -/
def Store.step (st : Store Solver) : Op Solver → Store Solver
  | Op.append r => if st.raised then st else { st with df := st.df ++ [r] }
  | Op.save => if st.raised then st else { st with file := some st.df }
  | Op.raise => { st with raised := true }

/-- The store when the experiment is interrupted after `c` operations. -/
def afterOps (e : Setup Key Solver) (solvers : List Solver) (c : ℕ) : Store Solver :=
  ((call e solvers).take c).foldl Store.step {}

end Verif.Tools.Trials
