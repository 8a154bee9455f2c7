import Verif.Pursuit.GreedyModel
import Mathlib.Analysis.SpecialFunctions.Log.Base
import Mathlib.Analysis.InnerProductSpace.PiL2
import Mathlib.Order.WithBot

set_option autoImplicit false
/-!
# Model of the recovery performance metrics (tools/performance.py)

The representation `x` and its reconstruction are lists of `N` reals. The measurement side (`r`, `measurement_snr`) is in PerfMeas.lean; the dynamic ranges (tools/performance.py:95-97, computed by `cr.nimble`) are left out.
-/
noncomputable section
namespace Verif.Tools
open Verif.Pursuit

/-- `nonzero_indices(x)` of `cr.nimble.dsp` (external): the positions of the non-zero entries in ascending order; `T0` (tools/performance.py:84). -/
def suppT0 (x : List ℝ) : List ℕ := (List.range x.length).filter fun i => decide (x.getD i 0 ≠ 0)

/-- `K` (tools/performance.py:85). -/
def perfK (x : List ℝ) : ℕ := (suppT0 x).length

/-- `h = x - x_hat` (tools/performance.py:99). -/
def perfH (x xhat : List ℝ) : List ℝ := (List.range x.length).map fun i => x.getD i 0 - xhat.getD i 0

/-- `T0C` (tools/performance.py:108-109). -/
def suppT0C (x : List ℝ) : List ℕ := (List.range x.length).filter fun i => decide (i ∉ suppT0 x)

/-- `T1` (tools/performance.py:111-114): the `K` largest entries of the error with the entries over `T0` set to zero. -/
def suppT1 (x xhat : List ℝ) : List ℕ := largestIndices (zeroAt (perfH x xhat) (suppT0 x)) (perfK x)

/-- `TRest` (tools/performance.py:118). -/
def suppTRest (x xhat : List ℝ) : List ℕ := (suppT0C x).filter fun i => decide (i ∉ suppT1 x xhat)

/-- `R0` (tools/performance.py:122). -/
def suppR0 (x xhat : List ℝ) : List ℕ := (largestIndices xhat (perfK x)).mergeSort

/-- `overlap` (tools/performance.py:124). -/
def perfOverlap (x xhat : List ℝ) : List ℕ := (suppT0 x).filter fun i => decide (i ∈ suppR0 x xhat)

/-- `num_correct_atoms` (tools/performance.py:125). -/
def numCorrect (x xhat : List ℝ) : ℕ := (perfOverlap x xhat).length

/-- `support_recovery_ratio` (tools/performance.py:150-153); `none` is the division by zero for `x = 0`. -/
def recoveryRatio (x xhat : List ℝ) : Option ℝ := if perfK x = 0 then none else some ((numCorrect x xhat : ℝ) / perfK x)

/-- `perfect_support_recovery` (tools/performance.py:155-158). -/
def perfectRecovery (x xhat : List ℝ) : Prop := numCorrect x xhat ≥ perfK x

/-- `jnp.linalg.norm` of a list. -/
def listNorm (x : List ℝ) : ℝ := Real.sqrt (x.map fun c => c ^ 2).sum

/-- `recovery_snr` (tools/performance.py:104), for `x ≠ 0`; `⊤` is the `inf` for a zero error. -/
def recoverySnr (x xhat : List ℝ) : WithTop ℝ :=
  if listNorm (perfH x xhat) = 0 then ⊤ else ((20 * Real.logb 10 (listNorm x / listNorm (perfH x xhat)) : ℝ) : WithTop ℝ)

/-- `success` (tools/performance.py:160-163); `none` is the division by zero in the ratio. -/
def perfSuccess (x xhat : List ℝ) : Option Prop := (recoveryRatio x xhat).map fun q => q > 3 / 4 ∧ recoverySnr x xhat > ((30 : ℝ) : WithTop ℝ)

/-- The values a solver's result can hold. -/
inductive PyValue
  | array (v : List ℝ)
  | indices (I : List ℕ)
  | number (a : ℝ)
  | str (s : String)

/-- A solver's result, a named tuple: its values in order, and its attributes (fields and properties) by name. -/
structure PySol where
  values : List PyValue
  attr : String → Option PyValue

/-- `'x' in sol` (tools/performance.py:80): membership in a tuple compares with the *values* of the tuple. An array is never equal to a string. -/
def PySol.hasStr (sol : PySol) (name : String) : Bool := sol.values.any fun v => match v with
  | .str s => s == name
  | _ => false

/-- The estimate taken from `sol` (tools/performance.py:79-83) for a dictionary with `N` atoms; `none` is the AttributeError of a missing attribute. -/
def solEstimate (N : ℕ) (sol : PySol) : Option (List ℝ) :=
  if sol.hasStr "x" then
    match sol.attr "x" with
    | some (.array v) => some v
    | _ => none
  else
    match sol.attr "I", sol.attr "x_I" with
    | some (.indices I), some (.array v) => some ((List.range N).map (buildSignal I v))
    | _, _ => none

end Verif.Tools
