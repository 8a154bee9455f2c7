import Mathlib.Data.List.Basic
import Mathlib.Algebra.BigOperators.Group.List.Basic

set_option autoImplicit false
/-!
# Model of the block partitions (block/util.py)
-/
namespace Verif.Block

/-- `start_locations(n, b)` (block/util.py:18-24); `none` is the division by zero for `b = 0`. -/
def startLocations (n b : ℕ) : Option (List ℕ) := if b = 0 then none else some ((List.range (n / b)).map fun i => i * b)

/-- `end_locations(n, b)` (block/util.py:26-28). -/
def endLocations (n b : ℕ) : Option (List ℕ) := (startLocations n b).map fun s => s.map fun x => x + b - 1

/-- `jnp.diff`. -/
def diff : List ℤ → List ℤ
  | x :: y :: l => (y - x) :: diff (y :: l)
  | _ => []

/-- `block_lens_from_start_locs(blk_starts, n)` (block/util.py:31-35); `none` for an empty array of starts (`blk_starts[-1]`). -/
def blockLens (starts : List ℤ) (n : ℤ) : Option (List ℤ) :=
  match starts.getLast? with
  | none => none
  | some l => some (diff starts ++ [n - l])

end Verif.Block
