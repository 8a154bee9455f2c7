import Verif.Opt.Spec
import Verif.Loop
import Mathlib.Data.Fin.Tuple.Sort
import Mathlib.Data.Real.Sign

set_option autoImplicit false
/-!
# Model of `prox_owl1` (opt/proximal_ops/prox_sorted_l1.py)
-/
noncomputable section
namespace Verif.Opt
open Verif.Loop

/-- The entries where the vector increases: `zeros(n).at[1:].set(diff(x) > 0)` (opt/proximal_ops/prox_sorted_l1.py:33). -/
def owlMask {n : ℕ} (x : Fin n → ℝ) (i : Fin n) : Prop := ∃ j : Fin n, j.val + 1 = i.val ∧ x i - x j > 0

/-- `segment_ids = cumsum(~mask) - 1` (opt/proximal_ops/prox_sorted_l1.py:34). -/
def owlSeg {n : ℕ} (x : Fin n → ℝ) (i : Fin n) : ℕ :=
  open Classical in (Finset.univ.filter fun j : Fin n => j ≤ i ∧ ¬ owlMask x j).card - 1

/-- `(segment_sum(y) / segment_sum(1))[segment_ids]` (opt/proximal_ops/prox_sorted_l1.py:35-39): each entry is replaced by the average over its segment. -/
def segAvg {n : ℕ} (seg : Fin n → ℕ) (y : Fin n → ℝ) (i : Fin n) : ℝ :=
  (∑ j ∈ Finset.univ.filter (fun j => seg j = seg i), y j) / ((Finset.univ.filter fun j => seg j = seg i).card : ℝ)

/-- `prox_ordered_l1_b(state)` (opt/proximal_ops/prox_sorted_l1.py:29-40). -/
def owlStep {n : ℕ} (s : (Fin n → ℝ) × (Fin n → ℝ)) : (Fin n → ℝ) × (Fin n → ℝ) :=
  let x := fun i => s.1 i - s.2 i
  let seg := owlSeg x
  (segAvg seg s.1, segAvg seg s.2)

/-- `is_not_nonincreasing(state)` (opt/proximal_ops/prox_sorted_l1.py:43-45). -/
def owlCond {n : ℕ} (s : (Fin n → ℝ) × (Fin n → ℝ)) : Prop :=
  ¬ ∀ i j : Fin n, i.val + 1 = j.val → s.1 j - s.2 j ≤ s.1 i - s.2 i

/-- `jnp.argsort(a)[::-1]` (opt/proximal_ops/prox_sorted_l1.py:56-58): the stable ascending sort, reversed. -/
def argsortDesc {n : ℕ} (a : Fin n → ℝ) : Equiv.Perm (Fin n) := Fin.revPerm.trans (Tuple.sort a)

/-- The state before the loop (opt/proximal_ops/prox_sorted_l1.py:48-62). -/
def owlInit {n : ℕ} (y : Vec n) (l : Fin n → ℝ) : (Fin n → ℝ) × (Fin n → ℝ) :=
  let a := fun i => |y i|
  (fun i => a (argsortDesc a i), l)

/-- The end of `prox_ordered_l1_a` (opt/proximal_ops/prox_sorted_l1.py:64-72): clip, undo the sort, restore the signs. -/
def owlFinish {n : ℕ} (y : Vec n) (s : (Fin n → ℝ) × (Fin n → ℝ)) : Vec n :=
  let x := fun i => if s.1 i - s.2 i > 0 then s.1 i - s.2 i else 0
  let idx := argsortDesc fun i => |y i|
  vec fun i => Real.sign (y i) * x (idx.symm i)

/-- `prox_owl1(lam).prox_op(x, t)` returns `z` (opt/proximal_ops/prox_sorted_l1.py:130-143, 47-72). The `while_loop` is modelled by its reachable states, so
this is a relation: there is no `z` if the loop does not stop. -/
def OwlProx {n : ℕ} (lam : Fin n → ℝ) (x : Vec n) (t : ℝ) (z : Vec n) : Prop :=
  ∃ s, Out owlCond owlStep (owlInit x fun i => t * lam i) s ∧ z = owlFinish x s

/-- `prox_owl1(lam).func(x)` (opt/proximal_ops/prox_sorted_l1.py:112-127). -/
def owlFunc {n : ℕ} (lam : Fin n → ℝ) (x : Vec n) : ℝ :=
  let a := fun i => |x i|
  ∑ i, lam i * a (argsortDesc a i)

end Verif.Opt
