import Mathlib.Analysis.InnerProductSpace.Basic
import Mathlib.Algebra.BigOperators.Group.Finset.Basic

set_option autoImplicit false
/-!
# Model of Lanczos bidiagonalisation with partial reorthogonalisation (`sls/svdpack/lanbpro.py`)

Matrices are given by their columns (`U i`, `V i`, zero where not yet computed), arrays of numbers are functions of the index.
The functions imported from `cr.nimble.svd` are parameters (`LanEnv`).  A vector with NaN entries is `none`: the residual vector `p` is optional, and an iteration that starts from NaN, or finds NaN in `v`, is `none` (NaN then spreads to `U`, `V`, `alpha`, `beta`).
-/
noncomputable section
namespace Verif.Sls

/-- The functions of `cr.nimble.svd` and the random draws used by `lanbpro` (sls/svdpack/lanbpro.py:22-32, 38-39): `reorth_mgs` (number of columns, columns, vector, norm, mask, gamma; its iteration count is never read), `do_elr`, `update_mu`, `update_nu`, `compute_ind`,
`bpro_norm_estimate`, and `random.uniform(KEYS[i], …)`. -/
structure LanEnv (E F : Type*) where
  reorthE : ℕ → (ℕ → E) → E → ℝ → (ℕ → Bool) → ℝ → E × ℝ
  reorthF : ℕ → (ℕ → F) → F → ℝ → (ℕ → Bool) → ℝ → F × ℝ
  elrE : E → E → ℝ → ℝ → E × ℝ × ℝ
  elrF : F → F → ℝ → ℝ → F × ℝ × ℝ
  updateMu : (ℕ → ℝ) → (ℕ → ℝ) → (ℕ → ℝ) → ℕ → (ℕ → ℝ) → (ℕ → ℝ) → ℝ → (ℕ → ℝ) × (ℕ → ℝ)
  updateNu : (ℕ → ℝ) → (ℕ → ℝ) → (ℕ → ℝ) → ℕ → (ℕ → ℝ) → (ℕ → ℝ) → ℝ → (ℕ → ℝ) × (ℕ → ℝ)
  computeInd : (ℕ → ℝ) → ℝ → ℝ → ℕ → Bool
  normEst : (ℕ → ℝ) → (ℕ → ℝ) → ℝ
  randE : ℕ → E
  randF : ℕ → F

/-- The fields of `LanBDOptions` that are read (sls/svdpack/lanbpro.py:58-60, 147-151), the machine epsilon of line 97, and `max(m, n)`. -/
structure LanOptions where
  delta : ℝ
  eps : ℝ
  gamma : ℝ
  eta : ℝ
  elr : Bool
  machEps : ℝ
  maxMN : ℝ

/-- `LanBProState` (sls/svdpack/lanbpro.py:109-114, 330-335); `anorms`, which is never read, is left out. `dropped` is a ghost field: the largest norm of a residual that was replaced by a random vector. -/
structure LanState (E F : Type*) where
  p : Option F
  U : ℕ → F
  V : ℕ → E
  alpha : ℕ → ℝ
  beta : ℕ → ℝ
  mu : ℕ → ℝ
  nu : ℕ → ℝ
  mumax : ℕ → ℝ
  numax : ℕ → ℝ
  indices : ℕ → Bool
  anorm : ℝ
  bFro : Bool
  bForce : Bool
  bEst : Bool
  iters : ℕ
  dropped : ℝ

variable {E F G : Type*} [NormedAddCommGroup E] [InnerProductSpace ℝ E] [NormedAddCommGroup F] [InnerProductSpace ℝ F] [NormedAddCommGroup G] [InnerProductSpace ℝ G]

/-- `FUDGE` (sls/svdpack/lanbpro.py:34). -/
def fudge : ℝ := 1.01

open Classical in
/-- `cnb.vec_safe_divide_by_scalar(x, a)` (external): division, except by zero, which leaves `x` as it is. -/
def safeDivS (x : G) (a : ℝ) : G := if a = 0 then x else (1 / a) • x

/-- The loop of `new_p_vec`, `new_r_vec` (sls/svdpack/lanbpro.py:383-393, 418-428): new draws while the norm is below `1e-10`, ten draws in all. -/
def newVecFrom (gen : ℕ → G × ℝ) : ℕ → ℕ → G × ℝ → G × ℝ
  | 0, _, s => s
  | fuel + 1, i, s => open Classical in if s.2 < 1e-10 then newVecFrom gen fuel (i + 1) (gen i) else s

open Classical in
/-- `p / p_norm` at the end of `new_p_vec`, `new_r_vec` (sls/svdpack/lanbpro.py:394-395, 429-430): NaN when the norm is 0. -/
def newVec (gen : ℕ → G × ℝ) : Option G :=
  let s := newVecFrom gen 9 1 (gen 0)
  if s.2 = 0 then none else some ((1 / s.2) • s.1)

/-- `new_p_vec(A, U, j, gamma)` (sls/svdpack/lanbpro.py:365-395). -/
def newPVec (env : LanEnv E F) (times : E → F) (k : ℕ) (U : ℕ → F) (j : ℕ) (gamma : ℝ) : Option F :=
  newVec fun i => let p := times (env.randE i); env.reorthF k U p ‖p‖ (fun i => decide (i < j)) gamma

/-- `new_r_vec(A, V, j, gamma)` (sls/svdpack/lanbpro.py:400-430). -/
def newRVec (env : LanEnv E F) (trans : F → E) (k : ℕ) (V : ℕ → E) (j : ℕ) (gamma : ℝ) : Option E :=
  newVec fun i => let r := trans (env.randF i); env.reorthE k V r ‖r‖ (fun i => decide (i < j)) gamma

/-- `jnp.hypot`. -/
def hypot (a b : ℝ) : ℝ := Real.sqrt (a ^ 2 + b ^ 2)

open Classical in
/-- `lanbpro_init(A, k, p0, options)` (sls/svdpack/lanbpro.py:42-114). -/
def lanInit (env : LanEnv E F) (times : E → F) (trans : F → E) (k : ℕ) (p0 : F) (o : LanOptions) : LanState E F :=
  let beta0 := ‖p0‖
  let u := safeDivS p0 beta0
  let U : ℕ → F := Function.update (fun _ => 0) 0 u
  let r := trans u
  let alpha0 := ‖r‖
  let anorm0 := fudge * alpha0
  let v := safeDivS r alpha0
  let V : ℕ → E := Function.update (fun _ => 0) 0 v
  let p1 := times v - alpha0 • u
  let e := env.elrF u p1 ‖p1‖ o.gamma
  let p2 := e.1
  let n2 := e.2.1
  let small := n2 < o.maxMN * anorm0 * o.eps
  let q : Option F × ℝ := if small then (newPVec env times k U 1 o.gamma, 0) else (some p2, n2)
  let anorm := max anorm0 (fudge * hypot alpha0 q.2)
  let T := 100 * o.machEps / 2 * (anorm + hypot alpha0 q.2 + hypot alpha0 beta0)
  let mu0 := if q.2 ≠ 0 then T / q.2 else 0
  { p := q.1, U := U, V := V, alpha := Function.update (fun _ => 0) 0 alpha0, beta := Function.update (Function.update (fun _ => 0) 0 beta0) 1 q.2,
      mu := Function.update (fun _ => 0) 0 (3 / 2 * o.machEps), nu := fun _ => 0, mumax := Function.update (fun _ => 0) 0 |mu0|, numax := fun _ => 0,
      indices := if small then Function.update (fun _ => false) 0 true else fun _ => false, anorm := anorm, bFro := decide (o.delta = 0), bForce := decide small, bEst := true,
      iters := 1, dropped := if small then n2 else 0 }

/-- The values computed by the first half of an iteration (sls/svdpack/lanbpro.py:120-250) that the second half uses. -/
structure LanMid (E F : Type*) where
  u : F
  U : ℕ → F
  v : E
  V : ℕ → E
  rNorm : ℝ
  alpha : ℕ → ℝ
  beta : ℕ → ℝ
  nu : ℕ → ℝ
  numax : ℕ → ℝ
  indices : ℕ → Bool
  anorm : ℝ
  bForce : Bool
  bEst : Bool
  dropped : ℝ

open Classical in
/-- The reorthogonalisation decisions for `r` (sls/svdpack/lanbpro.py:207-237): the vector, its norm, the indices, `nu` and the flag. -/
def reorthR (env : LanEnv E F) (k : ℕ) (o : LanOptions) (s : LanState E F) (r : E) (rNorm : ℝ) (alpha nu numax : ℕ → ℝ) : E × ℝ × (ℕ → Bool) × (ℕ → ℝ) × Bool :=
  let j := s.iters
  if (s.bFro ∨ numax j > o.delta ∨ s.bForce) ∧ alpha j ≠ 0 then
    let ind : ℕ → Bool := if s.bFro ∨ o.eta = 0 then fun i => decide (i < j) else if s.bForce then s.indices else env.computeInd nu o.delta o.eta
    let q := env.reorthE k s.V r rNorm ind o.gamma
    (q.1, q.2, ind, fun i => if ind i then 3 / 2 * o.eps else nu i, !s.bForce)
  else (r, rNorm, s.indices, nu, s.bForce)

/-- The flag after lines 159-165 of lanbpro.py. -/
def bEstR (s : LanState E F) : Bool := if s.iters = 5 then false else s.bEst

/-- The norm estimate in the first half of an iteration (sls/svdpack/lanbpro.py:159-165, 183-194). -/
def anormR (env : LanEnv E F) (s : LanState E F) (alpha1 beta1 : ℕ → ℝ) : ℝ :=
  let j := s.iters
  let anorm1 := if j = 5 then fudge * env.normEst s.alpha s.beta else s.anorm
  if bEstR s then
    if j = 1 then max anorm1 (fudge * Real.sqrt (alpha1 0 ^ 2 + beta1 1 ^ 2 + alpha1 1 * beta1 1))
    else max anorm1 (fudge * Real.sqrt (alpha1 (j - 1) ^ 2 + beta1 j ^ 2 + alpha1 (j - 1) * beta1 (j - 1) + alpha1 j * beta1 j))
  else anorm1

open Classical in
/-- First half of `lanbpro_iteration` (sls/svdpack/lanbpro.py:117-250): `u_j`, `alpha_j`, `v_j`, from the residual vector `p` of the state. -/
def lanHalfR (env : LanEnv E F) (trans : F → E) (k : ℕ) (o : LanOptions) (s : LanState E F) (p : F) : Option (LanMid E F) :=
  let j := s.iters
  let betaj := s.beta j
  let u := safeDivS p betaj
  let U := Function.update s.U j u
  let vPrev := s.V (j - 1)
  let r0 := trans u - betaj • vPrev
  let e := if ‖r0‖ < o.gamma * betaj ∧ o.elr ∧ ¬ s.bFro then env.elrE vPrev r0 ‖r0‖ o.gamma else (r0, ‖r0‖, 0)
  let alpha1 := Function.update s.alpha j e.2.1
  let beta1 := Function.update s.beta j (s.beta j + e.2.2)
  let anorm2 := anormR env s alpha1 beta1
  let nn := if ¬ s.bFro ∧ e.2.1 ≠ 0 then env.updateNu s.nu s.numax s.mu j alpha1 beta1 anorm2 else (s.nu, s.numax)
  let nu1 := if o.elr then Function.update nn.1 (j - 1) (3 / 2 * o.eps) else nn.1
  let q := reorthR env k o s e.1 e.2.1 alpha1 nu1 nn.2
  let small := q.2.1 < o.maxMN * anorm2 * o.eps
  (if small then (newRVec env trans k s.V j o.gamma).map fun w => (w, (0 : ℝ)) else some (q.1, q.2.1)).map fun w =>
    let v := safeDivS w.1 w.2
    { u := u, U := U, v := v, V := Function.update s.V j v, rNorm := w.2, alpha := Function.update alpha1 j w.2, beta := beta1, nu := q.2.2.2.1, numax := nn.2,
      indices := if small then fun i => decide (i < j) else q.2.2.1, anorm := anorm2, bForce := if small then true else q.2.2.2.2, bEst := bEstR s,
      dropped := if small then max s.dropped q.2.1 else s.dropped }

/-- `jnp.argmax(indices[::-1])` (sls/svdpack/lanbpro.py:298): the first set entry from the end, 0 if there is none. -/
def lastGap (k : ℕ) (ind : ℕ → Bool) : ℕ := let a := (List.range k).findIdx fun i => ind (k - 1 - i); if a = k then 0 else a

open Classical in
/-- The reorthogonalisation decisions for `p` (sls/svdpack/lanbpro.py:284-316). Note that line 305 passes the old `indices` and that line 312 stores the new `mu` as `nu`.
The assignment at position `k - argmax` is dropped by JAX when that position is `k`; here it sets an entry beyond the end of the array. -/
def reorthP (env : LanEnv E F) (k : ℕ) (o : LanOptions) (s : LanState E F) (c : LanMid E F) (p : F) (pNorm : ℝ) (mu mumax : ℕ → ℝ) : F × ℝ × (ℕ → Bool) × (ℕ → ℝ) × Bool :=
  let j := s.iters
  if (s.bFro ∨ mumax j > o.delta ∨ c.bForce) ∧ pNorm ≠ 0 then
    let ind : ℕ → Bool := if s.bFro ∨ o.eta = 0 then fun i => decide (i ≤ j)
      else if c.bForce then Function.update c.indices (k - lastGap k c.indices) true else env.computeInd mu o.delta o.eta
    let q := env.reorthF k c.U p pNorm c.indices o.gamma
    (q.1, q.2, ind, fun i => if ind i then 3 / 2 * o.eps else mu i, !c.bForce)
  else (p, pNorm, c.indices, c.nu, c.bForce)

open Classical in
/-- Second half of `lanbpro_iteration` (sls/svdpack/lanbpro.py:251-335): `p`, `beta_{j+1}` and the new state. -/
def lanHalfP (env : LanEnv E F) (times : E → F) (k : ℕ) (o : LanOptions) (s : LanState E F) (c : LanMid E F) : LanState E F :=
  let j := s.iters
  let p0 := times c.v - c.alpha j • c.u
  let e := if ‖p0‖ < o.gamma * c.rNorm ∧ o.elr ∧ ¬ s.bFro then env.elrF c.u p0 ‖p0‖ o.gamma else (p0, ‖p0‖, 0)
  let beta1 := Function.update c.beta (j + 1) e.2.1
  let alpha1 := Function.update c.alpha j (c.alpha j + e.2.2)
  let anorm1 := if c.bEst then max c.anorm (fudge * Real.sqrt (alpha1 j ^ 2 + beta1 (j + 1) ^ 2 + alpha1 j * beta1 j)) else c.anorm
  let mm := if ¬ s.bFro ∧ e.2.1 ≠ 0 then env.updateMu s.mu s.mumax c.nu j alpha1 beta1 anorm1 else (s.mu, s.mumax)
  let mu1 := Function.update mm.1 j (3 / 2 * o.eps)
  let q := reorthP env k o s c e.1 e.2.1 mu1 mm.2
  let small := q.2.1 < o.maxMN * anorm1 * o.eps
  let w : Option F × ℝ := if small then (newPVec env times k c.U (j + 1) o.gamma, 0) else (some q.1, q.2.1)
  { p := w.1, U := c.U, V := c.V, alpha := alpha1, beta := Function.update beta1 (j + 1) w.2, mu := mu1, nu := q.2.2.2.1, mumax := mm.2, numax := c.numax,
      indices := if small then fun i => decide (i ≤ j) else q.2.2.1, anorm := anorm1, bFro := s.bFro, bForce := if small then true else q.2.2.2.2, bEst := c.bEst,
      iters := j + 1, dropped := if small then max c.dropped q.2.1 else c.dropped }

/-- `lanbpro_iteration(A, state, options)` (sls/svdpack/lanbpro.py:117-335). -/
def lanIteration (env : LanEnv E F) (times : E → F) (trans : F → E) (k : ℕ) (o : LanOptions) (s : LanState E F) : Option (LanState E F) :=
  s.p.bind fun p => (lanHalfR env trans k o s p).map (lanHalfP env times k o s)

/-- `lax.fori_loop(1, j, …)` on the initial state (sls/svdpack/lanbpro.py:357-359, sls/svdpack/lansvd.py:53-57): `steps = j - 1` iterations with room for `k` columns. -/
def lanbproFrom (env : LanEnv E F) (times : E → F) (trans : F → E) (k : ℕ) (p0 : F) (o : LanOptions) : ℕ → Option (LanState E F)
  | 0 => some (lanInit env times trans k p0 o)
  | steps + 1 => (lanbproFrom env times trans k p0 o steps).bind (lanIteration env times trans k o)

/-- `lanbpro(A, k, p0)` (sls/svdpack/lanbpro.py:341-360); `options` is the result of `lanbpro_options_init(k)`. -/
def lanbpro (env : LanEnv E F) (times : E → F) (trans : F → E) (k : ℕ) (p0 : F) (o : LanOptions) : Option (LanState E F) := lanbproFrom env times trans k p0 o (k - 1)

end Verif.Sls
