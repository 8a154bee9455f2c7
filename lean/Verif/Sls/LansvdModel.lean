import Verif.Sls.LanModel

set_option autoImplicit false
/-!
# Model of the Lanczos SVD (`sls/svdpack/lansvd.py`)
-/
noncomputable section
namespace Verif.Sls

variable {E F : Type*} [NormedAddCommGroup E] [InnerProductSpace ℝ E] [NormedAddCommGroup F] [InnerProductSpace ℝ F]

/-- The functions `bdsqr` and `refine_bounds` of `cr.nimble.svd` (sls/svdpack/lansvd.py:28): `bdsqr alpha beta j = (P, S, Qh, bot)` and `refineBounds j D bnd tol`. Matrices are functions of the row and the column. -/
structure SvdEnv where
  bdsqr : (ℕ → ℝ) → (ℕ → ℝ) → ℕ → (ℕ → ℕ → ℝ) × (ℕ → ℝ) × (ℕ → ℕ → ℝ) × (ℕ → ℝ)
  refineBounds : ℕ → (ℕ → ℝ) → (ℕ → ℝ) → ℝ → ℕ → ℝ

/-- What `lansvd_simple` returns (sls/svdpack/lansvd.py:82); `bnd = none` means NaN. -/
structure SvdOut (E F : Type*) where
  U : ℕ → F
  S : ℕ → ℝ
  V : ℕ → E
  bnd : Option (ℕ → ℝ)
  nConverged : ℕ
  state : LanState E F

/-- `lanmax` (sls/svdpack/lansvd.py:43-44). -/
def lanMax (m n k : ℕ) : ℕ := min (min m n) (max 20 (k * 4))

/-- `j`, the number of iterations (sls/svdpack/lansvd.py:51). -/
def lanSteps (m n k : ℕ) : ℕ := min (k + max 8 k) (lanMax m n k)

open Classical in
/-- The count of converged values (sls/svdpack/lansvd.py:69-74): the index of the first entry that is not converged, the length `j` if there is none. Entries from `min(j, k)` on are marked as not converged; comparisons with NaN are false. -/
def countConverged (j k : ℕ) (bnd : Option (ℕ → ℝ)) (S : ℕ → ℝ) : ℕ :=
  (List.range j).findIdx fun i => !(decide (i < min j k) && (match bnd with | none => false | some b => decide (b i < |S i|)))

/-- The part of `lansvd_simple` after the iterations (sls/svdpack/lansvd.py:58-82), for `j` iterations. -/
def lansvdFinish (senv : SvdEnv) (n k j : ℕ) (machEps : ℝ) (s : LanState E F) : SvdOut E F :=
  let d := senv.bdsqr s.alpha s.beta j
  let P := d.1
  let S := d.2.1
  let Qh := d.2.2.1
  let bot := d.2.2.2
  let bnd := s.p.map fun p => senv.refineBounds j (fun i => S i ^ 2) (fun i => ‖p‖ * |bot i|) (n * machEps * S 0)
  { U := fun i => ∑ l ∈ Finset.range j, P l i • s.U l, S := S, V := fun i => ∑ c ∈ Finset.range j, Qh i c • s.V c, bnd := bnd, nConverged := countConverged j k bnd S, state := s }

/-- `lansvd_simple(A, k, p0)` for an `m × n` operator (sls/svdpack/lansvd.py:38-82). `none` is the failed assertion or NaN; of the returned columns only the first `k` exist. -/
def lansvd (env : LanEnv E F) (senv : SvdEnv) (times : E → F) (trans : F → E) (m n k : ℕ) (p0 : F) (o : LanOptions) : Option (SvdOut E F) :=
  if k ≤ lanMax m n k then (lanbproFrom env times trans (lanMax m n k) p0 o (lanSteps m n k - 1)).map (lansvdFinish senv n k (lanSteps m n k) o.machEps) else none

end Verif.Sls
