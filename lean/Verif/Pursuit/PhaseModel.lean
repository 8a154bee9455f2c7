import Mathlib.Data.Rat.Floor
import Mathlib.Algebra.Order.Field.Basic

set_option autoImplicit false
/-!
# Model of the phase transition configurations (pursuit/phasetransition.py)

All ratios are dyadic rationals, exact in floating point; they are rationals here.
-/
namespace Verif.Pursuit

/-- `PTConfig` (pursuit/defs.py). -/
structure PTConfig where
  K : ℕ
  M : ℕ
  eta : ℚ
  rho : ℚ
deriving DecidableEq

/-- The result of `configuration(N)`; `reverseMap` lists the assignments made to the dictionary, latest last. -/
structure PTConfigurations where
  configs : List PTConfig
  reverseMap : List ((ℚ × ℚ) × (ℕ × ℕ))

/-- `M_min` (pursuit/phasetransition.py:29-34). -/
def mMin (N : ℕ) : ℕ := if N ≤ 256 then 16 else 32

/-- `num_rhos` (pursuit/phasetransition.py:38). -/
def numRhos (N : ℕ) : ℕ := min 32 (N / 4)

/-- `num_etas` (pursuit/phasetransition.py:42). -/
def numEtas (N : ℕ) : ℕ := N / (2 * mMin N)

/-- `rhos[k]` (pursuit/phasetransition.py:40). -/
def rhoAt (N k : ℕ) : ℚ := (1 / 2) * ((k : ℚ) + 1) / numRhos N

/-- `Ms[m]` (pursuit/phasetransition.py:44). -/
def mAt (N m : ℕ) : ℕ := (m + 1) * mMin N

/-- `etas[m]` (pursuit/phasetransition.py:46). -/
def etaAt (N m : ℕ) : ℚ := (mAt N m : ℚ) / N

/-- `math.ceil(rho*M)` (pursuit/phasetransition.py:58). -/
def kAt (N m k : ℕ) : ℕ := ⌈rhoAt N k * mAt N m⌉₊

/-- One pass of the inner loop (pursuit/phasetransition.py:57-64); the set `added` is the set of pairs of the configurations listed so far. -/
def ptStep (N m : ℕ) (s : PTConfigurations) (k : ℕ) : PTConfigurations :=
  let K := kAt N m k
  let M := mAt N m
  let rm := s.reverseMap ++ [((rhoAt N k, etaAt N m), (K, M))]
  if (s.configs.any fun c => c.K == K && c.M == M) then { s with reverseMap := rm }
  else { configs := s.configs ++ [{ K := K, M := M, eta := etaAt N m, rho := rhoAt N k }], reverseMap := rm }

/-- `configuration(N)` (pursuit/phasetransition.py:26-69); `none` when the assertion fails. -/
def configuration (N : ℕ) : Option PTConfigurations :=
  if (∃ p, p < N ∧ N = 2 ^ p) ∧ 32 ≤ N then
    some ((List.range (numEtas N)).foldl (fun s m => (List.range (numRhos N)).foldl (ptStep N m) s) { configs := [], reverseMap := [] })
  else none

end Verif.Pursuit
