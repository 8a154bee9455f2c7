import Verif.Pursuit.PhaseModel
import Mathlib.Tactic.FieldSimp
import Mathlib.Tactic.Positivity
import Mathlib.Tactic.Linarith

set_option autoImplicit false
/-!
# Phase transition configurations (C52)
-/
namespace Verif.Pursuit

/-- The cells of the grid, in the order of the two loops. -/
def grid (N : ℕ) : List (ℕ × ℕ) := (List.range (numEtas N)).flatMap fun m => (List.range (numRhos N)).map fun k => (m, k)

theorem mem_grid (N : ℕ) (p : ℕ × ℕ) : p ∈ grid N ↔ p.1 < numEtas N ∧ p.2 < numRhos N := by
  obtain ⟨m, k⟩ := p
  simp only [grid, List.mem_flatMap, List.mem_range, List.mem_map, Prod.mk.injEq]
  constructor
  · rintro ⟨a, ha, b, hb, rfl, rfl⟩; exact ⟨ha, hb⟩
  · rintro ⟨h1, h2⟩; exact ⟨m, h1, k, h2, rfl, rfl⟩

theorem grid_nodup (N : ℕ) : (grid N).Nodup := by
  rw [grid, List.nodup_flatMap]
  refine ⟨fun m _ => List.nodup_range.map fun a b h => (Prod.mk.inj h).2, ?_⟩
  refine List.nodup_range.pairwise_of_forall_ne ?_
  intro a _ b _ hab
  show List.Disjoint _ _
  intro x hx hy
  obtain ⟨_, _, rfl⟩ := List.mem_map.mp hx
  obtain ⟨_, _, h⟩ := List.mem_map.mp hy
  exact hab (Prod.mk.inj h).1.symm

/-- What the loops maintain after the cells `done`. -/
structure PtInv (N : ℕ) (done : List (ℕ × ℕ)) (s : PTConfigurations) : Prop where
  rmap : s.reverseMap = done.map fun p => ((rhoAt N p.2, etaAt N p.1), (kAt N p.1 p.2, mAt N p.1))
  nodup : (s.configs.map fun c => (c.K, c.M)).Nodup
  covered : ∀ p ∈ done, ∃ c ∈ s.configs, c.K = kAt N p.1 p.2 ∧ c.M = mAt N p.1
  origin : ∀ c ∈ s.configs, ∃ p ∈ done, c.K = kAt N p.1 p.2 ∧ c.M = mAt N p.1 ∧ c.eta = etaAt N p.1 ∧ c.rho = rhoAt N p.2

theorem ptStep_inv (N : ℕ) (done : List (ℕ × ℕ)) (s : PTConfigurations) (m k : ℕ) (h : PtInv N done s) : PtInv N (done ++ [(m, k)]) (ptStep N m s k) := by
  unfold ptStep
  simp only
  split_ifs with hc
  · rw [List.any_eq_true] at hc
    obtain ⟨c, hcm, hce⟩ := hc
    simp only [Bool.and_eq_true, beq_iff_eq] at hce
    refine ⟨by simp [h.rmap], h.nodup, ?_, ?_⟩
    · intro p hp
      rcases List.mem_append.mp hp with hp | hp
      · exact h.covered p hp
      · rw [List.mem_singleton] at hp; subst hp; exact ⟨c, hcm, hce⟩
    · intro c hc
      obtain ⟨p, hp, hh⟩ := h.origin c hc
      exact ⟨p, List.mem_append_left _ hp, hh⟩
  · have hno : ∀ c ∈ s.configs, ¬ (c.K = kAt N m k ∧ c.M = mAt N m) := by
      intro c hcm hh
      exact hc (List.any_eq_true.mpr ⟨c, hcm, by simp [hh.1, hh.2]⟩)
    refine ⟨by simp [h.rmap], ?_, ?_, ?_⟩
    · simp only [List.map_append, List.map_cons, List.map_nil]
      rw [List.nodup_append]
      refine ⟨h.nodup, List.nodup_singleton _, ?_⟩
      intro x hx y hy hxy
      rw [List.mem_singleton] at hy
      obtain ⟨c, hcm, rfl⟩ := List.mem_map.mp hx
      rw [hy] at hxy
      exact hno c hcm ⟨(Prod.mk.inj hxy).1, (Prod.mk.inj hxy).2⟩
    · intro p hp
      rcases List.mem_append.mp hp with hp | hp
      · obtain ⟨c, hcm, hh⟩ := h.covered p hp
        exact ⟨c, List.mem_append_left _ hcm, hh⟩
      · rw [List.mem_singleton] at hp; subst hp
        exact ⟨_, List.mem_append_right _ (List.mem_singleton_self _), rfl, rfl⟩
    · intro c hcm
      rcases List.mem_append.mp hcm with hcm | hcm
      · obtain ⟨p, hp, hh⟩ := h.origin c hcm
        exact ⟨p, List.mem_append_left _ hp, hh⟩
      · rw [List.mem_singleton] at hcm; subst hcm
        exact ⟨(m, k), by simp, rfl, rfl, rfl, rfl⟩

theorem fold_inv (N : ℕ) (cells : List (ℕ × ℕ)) : ∀ (done : List (ℕ × ℕ)) (s : PTConfigurations), PtInv N done s → PtInv N (done ++ cells) (cells.foldl (fun s p => ptStep N p.1 s p.2) s) := by
  induction cells with
  | nil => intro done s h; simpa using h
  | cons p cells ih =>
    intro done s h
    have := ih (done ++ [p]) _ (ptStep_inv N done s p.1 p.2 h)
    simpa using this

theorem configuration_inv (N : ℕ) (R : PTConfigurations) (h : configuration N = some R) : PtInv N (grid N) R ∧ 32 ≤ N ∧ ∃ p, N = 2 ^ p := by
  unfold configuration at h
  split_ifs at h with hN
  rw [Option.some_inj] at h
  obtain ⟨⟨p, _, hp⟩, h32⟩ := hN
  refine ⟨?_, h32, p, hp⟩
  have h0 : PtInv N [] { configs := [], reverseMap := [] } := ⟨rfl, List.nodup_nil, by simp, by simp⟩
  have := fold_inv N (grid N) [] _ h0
  rw [List.nil_append] at this
  convert this
  rw [← h, grid, List.foldl_flatMap]
  congr 1
  funext s m
  rw [List.foldl_map]

theorem numRhos_pos (N : ℕ) (h : 32 ≤ N) : 0 < numRhos N := by unfold numRhos; omega
theorem mMin_pos (N : ℕ) : 0 < mMin N := by unfold mMin; split_ifs <;> norm_num

/-- The exact value of `rho * M`. -/
theorem rho_bounds (N m k : ℕ) (h : 32 ≤ N) (hk : k < numRhos N) : 0 < rhoAt N k * mAt N m ∧ rhoAt N k * mAt N m ≤ (mAt N m : ℚ) / 2 ∧ rhoAt N k ≤ 1 / 2 := by
  have hr : (0 : ℚ) < numRhos N := by exact_mod_cast numRhos_pos N h
  have hm : (0 : ℚ) < mAt N m := by
    have : 0 < mAt N m := Nat.mul_pos (Nat.succ_pos m) (mMin_pos N)
    exact_mod_cast this
  have hk' : (k : ℚ) + 1 ≤ numRhos N := by exact_mod_cast hk
  have hpos : 0 < rhoAt N k := by unfold rhoAt; positivity
  have hle : rhoAt N k ≤ 1 / 2 := by
    unfold rhoAt
    rw [div_le_iff₀ hr]; linarith
  exact ⟨mul_pos hpos hm, by nlinarith, hle⟩

/-- **C52** whenever `configuration(N)` succeeds: no pair `(K, M)` is listed twice; every listed configuration satisfies `1 ≤ K ≤ M/2`, `M ≤ N/2`, `K = ⌈rho M⌉`, `eta = M/N`, `0 < rho ≤ 1/2`; every grid cell's pair is listed. -/
theorem c52_configurations (N : ℕ) (R : PTConfigurations) (h : configuration N = some R) :
    (R.configs.map fun c => (c.K, c.M)).Nodup ∧
    (∀ c ∈ R.configs, 1 ≤ c.K ∧ 2 * c.K ≤ c.M ∧ 2 * c.M ≤ N ∧ c.K = ⌈c.rho * c.M⌉₊ ∧ c.eta = (c.M : ℚ) / N ∧ 0 < c.rho ∧ c.rho ≤ 1 / 2) ∧
    (∀ m < numEtas N, ∀ k < numRhos N, ∃ c ∈ R.configs, c.M = mAt N m ∧ c.K = ⌈rhoAt N k * mAt N m⌉₊) := by
  obtain ⟨hinv, h32, _⟩ := configuration_inv N R h
  refine ⟨hinv.nodup, ?_, ?_⟩
  · intro c hc
    obtain ⟨⟨m, k⟩, hp, e1, e2, e3, e4⟩ := hinv.origin c hc
    obtain ⟨hm, hk⟩ := (mem_grid N _).mp hp
    simp only at e1 e2 e3 e4 hm hk
    obtain ⟨b1, b2, b3⟩ := rho_bounds N m k h32 hk
    have hK : c.K = ⌈rhoAt N k * mAt N m⌉₊ := e1
    have heven : ∃ t, mAt N m = 2 * t := by
      unfold mAt mMin; split_ifs
      · exact ⟨(m + 1) * 8, by ring⟩
      · exact ⟨(m + 1) * 16, by ring⟩
    obtain ⟨t, ht⟩ := heven
    have hKle : c.K ≤ t := by
      rw [hK]
      refine Nat.ceil_le.mpr (b2.trans ?_)
      rw [ht]; push_cast; linarith
    refine ⟨?_, by rw [e2, ht]; omega, ?_, ?_, ?_, ?_, ?_⟩
    · rw [hK]; exact Nat.one_le_iff_ne_zero.mpr (Nat.ceil_pos.mpr b1).ne'
    · rw [e2]
      have h1 : (m + 1) * (2 * mMin N) ≤ N := (Nat.le_div_iff_mul_le (Nat.mul_pos two_pos (mMin_pos N))).mp hm
      unfold mAt
      calc 2 * ((m + 1) * mMin N) = (m + 1) * (2 * mMin N) := by ring
        _ ≤ N := h1
    · rw [hK, e4, e2]
    · rw [e3, e2]; rfl
    · rw [e4]; unfold rhoAt
      have hr : (0 : ℚ) < numRhos N := by exact_mod_cast numRhos_pos N h32
      positivity
    · rw [e4]; exact b3
  · intro m hm k hk
    obtain ⟨c, hc, e1, e2⟩ := hinv.covered (m, k) ((mem_grid N _).mpr ⟨hm, hk⟩)
    exact ⟨c, hc, e2, e1⟩

/-- **C52** `reverse_map` has one key `(rho, eta)` per grid cell, no key twice, and sends it to `(⌈rho M⌉, M)` with `M = eta N`, a pair that is listed. -/
theorem c52_reverse_map (N : ℕ) (R : PTConfigurations) (h : configuration N = some R) :
    (R.reverseMap.map fun p => p.1).Nodup ∧ R.reverseMap.length = numEtas N * numRhos N ∧
    (∀ m < numEtas N, ∀ k < numRhos N, ((rhoAt N k, etaAt N m), (⌈rhoAt N k * mAt N m⌉₊, mAt N m)) ∈ R.reverseMap) ∧
    ∀ p ∈ R.reverseMap, (p.2.2 : ℚ) = p.1.2 * N ∧ p.2.1 = ⌈p.1.1 * p.2.2⌉₊ ∧ ∃ c ∈ R.configs, (c.K, c.M) = p.2 := by
  obtain ⟨hinv, h32, _⟩ := configuration_inv N R h
  have hNQ : (0 : ℚ) < N := by have : 0 < N := by omega
                               exact_mod_cast this
  have hr : (0 : ℚ) < numRhos N := by exact_mod_cast numRhos_pos N h32
  have hmm : (0 : ℚ) < mMin N := by exact_mod_cast mMin_pos N
  refine ⟨?_, ?_, ?_, ?_⟩
  · rw [hinv.rmap, List.map_map]
    refine (List.nodup_map_iff_inj_on (grid_nodup N)).mpr ?_
    rintro ⟨m, k⟩ _ ⟨m', k'⟩ _ he
    simp only [Function.comp, Prod.mk.injEq] at he
    obtain ⟨e1, e2⟩ := he
    unfold rhoAt at e1
    unfold etaAt mAt at e2
    rw [div_left_inj' hr.ne'] at e1
    rw [div_left_inj' hNQ.ne'] at e2
    push_cast at e2
    have k1 : (k : ℚ) = k' := by linarith
    have m1 : (m : ℚ) = m' := by have := mul_right_cancel₀ hmm.ne' e2; linarith
    exact Prod.ext (by exact_mod_cast m1) (by exact_mod_cast k1)
  · rw [hinv.rmap, List.length_map, grid, List.length_flatMap]
    simp
  · intro m hm k hk
    rw [hinv.rmap]
    exact List.mem_map.mpr ⟨(m, k), (mem_grid N _).mpr ⟨hm, hk⟩, rfl⟩
  · intro p hp
    rw [hinv.rmap] at hp
    obtain ⟨q, hq, rfl⟩ := List.mem_map.mp hp
    refine ⟨?_, rfl, ?_⟩
    · simp only [etaAt]; rw [div_mul_cancel₀ _ hNQ.ne']
    · obtain ⟨c, hc, e1, e2⟩ := hinv.covered q hq
      exact ⟨c, hc, by rw [e1, e2]⟩

/-- **C52** the function succeeds exactly for the powers of two from 32 on, and the grid is never empty. -/
theorem c52_domain (N : ℕ) : ((∃ R, configuration N = some R) ↔ (∃ p, N = 2 ^ p) ∧ 32 ≤ N) ∧ (32 ≤ N → 0 < numRhos N ∧ 0 < numEtas N) := by
  constructor
  · unfold configuration
    constructor
    · rintro ⟨R, h⟩
      split_ifs at h with hN
      obtain ⟨⟨p, _, hp⟩, h32⟩ := hN
      exact ⟨⟨p, hp⟩, h32⟩
    · rintro ⟨⟨p, hp⟩, h32⟩
      rw [if_pos ⟨⟨p, by rw [hp]; exact Nat.lt_two_pow_self, hp⟩, h32⟩]
      exact ⟨_, rfl⟩
  · intro h
    refine ⟨numRhos_pos N h, ?_⟩
    unfold numEtas mMin
    split_ifs
    · exact Nat.div_pos (by omega) (by norm_num)
    · exact Nat.div_pos (by omega) (by norm_num)

example : ∃ R, configuration 64 = some R := (c52_domain 64).1.mpr ⟨⟨6, rfl⟩, by norm_num⟩

example : ∃ R, configuration 64 = some R ∧ (R.configs.map fun c => (c.K, c.M)).Nodup ∧ R.reverseMap.length = numEtas 64 * numRhos 64 := by
  obtain ⟨R, h⟩ := (c52_domain 64).1.mpr ⟨⟨6, rfl⟩, by norm_num⟩
  exact ⟨R, h, (c52_configurations 64 R h).1, (c52_reverse_map 64 R h).2.1⟩

end Verif.Pursuit
