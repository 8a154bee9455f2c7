import Verif.Sls.LsqrModel
import Mathlib.LinearAlgebra.Span.Basic
import Mathlib.LinearAlgebra.FiniteDimensional.Lemmas
import Mathlib.Tactic.LinearCombination
import Mathlib.Tactic.Module
import Mathlib.Tactic.Positivity
import Mathlib.Tactic.FieldSimp

set_option autoImplicit false
/-!
# Invariant of the LSQR loop
-/
noncomputable section
namespace Verif.Sls
open Verif.Loop

variable {E : Type*} [NormedAddCommGroup E] [InnerProductSpace ℝ E] {F : Type*} [NormedAddCommGroup F] [InnerProductSpace ℝ F]

/-- The Krylov space `span {(AᵀA)ⁱ Aᵀ r | i < k}`. -/
def krylov (A : E →ₗ[ℝ] F) (At : F →ₗ[ℝ] E) (r : F) (k : ℕ) : Submodule ℝ E :=
  Submodule.span ℝ {y | ∃ i, i < k ∧ y = ((At ∘ₗ A) ^ i) (At r)}

theorem lsqrNormalize_norm {G : Type*} [NormedAddCommGroup G] [InnerProductSpace ℝ G] (u : G) : ‖u‖ • lsqrNormalize ‖u‖ u = u := by
  unfold lsqrNormalize
  split
  · rename_i h; rw [smul_smul, mul_inv_cancel₀ h.ne', one_smul]
  · rename_i h
    have : u = 0 := by rw [← norm_eq_zero]; exact le_antisymm (not_lt.mp h) (norm_nonneg u)
    simp [this]

theorem lsqrNormalize_unit {G : Type*} [NormedAddCommGroup G] [InnerProductSpace ℝ G] (u : G) (h : ‖u‖ ≠ 0) : ‖lsqrNormalize ‖u‖ u‖ = 1 := by
  unfold lsqrNormalize
  rw [if_pos (lt_of_le_of_ne (norm_nonneg u) h.symm), norm_smul, norm_inv, norm_norm, inv_mul_cancel₀ h]

theorem lsqrNormalize_zero {G : Type*} [NormedAddCommGroup G] [InnerProductSpace ℝ G] (u : G) (h : ‖u‖ = 0) : lsqrNormalize ‖u‖ u = 0 := by
  unfold lsqrNormalize
  rw [if_neg (by rw [h]; exact lt_irrefl _)]
  exact norm_eq_zero.mp h

theorem lsqrNormalize_mem {G : Type*} [NormedAddCommGroup G] [InnerProductSpace ℝ G] (S : Submodule ℝ G) (u : G) (h : u ∈ S) (t : ℝ) :
    lsqrNormalize t u ∈ S := by
  unfold lsqrNormalize; split
  · exact S.smul_mem _ h
  · exact h

theorem inner_lsqrNormalize {G : Type*} [NormedAddCommGroup G] [InnerProductSpace ℝ G] (u y : G) (t : ℝ) (h : inner ℝ u y = 0) :
    inner ℝ (lsqrNormalize t u) y = 0 := by
  unfold lsqrNormalize; split
  · rw [real_inner_smul_left, h, mul_zero]
  · exact h

theorem inner_sup_span {G : Type*} [NormedAddCommGroup G] [InnerProductSpace ℝ G] {S : Submodule ℝ G} {a b : G} (h : ∀ y ∈ S, inner ℝ a y = 0)
    (hb : inner ℝ a b = 0) : ∀ y ∈ S ⊔ Submodule.span ℝ {b}, inner ℝ a y = 0 := by
  intro y hy
  obtain ⟨y1, h1, y2, h2, rfl⟩ := Submodule.mem_sup.mp hy
  obtain ⟨c, rfl⟩ := Submodule.mem_span_singleton.mp h2
  rw [inner_add_right, h y1 h1, inner_smul_right, hb, mul_zero, add_zero]

theorem mem_sup_self {G : Type*} [AddCommGroup G] [Module ℝ G] (S : Submodule ℝ G) (b : G) : b ∈ S ⊔ Submodule.span ℝ {b} :=
  Submodule.mem_sup_right (Submodule.mem_span_singleton_self b)

/-- The bidiagonalisation part of the invariant: `u`, `v` are orthogonal to the earlier vectors, and the spaces they span are linked by `A`, `At`. -/
structure LBid (A : E →ₗ[ℝ] F) (At : F →ₗ[ℝ] E) (r0 : F) (U : Submodule ℝ F) (V : Submodule ℝ E) (u : F) (v : E) (alpha : ℝ) (it : ℕ) : Prop where
  hu : ∀ y ∈ U, inner ℝ u y = 0
  hv : ∀ y ∈ V, inner ℝ v y = 0
  hAtU : ∀ y ∈ U, At y ∈ V
  hAV : ∀ y ∈ V, A y ∈ U ⊔ Submodule.span ℝ {u}
  hAtu : At u - alpha • v ∈ V
  hkin : ∀ i < it, ((At ∘ₗ A) ^ i) (At r0) ∈ V ⊔ Submodule.span ℝ {v}
  hkout : V ⊔ Submodule.span ℝ {v} ≤ krylov A At r0 it

theorem LBid.init (A : E →ₗ[ℝ] F) (At : F →ₗ[ℝ] E) (b : F) (x0 : E) :
    LBid A At (b - A x0) ⊥ ⊥ (lsqrInit A At b x0).u (lsqrInit A At b x0).v (lsqrInit A At b x0).alpha (lsqrInit A At b x0).iterations := by
  have e1 : ‖b - A x0‖ • (lsqrInit A At b x0).u = b - A x0 := lsqrNormalize_norm _
  have e2 : (lsqrInit A At b x0).alpha • (lsqrInit A At b x0).v = At (lsqrInit A At b x0).u := lsqrNormalize_norm _
  refine ⟨?_, ?_, ?_, ?_, ?_, ?_, ?_⟩
  · intro y hy; rw [(Submodule.mem_bot ℝ).mp hy, inner_zero_right]
  · intro y hy; rw [(Submodule.mem_bot ℝ).mp hy, inner_zero_right]
  · intro y hy; rw [(Submodule.mem_bot ℝ).mp hy, map_zero]; exact Submodule.zero_mem _
  · intro y hy; rw [(Submodule.mem_bot ℝ).mp hy, map_zero]; exact Submodule.zero_mem _
  · rw [e2, sub_self]; exact Submodule.zero_mem _
  · intro i hi
    have : i = 0 := by
      have : (lsqrInit A At b x0).iterations = 1 := rfl
      omega
    subst this
    rw [pow_zero, Module.End.one_apply, ← e1, map_smul, ← e2]
    exact Submodule.smul_mem _ _ (Submodule.smul_mem _ _ (mem_sup_self _ _))
  · rw [bot_sup_eq, Submodule.span_singleton_le_iff_mem]
    apply lsqrNormalize_mem
    show At (lsqrNormalize ‖b - A x0‖ (b - A x0)) ∈ _
    have h : At (b - A x0) ∈ krylov A At (b - A x0) 1 := Submodule.subset_span ⟨0, one_pos, rfl⟩
    show _ ∈ krylov A At (b - A x0) 1
    unfold lsqrNormalize
    split
    · rw [map_smul]; exact Submodule.smul_mem _ _ h
    · exact h

theorem krylov_mono (A : E →ₗ[ℝ] F) (At : F →ₗ[ℝ] E) (r0 : F) {k l : ℕ} (h : k ≤ l) : krylov A At r0 k ≤ krylov A At r0 l := by
  refine Submodule.span_mono ?_
  rintro y ⟨i, hi, rfl⟩
  exact ⟨i, by omega, rfl⟩

theorem krylov_succ (A : E →ₗ[ℝ] F) (At : F →ₗ[ℝ] E) (r0 : F) {k : ℕ} (y : E) (h : y ∈ krylov A At r0 k) : At (A y) ∈ krylov A At r0 (k + 1) := by
  induction h using Submodule.span_induction with
  | mem p hp =>
    obtain ⟨i, hi, rfl⟩ := hp
    refine Submodule.subset_span ⟨i + 1, by omega, ?_⟩
    rw [pow_succ']; rfl
  | zero => simp
  | add x y _ _ h1 h2 => rw [map_add, map_add]; exact Submodule.add_mem _ h1 h2
  | smul c x _ h1 => rw [map_smul, map_smul]; exact Submodule.smul_mem _ _ h1

theorem LBid.At_sup {A : E →ₗ[ℝ] F} {At : F →ₗ[ℝ] E} {r0 : F} {U : Submodule ℝ F} {V : Submodule ℝ E} {u : F} {v : E} {alpha : ℝ} {it : ℕ}
    (h : LBid A At r0 U V u v alpha it) : ∀ y ∈ U ⊔ Submodule.span ℝ {u}, At y ∈ V ⊔ Submodule.span ℝ {v} := by
  intro y hy
  obtain ⟨y1, h1, y2, h2, rfl⟩ := Submodule.mem_sup.mp hy
  obtain ⟨c, rfl⟩ := Submodule.mem_span_singleton.mp h2
  rw [map_add, map_smul]
  have : At u = (At u - alpha • v) + alpha • v := by abel
  rw [this]
  exact Submodule.add_mem _ (Submodule.mem_sup_left (h.hAtU _ h1))
    (Submodule.smul_mem _ _ (Submodule.add_mem _ (Submodule.mem_sup_left h.hAtu) (Submodule.smul_mem _ _ (mem_sup_self _ _))))

/-- One bidiagonalisation step with unit `u`, `v`. -/
theorem LBid.step {A : E →ₗ[ℝ] F} {At : F →ₗ[ℝ] E} (adj : ∀ x y, inner ℝ (A x) y = inner ℝ x (At y)) {r0 : F} {U : Submodule ℝ F}
    {V : Submodule ℝ E} {u : F} {v : E} {alpha : ℝ} {it : ℕ} (hit : 1 ≤ it) (h : LBid A At r0 U V u v alpha it) (hu1 : ‖u‖ = 1) (hv1 : ‖v‖ = 1) (u' : F) (v' : E)
    (hu' : u' = lsqrNormalize ‖A v - alpha • u‖ (A v - alpha • u))
    (hv' : v' = lsqrNormalize ‖At u' - ‖A v - alpha • u‖ • v‖ (At u' - ‖A v - alpha • u‖ • v)) :
    LBid A At r0 (U ⊔ Submodule.span ℝ {u}) (V ⊔ Submodule.span ℝ {v}) u' v' ‖At u' - ‖A v - alpha • u‖ • v‖ (it + 1) := by
  set beta := ‖A v - alpha • u‖ with hb
  have eu : beta • u' = A v - alpha • u := by rw [hu']; exact lsqrNormalize_norm _
  have ev : ‖At u' - beta • v‖ • v' = At u' - beta • v := by rw [hv']; exact lsqrNormalize_norm _
  have huu : inner ℝ u u = (1 : ℝ) := by rw [real_inner_self_eq_norm_sq, hu1]; norm_num
  have hvv : inner ℝ v v = (1 : ℝ) := by rw [real_inner_self_eq_norm_sq, hv1]; norm_num
  have hAtu : inner ℝ v (At u) = alpha := by
    have := h.hv _ h.hAtu
    rw [inner_sub_right, inner_smul_right, hvv] at this
    linarith
  -- orthogonality of the new u
  have o1 : ∀ y ∈ U ⊔ Submodule.span ℝ {u}, inner ℝ u' y = 0 := by
    intro y hy
    rw [hu']
    refine inner_lsqrNormalize _ _ _ ?_
    refine inner_sup_span (S := U) (b := u) ?_ ?_ y hy
    · intro y hy
      rw [inner_sub_left, adj, real_inner_smul_left, h.hu y hy, h.hv _ (h.hAtU y hy)]; ring
    · rw [inner_sub_left, adj, real_inner_smul_left, hAtu, huu]; ring
  have hAV' : ∀ y ∈ V ⊔ Submodule.span ℝ {v}, A y ∈ (U ⊔ Submodule.span ℝ {u}) ⊔ Submodule.span ℝ {u'} := by
    intro y hy
    obtain ⟨y1, h1, y2, h2, rfl⟩ := Submodule.mem_sup.mp hy
    obtain ⟨c, rfl⟩ := Submodule.mem_span_singleton.mp h2
    have e : A v = alpha • u + beta • u' := by rw [eu]; abel
    rw [map_add, map_smul, e]
    refine Submodule.add_mem _ (Submodule.mem_sup_left (h.hAV _ h1)) (Submodule.smul_mem _ _ (Submodule.add_mem _ ?_ ?_))
    · exact Submodule.mem_sup_left (Submodule.smul_mem _ _ (mem_sup_self _ _))
    · exact Submodule.smul_mem _ _ (mem_sup_self _ _)
  have o2 : ∀ y ∈ V ⊔ Submodule.span ℝ {v}, inner ℝ v' y = 0 := by
    intro y hy
    rw [hv']
    refine inner_lsqrNormalize _ _ _ ?_
    refine inner_sup_span (S := V) (b := v) ?_ ?_ y hy
    · intro y hy
      rw [inner_sub_left, real_inner_smul_left, h.hv y hy, real_inner_comm, ← adj, real_inner_comm, o1 _ (h.hAV y hy)]; ring
    · rw [inner_sub_left, real_inner_smul_left, hvv, real_inner_comm, ← adj, real_inner_comm]
      have e : A v = alpha • u + beta • u' := by rw [eu]; abel
      rw [e, inner_add_right, inner_smul_right, inner_smul_right, o1 _ (mem_sup_self _ _), real_inner_self_eq_norm_sq]
      rcases eq_or_ne beta 0 with h0 | h0
      · rw [h0]; ring
      · rw [hu', lsqrNormalize_unit _ h0]; ring
  have hAtu' : At u' - ‖At u' - beta • v‖ • v' ∈ V ⊔ Submodule.span ℝ {v} := by
    rw [ev, sub_sub_cancel]; exact Submodule.smul_mem _ _ (mem_sup_self _ _)
  have hsup : ∀ y ∈ (U ⊔ Submodule.span ℝ {u}) ⊔ Submodule.span ℝ {u'}, At y ∈ (V ⊔ Submodule.span ℝ {v}) ⊔ Submodule.span ℝ {v'} := by
    intro y hy
    obtain ⟨y1, h1, y2, h2, rfl⟩ := Submodule.mem_sup.mp hy
    obtain ⟨c, rfl⟩ := Submodule.mem_span_singleton.mp h2
    rw [map_add, map_smul]
    have : At u' = (At u' - ‖At u' - beta • v‖ • v') + ‖At u' - beta • v‖ • v' := by abel
    rw [this]
    exact Submodule.add_mem _ (Submodule.mem_sup_left (h.At_sup _ h1))
      (Submodule.smul_mem _ _ (Submodule.add_mem _ (Submodule.mem_sup_left hAtu') (Submodule.smul_mem _ _ (mem_sup_self _ _))))
  refine ⟨o1, o2, h.At_sup, hAV', hAtu', ?_, ?_⟩
  · intro i hi
    rcases Nat.lt_succ_iff_lt_or_eq.mp hi with h1 | rfl
    · exact Submodule.mem_sup_left (h.hkin i h1)
    · obtain ⟨j, rfl⟩ : ∃ j, i = j + 1 := ⟨i - 1, by omega⟩
      have := hsup _ (hAV' _ (h.hkin j (by omega)))
      rw [pow_succ']
      exact this
  · have hkv : v ∈ krylov A At r0 it := h.hkout (mem_sup_self _ _)
    refine sup_le (h.hkout.trans (krylov_mono A At r0 (Nat.le_succ _))) ?_
    rw [Submodule.span_singleton_le_iff_mem, hv']
    refine lsqrNormalize_mem _ _ (Submodule.sub_mem _ ?_ (Submodule.smul_mem _ _ (krylov_mono A At r0 (Nat.le_succ _) hkv))) _
    have h3 : At (A v - alpha • u) ∈ krylov A At r0 (it + 1) := by
      rw [map_sub, map_smul]
      refine Submodule.sub_mem _ (krylov_succ A At r0 v hkv) (Submodule.smul_mem _ _ ?_)
      exact krylov_mono A At r0 (Nat.le_succ _) (h.hkout (h.At_sup _ (mem_sup_self _ _)))
    rw [hu']
    unfold lsqrNormalize
    split
    · rw [map_smul]; exact Submodule.smul_mem _ _ h3
    · exact h3

/-- The left-rotation part of the invariant, for the damped problem: `(b - A x, -damp (x - x0)) = phi_bar (p1, p2) + (q1, q2)`. -/
structure LRot (A : E →ₗ[ℝ] F) (At : F →ₗ[ℝ] E) (b : F) (x0 : E) (δ : ℝ) (U : Submodule ℝ F) (V : Submodule ℝ E) (u : F) (v x w : E)
    (alpha rb pb cpsi : ℝ) (p1 q1 : F) (p2 q2 : E) : Prop where
  hp1 : p1 ∈ U ⊔ Submodule.span ℝ {u}
  hp2 : p2 ∈ V
  hq1 : q1 ∈ U ⊔ Submodule.span ℝ {u}
  hq2 : q2 ∈ V
  res1 : b - A x = pb • p1 + q1
  res2 : -(δ • (x - x0)) = pb • p2 + q2
  hqp : inner ℝ q1 p1 + inner ℝ q2 p2 = (0 : ℝ)
  hqq : inner ℝ q1 q1 + inner ℝ q2 q2 = cpsi
  hAq : At q1 + δ • q2 = 0
  hw1 : A w = rb • p1 + (A v - alpha • u)
  hw2 : δ • w = rb • p2 + δ • v
  hAp : At p1 + δ • p2 = rb • v
  hpp : pb ≠ 0 → inner ℝ p1 p1 + inner ℝ p2 p2 = (1 : ℝ)

theorem LRot.init (A : E →ₗ[ℝ] F) (At : F →ₗ[ℝ] E) (b : F) (x0 : E) (δ : ℝ) :
    LRot A At b x0 δ ⊥ ⊥ (lsqrInit A At b x0).u (lsqrInit A At b x0).v x0 (lsqrInit A At b x0).w (lsqrInit A At b x0).alpha
      (lsqrInit A At b x0).rho_bar (lsqrInit A At b x0).phi_bar 0 (lsqrInit A At b x0).u 0 0 0 := by
  have e1 : ‖b - A x0‖ • (lsqrInit A At b x0).u = b - A x0 := lsqrNormalize_norm _
  have e2 : (lsqrInit A At b x0).alpha • (lsqrInit A At b x0).v = At (lsqrInit A At b x0).u := lsqrNormalize_norm _
  refine ⟨mem_sup_self _ _, Submodule.zero_mem _, Submodule.zero_mem _, Submodule.zero_mem _, ?_, by simp, by simp, by simp, by simp, ?_, ?_, ?_, ?_⟩
  · rw [add_zero]; exact e1.symm
  · show A (lsqrInit A At b x0).v = (lsqrInit A At b x0).alpha • _ + _
    abel
  · rw [smul_zero, zero_add]; rfl
  · rw [smul_zero, add_zero]; exact e2.symm
  · intro h
    rw [inner_zero_right, add_zero, real_inner_self_eq_norm_sq]
    have : ‖(lsqrInit A At b x0).u‖ = 1 := lsqrNormalize_unit _ h
    rw [this]; norm_num

/-- One left rotation. `β u' = A v - alpha u`, `At u' = α' v' + β v`. -/
theorem LRot.step {A : E →ₗ[ℝ] F} {At : F →ₗ[ℝ] E} {b : F} {x0 : E} {δ : ℝ} {U : Submodule ℝ F} {V : Submodule ℝ E} {u : F} {v x w : E}
    {alpha rb pb cpsi : ℝ} {p1 q1 : F} {p2 q2 : E} (h : LRot A At b x0 δ U V u v x w alpha rb pb cpsi p1 q1 p2 q2)
    (hpb : pb ≠ 0) (hv1 : inner ℝ v v = (1 : ℝ)) (hv : ∀ y ∈ V, inner ℝ v y = 0) (u' : F) (v' : E) (β α' : ℝ)
    (eu : A v - alpha • u = β • u') (ev : At u' = α' • v' + β • v) (hu' : ∀ y ∈ U ⊔ Submodule.span ℝ {u}, inner ℝ u' y = 0)
    (hu1 : β ≠ 0 → inner ℝ u' u' = (1 : ℝ)) (r1 ρ : ℝ) (hr1 : r1 ≠ 0) (hr : r1 ^ 2 = rb ^ 2 + δ ^ 2) (hρ1 : ρ ≠ 0) (hρ : ρ ^ 2 = r1 ^ 2 + β ^ 2) :
    ∃ (p1' q1' : F) (p2' q2' : E), LRot A At b x0 δ (U ⊔ Submodule.span ℝ {u}) (V ⊔ Submodule.span ℝ {v}) u' v'
      (x + (r1 / ρ * (rb / r1 * pb) / ρ) • w) (v' + (-(β / ρ * α') / ρ) • w) α' (-(r1 / ρ) * α') (β / ρ * (rb / r1 * pb))
      (cpsi + (δ / r1 * pb) ^ 2) p1' q1' p2' q2' := by
  have hpv : inner ℝ p2 v = (0 : ℝ) := by rw [real_inner_comm]; exact hv _ h.hp2
  have hqv : inner ℝ q2 v = (0 : ℝ) := by rw [real_inner_comm]; exact hv _ h.hq2
  have hvp : inner ℝ v p2 = (0 : ℝ) := hv _ h.hp2
  have hpu : inner ℝ p1 u' = (0 : ℝ) := by rw [real_inner_comm]; exact hu' _ h.hp1
  have hqu : inner ℝ q1 u' = (0 : ℝ) := by rw [real_inner_comm]; exact hu' _ h.hq1
  have hup : inner ℝ u' p1 = (0 : ℝ) := hu' _ h.hp1
  have hpq : inner ℝ p1 q1 + inner ℝ p2 q2 = (0 : ℝ) := by rw [real_inner_comm, real_inner_comm q2]; exact h.hqp
  have hvq : inner ℝ v q2 = (0 : ℝ) := hv _ h.hq2
  have hpp := h.hpp hpb
  have mU : ∀ y ∈ U ⊔ Submodule.span ℝ {u}, y ∈ (U ⊔ Submodule.span ℝ {u}) ⊔ Submodule.span ℝ {u'} := fun y hy => Submodule.mem_sup_left hy
  have mV : ∀ y ∈ V, y ∈ V ⊔ Submodule.span ℝ {v} := fun y hy => Submodule.mem_sup_left hy
  refine ⟨(β / ρ * (rb / r1)) • p1 - (r1 / ρ) • u', q1 + (δ / r1 * pb * (δ / r1)) • p1,
    (β / ρ) • ((rb / r1) • p2 + (δ / r1) • v), q2 + (δ / r1 * pb) • ((δ / r1) • p2 - (rb / r1) • v), ?_⟩
  constructor
  · exact Submodule.sub_mem _ (Submodule.smul_mem _ _ (mU _ h.hp1)) (Submodule.smul_mem _ _ (mem_sup_self _ _))
  · exact Submodule.smul_mem _ _ (Submodule.add_mem _ (Submodule.smul_mem _ _ (mV _ h.hp2)) (Submodule.smul_mem _ _ (mem_sup_self _ _)))
  · exact Submodule.add_mem _ (mU _ h.hq1) (Submodule.smul_mem _ _ (mU _ h.hp1))
  · exact Submodule.add_mem _ (mV _ h.hq2) (Submodule.smul_mem _ _ (Submodule.sub_mem _ (Submodule.smul_mem _ _ (mV _ h.hp2))
      (Submodule.smul_mem _ _ (mem_sup_self _ _))))
  · rw [map_add, map_smul, h.hw1, eu]
    have e0 : b - (A x + (r1 / ρ * (rb / r1 * pb) / ρ) • (rb • p1 + β • u')) = (pb • p1 + q1) - (r1 / ρ * (rb / r1 * pb) / ρ) • (rb • p1 + β • u') := by
      rw [← h.res1]; abel
    rw [e0]
    match_scalars
    · have : δ ^ 2 = r1 ^ 2 - rb ^ 2 := by linarith
      have h2 : β ^ 2 = ρ ^ 2 - r1 ^ 2 := by linarith
      field_simp
      rw [h2, this]; ring
    · ring
    · field_simp
  · have e0 : -(δ • (x + (r1 / ρ * (rb / r1 * pb) / ρ) • w - x0)) = -(δ • (x - x0)) - (r1 / ρ * (rb / r1 * pb) / ρ) • (δ • w) := by module
    rw [e0, h.res2, h.hw2]
    match_scalars
    · have : δ ^ 2 = r1 ^ 2 - rb ^ 2 := by linarith
      have h2 : β ^ 2 = ρ ^ 2 - r1 ^ 2 := by linarith
      field_simp
      rw [h2, this]; ring
    · ring
    · have h2 : β ^ 2 = ρ ^ 2 - r1 ^ 2 := by linarith
      field_simp
      rw [h2]; ring
  · simp only [inner_add_left, inner_add_right, inner_sub_left, inner_sub_right, real_inner_smul_left, inner_smul_right, hpv, hqv, hvp, hpu, hqu, hup, hv1]
    have : inner ℝ q1 p1 = -inner ℝ q2 p2 := by linarith [h.hqp]
    have t : inner ℝ p1 p1 = 1 - inner ℝ p2 p2 := by linarith
    rw [this, t]; ring
  · simp only [inner_add_left, inner_add_right, inner_sub_left, inner_sub_right, real_inner_smul_left, inner_smul_right, hpv, hqv, hvp, hpu, hqu, hup, hv1, hvq]
    have a1 : inner ℝ q1 p1 = -inner ℝ q2 p2 := by linarith [h.hqp]
    have a2 : inner ℝ p1 q1 = -inner ℝ p2 q2 := by linarith [hpq]
    have t : inner ℝ p1 p1 = 1 - inner ℝ p2 p2 := by linarith
    rw [a1, a2, t, ← h.hqq]
    field_simp
    linear_combination (-(δ ^ 2 * pb ^ 2)) * hr
  · rw [map_add, map_smul]
    have e0 : At p1 = rb • v - δ • p2 := by rw [← h.hAp]; abel
    have e1 : At q1 = -(δ • q2) := by rw [← add_eq_zero_iff_eq_neg]; exact h.hAq
    rw [e0, e1]
    match_scalars
    · ring
    · field_simp; ring
    · field_simp; ring
  · have e0 : A (v' + (-(β / ρ * α') / ρ) • w) = A v' + (-(β / ρ * α') / ρ) • (rb • p1 + β • u') := by rw [map_add, map_smul, h.hw1, eu]
    rw [e0]
    match_scalars
    · ring
    · field_simp
    · have h2 : β ^ 2 = ρ ^ 2 - r1 ^ 2 := by linarith
      field_simp
      rw [h2]; ring
  · have e0 : δ • (v' + (-(β / ρ * α') / ρ) • w) = δ • v' + (-(β / ρ * α') / ρ) • (rb • p2 + δ • v) := by rw [← h.hw2]; module
    rw [e0]
    match_scalars
    · ring
    · field_simp
    · field_simp
  · have e0 : At p1 = rb • v - δ • p2 := by rw [← h.hAp]; abel
    rw [map_sub, map_smul, map_smul, e0, ev]
    match_scalars
    · have : rb ^ 2 = r1 ^ 2 - δ ^ 2 := by linarith
      field_simp
      rw [this]; ring
    · field_simp; ring
    · ring
  · intro hne
    have hβ : β ≠ 0 := by rintro rfl; simp at hne
    simp only [inner_add_left, inner_add_right, inner_sub_left, inner_sub_right, real_inner_smul_left, inner_smul_right, hpv, hvp, hpu, hup, hv1, hu1 hβ]
    have t : inner ℝ p1 p1 = 1 - inner ℝ p2 p2 := by linarith
    rw [t]
    field_simp
    linear_combination (-(β ^ 2)) * hr - r1 ^ 2 * hρ

/-- The right-rotation part of the invariant, which yields `x_norm`: `x - x0 = X - (z sn2) w` with `X ⟂ w`. -/
structure LRight (V : Submodule ℝ E) (x0 x v w X : E) (rb z cs2 sn2 cz : ℝ) : Prop where
  hX : x - x0 = X - (z * sn2) • w
  hXX : inner ℝ X X = cz
  hXV : X ∈ V ⊔ Submodule.span ℝ {v}
  hXw : inner ℝ X w = (0 : ℝ)
  hwV : w ∈ V ⊔ Submodule.span ℝ {v}
  hww : rb ≠ 0 → cs2 ^ 2 * inner ℝ w w = 1
  hc : cs2 ≠ 0
  hxV : x - x0 ∈ V

theorem LRight.step {V : Submodule ℝ E} {x0 x v w X : E} {rb z cs2 sn2 cz : ℝ} (h : LRight V x0 x v w X rb z cs2 sn2 cz) (hrb : rb ≠ 0) (v' : E)
    (hv' : ∀ y ∈ V ⊔ Submodule.span ℝ {v}, inner ℝ v' y = 0) (rho phi theta rb' gamma : ℝ) (hrho : rho ≠ 0)
    (hth : theta = 0 ∨ inner ℝ v' v' = (1 : ℝ)) (hrb' : rb' ≠ 0 → inner ℝ v' v' = (1 : ℝ)) (hg : gamma ^ 2 = (-cs2 * rho) ^ 2 + theta ^ 2) :
    inner ℝ (x + (phi / rho) • w - x0) (x + (phi / rho) • w - x0) = cz + ((phi - sn2 * rho * z) / (-cs2 * rho)) ^ 2 ∧
    ∃ X', LRight (V ⊔ Submodule.span ℝ {v}) x0 (x + (phi / rho) • w) v' (v' + (-theta / rho) • w) X' rb'
      ((phi - sn2 * rho * z) / gamma) (-cs2 * rho / gamma) (theta / gamma) (cz + ((phi - sn2 * rho * z) / gamma) ^ 2) := by
  have hc := h.hc
  have hww := h.hww hrb
  have hww' : inner ℝ w w = 1 / cs2 ^ 2 := by field_simp; linarith
  have hgn : gamma ≠ 0 := by
    rintro rfl
    have : 0 < (-cs2 * rho) ^ 2 := sq_pos_iff.mpr (mul_ne_zero (neg_ne_zero.mpr hc) hrho)
    nlinarith [sq_nonneg theta]
  have hwv : inner ℝ w v' = (0 : ℝ) := by rw [real_inner_comm]; exact hv' _ h.hwV
  have hvw : inner ℝ v' w = (0 : ℝ) := hv' _ h.hwV
  have hXv : inner ℝ X v' = (0 : ℝ) := by rw [real_inner_comm]; exact hv' _ h.hXV
  have hvX : inner ℝ v' X = (0 : ℝ) := hv' _ h.hXV
  have hwX : inner ℝ w X = (0 : ℝ) := by rw [real_inner_comm]; exact h.hXw
  have e : x + (phi / rho) • w - x0 = X + (phi / rho - z * sn2) • w := by
    have : x + (phi / rho) • w - x0 = (x - x0) + (phi / rho) • w := by abel
    rw [this, h.hX]; module
  refine ⟨?_, X + ((phi - sn2 * rho * z) / gamma) • ((cs2 * rho / gamma * cs2) • w + (theta / gamma) • v'), ?_, ?_, ?_, ?_, ?_, ?_, ?_, ?_⟩
  · rw [e]
    simp only [inner_add_left, inner_add_right, real_inner_smul_left, inner_smul_right, h.hXw, hwX, hww', h.hXX]
    field_simp; ring
  · rw [e]
    match_scalars
    · ring
    · field_simp
      linear_combination (phi - rho * z * sn2) * hg
    · field_simp; ring
  · simp only [inner_add_left, inner_add_right, real_inner_smul_left, inner_smul_right, h.hXw, hwX, hww', h.hXX, hwv, hvw, hXv, hvX]
    rcases hth with h0 | h0
    · subst h0
      field_simp
      linear_combination (-(phi - sn2 * rho * z) ^ 2) * hg
    · rw [h0]
      field_simp
      linear_combination (-(phi - sn2 * rho * z) ^ 2) * hg
  · exact Submodule.add_mem _ (Submodule.mem_sup_left h.hXV) (Submodule.smul_mem _ _ (Submodule.add_mem _
      (Submodule.smul_mem _ _ (Submodule.mem_sup_left h.hwV)) (Submodule.smul_mem _ _ (mem_sup_self _ _))))
  · simp only [inner_add_left, inner_add_right, real_inner_smul_left, inner_smul_right, h.hXw, hwX, hww', h.hXX, hwv, hvw, hXv, hvX]
    rcases hth with h0 | h0
    · subst h0; simp
    · rw [h0]; field_simp; ring
  · exact Submodule.add_mem _ (mem_sup_self _ _) (Submodule.smul_mem _ _ (Submodule.mem_sup_left h.hwV))
  · intro h1
    simp only [inner_add_left, inner_add_right, real_inner_smul_left, inner_smul_right, hww', hwv, hvw, hrb' h1]
    field_simp
    linear_combination -hg
  · exact div_ne_zero (mul_ne_zero (neg_ne_zero.mpr hc) hrho) hgn
  · have : x + (phi / rho) • w - x0 = (x - x0) + (phi / rho) • w := by abel
    rw [this]
    exact Submodule.add_mem _ (Submodule.mem_sup_left h.hxV) (Submodule.smul_mem _ _ h.hwV)

/-- The whole loop invariant of `lsqr`. -/
structure LInv (A : E →ₗ[ℝ] F) (At : F →ₗ[ℝ] E) (b : F) (x0 : E) (δ : ℝ) (U : Submodule ℝ F) (p1 q1 : F) (p2 q2 X : E) (s : LsqrState E F) :
    Prop where
  bid : LBid A At (b - A x0) U (krylov A At (b - A x0) (s.iterations - 1)) s.u s.v s.alpha s.iterations
  rot : LRot A At b x0 δ U (krylov A At (b - A x0) (s.iterations - 1)) s.u s.v s.x s.w s.alpha s.rho_bar s.phi_bar s.cum_psi_sqr p1 q1 p2 q2
  right : LRight (krylov A At (b - A x0) (s.iterations - 1)) x0 s.x s.v s.w X s.rho_bar s.z s.cs2 s.sn2 s.cum_z_sqr
  unit_u : s.phi_bar ≠ 0 → ‖s.u‖ = 1
  unit_v : s.alpha ≠ 0 → ‖s.v‖ = 1
  alpha_ne : s.rho_bar ≠ 0 → s.alpha ≠ 0
  r_eq : s.r_norm = Real.sqrt (s.phi_bar ^ 2 + s.cum_psi_sqr)
  atr_eq : s.atr_norm = |s.phi_bar * s.rho_bar|
  x_eq : 1 < s.iterations → s.x_norm = ‖s.x - x0‖
  it_pos : 1 ≤ s.iterations
  n_times_eq : s.n_times = s.timesCalls ∧ s.n_times = s.iterations
  n_trans_eq : s.n_trans = s.transCalls ∧ s.n_trans = s.iterations
  A_nonneg : 0 ≤ s.A_norm
  D_nonneg : 0 ≤ s.D_norm_sqr
  xn_nonneg : 0 ≤ s.x_norm
  cond_pos : 0 < s.A_cond
  fin : FiniteDimensional ℝ E → Module.finrank ℝ (krylov A At (b - A x0) (s.iterations - 1)) + 1 = s.iterations

theorem krylov_zero (A : E →ₗ[ℝ] F) (At : F →ₗ[ℝ] E) (r : F) : krylov A At r 0 = ⊥ := by
  unfold krylov
  rw [Submodule.span_eq_bot]
  rintro y ⟨i, hi, _⟩
  omega

theorem LInv.init (A : E →ₗ[ℝ] F) (At : F →ₗ[ℝ] E) (b : F) (x0 : E) (δ : ℝ) :
    LInv A At b x0 δ ⊥ (lsqrInit A At b x0).u 0 0 0 0 (lsqrInit A At b x0) := by
  have hk : krylov A At (b - A x0) ((lsqrInit A At b x0).iterations - 1) = ⊥ := krylov_zero A At _
  constructor
  · rw [hk]; exact LBid.init A At b x0
  · rw [hk]; exact LRot.init A At b x0 δ
  · rw [hk]
    refine ⟨by simp [lsqrInit], by simp [lsqrInit], Submodule.zero_mem _, inner_zero_left _, mem_sup_self _ _, fun h => ?_, ?_, by simp [lsqrInit]⟩
    · have : ‖(lsqrInit A At b x0).w‖ = 1 := lsqrNormalize_unit _ h
      rw [real_inner_self_eq_norm_sq, this]; norm_num [lsqrInit]
    · norm_num [lsqrInit]
  · exact fun h => lsqrNormalize_unit _ h
  · exact fun h => lsqrNormalize_unit _ h
  · exact fun h => h
  · show ‖b - A x0‖ = Real.sqrt (‖b - A x0‖ ^ 2 + 0)
    rw [add_zero, Real.sqrt_sq (norm_nonneg _)]
  · show ‖_‖ * ‖b - A x0‖ = |‖b - A x0‖ * ‖_‖|
    rw [abs_of_nonneg (mul_nonneg (norm_nonneg _) (norm_nonneg _)), mul_comm]
  · intro h; exact absurd h (lt_irrefl _)
  · exact le_rfl
  · exact ⟨rfl, rfl⟩
  · exact ⟨rfl, rfl⟩
  · exact le_rfl
  · exact le_rfl
  · exact norm_nonneg _
  · exact one_pos
  · intro _; rw [hk, finrank_bot]; rfl

/-- What the loop condition gives. -/
theorem lsqrCond_pos {b_norm atr_norm0 atol btol conlim : ℝ} {max_iters : ℕ} {s : LsqrState E F} (h0 : 0 ≤ atr_norm0)
    (hc : lsqrCond b_norm atr_norm0 atol btol conlim max_iters s) : 0 < s.atr_norm := by
  have h : 1 + s.atr_norm / atr_norm0 > 1 := hc.2.2.1
  have h1 : 0 < s.atr_norm / atr_norm0 := by linarith
  by_contra h2
  exact absurd h1 (not_lt.mpr (div_nonpos_of_nonpos_of_nonneg (not_lt.mp h2) h0))

theorem LInv.step {A : E →ₗ[ℝ] F} {At : F →ₗ[ℝ] E} (adj : ∀ x y, inner ℝ (A x) y = inner ℝ x (At y)) {b : F} {x0 : E} {δ : ℝ} {U : Submodule ℝ F}
    {p1 q1 : F} {p2 q2 X : E} {s : LsqrState E F} (h : LInv A At b x0 δ U p1 q1 p2 q2 X s) (hatr : 0 < s.atr_norm) :
    ∃ U' p1' q1' p2' q2' X', LInv A At b x0 δ U' p1' q1' p2' q2' X' (lsqrBody A At δ s) := by
  have hpr : s.phi_bar * s.rho_bar ≠ 0 := by rw [h.atr_eq] at hatr; exact abs_pos.mp hatr
  have hpb : s.phi_bar ≠ 0 := left_ne_zero_of_mul hpr
  have hrb : s.rho_bar ≠ 0 := right_ne_zero_of_mul hpr
  have hal : s.alpha ≠ 0 := h.alpha_ne hrb
  have hu1 : ‖s.u‖ = 1 := h.unit_u hpb
  have hv1 : ‖s.v‖ = 1 := h.unit_v hal
  have hvv : inner ℝ s.v s.v = (1 : ℝ) := by rw [real_inner_self_eq_norm_sq, hv1]; norm_num
  set s' := lsqrBody A At δ s with hs'
  have hit' : s'.iterations = s.iterations + 1 := rfl
  have hu' : s'.u = lsqrNormalize ‖A s.v - s.alpha • s.u‖ (A s.v - s.alpha • s.u) := rfl
  have hv' : s'.v = lsqrNormalize ‖At s'.u - ‖A s.v - s.alpha • s.u‖ • s.v‖ (At s'.u - ‖A s.v - s.alpha • s.u‖ • s.v) := rfl
  have hα : s'.alpha = ‖At s'.u - ‖A s.v - s.alpha • s.u‖ • s.v‖ := rfl
  have hβ : s'.beta = ‖A s.v - s.alpha • s.u‖ := rfl
  have bid' := h.bid.step adj h.it_pos hu1 hv1 s'.u s'.v hu' hv'
  have hkry : krylov A At (b - A x0) (s.iterations - 1) ⊔ Submodule.span ℝ {s.v} = krylov A At (b - A x0) (s'.iterations - 1) := by
    rw [hit', Nat.add_sub_cancel]
    refine le_antisymm h.bid.hkout (Submodule.span_le.mpr ?_)
    rintro y ⟨i, hi, rfl⟩
    exact h.bid.hkin i hi
  have eu : A s.v - s.alpha • s.u = s'.beta • s'.u := by rw [hu', hβ]; exact (lsqrNormalize_norm _).symm
  have ev : At s'.u = s'.alpha • s'.v + s'.beta • s.v := by
    have : s'.alpha • s'.v = At s'.u - s'.beta • s.v := by rw [hα, hβ]; rw [hv']; exact lsqrNormalize_norm _
    rw [this]; abel
  have hu1' : s'.beta ≠ 0 → ‖s'.u‖ = 1 := fun h0 => by rw [hu']; exact lsqrNormalize_unit _ h0
  have hv1' : s'.alpha ≠ 0 → ‖s'.v‖ = 1 := fun h0 => by rw [hv']; exact lsqrNormalize_unit _ h0
  have hu2' : s'.beta ≠ 0 → inner ℝ s'.u s'.u = (1 : ℝ) := fun h0 => by rw [real_inner_self_eq_norm_sq, hu1' h0]; norm_num
  have hv2' : s'.alpha ≠ 0 → inner ℝ s'.v s'.v = (1 : ℝ) := fun h0 => by rw [real_inner_self_eq_norm_sq, hv1' h0]; norm_num
  set r1 := l2norm2 s.rho_bar δ with hr1d
  set rho := l2norm2 r1 s'.beta with hrhod
  have hr1p : 0 < r1 := Real.sqrt_pos.mpr (by positivity)
  have hr1 : r1 ^ 2 = s.rho_bar ^ 2 + δ ^ 2 := Real.sq_sqrt (by positivity)
  have hrp : 0 < rho := Real.sqrt_pos.mpr (by positivity)
  have hr : rho ^ 2 = r1 ^ 2 + s'.beta ^ 2 := Real.sq_sqrt (by positivity)
  obtain ⟨p1', q1', p2', q2', rot'⟩ := h.rot.step hpb hvv h.bid.hv s'.u s'.v s'.beta s'.alpha eu ev bid'.hu hu2' r1 rho hr1p.ne' hr1 hrp.ne' hr
  set theta := s'.beta / rho * s'.alpha with hth
  set phi := r1 / rho * (s.rho_bar / r1 * s.phi_bar) with hphi
  set gamma := l2norm2 (-s.cs2 * rho) theta with hgam
  have hg : gamma ^ 2 = (-s.cs2 * rho) ^ 2 + theta ^ 2 := Real.sq_sqrt (by positivity)
  have hrbd : s'.rho_bar = -(r1 / rho) * s'.alpha := rfl
  have hpbd : s'.phi_bar = s'.beta / rho * (s.rho_bar / r1 * s.phi_bar) := rfl
  have hth0 : theta = 0 ∨ inner ℝ s'.v s'.v = (1 : ℝ) := by
    rcases eq_or_ne s'.alpha 0 with h0 | h0
    · left; rw [hth, h0, mul_zero]
    · right; exact hv2' h0
  have hrb0 : s'.rho_bar ≠ 0 → s'.alpha ≠ 0 := fun h0 h1 => h0 (by rw [hrbd, h1, mul_zero])
  have hpb0 : s'.phi_bar ≠ 0 → s'.beta ≠ 0 := fun h0 h1 => h0 (by rw [hpbd, h1]; ring)
  obtain ⟨hxn, X', right'⟩ := h.right.step hrb s'.v bid'.hv rho phi theta s'.rho_bar gamma hrp.ne' hth0 (fun h0 => hv2' (hrb0 h0)) hg
  have hcpsi : 0 ≤ s.cum_psi_sqr := by rw [← h.rot.hqq]; exact add_nonneg real_inner_self_nonneg real_inner_self_nonneg
  have hwne : s.w ≠ 0 := by
    intro h0
    have := h.right.hww hrb
    rw [h0, inner_zero_right, mul_zero] at this
    exact zero_ne_one this
  have hD : s'.D_norm_sqr = s.D_norm_sqr + ‖rho⁻¹ • s.w‖ ^ 2 := rfl
  have hDp : 0 < s'.D_norm_sqr := by
    rw [hD]
    have : 0 < ‖rho⁻¹ • s.w‖ := norm_pos_iff.mpr (smul_ne_zero (inv_ne_zero hrp.ne') hwne)
    have := h.D_nonneg
    positivity
  have hAn : s'.A_norm = Real.sqrt (s.A_norm ^ 2 + s.alpha ^ 2 + s'.beta ^ 2 + δ ^ 2) := rfl
  have hAp : 0 < s'.A_norm := by rw [hAn]; exact Real.sqrt_pos.mpr (by positivity)
  refine ⟨U ⊔ Submodule.span ℝ {s.u}, p1', q1', p2', q2', X', ?_⟩
  constructor
  · rw [← hkry]; exact bid'
  · rw [← hkry]; exact rot'
  · rw [← hkry]; exact right'
  · exact fun h0 => hu1' (hpb0 h0)
  · exact hv1'
  · exact hrb0
  · rfl
  · show s'.alpha * |s'.beta / rho * phi| = _
    have hα0 : 0 ≤ s'.alpha := norm_nonneg _
    rw [hpbd, hrbd, hphi]
    have e : s'.alpha * |s'.beta / rho * (r1 / rho * (s.rho_bar / r1 * s.phi_bar))|
        = |s'.alpha * (s'.beta / rho * (r1 / rho * (s.rho_bar / r1 * s.phi_bar)))| := by rw [abs_mul s'.alpha, abs_of_nonneg hα0]
    rw [e, ← abs_neg]
    congr 1
    ring
  · intro _
    show Real.sqrt (s.cum_z_sqr + ((phi - s.sn2 * rho * s.z) / (-s.cs2 * rho)) ^ 2) = ‖s.x + (phi / rho) • s.w - x0‖
    rw [← hxn, real_inner_self_eq_norm_sq, Real.sqrt_sq (norm_nonneg _)]
  · omega
  · exact ⟨by rw [show s'.n_times = s.n_times + 1 from rfl, h.n_times_eq.1]; rfl, by rw [show s'.n_times = s.n_times + 1 from rfl, h.n_times_eq.2]; rfl⟩
  · exact ⟨by rw [show s'.n_trans = s.n_trans + 1 from rfl, h.n_trans_eq.1]; rfl, by rw [show s'.n_trans = s.n_trans + 1 from rfl, h.n_trans_eq.2]; rfl⟩
  · exact hAp.le
  · exact hDp.le
  · exact Real.sqrt_nonneg _
  · exact mul_pos hAp (Real.sqrt_pos.mpr hDp)
  · intro hfd
    rw [← hkry, Submodule.finrank_sup_span_singleton, h.fin hfd, hit']
    intro hmem
    have := h.bid.hv _ hmem
    rw [hvv] at this
    exact one_ne_zero this

/-- Every state the loop reaches satisfies the invariant. -/
theorem lsqr_inv {A : E →ₗ[ℝ] F} {At : F →ₗ[ℝ] E} (adj : ∀ x y, inner ℝ (A x) y = inner ℝ x (At y)) {b : F} {x0 : E}
    {damp atol btol conlim : ℝ} {max_iters : ℕ} {s : LsqrState E F} (h : LsqrReach A At b x0 damp atol btol conlim max_iters s) :
    ∃ U p1 q1 p2 q2 X, LInv A At b x0 damp U p1 q1 p2 q2 X s := by
  refine Reach.inv (fun s => ∃ U p1 q1 p2 q2 X, LInv A At b x0 damp U p1 q1 p2 q2 X s) h ⟨_, _, _, _, _, _, LInv.init A At b x0 damp⟩ ?_
  rintro s ⟨U, p1, q1, p2, q2, X, hi⟩ hc
  exact hi.step adj (lsqrCond_pos (mul_nonneg (norm_nonneg _) (norm_nonneg _)) hc)

end Verif.Sls
