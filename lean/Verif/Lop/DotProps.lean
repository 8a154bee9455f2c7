import Verif.Lop.DotModel
import Verif.Dict.SimpleProps
import Mathlib.Analysis.Complex.Basic

set_option autoImplicit false

/-!
# Properties of the inner product operator (C101) and of the Walsh-Hadamard basis (C102)
-/
noncomputable section
namespace Verif.Lop
variable {𝕜 : Type*} [RCLike 𝕜]

private theorem vdot_map_mul (v : List 𝕜) (a : 𝕜) (x : List 𝕜) : vdot x (v.map (· * a)) = vdot x v * a := by
  have h := vdot_smul_right a v x
  have e : smul a v = v.map (· * a) := by
    unfold smul; congr 1; funext b; exact mul_comm a b
  rw [← e, h, mul_comm]

/-- **C101, real data.** `dot(v)` is the one-row operator `x ↦ ∑ vᵢ xᵢ`, its backward direction is the adjoint, and `dot(v, adjoint=True)`
is the adjoint operator. -/
theorem c101_dot_real (v : List ℝ) :
    (dot v false).shape = (1, v.length) ∧ (dot v true).shape = (v.length, 1) ∧
    (∀ x, x.length = v.length → (dot v false).times x = [∑ i ∈ Finset.range v.length, ent v i * ent x i]) ∧
    (∀ y, y.length = 1 → ∀ i, i < v.length → ent ((dot v true).times y) i = ent v i * ent y 0) ∧
    AdjointPair 1 v.length (dot v false).times (dot v false).trans ∧
    AdjointPair v.length 1 (dot v true).times (dot v true).trans := by
  have hlen : ∀ y : List ℝ, y.length = 1 → ∃ a, y = [a] := fun y hy => List.length_eq_one_iff.1 hy
  have hadj : ∀ x y : List ℝ, x.length = v.length → y.length = 1 →
      vdot [((RCLike.re (vdot v x) : ℝ) : ℝ)] y = vdot x (v.map (· * ent y 0)) := by
    intro x y hx hy
    obtain ⟨a, rfl⟩ := hlen y hy
    have e : vdot v x = vdot x v := by
      have := star_vdot v x
      simpa using this
    rw [vdot_map_mul, ← e]
    simp [ent]
  refine ⟨rfl, rfl, ?_, ?_, ⟨?_, ?_, hadj⟩, ⟨?_, ?_, ?_⟩⟩
  · intro x hx
    show [_] = _
    rw [vdot_eq_sum rfl hx]
    simp [ent]
  · intro y hy i hi
    show ent (v.map (· * ent y 0)) i = _
    simp [ent, List.getD, hi]
  · intro x _; rfl
  · intro y _; show (v.map _).length = _; simp
  · intro y _; show (v.map _).length = _; simp
  · intro x _; rfl
  · intro y x hy hx
    have h := congrArg star (hadj x y hx hy)
    rw [star_vdot, star_vdot] at h
    exact h.symm

/-- **C101 (part), complex data.** The operator returns the real part of the inner product, and with respect to the real inner product
`Re ⟨·,·⟩` its backward direction is the adjoint. Missing: the documented value `v^H x` and the adjoint for the complex inner product,
which the code does not provide. -/
theorem c101_dot_partial (v x : List 𝕜) (hx : x.length = v.length) (r : ℝ) :
    (dot v false).times x = [((RCLike.re (vdot v x) : ℝ) : 𝕜)] ∧
    RCLike.re (vdot ((dot v false).times x) [(r : 𝕜)]) = RCLike.re (vdot x ((dot v false).trans [(r : 𝕜)])) := by
  refine ⟨rfl, ?_⟩
  show RCLike.re (vdot [((RCLike.re (vdot v x) : ℝ) : 𝕜)] [(r : 𝕜)]) = RCLike.re (vdot x (v.map (· * ent [(r : 𝕜)] 0)))
  rw [vdot_map_mul, ← star_vdot v x]
  simp [ent]

/-- **C101 fails for complex data**: `dot([i])` maps `[1]` to `[0]`, and `v^H x` is `-i`. -/
theorem c101_complex_fails :
    (dot [Complex.I] false).times [1] = [0] ∧ vdot [Complex.I] [1] = -Complex.I := by
  constructor
  · show [_] = _; simp
  · simp

/-! ## Walsh-Hadamard -/

/-- What a Walsh-Hadamard matrix of size `n`, in any ordering of its rows that leaves it symmetric, provides. -/
structure IsWalshHadamard (W : ℕ → ℕ → ℤ) (n : ℕ) : Prop where
  pm : ∀ i < n, ∀ j < n, W i j = 1 ∨ W i j = -1
  symm : ∀ i < n, ∀ j < n, W i j = W j i
  orth : ∀ i < n, ∀ j < n, ∑ q ∈ Finset.range n, W i q * W j q = if i = j then (n : ℤ) else 0

private theorem ent_fwht (W : ℕ → ℕ → ℤ) (n : ℕ) (a : 𝕜) (x : List 𝕜) (i : ℕ) (hi : i < n) :
    ent (smul a (fwht W n x)) i = a * ∑ j ∈ Finset.range n, (W i j : 𝕜) * ent x j := by
  have hl : (fwht W n x).length = n := by simp [fwht]
  have := ent_tab (n := n) (i := i) (fun i => ∑ j ∈ Finset.range n, (W i j : 𝕜) * ent x j) hi
  unfold smul
  simp only [ent, List.getD, List.getElem?_map] at this ⊢
  have h2 : (fwht W n x)[i]? = some (∑ j ∈ Finset.range n, (W i j : 𝕜) * ent x j) := by
    simp [fwht, hi, ent]
  rw [h2]
  simp [ent]

/-- **C102** `walsh_hadamard_basis(n)` exists exactly for the powers of two.  It is an `n × n` self-adjoint operator which is its own
inverse and preserves inner products, and all its entries have absolute value `1/√n`. -/
theorem c102_walsh_hadamard (W : ℕ → ℕ → ℤ) (n : ℕ) (hW : IsWalshHadamard W n) :
    ((∃ T : Op 𝕜, walshHadamardBasis W n = some T) ↔ ∃ k, n = 2 ^ k) ∧
    ∀ T : Op 𝕜, walshHadamardBasis W n = some T → T.shape = (n, n) ∧ T.trans = T.times ∧
      AdjointPair n n T.times T.trans ∧
      (∀ x, x.length = n → T.times (T.times x) = x) ∧
      (∀ x y, x.length = n → y.length = n → vdot (T.times x) (T.times y) = vdot x y) ∧
      (∀ j < n, ∀ i < n, ‖ent (T.times (unitVec n j)) i‖ = 1 / Real.sqrt n) := by
  constructor
  · unfold walshHadamardBasis
    constructor
    · rintro ⟨T, h⟩
      split_ifs at h with hn
      exact ⟨_, hn.symm⟩
    · rintro ⟨k, rfl⟩
      rw [Nat.log_pow (by norm_num), if_pos rfl]
      exact ⟨_, rfl⟩
  intro T hT
  unfold walshHadamardBasis at hT
  split_ifs at hT with hn2
  simp only [Option.some_inj] at hT
  subst hT
  have hn : 0 < n := by rw [← hn2]; positivity
  have hnr : (0 : ℝ) < n := by exact_mod_cast hn
  simp only []
  set a : 𝕜 := ((1 / Real.sqrt n : ℝ) : 𝕜) with ha
  have haa : a * a * n = 1 := by
    have h2 : (1 / Real.sqrt n) * (1 / Real.sqrt n) * n = 1 := by
      have := Real.mul_self_sqrt hnr.le
      have h0 : Real.sqrt n ≠ 0 := (Real.sqrt_pos.2 hnr).ne'
      field_simp
      nlinarith
    rw [ha]
    have := congrArg (fun t : ℝ => (t : 𝕜)) h2
    simpa using this
  have hsa : star a = a := by rw [ha]; simp
  have hlen : ∀ x : List 𝕜, (smul a (fwht W n x)).length = n := by intro x; simp [fwht]
  have hpair : AdjointPair n n (fun x : List 𝕜 => smul a (fwht W n x)) (fun x => smul a (fwht W n x)) := by
    refine ⟨fun x _ => hlen x, fun x _ => hlen x, ?_⟩
    intro x y hx hy
    rw [vdot_eq_sum (hlen x) hy, vdot_eq_sum hx (hlen y)]
    have e1 : ∀ i ∈ Finset.range n, star (ent (smul a (fwht W n x)) i) * ent y i =
        ∑ j ∈ Finset.range n, a * ((W i j : 𝕜) * (star (ent x j) * ent y i)) := by
      intro i hi
      rw [ent_fwht W n a x i (Finset.mem_range.1 hi), star_mul', hsa, star_sum, Finset.mul_sum, Finset.sum_mul]
      apply Finset.sum_congr rfl; intro j _
      rw [star_mul']
      have : star ((W i j : ℤ) : 𝕜) = (W i j : 𝕜) := by simp
      rw [this]; ring
    have e2 : ∀ j ∈ Finset.range n, star (ent x j) * ent (smul a (fwht W n y)) j =
        ∑ i ∈ Finset.range n, a * ((W i j : 𝕜) * (star (ent x j) * ent y i)) := by
      intro j hj
      rw [ent_fwht W n a y j (Finset.mem_range.1 hj), Finset.mul_sum, Finset.mul_sum]
      apply Finset.sum_congr rfl; intro i hi
      rw [hW.symm j (Finset.mem_range.1 hj) i (Finset.mem_range.1 hi)]; ring
    have := (Finset.sum_congr rfl e1).trans (Finset.sum_comm.trans (Finset.sum_congr rfl e2).symm)
    exact this
  have hinv : ∀ x : List 𝕜, x.length = n → smul a (fwht W n (smul a (fwht W n x))) = x := by
    intro x hx
    apply ext_getD (n := n) (hlen _) hx
    intro i hi
    show ent _ i = ent x i
    rw [ent_fwht W n a _ i hi]
    have e : ∀ j ∈ Finset.range n, (W i j : 𝕜) * ent (smul a (fwht W n x)) j =
        ∑ q ∈ Finset.range n, a * (((W i j * W q j : ℤ) : 𝕜) * ent x q) := by
      intro j hj
      rw [ent_fwht W n a x j (Finset.mem_range.1 hj), Finset.mul_sum, Finset.mul_sum]
      apply Finset.sum_congr rfl; intro q hq
      rw [hW.symm j (Finset.mem_range.1 hj) q (Finset.mem_range.1 hq)]; push_cast; ring
    rw [Finset.sum_congr rfl e, Finset.sum_comm]
    have e2 : ∀ q ∈ Finset.range n, ∑ j ∈ Finset.range n, a * (((W i j * W q j : ℤ) : 𝕜) * ent x q) =
        if i = q then a * (n * ent x q) else 0 := by
      intro q hq
      rw [← Finset.mul_sum, ← Finset.sum_mul, ← Int.cast_sum, hW.orth i hi q (Finset.mem_range.1 hq)]
      split_ifs <;> simp
    rw [Finset.sum_congr rfl e2, Finset.sum_ite_eq, if_pos (Finset.mem_range.2 hi)]
    linear_combination ent x i * haa
  refine ⟨trivial, trivial, hpair, hinv, ?_, ?_⟩
  · intro x y hx hy
    rw [hpair.adjoint x _ hx (hlen y), hinv y hy]
  · intro j hj i hi
    rw [ent_fwht W n a _ i hi, Finset.sum_eq_single j]
    · have h1 : ent (unitVec n j : List 𝕜) j = 1 := by simp [unitVec, ent, List.getD, hj]
      rw [h1, mul_one, norm_mul]
      have h2 : ‖((W i j : ℤ) : 𝕜)‖ = 1 := by
        rcases hW.pm i hi j hj with h | h <;> simp [h]
      rw [h2, mul_one, ha, RCLike.norm_ofReal, abs_of_nonneg (by positivity)]
    · intro q hq hne
      have : ent (unitVec n j : List 𝕜) q = 0 := by
        simp [unitVec, ent, List.getD, Finset.mem_range.1 hq, hne]
      rw [this, mul_zero]
    · intro h; exact absurd (Finset.mem_range.2 hj) h

/-- **C102** The matrix `hadamard(n)` of the dictionary module is a Walsh-Hadamard matrix; with it the columns of the operator are the
columns of `hadamard_basis(n)`. -/
theorem c102_matches_dictionary (n : ℕ) (H : List (List ℤ)) (h : Dict.hadamard n = some H) :
    IsWalshHadamard (Dict.entry H) n ∧
    ∃ (T : Op ℝ) (B : ℕ → ℕ → ℝ), walshHadamardBasis (Dict.entry H) n = some T ∧ Dict.hadamardBasis n = some B ∧
      ∀ j < n, ∀ i < n, ent (T.times (unitVec n j)) i = B i j := by
  obtain ⟨_, _, hall⟩ := Dict.c69_hadamard n H h
  have hW : IsWalshHadamard (Dict.entry H) n :=
    ⟨fun i hi j hj => (hall i hi j hj).1, fun i hi j hj => (hall i hi j hj).2.1, fun i hi j hj => (hall i hi j hj).2.2⟩
  obtain ⟨T, hT⟩ := (c102_walsh_hadamard (𝕜 := ℝ) (Dict.entry H) n hW).1.2 ((Dict.c69_domain n).1 ⟨H, h⟩)
  refine ⟨hW, T, _, hT, by rw [Dict.hadamardBasis, h, Option.map_some], ?_⟩
  intro j hj i hi
  unfold walshHadamardBasis at hT
  split_ifs at hT with hn2
  simp only [Option.some_inj] at hT
  subst hT
  simp only []
  rw [ent_fwht _ n _ _ i hi, Finset.sum_eq_single j]
  · have h1 : ent (unitVec n j : List ℝ) j = 1 := by simp [unitVec, ent, List.getD, hj]
    rw [h1]; simp; ring
  · intro q hq hne
    have : ent (unitVec n j : List ℝ) q = 0 := by
      simp [unitVec, ent, List.getD, Finset.mem_range.1 hq, hne]
    rw [this, mul_zero]
  · intro h; exact absurd (Finset.mem_range.2 hj) h

example : ∃ H, Dict.hadamard 8 = some H := (Dict.c69_domain 8).mpr ⟨3, rfl⟩

example := c101_dot_partial ([1, 2, 3] : List ℝ) [4, 5, 6] rfl 2

example : ∃ H, Dict.hadamard 8 = some H ∧ ∃ T : Op ℝ, walshHadamardBasis (Dict.entry H) 8 = some T := by
  obtain ⟨H, h⟩ := (Dict.c69_domain 8).mpr ⟨3, rfl⟩
  exact ⟨H, h, (c102_walsh_hadamard (Dict.entry H) 8 (c102_matches_dictionary 8 H h).1).1.2 ⟨3, rfl⟩⟩

end Verif.Lop
