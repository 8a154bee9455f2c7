import Verif.Lop.AlgebraProps

set_option autoImplicit false
/-! # C167: rewriting operator expressions by the laws of matrix algebra -/
namespace Verif.Lop
variable {R : Type*} [CommRing R] [StarRing R]

/-- The textbook laws of operator algebra, applied anywhere inside an expression, any number of times, in both directions. -/
inductive Rewrite : Expr R → Expr R → Prop
  | refl (e : Expr R) : Rewrite e e
  | symm {e e' : Expr R} : Rewrite e e' → Rewrite e' e
  | trans {e e' e'' : Expr R} : Rewrite e e' → Rewrite e' e'' → Rewrite e e''
  -- inside an expression
  | in_neg {e e' : Expr R} : Rewrite e e' → Rewrite (.neg e) (.neg e')
  | in_scale {e e' : Expr R} (k : R) (c : Bool) : Rewrite e e' → Rewrite (.scale e k c) (.scale e' k c)
  | in_adjoint {e e' : Expr R} : Rewrite e e' → Rewrite (.adjoint e) (.adjoint e')
  | in_transpose {e e' : Expr R} : Rewrite e e' → Rewrite (.transpose e) (.transpose e')
  | in_power {e e' : Expr R} (p : ℤ) : Rewrite e e' → Rewrite (.power e p) (.power e' p)
  | in_gram {e e' : Expr R} : Rewrite e e' → Rewrite (.gram e) (.gram e')
  | in_frame {e e' : Expr R} : Rewrite e e' → Rewrite (.frame e) (.frame e')
  | in_add {a a' b b' : Expr R} : Rewrite a a' → Rewrite b b' → Rewrite (.add a b) (.add a' b')
  | in_subtract {a a' b b' : Expr R} : Rewrite a a' → Rewrite b b' → Rewrite (.subtract a b) (.subtract a' b')
  | in_compose {a a' b b' : Expr R} : Rewrite a a' → Rewrite b b' → Rewrite (.compose a b) (.compose a' b')
  | in_hcat {a a' b b' : Expr R} : Rewrite a a' → Rewrite b b' → Rewrite (.hcat a b) (.hcat a' b')
  -- sums and scalars
  | add_comm (a b : Expr R) : Rewrite (.add a b) (.add b a)
  | add_assoc (a b c : Expr R) : Rewrite (.add (.add a b) c) (.add a (.add b c))
  | sub_eq (a b : Expr R) : Rewrite (.subtract a b) (.add a (.neg b))
  | neg_eq (e : Expr R) : Rewrite (.neg e) (.scale e (-1) false)
  | scale_add (a b : Expr R) (k : R) (c : Bool) : Rewrite (.scale (.add a b) k c) (.add (.scale a k c) (.scale b k c))
  | scale_scale (e : Expr R) (k l : R) (c : Bool) (h : c = false → star k = k ∧ star l = l) : Rewrite (.scale (.scale e l c) k c) (.scale e (k * l) c)
  -- products
  | compose_assoc (a b c : Expr R) : Rewrite (.compose (.compose a b) c) (.compose a (.compose b c))
  | add_compose (a b c : Expr R) : Rewrite (.compose (.add a b) c) (.add (.compose a c) (.compose b c))
  | compose_add (a b c : Expr R) : Rewrite (.compose a (.add b c)) (.add (.compose a b) (.compose a c))
  | scale_compose (a b : Expr R) (k : R) (c : Bool) : Rewrite (.compose (.scale a k c) b) (.scale (.compose a b) k c)
  | compose_scale (a b : Expr R) (k : R) (c : Bool) : Rewrite (.compose a (.scale b k c)) (.scale (.compose a b) k c)
  | power_add (e : Expr R) (m n : ℕ) : Rewrite (.power e (m + n : ℕ)) (.compose (.power e m) (.power e n))
  -- adjoint and transpose
  | adjoint_adjoint (e : Expr R) : Rewrite (.adjoint (.adjoint e)) e
  | adjoint_compose (a b : Expr R) : Rewrite (.adjoint (.compose a b)) (.compose (.adjoint b) (.adjoint a))
  | adjoint_add (a b : Expr R) : Rewrite (.adjoint (.add a b)) (.add (.adjoint a) (.adjoint b))
  | adjoint_scale (e : Expr R) (k : R) (c : Bool) : Rewrite (.adjoint (.scale e k c)) (.scale (.adjoint e) (star k) c)
  | transpose_transpose (e : Expr R) : Rewrite (.transpose (.transpose e)) e
  | transpose_compose (a b : Expr R) : Rewrite (.transpose (.compose a b)) (.compose (.transpose b) (.transpose a))
  | transpose_add (a b : Expr R) : Rewrite (.transpose (.add a b)) (.add (.transpose a) (.transpose b))
  | transpose_scale (e : Expr R) (k : R) (c : Bool) : Rewrite (.transpose (.scale e k c)) (.scale (.transpose e) k c)
  | adjoint_transpose (e : Expr R) : Rewrite (.adjoint (.transpose e)) (.transpose (.adjoint e))
  | gram_eq (e : Expr R) : Rewrite (.gram e) (.compose (.adjoint e) e)
  | frame_eq (e : Expr R) : Rewrite (.frame e) (.compose e (.adjoint e))
  -- blocks
  | hcat_assoc (a b c : Expr R) : Rewrite (.hcat (.hcat a b) c) (.hcat a (.hcat b c))
  | compose_hcat (a b c : Expr R) : Rewrite (.compose a (.hcat b c)) (.hcat (.compose a b) (.compose a c))
  | scale_hcat (a b : Expr R) (k : R) (c : Bool) : Rewrite (.scale (.hcat a b) k c) (.hcat (.scale a k c) (.scale b k c))

theorem Mat.Same.rfl' (A : Mat R) : A.Same A := ⟨rfl, rfl, fun _ _ _ _ => rfl⟩
theorem Mat.Same.symm' {A B : Mat R} (h : A.Same B) : B.Same A := ⟨h.1.symm, h.2.1.symm, fun i j hi hj => (h.2.2 i j (by rw [h.1]; exact hi) (by rw [h.2.1]; exact hj)).symm⟩
theorem Mat.Same.trans' {A B C : Mat R} (h : A.Same B) (h' : B.Same C) : A.Same C :=
  ⟨h.1.trans h'.1, h.2.1.trans h'.2.1, fun i j hi hj => (h.2.2 i j hi hj).trans (h'.2.2 i j (h.1 ▸ hi) (h.2.1 ▸ hj))⟩

theorem Mat.Same.mul' {A A' B B' : Mat R} (h : A.Same A') (hB : B.Same B') (hs : A.cols = B.rows) : (A.mul B).Same (A'.mul B') := by
  refine ⟨h.1, hB.2.1, fun i j hi hj => ?_⟩
  show ∑ k ∈ Finset.range A.cols, _ = ∑ k ∈ Finset.range A'.cols, _
  rw [← h.2.1]
  exact Finset.sum_congr rfl fun k hk => by rw [h.2.2 i k hi (Finset.mem_range.1 hk), hB.2.2 k j (hs ▸ Finset.mem_range.1 hk) hj]

theorem Mat.Same.conjTranspose' {A A' : Mat R} (h : A.Same A') : A.conjTranspose.Same A'.conjTranspose :=
  ⟨h.2.1, h.1, fun i j hi hj => congrArg star (h.2.2 j i hj hi)⟩

theorem Mat.Same.pow' {A A' : Mat R} (h : A.Same A') (hs : A.rows = A.cols) (k : ℕ) : (A.pow k).Same (A'.pow k) := by
  induction k with
  | zero => exact ⟨h.1, h.1, fun _ _ _ _ => rfl⟩
  | succ k ih => exact h.mul' ih (by rw [Mat.pow_rows]; exact hs.symm)

theorem Mat.mul_assoc' (A B C : Mat R) : ((A.mul B).mul C).Same (A.mul (B.mul C)) := by
  refine ⟨rfl, rfl, fun i j _ _ => ?_⟩
  show ∑ k ∈ Finset.range B.cols, (∑ l ∈ Finset.range A.cols, A.entry i l * B.entry l k) * C.entry k j =
    ∑ l ∈ Finset.range A.cols, A.entry i l * ∑ k ∈ Finset.range B.cols, B.entry l k * C.entry k j
  simp only [Finset.sum_mul, Finset.mul_sum]
  rw [Finset.sum_comm]
  exact Finset.sum_congr rfl fun l _ => Finset.sum_congr rfl fun k _ => mul_assoc _ _ _

theorem Mat.one_mul' (A : Mat R) (n : ℕ) (h : n = A.rows) : ((Mat.one n).mul A).Same A := by
  refine ⟨h, rfl, fun i j hi _ => ?_⟩
  show ∑ k ∈ Finset.range n, (if i = k then 1 else 0) * A.entry k j = A.entry i j
  have hi : i < n := hi
  simp [hi]

theorem Mat.pow_add' (A : Mat R) (hs : A.rows = A.cols) (m n : ℕ) : (A.pow (m + n)).Same ((A.pow m).mul (A.pow n)) := by
  induction m with
  | zero =>
    rw [Nat.zero_add]
    exact (Mat.one_mul' _ _ (Mat.pow_rows _ _).symm).symm'
  | succ m ih =>
    rw [Nat.succ_add]
    exact ((Mat.Same.rfl' A).mul' ih (by rw [Mat.pow_rows]; exact hs.symm)).trans' (Mat.mul_assoc' A (A.pow m) (A.pow n)).symm'

/-- What a rewriting step keeps. -/
structure Kept (e e' : Expr R) : Prop where
  shaped : e.WellShaped ↔ e'.WellShaped
  same : e.WellShaped → e.den.Same e'.den
  leaves : ∀ L, L ∈ e.leaves ↔ L ∈ e'.leaves
  scalars : e.RealScalars ↔ e'.RealScalars

theorem Kept.symm {e e' : Expr R} (h : Kept e e') : Kept e' e :=
  ⟨h.shaped.symm, fun w => (h.same (h.shaped.2 w)).symm', fun L => (h.leaves L).symm, h.scalars.symm⟩

/-- Every rewriting keeps acceptance, the denoted matrix, the operators used and the reality of the scalars. -/
theorem rewrite_kept {e e' : Expr R} (h : Rewrite e e') : Kept e e' := by
  induction h with
  | refl e => exact ⟨Iff.rfl, fun _ => Mat.Same.rfl' _, fun _ => Iff.rfl, Iff.rfl⟩
  | symm _ ih => exact ih.symm
  | trans _ _ ih ih' =>
    exact ⟨ih.shaped.trans ih'.shaped, fun w => (ih.same w).trans' (ih'.same (ih.shaped.1 w)), fun L => (ih.leaves L).trans (ih'.leaves L), ih.scalars.trans ih'.scalars⟩
  | in_neg _ ih => exact ⟨ih.shaped, fun w => ⟨(ih.same w).1, (ih.same w).2.1, fun i j hi hj => congrArg Neg.neg ((ih.same w).2.2 i j hi hj)⟩, ih.leaves, ih.scalars⟩
  | in_scale k c _ ih =>
    exact ⟨ih.shaped, fun w => ⟨(ih.same w).1, (ih.same w).2.1, fun i j hi hj => congrArg (k * ·) ((ih.same w).2.2 i j hi hj)⟩, ih.leaves, and_congr Iff.rfl ih.scalars⟩
  | in_adjoint _ ih => exact ⟨ih.shaped, fun w => (ih.same w).conjTranspose', ih.leaves, ih.scalars⟩
  | in_transpose _ ih => exact ⟨ih.shaped, fun w => ⟨(ih.same w).2.1, (ih.same w).1, fun i j hi hj => (ih.same w).2.2 j i hj hi⟩, ih.leaves, ih.scalars⟩
  | in_power p _ ih =>
    refine ⟨⟨fun w => ⟨ih.shaped.1 w.1, ?_⟩, fun w => ⟨ih.shaped.2 w.1, ?_⟩⟩, fun w => (ih.same w.1).pow' w.2 _, ih.leaves, ih.scalars⟩
    · rw [← (ih.same w.1).1, ← (ih.same w.1).2.1]; exact w.2
    · have := ih.same (ih.shaped.2 w.1)
      rw [this.1, this.2.1]; exact w.2
  | in_gram _ ih => exact ⟨ih.shaped, fun w => (ih.same w).conjTranspose'.mul' (ih.same w) rfl, ih.leaves, ih.scalars⟩
  | in_frame _ ih => exact ⟨ih.shaped, fun w => (ih.same w).mul' (ih.same w).conjTranspose' rfl, ih.leaves, ih.scalars⟩
  | in_add _ _ iha ihb | in_subtract _ _ iha ihb =>
    have key := fun wa wb => And.intro (iha.same wa) (ihb.same wb)
    refine ⟨⟨fun ⟨wa, wb, h1, h2⟩ => ⟨iha.shaped.1 wa, ihb.shaped.1 wb, ?_, ?_⟩, fun ⟨wa, wb, h1, h2⟩ => ⟨iha.shaped.2 wa, ihb.shaped.2 wb, ?_, ?_⟩⟩, ?_, fun L => ?_, and_congr iha.scalars ihb.scalars⟩
    · rw [← (key wa wb).1.1, ← (key wa wb).2.1]; exact h1
    · rw [← (key wa wb).1.2.1, ← (key wa wb).2.2.1]; exact h2
    · have := key (iha.shaped.2 wa) (ihb.shaped.2 wb)
      rw [this.1.1, this.2.1]; exact h1
    · have := key (iha.shaped.2 wa) (ihb.shaped.2 wb)
      rw [this.1.2.1, this.2.2.1]; exact h2
    · rintro ⟨wa, wb, h1, h2⟩
      obtain ⟨ka, kb⟩ := key wa wb
      refine ⟨ka.1, ka.2.1, fun i j hi hj => ?_⟩
      have e1 := ka.2.2 i j hi hj
      have e2 := kb.2.2 i j (h1 ▸ hi) (h2 ▸ hj)
      simp only [Expr.den, Mat.map₂, e1, e2]
    · simp only [Expr.leaves, List.mem_append, iha.leaves L, ihb.leaves L]
  | in_compose _ _ iha ihb =>
    have key := fun wa wb => And.intro (iha.same wa) (ihb.same wb)
    refine ⟨⟨fun ⟨wa, wb, h1⟩ => ⟨iha.shaped.1 wa, ihb.shaped.1 wb, ?_⟩, fun ⟨wa, wb, h1⟩ => ⟨iha.shaped.2 wa, ihb.shaped.2 wb, ?_⟩⟩,
      fun ⟨wa, wb, h1⟩ => (iha.same wa).mul' (ihb.same wb) h1, fun L => ?_, and_congr iha.scalars ihb.scalars⟩
    · rw [← (key wa wb).1.2.1, ← (key wa wb).2.1]; exact h1
    · have := key (iha.shaped.2 wa) (ihb.shaped.2 wb)
      rw [this.1.2.1, this.2.1]; exact h1
    · simp only [Expr.leaves, List.mem_append, iha.leaves L, ihb.leaves L]
  | in_hcat _ _ iha ihb =>
    have key := fun wa wb => And.intro (iha.same wa) (ihb.same wb)
    refine ⟨⟨fun ⟨wa, wb, h1⟩ => ⟨iha.shaped.1 wa, ihb.shaped.1 wb, ?_⟩, fun ⟨wa, wb, h1⟩ => ⟨iha.shaped.2 wa, ihb.shaped.2 wb, ?_⟩⟩, ?_, fun L => ?_, and_congr iha.scalars ihb.scalars⟩
    · rw [← (key wa wb).1.1, ← (key wa wb).2.1]; exact h1
    · have := key (iha.shaped.2 wa) (ihb.shaped.2 wb)
      rw [this.1.1, this.2.1]; exact h1
    · rintro ⟨wa, wb, h1⟩
      obtain ⟨ka, kb⟩ := key wa wb
      refine ⟨ka.1, congrArg₂ (· + ·) ka.2.1 kb.2.1, fun i j hi hj => ?_⟩
      have hj : j < _ + _ := hj
      simp only [Expr.den, Mat.hcat, ← ka.2.1]
      split_ifs with h
      · exact ka.2.2 i j hi h
      · exact kb.2.2 i _ (h1 ▸ hi) (by omega)
    · simp only [Expr.leaves, List.mem_append, iha.leaves L, ihb.leaves L]
  | add_comm a b =>
    refine ⟨⟨fun ⟨h1, h2, h3, h4⟩ => ⟨h2, h1, h3.symm, h4.symm⟩, fun ⟨h1, h2, h3, h4⟩ => ⟨h2, h1, h3.symm, h4.symm⟩⟩, fun ⟨_, _, h3, h4⟩ => ⟨h3, h4, fun i j _ _ => add_comm _ _⟩,
      fun L => ?_, and_comm⟩
    simp only [Expr.leaves, List.mem_append, or_comm]
  | add_assoc a b c =>
    refine ⟨⟨fun ⟨⟨h1, h2, h3, h4⟩, h5, h6, h7⟩ => ⟨h1, ⟨h2, h5, h3.symm.trans h6, h4.symm.trans h7⟩, h3, h4⟩, fun ⟨h1, ⟨h2, h5, h6, h7⟩, h3, h4⟩ => ⟨⟨h1, h2, h3, h4⟩, h5, h3.trans h6, h4.trans h7⟩⟩,
      fun _ => ⟨rfl, rfl, fun i j _ _ => add_assoc _ _ _⟩, fun L => ?_, and_assoc⟩
    simp only [Expr.leaves, List.append_assoc]
  | sub_eq a b => exact ⟨Iff.rfl, fun _ => ⟨rfl, rfl, fun i j _ _ => sub_eq_add_neg _ _⟩, fun _ => Iff.rfl, Iff.rfl⟩
  | neg_eq e =>
    exact ⟨Iff.rfl, fun _ => ⟨rfl, rfl, fun i j _ _ => (neg_one_mul _).symm⟩, fun _ => Iff.rfl, ⟨fun h => ⟨fun _ => by simp, h⟩, fun h => h.2⟩⟩
  | scale_add a b k c =>
    refine ⟨Iff.rfl, fun _ => ⟨rfl, rfl, fun i j _ _ => mul_add _ _ _⟩, fun _ => Iff.rfl, ?_⟩
    simp only [Expr.RealScalars]; tauto
  | scale_scale e k l c h =>
    refine ⟨Iff.rfl, fun _ => ⟨rfl, rfl, fun i j _ _ => (mul_assoc _ _ _).symm⟩, fun _ => Iff.rfl, ?_⟩
    exact ⟨fun ⟨_, _, h3⟩ => ⟨fun hc => by rw [star_mul', (h hc).1, (h hc).2], h3⟩, fun ⟨_, h3⟩ => ⟨fun hc => (h hc).1, fun hc => (h hc).2, h3⟩⟩
  | compose_assoc a b c =>
    refine ⟨⟨fun ⟨⟨h1, h2, h3⟩, h4, h5⟩ => ⟨h1, ⟨h2, h4, h5⟩, h3⟩, fun ⟨h1, ⟨h2, h4, h5⟩, h3⟩ => ⟨⟨h1, h2, h3⟩, h4, h5⟩⟩, fun _ => Mat.mul_assoc' _ _ _, fun L => ?_, and_assoc⟩
    simp only [Expr.leaves, List.append_assoc]
  | add_compose a b c =>
    refine ⟨⟨fun ⟨⟨h1, h2, h3, h4⟩, h5, h6⟩ => ⟨⟨h1, h5, h6⟩, ⟨h2, h5, h4.symm.trans h6⟩, h3, rfl⟩, fun ⟨⟨h1, h5, h6⟩, ⟨h2, _, h7⟩, h3, _⟩ => ⟨⟨h1, h2, h3, h6.trans h7.symm⟩, h5, h6⟩⟩, ?_, fun L => ?_, ?_⟩
    · rintro ⟨⟨_, _, _, h4⟩, _, _⟩
      refine ⟨rfl, rfl, fun i j _ _ => ?_⟩
      simp only [Expr.den, Mat.mul, Mat.map₂, add_mul, Finset.sum_add_distrib, ← h4]
    · simp only [Expr.leaves, List.mem_append]; tauto
    · simp only [Expr.RealScalars]; tauto
  | compose_add a b c =>
    refine ⟨⟨fun ⟨h1, ⟨h2, h3, h4, h5⟩, h6⟩ => ⟨⟨h1, h2, h6⟩, ⟨h1, h3, h6.trans h4⟩, rfl, h5⟩, fun ⟨⟨h1, h2, h6⟩, ⟨_, h3, h7⟩, _, h5⟩ => ⟨h1, ⟨h2, h3, h6.symm.trans h7, h5⟩, h6⟩⟩, fun _ => ?_, fun L => ?_, ?_⟩
    · refine ⟨rfl, rfl, fun i j _ _ => ?_⟩
      simp only [Expr.den, Mat.mul, Mat.map₂, mul_add, Finset.sum_add_distrib]
    · simp only [Expr.leaves, List.mem_append]; tauto
    · simp only [Expr.RealScalars]; tauto
  | scale_compose a b k c =>
    refine ⟨Iff.rfl, fun _ => ⟨rfl, rfl, fun i j _ _ => ?_⟩, fun _ => Iff.rfl, and_assoc⟩
    simp only [Expr.den, Mat.mul, Finset.mul_sum, mul_assoc]
  | compose_scale a b k c =>
    refine ⟨Iff.rfl, fun _ => ⟨rfl, rfl, fun i j _ _ => ?_⟩, fun _ => Iff.rfl, ?_⟩
    · simp only [Expr.den, Mat.mul, Finset.mul_sum, mul_left_comm]
    · simp only [Expr.RealScalars]; tauto
  | power_add e m n =>
    refine ⟨⟨fun ⟨h1, h2⟩ => ⟨⟨h1, h2⟩, ⟨h1, h2⟩, ?_⟩, fun ⟨⟨h1, h2⟩, _, _⟩ => ⟨h1, h2⟩⟩, fun ⟨_, h2⟩ => ?_, fun L => ?_, ?_⟩
    · simp only [Expr.den, Mat.pow_rows, Mat.pow_cols _ h2]; exact h2.symm
    · simp only [Expr.den, Int.toNat_natCast]
      exact Mat.pow_add' _ h2 m n
    · simp only [Expr.leaves, List.mem_append, or_self]
    · simp only [Expr.RealScalars, and_self]
  | adjoint_adjoint e => exact ⟨Iff.rfl, fun _ => ⟨rfl, rfl, fun i j _ _ => star_star _⟩, fun _ => Iff.rfl, Iff.rfl⟩
  | adjoint_compose a b =>
    refine ⟨⟨fun ⟨h1, h2, h3⟩ => ⟨h2, h1, h3.symm⟩, fun ⟨h2, h1, h3⟩ => ⟨h1, h2, h3.symm⟩⟩, ?_, fun L => ?_, and_comm⟩
    · rintro ⟨_, _, h3⟩
      refine ⟨rfl, rfl, fun i j _ _ => ?_⟩
      simp only [Expr.den, Mat.mul, Mat.conjTranspose, star_sum, star_mul', h3]
      exact Finset.sum_congr rfl fun k _ => mul_comm _ _
    · simp only [Expr.leaves, List.mem_append, or_comm]
  | adjoint_add a b =>
    exact ⟨⟨fun ⟨h1, h2, h3, h4⟩ => ⟨h1, h2, h4, h3⟩, fun ⟨h1, h2, h4, h3⟩ => ⟨h1, h2, h3, h4⟩⟩, fun _ => ⟨rfl, rfl, fun i j _ _ => star_add _ _⟩, fun _ => Iff.rfl, Iff.rfl⟩
  | adjoint_scale e k c =>
    refine ⟨Iff.rfl, fun _ => ⟨rfl, rfl, fun i j _ _ => star_mul' _ _⟩, fun _ => Iff.rfl, ?_⟩
    simp only [Expr.RealScalars, star_star]
    exact and_congr ⟨fun h hc => (h hc).symm, fun h hc => (h hc).symm⟩ Iff.rfl
  | transpose_transpose e => exact ⟨Iff.rfl, fun _ => Mat.Same.rfl' _, fun _ => Iff.rfl, Iff.rfl⟩
  | transpose_compose a b =>
    refine ⟨⟨fun ⟨h1, h2, h3⟩ => ⟨h2, h1, h3.symm⟩, fun ⟨h2, h1, h3⟩ => ⟨h1, h2, h3.symm⟩⟩, ?_, fun L => ?_, and_comm⟩
    · rintro ⟨_, _, h3⟩
      refine ⟨rfl, rfl, fun i j _ _ => ?_⟩
      simp only [Expr.den, Mat.mul, Mat.transpose, h3]
      exact Finset.sum_congr rfl fun k _ => mul_comm _ _
    · simp only [Expr.leaves, List.mem_append, or_comm]
  | transpose_add a b =>
    exact ⟨⟨fun ⟨h1, h2, h3, h4⟩ => ⟨h1, h2, h4, h3⟩, fun ⟨h1, h2, h4, h3⟩ => ⟨h1, h2, h3, h4⟩⟩, fun _ => Mat.Same.rfl' _, fun _ => Iff.rfl, Iff.rfl⟩
  | transpose_scale e k c => exact ⟨Iff.rfl, fun _ => Mat.Same.rfl' _, fun _ => Iff.rfl, Iff.rfl⟩
  | adjoint_transpose e => exact ⟨Iff.rfl, fun _ => Mat.Same.rfl' _, fun _ => Iff.rfl, Iff.rfl⟩
  | gram_eq e =>
    refine ⟨⟨fun h => ⟨h, h, rfl⟩, fun h => h.1⟩, fun _ => Mat.Same.rfl' _, fun L => ?_, ⟨fun h => ⟨h, h⟩, fun h => h.1⟩⟩
    simp only [Expr.leaves, List.mem_append, or_self]
  | frame_eq e =>
    refine ⟨⟨fun h => ⟨h, h, rfl⟩, fun h => h.1⟩, fun _ => Mat.Same.rfl' _, fun L => ?_, ⟨fun h => ⟨h, h⟩, fun h => h.1⟩⟩
    simp only [Expr.leaves, List.mem_append, or_self]
  | hcat_assoc a b c =>
    refine ⟨⟨fun ⟨⟨h1, h2, h3⟩, h4, h5⟩ => ⟨h1, ⟨h2, h4, h3.symm.trans h5⟩, h3⟩, fun ⟨h1, ⟨h2, h4, h5⟩, h3⟩ => ⟨⟨h1, h2, h3⟩, h4, h3.trans h5⟩⟩, fun _ => ?_, fun L => ?_, and_assoc⟩
    · refine ⟨rfl, Nat.add_assoc _ _ _, fun i j _ _ => ?_⟩
      show (if j < a.den.cols + b.den.cols then (if j < a.den.cols then a.den.entry i j else b.den.entry i (j - a.den.cols)) else c.den.entry i (j - (a.den.cols + b.den.cols))) =
        if j < a.den.cols then a.den.entry i j else if j - a.den.cols < b.den.cols then b.den.entry i (j - a.den.cols) else c.den.entry i (j - a.den.cols - b.den.cols)
      by_cases h1 : j < a.den.cols
      · rw [if_pos (show j < a.den.cols + b.den.cols by omega)]; simp only [if_pos h1]
      · by_cases h2 : j < a.den.cols + b.den.cols
        · simp only [if_neg h1, if_pos h2, if_pos (show j - a.den.cols < b.den.cols by omega)]
        · simp only [if_neg h1, if_neg h2, if_neg (show ¬ j - a.den.cols < b.den.cols by omega), Nat.sub_sub]
    · simp only [Expr.leaves, List.append_assoc]
  | compose_hcat a b c =>
    refine ⟨⟨fun ⟨h1, ⟨h2, h3, h4⟩, h5⟩ => ⟨⟨h1, h2, h5⟩, ⟨h1, h3, h5.trans h4⟩, rfl⟩, fun ⟨⟨h1, h2, h5⟩, ⟨_, h3, h6⟩, _⟩ => ⟨h1, ⟨h2, h3, h5.symm.trans h6⟩, h5⟩⟩, fun _ => ?_, fun L => ?_, ?_⟩
    · refine ⟨rfl, rfl, fun i j _ _ => ?_⟩
      show (∑ k ∈ Finset.range a.den.cols, a.den.entry i k * if j < b.den.cols then b.den.entry k j else c.den.entry k (j - b.den.cols)) =
        if j < b.den.cols then ∑ k ∈ Finset.range a.den.cols, a.den.entry i k * b.den.entry k j else ∑ k ∈ Finset.range a.den.cols, a.den.entry i k * c.den.entry k (j - b.den.cols)
      by_cases h : j < b.den.cols
      · simp only [if_pos h]
      · simp only [if_neg h]
    · simp only [Expr.leaves, List.mem_append]; tauto
    · simp only [Expr.RealScalars]; tauto
  | scale_hcat a b k c =>
    refine ⟨Iff.rfl, fun _ => ⟨rfl, rfl, fun i j _ _ => ?_⟩, fun _ => Iff.rfl, ?_⟩
    · show (k * if j < a.den.cols then a.den.entry i j else b.den.entry i (j - a.den.cols)) = if j < a.den.cols then k * a.den.entry i j else k * b.den.entry i (j - a.den.cols)
      by_cases h : j < a.den.cols
      · simp only [if_pos h]
      · simp only [if_neg h]
    · simp only [Expr.RealScalars]; tauto

/-- **C167** Rewriting an operator expression by the laws of algebra (`A(B+C) = AB + AC`, `(AB)ᴴ = BᴴAᴴ`, `A^(m+n) = A^m A^n`, `A[B C] = [AB AC]`, …), anywhere inside it and any number of times,
does not change what it does: the new expression is accepted exactly if the old one is, and then the two operators have the same shape, return the same result for every input, and so do their adjoints. -/
theorem c167_rewrite (e e' : Expr R) (h : Rewrite e e') (hl : ∀ L ∈ e.leaves, AdjointPair L.shape.1 L.shape.2 L.times L.trans ∧ L.RealSound) (hs : e.RealScalars) :
    (e.eval.isSome ↔ e'.eval.isSome) ∧ ∀ T T', e.eval = some T → e'.eval = some T' →
      T.shape = T'.shape ∧ (∀ x, x.length = T.shape.2 → T.times x = T'.times x) ∧ (∀ y, y.length = T.shape.1 → T.trans y = T'.trans y) := by
  have k := rewrite_kept h
  refine ⟨by rw [c01_rejects_iff_misshaped, c01_rejects_iff_misshaped, k.shaped], fun T T' hT hT' => ?_⟩
  obtain ⟨a1, a2, a3⟩ := c01_algebra_is_matrix_algebra e T hT hl hs
  obtain ⟨b1, b2, b3⟩ := c01_algebra_is_matrix_algebra e' T' hT' (fun L hL => hl L ((k.leaves L).2 hL)) (k.scalars.1 hs)
  obtain ⟨s1, s2, s3⟩ := k.same ((c01_rejects_iff_misshaped e).1 (by rw [hT]; rfl))
  refine ⟨by rw [a1, b1, s1, s2], fun x hx => ?_, fun y hy => ?_⟩
  · rw [a1] at hx
    rw [a2 x hx, b2 x (hx.trans s2), ← s1, ← s2]
    exact List.map_congr_left fun i hi => Finset.sum_congr rfl fun j hj => by rw [s3 i j (List.mem_range.1 hi) (Finset.mem_range.1 hj)]
  · rw [a1] at hy
    rw [a3 y hy, b3 y (hy.trans s1), ← s1, ← s2]
    exact List.map_congr_left fun j hj => Finset.sum_congr rfl fun i hi => by rw [s3 i j (Finset.mem_range.1 hi) (List.mem_range.1 hj)]

/-- `(A (AᴴA + 3 AᴴA))ᴴ` and `AᴴA Aᴴ + (3 AᴴA) Aᴴ`: both are accepted, and one is a rewriting of the other. -/
example : ∃ e e' : Expr ℤ, Rewrite e e' ∧ e.eval.isSome ∧ (∀ L ∈ e.leaves, AdjointPair L.shape.1 L.shape.2 L.times L.trans ∧ L.RealSound) ∧ e.RealScalars ∧
    e = .adjoint (.compose (.leaf demoA) (.add (.gram (.leaf demoA)) (.scale (.gram (.leaf demoA)) 3 false))) ∧
    e' = .add (.compose (.adjoint (.gram (.leaf demoA))) (.adjoint (.leaf demoA))) (.compose (.scale (.adjoint (.gram (.leaf demoA))) (star 3) false) (.adjoint (.leaf demoA))) := by
  refine ⟨_, _, ?_, ?_, ?_, ?_, rfl, rfl⟩
  · exact (Rewrite.adjoint_compose _ _).trans ((Rewrite.in_compose ((Rewrite.adjoint_add _ _).trans (.in_add (.refl _) (.adjoint_scale _ _ _))) (.refl _)).trans (.add_compose _ _ _))
  · rfl
  · intro L hL
    have : L = demoA := by simpa [Expr.leaves] using hL
    exact this ▸ ⟨demoA_good, demoA_real⟩
  · simp [Expr.RealScalars]

end Verif.Lop
