import Verif.Lop.AlgebraLemmas

set_option autoImplicit false

/-!
# Specification of the operator algebra: expressions denote matrices (C01, C12, C21)
-/
set_option linter.unusedSectionVars false
namespace Verif.Lop
variable {R : Type*} [CommRing R] [StarRing R]

/-! ## Specification: operator expressions denote matrices -/

/-- A matrix with `rows × cols` entries (entries outside the range are irrelevant). -/
structure Mat (R : Type*) where
  rows : ℕ
  cols : ℕ
  entry : ℕ → ℕ → R

/-- Textbook matrix algebra. -/
def Mat.mul (A B : Mat R) : Mat R :=
  ⟨A.rows, B.cols, fun i j => ∑ k ∈ Finset.range A.cols, A.entry i k * B.entry k j⟩
def Mat.one (n : ℕ) : Mat R := ⟨n, n, fun i j => if i = j then 1 else 0⟩
def Mat.conjTranspose (A : Mat R) : Mat R := ⟨A.cols, A.rows, fun i j => star (A.entry j i)⟩
def Mat.transpose (A : Mat R) : Mat R := ⟨A.cols, A.rows, fun i j => A.entry j i⟩
/-- `A^k = A ⋯ A` (`k` factors). -/
def Mat.pow (A : Mat R) : ℕ → Mat R
  | 0 => Mat.one A.rows
  | k + 1 => A.mul (A.pow k)
def Mat.map₂ (f : R → R → R) (A B : Mat R) : Mat R := ⟨A.rows, A.cols, fun i j => f (A.entry i j) (B.entry i j)⟩
/-- `[A B]` side by side. -/
def Mat.hcat (A B : Mat R) : Mat R :=
  ⟨A.rows, A.cols + B.cols, fun i j => if j < A.cols then A.entry i j else B.entry i (j - A.cols)⟩

/-- The matrix of an operator: column `j` is the image of the `j`-th unit vector. -/
def Op.mat (T : Op R) : Mat R :=
  ⟨T.shape.1, T.shape.2, entryOf T.shape.2 T.times⟩

/-- What an operator expression means in matrix algebra. -/
def Expr.den : Expr R → Mat R
  | .leaf T => T.mat
  | .neg e => ⟨e.den.rows, e.den.cols, fun i j => - e.den.entry i j⟩
  | .scale e a _ => ⟨e.den.rows, e.den.cols, fun i j => a * e.den.entry i j⟩
  | .adjoint e => e.den.conjTranspose
  | .transpose e => e.den.transpose
  | .power e p => e.den.pow p.toNat
  | .add a b => a.den.map₂ (· + ·) b.den
  | .subtract a b => a.den.map₂ (· - ·) b.den
  | .compose a b => a.den.mul b.den
  | .hcat a b => a.den.hcat b.den
  | .gram e => e.den.conjTranspose.mul e.den
  | .frame e => e.den.mul e.den.conjTranspose

/-- Equality of matrices: same shape and same entries inside the shape. -/
def Mat.Same (A B : Mat R) : Prop :=
  A.rows = B.rows ∧ A.cols = B.cols ∧ ∀ i j, i < A.rows → j < A.cols → A.entry i j = B.entry i j

/-- The `real` flag of an operator tells the truth: if set, its matrix is fixed by conjugation. -/
def Op.RealSound (T : Op R) : Prop :=
  T.real = true → ∀ i j, i < T.shape.1 → j < T.shape.2 → star (T.mat.entry i j) = T.mat.entry i j

/-- Every scalar that is not passed as a Python `complex` is real. -/
def Expr.RealScalars : Expr R → Prop
  | .leaf _ => True
  | .scale e a c => (c = false → star a = a) ∧ e.RealScalars
  | .neg e | .adjoint e | .transpose e | .power e _ | .gram e | .frame e => e.RealScalars
  | .add a b | .subtract a b | .compose a b | .hcat a b => a.RealScalars ∧ b.RealScalars

end Verif.Lop
