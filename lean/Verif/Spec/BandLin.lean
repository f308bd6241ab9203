import Mathlib.Algebra.Field.Basic

/-! Specification vocabulary: the matrix meant by a band matrix. -/
namespace TMV
variable {K : Type _} [Zero K]

/-- The matrix meant by a band matrix with `lo` subdiagonals and `hi` superdiagonals: zeros outside the band,
whatever the memory there holds. -/
def bandMat (lo hi : Nat) (A : Nat → Nat → K) : Nat → Nat → K :=
  fun i j => if i ≤ j + lo ∧ j ≤ i + hi then A i j else 0

end TMV
