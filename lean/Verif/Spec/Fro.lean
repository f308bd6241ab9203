import Verif.Spec.Pinv

/-! The Frobenius norm, and bidiagonal and tridiagonal matrices. -/
namespace TMV
open Matrix
variable {K : Type} [RCLike K]

/-- The Frobenius norm: the square root of the sum of the squared absolute values of the elements. -/
noncomputable def fro {m n : Type} [Fintype m] [Fintype n] (F : Matrix m n K) : ℝ := Real.sqrt (∑ i, ∑ j, ‖F i j‖ ^ 2)

/-- The upper bidiagonal `N × N` matrix with diagonal `D` and superdiagonal `E`. -/
def bidiag (N : Nat) (D E : Nat → ℝ) : Matrix (Fin N) (Fin N) K := Matrix.of fun i j =>
  if i.1 = j.1 then ((D i : ℝ) : K) else if i.1 + 1 = j.1 then ((E i : ℝ) : K) else 0

end TMV
