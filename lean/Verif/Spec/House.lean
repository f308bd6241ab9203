import Mathlib.LinearAlgebra.Matrix.ConjTranspose
import Mathlib.LinearAlgebra.Matrix.Determinant.Basic
import Mathlib.Analysis.RCLike.Basic

/-! Specification vocabulary for Householder reflections and the QR decomposition. -/
namespace TMV.QR
variable {K : Type} [RCLike K]

/-- The vector `(x0, x(0), ..., x(n-1))`. -/
def consVec (n : Nat) (x0 : K) (x : Nat → K) : Fin (n+1) → K := fun i => if i.val = 0 then x0 else x (i.val - 1)

/-- The matrix `I - beta v vᴴ`. -/
def houseMat {m : Nat} (beta : K) (v : Fin m → K) : Matrix (Fin m) (Fin m) K :=
  1 - beta • Matrix.of fun i j => v i * star (v j)

end TMV.QR
