import Mathlib.LinearAlgebra.Matrix.ConjTranspose
import Mathlib.LinearAlgebra.Matrix.NonsingularInverse
import Mathlib.Analysis.RCLike.Basic

/-! Specification vocabulary for singular value decompositions and pseudo-inverses. -/
namespace TMV
open Matrix
variable {K : Type} [RCLike K]

/-- The `M × N` matrix with elements `A i j`. -/
def matOf (M N : Nat) (A : Nat → Nat → K) : Matrix (Fin M) (Fin N) K := Matrix.of fun i j => A i j

/-- The four Penrose conditions: `X` is the (Moore-Penrose) pseudo-inverse of `A`. -/
structure IsPinv {m n : Type} [Fintype m] [Fintype n] (A : Matrix m n K) (X : Matrix n m K) : Prop where
  axa : A * X * A = A
  xax : X * A * X = X
  ax : (A * X)ᴴ = A * X
  xa : (X * A)ᴴ = X * A

/-- The square of the Euclidean norm. -/
def norm2sq {n : Type} [Fintype n] (x : n → K) : ℝ := ∑ i, ‖x i‖ ^ 2

/-- `c` is the norm of the linear map `A` belonging to the Euclidean norms. -/
def IsOpNorm {m n : Type} [Fintype m] [Fintype n] (A : Matrix m n K) (c : ℝ) : Prop :=
  0 ≤ c ∧ (∀ x, norm2sq (A *ᵥ x) ≤ c ^ 2 * norm2sq x) ∧ ∃ x, norm2sq x = 1 ∧ norm2sq (A *ᵥ x) = c ^ 2

/-- `A = U diag(S) Vt` with orthonormal columns of `U` and orthonormal rows of `Vt`, `A` being `M × N` with `N ≤ M`. -/
structure IsUSV (M N : Nat) (A U : Nat → Nat → K) (S : Nat → ℝ) (Vt : Nat → Nat → K) : Prop where
  uu : (matOf M N U)ᴴ * matOf M N U = 1
  vv : matOf N N Vt * (matOf N N Vt)ᴴ = 1
  prod : matOf M N A = matOf M N U * diagonal (fun i : Fin N => ((S i : ℝ) : K)) * matOf N N Vt

/-- A singular value decomposition: the singular values are nonnegative and in descending order. -/
structure IsSVD (M N : Nat) (A U : Nat → Nat → K) (S : Nat → ℝ) (Vt : Nat → Nat → K) : Prop extends IsUSV M N A U S Vt where
  nonneg : ∀ i, i < N → 0 ≤ S i
  desc : ∀ i j, i ≤ j → j < N → S j ≤ S i

end TMV
