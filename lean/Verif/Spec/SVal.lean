import Verif.Spec.Fro

/-! Specification vocabulary for computed singular value decompositions. -/
namespace TMV
open Matrix
variable {K : Type} [RCLike K]

/-- `U diag(S) V` is a singular value decomposition of a matrix that differs from `A` by at most `δ`: orthonormal columns of `U`,
orthonormal rows of `V`, singular values that are nonnegative and in descending order. -/
structure NearSVD {M N : Nat} (A : Matrix (Fin M) (Fin N) K) (δ : ℝ) (U : Matrix (Fin M) (Fin N) K) (S : Nat → ℝ) (V : Matrix (Fin N) (Fin N) K) : Prop where
  uu : Uᴴ * U = 1
  vv : V * Vᴴ = 1
  nonneg : ∀ i, i < N → 0 ≤ S i
  desc : ∀ i j, i ≤ j → j < N → S j ≤ S i
  prod : fro (U * diagonal (fun i : Fin N => ((S i : ℝ) : K)) * V - A) ≤ δ

end TMV
