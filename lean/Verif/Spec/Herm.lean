import Mathlib.Analysis.RCLike.Basic

/-! Specification vocabulary for Hermitian matrices given by their lower triangle. -/
namespace TMV
variable {K : Type} [RCLike K]

/-- The Hermitian matrix whose lower triangle (with the diagonal) is that of `A`. -/
def hermMat (A : Nat → Nat → K) : Nat → Nat → K := fun i j => if j ≤ i then A i j else star (A j i)

/-- The number `xᴴ H x` (leading `N × N` part). -/
noncomputable def quad (N : Nat) (H : Nat → Nat → K) (x : Nat → K) : K :=
  ∑ i ∈ Finset.range N, ∑ j ∈ Finset.range N, star (x i) * H i j * x j

/-- Positive definite: `xᴴ H x > 0` for every vector `x ≠ 0`. -/
def PosDef (N : Nat) (H : Nat → Nat → K) : Prop :=
  ∀ x : Nat → K, (∃ i, i < N ∧ x i ≠ 0) → 0 < RCLike.re (quad N H x)

/-- `L` (lower triangle) is the Cholesky factor: `L Lᴴ = H`, with a real positive diagonal. -/
def CholeskyOf (N : Nat) (H L : Nat → Nat → K) : Prop :=
  (∀ i j, i < N → j < N → ∑ k ∈ Finset.range N,
    (if k ≤ i then L i k else 0) * star (if k ≤ j then L j k else 0) = H i j) ∧
  ∀ i, i < N → RCLike.im (L i i) = 0 ∧ 0 < RCLike.re (L i i)

end TMV
