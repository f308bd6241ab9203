import Verif.Spec.LDL

/-! Specification vocabulary for the decomposition of tridiagonal symmetric and Hermitian matrices. -/
namespace TMV
variable {K : Type} [RCLike K]

/-- The unit lower bidiagonal matrix whose subdiagonal is that of `B`. -/
def unitBi (B : Nat → Nat → K) : Nat → Nat → K := fun i k => if i = k then 1 else if i = k + 1 then B i k else 0

/-- `B` holds the decomposition `H = L D L†` of the `N × N` matrix `H`: `L` is unit lower bidiagonal with the subdiagonal of
`B`, `D` is the diagonal of `B` (`†`: the transpose, or the adjoint for `h`). -/
def IsBiLDL (h : Bool) (N : Nat) (H B : Nat → Nat → K) : Prop :=
  ∀ i j, i < N → j < N → ∑ k ∈ Finset.range N, unitBi B i k * B k k * cj h (unitBi B j k) = H i j

end TMV
