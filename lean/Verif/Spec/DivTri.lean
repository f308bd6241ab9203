import Verif.Spec.Lin

/-! What `B %= A` means when `A` and `B` are triangular matrices of the same shape. -/
namespace TMV
variable {K : Type _} [Field K]

/-- The triangular matrix kept in the array `M`: upper or lower, with or without an implicit unit diagonal. -/
def triOf (up u : Bool) (M : Nat → Nat → K) : Nat → Nat → K := if up then upperMat u M else lowerMat u M

/-- `X` is what `B %= A` is to leave of `B`: `A X = B`, and no element of the array changes other than those stored by the triangle. -/
def DivTri (up ua ub : Bool) (N : Nat) (A B X : Nat → Nat → K) : Prop :=
  (∀ i j, i < N → j < N → ∑ k ∈ Finset.range N, triOf up ua A i k * triOf up ub X k j = triOf up ub B i j) ∧
  ∀ i j, ¬ (i < N ∧ j < N ∧ (if up then i ≤ j else j ≤ i) ∧ (ub = true → i ≠ j)) → X i j = B i j

end TMV
