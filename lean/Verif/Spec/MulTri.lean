import Mathlib.Algebra.BigOperators.Group.Finset.Basic
import Mathlib.Algebra.Field.Basic

/-! What `C (+)= alpha*A*B` means when `C` is a triangular matrix. -/
namespace TMV
variable {K : Type _} [Field K]

/-- `C'` is what `C = alpha*A*B` (or `C += alpha*A*B`) makes of the elements of the triangular `N`×`N` matrix `C`; `up` tells whether it is
upper or lower triangular; nothing outside the triangle changes. -/
def MulAddTri (up add : Bool) (α : K) (N : Nat) (A B C C' : Nat → Nat → K) : Prop :=
  ∀ i j, C' i j = if (if up then i ≤ j ∧ j < N else j ≤ i ∧ i < N) then
    (if add then C i j else 0) + α * ∑ k ∈ Finset.range N, A i k * B k j else C i j

/-- The upper (lower) triangular matrix with the elements `e` in that triangle. -/
def triMat (up : Bool) (e : Nat → Nat → K) (i j : Nat) : K := if (if up then i ≤ j else j ≤ i) then e i j else 0

end TMV
