import Verif.Spec.BandLin
import Mathlib.Algebra.BigOperators.Group.Finset.Basic

/-! What `C (+)= alpha*A*B` means for a band matrix `C`. -/
namespace TMV
variable {K : Type _} [Field K]

/-- `C'` is what `C = alpha*T*B` (or `C += alpha*T*B`) makes of the `M`×`N` band matrix `C` with `clo` sub- and `chi`
superdiagonals, `T` being `M`×`X`: every element in the band gets the element of the product, nothing else changes. -/
def MulAddBR (add : Bool) (α : K) (M X N clo chi : Nat) (T B C C' : Nat → Nat → K) : Prop :=
  ∀ i j, C' i j = if i < M ∧ j < N ∧ i ≤ j + clo ∧ j ≤ i + chi then
    (if add then C i j else 0) + α * ∑ k ∈ Finset.range X, T i k * B k j else C i j

end TMV
