import Mathlib.Algebra.BigOperators.Group.Finset.Basic
import Mathlib.Algebra.Field.Basic

/-! What `y (+)= alpha*A*x` and `C (+)= alpha*A*B` mean. -/
namespace TMV
variable {K : Type _} [Field K]

/-- `y'` is what `y = alpha*T*x` (or `y += alpha*T*x`) makes of `y`, `T` being `N`×`N`; nothing beyond `N` changes. -/
def MulAddV (add : Bool) (α : K) (N : Nat) (T : Nat → Nat → K) (x y y' : Nat → K) : Prop :=
  ∀ i, y' i = if i < N then (if add then y i else 0) + α * ∑ k ∈ Finset.range N, T i k * x k else y i

/-- `C'` is what `C = alpha*T*B` (or `C += alpha*T*B`) makes of the `N`×`nc` matrix `C`, `T` being `N`×`N`; nothing outside changes. -/
def MulAddM (add : Bool) (α : K) (N nc : Nat) (T B C C' : Nat → Nat → K) : Prop :=
  ∀ i c, C' i c = if i < N ∧ c < nc then (if add then C i c else 0) + α * ∑ k ∈ Finset.range N, T i k * B k c else C i c

end TMV
