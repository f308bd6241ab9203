import Verif.Spec.BandLin
import Mathlib.Algebra.BigOperators.Group.Finset.Basic

/-! What `y (+)= alpha*A*x` and `C (+)= alpha*A*B` mean for rectangular matrices. -/
namespace TMV
variable {K : Type _} [Field K]

/-- `y'` is what `y = alpha*T*x` (or `y += alpha*T*x`) makes of `y`, `T` being `M`×`N`; nothing beyond `M` changes. -/
def MulAddVR (add : Bool) (α : K) (M N : Nat) (T : Nat → Nat → K) (x y y' : Nat → K) : Prop :=
  ∀ i, y' i = if i < M then (if add then y i else 0) + α * ∑ k ∈ Finset.range N, T i k * x k else y i

/-- `C'` is what `C = alpha*T*B` (or `C += alpha*T*B`) makes of the `M`×`nc` matrix `C`, `T` being `M`×`N`; nothing outside
changes. -/
def MulAddMR (add : Bool) (α : K) (M N nc : Nat) (T B C C' : Nat → Nat → K) : Prop :=
  ∀ i c, C' i c = if i < M ∧ c < nc then (if add then C i c else 0) + α * ∑ k ∈ Finset.range N, T i k * B k c else C i c

end TMV
