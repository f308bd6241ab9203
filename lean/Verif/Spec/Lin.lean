import Mathlib.Algebra.Field.Basic
import Mathlib.Algebra.BigOperators.Group.Finset.Basic

/-! Specification vocabulary of the exact linear-algebra layer. -/
namespace TMV
variable {K : Type _} [Field K]

/-- The matrix meant by `A.upperTri()` (`ua`: `UnitDiag`): zeros below the diagonal, ones on it if unit. -/
def upperMat (ua : Bool) (A : Nat → Nat → K) : Nat → Nat → K :=
  fun i k => if i < k then A i k else if i = k then (if ua then 1 else A i i) else 0

/-- The matrix meant by `A.lowerTri()`. -/
def lowerMat (ua : Bool) (A : Nat → Nat → K) : Nat → Nat → K :=
  fun i k => if k < i then A i k else if i = k then (if ua then 1 else A i i) else 0

/-- `x` solves `T x = b` (size `N`), and nothing beyond index `N` was touched. -/
def SolV (N : Nat) (T : Nat → Nat → K) (x b : Nat → K) : Prop :=
  (∀ i, i < N → ∑ k ∈ Finset.range N, T i k * x k = b i) ∧ ∀ i, N ≤ i → x i = b i

/-- `X` solves `T X = B` (`T` is `N`×`N`, `B` has `nc` columns), nothing outside was touched. -/
def SolM (N nc : Nat) (T X B : Nat → Nat → K) : Prop :=
  (∀ i c, i < N → c < nc → ∑ k ∈ Finset.range N, T i k * X k c = B i c) ∧
  ∀ i c, ¬ (i < N ∧ c < nc) → X i c = B i c

/-- Matrix product of the leading `M`×`k` and `k`×`N` parts. -/
def mulF (k : Nat) (A B : Nat → Nat → K) : Nat → Nat → K :=
  fun i j => ∑ l ∈ Finset.range k, A i l * B l j

end TMV
