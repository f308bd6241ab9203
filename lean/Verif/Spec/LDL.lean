import Verif.Spec.Vec
import Verif.Spec.Lin
import Verif.Model.Vec
import Mathlib.Analysis.RCLike.Basic

/-! Specification vocabulary for the Bunch-Kaufman decomposition of symmetric and Hermitian matrices. -/
namespace TMV
variable {K : Type} [RCLike K]

/-- The symmetric (`h = false`) or Hermitian (`h = true`) matrix whose lower triangle is that of `A`. -/
def symFull (h : Bool) (A : Nat → Nat → K) : Nat → Nat → K := fun i j => if j ≤ i then A i j else cj h (A j i)

/-- The tridiagonal matrix `getD()` with diagonal `d` and subdiagonal `x`. -/
def pseudoDiag (h : Bool) (d x : Nat → K) : Nat → Nat → K :=
  fun i j => if i = j then d i else if i = j + 1 then x j else if j = i + 1 then cj h (x i) else 0

/-- `A', xD, P` is a decomposition of the `N × N` matrix `H`: `H = P L D L† P^T`, where `L` is the unit lower triangle of `A'`, `D` has
the diagonal of `A'` and the subdiagonal `xD` and consists of 1×1 and 2×2 blocks, `P` is a list of interchanges. -/
structure IsLDL (h : Bool) (N : Nat) (H A' : Nat → Nat → K) (xD : Nat → K) (P : Nat → Nat) : Prop where
  range : ∀ k, k < N → k ≤ P k ∧ P k < N
  prod : ∀ i j, i < N → j < N → H (swapProd P N 0 i) (swapProd P N 0 j) =
    ∑ k ∈ Finset.range N, ∑ l ∈ Finset.range N,
      lowerMat true A' i k * pseudoDiag h (fun i => A' i i) xD k l * cj h (lowerMat true A' j l)
  block : ∀ k, k + 1 < N → xD k ≠ 0 → A' (k+1) k = 0 ∧ (k + 2 < N → xD (k+1) = 0)
  real : h = true → ∀ k, k < N → RCLike.im (A' k k) = 0

end TMV
