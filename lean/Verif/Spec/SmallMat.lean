import Mathlib.LinearAlgebra.Matrix.Defs
import Mathlib.Data.Fintype.Basic
import Mathlib.Data.Matrix.Mul
import Mathlib.Analysis.RCLike.Basic

/-! Specification vocabulary for `SmallMatrix`. -/
namespace TMV

/-- The matrix held by a `SmallMatrix<T,M,N,S>` whose `M*N` elements are `m[0], m[1], ...`: row by row if it is `RowMajor` (`rm`),
column by column otherwise. -/
def smat {K : Type} (rm : Bool) (M N : Nat) (m : Nat → K) : Matrix (Fin M) (Fin N) K :=
  Matrix.of fun i j => m (if rm then i.val*N+j.val else j.val*M+i.val)

/-- The vector held by a `SmallVector<T,N>`. -/
def svec {K : Type} (N : Nat) (v : Nat → K) : Fin N → K := fun i => v i

/-- Nothing was written outside of an array of `n` elements. -/
def SameOutside {K : Type} (n : Nat) (m' m : Nat → K) : Prop := ∀ k, n ≤ k → m' k = m k

/-- `A` does not have full column rank. -/
def RankDef {K : Type} [RCLike K] {M N : Nat} (A : Matrix (Fin M) (Fin N) K) : Prop := ∃ x : Fin N → K, x ≠ 0 ∧ A.mulVec x = 0

/-- A change of `A` below the underflow threshold `tiny` makes it lose full column rank. -/
def NearDef {K : Type} [RCLike K] (tiny : ℝ) {M N : Nat} (A : Matrix (Fin M) (Fin N) K) : Prop :=
  ∃ E : Matrix (Fin M) (Fin N) K, (∀ c, ∑ i, ‖E i c‖ ^ 2 ≤ M * tiny ^ 2) ∧ RankDef (A + E)

end TMV
