import Verif.Spec.Fro

/-! Specification vocabulary for computed eigenvalue decompositions. -/
namespace TMV
open Matrix
variable {K : Type} [RCLike K]

/-- The real symmetric tridiagonal matrix with diagonal `D` and off-diagonal `E`. -/
def tridiag (N : Nat) (D E : Nat → ℝ) : Matrix (Fin N) (Fin N) K :=
  of fun i j => ((if (i : Nat) = j then D i else if (i : Nat) + 1 = j then E i else if (j : Nat) + 1 = i then E j else 0 : ℝ) : K)

/-- The symmetric tridiagonal matrix with diagonal `D`, which may be complex, and real off-diagonal `E`. -/
def tridiagK (N : Nat) (D : Nat → K) (E : Nat → ℝ) : Matrix (Fin N) (Fin N) K :=
  of fun i j => if (i : Nat) = j then D i else if (i : Nat) + 1 = j then ((E i : ℝ) : K) else if (j : Nat) + 1 = i then ((E j : ℝ) : K) else 0

/-- The adjoint for a Hermitian (`h`), the transpose for a symmetric matrix. -/
def adjOrT (h : Bool) {N : Nat} (U : Matrix (Fin N) (Fin N) K) : Matrix (Fin N) (Fin N) K := if h then Uᴴ else Uᵀ

/-- The elements of a Hermitian matrix of which the upper (`up`) or lower triangle is stored as `A`, or of the conjugated view (`ac`) of it. -/
def hermView (up ac : Bool) (A : Nat → Nat → K) (i j : Nat) : K :=
  let x := if up = true then (if i ≤ j then A i j else star (A j i)) else (if j ≤ i then A i j else star (A j i))
  if ac = true then star x else x

/-- `U diag(S) U†` is an eigenvalue decomposition of a matrix that differs from `A` by at most `δ`, with real eigenvalues in descending order of
their absolute values and orthonormal eigenvectors, the columns of `U`. -/
structure NearEig {N : Nat} (A : Matrix (Fin N) (Fin N) K) (δ : ℝ) (U : Matrix (Fin N) (Fin N) K) (S : Nat → ℝ) : Prop where
  uu : Uᴴ * U = 1
  desc : ∀ i j, i ≤ j → j < N → |S j| ≤ |S i|
  prod : fro (U * diagonal (fun i : Fin N => ((S i : ℝ) : K)) * Uᴴ - A) ≤ δ

/-- The same with the eigenvalues in ascending order. -/
structure NearEigUp {N : Nat} (A : Matrix (Fin N) (Fin N) K) (δ : ℝ) (U : Matrix (Fin N) (Fin N) K) (S : Nat → ℝ) : Prop where
  uu : Uᴴ * U = 1
  asc : ∀ i j, i ≤ j → j < N → S i ≤ S j
  prod : fro (U * diagonal (fun i : Fin N => ((S i : ℝ) : K)) * Uᴴ - A) ≤ δ

/-- The real part of `x† A x`. -/
noncomputable def qform {N : Nat} (A : Matrix (Fin N) (Fin N) K) (x : Fin N → K) : ℝ := RCLike.re (star x ⬝ᵥ A *ᵥ x)

/-- A Hermitian matrix with `x† A x ≥ 0` for all `x`. -/
def PosSemi {N : Nat} (A : Matrix (Fin N) (Fin N) K) : Prop := Aᴴ = A ∧ ∀ x, 0 ≤ qform A x

end TMV
