import Verif.Model.Fun
import Mathlib.Algebra.EuclideanDomain.Defs

/-! Integer determinants: src/TMV_IntegerDet.cpp.  The working matrix is `SimpleMatrix<long double>`; here its
elements are exact ring elements and a division that would not be exact is the outcome `none`
(simplification: no overflow or rounding of `long double`). -/
namespace TMV.Bareiss
variable {R : Type _}

/-- `SimpleMatrix::swapRows` (include/tmv/TMV_SimpleMatrix.h:310-317), as an element function. -/
def swapRows (A : Nat → Nat → R) (i1 i2 : Nat) : Nat → Nat → R :=
  if i1 ≠ i2 then fun a b => if a = i1 then A i2 b else if a = i2 then A i1 b else A a b else A

/-- `SimpleMatrix::swapCols` (include/tmv/TMV_SimpleMatrix.h:319-326). -/
def swapCols (A : Nat → Nat → R) (j1 j2 : Nat) : Nat → Nat → R :=
  if j1 ≠ j2 then fun a b => if b = j1 then A a j2 else if b = j2 then A a j1 else A a b else A

/-- `isZero(x)`: `TMV_ABS2(x) < 0.1` (TMV_IntegerDet.cpp:62-63, 85-86); `abs2` is `|x|` resp.
`|re|+|im|`, a natural number. -/
def isZero (abs2 : R → Nat) (x : R) : Bool := abs2 x = 0

/-- `isUnity(x)`: `TMV_ABS2(TMV_ABS2(x)-1.) < 0.1` (TMV_IntegerDet.cpp:59-60, 82-83). -/
def isUnity (abs2 : R → Nat) (x : R) : Bool := abs2 x = 1

/-- `while (imin < N && isZero(A(imin,jmin))) ++imin` (TMV_IntegerDet.cpp:189); fuel `N - imin`. -/
def findRow (abs2 : R → Nat) (A : Nat → Nat → R) (jmin : Nat) : Nat → Nat → Nat
  | 0, imin => imin
  | n+1, imin => if isZero abs2 (A imin jmin) then findRow abs2 A jmin n (imin+1) else imin

/-- Inner search loop over `i` (TMV_IntegerDet.cpp:193-199). -/
def searchCol (abs2 : R → Nat) (A : Nat → Nat → R) (j : Nat) : Nat → Nat → Nat × Nat → Nat × Nat
  | 0, _, cur => cur
  | n+1, i, cur =>
      if abs2 (A i j) < abs2 (A cur.1 cur.2) ∧ ¬ isZero abs2 (A i j) then
        if isUnity abs2 (A i j) then (i, j) else searchCol abs2 A j n (i+1) (i, j)
      else searchCol abs2 A j n (i+1) cur

/-- Outer search loop over `j` (TMV_IntegerDet.cpp:191-200); rows `k..k+nr`. -/
def search (abs2 : R → Nat) (A : Nat → Nat → R) (k nr : Nat) : Nat → Nat → Nat × Nat → Nat × Nat
  | 0, _, cur => cur
  | n+1, j, cur =>
      if isUnity abs2 (A cur.1 cur.2) then cur
      else search abs2 A k nr n (j+1) (searchCol abs2 A j nr k cur)

/-- Exact quotient; `none` when the division would leave a remainder (or divide by 0). -/
def exactDiv [EuclideanDomain R] [DecidableEq R] (a b : R) : Option R :=
  if b ≠ 0 ∧ a % b = 0 then some (a / b) else none

/-- The elimination step (TMV_IntegerDet.cpp:216-224). -/
def elim [EuclideanDomain R] [DecidableEq R] (N k : Nat) (A : Nat → Nat → R) : Option (Nat → Nat → R) := do
  let A ← updBlock (fun A i j => some (A k k * A i j - A i k * A k j)) (k+1) (N-(k+1)) (k+1) (N-(k+1)) A
  if k > 0 then
    updBlock (fun A i j => exactDiv (A i j) (A (k-1) (k-1))) (k+1) (N-(k+1)) (k+1) (N-(k+1)) A
  else some A

/-- The loop `for (k=0; k<N-1; ++k)` with `n` iterations left and what follows it
(TMV_IntegerDet.cpp:182-229). -/
def loop [EuclideanDomain R] [DecidableEq R] (abs2 : R → Nat) (N : Nat) :
    Nat → Nat → (Nat → Nat → R) → R → Option R
  | 0, _, A, det => some (det * A (N-1) (N-1))
  | n+1, k, A, det =>
      let imin := findRow abs2 A k (N-k) k
      if imin = N then some 0
      else
        let cur := search abs2 A k (N-k) (N-k) k (imin, k)
        if isZero abs2 (A cur.1 cur.2) then some 0
        else
          let det := if cur.1 ≠ k then det * (-1) else det
          let A := swapRows A cur.1 k
          let det := if cur.2 ≠ k then det * (-1) else det
          let A := swapCols A cur.2 k
          (elim N k A).bind fun A => loop abs2 N n (k+1) A det

/-- `Bareiss_1x1_IntegerDet` (TMV_IntegerDet.cpp:90-230). -/
def bareiss [EuclideanDomain R] [DecidableEq R] (abs2 : R → Nat) (N : Nat) (A : Nat → Nat → R) : Option R :=
  loop abs2 N (N-1) 0 A 1

/-- `IntegerDet` (TMV_IntegerDet.cpp:233-269). -/
def integerDet [EuclideanDomain R] [DecidableEq R] (abs2 : R → Nat) (N : Nat) (A : Nat → Nat → R) : Option R :=
  if N = 0 then some 1
  else if N = 1 then some (A 0 0)
  else if N = 2 then some (A 0 0 * A 1 1 - A 0 1 * A 1 0)
  else if N = 3 then some (
    A 0 0 * (A 1 1 * A 2 2 - A 1 2 * A 2 1) - A 0 1 * (A 1 0 * A 2 2 - A 1 2 * A 2 0) +
    A 0 2 * (A 1 0 * A 2 1 - A 1 1 * A 2 0))
  else bareiss abs2 N A

end TMV.Bareiss
