import Verif.Model.SymBandSum
import Mathlib.Algebra.Field.Basic
import Mathlib.Algebra.Star.Basic
import Mathlib.Algebra.BigOperators.Group.Finset.Defs
import Mathlib.Data.Finset.Range

/-! Sums, products and quotients of a symmetric or Hermitian matrix with a diagonal, triangular, band or symmetric band matrix, put into a
full or symmetric matrix (include/tmv/TMV_DiagSymArith.h, TMV_TriSymArith.h, TMV_BandSymArith.h, TMV_SymSymBandArith.h), and a symmetric
band matrix added to a band matrix (include/tmv/TMV_BandSymBandArith.h), on the square array that holds the destination `C` (`m0` in the
code).  Exact arithmetic, one element type; conjugations are relative to the view `C`.  Operands are apart from `C` or kept in its array.
The sums and products that these functions call for once the operands are known (C42, C104, C123, C128 and others) are taken as the
mathematical ones. -/
namespace TMV.MixSym
open SymBandSum
variable {K : Type _}

/-- A symmetric (`h = false`) or Hermitian matrix: apart, or one triangle of `C`'s array, conjugated or not. -/
structure Sy (K : Type _) where
  h : Bool
  src : Option (Bool × Bool)
  A : Nat → Nat → K

/-- The element `(i,j)` of a symmetric matrix when the array of `C` holds `X` (include/tmv/TMV_SymMatrix.h, `cref`); `src` is `none`, or
tells whether the lower triangle is the one kept and whether the view is conjugated. -/
def Sy.rd [Star K] (S : Sy K) (X : Nat → Nat → K) (i j : Nat) : K :=
  match S.src with
  | none => S.A i j
  | some (lower, c) => if (if lower then j ≤ i else i ≤ j) then cj c (X i j) else cj (c != S.h) (X j i)

/-- The other operand: apart; a diagonal matrix whose diagonal is kept at the places `(p i, q i)` of `C`'s array; or a triangle, a band
or one side of a symmetric band of `C`'s array. -/
inductive Op (K : Type _) where
  | apart (A : Nat → Nat → K)
  | diagOf (p q : Nat → Nat) (c : Bool)
  | triC (up unit t c : Bool)
  | bandC (lo hi : Nat) (t c : Bool)
  | symBandC (k : Nat) (lower h c : Bool)

/-- The element `(i,j)` (include/tmv/TMV_DiagMatrix.h:113-126, TMV_TriMatrix.h:1206-1217, TMV_BandMatrix.h and
TMV_SymBandMatrix.h, `cref`). -/
def Op.rd [Star K] [Zero K] [One K] : Op K → (Nat → Nat → K) → Nat → Nat → K
  | .apart A, _, i, j => A i j
  | .diagOf p q c, X, i, j => if i = j then cj c (X (p i) (q i)) else 0
  | .triC up unit t c, X, i, j =>
    if unit = true ∧ i = j then 1 else if (if up then i ≤ j else j ≤ i) then cj c (if t then X j i else X i j) else 0
  | .bandC lo hi t c, X, i, j => if i ≤ j + lo ∧ j ≤ i + hi then cj c (if t then X j i else X i j) else 0
  | .symBandC k lower h c, X, i, j => el (.inC lower h c) k X i j

/-- `SameStorage` with `C`: only the first elements are compared (include/tmv/TMV_Base.h:243-252). -/
def Op.ss : Op K → Bool
  | .apart _ => false
  | .diagOf p q _ => p 0 == 0 && q 0 == 0
  | .triC .. => true
  | .bandC .. => true
  | .symBandC .. => true

/-- `C = S`, `assignToM` (include/tmv/TMV_SymMatrix.h:442-467): for a Hermitian `S` the imaginary parts of the diagonal of `C` are set to 0,
the upper triangle is assigned, and the lower triangle is made from it. -/
def copyS [Star K] (re : K → K) (S : Sy K) (N : Nat) (X : Nat → Nat → K) : Nat → Nat → K :=
  let X0 : Nat → Nat → K := if S.h then fun i j => if i = j ∧ i < N then re (X i j) else X i j else X
  let X1 : Nat → Nat → K := fun i j => if i ≤ j ∧ j < N then S.rd X0 i j else X0 i j
  fun i j => if j < i ∧ i < N then cj S.h (X1 j i) else X1 i j

/-- `S` into a symmetric matrix kept in the upper triangle of the array, `assignToS` (include/tmv/TMV_SymMatrix.h:469-480). -/
def copySS [Star K] (S : Sy K) (N : Nat) (X : Nat → Nat → K) : Nat → Nat → K := fun i j =>
  if i ≤ j ∧ j < N then S.rd X i j else X i j

variable [Field K] [StarRing K]

/-- `MultXM(x,C)`. -/
def scale (x : K) (N : Nat) (X : Nat → Nat → K) : Nat → Nat → K := fun i j => if i < N ∧ j < N then x * X i j else X i j

/-- `MultXM(x,C)` for a symmetric `C` kept in the upper triangle (include/tmv/TMV_SymMatrixArithFunc.h:44-46). -/
def scaleS (x : K) (N : Nat) (X : Nat → Nat → K) : Nat → Nat → K := fun i j => if i ≤ j ∧ j < N then x * X i j else X i j

/-- `AddMM(x,A,C)`, or `AddVV` of the diagonals; `E` are the elements of `A`, zeros included. -/
def addE (x : K) (E : Nat → Nat → K) (N : Nat) (X : Nat → Nat → K) : Nat → Nat → K := fun i j =>
  if i < N ∧ j < N then X i j + x * E i j else X i j

/-- `C = x1*A + x2*S` for a triangular or band `A` (`SumUS`, `SumLS`: TMV_TriSymArith.h:52-79, 104-131; `SumBS`: TMV_BandSymArith.h:55-82;
`SumsBS`: TMV_SymSymBandArith.h:53-85), and for a diagonal `A` and a real `C` (`SumDS`: TMV_DiagSymArith.h:51-64). -/
def sumOS (re : K → K) (x1 : K) (A : Op K) (x2 : K) (S : Sy K) (N : Nat) (X : Nat → Nat → K) : Nat → Nat → K :=
  if A.ss then
    let T := A.rd X
    addE x1 T N (scale x2 N (copyS re S N X))
  else
    let Y := scale x2 N (copyS re S N X)
    addE x1 (A.rd Y) N Y

/-- `C = x1*A + x2*S` for a diagonal `A` and a complex `C` (`SumDS::assignToM`, TMV_DiagSymArith.h:65-77): `m1x` is made, but `m1` is
added. -/
def sumDSc (re : K → K) (x1 : K) (A : Op K) (x2 : K) (S : Sy K) (N : Nat) (X : Nat → Nat → K) : Nat → Nat → K :=
  if A.ss then
    let Y := scale x2 N (copyS re S N X)
    addE x1 (A.rd Y) N Y
  else
    let Y := scale x2 N (copyS re S N X)
    addE x1 (A.rd Y) N Y

/-- `C = x1*A + x2*S` for a diagonal `A` into a symmetric `C` kept in the upper triangle of the array (`SumDS::assignToS`,
TMV_DiagSymArith.h:78-111).  `none` = a failed `TMVAssert` (`re x = x` says that `x` is real). -/
def sumDSS [DecidableEq K] (re : K → K) (x1 : K) (A : Op K) (x2 : K) (S : Sy K) (N : Nat) (X : Nat → Nat → K) : Option (Nat → Nat → K) :=
  if S.h = true ∧ (re x1 ≠ x1 ∨ re x2 ≠ x2) then none
  else if A.ss then
    let T := A.rd X
    let Y := scaleS x2 N (copySS S N X)
    some fun i j => if i = j ∧ i < N then Y i j + x1 * T i j else Y i j
  else
    let Y := scaleS x2 N (copySS S N X)
    some fun i j => if i = j ∧ i < N then Y i j + x1 * A.rd Y i j else Y i j

/-- `MultMM<false>(1,A,C,C)`; `E` are the elements of `A`. -/
def mulL (E : Nat → Nat → K) (N : Nat) (Y : Nat → Nat → K) : Nat → Nat → K := fun i j =>
  if i < N ∧ j < N then ∑ k ∈ Finset.range N, E i k * Y k j else Y i j

/-- `MultMM<false>(1,C,A,C)`. -/
def mulR (E : Nat → Nat → K) (N : Nat) (Y : Nat → Nat → K) : Nat → Nat → K := fun i j =>
  if i < N ∧ j < N then ∑ k ∈ Finset.range N, Y i k * E k j else Y i j

/-- `C = x*A*S` for a diagonal or triangular `A` (`ProdDS`: TMV_DiagSymArith.h:225-256; `ProdUS`, `ProdLS`: TMV_TriSymArith.h:180-206,
280-306).  For an `A` kept in `C` away from its first element the elements are taken as they are when `MultMM` is called (the code reads
them during the product). -/
def prodOS (re : K → K) (x : K) (A : Op K) (S : Sy K) (N : Nat) (X : Nat → Nat → K) : Nat → Nat → K :=
  if A.ss then
    let T := A.rd X
    mulL T N (scale x N (copyS re S N X))
  else
    let Y := scale x N (copyS re S N X)
    mulL (A.rd Y) N Y

/-- `C = x*S*A` for a diagonal or triangular `A` (`ProdSD`: TMV_DiagSymArith.h:278-306; `ProdSU`, `ProdSL`: TMV_TriSymArith.h:230-256,
330-356). -/
def prodSO (re : K → K) (x : K) (S : Sy K) (A : Op K) (N : Nat) (X : Nat → Nat → K) : Nat → Nat → K :=
  if A.ss then
    let T := A.rd X
    mulR T N (scale x N (copyS re S N X))
  else
    let Y := scale x N (copyS re S N X)
    mulR (A.rd Y) N Y

/-- `C = x*S/D` (`QuotSD`, TMV_DiagSymArith.h:360-374): `MultXM(x,C=S)`, then `D.LDivEq(C)`; `none` = `SingularDiagMatrix` was thrown.  For
a `D` kept in `C` its elements are taken as they are when `LDivEq` is called. -/
def quotSD [DecidableEq K] (re : K → K) (x : K) (S : Sy K) (D : Op K) (N : Nat) (X : Nat → Nat → K) : Option (Nat → Nat → K) :=
  let Y := scale x N (copyS re S N X)
  if ∃ i < N, D.rd Y i i = 0 then none
  else some fun i j => if i < N ∧ j < N then Y i j / D.rd Y i i else Y i j

/-- `C = x*S%D` (`RQuotSD`, TMV_DiagSymArith.h:398-412): `D.RDivEq(C)`. -/
def rquotSD [DecidableEq K] (re : K → K) (x : K) (S : Sy K) (D : Op K) (N : Nat) (X : Nat → Nat → K) : Option (Nat → Nat → K) :=
  let Y := scale x N (copyS re S N X)
  if ∃ i < N, D.rd Y i i = 0 then none
  else some fun i j => if i < N ∧ j < N then Y i j / D.rd Y j j else Y i j

/-- `B += x*S` for a band matrix `B` and a symmetric band matrix `S` (the operators `+=` and `-=`, TMV_BandSymBandArith.h:96-208): the upper
band, then the part below the diagonal. -/
def bandAddSym (x : K) (S : Src K) (k N lo hi : Nat) (X : Nat → Nat → K) : Option (Nat → Nat → K) :=
  if lo < k ∨ hi < k then none
  else
    let X1 : Nat → Nat → K := fun i j => if bnd N 0 k i j then X i j + x * S.rd X i j else X i j
    some (if k > 0 then fun i j => if bnd N k k i j ∧ j < i then X1 i j + x * S.rd X1 i j else X1 i j else X1)

end TMV.MixSym
