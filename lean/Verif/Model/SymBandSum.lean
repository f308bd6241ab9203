import Verif.Model.Vec
import Mathlib.Algebra.Field.Basic
import Mathlib.Algebra.Star.Basic

/-! Multiples and sums of symmetric and Hermitian band matrices put into a band matrix or a full matrix (src/TMV_AddsBsB.cpp and
`ProdXsB::assignToB` in include/tmv/TMV_SymBandMatrixArith.h), on the square array that holds the destination `C`.  Exact arithmetic, one element
type.  An operand is either apart from `C` or kept in `C`'s array; conjugations are relative to the view `C` (the exchange of a conjugated
`B` for its conjugate at TMV_AddsBsB.cpp:66 changes no element).  `none` = a failed `TMVAssert` about the widths.  Copies, multiples and sums of
general band matrices, which the code leaves to other functions (C123, C124), are taken as the mathematical ones. -/
namespace TMV.SymBandSum
variable {K : Type _}

/-- A symmetric (`h = false`) or Hermitian operand: apart, or kept in the lower or upper triangle of `C`'s array, conjugated or not. -/
inductive Src (K : Type _) where
  | apart (A : Nat → Nat → K)
  | inC (lower h c : Bool)

/-- The element `(i,j)`, within the band, when the array of `C` holds `X` (include/tmv/TMV_SymBandMatrix.h, `cref`). -/
def Src.rd [Star K] : Src K → (Nat → Nat → K) → Nat → Nat → K
  | .apart A, _, i, j => A i j
  | .inC lower h c, X, i, j => if (if lower then j ≤ i else i ≤ j) then cj c (X i j) else cj (c != h) (X j i)

/-- `SameStorage` with `C` (include/tmv/TMV_Base.h:243-252). -/
def Src.ss : Src K → Bool
  | .apart _ => false
  | .inC .. => true

/-- The element `(i,j)` of a symmetric band matrix with `k` diagonals on each side. -/
def el [Star K] [Zero K] (A : Src K) (k : Nat) (X : Nat → Nat → K) (i j : Nat) : K := if i ≤ j + k ∧ j ≤ i + k then A.rd X i j else 0

/-- `(i,j)` is in the band of an `N`×`N` band matrix. -/
def bnd (N lo hi i j : Nat) : Prop := i < N ∧ j < N ∧ i ≤ j + lo ∧ j ≤ i + hi

instance (N lo hi i j : Nat) : Decidable (bnd N lo hi i j) := by unfold bnd; infer_instance

variable [Field K] [Star K]

/-- `C = alpha*A`, `ProdXsB::assignToB` (include/tmv/TMV_SymBandMatrixArith.h:102-124): the diagonals `0..`, then those below, then
`MultXM(alpha,C)`. -/
def assignX (α : K) (A : Src K) (k N lo hi : Nat) (X : Nat → Nat → K) : Option (Nat → Nat → K) :=
  if lo < k ∨ hi < k then none
  else
    let X1 : Nat → Nat → K := fun i j => if bnd N 0 hi i j then el A k X i j else X i j
    let X2 : Nat → Nat → K := fun i j => if bnd N lo hi i j ∧ j < i then (if k > 0 then el A k X1 i j else 0) else X1 i j
    some fun i j => if bnd N lo hi i j then α * X2 i j else X2 i j

/-- `AddMM(alpha,A,B)`, `B += alpha*A` into a band matrix (TMV_AddsBsB.cpp:45-95). -/
def addTo (α : K) (A : Src K) (k N lo hi : Nat) (X : Nat → Nat → K) : Option (Nat → Nat → K) :=
  if lo < k ∨ hi < k then none
  else if A.ss then
    let T := el A k X
    some fun i j => if bnd N k k i j then X i j + α * T i j else X i j
  else
    let X1 : Nat → Nat → K := fun i j => if bnd N 0 k i j then X i j + α * A.rd X i j else X i j
    some (if k > 0 then fun i j => if bnd N k k i j ∧ j < i then X1 i j + α * A.rd X1 i j else X1 i j else X1)

/-- `AddMM(alpha,A,beta,B,C)`, `C = alpha*A + beta*B` for symmetric band `A`, `B` and a band matrix `C` (TMV_AddsBsB.cpp:98-150).  The temporary
is made from `beta*B`, and so has the width of `B`. -/
def add2 (α : K) (A : Src K) (ka : Nat) (β : K) (B : Src K) (kb N lo hi : Nat) (X : Nat → Nat → K) : Option (Nat → Nat → K) :=
  if N = 0 then some X
  else if A.ss then
    if B.ss then
      (assignX β (.apart (B.rd X)) kb N kb kb fun _ _ => 0).bind fun T =>
      (addTo α (.apart (A.rd X)) ka N kb kb T).bind fun T =>
      if lo < kb ∨ hi < kb then none
      else some fun i j => if bnd N lo hi i j then (if bnd N kb kb i j then T i j else 0) else X i j
    else (assignX α A ka N lo hi X).bind (addTo β B kb N lo hi)
  else (assignX β B kb N lo hi X).bind (addTo α A ka N lo hi)

/-- `AddMM(alpha,A,beta,B,C)` for symmetric band `A`, `B` and a full `C` (TMV_AddsBsB.cpp:153-197). -/
def add2M (α : K) (A : Src K) (ka : Nat) (β : K) (B : Src K) (kb N : Nat) (X : Nat → Nat → K) : Option (Nat → Nat → K) :=
  let k := max ka kb
  if N = 0 then some X
  else if A.ss || B.ss then
    (add2 α A ka β B kb N k k X).map fun Y =>
    let Y1 : Nat → Nat → K := fun i j => if i < N - k - 1 ∧ k + 1 ≤ j ∧ j < N ∧ i ≤ j - (k + 1) then 0 else Y i j
    fun i j => if k + 1 ≤ i ∧ i < N ∧ j < N - k - 1 ∧ j ≤ i - (k + 1) then 0 else Y1 i j
  else add2 α A ka β B kb N k k fun i j => if i < N ∧ j < N then 0 else X i j

/-- A general (band or full) operand: apart, or `C`'s array, transposed or not, conjugated or not. -/
inductive Gen (K : Type _) where
  | apart (B : Nat → Nat → K)
  | inC (t c : Bool)

/-- The element `(i,j)` of a general operand. -/
def Gen.rd : Gen K → (Nat → Nat → K) → Nat → Nat → K
  | .apart B, _, i, j => B i j
  | .inC t c, X, i, j => cj c (if t then X j i else X i j)

/-- `SameStorage` with `C`. -/
def Gen.ss : Gen K → Bool
  | .apart _ => false
  | .inC .. => true

/-- The element `(i,j)` of a general band operand. -/
def gel (B : Gen K) (lb hb : Nat) (X : Nat → Nat → K) (i j : Nat) : K := if i ≤ j + lb ∧ j ≤ i + hb then B.rd X i j else 0

/-- `AddMM(alpha,A,beta,B,C)` for a symmetric band `A` and band matrices `B`, `C` (TMV_AddsBsB.cpp:199-259). -/
def addB (α : K) (A : Src K) (k : Nat) (β : K) (B : Gen K) (lb hb N lo hi : Nat) (X : Nat → Nat → K) : Option (Nat → Nat → K) :=
  if lo < k ∨ lo < lb ∨ hi < k ∨ hi < hb then none
  else if N = 0 then some X
  else if A.ss then
    if B.ss then
      (addTo α (.apart (A.rd X)) k N lo hi fun i j => β * gel B lb hb X i j).map fun T =>
      fun i j => if bnd N lo hi i j then T i j else X i j
    else (assignX α A k N lo hi X).map fun Y => fun i j => if bnd N lb hb i j then Y i j + β * gel B lb hb Y i j else Y i j
  else addTo α A k N lo hi fun i j => if bnd N lo hi i j then β * gel B lb hb X i j else X i j

/-- `AddMM(alpha,A,beta,B,C)` for a symmetric band `A` and full `B`, `C` (TMV_AddsBsB.cpp:261-303). -/
def addM (α : K) (A : Src K) (k : Nat) (β : K) (B : Gen K) (N : Nat) (X : Nat → Nat → K) : Option (Nat → Nat → K) :=
  if N = 0 then some X
  else (addB α A k β B k k N k k X).map fun Y =>
    let Y1 : Nat → Nat → K := fun i j => if i < N - k - 1 ∧ k + 1 ≤ j ∧ j < N ∧ i ≤ j - (k + 1) then β * B.rd Y i j else Y i j
    fun i j => if k + 1 ≤ i ∧ i < N ∧ j < N - k - 1 ∧ j ≤ i - (k + 1) then β * B.rd Y1 i j else Y1 i j

end TMV.SymBandSum
