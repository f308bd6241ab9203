import Verif.Model.Vec
import Mathlib.Algebra.Field.Basic
import Mathlib.Algebra.Star.Basic
import Mathlib.Algebra.BigOperators.Group.Finset.Defs
import Mathlib.Data.Finset.Range

/-! Products of a symmetric or Hermitian band matrix with a vector and with a full matrix (src/TMV_MultsBV.cpp, src/TMV_MultsBM.cpp; the code
without BLAS).  Exact arithmetic, one element type.  The products and sums of general band matrices, vectors and matrices that the code
calls for (C69-C71, C92, C93) are taken as the mathematical ones. -/
namespace TMV.SymBandMul
variable {K : Type _}

/-- A symmetric (`h = false`) or Hermitian band matrix with `k` diagonals on each side: the numbers stored, on the upper (`up`) or lower side,
and `isconj()`. -/
structure SB (K : Type _) where
  d : Nat → Nat → K
  k : Nat
  up : Bool
  h : Bool
  c : Bool

/-- The element `(i,j)` (include/tmv/TMV_SymBandMatrix.h, `cref`). -/
def SB.el [Star K] [Zero K] (A : SB K) (i j : Nat) : K :=
  if i ≤ j + A.k ∧ j ≤ i + A.k then
    if (if A.up then i ≤ j else j ≤ i) then cj A.c (A.d i j) else cj (A.c != A.h) (A.d j i)
  else 0

/-- `transpose()` (include/tmv/TMV_SymBandMatrix.h:840-845). -/
def SB.transpose (A : SB K) : SB K := { A with d := fun i j => A.d j i, up := !A.up }

/-- `conjugate()` (include/tmv/TMV_SymBandMatrix.h:847-852). -/
def SB.conjugate (A : SB K) : SB K := { A with c := !A.c }

/-- `adjoint()` (include/tmv/TMV_SymBandMatrix.h:854-860). -/
def SB.adjoint (A : SB K) : SB K := { A with d := fun i j => A.d j i, up := !A.up, c := !A.c }

/-- The elements of `lowerBand()`. -/
def SB.lowerEl [Star K] [Zero K] (A : SB K) (i j : Nat) : K := if j ≤ i ∧ i ≤ j + A.k then A.el i j else 0

/-- The elements of `upperBandOff()`, whose columns are those from the second on. -/
def SB.upperOffEl [Star K] [Zero K] (A : SB K) (i j : Nat) : K := if i < j + 1 ∧ j + 1 ≤ i + A.k then A.el i (j + 1) else 0

variable [Field K] [StarRing K]

/-- `UnitAMultMV<add>(A,x,y)` (TMV_MultsBV.cpp:80-91), sizes `N`. -/
def unitA (add : Bool) (N : Nat) (A : SB K) (x y : Nat → K) : Nat → K :=
  let y1 : Nat → K := fun i =>
    if i < N then (if add then y i else 0) + ∑ j ∈ Finset.range N, A.lowerEl i j * x j else y i
  if N > 1 ∧ A.k > 0 then fun i => if i < N - 1 then y1 i + ∑ j ∈ Finset.range (N - 1), A.upperOffEl i j * x (j + 1) else y1 i
  else y1

/-- `y = yy` or `y += yy`, here with a factor. -/
def putV (add : Bool) (N : Nat) (α : K) (yy y : Nat → K) : Nat → K := fun i =>
  if i < N then (if add then y i + α * yy i else α * yy i) else y i

/-- The body of `NonBlasMultMV<add>(alpha,A,x,y)` for a lower `A` and a `y` that is not conjugated (TMV_MultsBV.cpp:113-153); `x1`, `y1` tell
whether the steps of `x` and `y` are 1, `g` is what a new vector holds.  Real and complex `alpha` take separate but like branches. -/
def nonBlasLow [DecidableEq K] (add x1 y1 : Bool) (g : Nat → K) (N : Nat) (α : K) (A : SB K) (x y : Nat → K) : Nat → K :=
  if !x1 then
    let xx : Nat → K := fun j => α * x j
    if !y1 then putV add N 1 (unitA false N A xx g) y
    else unitA add N A xx y
  else if !y1 ∨ α ≠ 1 then putV add N α (unitA false N A x g) y
  else unitA add N A x y

/-- `NonBlasMultMV<add>(alpha,A,x,y)` (TMV_MultsBV.cpp:93-154): an upper `A` is replaced by its adjoint or transpose, and a conjugated `y`
(`yc`) by its conjugate; `y` is what is stored. -/
def nonBlas [DecidableEq K] (add x1 y1 yc : Bool) (g : Nat → K) (N : Nat) (α : K) (A : SB K) (x y : Nat → K) : Nat → K :=
  let A1 := if A.up then (if A.h then A.adjoint else A.transpose) else A
  if yc then nonBlasLow add x1 y1 g N (star α) A1.conjugate (fun j => star (x j)) y
  else nonBlasLow add x1 y1 g N α A1 x y

/-- `MultMV<add>(alpha,A,x,y)`, i.e. `y (+)= alpha*A*x` (TMV_MultsBV.cpp:596-628); `ss` = `SameStorage(x,y)`. -/
def multMV [DecidableEq K] (add ss x1 y1 yc : Bool) (g : Nat → K) (N : Nat) (α : K) (A : SB K) (x y : Nat → K) : Nat → K :=
  if N > 0 then
    if α = 0 then (if add then y else fun i => if i < N then 0 else y i)
    else if ss then
      let yy := nonBlas false x1 true false g N 1 A x g
      if yc then putV add N (star α) (fun i => star (yy i)) y else putV add N α yy y
    else nonBlas add x1 y1 yc g N α A x y
  else y

/-- `DoMultMM<add>(alpha,A,B,C)` on the columns `c1..c2` (TMV_MultsBM.cpp:49-69); `B` are the elements.  The factor is missing in the second
step. -/
def doMM (add : Bool) (N c1 c2 : Nat) (α : K) (A : SB K) (B C : Nat → Nat → K) : Nat → Nat → K :=
  let C1 : Nat → Nat → K := fun i j =>
    if i < N ∧ c1 ≤ j ∧ j < c2 then (if add then C i j else 0) + α * ∑ l ∈ Finset.range N, A.lowerEl i l * B l j else C i j
  if N > 1 ∧ A.k > 0 then fun i j =>
    if i < N - 1 ∧ c1 ≤ j ∧ j < c2 then C1 i j + ∑ l ∈ Finset.range (N - 1), A.upperOffEl i l * B (l + 1) j else C1 i j
  else C1

/-- The matrix `B`: apart from `C`, or a view of `C`'s array, transposed or not, conjugated or not. -/
inductive BSrc (K : Type _) where
  | apart (B : Nat → Nat → K)
  | inC (t c : Bool)

/-- The element `(i,j)` of `B` when the array of `C` holds `X`. -/
def BSrc.rd : BSrc K → (Nat → Nat → K) → Nat → Nat → K
  | .apart B, _, i, j => B i j
  | .inC t c, X, i, j => cj c (if t then X j i else X i j)

/-- `conjugate()`. -/
def BSrc.conjugate : BSrc K → BSrc K
  | .apart B => .apart fun i j => star (B i j)
  | .inC t c => .inC t !c

/-- The band matrix: apart from `C`, or stored in `C`'s array. -/
def aMat (inC : Bool) (A : SB K) (X : Nat → Nat → K) : SB K := if inC then { A with d := X } else A

/-- `FullTempMultMM<add>(alpha,A,B,C)` (TMV_MultsBM.cpp:71-88). -/
def fullTemp (add inC : Bool) (g : Nat → Nat → K) (N R : Nat) (α : K) (A : SB K) (B : BSrc K) (X : Nat → Nat → K) : Nat → Nat → K :=
  let C2 := doMM false N 0 R 1 (aMat inC A X) (B.rd X) g
  fun i j => if i < N ∧ j < R then (if add then X i j + α * C2 i j else α * C2 i j) else X i j

/-- `BlockTempMultMM<add>(alpha,A,B,C)` (TMV_MultsBM.cpp:90-117) from column `j` on, in blocks of `nb + 1` (`SYM_MM_BLOCKSIZE`). -/
def blockTemp (add inC : Bool) (N R nb : Nat) (α : K) (A : SB K) (B : BSrc K) (j : Nat) (X : Nat → Nat → K) : Nat → Nat → K :=
  if _h : j < R then
    let j2 := min R (j + (nb + 1))
    let B2 : Nat → Nat → K := fun l q => α * B.rd X l q
    blockTemp add inC N R nb α A B j2 (doMM add N j j2 1 (aMat inC A X) B2 X)
  else X
termination_by R - j
decreasing_by omega

/-- `MultMM<add>(alpha,A,B,C)` for a `C` that is not conjugated (TMV_MultsBM.cpp:135-152). -/
def multMMnc [DecidableEq K] (add inC : Bool) (g : Nat → Nat → K) (N R nb : Nat) (α : K) (A : SB K) (B : BSrc K) (X : Nat → Nat → K) :
    Nat → Nat → K :=
  if inC then fullTemp add inC g N R α A B X
  else
    match B with
    | .inC t _ => if !t then blockTemp add inC N R nb α A B 0 X else fullTemp add inC g N R α A B X
    | .apart _ => blockTemp add inC N R nb α A B 0 X

/-- `MultMM<add>(alpha,A,B,C)`, i.e. `C (+)= alpha*A*B` (TMV_MultsBM.cpp:119-153); `X` is the array of `C`, `cc` tells whether `C` is a
conjugated view of it, `inC` whether `A` is stored in it. -/
def multMM [DecidableEq K] (add inC cc : Bool) (g : Nat → Nat → K) (N R nb : Nat) (α : K) (A : SB K) (B : BSrc K) (X : Nat → Nat → K) :
    Nat → Nat → K :=
  if N > 0 ∧ R > 0 then
    if α = 0 then (if add then X else fun i j => if i < N ∧ j < R then 0 else X i j)
    else if cc then multMMnc add inC g N R nb (star α) A.conjugate B.conjugate X
    else multMMnc add inC g N R nb α A B X
  else X

end TMV.SymBandMul
