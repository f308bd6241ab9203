import Verif.Model.Band
import Verif.Model.MatArith

/-! Assignment, scaling and sums of band matrices (include/tmv/TMV_BandMatrix.h:4131-4215, src/TMV_MultXB.cpp:43-80, src/TMV_AddBB.cpp,
include/tmv/TMV_BandMatrixArith.h, include/tmv/TMV_BandMatrixArithFunc.h:44-64), on the memory of `Model/Mem`.

Simplifications as in `Model/MatArith`: one element type, exact arithmetic, a real factor of a complex matrix is not distinguished. -/
namespace TMV
variable {K : Type _}
namespace BView

/-- `SameStorage(A,B)` (include/tmv/TMV_Base.h:239-252): the addresses of the elements (0,0). -/
def sameStorage (A B : BView) : Bool := decide (A.ptr = B.ptr)

/-- `isSameAs` (include/tmv/TMV_BandMatrix.h:447-455). -/
def isSameAs (A B : BView) : Bool :=
  decide (A.ptr = B.ptr ∧ A.cs = B.cs ∧ A.rs = B.rs ∧ A.si = B.si ∧ A.sj = B.sj ∧ A.hi = B.hi ∧ A.lo = B.lo ∧ A.conj = B.conj)

/-! ### `B = A` -/

/-- `DoCopy(m1,m2)` (include/tmv/TMV_BandMatrix.h:4135-4158). -/
def doCopy [Star K] (A B : BView) (m : Mem K) : Option (Mem K) :=
  if A.canLinearize ∧ B.canLinearize ∧ A.si = B.si ∧ A.sj = B.sj then VView.copy A.linearView B.linearView m
  else loopN (fun t => VView.copy (A.diagOff (t - B.lo)) (B.diagOff (t - B.lo))) (B.lo + B.hi + 1).toNat 0 m

/-- The last two branches of `DoCopy1` (include/tmv/TMV_BandMatrix.h:4189-4193). -/
def copySep [Star K] (A B : BView) (m : Mem K) : Option (Mem K) :=
  if B.conj then doCopy A.conjugate B.conjugate m else doCopy A B m

/-- The whole matrix as `Copy` sees it, `m2.subBandMatrix(0,cs,0,rs,lo,hi)` (include/tmv/TMV_BandMatrix.h:4208-4209). -/
def whole (B : BView) (lo hi : Int) : BView := B.subBand6 0 B.cs 0 B.rs lo hi

/-- The storage order of the temporary copy of a matrix: `isrm() ? RowMajor : iscm() ? ColMajor : DiagMajor`
(include/tmv/TMV_BandMatrix.h:4183-4188, src/TMV_AddBB.cpp:93-102, 214-229). -/
def tempStor (M : BView) : Stor := if M.isrm then Stor.rm else if M.iscm then Stor.cm else Stor.dm

/-- `BandMatrix<T,s> temp = A; f(temp)`: the constructor copies `A` into the new array, which is nobody else's
(include/tmv/TMV_BandMatrix.h:2577-2591; `assignToB` and `Copy` then end in the last branch of `DoCopy1`). -/
def withCopy [Star K] (al : Alloc K) (s : Stor) (A : BView) (f : BView → Mem K → Option (Mem K)) (m : Mem K) : Option (Mem K) :=
  al.withTemp (bandStorageLength s A.cs A.rs A.lo A.hi).toNat (fun t m =>
    let T := ofStor t s A.cs A.rs A.lo A.hi
    (copySep A (T.whole A.lo A.hi) m).bind fun m => f T m) m

/-- `DoCopy1(m1,m2)` (include/tmv/TMV_BandMatrix.h:4165-4196); the copy in the temporary is then copied by its last two branches. -/
def doCopy1 [Star K] (al : Alloc K) (A B : BView) (m : Mem K) : Option (Mem K) :=
  if B.cs > 0 ∧ B.rs > 0 then
    if A.sameStorage B then
      if B.isSameAs A then some m
      else if B.lo = B.hi ∧ B.transpose.isSameAs A then B.transposeSelf m
      else if A.conj ≠ B.conj ∧ B.conjugate.isSameAs A then B.conjugateSelf m
      else withCopy al A.tempStor A (fun T m => copySep T B m) m
    else copySep A B m
  else some m

/-- `Copy(m1,m2)` (include/tmv/TMV_BandMatrix.h:4198-4215). -/
def copy [Star K] [Zero K] (al : Alloc K) (A B : BView) (m : Mem K) : Option (Mem K) :=
  (doCopy1 al A (B.whole A.lo A.hi) m).bind fun m =>
  (if B.hi > A.hi then (B.diagRange (A.hi + 1) (B.hi + 1)).setZero m else some m).bind fun m =>
  if B.lo > A.lo then (B.diagRange (-B.lo) (-A.lo)).setZero m else some m

/-- `A.assignToB(B)`, i.e. `B = A` (include/tmv/TMV_BandMatrix.h:484-501, 1409-1417). -/
def assignToB [Star K] [Zero K] (al : Alloc K) (A B : BView) (m : Mem K) : Option (Mem K) :=
  if A.isSameAs B then some m else copy al A B m

/-! ### `A *= x`, `B = x*A` -/

/-- `MultXM(alpha,A)` for a view that is not conjugated (src/TMV_MultXB.cpp:57-62). -/
def doMulX [Star K] [Mul K] [Zero K] [One K] [DecidableEq K] (x : K) (A : BView) (m : Mem K) : Option (Mem K) :=
  if x = 0 then A.setZero m
  else if A.canLinearize then A.linearView.mulX x m
  else loopN (fun t => (A.diagOff (t - A.lo)).mulX x) (A.lo + A.hi + 1).toNat 0 m

/-- `MultXM(alpha,A)` (src/TMV_MultXB.cpp:43-78). -/
def mulX [Star K] [Mul K] [Zero K] [One K] [DecidableEq K] (x : K) (A : BView) (m : Mem K) : Option (Mem K) :=
  if A.rs > 0 ∧ A.cs > 0 ∧ x ≠ 1 then
    if A.conj then doMulX (star x) A.conjugate m else doMulX x A m
  else some m

/-- `B = x*A`: `MultXM(x,B=A)` (include/tmv/TMV_BandMatrixArith.h `ProdXB::assignToB`). -/
def assignMulX [Star K] [Mul K] [Zero K] [One K] [DecidableEq K] (al : Alloc K) (x : K) (A B : BView) (m : Mem K) : Option (Mem K) :=
  (assignToB al A B m).bind fun m => B.mulX x m

/-! ### `B += x*A` -/

/-- `DoAddMM(alpha,A,B)` (src/TMV_AddBB.cpp:45-68). -/
def doAdd [Star K] [Ring K] [DecidableEq K] (x : K) (A B : BView) (m : Mem K) : Option (Mem K) :=
  if A.lo = B.lo ∧ A.hi = B.hi ∧ A.canLinearize ∧ B.canLinearize ∧ A.si = B.si ∧ A.sj = B.sj then
    VView.addVV x A.linearView B.linearView m
  else loopN (fun t => VView.addVV x (A.diagOff (t - A.lo)) (B.diagOff (t - A.lo))) (A.lo + A.hi + 1).toNat 0 m

/-- The body of `AddMM(alpha,A,B)` for a `B` that is not conjugated (src/TMV_AddBB.cpp:92-104). -/
def addMMnc [Star K] [Ring K] [DecidableEq K] (al : Alloc K) (x : K) (A B : BView) (m : Mem K) : Option (Mem K) :=
  if A.sameStorage B then withCopy al B.tempStor A (fun T m => doAdd x T B m) m
  else doAdd x A B m

/-- `AddMM(alpha,A,B)`, i.e. `B += alpha*A` (src/TMV_AddBB.cpp:70-118). -/
def addMM [Star K] [Ring K] [DecidableEq K] (al : Alloc K) (x : K) (A B : BView) (m : Mem K) : Option (Mem K) :=
  if B.cs > 0 ∧ B.rs > 0 then
    if B.conj then addMMnc al (star x) A.conjugate B.conjugate m else addMMnc al x A B m
  else some m

/-! ### `C = x*A + y*B` -/

/-- `AddMM(alpha,A,beta,B,C)` for a `C` that is not conjugated (src/TMV_AddBB.cpp:147-171). -/
def addMM3nc [Star K] [Ring K] [DecidableEq K] (al : Alloc K) (x : K) (A : BView) (y : K) (B C : BView) (m : Mem K) : Option (Mem K) :=
  if B.cs > 0 ∧ B.rs > 0 then
    if A.sameStorage C then
      if B.sameStorage C then
        withCopy al (if B.isrm then Stor.rm else if C.iscm then Stor.cm else Stor.dm) B (fun T m =>
          (assignMulX al x A C m).bind fun m => doAdd y T C m) m
      else (assignMulX al x A C m).bind fun m => doAdd y B C m
    else (assignMulX al y B C m).bind fun m => doAdd x A C m
  else some m

/-- `AddMM(alpha,A,beta,B,C)`, i.e. `C = alpha*A + beta*B` (src/TMV_AddBB.cpp:120-186). -/
def addMM3 [Star K] [Ring K] [DecidableEq K] (al : Alloc K) (x : K) (A : BView) (y : K) (B C : BView) (m : Mem K) : Option (Mem K) :=
  if C.conj then addMM3nc al (star x) A.conjugate (star y) B.conjugate C.conjugate m else addMM3nc al x A y B C m

/-! ### Band and full matrices -/

/-- `C = x*A` for a full `C`: `GenBandMatrix::assignToM` of a `ProdXB` (include/tmv/TMV_BandMatrix.h:457-482, whose `assignToB` is that of
`ProdXB`). -/
def assignMulXToM [Star K] [Ring K] [DecidableEq K] (al : Alloc K) (x : K) (A : BView) (C : MView) (m : Mem K) : Option (Mem K) :=
  (assignMulX al x A (ofMat C A.lo A.hi) m).bind fun m =>
  (if (A.rs : Int) > A.hi + 1 then (ofMat (C.colRange (A.hi + 1) A.rs) 0 (A.rs - A.hi - 2)).setZero m else some m).bind fun m =>
  if (A.cs : Int) > A.lo + 1 then (ofMat (C.rowRange (A.lo + 1) A.cs) (A.cs - A.lo - 2) 0).setZero m else some m

/-- `AddMM(alpha,A,beta,B,C)` for a band matrix `A` and full `B`, `C`, when `C` is not conjugated (src/TMV_AddBB.cpp:211-238). -/
def addBMnc [Star K] [Ring K] [DecidableEq K] (al : Alloc K) (x : K) (A : BView) (y : K) (B C : MView) (m : Mem K) : Option (Mem K) :=
  if C.cs > 0 ∧ C.rs > 0 then
    if A.ptr = C.ptr then
      if B.ptr = C.ptr then
        withCopy al A.tempStor A (fun T m => (MView.assignMulX al y B C m).bind fun m => doAdd x T (ofMat C A.lo A.hi) m) m
      else (assignMulXToM al x A C m).bind fun m => MView.addMM al y B C m
    else (MView.assignMulX al y B C m).bind fun m => doAdd x A (ofMat C A.lo A.hi) m
  else some m

/-- `AddMM(alpha,A,beta,B,C)` for a band matrix `A` and full `B`, `C` (src/TMV_AddBB.cpp:188-253), i.e. `C = alpha*A + beta*B`.  For a
conjugated `C`, line 208 conjugates `alpha`, `A`, `B` and `C`, but not `beta`. -/
def addBM [Star K] [Ring K] [DecidableEq K] (al : Alloc K) (x : K) (A : BView) (y : K) (B C : MView) (m : Mem K) : Option (Mem K) :=
  if C.conj then addBMnc al (star x) A.conjugate y B.conjugate C.conjugate m else addBMnc al x A y B C m

end BView
end TMV
