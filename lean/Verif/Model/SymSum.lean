import Verif.Model.SymMat
import Verif.Model.TriSum

/-! Scaling and sums of symmetric and Hermitian matrices (include/tmv/TMV_SymMatrixArithFunc.h:44-86,
include/tmv/TMV_SymMatrixArith.h:101-610, src/TMV_AddSS.cpp), on the memory of `Model/Mem`.

Simplifications as in `Model/MatArith` and `Model/TriSum`: one element type, exact arithmetic. -/
namespace TMV
variable {K : Type _}
namespace SView

/-- `A *= x`: `MultXM(alpha,A)` is `MultXM(alpha,A.upperTri())` (include/tmv/TMV_SymMatrixArithFunc.h:44-46); for a Hermitian `A` the
callers assert a real `x` (include/tmv/TMV_SymMatrixArith.h:152-181). -/
def mulX [Star K] [Mul K] [Zero K] [One K] [DecidableEq K] (x : K) (A : SView) (m : Mem K) : Option (Mem K) :=
  (A.upperTri false).mulX x m

/-- `B = x*A` into a symmetric matrix: `MultXM(x,B=A)` (include/tmv/TMV_SymMatrixArith.h:131-145). -/
def assignMulX [Star K] [Mul K] [Zero K] [One K] [DecidableEq K] (x : K) (A B : SView) (m : Mem K) : Option (Mem K) :=
  (A.assignToS B m).bind fun m => B.mulX x m

/-- `A += x` adds to the diagonal (include/tmv/TMV_SymMatrixArith.h:283-313). -/
def addX [Star K] [Add K] (x : K) (A : SView) (m : Mem K) : Option (Mem K) := A.diag.addToAll x m

/-- `B = x1*A + x2` into a symmetric matrix: `MultXM(x1,B=A)`, then `B.diag().addToAll(x2)`
(include/tmv/TMV_SymMatrixArith.h:257-275). -/
def assignSumX [Star K] [Ring K] [DecidableEq K] (x : K) (A : SView) (y : K) (B : SView) (m : Mem K) : Option (Mem K) :=
  (assignMulX x A B m).bind fun m => B.diag.addToAll y m

/-- `B += x*A` into a symmetric matrix: `AddMM(alpha,A.upperTri(),B.upperTri())` (include/tmv/TMV_SymMatrixArithFunc.h:50-53). -/
def addMM [Star K] [Ring K] [DecidableEq K] (al : Alloc K) (x : K) (A B : SView) (m : Mem K) : Option (Mem K) :=
  TView.addMM al x (A.upperTri false) (B.upperTri false) m

/-- `C = x*A + y*B` into a symmetric matrix: `AddMM(alpha,A.upperTri(),beta,B.upperTri(),C.upperTri())`
(include/tmv/TMV_SymMatrixArithFunc.h:60-63). -/
def addSS [Star K] [Ring K] [DecidableEq K] (al : Alloc K) (x : K) (A : SView) (y : K) (B C : SView) (m : Mem K) : Option (Mem K) :=
  TView.addUU al x (A.upperTri false) y (B.upperTri false) (C.upperTri false) m

/-- `C = x*A` into a full matrix, `ProdXS::assignToM` (include/tmv/TMV_SymMatrixArith.h:112-130): the upper triangle, then the lower
triangle without the diagonal, then `MultXM(x,C)`.  An assignment between lower triangular views is one between their transposes
(include/tmv/TMV_TriMatrix.h:2553-2576). -/
def assignMulXToM [Star K] [Mul K] [Zero K] [One K] [DecidableEq K] (x : K) (A : SView) (C : MView) (m : Mem K) : Option (Mem K) :=
  ((A.upperTri false).assignToU (C.upperTri false) m).bind fun m =>
  (if A.n > 0 then ((A.lowerTri false).offDiag 1).transpose.assignToU ((C.lowerTri false).offDiag 1).transpose m else some m).bind fun m =>
  C.mulX x m

/-- `C = x1*A + x2` into a full matrix, `SumSX::assignToM`: `MultXM(x1,C=A)`, then `C.diag().addToAll(x2)`
(include/tmv/TMV_SymMatrixArith.h:240-256); `re` is the real part. -/
def assignSumXToM [Star K] [Ring K] [DecidableEq K] (re : K → K) (x : K) (A : SView) (y : K) (C : MView) (m : Mem K) : Option (Mem K) :=
  (A.assignToM re C m).bind fun m => (C.mulX x m).bind fun m => C.diag.addToAll y m

/-- The body of `AddMM(alpha,A,B)` for a full `B` that is not conjugated (src/TMV_AddSS.cpp:62-78).  `AddMM` of lower triangular views is
that of their transposes (include/tmv/TMV_TriMatrixArithFunc.h). -/
def addToMnc [Star K] [Ring K] [DecidableEq K] (al : Alloc K) (x : K) (A : SView) (B : MView) (m : Mem K) : Option (Mem K) :=
  if A.ptr = B.ptr then
    al.withTemp (A.n * A.n) (fun t m =>
      let T := MView.ofStor t A.n A.n B.isrm
      (assignMulXToM x A T m).bind fun m => MView.addMM al 1 T B m) m
  else
    (TView.addMM al x (A.upperTri false) (B.upperTri false) m).bind fun m =>
    if A.n > 1 then TView.addMM al x ((A.lowerTri false).offDiag 1).transpose ((B.lowerTri false).offDiag 1).transpose m else some m

/-- `AddMM(alpha,A,B)`, i.e. `B += alpha*A` for a full `B` (src/TMV_AddSS.cpp:43-95). -/
def addToM [Star K] [Ring K] [DecidableEq K] (al : Alloc K) (x : K) (A : SView) (B : MView) (m : Mem K) : Option (Mem K) :=
  if A.n > 0 then
    if B.conj then addToMnc al (star x) A.conjugate B.conjugate m else addToMnc al x A B m
  else some m

/-- `AddMM(alpha,A,beta,B,C)` for symmetric `A`, `B` and a full `C`, i.e. `C = alpha*A + beta*B` (src/TMV_AddSS.cpp:98-148). -/
def addSSM [Star K] [Ring K] [DecidableEq K] (al : Alloc K) (x : K) (A : SView) (y : K) (B : SView) (C : MView) (m : Mem K) :
    Option (Mem K) :=
  if A.n > 0 then
    if A.ptr = C.ptr then
      if B.ptr = C.ptr then
        al.withTemp (A.n * A.n) (fun t m =>
          let T := MView.ofStor t A.n A.n C.isrm
          (assignMulXToM x A T m).bind fun m => (assignMulXToM y B C m).bind fun m => MView.addMM al 1 T C m) m
      else (assignMulXToM x A C m).bind fun m => addToM al y B C m
    else (assignMulXToM y B C m).bind fun m => addToM al x A C m
  else some m

/-- `AddMM(alpha,A,beta,B,C)` for a symmetric `A` and full `B`, `C`, i.e. `C = alpha*A + beta*B` (src/TMV_AddSS.cpp:150-202). -/
def addSM [Star K] [Ring K] [DecidableEq K] (al : Alloc K) (x : K) (A : SView) (y : K) (B C : MView) (m : Mem K) : Option (Mem K) :=
  if A.n > 0 then
    if A.ptr = C.ptr then
      if B.ptr = C.ptr then
        al.withTemp (A.n * A.n) (fun t m =>
          let T := MView.ofStor t A.n A.n C.isrm
          (assignMulXToM x A T m).bind fun m => (MView.assignMulX al y B C m).bind fun m => MView.addMM al 1 T C m) m
      else (assignMulXToM x A C m).bind fun m => MView.addMM al y B C m
    else (MView.assignMulX al y B C m).bind fun m => addToM al x A C m
  else some m

end SView
end TMV
