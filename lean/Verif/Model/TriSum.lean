import Verif.Model.TriMat
import Verif.Model.MatArith

/-! Scaling and sums of triangular matrices (src/TMV_MultXU.cpp:45-141, src/TMV_AddUU.cpp, include/tmv/TMV_TriMatrixArith.h,
include/tmv/TMV_TriMatrixArithFunc.h:60-110), on the memory of `Model/Mem`.

Simplifications as in `Model/MatArith`: one element type, exact arithmetic, a real factor of a complex matrix is not distinguished. -/
namespace TMV
variable {K : Type _}
namespace TView

/-- `SameStorage(A,B)` (include/tmv/TMV_Base.h:239-252): the addresses of the first elements. -/
def sameStorage (A B : TView) : Bool := decide (A.ptr = B.ptr)

/-! ### `A *= x` -/

/-- `MultXM(alpha,A)` for a view that is not conjugated: `RowMajorMultXM`, `ColMajorMultXM`, or row by row
(src/TMV_MultXU.cpp:46-96, 112-129). -/
def doMulX [Star K] [Mul K] [Zero K] [One K] [DecidableEq K] (x : K) (A : TView) (m : Mem K) : Option (Mem K) :=
  if x = 0 then A.setZero m
  else if A.isrm then loopN (fun i => loopMod (· * x) 1 (A.n - i) (A.ptr + i * (A.si + 1))) A.n 0 m
  else if A.iscm then loopN (fun j => loopMod (· * x) 1 (j + 1) (A.ptr + j * A.sj)) A.n 0 m
  else loopN (fun i => (A.row3 i i A.n).mulX x) A.n 0 m

/-- `MultXM(alpha,A)` (src/TMV_MultXU.cpp:98-141); asserts a diagonal that is not implicit unless `alpha` is 1. -/
def mulX [Star K] [Mul K] [Zero K] [One K] [DecidableEq K] (x : K) (A : TView) (m : Mem K) : Option (Mem K) :=
  if A.n > 0 ∧ x ≠ 1 then
    if A.conj then doMulX (star x) A.conjugate m else doMulX x A m
  else some m

/-- `B = x*A`: `MultXM(x,B=A)` (include/tmv/TMV_TriMatrixArith.h:105-117). -/
def assignMulX [Star K] [Mul K] [Zero K] [One K] [DecidableEq K] (x : K) (A B : TView) (m : Mem K) : Option (Mem K) :=
  (A.assignToU B m).bind fun m => B.mulX x m

/-! ### `B += x*A` -/

/-- `RowAddMM<rm>(alpha,A,B)`, `DoRowAddMM<rm,a1,ca>` (src/TMV_AddUU.cpp:44-95). -/
def rowAdd [Star K] [Ring K] [DecidableEq K] (rm : Bool) (x : K) (A B : TView) (m : Mem K) : Option (Mem K) :=
  let Asj := if rm then 1 else A.sj
  let Bsj := if rm then 1 else B.sj
  loopN (fun i => loop2 (fun a b => if x = 1 then b + cj A.conj a else b + x * cj A.conj a) Asj Bsj (A.n - i)
    (A.ptr + i * (A.si + Asj)) (B.ptr + i * (B.si + Bsj))) A.n 0 m

/-- `ColAddMM<true>(alpha,A,B)`, `DoColAddMM<true,a1,ca>` (src/TMV_AddUU.cpp:97-142): from the last column to the first. -/
def colAdd [Star K] [Ring K] [DecidableEq K] (x : K) (A B : TView) (m : Mem K) : Option (Mem K) :=
  loopN (fun k => loop2 (fun a b => if x = 1 then b + cj A.conj a else b + x * cj A.conj a) 1 1 (A.n - k)
    (A.ptr + ((A.n : Int) - 1) * A.sj - k * A.sj) (B.ptr + ((A.n : Int) - 1) * B.sj - k * B.sj)) A.n 0 m

/-- The last branch of `DoAddMM(alpha,A,B)` (src/TMV_AddUU.cpp:158-162). -/
def addNonUnit [Star K] [Ring K] [DecidableEq K] (x : K) (A B : TView) (m : Mem K) : Option (Mem K) :=
  if A.isrm ∧ B.isrm then rowAdd true x A B m
  else if A.iscm ∧ B.iscm then colAdd x A B m
  else rowAdd false x A B m

/-- `DoAddMM(alpha,A,B)` (src/TMV_AddUU.cpp:144-163). -/
def doAdd [Star K] [Ring K] [DecidableEq K] (x : K) (A B : TView) (m : Mem K) : Option (Mem K) :=
  if A.unit then
    (B.diag.addToAll x m).bind fun m =>
    if A.n > 1 then addNonUnit x (A.offDiag 1) (B.offDiag 1) m else some m
  else addNonUnit x A B m

/-- The body of `AddMM(alpha,A,B)` for a `B` that is not conjugated (src/TMV_AddUU.cpp:183-194). -/
def addMMnc [Star K] [Ring K] [DecidableEq K] (al : Alloc K) (x : K) (A B : TView) (m : Mem K) : Option (Mem K) :=
  if A.sameStorage B then
    al.withTemp (A.n * A.n) (fun t m =>
      let T := ofStor t A.n B.isrm false
      (assignMulX x A T m).bind fun m => doAdd 1 T B m) m
  else doAdd x A B m

/-- `AddMM(alpha,A,B)`, i.e. `B += alpha*A` (src/TMV_AddUU.cpp:165-208). -/
def addMM [Star K] [Ring K] [DecidableEq K] (al : Alloc K) (x : K) (A B : TView) (m : Mem K) : Option (Mem K) :=
  if A.n > 0 then
    if B.conj then addMMnc al (star x) A.conjugate B.conjugate m else addMMnc al x A B m
  else some m

/-! ### `C = x*A + y*B` -/

/-- `AddMM(alpha,A,beta,B,C)` when neither `A` nor `B` has an implicit diagonal (src/TMV_AddUU.cpp:246-280; lines 248-259 are never
reached because `A.isunit()` is false here). -/
def addUUnc [Star K] [Ring K] [DecidableEq K] (al : Alloc K) (x : K) (A : TView) (y : K) (B C : TView) (m : Mem K) :
    Option (Mem K) :=
  if C.n = 0 then some m
  else if A.sameStorage C then
    if B.sameStorage C then
      al.withTemp (A.n * A.n) (fun t m =>
        let T := ofStor t A.n A.isrm false
        (assignMulX x A T m).bind fun m => (assignMulX y B C m).bind fun m => addMM al 1 T C m) m
    else (assignMulX x A C m).bind fun m => addMM al y B C m
  else (assignMulX y B C m).bind fun m => addMM al x A C m

/-- `AddMM(alpha,A,beta,B,C)`, i.e. `C = alpha*A + beta*B` (src/TMV_AddUU.cpp:210-295); `C` has no implicit diagonal. -/
def addUU [Star K] [Ring K] [DecidableEq K] (al : Alloc K) (x : K) (A : TView) (y : K) (B C : TView) (m : Mem K) :
    Option (Mem K) :=
  if C.n = 0 then some m
  else if A.unit ∨ B.unit then
    (if A.n > 1 then addUUnc al x (A.offDiag 1) y (B.offDiag 1) (C.offDiag 1) m else some m).bind fun m =>
    if A.unit ∧ B.unit then C.diag.setAllTo (x + y) m
    else if A.unit then (VView.mulXV y B.diag C.diag m).bind fun m => C.diag.addToAll x m
    else (VView.mulXV x A.diag C.diag m).bind fun m => C.diag.addToAll y m
  else addUUnc al x A y B C m

/-- `AddMM(alpha,A,beta,B,C)` for an upper triangular `A`, a full `B` and a full `C` (src/TMV_AddUU.cpp:297-348), i.e.
`C = alpha*A + beta*B`.  (`AddMM(alpha,A,temp.view())` is `AddMM(alpha,A,temp.upperTri())`, TMV_TriMatrixArithFunc.h:60-64.) -/
def addUM [Star K] [Ring K] [DecidableEq K] (al : Alloc K) (x : K) (A : TView) (y : K) (B C : MView) (m : Mem K) :
    Option (Mem K) :=
  if A.n > 0 then
    if A.ptr = C.ptr then
      if B.ptr = C.ptr then
        al.withTemp (C.cs * C.rs) (fun t m =>
          let T := MView.ofStor t C.cs C.rs C.isrm
          (MView.assignMulX al y B T m).bind fun m => (addMM al x A (T.upperTri false) m).bind fun m =>
          MView.assign al T C m) m
      else (assignMulX x A (C.upperTri false) m).bind fun m => MView.addMM al y B C m
    else (MView.assignMulX al y B C m).bind fun m => addMM al x A (C.upperTri false) m
  else some m

/-- `C = x*A` for a full `C`: `GenUpperTriMatrix::assignToM` of a `ProdXU` (include/tmv/TMV_TriMatrix.h:600-618, `dt()` of `ProdXU`:
include/tmv/TMV_TriMatrixArith.h:101-102). -/
def assignMulXToM [Star K] [Ring K] [DecidableEq K] (x : K) (A : TView) (C : MView) (m : Mem K) : Option (Mem K) :=
  let u := decide (x = 1) && A.unit
  (assignMulX x A (C.upperTri u) m).bind fun m =>
  (if u then C.diag.setAllTo 1 m else some m).bind fun m =>
  if A.n > 0 then ((C.lowerTri false).offDiag 1).setZero m else some m

/-- `C = x*L` for a lower triangular `L` (here given by its transpose `B`) and a full `C`: `GenLowerTriMatrix::assignToM` of a `ProdXL`
takes `transpose()`, so the product is first evaluated into the composite's own array (include/tmv/TMV_TriMatrix.h:1143-1146,
src/TMV_MultUV.cpp:72-89: column-major, i.e. row-major for the transpose), then copied. -/
def assignMulXLToM [Star K] [Ring K] [DecidableEq K] (al : Alloc K) (x : K) (B : TView) (C : MView) (m : Mem K) : Option (Mem K) :=
  al.withTemp (B.n * B.n) (fun t m =>
    let T := ofStor t B.n true (decide (x = 1) && B.unit)
    (assignMulX x B T m).bind fun m => T.assignToM C.transpose m) m

/-- `AddMM(alpha,A,beta,L,C)` for an upper triangular `A`, a lower triangular `L` and a full `C` (src/TMV_AddUU.cpp:350-401), i.e.
`C = alpha*A + beta*L`; `B` is the transpose of `L`.  (`AddMM(beta,L,C)` is
`AddMM(beta,L.transpose(),C.lowerTri().transpose())`, TMV_TriMatrixArithFunc.h:65-69.) -/
def addUL [Star K] [Ring K] [DecidableEq K] (al : Alloc K) (x : K) (A : TView) (y : K) (B : TView) (C : MView) (m : Mem K) :
    Option (Mem K) :=
  if A.n > 0 then
    if A.ptr = C.ptr then
      if B.ptr = C.ptr then
        al.withTemp (C.cs * C.rs) (fun t m =>
          let T := MView.ofStor t C.cs C.rs C.isrm
          (assignMulXLToM al y B T m).bind fun m => (addMM al x A (T.upperTri false) m).bind fun m =>
          MView.assign al T C m) m
      else (assignMulXToM x A C m).bind fun m => addMM al y B (C.lowerTri false).transpose m
    else (assignMulXLToM al y B C m).bind fun m => addMM al x A (C.upperTri false) m
  else some m

end TView
end TMV
