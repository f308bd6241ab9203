import Verif.Model.VecArith
import Verif.Model.Mat

/-!
Matrix arithmetic: `A *= x`, `B += x*A`, `C = x*A + y*B`, `C (+)= x*ElemProd(A,B)`
(src/TMV_MultXM.cpp, src/TMV_AddMM.cpp, include/tmv/TMV_MatrixArith.h), on the memory of `Model/Mem`, in the
configuration without BLAS.  Simplifications as in `Model/VecArith` (one element type, exact arithmetic,
real factors of complex matrices not distinguished).
-/
namespace TMV
variable {K : Type _}

/-! ### Temporary storage -/

/-- The memory allocator (`new`, include/tmv/TMV_Array.h): where it puts a block of `n` elements, and the
arbitrary initial contents of the block. -/
structure Alloc (K : Type _) where
  addr : Mem K → Nat → Int
  junk : Int → K

/-- `{ AlignedArray<T> t(n); f(t); }`: the block is destroyed at the end of the scope. -/
def Alloc.withTemp (al : Alloc K) (n : Nat) (f : Int → Mem K → Option (Mem K)) (m : Mem K) :
    Option (Mem K) :=
  let t := al.addr m n
  (f t (m.alloc t n al.junk)).bind fun m => some (m.free t n)

/-- `for(k=i;k<i+n;++k) op(k)`. -/
def loopN (op : Nat → Mem K → Option (Mem K)) : Nat → Nat → Mem K → Option (Mem K)
  | 0, _, m => some m
  | n+1, i, m => (op i m).bind fun m => loopN op n (i+1) m

namespace MView

/-- `SameStorage(A,B)` (include/tmv/TMV_Base.h:240-252). -/
def sameStorage (A B : MView) : Bool := decide (A.ptr = B.ptr)

/-- `B = A` (`Copy`, include/tmv/TMV_Matrix.h:3691-3733) with the temporary it may need. -/
def assign [Star K] (al : Alloc K) (A B : MView) (m : Mem K) : Option (Mem K) :=
  A.copy (al.addr m (A.cs * A.rs)) (al.junk 0) B m

/-! ### `A *= x` -/

/-- `rowMajorMultXM(alpha,A)` (src/TMV_MultXM.cpp:44-70). -/
def rowMajorMulX [Mul K] (x : K) (A : MView) (m : Mem K) : Option (Mem K) :=
  loopN (fun i => loopMod (· * x) 1 A.rs (A.ptr + i * A.si)) A.cs 0 m

/-- `MultXM(alpha,A)`, i.e. `A *= alpha`, for a view that is not conjugated (src/TMV_MultXM.cpp:87-106). -/
def doMulX [Star K] [Mul K] [Zero K] [One K] [DecidableEq K] (x : K) (A : MView) (m : Mem K) :
    Option (Mem K) :=
  if x = 0 then A.setZero m
  else if A.canLinearize then A.linearView.mulX x m
  else if A.isrm then rowMajorMulX x A m
  else if A.iscm then rowMajorMulX x A.transpose m
  else if A.cs < A.rs then loopN (fun i => (A.row i).mulX x) A.cs 0 m
  else loopN (fun j => (A.col j).mulX x) A.rs 0 m

/-- `MultXM(alpha,A)` (src/TMV_MultXM.cpp:72-107). -/
def mulX [Star K] [Mul K] [Zero K] [One K] [DecidableEq K] (x : K) (A : MView) (m : Mem K) :
    Option (Mem K) :=
  if A.cs > 0 ∧ A.rs > 0 ∧ x ≠ 1 then
    if A.conj then doMulX (star x) A.conjugate m else doMulX x A m
  else some m

/-- `B = x*A`: `MultXM(x,B=A)` (include/tmv/TMV_MatrixArith.h:74-85). -/
def assignMulX [Star K] [Mul K] [Zero K] [One K] [DecidableEq K] (al : Alloc K) (x : K) (A B : MView)
    (m : Mem K) : Option (Mem K) :=
  (assign al A B m).bind fun m => B.mulX x m

/-! ### `B += x*A` -/

/-- `rowAddMM<rm>(alpha,A,B)`, `DoRowAddMM<rm,a1,ca>` (src/TMV_AddMM.cpp:45-97). -/
def rowAdd [Star K] [Ring K] [DecidableEq K] (rm : Bool) (x : K) (A B : MView) (m : Mem K) : Option (Mem K) :=
  let Asj := if rm then 1 else A.sj
  let Bsj := if rm then 1 else B.sj
  loopN (fun i => loop2 (fun a b => if x = 1 then b + cj A.conj a else b + x * cj A.conj a) Asj Bsj A.rs
    (A.ptr + i * A.si) (B.ptr + i * B.si)) A.cs 0 m

/-- `DoAddMM(alpha,A,B)` (src/TMV_AddMM.cpp:99-132). -/
def doAdd [Star K] [Ring K] [DecidableEq K] (x : K) (A B : MView) (m : Mem K) : Option (Mem K) :=
  if A.canLinearize ∧ B.canLinearize ∧ A.si = B.si ∧ A.sj = B.sj then
    VView.addVV x A.linearView B.linearView m
  else if A.isrm ∧ B.isrm then rowAdd true x A B m
  else if A.iscm ∧ B.iscm then rowAdd true x A.transpose B.transpose m
  else if A.rs > A.cs then rowAdd false x A B m
  else rowAdd false x A.transpose B.transpose m

/-- The body of `AddMM(alpha,A,B)` for a `B` that is not conjugated (src/TMV_AddMM.cpp:153-166). -/
def addMMnc [Star K] [Ring K] [DecidableEq K] (al : Alloc K) (x : K) (A B : MView) (m : Mem K) :
    Option (Mem K) :=
  if A.sameStorage B then
    al.withTemp (A.cs * A.rs) (fun t m =>
      let A2 := ofStor t A.cs A.rs B.isrm
      (assign al A A2 m).bind fun m => doAdd x A2 B m) m
  else doAdd x A B m

/-- `AddMM(alpha,A,B)`, i.e. `B += alpha*A` (src/TMV_AddMM.cpp:134-167). -/
def addMM [Star K] [Ring K] [DecidableEq K] (al : Alloc K) (x : K) (A B : MView) (m : Mem K) :
    Option (Mem K) :=
  if x ≠ 0 ∧ B.cs > 0 ∧ B.rs > 0 then
    if B.conj then addMMnc al (star x) A.conjugate B.conjugate m else addMMnc al x A B m
  else some m

/-- `AddMM(alpha,A,beta,B,C)`, i.e. `C = alpha*A + beta*B` (src/TMV_AddMM.cpp:185-230). -/
def addMM3 [Star K] [Ring K] [DecidableEq K] (al : Alloc K) (x : K) (A : MView) (y : K) (B C : MView)
    (m : Mem K) : Option (Mem K) :=
  if C.cs > 0 ∧ C.rs > 0 then
    if A.sameStorage C then
      if B.sameStorage C then
        al.withTemp (A.cs * A.rs) (fun t m =>
          let A2 := ofStor t A.cs A.rs A.isrm
          (assign al A A2 m).bind fun m => (assign al B C m).bind fun m =>
          (C.mulX y m).bind fun m => addMM al x A2 C m) m
      else
        (assign al A C m).bind fun m => (C.mulX x m).bind fun m => addMM al y B C m
    else
      (assign al B C m).bind fun m => (C.mulX y m).bind fun m => addMM al x A C m
  else some m

/-! ### Element-wise product -/

/-- `ElemMultMM<add>(alpha,A,B,C)`, i.e. `C (+)= alpha*ElemProd(A,B)` (src/TMV_MultXM.cpp:125-150).  `t`: the
addresses of the temporaries of `ElemMultVV`; `3` bounds its recursion. -/
def elemMul [Star K] [Ring K] [DecidableEq K] (t : Nat → Int) (junk : Int → K) (add : Bool) (x : K)
    (A B C : MView) (m : Mem K) : Option (Mem K) :=
  if A.canLinearize ∧ B.canLinearize ∧ C.canLinearize ∧ A.si = C.si ∧ A.sj = C.sj ∧ B.si = C.si ∧
      B.sj = C.sj then
    VView.elemMulVV 5 t junk add x A.linearView B.linearView C.linearView m
  else if C.isrm then
    loopN (fun i => VView.elemMulVV 5 t junk add x (A.row i) (B.row i) (C.row i)) C.cs 0 m
  else loopN (fun j => VView.elemMulVV 5 t junk add x (A.col j) (B.col j) (C.col j)) C.rs 0 m

end MView
end TMV
