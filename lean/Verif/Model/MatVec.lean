import Verif.Model.MatArith

/-!
Matrix-vector products `y (+)= x*A*v` (src/TMV_MultMV.cpp, include/tmv/TMV_MatrixArith.h:485-550), on the memory of
`Model/Mem`, in the configuration without BLAS.  Simplifications as in `Model/VecArith`.
-/
namespace TMV
variable {K : Type _}

/-- `T temp(0); for(j=N;j>0;--j,++xj,Aij+=sj) temp += conj?(*xj) * conj?(*Aij);`
(src/TMV_MultMV.cpp:108-112); the accumulator is `r`. -/
def dotMV [Star K] [Add K] [Mul K] (cx ca : Bool) (sj : Int) (m : Mem K) : Nat → Int → Int → K → Option K
  | 0, _, _, r => some r
  | n+1, pA, px, r =>
      (m.read px).bind fun x => (m.read pA).bind fun a =>
      dotMV cx ca sj m n (pA + sj) (px + 1) (r + cj cx x * cj ca a)

namespace MView

/-- `RowMultMV<add,cx,ca,rm>(A,x,y)` (src/TMV_MultMV.cpp:79-121). -/
def rowMulMV [Star K] [Ring K] (add cx rm : Bool) (A : MView) (x y : VView) (m : Mem K) : Option (Mem K) :=
  let sj := if rm then 1 else A.sj
  loopN (fun i m =>
    (dotMV cx A.conj sj m A.rs (A.ptr + i * A.si) x.ptr 0).bind fun temp =>
    if add then m.modify (y.ptr + i) (· + temp) else m.write (y.ptr + i) temp) A.cs 0 m

/-- One column: `if (*xj != 0) for(i..) *yi += xjval * conj?(*Aij)` (src/TMV_MultMV.cpp:168-179). -/
def colStep [Star K] [Ring K] [DecidableEq K] (cx : Bool) (si : Int) (A : MView) (x y : VView) (j : Nat)
    (m : Mem K) : Option (Mem K) :=
  (m.read (x.ptr + j)).bind fun xj =>
  if xj ≠ 0 then loop2 (fun a b => b + cj cx xj * cj A.conj a) si 1 A.cs (A.ptr + j * A.sj) y.ptr m
  else some m

/-- `ColMultMV<add,cx,ca,cm>(A,x,y)` (src/TMV_MultMV.cpp:123-181). -/
def colMulMV [Star K] [Ring K] [DecidableEq K] (add cx cm : Bool) (A : MView) (x y : VView) (m : Mem K) :
    Option (Mem K) :=
  let si := if cm then 1 else A.si
  if add then loopN (colStep cx si A x y) A.rs 0 m
  else
    ((m.read x.ptr).bind fun x0 =>
      if x0 = 0 then y.setZero m
      else loop2 (fun a _ => cj cx x0 * cj A.conj a) si 1 A.cs A.ptr y.ptr m).bind fun m =>
    loopN (colStep cx si A x y) (A.rs - 1) 1 m

/-- `UnitAMultMV1<add,cx>(A,x,y)` (src/TMV_MultMV.cpp:183-217). -/
def unitMulMV1 [Star K] [Ring K] [DecidableEq K] (add cx : Bool) (A : MView) (x y : VView) (m : Mem K) :
    Option (Mem K) :=
  if A.isrm then rowMulMV add cx true A x y m
  else if A.iscm then colMulMV add cx true A x y m
  else if A.rs ≥ A.cs then rowMulMV add cx false A x y m
  else colMulMV add cx false A x y m

/-- `for(x2=x.cptr()+N-1; j2>0 && *x2==0; --j2,--x2);` (src/TMV_MultMV.cpp:247-248). -/
def trimEnd [Zero K] [DecidableEq K] (p : Int) (m : Mem K) : Nat → Option Nat
  | 0 => some 0
  | n+1 => (m.read (p + n)).bind fun x => if x = 0 then trimEnd p m n else some (n+1)

/-- `j1=0; for(x1=x.cptr(); *x1==0; ++j1,++x1) {}` (src/TMV_MultMV.cpp:253-254).  `fuel` bounds the number of
iterations; running out is `none`. -/
def trimStart [Zero K] [DecidableEq K] (p : Int) (m : Mem K) : Nat → Nat → Option Nat
  | 0, _ => none
  | fuel+1, j => (m.read (p + j)).bind fun x => if x = 0 then trimStart p m fuel (j+1) else some j

/-- `UnitAMultMV<add,cx>(A,x,y)` (src/TMV_MultMV.cpp:219-257). -/
def unitMulMV [Star K] [Ring K] [DecidableEq K] (add cx : Bool) (A : MView) (x y : VView) (m : Mem K) :
    Option (Mem K) :=
  (trimEnd x.ptr m x.size).bind fun j2 =>
  if j2 = 0 then (if add then some m else y.setZero m)
  else
    (trimStart x.ptr m x.size 0).bind fun j1 =>
    if j1 = 0 ∧ j2 = x.size then unitMulMV1 add cx A x y m
    else unitMulMV1 add cx (A.colRange j1 j2) (x.subVector2 j1 j2) y m

/-- `NonBlasMultMV<add>(alpha,A,x,y)` (src/TMV_MultMV.cpp:298-374). -/
def nonBlasMulMV [Star K] [Ring K] [DecidableEq K] (al : Alloc K) (add : Bool) (alpha : K) (A : MView)
    (x y : VView) (m : Mem K) : Option (Mem K) :=
  if x.step ≠ 1 ∨ x.sameStorage y ∨ (alpha ≠ 1 ∧ y.step = 1 ∧ A.cs / 4 ≥ A.rs) then
    al.withTemp x.size (fun tx m =>
      let xx : VView := ⟨tx, x.size, 1, false⟩
      (VView.mulXV alpha x xx m).bind fun m =>
      if y.step ≠ 1 then
        al.withTemp y.size (fun ty m =>
          let yy : VView := ⟨ty, y.size, 1, false⟩
          (unitMulMV false false A xx yy m).bind fun m =>
          if add then VView.addVV 1 yy y m else VView.copy yy y m) m
      else unitMulMV add false A xx y m) m
  else if y.step ≠ 1 ∨ alpha ≠ 1 then
    al.withTemp y.size (fun ty m =>
      let yy : VView := ⟨ty, y.size, 1, false⟩
      (unitMulMV false x.conj A x yy m).bind fun m =>
      if add then VView.addVV alpha yy y m else VView.mulXV alpha yy y m) m
  else unitMulMV add x.conj A x y m

/-- `MultMV<add>(alpha,A,x,y)`, i.e. `y (+)= alpha*A*x` (src/TMV_MultMV.cpp:1134-1169). -/
def mulMV [Star K] [Ring K] [DecidableEq K] (al : Alloc K) (add : Bool) (alpha : K) (A : MView) (x y : VView)
    (m : Mem K) : Option (Mem K) :=
  if y.size > 0 then
    if x.size = 0 ∨ alpha = 0 then (if add then some m else y.setZero m)
    else if y.conj then nonBlasMulMV al add (star alpha) A.conjugate x.conjugate y.conjugate m
    else nonBlasMulMV al add alpha A x y m
  else some m

end MView
end TMV
