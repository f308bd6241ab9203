import Verif.Model.LUDiv
import Verif.Model.SymRK
import Verif.Model.Loop
import Verif.Model.Fun

/-! Diagonal matrices: products with matrices (TMV_MultDM.cpp), division, inverse and determinant (TMV_DiagMatrix.cpp:49-577).  Exact real or
complex elements of one type; the destination is not conjugated (otherwise the functions call themselves with the conjugates of all operands). -/
namespace TMV.Diag
noncomputable section
open Classical
variable {K : Type} [RCLike K]

/-- A view of a diagonal matrix: the numbers in memory, `diag().isconj()`, and whether `diag().step()` is 1. -/
structure DV (K : Type) where
  d : Nat → K
  cj : Bool
  unit : Bool

/-- The elements of the matrix. -/
def DV.el (A : DV K) (i : Nat) : K := TMV.cj A.cj (A.d i)

/-- A new `DiagMatrix` with elements `e`. -/
def DV.new (e : Nat → K) : DV K := ⟨e, false, true⟩

/-- Layout of a matrix: `isrm()`, `iscm()`. -/
structure Lay where
  rm : Bool
  cm : Bool

/-- `RowMultEqMM<rm,ca>(A,B)` (TMV_MultDM.cpp:40-90), `M`×`N`. -/
def rowMultEq (ca : Bool) (M N : Nat) (A : DV K) (B : Nat → Nat → K) : Nat → Nat → K :=
  up (fun i B => fun a c => if a = i ∧ c < N then
    (if A.d i = 0 then 0
     else if RCLike.im (A.d i) = 0 then B a c * ((RCLike.re (A.d i) : ℝ) : K)
     else B a c * TMV.cj ca (A.d i)) else B a c) M 0 B

/-- `DoColMultEqMM<cm,ca>(A,B)` (TMV_MultDM.cpp:92-125). -/
def doColMultEq (ca : Bool) (M N : Nat) (A : DV K) (B : Nat → Nat → K) : Nat → Nat → K :=
  up (fun j B => up (fun i B => fun a c => if a = i ∧ c = j then B a c * TMV.cj ca (A.d i) else B a c) M 0 B) N 0 B

/-- `ColMultEqMM<cm,ca>(A,B)` (TMV_MultDM.cpp:127-137). -/
def colMultEq (ca : Bool) (M N : Nat) (A : DV K) (B : Nat → Nat → K) : Nat → Nat → K :=
  if A.unit then doColMultEq ca M N A B else doColMultEq false M N (DV.new A.el) B

/-- `MultEqMM(alpha,A,B)` (TMV_MultDM.cpp:139-190).  The two branches for `alpha != 1` differ in the type of `AA` only. -/
def multEq (l : Lay) (α : K) (M N : Nat) (A : DV K) (B : Nat → Nat → K) : Nat → Nat → K :=
  if M > 0 ∧ N > 0 then
    if α ≠ 1 then
      let AA := DV.new fun i => α * A.el i
      if l.rm then rowMultEq false M N AA B
      else if l.cm then doColMultEq false M N AA B
      else if M > N then doColMultEq false M N AA B
      else rowMultEq false M N AA B
    else
      if l.rm then rowMultEq A.cj M N A B
      else if l.cm then colMultEq A.cj M N A B
      else if M > N then colMultEq A.cj M N A B
      else rowMultEq A.cj M N A B
  else B

/-- `DoRowAddMultMM<rm,ca,cb>(A,B,C)` (TMV_MultDM.cpp:203-255). -/
def rowAdd (ca : Bool) (M N : Nat) (A : DV K) (B C : Nat → Nat → K) : Nat → Nat → K :=
  up (fun i C => fun a c => if a = i ∧ c < N then
    (if RCLike.im (A.d i) = 0 then
      (if RCLike.re (A.d i) ≠ 0 then C a c + ((RCLike.re (A.d i) : ℝ) : K) * B a c else C a c)
     else C a c + TMV.cj ca (A.d i) * B a c) else C a c) M 0 C

/-- `DoColAddMultMM<cm,ca,cb>(A,B,C)` (TMV_MultDM.cpp:266-306). -/
def doColAdd (ca : Bool) (M N : Nat) (A : DV K) (B C : Nat → Nat → K) : Nat → Nat → K :=
  up (fun j C => up (fun i C => fun a c => if a = i ∧ c = j then C a c + TMV.cj ca (A.d i) * B a c else C a c) M 0 C) N 0 C

/-- `ColAddMultMM<cm,ca>(A,B,C)` (TMV_MultDM.cpp:308-325): the copy `AA` holds the elements of `A`, but `ca` is passed on. -/
def colAdd (ca : Bool) (M N : Nat) (A : DV K) (B C : Nat → Nat → K) : Nat → Nat → K :=
  if A.unit then doColAdd ca M N A B C else doColAdd ca M N (DV.new A.el) B C

/-- `AddMultMM(alpha,A,B,C)` (TMV_MultDM.cpp:327-393), `lb`, `lc` the layouts of `B` and `C`. -/
def addMult (lb lc : Lay) (α : K) (M N : Nat) (A : DV K) (B C : Nat → Nat → K) : Nat → Nat → K :=
  if M > 0 ∧ N > 0 then
    if α ≠ 1 then
      let AA := DV.new fun i => α * A.el i
      if lb.rm ∧ lc.rm then rowAdd false M N AA B C
      else if lb.cm ∧ lc.cm then colAdd false M N AA B C
      else if M > N then colAdd false M N AA B C
      else rowAdd false M N AA B C
    else
      if lb.rm ∧ lc.rm then rowAdd A.cj M N A B C
      else if lb.cm ∧ lc.cm then colAdd A.cj M N A B C
      else if M > N then colAdd A.cj M N A B C
      else rowAdd A.cj M N A B C
  else C

/-- `MultMM<add>(alpha,A,B,C)` (TMV_MultDM.cpp:411-455), `ac` = `SameStorage(A.diag(),C)`, `bc` = `SameStorage(B,C)`; `B` are the elements
before the call. -/
def mulM (add ac bc : Bool) (lb lc : Lay) (α : K) (M N : Nat) (A : DV K) (B C : Nat → Nat → K) : Nat → Nat → K :=
  let body (A : DV K) : Nat → Nat → K :=
    if !add then multEq lc α M N A (fun i j => if i < M ∧ j < N then B i j else C i j)
    else if bc then
      let t := multEq ⟨lb.rm, !lb.rm⟩ α M N A B
      fun i j => if i < M ∧ j < N then C i j + t i j else C i j
    else addMult lb lc α M N A B C
  if M > 0 ∧ N > 0 then
    if α = 0 then (if add then C else fun i j => if i < M ∧ j < N then 0 else C i j)
    else if ac then body (DV.new A.el)
    else body A
  else C

/-- `DoDiagLDivEq1<cd>(d,v)` (TMV_DiagMatrix.cpp:295-340); `none` = `SingularDiagMatrix` was thrown. -/
def divV (n : Nat) (D : DV K) (v : Nat → K) : Option (Nat → K) :=
  forRange (fun i v => if D.d i = 0 then none else some fun a => if a = i then v a / TMV.cj D.cj (D.d i) else v a) n 0 v

/-- `RowDiagLDivEq<rm,cd>(d,m)` (TMV_DiagMatrix.cpp:416-457). -/
def rowDiv (M N : Nat) (D : DV K) (m : Nat → Nat → K) : Option (Nat → Nat → K) :=
  forRange (fun i m => if D.d i = 0 then none else
    let inv := (TMV.cj D.cj (D.d i))⁻¹
    some fun a c => if a = i ∧ c < N then m a c * inv else m a c) M 0 m

/-- `ColDiagLDivEq<cm,cd>(d,m)` (TMV_DiagMatrix.cpp:459-507): `invd` is a new diagonal matrix (`g`: what its memory holds), then `m = invd*m`. -/
def colDiv (l : Lay) (g : Nat → K) (M N : Nat) (D : DV K) (m : Nat → Nat → K) : Option (Nat → Nat → K) :=
  (forRange (fun i inv => if D.d i = 0 then none else some fun a => if a = i then (TMV.cj D.cj (D.d i))⁻¹ else inv a) M 0 g).map fun inv =>
    mulM false false true l l 1 M N (DV.new inv) m m

/-- `doLDivEq(m)` (TMV_DiagMatrix.cpp:524-549, DoDiagLDivEq 509-522), i.e. `m /= D`. -/
def divM (l : Lay) (g : Nat → K) (M N : Nat) (D : DV K) (m : Nat → Nat → K) : Option (Nat → Nat → K) :=
  if M > 0 ∧ N > 0 then
    if N = 1 then (divV M D fun i => m i 0).map fun v => fun a c => if c = 0 ∧ a < M then v a else m a c
    else if l.rm then rowDiv M N D m
    else if l.cm then colDiv l g M N D m
    else if M > N then colDiv l g M N D m
    else rowDiv M N D m
  else some m

/-- `invertSelf()` (TMV_DiagMatrix.cpp:149-189) on the memory of the diagonal. -/
def invertSelf (n : Nat) (d : Nat → K) : Option (Nat → K) :=
  forRange (fun i d => if d i = 0 then none else some fun a => if a = i then (d i)⁻¹ else d a) n 0 d

/-- `doMakeInverse(minv)` for a matrix (TMV_DiagMatrix.cpp:201-211), `minv` not conjugated, `ss` = `SameStorage(diag(),minv)`. -/
def makeInverse (ss : Bool) (n : Nat) (A : DV K) (minv : Nat → Nat → K) : Option (Nat → Nat → K) :=
  let m : Nat → Nat → K := if !ss then (fun i j => if i < n ∧ j < n then 0 else minv i j) else minv
  (invertSelf n A.el).map fun d =>
  let m : Nat → Nat → K := fun i j => if i = j ∧ i < n then d i else m i j
  if ss ∧ n > 1 then fun i j => if i ≠ j ∧ i < n ∧ j < n then 0 else m i j else m

/-- `doMakeInverseATA(ata)` for a matrix (TMV_DiagMatrix.cpp:237-279), `ata` not conjugated and not sharing memory with the diagonal: the
inverse is put on the diagonal of the zero matrix and its elements replaced by their squared norms. -/
def makeInverseATA (n : Nat) (A : DV K) (ata : Nat → Nat → K) : Option (Nat → Nat → K) :=
  (invertSelf n A.el).map fun d => fun i j =>
    if i < n ∧ j < n then (if i = j then ((RCLike.normSq (d i) : ℝ) : K) else 0) else ata i j

/-- `doMakeInverseATA(ata)` (TMV_DiagMatrix.cpp:273-279) when the matrix is the diagonal of `ata` itself: `ata.setZero()` comes first. -/
def makeInverseATASelf (n : Nat) (ata : Nat → Nat → K) : Option (Nat → Nat → K) :=
  let z : Nat → Nat → K := fun i j => if i < n ∧ j < n then 0 else ata i j
  makeInverseATA n (DV.new fun i => z i i) z

/-- `logDet(&sign)` (TMV_DiagMatrix.cpp:58-93). -/
def logDet (n : Nat) (A : DV K) : ℝ × K :=
  let r := LU.logDetLoop A.d n 0 (0, 1)
  (r.1, TMV.cj A.cj r.2)

/-- `det()` (TMV_DiagMatrix.cpp:49-56). -/
def det (n : Nat) (A : DV K) : K :=
  let r := logDet n A
  if r.2 = 0 then 0 else r.2 * ((Real.exp r.1 : ℝ) : K)

end
end TMV.Diag
