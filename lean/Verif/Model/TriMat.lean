import Verif.Model.Mat

/-!
Upper and lower triangular matrices and their views (include/tmv/TMV_TriMatrix.h,
src/TMV_TriMatrix.cpp), on the memory of `Model/Mem`.
-/
namespace TMV

/-- `ConstUpperTriMatrixView`/`UpperTriMatrixView`: data members `itsm, itss, itssi, itssj, itsdiag,
itsct` (include/tmv/TMV_TriMatrix.h:1624-1634); `unit` is `dt()==UnitDiag`.  Simplification: the size
is a `Nat` (a negative `ptrdiff_t` size becomes 0). -/
structure TView where
  ptr : Int
  n : Nat
  si : Int
  sj : Int
  unit : Bool
  conj : Bool
deriving DecidableEq, Repr

/-- `ConstLowerTriMatrixView`/`LowerTriMatrixView`: the same data members
(include/tmv/TMV_TriMatrix.h:1041ff). -/
structure LView where
  ptr : Int
  n : Nat
  si : Int
  sj : Int
  unit : Bool
  conj : Bool
deriving DecidableEq, Repr

variable {K : Type _}

/-- `lowerTri(dt)` / `unitLowerTri()` of a full matrix (include/tmv/TMV_Matrix.h:737-749, 1663-1677). -/
def MView.lowerTri (M : MView) (unit : Bool) : LView := ⟨M.ptr, M.cs, M.si, M.sj, unit, M.conj⟩
/-- `upperTri(dt)` / `unitUpperTri()` of a full matrix (include/tmv/TMV_Matrix.h:723-735, 1648-1661). -/
def MView.upperTri (M : MView) (unit : Bool) : TView := ⟨M.ptr, M.rs, M.si, M.sj, unit, M.conj⟩

namespace TView

/-- `okij(i,j)` (include/tmv/TMV_TriMatrix.h:1027-1032). -/
def okij (M : TView) (i j : Int) : Bool := if M.unit then decide (i - j < 0) else decide (i - j ≤ 0)

/-- Address of element `(i,j)`: `cptr()+i*stepi()+j*stepj()` (include/tmv/TMV_TriMatrix.h:1004, 2410). -/
def addr (M : TView) (i j : Int) : Int := M.ptr + i * M.si + j * M.sj

/-- `GenUpperTriMatrix::cref` (include/tmv/TMV_TriMatrix.h:999-1007; owner: 4281-4287). -/
def cref [Star K] [Zero K] [One K] (M : TView) (m : Mem K) (i j : Int) : Option K :=
  if M.unit = true ∧ i = j then some 1
  else if i > j then some 0
  else (m.read (M.addr i j)).map (cj M.conj)

/-- `m(i,j) = x`: `ref(i,j)` and `TriRef::assign` (include/tmv/TMV_TriMatrix.h:2408-2412, 430-435):
nothing is stored on a unit diagonal. -/
def setRef [Star K] (M : TView) (i j : Int) (x : K) (m : Mem K) : Option (Mem K) :=
  if M.unit = true ∧ i = j then some m else m.write (M.addr i j) (cj M.conj x)

/-- `isrm()` (include/tmv/TMV_TriMatrix.h:990 `stepj()==1`). -/
def isrm (M : TView) : Bool := decide (M.sj = 1)
/-- `iscm()` (include/tmv/TMV_TriMatrix.h:991 `stepi()==1`). -/
def iscm (M : TView) : Bool := decide (M.si = 1)

/-- The layout of an `UpperTriMatrix(n)`: `itsm`, `itss = n`, array of `n*n` elements
(include/tmv/TMV_TriMatrix.h:4274-4300, `stepi()`, `stepj()`), seen through `view()` (:4205-4209). -/
def ofStor (p : Int) (n : Nat) (rowMajor unit : Bool) : TView :=
  ⟨p, n, if rowMajor then n else 1, if rowMajor then 1 else n, unit, false⟩

/-! ### Vector-valued views -/

/-- `row(i,j1,j2)` (include/tmv/TMV_TriMatrix.h:545-552). -/
def row3 (M : TView) (i j1 j2 : Int) : VView :=
  ⟨M.ptr + i * M.si + j1 * M.sj, (j2 - j1).toNat, M.sj, M.conj⟩
/-- `col(j,i1,i2)` (include/tmv/TMV_TriMatrix.h:554-561). -/
def col3 (M : TView) (j i1 i2 : Int) : VView :=
  ⟨M.ptr + i1 * M.si + j * M.sj, (i2 - i1).toNat, M.si, M.conj⟩
/-- `diag()` (include/tmv/TMV_TriMatrix.h:563-567). -/
def diag (M : TView) : VView := ⟨M.ptr, M.n, M.si + M.sj, M.conj⟩
/-- `diag(i)` (include/tmv/TMV_TriMatrix.h:569-575). -/
def diagOff (M : TView) (i : Int) : VView :=
  ⟨M.ptr + i * M.sj, ((M.n : Int) - i).toNat, M.si + M.sj, M.conj⟩
/-- `diag(i,j1,j2)` (include/tmv/TMV_TriMatrix.h:577-584). -/
def diag3 (M : TView) (i j1 j2 : Int) : VView :=
  ⟨M.ptr + i * M.sj + j1 * (M.si + M.sj), (j2 - j1).toNat, M.si + M.sj, M.conj⟩
/-- `cSubVector(i,j,istep,jstep,size)` (include/tmv/TMV_TriMatrix.h:676-683). -/
def subVector (M : TView) (i j istep jstep s : Int) : VView :=
  ⟨M.ptr + i * M.si + j * M.sj, s.toNat, istep * M.si + jstep * M.sj, M.conj⟩

/-! ### Matrix-valued views -/

/-- `cSubMatrix(i1,i2,j1,j2)` (include/tmv/TMV_TriMatrix.h:646-652). -/
def subMatrix4 (M : TView) (i1 i2 j1 j2 : Int) : MView :=
  ⟨M.ptr + i1 * M.si + j1 * M.sj, (i2 - i1).toNat, (j2 - j1).toNat, M.si, M.sj, M.conj, 0⟩
/-- `cSubMatrix(i1,i2,j1,j2,istep,jstep)` (include/tmv/TMV_TriMatrix.h:661-667); `none` = division by
zero. -/
def subMatrix6 (M : TView) (i1 i2 j1 j2 istep jstep : Int) : Option MView :=
  if istep = 0 ∨ jstep = 0 then none else
  some ⟨M.ptr + i1 * M.si + j1 * M.sj, ((i2 - i1).tdiv istep).toNat, ((j2 - j1).tdiv jstep).toNat,
    istep * M.si, jstep * M.sj, M.conj, 0⟩
/-- `cSubTriMatrix(i1,i2)` (include/tmv/TMV_TriMatrix.h:693-698). -/
def subTri2 (M : TView) (i1 i2 : Int) : TView :=
  ⟨M.ptr + i1 * (M.si + M.sj), (i2 - i1).toNat, M.si, M.sj, M.unit, M.conj⟩
/-- `cSubTriMatrix(i1,i2,istep)` (include/tmv/TMV_TriMatrix.h:706-712); `none` = division by zero. -/
def subTri3 (M : TView) (i1 i2 istep : Int) : Option TView :=
  if istep = 0 then none else
  some ⟨M.ptr + i1 * (M.si + M.sj), ((i2 - i1).tdiv istep).toNat, istep * M.si, istep * M.sj,
    M.unit, M.conj⟩
/-- `offDiag(noff)` (include/tmv/TMV_TriMatrix.h:721-728). -/
def offDiag (M : TView) (noff : Int) : TView :=
  ⟨M.ptr + noff * M.sj, ((M.n : Int) - noff).toNat, M.si, M.sj, false, M.conj⟩
/-- `viewAsUnitDiag()` (include/tmv/TMV_TriMatrix.h:754-758). -/
def viewAsUnitDiag (M : TView) : TView := ⟨M.ptr, M.n, M.si, M.sj, true, M.conj⟩
/-- `transpose()` (include/tmv/TMV_TriMatrix.h:760-764). -/
def transpose (M : TView) : LView := ⟨M.ptr, M.n, M.sj, M.si, M.unit, M.conj⟩
/-- `conjugate()` (include/tmv/TMV_TriMatrix.h:766-770). -/
def conjugate (M : TView) : TView := ⟨M.ptr, M.n, M.si, M.sj, M.unit, !M.conj⟩
/-- `adjoint()` (include/tmv/TMV_TriMatrix.h:772-776). -/
def adjoint (M : TView) : LView := ⟨M.ptr, M.n, M.sj, M.si, M.unit, !M.conj⟩

/-- `isSameAs` (include/tmv/TMV_TriMatrix.h:590-598). -/
def isSameAs (M N : TView) : Bool :=
  decide (M.ptr = N.ptr ∧ M.n = N.n ∧ M.unit = N.unit ∧ M.conj = N.conj ∧ M.si = N.si ∧ M.sj = N.sj)

/-! ### Range checks -/

/-- `GenUpperTriMatrix::hasSubMatrix` (src/TMV_TriMatrix.cpp:39-111); `none` = division by zero. -/
def hasSubMatrix (M : TView) (i1 i2 j1 j2 istep jstep : Int) : Option Bool :=
  if i1 = i2 ∨ j1 = j2 then some true else do
    let a ← MView.rangeCheck M.n i1 i2 istep
    let b ← MView.rangeCheck M.n j1 j2 jstep
    let ok := a && b
    let ok := if !M.okij i1 j1 then false else ok
    let ok := if !M.okij i1 (j2 - jstep) then false else ok
    let ok := if !M.okij (i2 - istep) j1 then false else ok
    let ok := if !M.okij (i2 - istep) (j2 - jstep) then false else ok
    some ok

/-- `GenUpperTriMatrix::hasSubVector` (src/TMV_TriMatrix.cpp:113-152). -/
def hasSubVector (M : TView) (i j istep jstep size : Int) : Bool :=
  if size = 0 then true else
  let ok := true
  let ok := if istep = 0 ∧ jstep = 0 then false else ok
  let ok := if i < 0 ∨ i ≥ M.n then false else ok
  let ok := if j < 0 ∨ j ≥ M.n then false else ok
  let i2 := i + istep * (size - 1)
  let j2 := j + jstep * (size - 1)
  let ok := if i2 < 0 ∨ i2 ≥ M.n then false else ok
  let ok := if j2 < 0 ∨ j2 ≥ M.n then false else ok
  let ok := if !M.okij i j then false else ok
  let ok := if !M.okij i2 j2 then false else ok
  ok

/-- `GenUpperTriMatrix::hasSubTriMatrix` (src/TMV_TriMatrix.cpp:154-184); `none` = division by zero. -/
def hasSubTri (M : TView) (i1 i2 istep : Int) : Option Bool :=
  if i1 = i2 then some true else MView.rangeCheck M.n i1 i2 istep

/-! ### Whole-matrix operations -/

/-- `row(i,i+1,N)` for a unit diagonal, else `row(i,i,N)` (src/TMV_TriMatrix.cpp:348-353 and the other
row loops). -/
def rowU (M : TView) (i : Nat) : VView := if M.unit then M.row3 i (i + 1) M.n else M.row3 i i M.n
/-- `col(j,0,j)` for a unit diagonal, else `col(j,0,j+1)` (src/TMV_TriMatrix.cpp:355-360 and the other
column loops). -/
def colU (M : TView) (j : Nat) : VView := if M.unit then M.col3 j 0 j else M.col3 j 0 (j + 1)

/-- The common body of `setZero, setAllTo, addToAll, clip, conjugateSelf` on a view
(src/TMV_TriMatrix.cpp:786-869; `addToAll` asserts `!isunit()`). -/
def each (op : VView → Mem K → Option (Mem K)) (M : TView) (m : Mem K) : Option (Mem K) :=
  if M.isrm then loopV M.rowU op M.n 0 m else loopV M.colU op M.n 0 m

/-- `setZero` (src/TMV_TriMatrix.cpp:785-800). -/
def setZero [Star K] [Zero K] (M : TView) : Mem K → Option (Mem K) := M.each VView.setZero
/-- `setAllTo` (src/TMV_TriMatrix.cpp:802-818). -/
def setAllTo [Star K] (M : TView) (x : K) : Mem K → Option (Mem K) := M.each (fun v => v.setAllTo x)
/-- `addToAll` (src/TMV_TriMatrix.cpp:820-831), asserts `!isunit()`. -/
def addToAll [Star K] [Add K] (M : TView) (x : K) : Mem K → Option (Mem K) :=
  M.each (fun v => v.addToAll x)
/-- `clip` (src/TMV_TriMatrix.cpp:833-848). -/
def clip {R : Type _} [LT R] [DecidableLT R] [Zero K] (abs : K → R) (M : TView) (t : R) :
    Mem K → Option (Mem K) := M.each (fun v => v.clip abs t)
/-- `conjugateSelf` (src/TMV_TriMatrix.cpp:850-869), complex `T`. -/
def conjugateSelf [Star K] (M : TView) : Mem K → Option (Mem K) := M.each VView.conjugateSelf
/-- `setToIdentity(x)` (src/TMV_TriMatrix.cpp:871-878). -/
def setToIdentity [Star K] [Zero K] (M : TView) (x : K) (m : Mem K) : Option (Mem K) := do
  let m ← M.setZero m
  if M.unit then some m else M.diag.setAllTo x m

/-- `UpperTriMatrix::setZero, setAllTo, addToAll, clip, conjugateSelf` of an owner: the whole array
`itsm[0..itslen)`, `itslen = n*n` (include/tmv/TMV_TriMatrix.h:3944-3962). -/
def ownerEach (op : VView → Mem K → Option (Mem K)) (p : Int) (n : Nat) (m : Mem K) :
    Option (Mem K) := op ⟨p, n * n, 1, false⟩ m

/-- `Swap(m1,m2)` (src/TMV_TriMatrix.cpp:884-907). -/
def swapM [Star K] (A B : TView) (m : Mem K) : Option (Mem K) :=
  if A.isrm ∧ B.isrm then
    if A.unit then
      loopV2 (fun i => A.row3 i (i + 1) A.n) (fun i => B.row3 i (i + 1) A.n) VView.swapV A.n 0 m
    else loopV2 (fun i => A.row3 i i A.n) (fun i => B.row3 i i A.n) VView.swapV A.n 0 m
  else
    if A.unit then loopV2 (fun j => A.col3 j 0 j) (fun j => B.col3 j 0 j) VView.swapV A.n 0 m
    else loopV2 (fun j => A.col3 j 0 (j + 1)) (fun j => B.col3 j 0 (j + 1)) VView.swapV A.n 0 m

/-- `nonUnitDiagCopy(m1,m2)` (include/tmv/TMV_TriMatrix.h:5330-5346). -/
def nonUnitDiagCopy [Star K] (A B : TView) (m : Mem K) : Option (Mem K) :=
  if ¬ A.isSameAs B ∧ A.n > 0 then
    if A.iscm ∧ B.iscm then
      loopV2 (fun j => A.col3 j 0 (j + 1)) (fun j => B.col3 j 0 (j + 1)) VView.copy A.n 0 m
    else loopV2 (fun i => A.row3 i i A.n) (fun i => B.row3 i i A.n) VView.copy A.n 0 m
  else some m

/-- `Copy(m1,m2)` (include/tmv/TMV_TriMatrix.h:5348-5364). -/
def copy [Star K] [One K] (A B : TView) (m : Mem K) : Option (Mem K) :=
  if A.unit then
    (if A.n > 0 then nonUnitDiagCopy (A.offDiag 1) (B.offDiag 1) m else some m).bind fun m =>
    if B.unit then some m else B.diag.setAllTo 1 m
  else nonUnitDiagCopy A B m

/-- `assignToU(m2)` (include/tmv/TMV_TriMatrix.h:620-632), i.e. `m2 = m1`. -/
def assignToU [Star K] [One K] (A B : TView) (m : Mem K) : Option (Mem K) :=
  if A.isSameAs B then some m else copy A B m

/-- `for(j) if (m1.col(j,0,j) != m2.col(j,0,j)) return false;` (src/TMV_TriMatrix.cpp:921-923). -/
def eqCols [Star K] [DecidableEq K] (A B : TView) (m : Mem K) : Nat → Nat → Option Bool
  | 0, _ => some true
  | n+1, j => do
      let b ← VView.eqV (A.col3 j 0 j) (B.col3 j 0 j) m
      if b = false then return false
      eqCols A B m n (j+1)

/-- `for(i) if (m(i,i) != 1) return false;` (src/TMV_TriMatrix.cpp:925-929). -/
def diagOne [Star K] [Zero K] [One K] [DecidableEq K] (M : TView) (m : Mem K) : Nat → Nat → Option Bool
  | 0, _ => some true
  | n+1, i => do
      let x ← M.cref m i i
      if x ≠ 1 then return false
      diagOne M m n (i+1)

/-- `operator==(m1,m2)` (src/TMV_TriMatrix.cpp:913-935). -/
def eqM [Star K] [Zero K] [One K] [DecidableEq K] (A B : TView) (m : Mem K) : Option Bool :=
  if A.n ≠ B.n then some false
  else if A.isSameAs B then some true
  else do
    let b ← eqCols A B m A.n 0
    if b = false then return false
    if A.unit = true ∧ ¬ B.unit = true then diagOne B m A.n 0
    else if B.unit = true ∧ ¬ A.unit = true then diagOne A m A.n 0
    else if ¬ A.unit = true ∧ ¬ B.unit = true then VView.eqV A.diag B.diag m
    else return true

/-! ### Reductions -/

/-- The row or column loop of `sumElements`, `DoSumAbsElements`, `DoSumAbs2Elements`, `normSq`,
`NonLapMaxAbsElement` (src/TMV_TriMatrix.cpp:342-448, 481-530). -/
def reduce {β γ : Type _} (red : VView → Mem K → Option β) (g : γ → β → γ) (b0 : γ) (M : TView)
    (m : Mem K) : Option γ :=
  if M.isrm then loopVFold M.rowU red g m M.n 0 b0 else loopVFold M.colU red g m M.n 0 b0

/-- `sumElements` (src/TMV_TriMatrix.cpp:342-362). -/
def sumElements [Star K] [Semiring K] (M : TView) (m : Mem K) : Option K := do
  let s ← M.reduce VView.sumElements (· + ·) 0 m
  some (if M.unit then s + (M.n : K) else s)
/-- `DoSumAbsElements`, `DoSumAbs2Elements` (src/TMV_TriMatrix.cpp:364-408). -/
def sumAbs {R : Type _} [Semiring R] (ab : K → R) (M : TView) (m : Mem K) : Option R := do
  let s ← M.reduce (fun v => v.sumAbs ab) (· + ·) 0 m
  some (if M.unit then s + (M.n : R) else s)
/-- `normSq(scale)` (src/TMV_TriMatrix.cpp:424-446). -/
def normSq {R : Type _} [Semiring R] [DecidableEq R] (nrm : K → R) (scal : R → K → K) (scale : R)
    (M : TView) (m : Mem K) : Option R := do
  let s ← M.reduce (fun v => v.normSq nrm scal scale) (· + ·) 0 m
  some (if M.unit then (if scale = 1 then s + (M.n : R) else s + (M.n : R) * scale * scale) else s)
/-- `NonLapMaxAbsElement`, `NonLapMaxAbs2Element` (src/TMV_TriMatrix.cpp:481-530); the vector's
`normInf()` is `maxAbsElement()`, 0 if empty (include/tmv/TMV_Vector.h:488). -/
def maxAbs {R : Type _} [LT R] [DecidableLT R] [Zero R] [One R] (ab : K → R) (M : TView) (m : Mem K) :
    Option R := do
  let mx ← M.reduce (fun v m => (v.maxAbs ab m).map (·.1)) (fun mx t => if t > mx then t else mx) 0 m
  some (if M.unit = true ∧ mx < 1 then 1 else mx)
/-- `NonLapNorm1` (src/TMV_TriMatrix.cpp:532-546). -/
def norm1 {R : Type _} [Semiring R] [LT R] [DecidableLT R] (ab : K → R) (M : TView) (m : Mem K) :
    Option R :=
  loopVFold M.colU (fun v m => (v.sumAbs ab m).map (fun t => if M.unit then t + 1 else t))
    (fun mx t => if t > mx then t else mx) m M.n 0 0
/-- `NonLapNormInf` (src/TMV_TriMatrix.cpp:548-562). -/
def normInf {R : Type _} [Semiring R] [LT R] [DecidableLT R] (ab : K → R) (M : TView) (m : Mem K) :
    Option R :=
  loopVFold M.rowU (fun v m => (v.sumAbs ab m).map (fun t => if M.unit then t + 1 else t))
    (fun mx t => if t > mx then t else mx) m M.n 0 0

end TView

namespace LView

/-- `okij(i,j)` (include/tmv/TMV_TriMatrix.h:1562-1567). -/
def okij (M : LView) (i j : Int) : Bool := if M.unit then decide (i - j > 0) else decide (i - j ≥ 0)
/-- Address of element `(i,j)` (include/tmv/TMV_TriMatrix.h:1538, 2889). -/
def addr (M : LView) (i j : Int) : Int := M.ptr + i * M.si + j * M.sj
/-- `GenLowerTriMatrix::cref` (include/tmv/TMV_TriMatrix.h:1533-1541). -/
def cref [Star K] [Zero K] [One K] (M : LView) (m : Mem K) (i j : Int) : Option K :=
  if M.unit = true ∧ i = j then some 1
  else if i < j then some 0
  else (m.read (M.addr i j)).map (cj M.conj)
/-- `m(i,j) = x` (include/tmv/TMV_TriMatrix.h:2887-2891, 430-435). -/
def setRef [Star K] (M : LView) (i j : Int) (x : K) (m : Mem K) : Option (Mem K) :=
  if M.unit = true ∧ i = j then some m else m.write (M.addr i j) (cj M.conj x)

/-- `row(i,j1,j2)` (include/tmv/TMV_TriMatrix.h:1091-1098). -/
def row3 (M : LView) (i j1 j2 : Int) : VView :=
  ⟨M.ptr + i * M.si + j1 * M.sj, (j2 - j1).toNat, M.sj, M.conj⟩
/-- `col(j,i1,i2)` (include/tmv/TMV_TriMatrix.h:1100-1107). -/
def col3 (M : LView) (j i1 i2 : Int) : VView :=
  ⟨M.ptr + i1 * M.si + j * M.sj, (i2 - i1).toNat, M.si, M.conj⟩
/-- `diag()` (include/tmv/TMV_TriMatrix.h:1109-1113). -/
def diag (M : LView) : VView := ⟨M.ptr, M.n, M.si + M.sj, M.conj⟩
/-- The const `GenLowerTriMatrix::diag(i)` (include/tmv/TMV_TriMatrix.h:1115-1121), used by
`ConstLowerTriMatrixView` and by a const `LowerTriMatrixView`: the size is `size()-i`. -/
def diagOffConst (M : LView) (i : Int) : VView :=
  ⟨M.ptr - i * M.si, ((M.n : Int) - i).toNat, M.si + M.sj, M.conj⟩
/-- `LowerTriMatrixView::diag(i)`, `LowerTriMatrix::diag(i)` (include/tmv/TMV_TriMatrix.h:2624-2630,
4635-4641, 4694-4700): the size is `size()+i`. -/
def diagOff (M : LView) (i : Int) : VView :=
  ⟨M.ptr - i * M.si, ((M.n : Int) + i).toNat, M.si + M.sj, M.conj⟩
/-- `diag(i,j1,j2)` (include/tmv/TMV_TriMatrix.h:1123-1130). -/
def diag3 (M : LView) (i j1 j2 : Int) : VView :=
  ⟨M.ptr - i * M.si + j1 * (M.si + M.sj), (j2 - j1).toNat, M.si + M.sj, M.conj⟩
/-- `cSubVector` (include/tmv/TMV_TriMatrix.h:1198-1204). -/
def subVector (M : LView) (i j istep jstep s : Int) : VView :=
  ⟨M.ptr + i * M.si + j * M.sj, s.toNat, istep * M.si + jstep * M.sj, M.conj⟩
/-- `cSubMatrix(i1,i2,j1,j2)` (include/tmv/TMV_TriMatrix.h:1168-1174). -/
def subMatrix4 (M : LView) (i1 i2 j1 j2 : Int) : MView :=
  ⟨M.ptr + i1 * M.si + j1 * M.sj, (i2 - i1).toNat, (j2 - j1).toNat, M.si, M.sj, M.conj, 0⟩
/-- `cSubMatrix(i1,i2,j1,j2,istep,jstep)` (include/tmv/TMV_TriMatrix.h:1183-1189). -/
def subMatrix6 (M : LView) (i1 i2 j1 j2 istep jstep : Int) : Option MView :=
  if istep = 0 ∨ jstep = 0 then none else
  some ⟨M.ptr + i1 * M.si + j1 * M.sj, ((i2 - i1).tdiv istep).toNat, ((j2 - j1).tdiv jstep).toNat,
    istep * M.si, jstep * M.sj, M.conj, 0⟩
/-- `cSubTriMatrix(i1,i2)` (include/tmv/TMV_TriMatrix.h:1214-1219). -/
def subTri2 (M : LView) (i1 i2 : Int) : LView :=
  ⟨M.ptr + i1 * (M.si + M.sj), (i2 - i1).toNat, M.si, M.sj, M.unit, M.conj⟩
/-- `cSubTriMatrix(i1,i2,istep)` (include/tmv/TMV_TriMatrix.h:1227-1233). -/
def subTri3 (M : LView) (i1 i2 istep : Int) : Option LView :=
  if istep = 0 then none else
  some ⟨M.ptr + i1 * (M.si + M.sj), ((i2 - i1).tdiv istep).toNat, istep * M.si, istep * M.sj,
    M.unit, M.conj⟩
/-- `offDiag(noff)` (include/tmv/TMV_TriMatrix.h:1242-1249). -/
def offDiag (M : LView) (noff : Int) : LView :=
  ⟨M.ptr + noff * M.si, ((M.n : Int) - noff).toNat, M.si, M.sj, false, M.conj⟩
/-- `viewAsUnitDiag()` (include/tmv/TMV_TriMatrix.h:1275-1279). -/
def viewAsUnitDiag (M : LView) : LView := ⟨M.ptr, M.n, M.si, M.sj, true, M.conj⟩
/-- `transpose()` (include/tmv/TMV_TriMatrix.h:1281-1285). -/
def transpose (M : LView) : TView := ⟨M.ptr, M.n, M.sj, M.si, M.unit, M.conj⟩
/-- `conjugate()` (include/tmv/TMV_TriMatrix.h:1287-1291). -/
def conjugate (M : LView) : LView := ⟨M.ptr, M.n, M.si, M.sj, M.unit, !M.conj⟩
/-- `adjoint()` (include/tmv/TMV_TriMatrix.h:1293-1297). -/
def adjoint (M : LView) : TView := ⟨M.ptr, M.n, M.sj, M.si, M.unit, !M.conj⟩
/-- `hasSubMatrix` (include/tmv/TMV_TriMatrix.h:1157-1159). -/
def hasSubMatrix (M : LView) (i1 i2 j1 j2 istep jstep : Int) : Option Bool :=
  M.transpose.hasSubMatrix j1 j2 i1 i2 jstep istep
/-- `hasSubVector` (include/tmv/TMV_TriMatrix.h:1161-1163). -/
def hasSubVector (M : LView) (i j istep jstep size : Int) : Bool :=
  M.transpose.hasSubVector j i jstep istep size
/-- `hasSubTriMatrix` (include/tmv/TMV_TriMatrix.h:1165-1166). -/
def hasSubTri (M : LView) (i1 i2 istep : Int) : Option Bool := M.transpose.hasSubTri i1 i2 istep
/-- `setZero` etc. of a lower triangular view: `transpose().setZero()` (include/tmv/TMV_TriMatrix.h:2659-2660). -/
def setZero [Star K] [Zero K] (M : LView) : Mem K → Option (Mem K) := M.transpose.setZero

end LView

namespace TView

/-- `assignToM(m2)`, i.e. conversion to / assignment of a full matrix (include/tmv/TMV_TriMatrix.h:600-618). -/
def assignToM [Star K] [Zero K] [One K] (A : TView) (B : MView) (m : Mem K) : Option (Mem K) :=
  (A.assignToU (B.upperTri A.unit) m).bind fun m =>
  (if A.unit then B.diag.setAllTo 1 m else some m).bind fun m =>
  if A.n > 0 then ((B.lowerTri false).offDiag 1).setZero m else some m

end TView

/-- `GenLowerTriMatrix::assignToM` (include/tmv/TMV_TriMatrix.h:1144-1147). -/
def LView.assignToM [Star K] [Zero K] [One K] (A : LView) (B : MView) (m : Mem K) : Option (Mem K) :=
  A.transpose.assignToM B.transpose m

end TMV
