import Verif.Model.TriMat

/-!
Symmetric and Hermitian matrices and their views (include/tmv/TMV_SymMatrix.h, src/TMV_SymMatrix.cpp),
on the memory of `Model/Mem`.  Only one triangle is stored (read); the other one is the same memory.
-/
namespace TMV

/-- `ConstSymMatrixView`/`SymMatrixView`: data members `itsm, itss, itssi, itssj, itssym, itsuplo, itsct`
(include/tmv/TMV_SymMatrix.h:905-915, 1720-1728).  `herm` is `!issym()`, i.e. `sym()==Herm` with complex
`T` (`issym()` is `isReal(T()) || sym()==Sym`, :760); `upper` is `uplo()==Upper`.  Simplification: the
size is a `Nat`. -/
structure SView where
  ptr : Int
  n : Nat
  si : Int
  sj : Int
  herm : Bool
  upper : Bool
  conj : Bool
deriving DecidableEq, Repr

variable {K : Type _}

namespace SView

/-- `(uplo()==Upper && i<=j) || (uplo()==Lower && i>=j)` (src/TMV_SymMatrix.cpp:54, 66). -/
def stored (M : SView) (i j : Int) : Bool := (M.upper && decide (i ≤ j)) || (!M.upper && decide (i ≥ j))

/-- Address `cptr()+i*stepi()+j*stepj()` (src/TMV_SymMatrix.cpp:55). -/
def addr (M : SView) (i j : Int) : Int := M.ptr + i * M.si + j * M.sj

/-- `issym()?ct():TMV_ConjOf(T,ct())` (include/tmv/TMV_SymMatrix.h:357 and everywhere). -/
def oct (M : SView) : Bool := if !M.herm then M.conj else !M.conj

/-- `GenSymMatrix::cref` (src/TMV_SymMatrix.cpp:51-61). -/
def cref [Star K] (M : SView) (m : Mem K) (i j : Int) : Option K :=
  if M.stored i j then (m.read (M.addr i j)).map (cj M.conj)
  else (m.read (M.addr j i)).map (fun x => if (!M.herm) != M.conj then x else star x)

/-- `m(i,j) = x`: `SymMatrixView::ref` (src/TMV_SymMatrix.cpp:63-76) and the assignment to the returned
reference (`Model/Refs`: a conjugated reference stores `conj(x)`). -/
def setRef [Star K] (M : SView) (i j : Int) (x : K) (m : Mem K) : Option (Mem K) :=
  if M.stored i j then m.write (M.addr i j) (cj M.conj x)
  else m.write (M.addr j i) (cj (if (!M.herm) != M.conj then false else true) x)

/-- The layout of a `SymMatrix(n)` / `HermMatrix(n)`: array of `n*n` elements, `stepi()`, `stepj()`
(include/tmv/TMV_SymMatrix.h:2084, 2893-2894, 3838-3839), through `view()`. -/
def ofStor (p : Int) (n : Nat) (rowMajor herm upper : Bool) : SView :=
  ⟨p, n, if rowMajor then n else 1, if rowMajor then 1 else n, herm, upper, false⟩

/-- `SymMatrixViewOf(m,uplo)`, `HermMatrixViewOf(m,uplo)` (include/tmv/TMV_SymMatrix.h:3918-4026). -/
def ofMat (M : MView) (herm upper : Bool) : SView := ⟨M.ptr, M.rs, M.si, M.sj, herm, upper, M.conj⟩

/-! ### Vector-valued views -/

/-- `row(i,j1,j2)` (include/tmv/TMV_SymMatrix.h:344-356, 1312-1324). -/
def row3 (M : SView) (i j1 j2 : Int) : VView :=
  if (i - j1 ≤ 0 ∧ M.upper = true) ∨ (j2 - i ≤ 1 ∧ M.upper = false) then
    ⟨M.ptr + i * M.si + j1 * M.sj, (j2 - j1).toNat, M.sj, M.conj⟩
  else ⟨M.ptr + i * M.sj + j1 * M.si, (j2 - j1).toNat, M.si, M.oct⟩
/-- `col(j,i1,i2)` (include/tmv/TMV_SymMatrix.h:358-370, 1326-1338). -/
def col3 (M : SView) (j i1 i2 : Int) : VView :=
  if (i2 - j ≤ 1 ∧ M.upper = true) ∨ (j - i1 ≤ 0 ∧ M.upper = false) then
    ⟨M.ptr + i1 * M.si + j * M.sj, (i2 - i1).toNat, M.si, M.conj⟩
  else ⟨M.ptr + i1 * M.sj + j * M.si, (i2 - i1).toNat, M.sj, M.oct⟩
/-- `diag()` (include/tmv/TMV_SymMatrix.h:372-374, 1340-1341). -/
def diag (M : SView) : VView := ⟨M.ptr, M.n, M.si + M.sj, M.conj⟩
/-- `diag(i)` (include/tmv/TMV_SymMatrix.h:376-398, 1343-1366). -/
def diagOff (M : SView) (i : Int) : VView :=
  if i ≥ 0 then
    if M.upper then ⟨M.ptr + i * M.sj, ((M.n : Int) - i).toNat, M.si + M.sj, M.conj⟩
    else ⟨M.ptr + i * M.si, ((M.n : Int) - i).toNat, M.si + M.sj, M.oct⟩
  else
    if M.upper then ⟨M.ptr - i * M.sj, ((M.n : Int) + i).toNat, M.si + M.sj, M.oct⟩
    else ⟨M.ptr - i * M.si, ((M.n : Int) + i).toNat, M.si + M.sj, M.conj⟩
/-- `diag(i,j1,j2)` (include/tmv/TMV_SymMatrix.h:400-421, 1368-1390). -/
def diag3 (M : SView) (i j1 j2 : Int) : VView :=
  if i ≥ 0 then
    if M.upper then ⟨M.ptr + i * M.sj + j1 * (M.si + M.sj), (j2 - j1).toNat, M.si + M.sj, M.conj⟩
    else ⟨M.ptr + i * M.si + j1 * (M.si + M.sj), (j2 - j1).toNat, M.si + M.sj, M.oct⟩
  else
    if M.upper then ⟨M.ptr - i * M.sj + j1 * (M.si + M.sj), (j2 - j1).toNat, M.si + M.sj, M.oct⟩
    else ⟨M.ptr - i * M.si + j1 * (M.si + M.sj), (j2 - j1).toNat, M.si + M.sj, M.conj⟩
/-- `subVector(i,j,istep,jstep,n)` (include/tmv/TMV_SymMatrix.h:531-543, 1494-1505). -/
def subVector (M : SView) (i j istep jstep s : Int) : VView :=
  if (i - j ≤ 0 ∧ M.upper = true) ∨ (j - i ≤ 0 ∧ M.upper = false) then
    ⟨M.ptr + i * M.si + j * M.sj, s.toNat, istep * M.si + jstep * M.sj, M.conj⟩
  else ⟨M.ptr + i * M.sj + j * M.si, s.toNat, istep * M.sj + jstep * M.si, M.oct⟩

/-! ### Matrix-valued views -/

/-- `subMatrix(i1,i2,j1,j2)` (include/tmv/TMV_SymMatrix.h:492-505, 1458-1470). -/
def subMatrix4 (M : SView) (i1 i2 j1 j2 : Int) : MView :=
  if (M.upper = true ∧ i2 - j1 ≤ 1) ∨ (M.upper = false ∧ j2 - i1 ≤ 1) then
    ⟨M.ptr + i1 * M.si + j1 * M.sj, (i2 - i1).toNat, (j2 - j1).toNat, M.si, M.sj, M.conj, 0⟩
  else ⟨M.ptr + i1 * M.sj + j1 * M.si, (i2 - i1).toNat, (j2 - j1).toNat, M.sj, M.si, M.oct, 0⟩
/-- `subMatrix(i1,i2,j1,j2,istep,jstep)` (include/tmv/TMV_SymMatrix.h:507-522, 1472-1489; both tests
compare with `istep`); `none` = division by zero. -/
def subMatrix6 (M : SView) (i1 i2 j1 j2 istep jstep : Int) : Option MView :=
  if istep = 0 ∨ jstep = 0 then none else
  some (if (M.upper = true ∧ i2 - j1 ≤ istep) ∨ (M.upper = false ∧ j2 - i1 ≤ istep) then
    ⟨M.ptr + i1 * M.si + j1 * M.sj, ((i2 - i1).tdiv istep).toNat, ((j2 - j1).tdiv jstep).toNat,
      istep * M.si, jstep * M.sj, M.conj, 0⟩
  else ⟨M.ptr + i1 * M.sj + j1 * M.si, ((i2 - i1).tdiv istep).toNat, ((j2 - j1).tdiv jstep).toNat,
      istep * M.sj, jstep * M.si, M.oct, 0⟩)
/-- `subSymMatrix(i1,i2)` (include/tmv/TMV_SymMatrix.h:547-553, 1507-1513). -/
def subSym2 (M : SView) (i1 i2 : Int) : SView :=
  ⟨M.ptr + i1 * (M.si + M.sj), (i2 - i1).toNat, M.si, M.sj, M.herm, M.upper, M.conj⟩
/-- `subSymMatrix(i1,i2,istep)` (include/tmv/TMV_SymMatrix.h:555-562, 1515-1521). -/
def subSym3 (M : SView) (i1 i2 istep : Int) : Option SView :=
  if istep = 0 then none else
  some ⟨M.ptr + i1 * (M.si + M.sj), ((i2 - i1).tdiv istep).toNat, istep * M.si, istep * M.sj,
    M.herm, M.upper, M.conj⟩
/-- `upperTri(dt)`, `unitUpperTri()` (include/tmv/TMV_SymMatrix.h:564-584, 1523-1543). -/
def upperTri (M : SView) (unit : Bool) : TView :=
  if M.upper then ⟨M.ptr, M.n, M.si, M.sj, unit, M.conj⟩ else ⟨M.ptr, M.n, M.sj, M.si, unit, M.oct⟩
/-- `lowerTri(dt)`, `unitLowerTri()` (include/tmv/TMV_SymMatrix.h:586-608, 1545-1565). -/
def lowerTri (M : SView) (unit : Bool) : LView :=
  if M.upper = false then ⟨M.ptr, M.n, M.si, M.sj, unit, M.conj⟩
  else ⟨M.ptr, M.n, M.sj, M.si, unit, M.oct⟩
/-- `transpose()` (include/tmv/TMV_SymMatrix.h:641-645, 1601-1606). -/
def transpose (M : SView) : SView := ⟨M.ptr, M.n, M.sj, M.si, M.herm, !M.upper, M.conj⟩
/-- `conjugate()` (include/tmv/TMV_SymMatrix.h:647-651, 1608-1613). -/
def conjugate (M : SView) : SView := ⟨M.ptr, M.n, M.si, M.sj, M.herm, M.upper, !M.conj⟩
/-- `adjoint()` (include/tmv/TMV_SymMatrix.h:653-658, 1615-1620). -/
def adjoint (M : SView) : SView := ⟨M.ptr, M.n, M.sj, M.si, M.herm, !M.upper, !M.conj⟩

/-- `isSameAs` (include/tmv/TMV_SymMatrix.h:427-440). -/
def isSameAs (M N : SView) : Bool :=
  if M.ptr = N.ptr ∧ M.n = N.n ∧ M.herm = N.herm then
    if M.upper = N.upper then decide (M.si = N.si ∧ M.sj = N.sj ∧ M.conj = N.conj)
    else decide (M.si = N.sj ∧ M.sj = N.si ∧ (!M.herm) = decide (M.conj = N.conj))
  else false

/-! ### Range checks -/

/-- `GenSymMatrix::hasSubMatrix` (src/TMV_SymMatrix.cpp:185-250); `none` = division by zero. -/
def hasSubMatrix (M : SView) (i1 i2 j1 j2 istep jstep : Int) : Option Bool :=
  if i1 = i2 ∨ j1 = j2 then some true else do
    let a ← MView.rangeCheck M.n i1 i2 istep
    let b ← MView.rangeCheck M.n j1 j2 jstep
    let i2x := i2 - istep
    let j2x := j2 - jstep
    let ok := a && b
    let ok := if (i1 < j1 ∧ i2x > j2x) ∨ (i1 > j1 ∧ i2x < j2x) then false else ok
    let ok := if (i2x < j1 ∧ i1 > j2x) ∨ (i2x > j1 ∧ i1 < j2x) then false else ok
    some ok

/-- `GenSymMatrix::hasSubVector` (src/TMV_SymMatrix.cpp:252-288). -/
def hasSubVector (M : SView) (i j istep jstep size : Int) : Bool :=
  if size = 0 then true else
  let ok := true
  let ok := if istep = 0 ∧ jstep = 0 then false else ok
  let ok := if i < 0 ∨ i ≥ M.n then false else ok
  let ok := if j < 0 ∨ j ≥ M.n then false else ok
  let i2 := i + istep * (size - 1)
  let j2 := j + jstep * (size - 1)
  let ok := if i2 < 0 ∨ i2 ≥ M.n then false else ok
  let ok := if j2 < 0 ∨ j2 ≥ M.n then false else ok
  let ok := if (i < j ∧ i2 > j2) ∨ (i > j ∧ i2 < j2) then false else ok
  ok

/-- `ConstSymMatrixView<T,FortranStyle>::hasSubVector` (src/TMV_SymMatrix.cpp:386-421): the test of `j`
reads `i < 1 || j > size()`. -/
def hasSubVectorF (M : SView) (i j istep jstep size : Int) : Bool :=
  if size = 0 then true else
  let ok := true
  let ok := if istep = 0 ∧ jstep = 0 then false else ok
  let ok := if i < 1 ∨ i > M.n then false else ok
  let ok := if i < 1 ∨ j > M.n then false else ok
  let i2 := i + istep * (size - 1)
  let j2 := j + jstep * (size - 1)
  let ok := if i2 < 1 ∨ i2 > M.n then false else ok
  let ok := if j2 < 1 ∨ j2 > M.n then false else ok
  let ok := if (i < j ∧ i2 > j2) ∨ (i > j ∧ i2 < j2) then false else ok
  ok

/-- `subVector(i,j,istep,jstep,n)` of a Fortran-style view: `base::subVector(i-1,j-1,istep,jstep,n)`
(include/tmv/TMV_SymMatrix.h:1006-1011). -/
def subVectorF (M : SView) (i j istep jstep s : Int) : VView := M.subVector (i - 1) (j - 1) istep jstep s

/-- `GenSymMatrix::hasSubSymMatrix` (src/TMV_SymMatrix.cpp:290-317); `none` = division by zero. -/
def hasSubSym (M : SView) (i1 i2 istep : Int) : Option Bool :=
  if i1 = i2 then some true else MView.rangeCheck M.n i1 i2 istep

/-! ### Whole-matrix operations -/

/-- `setZero()` of a view (include/tmv/TMV_SymMatrix.h:1409-1410). -/
def setZero [Star K] [Zero K] (M : SView) : Mem K → Option (Mem K) := (M.upperTri false).setZero
/-- `setAllTo(x)` (include/tmv/TMV_SymMatrix.h:1412-1416), asserts `issym()` or `x` real. -/
def setAllTo [Star K] (M : SView) (x : K) : Mem K → Option (Mem K) := (M.upperTri false).setAllTo x
/-- `addToAll(x)` (include/tmv/TMV_SymMatrix.h:1418-1422), asserts `issym()` or `x` real. -/
def addToAll [Star K] [Add K] (M : SView) (x : K) : Mem K → Option (Mem K) :=
  (M.upperTri false).addToAll x
/-- `clip(thresh)` (include/tmv/TMV_SymMatrix.h:1424-1425). -/
def clip {R : Type _} [LT R] [DecidableLT R] [Zero K] (abs : K → R) (M : SView) (t : R) :
    Mem K → Option (Mem K) := (M.upperTri false).clip abs t
/-- `conjugateSelf()` (include/tmv/TMV_SymMatrix.h:1430-1431), complex `T`. -/
def conjugateSelf [Star K] (M : SView) : Mem K → Option (Mem K) := (M.upperTri false).conjugateSelf
/-- `transposeSelf()` (include/tmv/TMV_SymMatrix.h:1427-1428). -/
def transposeSelf [Star K] (M : SView) (m : Mem K) : Option (Mem K) :=
  if M.herm then (M.upperTri false).conjugateSelf m else some m
/-- `setToIdentity(x)` (include/tmv/TMV_SymMatrix.h:1433-1437). -/
def setToIdentity [Star K] [Zero K] (M : SView) (x : K) (m : Mem K) : Option (Mem K) :=
  (M.setZero m).bind fun m => M.diag.setAllTo x m

/-- `swapRowsCols(i1,i2)` with `i1<i2` on a lower-stored matrix (src/TMV_SymMatrix.cpp:474-482). -/
def swapRowsColsLo [Star K] (M : SView) (i1 i2 : Int) (m : Mem K) : Option (Mem K) :=
  (VView.swapV (M.row3 i1 0 i1) (M.row3 i2 0 i1) m).bind fun m =>
  (VView.swapV (M.row3 i2 (i1 + 1) i2) (M.col3 i1 (i1 + 1) i2) m).bind fun m =>
  (if M.herm then
    ((M.row3 i2 i1 i2).conjugateSelf m).bind fun m => (M.col3 i1 (i1 + 1) i2).conjugateSelf m
  else some m).bind fun m =>
  (VView.swapV (M.col3 i1 (i2 + 1) M.n) (M.col3 i2 (i2 + 1) M.n) m).bind fun m =>
  M.diag.swap i1 i2 m
/-- `swapRowsCols(i1,i2)` (src/TMV_SymMatrix.cpp:455-484). -/
def swapRowsCols [Star K] (M : SView) (i1 i2 : Int) (m : Mem K) : Option (Mem K) :=
  if i1 = i2 then some m
  else if M.upper then M.transpose.swapRowsColsLo (min i1 i2) (max i1 i2) m
  else M.swapRowsColsLo (min i1 i2) (max i1 i2) m

/-- `permuteRowsCols(p,i1,i2)`: the loop with `k` steps left (src/TMV_SymMatrix.cpp:497-507). -/
def permuteLoop [Star K] (M : SView) (p : Nat → Nat) : Nat → Nat → Mem K → Option (Mem K)
  | 0, _, m => some m
  | k+1, i, m => do permuteLoop M p k (i+1) (← M.swapRowsCols i (p i) m)
/-- `permuteRowsCols(p,i1,i2)` (src/TMV_SymMatrix.cpp:497-507). -/
def permuteRowsCols [Star K] (M : SView) (p : Nat → Nat) (i1 i2 : Nat) (m : Mem K) : Option (Mem K) :=
  M.permuteLoop p (i2 - i1) i1 m
/-- `reversePermuteRowsCols(p,i1,i2)`: `for(i=i2;i>i1;) { --i; swapRowsCols(i,p[i]) }`
(src/TMV_SymMatrix.cpp:509-520). -/
def reverseLoop [Star K] (M : SView) (p : Nat → Nat) (i1 : Nat) : Nat → Mem K → Option (Mem K)
  | 0, m => some m
  | k+1, m => do reverseLoop M p i1 k (← M.swapRowsCols (i1 + k : Nat) (p (i1 + k)) m)
/-- `reversePermuteRowsCols(p,i1,i2)` (src/TMV_SymMatrix.cpp:509-520). -/
def reversePermuteRowsCols [Star K] (M : SView) (p : Nat → Nat) (i1 i2 : Nat) (m : Mem K) :
    Option (Mem K) := M.reverseLoop p i1 (i2 - i1) m

/-- `S2 = S1` (include/tmv/TMV_SymMatrix.h:1124-1130, 469-481). -/
def assignToS [Star K] [One K] (A B : SView) (m : Mem K) : Option (Mem K) :=
  if A.isSameAs B then some m else (A.upperTri false).assignToU (B.upperTri false) m

/-- `M = S`, i.e. `assignToM` (include/tmv/TMV_SymMatrix.h:442-467).  `re` is the real part: for a
Hermitian matrix the imaginary parts of `M`'s diagonal are first set to 0.  The off-diagonal part is an
assignment between lower triangular views, `transpose() = rhs.transpose()` (include/tmv/TMV_TriMatrix.h:2553-2576,
1144-1153).  Simplification: `imagPart().setZero()` is one pass replacing each element by its real part. -/
def assignToM [Star K] [One K] [Zero K] (re : K → K) (A : SView) (B : MView) (m : Mem K) :
    Option (Mem K) :=
  (if A.herm then loopMod re B.diag.step B.diag.size B.diag.ptr m else some m).bind fun m =>
  (A.assignToS (SView.ofMat B A.herm true) m).bind fun m =>
  if A.n > 0 then
    (if A.herm then ((B.upperTri false).offDiag 1).adjoint else ((B.upperTri false).offDiag 1).transpose).transpose.assignToU
      ((B.lowerTri false).offDiag 1).transpose m
  else some m

/-- `Swap(m1,m2)` of views (include/tmv/TMV_SymMatrix.h:4116-4123). -/
def swapM [Star K] (A B : SView) (m : Mem K) : Option (Mem K) :=
  (A.upperTri false).swapM (B.upperTri false) m

/-- `m1 == m2` (include/tmv/TMV_SymMatrix.h:4253-4256). -/
def eqM [Star K] [Zero K] [One K] [DecidableEq K] (A B : SView) (m : Mem K) : Option Bool :=
  (A.upperTri false).eqM (B.upperTri false) m

/-! ### Reductions -/

/-- `sumElements` (src/TMV_SymMatrix.cpp:566-581); `re2 t` is `2*real(t)`. -/
def sumElements [Star K] [Semiring K] (re2 : K → K) (M : SView) (m : Mem K) : Option K := do
  let s ← M.diag.sumElements m
  if M.n > 1 then
    let t ← ((M.upperTri false).offDiag 1).sumElements m
    some (if M.herm then s + re2 t else s + 2 * t)
  else some s
/-- `DoSumAbsElements`, `DoSumAbs2Elements` (src/TMV_SymMatrix.cpp:583-599). -/
def sumAbs {R : Type _} [Semiring R] (ab : K → R) (M : SView) (m : Mem K) : Option R := do
  let s ← M.diag.sumAbs ab m
  if M.n > 1 then
    let t ← ((M.upperTri false).offDiag 1).sumAbs ab m
    some (s + 2 * t)
  else some s
/-- `normSq(scale)` (src/TMV_SymMatrix.cpp:614-620). -/
def normSq {R : Type _} [Semiring R] [DecidableEq R] (nrm : K → R) (scal : R → K → K) (scale : R)
    (M : SView) (m : Mem K) : Option R := do
  let s ← M.diag.normSq nrm scal scale m
  if M.n > 1 then
    let t ← ((M.upperTri false).offDiag 1).normSq nrm scal scale m
    some (s + 2 * t)
  else some s
/-- `NonLapNorm1` (src/TMV_SymMatrix.cpp:622-632): the loop with `k` columns left. -/
def norm1Loop {R : Type _} [Semiring R] [LT R] [DecidableLT R] (ab : K → R) (M : SView) (m : Mem K) :
    Nat → Nat → R → Option R
  | 0, _, mx => some mx
  | k+1, j, mx => do
      let a ← (M.col3 j 0 j).sumAbs ab m
      let b ← (M.col3 j j M.n).sumAbs ab m
      norm1Loop ab M m k (j+1) (if a + b > mx then a + b else mx)
/-- `norm1()` = `normInf()` (src/TMV_SymMatrix.cpp:622-632; include/tmv/TMV_SymMatrix.h:684-685). -/
def norm1 {R : Type _} [Semiring R] [LT R] [DecidableLT R] (ab : K → R) (M : SView) (m : Mem K) :
    Option R := norm1Loop ab M m M.n 0 0
/-- `maxAbsElement` (src/TMV_SymMatrix.cpp:666-668). -/
def maxAbs {R : Type _} [LT R] [DecidableLT R] [Zero R] [One R] (ab : K → R) (M : SView) (m : Mem K) :
    Option R := (M.upperTri false).maxAbs ab m

end SView
end TMV
