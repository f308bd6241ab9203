import Verif.Model.Vec

/-!
Dense matrix views and the element loops of `Matrix` / `MatrixView`
(include/tmv/TMV_Matrix.h, src/TMV_Matrix.cpp), on the memory of `Model/Mem`.
-/
namespace TMV

/-- `ConstMatrixView`/`MatrixView`: data members `itsm, itscs, itsrs, itssi, itssj, itsct, linsize`
(include/tmv/TMV_Matrix.h:1090-1100).  `linsize` is `-1` = not computed yet, `0` = not linear,
otherwise the number of elements.  `Matrix` is the case `conj = false`, `ls = cs*rs`. -/
structure MView where
  ptr : Int
  cs : Nat
  rs : Nat
  si : Int
  sj : Int
  conj : Bool
  ls : Int
deriving DecidableEq, Repr

variable {K : Type _}

namespace MView

/-- Address of element `(i,j)`: `cptr() + i*stepi() + j*stepj()` (src/TMV_Matrix.cpp:55, 62). -/
def addr (M : MView) (i j : Int) : Int := M.ptr + i * M.si + j * M.sj

/-- `GenMatrix::cref` (src/TMV_Matrix.cpp:52-57). -/
def cref [Star K] (M : MView) (m : Mem K) (i j : Int) : Option K :=
  (m.read (M.addr i j)).map (cj M.conj)

/-- `M.ref(i,j) = x` (src/TMV_Matrix.cpp:59-64 and `VarConjRef::operator=`). -/
def setRef [Star K] (M : MView) (i j : Int) (x : K) (m : Mem K) : Option (Mem K) :=
  m.write (M.addr i j) (cj M.conj x)

/-- `isrm()` (include/tmv/TMV_Matrix.h `virtual inline bool isrm()`). -/
def isrm (M : MView) : Bool := decide (M.sj = 1)
/-- `iscm()` (include/tmv/TMV_Matrix.h `virtual inline bool iscm()`). -/
def iscm (M : MView) : Bool := decide (M.si = 1)

/-! ### Vector-valued views -/

/-- `row(i)` (include/tmv/TMV_Matrix.h:560-565). -/
def row (M : MView) (i : Int) : VView := ⟨M.ptr + i * M.si, M.rs, M.sj, M.conj⟩
/-- `col(j)` (include/tmv/TMV_Matrix.h:567-572). -/
def col (M : MView) (j : Int) : VView := ⟨M.ptr + j * M.sj, M.cs, M.si, M.conj⟩
/-- `diag()` (include/tmv/TMV_Matrix.h:574-578). -/
def diag (M : MView) : VView := ⟨M.ptr, min M.cs M.rs, M.si + M.sj, M.conj⟩
/-- `diag(i)` (include/tmv/TMV_Matrix.h:580-593).  A negative size is stored as 0. -/
def diagOff (M : MView) (i : Int) : VView :=
  if i ≥ 0 then ⟨M.ptr + i * M.sj, (min (M.cs : Int) (M.rs - i)).toNat, M.si + M.sj, M.conj⟩
  else ⟨M.ptr - i * M.si, (min ((M.cs : Int) + i) M.rs).toNat, M.si + M.sj, M.conj⟩
/-- `row(i,j1,j2)` (include/tmv/TMV_Matrix.h:595-601). -/
def row3 (M : MView) (i j1 j2 : Int) : VView :=
  ⟨M.ptr + i * M.si + j1 * M.sj, (j2 - j1).toNat, M.sj, M.conj⟩
/-- `col(j,i1,i2)` (include/tmv/TMV_Matrix.h:603-609). -/
def col3 (M : MView) (j i1 i2 : Int) : VView :=
  ⟨M.ptr + i1 * M.si + j * M.sj, (i2 - i1).toNat, M.si, M.conj⟩
/-- `diag(i,j1,j2)` (include/tmv/TMV_Matrix.h:611-626). -/
def diag3 (M : MView) (i j1 j2 : Int) : VView :=
  if i ≥ 0 then ⟨M.ptr + i * M.sj + j1 * (M.si + M.sj), (j2 - j1).toNat, M.si + M.sj, M.conj⟩
  else ⟨M.ptr - i * M.si + j1 * (M.si + M.sj), (j2 - j1).toNat, M.si + M.sj, M.conj⟩
/-- `cSubVector(i,j,istep,jstep,s)` (include/tmv/TMV_Matrix.h:708-714). -/
def subVector (M : MView) (i j istep jstep s : Int) : VView :=
  ⟨M.ptr + i * M.si + j * M.sj, s.toNat, istep * M.si + jstep * M.sj, M.conj⟩

/-! ### Matrix-valued views -/

/-- `cSubMatrix(i1,i2,j1,j2)` (include/tmv/TMV_Matrix.h:673-678); default `_ls=0`. -/
def subMatrix4 (M : MView) (i1 i2 j1 j2 : Int) : MView :=
  ⟨M.ptr + i1 * M.si + j1 * M.sj, (i2 - i1).toNat, (j2 - j1).toNat, M.si, M.sj, M.conj, 0⟩
/-- `cSubMatrix(i1,i2,j1,j2,istep,jstep)` (include/tmv/TMV_Matrix.h:686-692), `none` = division by
zero. -/
def subMatrix6 (M : MView) (i1 i2 j1 j2 istep jstep : Int) : Option MView :=
  if istep = 0 ∨ jstep = 0 then none else
  some ⟨M.ptr + i1 * M.si + j1 * M.sj, ((i2 - i1).tdiv istep).toNat, ((j2 - j1).tdiv jstep).toNat,
    istep * M.si, jstep * M.sj, M.conj, 0⟩
/-- `cColPair(j1,j2)` (include/tmv/TMV_Matrix.h:750-754). -/
def colPair (M : MView) (j1 j2 : Int) : MView :=
  ⟨M.ptr + j1 * M.sj, M.cs, 2, M.si, (j2 - j1) * M.sj, M.conj, 0⟩
/-- `cRowPair(i1,i2)` (include/tmv/TMV_Matrix.h:762-766). -/
def rowPair (M : MView) (i1 i2 : Int) : MView :=
  ⟨M.ptr + i1 * M.si, 2, M.rs, (i2 - i1) * M.si, M.sj, M.conj, 0⟩
/-- `cColRange(j1,j2)` (include/tmv/TMV_Matrix.h:774-779). -/
def colRange (M : MView) (j1 j2 : Int) : MView :=
  ⟨M.ptr + j1 * M.sj, M.cs, (j2 - j1).toNat, M.si, M.sj, M.conj,
    if M.iscm ∧ M.ls ≠ 0 then -1 else 0⟩
/-- `cRowRange(i1,i2)` (include/tmv/TMV_Matrix.h:787-792). -/
def rowRange (M : MView) (i1 i2 : Int) : MView :=
  ⟨M.ptr + i1 * M.si, (i2 - i1).toNat, M.rs, M.si, M.sj, M.conj,
    if M.isrm ∧ M.ls ≠ 0 then -1 else 0⟩
/-- `transpose()` (include/tmv/TMV_Matrix.h:826-830). -/
def transpose (M : MView) : MView := ⟨M.ptr, M.rs, M.cs, M.sj, M.si, M.conj, M.ls⟩
/-- `conjugate()` (include/tmv/TMV_Matrix.h:832-837). -/
def conjugate (M : MView) : MView := ⟨M.ptr, M.cs, M.rs, M.si, M.sj, !M.conj, M.ls⟩
/-- `adjoint()` (include/tmv/TMV_Matrix.h:839-844). -/
def adjoint (M : MView) : MView := ⟨M.ptr, M.rs, M.cs, M.sj, M.si, !M.conj, M.ls⟩

/-- `MatrixViewOf(p,colsize,rowsize,stor)` (include/tmv/TMV_Matrix.h:3567-3580), also the layout of
`Matrix` itself (its `stepi()`, `stepj()`, `ls()`). -/
def ofStor (p : Int) (cs rs : Nat) (rowMajor : Bool) : MView :=
  ⟨p, cs, rs, if rowMajor then rs else 1, if rowMajor then 1 else cs, false, cs * rs⟩
/-- `MatrixViewOf(p,colsize,rowsize,stepi,stepj)` (include/tmv/TMV_Matrix.h:3594-3606). -/
def ofSteps (p : Int) (cs rs : Nat) (si sj : Int) : MView :=
  ⟨p, cs, rs, si, sj, false,
    if si = 1 ∧ sj = cs then cs * rs else if sj = 1 ∧ si = rs then cs * rs else 0⟩
/-- `RowVectorViewOf(v)` (include/tmv/TMV_Matrix.h:3488-3502). -/
def ofRowVector (v : VView) : MView :=
  ⟨v.ptr, 1, v.size, v.size, v.step, v.conj, if v.step = 1 then v.size else 0⟩
/-- `ColVectorViewOf(v)` (include/tmv/TMV_Matrix.h:3527-3541). -/
def ofColVector (v : VView) : MView :=
  ⟨v.ptr, v.size, 1, v.step, v.size, v.conj, if v.step = 1 then v.size else 0⟩

/-- The update of the `mutable linsize` in `canLinearize()` (include/tmv/TMV_Matrix.h:1074-1088,
1868-1881). -/
def resolve (M : MView) : MView :=
  if M.ls = -1 then
    if (M.si = 1 ∧ M.sj = M.cs) ∨ (M.sj = 1 ∧ M.si = M.rs) then { M with ls := M.rs * M.cs }
    else { M with ls := 0 }
  else M

/-- `canLinearize()` of a view (include/tmv/TMV_Matrix.h:1074-1088, 1868-1881). -/
def canLinearize (M : MView) : Bool := decide (M.resolve.ls > 0)

/-- `linearView()`/`constLinearView()` (include/tmv/TMV_Matrix.h:846-854, 1787-1794), called after
`canLinearize()`. -/
def linearView (M : MView) : VView := ⟨M.ptr, M.resolve.ls.toNat, 1, M.conj⟩

/-- `isSameAs` (include/tmv/TMV_Matrix.h:644-652). -/
def isSameAs (M N : MView) : Bool :=
  decide (M.ptr = N.ptr ∧ M.rs = N.rs ∧ M.cs = N.cs ∧ M.si = N.si ∧ M.sj = N.sj ∧ M.conj = N.conj)

/-! ### Range checks -/

/-- One of the two halves of `hasSubMatrix` (src/TMV_Matrix.cpp:171-194, 195-218); `none` =
division by zero in `%`. -/
def rangeCheck (n : Nat) (i1 i2 istep : Int) : Option Bool :=
  let ok := true
  let ok := if istep = 0 then false else ok
  let ok := if i1 < 0 ∨ i1 ≥ n then false else ok
  let ok := if i2 - istep < 0 ∨ i2 - istep ≥ n then false else ok
  if istep = 0 then none else
  let ok := if (i2 - i1).tmod istep ≠ 0 then false else ok
  let ok := if (i2 - i1).tdiv istep < 0 then false else ok
  some ok

/-- `GenMatrix::hasSubMatrix` (src/TMV_Matrix.cpp:165-220). -/
def hasSubMatrix (M : MView) (i1 i2 j1 j2 istep jstep : Int) : Option Bool :=
  if i1 = i2 ∨ j1 = j2 then some true else do
    let a ← rangeCheck M.cs i1 i2 istep
    let b ← rangeCheck M.rs j1 j2 jstep
    some (a && b)

/-- One half of the Fortran-style check (src/TMV_Matrix.cpp:257-304). -/
def rangeCheckF (n : Nat) (i1 i2 istep : Int) : Option Bool :=
  let ok := true
  let ok := if istep = 0 then false else ok
  let ok := if i1 < 1 ∨ i1 > n then false else ok
  let ok := if i2 < 1 ∨ i2 > n then false else ok
  if istep = 0 then none else
  let ok := if (i2 - i1).tmod istep ≠ 0 then false else ok
  let ok := if (i2 - i1).tdiv istep < 0 then false else ok
  some ok

/-- `ConstMatrixView<T,FortranStyle>::hasSubMatrix` (src/TMV_Matrix.cpp:251-306). -/
def hasSubMatrixF (M : MView) (i1 i2 j1 j2 istep jstep : Int) : Option Bool :=
  if i1 = i2 ∨ j1 = j2 then some true else do
    let a ← rangeCheckF M.cs i1 i2 istep
    let b ← rangeCheckF M.rs j1 j2 jstep
    some (a && b)

/-- Fortran-style `subMatrix(i1,i2,j1,j2,istep,jstep)`: shifts the arguments and calls the C-style
function (include/tmv/TMV_Matrix.h, `ConstMatrixView<T,FortranStyle>::subMatrix`). -/
def subMatrix6F (M : MView) (i1 i2 j1 j2 istep jstep : Int) : Option MView :=
  M.subMatrix6 (i1 - 1) (i2 - 1 + istep) (j1 - 1) (j2 - 1 + jstep) istep jstep

/-- `GenMatrix::hasSubVector(i,j,istep,jstep,size)` (src/TMV_Matrix.cpp:222-249). -/
def hasSubVector (M : MView) (i j istep jstep size : Int) : Bool :=
  if size = 0 then true else
  let ok := true
  let ok := if istep = 0 ∧ jstep = 0 then false else ok
  let ok := if i < 0 ∨ i ≥ M.cs then false else ok
  let ok := if j < 0 ∨ j ≥ M.rs then false else ok
  let i2 := i + istep * (size - 1)
  let j2 := j + jstep * (size - 1)
  let ok := if i2 < 0 ∨ i2 ≥ M.cs then false else ok
  let ok := if j2 < 0 ∨ j2 ≥ M.rs then false else ok
  ok

end MView

/-! ### Loops over rows / columns -/

/-- `for(k=i;k<i+n;++k) op(f(k))`. -/
def loopV (f : Nat → VView) (op : VView → Mem K → Option (Mem K)) :
    Nat → Nat → Mem K → Option (Mem K)
  | 0, _, m => some m
  | n+1, i, m => do
      let m ← op (f i) m
      loopV f op n (i+1) m

/-- `for(k=i;k<i+n;++k) acc = g(acc, red(f(k)))`. -/
def loopVFold {β γ : Type _} (f : Nat → VView) (red : VView → Mem K → Option β) (g : γ → β → γ)
    (m : Mem K) : Nat → Nat → γ → Option γ
  | 0, _, b => some b
  | n+1, i, b => do
      let x ← red (f i) m
      loopVFold f red g m n (i+1) (g b x)

/-- `for(k=i;k<i+n;++k) op(f(k),g(k))`. -/
def loopV2 (f g : Nat → VView) (op : VView → VView → Mem K → Option (Mem K)) :
    Nat → Nat → Mem K → Option (Mem K)
  | 0, _, m => some m
  | n+1, i, m => do
      let m ← op (f i) (g i) m
      loopV2 f g op n (i+1) m

namespace MView

/-! ### Element-wise operations -/

/-- The common pattern of `clip, setZero, setAllTo, addToAll, conjugateSelf`
(src/TMV_Matrix.cpp:758-824, 836-853). -/
def each (op : VView → Mem K → Option (Mem K)) (M : MView) (m : Mem K) : Option (Mem K) :=
  if M.canLinearize then op M.linearView m
  else if M.isrm then loopV (fun i => M.row i) op M.cs 0 m
  else loopV (fun j => M.col j) op M.rs 0 m

/-- `MatrixView::setZero` (src/TMV_Matrix.cpp:775-790). -/
def setZero [Star K] [Zero K] (M : MView) : Mem K → Option (Mem K) := M.each VView.setZero
/-- `MatrixView::setAllTo` (src/TMV_Matrix.cpp:792-807). -/
def setAllTo [Star K] (M : MView) (x : K) : Mem K → Option (Mem K) := M.each (fun v => v.setAllTo x)
/-- `MatrixView::addToAll` (src/TMV_Matrix.cpp:809-824). -/
def addToAll [Star K] [Add K] (M : MView) (x : K) : Mem K → Option (Mem K) :=
  M.each (fun v => v.addToAll x)
/-- `MatrixView::clip` (src/TMV_Matrix.cpp:758-773). -/
def clip {R : Type _} [LT R] [DecidableLT R] [Zero K] (abs : K → R) (M : MView) (t : R) :
    Mem K → Option (Mem K) := M.each (fun v => v.clip abs t)
/-- `MatrixView::conjugateSelf` (src/TMV_Matrix.cpp:836-853), complex `T`. -/
def conjugateSelf [Star K] (M : MView) : Mem K → Option (Mem K) := M.each VView.conjugateSelf
/-- `MatrixView::setToIdentity(x)` (src/TMV_Matrix.cpp:855-863). -/
def setToIdentity [Star K] [Zero K] (M : MView) (x : K) (m : Mem K) : Option (Mem K) := do
  let m ← M.setZero m
  M.diag.setAllTo x m

/-- The in-place operations of `Matrix` itself call `linearView().op` unconditionally
(include/tmv/TMV_Matrix.h:2875-2891). -/
def eachOwned (op : VView → Mem K → Option (Mem K)) (M : MView) (m : Mem K) : Option (Mem K) :=
  op M.linearView m

/-- `MatrixView::transposeSelf` (src/TMV_Matrix.cpp:826-834). -/
def transposeSelf [Star K] (M : MView) (m : Mem K) : Option (Mem K) :=
  loopV2 (fun i => M.row3 i 0 i) (fun i => M.col3 i 0 i) VView.swapV (M.cs - 1) 1 m

/-- `swapRows(i1,i2)` (include/tmv/TMV_Matrix.h:1559-1565). -/
def swapRows [Star K] (M : MView) (i1 i2 : Nat) (m : Mem K) : Option (Mem K) :=
  if i1 ≠ i2 then VView.swapV (M.row i1) (M.row i2) m else some m

/-- `swapCols(j1,j2)` (include/tmv/TMV_Matrix.h:1567-1573). -/
def swapCols [Star K] (M : MView) (j1 j2 : Nat) (m : Mem K) : Option (Mem K) :=
  if j1 ≠ j2 then VView.swapV (M.col j1) (M.col j2) m else some m

/-- `for(i=i1;i<i1+n;++i,++pi) V.swapRows(i,*pi)` (src/TMV_Matrix.cpp:882-886). -/
def swapRowsLoop [Star K] (V : MView) (p : Nat → Nat) : Nat → Nat → Mem K → Option (Mem K)
  | 0, _, m => some m
  | n+1, i, m => do
      let m ← V.swapRows i (p i) m
      swapRowsLoop V p n (i+1) m

/-- `for(i=i1+n;i>i1;) { --i; --pi; V.swapRows(i,*pi); }` (src/TMV_Matrix.cpp:912-917). -/
def swapRowsLoopRev [Star K] (V : MView) (p : Nat → Nat) (i1 : Nat) : Nat → Mem K → Option (Mem K)
  | 0, m => some m
  | n+1, m => do
      let m ← V.swapRows (i1 + n) (p (i1 + n)) m
      swapRowsLoopRev V p i1 n m

/-- The block loop `for(j=0;j<Nx;) { j2 = j+B; <inner>(colRange(j,j2)); j = j2; }`
(src/TMV_Matrix.cpp:880-888, 910-920).  `fuel` bounds the number of blocks; running out (only
possible for `B = 0`, where the C++ loop does not terminate) is `none`. -/
def blockLoop (inner : MView → Mem K → Option (Mem K)) (M : MView) (B Nx : Nat) :
    Nat → Nat → Mem K → Option (Mem K)
  | 0, j, m => if j < Nx then none else some m
  | fuel+1, j, m =>
      if j < Nx then do
        let m ← inner (M.colRange j (j + B : Nat)) m
        blockLoop inner M B Nx fuel (j + B) m
      else some m

/-- Common body of `permuteRows`/`reversePermuteRows` (src/TMV_Matrix.cpp:865-899, 901-930) for given
values of the two macro expressions `PERM_BLOCKSIZE` (= `B`) and `N/PERM_BLOCKSIZE*PERM_BLOCKSIZE`
(= `Nx`). -/
def blocked (inner : MView → Mem K → Option (Mem K)) (M : MView) (B Nx : Nat) (m : Mem K) :
    Option (Mem K) :=
  (if Nx ≠ 0 then blockLoop inner M B Nx Nx 0 m else some m).bind fun m =>
    if Nx ≠ M.rs then inner (M.colRange Nx M.rs) m else some m

/-- `MatrixView::permuteRows(p,i1,i2)` (src/TMV_Matrix.cpp:865-899); default build:
`#define PERM_BLOCKSIZE 32` (:45), here any `B`. -/
def permuteRows [Star K] (B : Nat) (M : MView) (p : Nat → Nat) (i1 i2 : Nat) : Mem K → Option (Mem K) :=
  M.blocked (fun V => V.swapRowsLoop p (i2 - i1) i1) B (M.rs / B * B)

/-- `MatrixView::reversePermuteRows(p,i1,i2)` (src/TMV_Matrix.cpp:901-930). -/
def reversePermuteRows [Star K] (B : Nat) (M : MView) (p : Nat → Nat) (i1 i2 : Nat) :
    Mem K → Option (Mem K) :=
  M.blocked (fun V => V.swapRowsLoopRev p i1 (i2 - i1)) B (M.rs / B * B)

/-- `permuteRows` in a build with `-DTMV_BLOCKSIZE=b`: `#define PERM_BLOCKSIZE TMV_BLOCKSIZE/2`
(:43) is not parenthesised, so `N/PERM_BLOCKSIZE*PERM_BLOCKSIZE` is `((N/b)/2*b)/2`. -/
def permuteRowsMacro [Star K] (b : Nat) (M : MView) (p : Nat → Nat) (i1 i2 : Nat) :
    Mem K → Option (Mem K) :=
  M.blocked (fun V => V.swapRowsLoop p (i2 - i1) i1) (b / 2) (M.rs / b / 2 * b / 2)

/-- `permuteCols(p,j1,j2)` (include/tmv/TMV_Matrix.h:1580-1581). -/
def permuteCols [Star K] (B : Nat) (M : MView) (p : Nat → Nat) (j1 j2 : Nat) : Mem K → Option (Mem K) :=
  M.transpose.permuteRows B p j1 j2

/-! ### Copy, Swap, == -/

/-- `std::copy(p1,p1+M,p2)` for each column (src/TMV_Matrix.cpp:947-954). -/
def copyColsCM : Nat → Nat → Int → Int → Int → Int → Mem K → Option (Mem K)
  | 0, _, _, _, _, _, m => some m
  | n+1, cs, p1, p2, s1, s2, m => do
      let m ← loopCopy 1 1 cs p1 p2 m
      copyColsCM n cs (p1 + s1) (p2 + s2) s1 s2 m

/-- `NonLapCopy(m1,m2)` (src/TMV_Matrix.cpp:936-970). -/
def nonLapCopy (A B : MView) (m : Mem K) : Option (Mem K) :=
  if A.iscm ∧ B.iscm then copyColsCM B.rs B.cs A.ptr B.ptr A.sj B.sj m
  else if B.cs > B.rs then
    if VView.shouldReverse A.si B.si then
      loopV2 (fun j => (A.col j).reverse) (fun j => (B.col j).reverse) VView.doCopy B.rs 0 m
    else loopV2 (fun j => A.col j) (fun j => B.col j) VView.doCopy B.rs 0 m
  else
    if VView.shouldReverse A.sj B.sj then
      loopV2 (fun i => (A.row i).reverse) (fun i => (B.row i).reverse) VView.doCopy B.cs 0 m
    else loopV2 (fun i => A.row i) (fun i => B.row i) VView.doCopy B.cs 0 m

/-- `nonconjCopy(m1,m2)` (include/tmv/TMV_Matrix.h:3676-3689) → `DoCopy` → `DoCopySameType` →
`NonLapCopy`. -/
def nonconjCopy (A B : MView) (m : Mem K) : Option (Mem K) :=
  if ¬ B.iscm ∧ (B.isrm ∨ A.isrm) then nonLapCopy A.transpose B.transpose m
  else nonLapCopy A B m

/-- `Copy(m1,m2)` for different storage (include/tmv/TMV_Matrix.h:3710-3731). -/
def copyDiff [Star K] (A B : MView) (m : Mem K) : Option (Mem K) :=
  if A.canLinearize ∧ B.canLinearize ∧ A.si = B.si ∧ A.sj = B.sj then
    VView.copy A.linearView B.linearView m
  else if A.conj then
    if B.conj then nonconjCopy A.conjugate B.conjugate m
    else do
      let m ← nonconjCopy A.conjugate B m
      B.conjugateSelf m
  else if B.conj then do
      let m ← nonconjCopy A B.conjugate m
      B.conjugateSelf m
  else nonconjCopy A B m

/-- A temporary `Matrix` of `n` elements at the (fresh) address `base`; its elements start with an
arbitrary value `z` (include/tmv/TMV_Array.h: uninitialised storage). -/
def alloc (base : Int) (n : Nat) (z : K) (m : Mem K) : Mem K :=
  fun a => if base ≤ a ∧ a < base + n then some z else m a
/-- Destruction of the temporary. -/
def free (base : Int) (n : Nat) (m : Mem K) : Mem K :=
  fun a => if base ≤ a ∧ a < base + n then none else m a

/-- `Copy(m1,m2)`, i.e. `m2 = m1` (include/tmv/TMV_Matrix.h:3691-3733).  `SameStorage` compares the
first element addresses (include/tmv/TMV_Base.h:245).  `base`: address the allocator returns for
the temporary, `z` its initial content. -/
def copy [Star K] (base : Int) (z : K) (A B : MView) (m : Mem K) : Option (Mem K) :=
  if B.rs > 0 ∧ B.cs > 0 then
    if A.ptr = B.ptr then
      if B.isSameAs A then some m
      else if B.transpose.isSameAs A then B.transposeSelf m
      else do
        let T := ofStor base A.cs A.rs A.isrm
        let m ← copyDiff A T (alloc base (A.cs * A.rs) z m)
        let m ← copyDiff T B m
        some (free base (A.cs * A.rs) m)
    else copyDiff A B m
  else some m

/-- `Swap(m1,m2)` (src/TMV_Matrix.cpp:1074-1094). -/
def swapM [Star K] (A B : MView) (m : Mem K) : Option (Mem K) :=
  if A.canLinearize ∧ B.canLinearize ∧ A.si = B.si ∧ A.sj = B.sj then
    VView.swapV A.linearView B.linearView m
  else if A.isrm ∧ B.isrm then loopV2 (fun i => A.row i) (fun i => B.row i) VView.swapV A.cs 0 m
  else loopV2 (fun j => A.col j) (fun j => B.col j) VView.swapV A.rs 0 m

/-- `for(i..) if (m1.row(i) != m2.row(i)) return false; return true;` (src/TMV_Matrix.cpp:1109-1112). -/
def eqRows [Star K] [DecidableEq K] (A B : MView) (m : Mem K) : Nat → Nat → Option Bool
  | 0, _ => some true
  | n+1, i => do
      let b ← VView.eqV (A.row i) (B.row i) m
      if b = false then return false
      eqRows A B m n (i+1)

/-- `operator==(m1,m2)` (src/TMV_Matrix.cpp:1099-1114). -/
def eqM [Star K] [DecidableEq K] (A B : MView) (m : Mem K) : Option Bool :=
  if A.cs ≠ B.cs then some false
  else if A.rs ≠ B.rs then some false
  else if A.isSameAs B then some true
  else if A.si = B.si ∧ A.sj = B.sj ∧ A.canLinearize ∧ B.canLinearize then
    VView.eqV A.linearView B.linearView m
  else eqRows A B m A.cs 0

/-! ### Reductions -/

/-- `sumElements`, `sumAbsElements`, `sumAbs2Elements` (src/TMV_Matrix.cpp:385-435). -/
def sumOver {β : Type _} [Zero β] [Add β] (red : VView → Mem K → Option β) (M : MView) (m : Mem K) :
    Option β :=
  if M.canLinearize then red M.linearView m
  else if M.iscm then loopVFold (fun j => M.col j) red (· + ·) m M.rs 0 0
  else loopVFold (fun i => M.row i) red (· + ·) m M.cs 0 0

/-- `normSq(scale)` (src/TMV_Matrix.cpp:449-463); the direction test is `isrm()`. -/
def normSq {R : Type _} [Semiring R] [DecidableEq R] (nrm : K → R) (scal : R → K → K)
    (scale : R) (M : MView) (m : Mem K) : Option R :=
  if M.canLinearize then M.linearView.normSq nrm scal scale m
  else if M.isrm then loopVFold (fun i => M.row i) (fun v => v.normSq nrm scal scale) (· + ·) m M.cs 0 0
  else loopVFold (fun j => M.col j) (fun v => v.normSq nrm scal scale) (· + ·) m M.rs 0 0

/-- `NonLapMaxAbsElement`, `NonLapMaxAbs2Element` (src/TMV_Matrix.cpp:465-507). -/
def maxAbs {R : Type _} [LT R] [DecidableLT R] [Zero R] (ab : K → R) (M : MView) (m : Mem K) :
    Option R :=
  if M.canLinearize then (M.linearView.maxAbs ab m).map (·.1)
  else if M.iscm then
    loopVFold (fun j => M.col j) (fun v m => (v.maxAbs ab m).map (·.1))
      (fun mx t => if t > mx then t else mx) m M.rs 0 0
  else
    loopVFold (fun i => M.row i) (fun v m => (v.maxAbs ab m).map (·.1))
      (fun mx t => if t > mx then t else mx) m M.cs 0 0

/-- `NonLapNorm1` (src/TMV_Matrix.cpp:509-519). -/
def norm1 {R : Type _} [Semiring R] [LT R] [DecidableLT R] (ab : K → R) (M : MView) (m : Mem K) :
    Option R :=
  loopVFold (fun j => M.col j) (fun v => v.sumAbs ab) (fun mx t => if t > mx then t else mx) m
    M.rs 0 0

/-- `normInf()` (include/tmv/TMV_Matrix.h `transpose().norm1()`). -/
def normInf {R : Type _} [Semiring R] [LT R] [DecidableLT R] (ab : K → R) (M : MView) (m : Mem K) :
    Option R := M.transpose.norm1 ab m

end MView
end TMV
