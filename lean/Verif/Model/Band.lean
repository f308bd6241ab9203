import Verif.Model.Mat

/-!
Band matrices and their views (include/tmv/TMV_BandMatrix.h, src/TMV_BandMatrix.cpp), on the memory
of `Model/Mem`.
-/
namespace TMV

/-- `ConstBandMatrixView`/`BandMatrixView`: data members `itsm, itscs, itsrs, itsnlo, itsnhi, itssi,
itssj, itssd, itsct, linsize` (include/tmv/TMV_BandMatrix.h:1073-1086).  Simplification: sizes are
`Nat` (a negative `ptrdiff_t` size becomes 0). -/
structure BView where
  ptr : Int
  cs : Nat
  rs : Nat
  lo : Int
  hi : Int
  si : Int
  sj : Int
  sd : Int
  conj : Bool
  ls : Int
deriving DecidableEq, Repr

/-- `StorageType` of a `BandMatrix` (include/tmv/TMV_Base.h `RowMajor, ColMajor, DiagMajor`). -/
inductive Stor
  | rm | cm | dm
deriving DecidableEq, Repr

/-- `BandStorageLength(s,cs,rs,lo,hi)` (src/TMV_BandMatrix.cpp:128-157). -/
def bandStorageLength (s : Stor) (cs rs lo hi : Int) : Int :=
  if cs = 0 ∨ rs = 0 then 0
  else if cs = rs then (cs - 1) * (lo + hi) + cs
  else
    let cs := if cs > rs + lo then rs + lo else cs
    let rs := if rs > cs + hi then cs + hi else rs
    if s = Stor.rm then (cs - 1) * (lo + hi) + rs
    else if s = Stor.cm then (rs - 1) * (lo + hi) + cs
    else if cs > rs then rs * (lo + hi + 1)
    else (cs - 1) * (lo + hi) + rs

/-- `BandNumElements(cs,rs,lo,hi)` (src/TMV_BandMatrix.cpp:159-172). -/
def bandNumElements (cs rs lo hi : Int) : Int :=
  if cs = 0 ∨ rs = 0 then 0
  else if cs = rs then cs * (lo + hi + 1) - (lo * (lo + 1)).tdiv 2 - (hi * (hi + 1)).tdiv 2
  else if cs > rs then
    let lox := max (rs + lo - cs) 0
    rs * (lo + hi + 1) - (lox * (lox + 1)).tdiv 2 - (hi * (hi + 1)).tdiv 2
  else
    let hix := max (cs + hi - rs) 0
    cs * (lo + hi + 1) - (lo * (lo + 1)).tdiv 2 - (hix * (hix + 1)).tdiv 2

variable {K : Type _}

namespace BView

/-- `okij(i,j)` (include/tmv/TMV_BandMatrix.h:959-963). -/
def okij (M : BView) (i j : Int) : Bool := decide (j + M.lo ≥ i ∧ i + M.hi ≥ j)

/-- Address of element `(i,j)`: `cptr()+i*stepi()+j*stepj()` (src/TMV_BandMatrix.cpp:47, 58). -/
def addr (M : BView) (i j : Int) : Int := M.ptr + i * M.si + j * M.sj

/-- `GenBandMatrix::cref` (src/TMV_BandMatrix.cpp:43-52; owner: include/tmv/TMV_BandMatrix.h:3596). -/
def cref [Star K] [Zero K] (M : BView) (m : Mem K) (i j : Int) : Option K :=
  if M.okij i j then (m.read (M.addr i j)).map (cj M.conj) else some 0

/-- `M.ref(i,j) = x` (src/TMV_BandMatrix.cpp:54-60). -/
def setRef [Star K] (M : BView) (i j : Int) (x : K) (m : Mem K) : Option (Mem K) :=
  m.write (M.addr i j) (cj M.conj x)

/-- `isrm()` (include/tmv/TMV_BandMatrix.h:911). -/
def isrm (M : BView) : Bool := decide (M.sj = 1)
/-- `iscm()` (include/tmv/TMV_BandMatrix.h:912). -/
def iscm (M : BView) : Bool := decide (M.si = 1)
/-- `isdm()` (include/tmv/TMV_BandMatrix.h:913). -/
def isdm (M : BView) : Bool := decide (M.sd = 1)

/-- The layout of a `BandMatrix(cs,rs,lo,hi)` whose array `itsm1` starts at `p`: macro `NEW_SIZE`
(include/tmv/TMV_BandMatrix.h:2512-2520) and `resize` (:3605-3641), seen through `view()`
(:3466-3471; the owner's `isdm()` is `S==DiagMajor`, so its view keeps `ls` otherwise). -/
def ofStor (p : Int) (s : Stor) (cs rs : Nat) (lo hi : Int) : BView :=
  let si : Int := if s = Stor.rm then lo + hi else if s = Stor.cm then 1
    else if rs ≥ cs then 1 - cs else -rs
  let sj : Int := if s = Stor.rm then 1 else if s = Stor.cm then lo + hi else -si + 1
  let sd : Int := if s = Stor.rm then si + 1 else if s = Stor.cm then sj + 1 else 1
  { ptr := if s = Stor.dm then p - lo * si else p
    cs := cs, rs := rs, lo := lo, hi := hi, si := si, sj := sj, sd := sd, conj := false
    ls := if s = Stor.dm then 0 else bandStorageLength s cs rs lo hi }

/-! ### Vector-valued views -/

/-- `row(i,j1,j2)` (include/tmv/TMV_BandMatrix.h:386-394). -/
def row3 (M : BView) (i j1 j2 : Int) : VView :=
  ⟨M.ptr + i * M.si + j1 * M.sj, (j2 - j1).toNat, M.sj, M.conj⟩
/-- `col(j,i1,i2)` (include/tmv/TMV_BandMatrix.h:396-404). -/
def col3 (M : BView) (j i1 i2 : Int) : VView :=
  ⟨M.ptr + i1 * M.si + j * M.sj, (i2 - i1).toNat, M.si, M.conj⟩
/-- `diag()` (include/tmv/TMV_BandMatrix.h:406-410). -/
def diag (M : BView) : VView := ⟨M.ptr, min M.cs M.rs, M.sd, M.conj⟩
/-- `diag(i)` (include/tmv/TMV_BandMatrix.h:412-425). -/
def diagOff (M : BView) (i : Int) : VView :=
  if i ≥ 0 then ⟨M.ptr + i * M.sj, (min (M.cs : Int) (M.rs - i)).toNat, M.sd, M.conj⟩
  else ⟨M.ptr - i * M.si, (min ((M.cs : Int) + i) M.rs).toNat, M.sd, M.conj⟩
/-- `diag(i,j1,j2)` (include/tmv/TMV_BandMatrix.h:427-441). -/
def diag3 (M : BView) (i j1 j2 : Int) : VView :=
  if i ≥ 0 then ⟨M.ptr + i * M.sj + j1 * M.sd, (j2 - j1).toNat, M.sd, M.conj⟩
  else ⟨M.ptr - i * M.si + j1 * M.sd, (j2 - j1).toNat, M.sd, M.conj⟩
/-- `subVector(i,j,istep,jstep,size)` (include/tmv/TMV_BandMatrix.h:584-591). -/
def subVector (M : BView) (i j istep jstep s : Int) : VView :=
  ⟨M.ptr + i * M.si + j * M.sj, s.toNat, istep * M.si + jstep * M.sj, M.conj⟩

/-! ### Matrix-valued views -/

/-- `subMatrix(i1,i2,j1,j2)` (include/tmv/TMV_BandMatrix.h:561-568). -/
def subMatrix4 (M : BView) (i1 i2 j1 j2 : Int) : MView :=
  ⟨M.ptr + i1 * M.si + j1 * M.sj, (i2 - i1).toNat, (j2 - j1).toNat, M.si, M.sj, M.conj, 0⟩
/-- `subMatrix(i1,i2,j1,j2,istep,jstep)` (include/tmv/TMV_BandMatrix.h:570-579). `none` = division by
zero. -/
def subMatrix6 (M : BView) (i1 i2 j1 j2 istep jstep : Int) : Option MView :=
  if istep = 0 ∨ jstep = 0 then none else
  some ⟨M.ptr + i1 * M.si + j1 * M.sj, ((i2 - i1).tdiv istep).toNat, ((j2 - j1).tdiv jstep).toNat,
    istep * M.si, jstep * M.sj, M.conj, 0⟩
/-- `subBandMatrix(i1,i2,j1,j2,newnlo,newnhi)` (include/tmv/TMV_BandMatrix.h:597-606). -/
def subBand6 (M : BView) (i1 i2 j1 j2 newnlo newnhi : Int) : BView :=
  ⟨M.ptr + i1 * M.si + j1 * M.sj, (i2 - i1).toNat, (j2 - j1).toNat, newnlo, newnhi, M.si, M.sj,
    M.sd, M.conj, 0⟩
/-- `subBandMatrix(i1,i2,j1,j2)` (include/tmv/TMV_BandMatrix.h:608-614). -/
def subBand4 (M : BView) (i1 i2 j1 j2 : Int) : BView :=
  let newnlo := min (M.lo + j1 - i1) (i2 - i1 - 1)
  let newnhi := min (M.hi + i1 - j1) (j2 - j1 - 1)
  M.subBand6 i1 i2 j1 j2 newnlo newnhi
/-- `subBandMatrix(i1,i2,j1,j2,newnlo,newnhi,istep,jstep)` (include/tmv/TMV_BandMatrix.h:616-627).
`none` = division by zero. -/
def subBand8 (M : BView) (i1 i2 j1 j2 newnlo newnhi istep jstep : Int) : Option BView :=
  if istep = 0 ∨ jstep = 0 then none else
  let newstepi := M.si * istep
  let newstepj := M.sj * jstep
  some ⟨M.ptr + i1 * M.si + j1 * M.sj, ((i2 - i1).tdiv istep).toNat, ((j2 - j1).tdiv jstep).toNat,
    newnlo, newnhi, newstepi, newstepj, newstepi + newstepj, M.conj, 0⟩
/-- `rowRange(i1,i2)` (include/tmv/TMV_BandMatrix.h:629-643). -/
def rowRange (M : BView) (i1 i2 : Int) : BView :=
  let j1 := if i1 > M.lo then i1 - M.lo else 0
  let j2 := min (i2 + M.hi) M.rs
  let newnlo := if i1 < M.lo then min M.lo (i2 - 1) - i1 else 0
  let newnhi := if j1 = j2 then 0 else min (M.lo + M.hi - newnlo) (j2 - j1 - 1)
  let newlin := if M.ls ≠ 0 ∧ M.isrm then -1 else 0
  ⟨M.ptr + i1 * M.si + j1 * M.sj, (i2 - i1).toNat, (j2 - j1).toNat, newnlo, newnhi, M.si, M.sj,
    M.sd, M.conj, newlin⟩
/-- The `rowsize()` that `rowRange(i1,i2)` passes on, `j2-j1`, as the signed integer it is in the code
(include/tmv/TMV_BandMatrix.h:632-642; `rowRange` above cuts it off at 0). -/
def rowRangeRs (M : BView) (i1 i2 : Int) : Int :=
  let j1 := if i1 > M.lo then i1 - M.lo else 0
  let j2 := min (i2 + M.hi) (M.rs : Int)
  j2 - j1
/-- `colRange(j1,j2)` (include/tmv/TMV_BandMatrix.h:645-659). -/
def colRange (M : BView) (j1 j2 : Int) : BView :=
  let i1 := if j1 > M.hi then j1 - M.hi else 0
  let i2 := min (j2 + M.lo) M.cs
  let newnhi := if j1 < M.hi then min M.hi (j2 - 1) - j1 else 0
  let newnlo := if i1 = i2 then 0 else min (M.lo + M.hi - newnhi) (i2 - i1 - 1)
  let newlin := if M.ls ≠ 0 ∧ M.iscm then -1 else 0
  ⟨M.ptr + i1 * M.si + j1 * M.sj, (i2 - i1).toNat, (j2 - j1).toNat, newnlo, newnhi, M.si, M.sj,
    M.sd, M.conj, newlin⟩
/-- `diagRange(k1,k2)` (include/tmv/TMV_BandMatrix.h:661-676). -/
def diagRange (M : BView) (k1 k2 : Int) : BView :=
  let i1 := if k2 ≤ 0 then -k2 + 1 else 0
  let i2 := min (M.rs - k1) M.cs
  let j1 := if k1 ≤ 0 then 0 else k1
  let j2 := min (M.rs : Int) (M.cs + k2 - 1)
  let newnlo := if k2 ≤ 0 then k2 - k1 - 1 else if k1 < 0 then -k1 else 0
  let newnhi := if k2 ≤ 0 then 0 else if k1 < 0 then k2 - 1 else k2 - k1 - 1
  ⟨M.ptr + i1 * M.si + j1 * M.sj, (i2 - i1).toNat, (j2 - j1).toNat, newnlo, newnhi, M.si, M.sj,
    M.sd, M.conj, 0⟩
/-- `upperBand()` (include/tmv/TMV_BandMatrix.h:678-684). -/
def upperBand (M : BView) : BView :=
  ⟨M.ptr, min M.cs M.rs, (min (M.cs + M.hi) M.rs).toNat, 0, M.hi, M.si, M.sj, M.sd, M.conj, 0⟩
/-- `lowerBand()` (include/tmv/TMV_BandMatrix.h:686-692). -/
def lowerBand (M : BView) : BView :=
  ⟨M.ptr, (min (M.cs : Int) (M.rs + M.lo)).toNat, min M.cs M.rs, M.lo, 0, M.si, M.sj, M.sd, M.conj, 0⟩
/-- `upperBandOff()` (include/tmv/TMV_BandMatrix.h:694-700). -/
def upperBandOff (M : BView) : BView :=
  ⟨M.ptr + M.sj, (min (M.cs : Int) (M.rs - 1)).toNat, (min (M.cs + M.hi) (M.rs - 1)).toNat,
    0, M.hi - 1, M.si, M.sj, M.sd, M.conj, 0⟩
/-- `lowerBandOff()` (include/tmv/TMV_BandMatrix.h:702-708). -/
def lowerBandOff (M : BView) : BView :=
  ⟨M.ptr + M.si, (min ((M.cs : Int) - 1) (M.rs + M.lo)).toNat, (min ((M.cs : Int) - 1) M.rs).toNat,
    M.lo - 1, 0, M.si, M.sj, M.sd, M.conj, 0⟩
/-- `view()` (include/tmv/TMV_BandMatrix.h:731-737). -/
def view (M : BView) : BView := { M with ls := if M.isdm then 0 else M.ls }
/-- `transpose()` (include/tmv/TMV_BandMatrix.h:739-745). -/
def transpose (M : BView) : BView :=
  ⟨M.ptr, M.rs, M.cs, M.hi, M.lo, M.sj, M.si, M.sd, M.conj, if M.isdm then 0 else M.ls⟩
/-- `conjugate()` (include/tmv/TMV_BandMatrix.h:747-753). -/
def conjugate (M : BView) : BView :=
  ⟨M.ptr, M.cs, M.rs, M.lo, M.hi, M.si, M.sj, M.sd, !M.conj, if M.isdm then 0 else M.ls⟩
/-- `adjoint()` (include/tmv/TMV_BandMatrix.h:755-761). -/
def adjoint (M : BView) : BView :=
  ⟨M.ptr, M.rs, M.cs, M.hi, M.lo, M.sj, M.si, M.sd, !M.conj, if M.isdm then 0 else M.ls⟩

/-- `BandMatrixView(const GenMatrix& rhs, lo, hi)`: the band of a full matrix
(include/tmv/TMV_BandMatrix.h:1043-1054). -/
def ofMat (M : MView) (lo hi : Int) : BView :=
  ⟨M.ptr, M.cs, M.rs, lo, hi, M.si, M.sj, M.si + M.sj, M.conj, 0⟩
/-- `BandMatrixView(const GenBandMatrix& rhs, lo, hi)` (include/tmv/TMV_BandMatrix.h:1029-1041). -/
def narrow (M : BView) (lo hi : Int) : BView := { M with lo := lo, hi := hi, ls := 0 }

/-! ### Range checks -/

/-- `GenBandMatrix::hasSubMatrix` (src/TMV_BandMatrix.cpp:178-241); `none` = division by zero. -/
def hasSubMatrix (M : BView) (i1 i2 j1 j2 istep jstep : Int) : Option Bool :=
  if i1 = i2 ∨ j1 = j2 then some true else do
    let a ← MView.rangeCheck M.cs i1 i2 istep
    let b ← MView.rangeCheck M.rs j1 j2 jstep
    let ok := a && b
    let ok := if !M.okij i1 j1 then false else ok
    let ok := if !M.okij i1 (j2 - jstep) then false else ok
    let ok := if !M.okij (i2 - istep) j1 then false else ok
    let ok := if !M.okij (i2 - istep) (j2 - jstep) then false else ok
    some ok

/-- `GenBandMatrix::hasSubVector` (src/TMV_BandMatrix.cpp:243-284). -/
def hasSubVector (M : BView) (i j istep jstep size : Int) : Bool :=
  if size = 0 then true else
  let ok := true
  let ok := if istep = 0 ∧ jstep = 0 then false else ok
  let ok := if i < 0 ∨ i ≥ M.cs then false else ok
  let ok := if j < 0 ∨ j ≥ M.rs then false else ok
  let i2 := i + istep * (size - 1)
  let j2 := j + jstep * (size - 1)
  let ok := if i2 < 0 ∨ i2 ≥ M.cs then false else ok
  let ok := if j2 < 0 ∨ j2 ≥ M.rs then false else ok
  let ok := if !M.okij i j then false else ok
  let ok := if !M.okij i2 j2 then false else ok
  ok

/-- `GenBandMatrix::hasSubBandMatrix` (src/TMV_BandMatrix.cpp:285-370); `none` = division by zero. -/
def hasSubBand (M : BView) (i1 i2 j1 j2 newnlo newnhi istep jstep : Int) : Option Bool :=
  if i1 = i2 ∨ j1 = j2 then some true else do
    let a ← MView.rangeCheck M.cs i1 i2 istep
    let b ← MView.rangeCheck M.rs j1 j2 jstep
    let ok := a && b
    let ok := if !M.okij i1 j1 then false else ok
    let ok := if !M.okij i1 (j1 + newnhi) then false else ok
    let ok := if !M.okij (i1 + newnlo) j1 then false else ok
    let ok := if newnhi ≥ j2 - j1 then false else ok
    let ok := if newnlo ≥ i2 - i1 then false else ok
    some ok

/-! ### Linear view -/

/-- The update of the `mutable linsize` in `canLinearize()` (src/TMV_BandMatrix.cpp:566-604). -/
def resolveLs (M : BView) : Int :=
  if M.ls = -1 then
    let rs : Int := M.rs
    let cs : Int := M.cs
    let rs := if rs > cs + M.hi then cs + M.hi else rs
    let cs := if cs > rs + M.lo then rs + M.lo else cs
    if rs = 0 ∨ cs = 0 then 0
    else if M.si = 1 ∧ M.sj = M.lo + M.hi then cs + (rs - 1) * (M.lo + M.hi)
    else if M.sj = 1 ∧ M.si = M.lo + M.hi then rs + (cs - 1) * (M.lo + M.hi)
    else M.ls
  else M.ls

/-- `canLinearize()` of a view (src/TMV_BandMatrix.cpp:566-604). -/
def canLinearize (M : BView) : Bool := decide (M.resolveLs > 0)

/-- `linearView()` (include/tmv/TMV_BandMatrix.h:1875-1910): `VectorView(ptr(),ls(),1,ct())`. -/
def linearView (M : BView) : VView := ⟨M.ptr, M.resolveLs.toNat, 1, M.conj⟩

/-- `linearView()` of a `BandMatrix` itself (include/tmv/TMV_BandMatrix.h:3550-3570):
`vec_type(itsm1.get(),linsize,1,NonConj)`. -/
def ownerLinear (p : Int) (s : Stor) (cs rs : Nat) (lo hi : Int) : VView :=
  ⟨p, (bandStorageLength s cs rs lo hi).toNat, 1, false⟩

/-- `BandMatrix::setZero, setAllTo, addToAll, clip, conjugateSelf` of an owner:
`linearView().op()` (include/tmv/TMV_BandMatrix.h:3057-3078). -/
def ownerEach (op : VView → Mem K → Option (Mem K)) (p : Int) (s : Stor) (cs rs : Nat) (lo hi : Int)
    (m : Mem K) : Option (Mem K) := op (ownerLinear p s cs rs lo hi) m

/-! ### Whole-matrix operations -/

/-- `for(i..) { op(row(i,j1,j2)); if (k>0) --k; else ++j1; if (j2<N) ++j2; else if (j1==N) break; }`
(src/TMV_BandMatrix.cpp:1187-1195 and the same loop at 1222, 1257, 1292, 1343); the column loops
(:1197-1205, ...) are the same with `col`, `M` for `row`, `N`. -/
def bandLoop (row : Int → Int → Int → VView) (op : VView → Mem K → Option (Mem K)) (N : Int) :
    Nat → Int → Int → Int → Int → Mem K → Option (Mem K)
  | 0, _, _, _, _, m => some m
  | n+1, i, j1, j2, k, m => do
      let m ← op (row i j1 j2) m
      let j1' := if k > 0 then j1 else j1 + 1
      let k' := if k > 0 then k - 1 else k
      if j2 < N then bandLoop row op N n (i+1) j1' (j2+1) k' m
      else if j1' = N then some m
      else bandLoop row op N n (i+1) j1' j2 k' m

/-- The common body of `clip, setZero, setAllTo, addToAll, conjugateSelf` on a band view when it is
not linear (src/TMV_BandMatrix.cpp:1180-1211, 1217-1246, 1252-1281, 1287-1316, 1338-1367). -/
def eachLoop (op : VView → Mem K → Option (Mem K)) (M : BView) (m : Mem K) : Option (Mem K) :=
  if M.cs > 0 ∧ M.rs > 0 then
    if M.isrm then bandLoop M.row3 op M.rs M.cs 0 0 (M.hi + 1) M.lo m
    else if M.iscm then bandLoop M.col3 op M.cs M.rs 0 0 (M.lo + 1) M.hi m
    else loopV (fun t => M.diagOff (t - M.lo)) op (M.lo + M.hi + 1).toNat 0 m
  else some m

/-- `clip, setZero, setAllTo, addToAll, conjugateSelf` on a band view
(src/TMV_BandMatrix.cpp:1177-1213, 1215-1248, 1250-1283, 1285-1318, 1336-1369). -/
def each (op : VView → Mem K → Option (Mem K)) (M : BView) (m : Mem K) : Option (Mem K) :=
  if M.canLinearize then op M.linearView m else M.eachLoop op m

/-- `BandMatrixView::setZero` (src/TMV_BandMatrix.cpp:1215-1248). -/
def setZero [Star K] [Zero K] (M : BView) : Mem K → Option (Mem K) := M.each VView.setZero
/-- `BandMatrixView::setAllTo` (src/TMV_BandMatrix.cpp:1250-1283). -/
def setAllTo [Star K] (M : BView) (x : K) : Mem K → Option (Mem K) := M.each (fun v => v.setAllTo x)
/-- `BandMatrixView::addToAll` (src/TMV_BandMatrix.cpp:1285-1318). -/
def addToAll [Star K] [Add K] (M : BView) (x : K) : Mem K → Option (Mem K) :=
  M.each (fun v => v.addToAll x)
/-- `BandMatrixView::clip` (src/TMV_BandMatrix.cpp:1177-1213). -/
def clip {R : Type _} [LT R] [DecidableLT R] [Zero K] (abs : K → R) (M : BView) (t : R) :
    Mem K → Option (Mem K) := M.each (fun v => v.clip abs t)
/-- `BandMatrixView::conjugateSelf` (src/TMV_BandMatrix.cpp:1328-1369), complex `T`. -/
def conjugateSelf [Star K] (M : BView) : Mem K → Option (Mem K) := M.each VView.conjugateSelf

/-- `doTransposeSelf` (src/TMV_BandMatrix.cpp:1320-1326). -/
def transposeSelf [Star K] (M : BView) (m : Mem K) : Option (Mem K) :=
  loopV2 (fun i => M.diagOff (-(i : Int))) (fun i => M.diagOff i) VView.swapV M.hi.toNat 1 m

/-- The reduction loop with early exit, as `bandLoop`. -/
def bandLoopFold {β γ : Type _} (row : Int → Int → Int → VView) (red : VView → Mem K → Option β)
    (g : γ → β → γ) (N : Int) (m : Mem K) : Nat → Int → Int → Int → Int → γ → Option γ
  | 0, _, _, _, _, b => some b
  | n+1, i, j1, j2, k, b => do
      let x ← red (row i j1 j2) m
      let b := g b x
      let j1' := if k > 0 then j1 else j1 + 1
      let k' := if k > 0 then k - 1 else k
      if j2 < N then bandLoopFold row red g N m n (i+1) j1' (j2+1) k' b
      else if j1' = N then some b
      else bandLoopFold row red g N m n (i+1) j1' j2 k' b

/-- The common body of `sumElements` (src/TMV_BandMatrix.cpp:650-681), `DoSumAbsElements` (:683-713),
`DoSumAbs2Elements` (:715-745), `normSq`, `DoMaxAbsElement`, ... -/
def reduce {β γ : Type _} (red : VView → Mem K → Option β) (g : γ → β → γ) (b0 : γ) (M : BView)
    (m : Mem K) : Option γ :=
  if M.cs > 0 ∧ M.rs > 0 then
    if M.isrm then bandLoopFold M.row3 red g M.rs m M.cs 0 0 (M.hi + 1) M.lo b0
    else if M.iscm then bandLoopFold M.col3 red g M.cs m M.rs 0 0 (M.lo + 1) M.hi b0
    else loopVFold (fun t => M.diagOff (t - M.lo)) red g m (M.lo + M.hi + 1).toNat 0 b0
  else some b0

end BView
end TMV
