import Verif.Spec.Lin
import Verif.Model.LUDiv
import Verif.Model.BandLU
import Mathlib.Algebra.Star.Basic

/-! `makeInverseATA` through an LU decomposition: src/TMV_LUD.cpp:171-202, src/TMV_BandLUD.cpp:284-314. -/
namespace TMV.LUATA
open TMV.Tri TMV.TriProd
variable {K : Type _} [Field K] [StarRing K] [DecidableEq K] {S : Type _} [LinearOrder S] [Zero S]

/-- Conjugate of an element function. -/
def cj (A : Nat → Nat → K) : Nat → Nat → K := fun i j => star (A i j)

/-- `C = X*Y` for `N`×`N` matrices.  In the code the factors are triangles living in `C` itself
(`ata = uinv.transpose()*uinv.conjugate()`, `ata = linv*linv.adjoint()`); `MultMM` copies or orders the operations so that
it is safe (TMV_MultUL.cpp:405-414, 634-652); simplified to the exact product. -/
def prodM (N : Nat) (X Y C : Nat → Nat → K) : Nat → Nat → K :=
  fun i j => if i < N ∧ j < N then ∑ k ∈ Finset.range N, X i k * Y k j else C i j

/-- Block sizes: of the triangular solves, of the triangle inverse and of the triangle products. -/
structure Blk where
  lu : LU.Blk
  inv : Nat
  mm : Nat
  mm2 : Nat

/-- `LUDiv::doMakeInverseATA` with `istrans` (TMV_LUD.cpp:187-194). `b1`, `b2`: `isrm()` of `ata` and of its transpose,
`o`, `st` the storage of `ata`. `none`: an exception was thrown. -/
def luTrans (bs : Blk) (o : Ord) (b1 b2 st : Bool) (N : Nat) (LUx : Nat → Nat → K) (P : Nat → Nat) (ata : Nat → Nat → K) :
    Option (Nat → Nat → K) :=
  -- uinv = U.inverse(), uinv = ata.upperTri()
  (TriProd.triInverse bs.inv bs.mm bs.mm2 o b1 st false N (fun i j => if i ≤ j ∧ j < N then LUx i j else ata i j)).bind fun u =>
  -- ata = uinv.transpose() * uinv.conjugate()
  let ata := prodM N (tr (upperMat false u)) (cj (upperMat false u)) u
  -- ata /= L.transpose()
  (upperM bs.lu.tri bs.lu.tri2 .rm b1 true N N (tr LUx) ata).bind fun ata =>
  -- ata %= L.conjugate()
  (upperM bs.lu.tri bs.lu.tri2 .rm b2 true N N (tr (cj LUx)) (tr ata)).map fun at' =>
  -- ata.reversePermuteCols(P); ata.reversePermuteRows(P)
  LU.reversePermuteRows N P N 0 (tr (LU.reversePermuteRows N P N 0 at'))

/-- `LUDiv::doMakeInverseATA`, not `istrans` (TMV_LUD.cpp:195-201). -/
def luPlain (bs : Blk) (o : Ord) (b1 b2 st : Bool) (N : Nat) (LUx : Nat → Nat → K) (ata : Nat → Nat → K) :
    Option (Nat → Nat → K) :=
  -- linv = L.inverse(), linv = ata.lowerTri(UnitDiag)
  (TriProd.triInverse bs.inv bs.mm bs.mm2 (LU.Ord.tr o) b2 st true N
    (tr fun i j => if j < i ∧ i < N then LUx i j else ata i j)).bind fun lt =>
  -- ata = linv * linv.adjoint()
  let ata := prodM N (lowerMat true (tr lt)) (tr (cj (lowerMat true (tr lt)))) (tr lt)
  -- ata /= U
  (upperM bs.lu.tri bs.lu.tri2 .cm b1 false N N LUx ata).bind fun ata =>
  -- ata %= U.adjoint()
  (upperM bs.lu.tri bs.lu.tri2 .cm b2 false N N (cj LUx) (tr ata)).map tr

/-- `LUDiv::doMakeInverseATA` (TMV_LUD.cpp:171-202). -/
def lu (bs : Blk) (o : Ord) (b1 b2 st : Bool) (N : Nat) (F : LU.Fac K) (ata : Nat → Nat → K) : Option (Nat → Nat → K) :=
  if F.istrans then luTrans bs o b1 b2 st N F.LUx F.P ata else luPlain bs o b1 b2 st N F.LUx ata

/-- `BandLUDiv::doMakeInverseATA` with `istrans` (TMV_BandLUD.cpp:288-299). -/
def bandTrans (bs : Blk) (o : Ord) (b1 st : Bool) (N : Nat) (F : BandLU.Fac K) (ata : Nat → Nat → K) :
    Option (Nat → Nat → K) :=
  -- uinv = getU(); TriInverse(uinv,nhi)
  (BandLU.triInverse bs.inv bs.mm bs.mm2 o b1 st N F.hi
    (fun i j => if i ≤ j ∧ j < N then bandMat 0 F.hi F.LUx i j else ata i j)).map fun u =>
  -- ata = uinv.transpose() * uinv.conjugate()
  let ata := prodM N (tr (upperMat false u)) (cj (upperMat false u)) u
  -- LU_PackedPL_RDivEq(LUx,P,ata.transpose())
  let ata := tr (BandLU.packedRDiv N F.lo N F.LUx F.P (tr ata))
  -- LU_PackedPL_RDivEq(LUx,P,ata.conjugate())
  cj (BandLU.packedRDiv N F.lo N F.LUx F.P (cj ata))

/-- `BandLUDiv::doMakeInverseATA`, not `istrans` (TMV_BandLUD.cpp:300-313). -/
def bandPlain (b1 b2 : Bool) (N : Nat) (F : BandLU.Fac K) (ata : Nat → Nat → K) : Option (Nat → Nat → K) :=
  -- ata.setToIdentity(); LU_PackedPL_LDivEq(LUx,P,ata)
  let ata := fun i j => if i < N ∧ j < N then (if i = j then 1 else 0) else ata i j
  let ata := BandLU.packedLDiv N F.lo N F.LUx F.P ata
  -- ata = linv * linv.adjoint(), linv = ata.lowerTri(UnitDiag)
  let ata := prodM N (lowerMat true ata) (tr (cj (lowerMat true ata))) ata
  -- TriLDivEq(U,ata,NonUnitDiag)
  (BandTri.triM F.o b1 false N 0 F.hi N F.LUx ata).bind fun ata =>
  -- TriLDivEq(U,ata.adjoint(),NonUnitDiag)
  (BandTri.triM F.o b2 false N 0 F.hi N F.LUx (tr (cj ata))).map fun h => tr (cj h)

/-- `BandLUDiv::doMakeInverseATA` (TMV_BandLUD.cpp:284-314). -/
def band (bs : Blk) (o : Ord) (b1 b2 st : Bool) (N : Nat) (F : BandLU.Fac K) (ata : Nat → Nat → K) :
    Option (Nat → Nat → K) :=
  if F.istrans then bandTrans bs o b1 st N F ata else bandPlain b1 b2 N F ata

end TMV.LUATA
