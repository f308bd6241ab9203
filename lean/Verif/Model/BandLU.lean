import Verif.Model.BandTri
import Verif.Model.LUDiv
import Verif.Spec.BandLin

/-! LU decomposition of band matrices: src/TMV_BandLUDecompose.cpp, src/TMV_BandLUDiv.cpp, src/TMV_BandLUInverse.cpp,
src/TMV_BandLUD.cpp (the code used without LAPACK).

A band matrix is the element function of its storage; elements outside the band are arbitrary memory.  `ab` is
`TMV_ABS`, `uf`/`ufK` is `TMV_Underflow` of a real / of an element.  Elements are exact field elements. -/
namespace TMV.BandLU
open TMV.Tri
variable {K : Type _} [Field K] [DecidableEq K] {S : Type _} [LinearOrder S] [Zero S]

/-- State of the loop of `NonLapBandLU_Decompose`: `A`, `P`, `endcol`, `endrow`. -/
structure St (K : Type _) where
  A : Nat → Nat → K
  P : Nat → Nat
  endcol : Nat
  endrow : Nat

/-- Pivot search, underflow check and row swap (TMV_BandLUDecompose.cpp:115-127): the new elements and `*Pj`. -/
def bPivot (ab : K → S) (uf : S → Bool) (j endcol endrow : Nat) (A : Nat → Nat → K) : (Nat → Nat → K) × Nat :=
  let m := LU.maxAbs ab (fun i => A (j+i) j) (endcol - j)
  let z := if uf m.1 then ((fun a b => if b = j ∧ j ≤ a ∧ a < endcol then 0 else A a b), 0) else (A, m.2)
  if z.2 ≠ 0 then
    let ip := z.2 + j
    ((fun a b => if j ≤ b ∧ b < endrow then (if a = ip then z.1 j b else if a = j then z.1 ip b else z.1 a b)
      else z.1 a b), ip)
  else (z.1, j)

/-- One iteration of the loop of `NonLapBandLU_Decompose` (TMV_BandLUDecompose.cpp:113-138). -/
def bStep (ab : K → S) (uf : S → Bool) (N j : Nat) (s : St K) : St K :=
  let q := bPivot ab uf j s.endcol s.endrow s.A
  let A := q.1
  -- if (*Ujj != T(0)) A.col(j,j+1,endcol) /= *Ujj
  let A1 := if A j j ≠ 0 then fun a b => if b = j ∧ j < a ∧ a < s.endcol then A a j / A j j else A a b else A
  -- A.subMatrix(j+1,endcol,j+1,endrow) -= A.col(j,j+1,endcol) ^ A.row(j,j+1,endrow)
  let A2 := fun a b => if j < a ∧ a < s.endcol ∧ j < b ∧ b < s.endrow then A1 a b - A1 a j * A1 j b else A1 a b
  ⟨A2, Function.update s.P j q.2, if s.endcol < N then s.endcol + 1 else s.endcol,
    if s.endrow < N then s.endrow + 1 else s.endrow⟩

/-- `NonLapBandLU_Decompose` (TMV_BandLUDecompose.cpp:48-141), `N > 0`. -/
def bandDec (ab : K → S) (uf : S → Bool) (N lo hi : Nat) (A : Nat → Nat → K) (P : Nat → Nat) :
    (Nat → Nat → K) × (Nat → Nat) :=
  let s := up (bStep ab uf N) (N-1) 0 ⟨A, P, lo+1, hi+1⟩
  (s.A, Function.update s.P (N-1) (N-1))

/-- `TMV_SWAP` of two elements. -/
def swapE (A : Nat → Nat → K) (i j i' j' : Nat) : Nat → Nat → K :=
  setE (setE A i j (A i' j')) i' j' (A i j)

/-- The pivoting of `NonLapTriDiagLU_Decompose` (TMV_BandLUDecompose.cpp:169-175): `*Lj` is element `(j+1,j)`, `*Uj1`
is `(j,j+1)`, `*Uj2` is `(j,j+2)`, `*(Ujj+1)` is `(j+1,j+1)`, `*(Uj1+1)` is `(j+1,j+2)`. -/
def tPivot (N j : Nat) (A : Nat → Nat → K) : Nat → Nat → K :=
  let A := swapE A (j+1) j j j
  let A := if j+1 < N then swapE A (j+1) (j+1) j (j+1) else A
  if j+2 < N then swapE A (j+1) (j+2) j (j+2) else A

/-- One iteration of the loop of `NonLapTriDiagLU_Decompose` (TMV_BandLUDecompose.cpp:166-195). -/
def tStep (ab : K → S) (ufK : K → Bool) (N j : Nat) (s : (Nat → Nat → K) × (Nat → Nat)) :
    (Nat → Nat → K) × (Nat → Nat) :=
  let pivot := ab (s.1 (j+1) j) > ab (s.1 j j)
  let A := if pivot then tPivot N j s.1 else s.1
  let P := Function.update s.2 j (if pivot then j+1 else j)
  let A := if ufK (A j j) then setE (setE A (j+1) j 0) j j 0 else setE A (j+1) j (A (j+1) j / A j j)
  let A := setE A (j+1) (j+1) (A (j+1) (j+1) - A (j+1) j * A j (j+1))
  let A := if pivot ∧ j+2 < N then setE A (j+1) (j+2) (A (j+1) (j+2) - A (j+1) j * A j (j+2)) else A
  (A, P)

/-- `NonLapTriDiagLU_Decompose` (TMV_BandLUDecompose.cpp:143-198), `N > 0`. -/
def triDec (ab : K → S) (ufK : K → Bool) (N : Nat) (A : Nat → Nat → K) (P : Nat → Nat) :
    (Nat → Nat → K) × (Nat → Nat) :=
  let s := up (tStep ab ufK N) (N-1) 0 (A, P)
  (s.1, Function.update s.2 (N-1) (N-1))

/-- `LU_Decompose(A,P,Anhi)` (TMV_BandLUDecompose.cpp:382-426); `cm` is `A.iscm()`.  (A conjugated view is decomposed
through its conjugate, a field automorphism: not modelled.) -/
def decompose (ab : K → S) (uf : S → Bool) (ufK : K → Bool) (cm : Bool) (N lo hi : Nat) (A : Nat → Nat → K)
    (P : Nat → Nat) : (Nat → Nat → K) × (Nat → Nat) :=
  if lo > 0 then
    if N > 0 then (if cm then bandDec ab uf N lo hi A P else triDec ab ufK N A P) else (A, P)
  else (A, fun k => if k < N then k else P k)

/-- `LU_PackedPL_Unpack` (TMV_BandLUDiv.cpp:48-74) into a unit lower triangle matrix: only elements below the diagonal
are stored. -/
def unpack (N lo : Nat) (LUx : Nat → Nat → K) (p : Nat → Nat) (L : Nat → Nat → K) : Nat → Nat → K :=
  let L := fun a b => if b < a ∧ a < N then 0 else L a b
  if lo = 0 then L
  else up (fun i L =>
    let L := fun a b => if b < i then (if a = i then L (p i) b else if a = p i then L i b else L a b) else L a b
    fun a b => if b = i ∧ i < a ∧ a < min (i+lo+1) N then LUx a i else L a b) N 0 L

/-- `LU_PackedPL_LDivEq` (TMV_BandLUDiv.cpp:80-117) on a matrix with `nc` columns; loop state `(m, jn)`. -/
def packedLDiv (N lo nc : Nat) (LUx : Nat → Nat → K) (p : Nat → Nat) (m : Nat → Nat → K) : Nat → Nat → K :=
  if lo > 0 then
    (up (fun j (s : (Nat → Nat → K) × Nat) =>
      let m := LU.swapRows nc s.1 j (p j)
      ((fun a c => if j < a ∧ a < s.2 ∧ c < nc then m a c - LUx a j * m j c else m a c),
        if s.2 < N then s.2 + 1 else s.2)) (N-1) 0 (m, lo+1)).1
  else m

/-- `m.swapCols(j1,j2)` for a matrix with `nr` rows. -/
def swapCols (nr : Nat) (m : Nat → Nat → K) (j1 j2 : Nat) : Nat → Nat → K :=
  fun r c => if r < nr then (if c = j1 then m r j2 else if c = j2 then m r j1 else m r c) else m r c

/-- `LU_PackedPL_RDivEq` (TMV_BandLUDiv.cpp:190-223) on a matrix with `nr` rows; loop state `(m, k, jn)`. -/
def packedRDiv (N lo nr : Nat) (LUx : Nat → Nat → K) (p : Nat → Nat) (m : Nat → Nat → K) : Nat → Nat → K :=
  if lo > 0 then
    (down (fun j (s : (Nat → Nat → K) × Nat × Nat) =>
      let m := fun r c => if r < nr ∧ c = j then
        s.1 r j - ∑ k ∈ Finset.range (s.2.2 - (j+1)), s.1 r (j+1+k) * LUx (j+1+k) j else s.1 r c
      (swapCols nr m j (p j), if s.2.1 > 0 then (s.2.1 - 1, s.2.2) else (s.2.1, s.2.2 - 1)))
      (N-1) (m, lo-1, N)).1
  else m

/-- `LU_LDivEq` (TMV_BandLUDiv.cpp:138-162, 810-831): `m /= P*L*U`; `o` is the storage order of `LUx`, `brm` is
`m.isrm()`. -/
def lDivEq (o : Ord) (brm : Bool) (N lo hi nc : Nat) (LUx : Nat → Nat → K) (p : Nat → Nat) (m : Nat → Nat → K) :
    Option (Nat → Nat → K) :=
  if N > 0 ∧ nc > 0 then BandTri.triM o brm false N 0 hi nc LUx (packedLDiv N lo nc LUx p m) else some m

/-- `LU_RDivEq` (TMV_BandLUDiv.cpp:244-271, 833-854): `m %= P*L*U`; `bcm` is `m.iscm()`. -/
def rDivEq (o : Ord) (bcm : Bool) (N lo hi nr : Nat) (LUx : Nat → Nat → K) (p : Nat → Nat) (m : Nat → Nat → K) :
    Option (Nat → Nat → K) :=
  if N > 0 ∧ nr > 0 then
    (BandTri.triM (LU.Ord.tr o) bcm false N hi 0 nr (TriProd.tr LUx) (TriProd.tr m)).map fun mt =>
      packedRDiv N lo nr LUx p (TriProd.tr mt)
  else some m

/-- `RecursiveInverse<false>` with a bandwidth (TMV_BandLUInverse.cpp:106-153). -/
def bandInv (nb mb mb2 : Nat) (o : Ord) (brm st : Bool) (nhi : Nat) :
    Nat → Nat → (Nat → Nat → K) → Option (Nat → Nat → K)
  | 0, _, _ => none
  | fuel+1, N, U =>
    if N = 1 then
      if U 0 0 = 0 then none else some (setE U 0 0 (U 0 0)⁻¹)
    else
      let k := splitAt nb N
      (bandInv nb mb mb2 o brm st nhi fuel k U).bind fun U00 =>
      (bandInv nb mb mb2 o brm st nhi fuel (N-k) (sub U k k)).map fun U11 =>
        let U := paste (paste U 0 0 k k U00) k k (N-k) (N-k) U11
        let U := if nhi < N-k then
            -- U01.colRange(0,nhi) = -U00 * U01.colRange(0,nhi)
            paste U 0 k k nhi (TriMul.upperRec mb mb2 o false brm st nhi (k+1) k false (-1) U (sub U 0 k))
          else
            -- U01 = -U00 * U01
            paste U 0 k k (N-k) (TriMul.upperRec mb mb2 o false brm st (N-k) (k+1) k false (-1) U (sub U 0 k))
        -- U01 *= U11
        paste U 0 k k (N-k) (TriProd.tr (TriMul.lowerRec mb mb2 o false brm st k (N-k+1) (N-k) false 1
          (TriProd.tr (sub U k k)) (TriProd.tr (sub U 0 k))))

/-- `DiagMatrixView::invertSelf` (TMV_DiagMatrix.cpp:137-160) on the diagonal of `U`. -/
def diagInv (N : Nat) (U : Nat → Nat → K) : Option (Nat → Nat → K) :=
  forRange (fun i U => if U i i = 0 then none else some (setE U i i (U i i)⁻¹)) N 0 U

/-- `TriInverse(U,nhi)` (TMV_BandLUInverse.cpp:170-185). -/
def triInverse (nb mb mb2 : Nat) (o : Ord) (brm st : Bool) (N nhi : Nat) (U : Nat → Nat → K) :
    Option (Nat → Nat → K) :=
  if N > 0 then (if nhi = 0 then diagInv N U else bandInv nb mb mb2 o brm st nhi (N+1) N U) else some U

/-- `LU_Inverse` (TMV_BandLUInverse.cpp:55-104): `minv.setZero(); U = LUx's upper part` (assignment of a band matrix to an
upper triangle stores zeros above the band, include/tmv/TMV_BandMatrix.h:503-518); `TriInverse`; division by the packed
`P*L`.  A view that is neither row nor column major goes through a temporary, which does not change the elements. -/
def inverse (nb mb mb2 : Nat) (o : Ord) (brm st : Bool) (N lo hi : Nat) (LUx : Nat → Nat → K) (p : Nat → Nat)
    (minv : Nat → Nat → K) : Option (Nat → Nat → K) :=
  if N > 0 then
    let m := fun i j => if i < N ∧ j < N then 0 else minv i j
    let m := fun i j => if i ≤ j ∧ j < N then bandMat 0 hi LUx i j else m i j
    (triInverse nb mb mb2 o brm st N hi m).map fun m => packedRDiv N lo N LUx p m
  else some minv

/-- `BandLUDiv_Impl` (TMV_BandLUD.cpp:41-57): `istrans`, `LUx` (its bandwidths, storage order, elements) and `P`. -/
structure Fac (K : Type _) where
  istrans : Bool
  lo : Nat
  hi : Nat
  o : Ord
  LUx : Nat → Nat → K
  P : Nat → Nat

/-- `BandLUDiv(A,false)` for a square `A` with `lo`, `hi` sub- and superdiagonals, storage order `oA`
(TMV_BandLUD.cpp:59-152); `mem` is what the newly allocated `LUx` holds; `P` starts as the identity
(include/tmv/TMV_Permutation.h, `Permutation(n)`).  If `lo` or `hi` is 0, `LUx` is a view of `A` itself and the
assignment changes nothing.  In-place decomposition as documented (doc/BandMatrix.tex:600-617: column-major storage of a
wider band) runs the same code on `A`'s own storage: `mem` is then what that storage holds outside the band of `A`. -/
def Fac.make (ab : K → S) (uf : S → Bool) (ufK : K → Bool) (oA : Ord) (N lo hi : Nat) (A mem : Nat → Nat → K) : Fac K :=
  let istrans := decide (hi < lo ∨ (hi = lo ∧ oA = .rm))
  let A' := if istrans then TriProd.tr A else A
  let lo' := if istrans then hi else lo
  let ahi := if istrans then lo else hi
  let hi' := min (lo+hi) (N-1)
  if min lo hi = 0 then ⟨istrans, lo', hi', if istrans then LU.Ord.tr oA else oA, A', fun k => k⟩
  else
    let trid := decide (lo = 1 ∧ hi = 1)
    -- BandMatrixViewOf(LUx,lo',ahi) = A'
    let L := fun i j => if i < N ∧ j < N ∧ i ≤ j + lo' ∧ j ≤ i + ahi then A' i j else mem i j
    -- LUx.diagRange(ahi+1,hi'+1).setZero()
    let L := if ahi < hi' then fun i j => if i < N ∧ j < N ∧ i + ahi < j ∧ j ≤ i + hi' then 0 else L i j else L
    let s := decompose ab uf ufK (!trid) N lo' hi' L (fun k => k)
    ⟨istrans, lo', hi', if trid then .no else .cm, s.1, s.2⟩

/-- `doLDivEq` (TMV_BandLUD.cpp:216-222): `m /= A`; `brm`: `m.isrm()`. -/
def Fac.lDiv (brm : Bool) (N nc : Nat) (F : Fac K) (m : Nat → Nat → K) : Option (Nat → Nat → K) :=
  if F.istrans then (rDivEq F.o brm N F.lo F.hi nc F.LUx F.P (TriProd.tr m)).map TriProd.tr
  else lDivEq F.o brm N F.lo F.hi nc F.LUx F.P m

/-- `doRDivEq` (TMV_BandLUD.cpp:224-230): `m %= A`; `bcm`: `m.iscm()`. -/
def Fac.rDiv (bcm : Bool) (N nr : Nat) (F : Fac K) (m : Nat → Nat → K) : Option (Nat → Nat → K) :=
  if F.istrans then (lDivEq F.o bcm N F.lo F.hi nr F.LUx F.P (TriProd.tr m)).map TriProd.tr
  else rDivEq F.o bcm N F.lo F.hi nr F.LUx F.P m

/-- `doMakeInverse` (TMV_BandLUD.cpp:275-282). -/
def Fac.inverse (nb mb mb2 : Nat) (o : Ord) (brm st : Bool) (N : Nat) (F : Fac K) (minv : Nat → Nat → K) :
    Option (Nat → Nat → K) :=
  if F.istrans then
    (BandLU.inverse nb mb mb2 o brm st N F.lo F.hi F.LUx F.P (TriProd.tr minv)).map TriProd.tr
  else BandLU.inverse nb mb mb2 o brm st N F.lo F.hi F.LUx F.P minv

section Det
variable {𝕜 : Type _} [RCLike 𝕜] [DecidableEq 𝕜]

/-- `BandLUDiv::logDet(&sign)` (TMV_BandLUD.cpp:262-273): the same code as in `LUDiv`. -/
noncomputable def Fac.logDet (N : Nat) (F : Fac 𝕜) : ℝ × 𝕜 :=
  let r := LU.logDetLoop (fun i => F.LUx i i) N 0 (0, 1)
  (r.1, ((Perm.detLoop ((List.range N).map F.P) 0 1 : Int) : 𝕜) * r.2)

/-- `BandLUDiv::det()` (TMV_BandLUD.cpp:250-260). -/
noncomputable def Fac.det (N : Nat) (F : Fac 𝕜) : 𝕜 :=
  let r := F.logDet N
  if r.2 = 0 then 0 else r.2 * ((Real.exp r.1 : ℝ) : 𝕜)

end Det
end TMV.BandLU
