import Verif.Model.QRDiv
import Verif.Model.BandLU
import Verif.Model.LUATA

/-! QR decomposition of a band matrix (src/TMV_BandQRDecompose.cpp), division by it (src/TMV_BandQRDiv.cpp), its inverse
(src/TMV_BandQRInverse.cpp) and the `BandQRDiv` divider (src/TMV_BandQRD.cpp).

A band matrix is given by the element function of the storage it lives in: only elements of the band belong to it, the
others are arbitrary.  Elements are exact real or complex numbers. -/
namespace TMV.BandQR
noncomputable section
open Classical TMV.Tri TMV.QR

variable {K : Type} [RCLike K]

/-- The loop of `QR_Decompose` (TMV_BandQRDecompose.cpp:70-81), `n` columns left; `ec`, `er` are `endcol`, `endrow`.
New elements, `Qbeta`, `det`. -/
def decLoop (tiny : ℝ) (M N : Nat) :
    Nat → Nat → Nat → Nat → (Nat → Nat → K) → (Nat → K) → K → (Nat → Nat → K) × (Nat → K) × K
  | 0, _, _, _, A, beta, det => (A, beta, det)
  | n+1, j, ec, er, A, beta, det =>
    let (A, b, det) := reflectMat tiny ec er j A det
    decLoop tiny M N n (j+1) (if ec < M then ec+1 else ec) (if er < N then er+1 else er) A
      (fun k => if k = j then b else beta k) det

/-- `QR_Decompose(QRx,Qbeta,det)` (TMV_BandQRDecompose.cpp:42-104) of an `M`×`N` band matrix with `lo`, `hi` sub- and
superdiagonals. -/
def decompose (tiny : ℝ) (M N lo hi : Nat) (A : Nat → Nat → K) (beta : Nat → K) (det : K) :
    (Nat → Nat → K) × (Nat → K) × K :=
  if lo = 0 then (A, fun j => if j < N then 0 else beta j, det)
  else decLoop tiny M N N 0 (lo+1) (hi+1) A beta det

/-- The loop of `GetQFromBandQR` (TMV_BandQRD.cpp:235-240): columns below `n` left. -/
def getQLoop (M N lo : Nat) (beta : Nat → K) : Nat → (Nat → Nat → K) → Nat → Nat → K
  | 0, Q => Q
  | j+1, Q => getQLoop M N lo beta j
      (if j+lo+1 > M then unpackCol M N j (beta j) Q else unpackCol (j+lo+1) N j (beta j) Q)

/-- `GetQFromBandQR(Q,Qbeta,nlo)` (TMV_BandQRD.cpp:225-241). -/
def getQFrom (M N lo : Nat) (beta : Nat → K) (Q : Nat → Nat → K) : Nat → Nat → K :=
  getQLoop M N lo beta N (zeroUpper N Q)

/-- `QR_Decompose(A,Q,R)` (TMV_BandQRDecompose.cpp:106-142): new `Q` (`M`×`N`) and `R` (its elements above the band of the
assigned matrix are set to 0 by the assignment, include/tmv/TMV_BandMatrix.h:4197-4213).  `Q.isconj()` only conjugates
everything.  `BandMatrixViewOf(Q,nlo,newnhi)` drops the rows below the band (include/tmv/TMV_BandMatrix.h:1023-1031 and
`BandMatrixViewOf` of a `Matrix`). -/
def decomposeQR (tiny : ℝ) (M N lo hi : Nat) (A Q R : Nat → Nat → K) (beta : Nat → K) : (Nat → Nat → K) × (Nat → Nat → K) :=
  let Q : Nat → Nat → K := fun i j => if i < M ∧ j < N then 0 else Q i j
  let Q : Nat → Nat → K := fun i j => if i < M ∧ j < N ∧ i ≤ j + lo ∧ j ≤ i + hi then A i j else Q i j
  let newnhi := min (lo+hi) (N-1)
  let r := decompose tiny (min M (N+lo)) N lo newnhi Q beta 0
  let R : Nat → Nat → K := fun i j => if i < N ∧ j < N then bandMat 0 newnhi r.1 i j else R i j
  (getQFrom M N lo r.2.1 r.1, R)

/-- `QR_Decompose(A,R)` (TMV_BandQRDecompose.cpp:144-174): only `R`. -/
def decomposeR (tiny : ℝ) (M N lo hi : Nat) (A R : Nat → Nat → K) (beta : Nat → K) : Nat → Nat → K :=
  let newnhi := min (lo+hi) (N-1)
  let cs := min M (N+lo)
  -- QR.setZero(); BandMatrixViewOf(QR,nlo,nhi) = A.rowRange(0,QR.colsize())
  let B : Nat → Nat → K := fun i j => if i < cs ∧ j < N ∧ i ≤ j + lo ∧ j ≤ i + hi then A i j else 0
  let r := decompose tiny cs N lo newnhi B beta 0
  fun i j => if i < N ∧ j < N then bandMat 0 newnhi r.1 i j else R i j

/-! ### Packed Q of a band matrix -/

/-- The loop of `Q_LDivEq` (TMV_BandQRDiv.cpp:56-63): `n` columns left, `i2` as in the code; `m` has `nc` columns. -/
def qLDivLoop (M nc : Nat) (V : Nat → Nat → K) (beta : Nat → K) : Nat → Nat → Nat → (Nat → Nat → K) → Nat → Nat → K
  | 0, _, _, m => m
  | n+1, j, i2, m => qLDivLoop M nc V beta n (j+1) (if i2 < M then i2+1 else i2)
      (if beta j ≠ 0 then lmult i2 j 0 nc V (beta j) m else m)

/-- `Q_LDivEq(Q,Qbeta,m)` (TMV_BandQRDiv.cpp:46-65). -/
def qLDivEq (M N lo nc : Nat) (V : Nat → Nat → K) (beta : Nat → K) (m : Nat → Nat → K) : Nat → Nat → K :=
  if lo > 0 then qLDivLoop M nc V beta N 0 (lo+1) m else m

/-- The loop of `Q_RDivEq` (TMV_BandQRDiv.cpp:82-87): `j+1` columns left; `m` has `nr` rows. -/
def qRDivLoop (nr : Nat) (V : Nat → Nat → K) (beta : Nat → K) : Nat → Nat → Nat → (Nat → Nat → K) → Nat → Nat → K
  | 0, _, _, m => m
  | j+1, i2, k, m => qRDivLoop nr V beta j (if k > 0 then i2 else i2-1) (if k > 0 then k-1 else k)
      (if beta j ≠ 0 then trM (lmult i2 j 0 nr (conjM V) (beta j) (trM m)) else m)

/-- `Q_RDivEq(Q,Qbeta,m)` (TMV_BandQRDiv.cpp:67-89). -/
def qRDivEq (M N lo nr : Nat) (V : Nat → Nat → K) (beta : Nat → K) (m : Nat → Nat → K) : Nat → Nat → K :=
  if lo > 0 then
    let i2 := if M = N then N else min (N+lo) M
    let k := if M = N then lo else N+lo-i2
    qRDivLoop nr V beta N i2 k m
  else m

/-! ### Division -/

/-- `QR_LDiv(QRx,Qbeta,m,x)` (TMV_BandQRDiv.cpp:95-150): `m` is `M`×`nc`, `x` is `N`×`nc`; `o` is the storage order of
`QRx`, `brm` is `x.isrm()`.  With `M = N` and `x = m` this is `QR_LDivEq` (TMV_BandQRDiv.cpp:156-196). -/
def qrLDiv (o : Ord) (brm : Bool) (M N lo hi nc : Nat) (QRx : Nat → Nat → K) (beta : Nat → K) (m x : Nat → Nat → K) :
    Option (Nat → Nat → K) :=
  let x := if M = N then qLDivEq M N lo nc QRx beta (paste x 0 0 N nc m)
    else if lo > 0 then paste x 0 0 N nc (qLDivEq M N lo nc QRx beta m)
    else paste x 0 0 N nc m
  BandTri.triM o brm false N 0 hi nc QRx x

/-- `QR_RDiv(QRx,Qbeta,m,x)` (TMV_BandQRDiv.cpp:202-252): `m` is `nr`×`N`, `x` is `nr`×`M`; `bcm` is `x.iscm()`.  With
`M = N` and `x = m` this is `QR_RDivEq` (TMV_BandQRDiv.cpp:258-303). -/
def qrRDiv (o : Ord) (bcm : Bool) (M N lo hi nr : Nat) (QRx : Nat → Nat → K) (beta : Nat → K) (m x : Nat → Nat → K) :
    Option (Nat → Nat → K) :=
  let x : Nat → Nat → K := fun a b => if a < nr ∧ N ≤ b ∧ b < M then 0 else x a b
  let x := paste x 0 0 nr N m
  (BandTri.triM (LU.Ord.tr o) bcm false N hi 0 nr (trM QRx) (trM x)).map fun xt =>
    qRDivEq M N lo nr QRx beta (trM xt)

/-- `QR_Inverse(QRx,beta,minv)` (TMV_BandQRInverse.cpp:30-47): `minv` is `N`×`M`. -/
def qrInverse (ib mb mb2 : Nat) (o : Ord) (crm st : Bool) (M N lo hi : Nat) (QRx : Nat → Nat → K) (beta : Nat → K)
    (minv : Nat → Nat → K) : Option (Nat → Nat → K) :=
  let minv : Nat → Nat → K := fun a b => if a < N ∧ b < M then 0 else minv a b
  let minv : Nat → Nat → K := fun a b => if a ≤ b ∧ b < N then bandMat 0 hi QRx a b else minv a b
  (BandLU.triInverse ib mb mb2 o crm st N hi minv).map fun minv => qRDivEq M N lo N QRx beta minv

/-! ### The `BandQRDiv` divider -/

/-- `BandQRDiv_Impl` (TMV_BandQRD.cpp:42-58): `istrans`, `QRx` (its size, bandwidths, storage order, elements), `Qbeta`,
`signdet`. -/
structure Fac (K : Type) where
  istrans : Bool
  cs : Nat
  rs : Nat
  lo : Nat
  hi : Nat
  o : Ord
  QRx : Nat → Nat → K
  beta : Nat → K
  signdet : K

/-- `BandQRDiv(A,false)` for an `M`×`N` matrix with `lo`, `hi` sub- and superdiagonals and storage order `oA`
(TMV_BandQRD.cpp:60-121).  `mem`, `beta0`: what the newly allocated `QRx` and `Qbeta` hold.  If the (transposed) matrix has
no subdiagonals, `QRx` is a view of `A`, nothing is decomposed and `Qbeta` is never set.  The assignment `QRx = A` sets the
diagonals above those of `A` to 0 (include/tmv/TMV_BandMatrix.h:4197-4213). -/
def Fac.make (tiny : ℝ) (oA : Ord) (M N lo hi : Nat) (A mem : Nat → Nat → K) (beta0 : Nat → K) : Fac K :=
  let istrans := decide (M < N ∨ (M = N ∧ hi < lo) ∨ (M = N ∧ hi = lo ∧ oA = .rm))
  let A' := if istrans then trM A else A
  let cs := if istrans then N else M
  let rs := if istrans then M else N
  let lo' := if istrans then hi else lo
  let ahi := if istrans then lo else hi
  let hi' := min (lo+hi) ((if istrans then M else N) - 1)
  if lo' = 0 then ⟨istrans, cs, rs, lo', ahi, if istrans then LU.Ord.tr oA else oA, A', beta0, 1⟩
  else
    let Q : Nat → Nat → K := fun i j => if i < cs ∧ j < rs ∧ i ≤ j + lo' ∧ j ≤ i + ahi then A' i j else mem i j
    let Q : Nat → Nat → K :=
      if hi' > ahi then fun i j => if i < cs ∧ j < rs ∧ i + ahi < j ∧ j ≤ i + hi' then 0 else Q i j else Q
    let r := decompose tiny cs rs lo' hi' Q beta0 1
    ⟨istrans, cs, rs, lo', hi', .cm, r.1, r.2.1, r.2.2⟩

/-- `BandQRDiv(A,true)` (TMV_BandQRD.cpp:60-121): `QRx` is a view of `A` itself, with `A`'s own `nhi` superdiagonals, of which
the top `nlo` are set to zero (104-106) before the decomposition. -/
def Fac.makeInPlace (tiny : ℝ) (oA : Ord) (M N lo hi : Nat) (A : Nat → Nat → K) (beta0 : Nat → K) : Fac K :=
  let istrans := decide (M < N ∨ (M = N ∧ hi < lo) ∨ (M = N ∧ hi = lo ∧ oA = .rm))
  let A' := if istrans then trM A else A
  let cs := if istrans then N else M
  let rs := if istrans then M else N
  let lo' := if istrans then hi else lo
  let hi' := if istrans then lo else hi
  let o := if istrans then LU.Ord.tr oA else oA
  if lo' = 0 then ⟨istrans, cs, rs, lo', hi', o, A', beta0, 1⟩
  else
    let Q : Nat → Nat → K :=
      fun i j => if i < cs ∧ j < rs ∧ i + hi' + 1 ≤ j + lo' ∧ i ≤ j + lo' ∧ j ≤ i + hi' then 0 else A' i j
    let r := decompose tiny cs rs lo' hi' Q beta0 1
    ⟨istrans, cs, rs, lo', hi', o, r.1, r.2.1, r.2.2⟩

/-- `BandQRDiv::doLDiv(m,x)` (TMV_BandQRD.cpp:138-149; `doLDivEq`, 122-129): `x = A⁻¹ m`, `m` has `nc` columns. -/
def Fac.lDiv (brm : Bool) (nc : Nat) (F : Fac K) (m x : Nat → Nat → K) : Option (Nat → Nat → K) :=
  if F.istrans then (qrRDiv F.o brm F.cs F.rs F.lo F.hi nc F.QRx F.beta (trM m) (trM x)).map trM
  else qrLDiv F.o brm F.cs F.rs F.lo F.hi nc F.QRx F.beta m x

/-- `BandQRDiv::doRDiv(m,x)` (TMV_BandQRD.cpp:151-162; `doRDivEq`, 131-136): `x = m A⁻¹`, `m` has `nr` rows. -/
def Fac.rDiv (bcm : Bool) (nr : Nat) (F : Fac K) (m x : Nat → Nat → K) : Option (Nat → Nat → K) :=
  if F.istrans then (qrLDiv F.o bcm F.cs F.rs F.lo F.hi nr F.QRx F.beta (trM m) (trM x)).map trM
  else qrRDiv F.o bcm F.cs F.rs F.lo F.hi nr F.QRx F.beta m x

/-- `BandQRDiv::doMakeInverse(minv)` (TMV_BandQRD.cpp:190-198). -/
def Fac.inverse (ib mb mb2 : Nat) (o : Ord) (crm st : Bool) (F : Fac K) (minv : Nat → Nat → K) :
    Option (Nat → Nat → K) :=
  if F.istrans then
    (qrInverse ib mb mb2 o crm st F.cs F.rs F.lo F.hi F.QRx F.beta (trM minv)).map trM
  else qrInverse ib mb mb2 o crm st F.cs F.rs F.lo F.hi F.QRx F.beta minv

/-- `BandQRDiv::doMakeInverseATA(minv)` (TMV_BandQRD.cpp:200-213): `Rinv * Rinv.transpose()`.  The product, whose factors
live in `minv` itself, is simplified to the exact product (as in `LUATA.prodM`). -/
def Fac.inverseATA (ib mb mb2 : Nat) (o : Ord) (crm st : Bool) (F : Fac K) (minv : Nat → Nat → K) :
    Option (Nat → Nat → K) :=
  (BandLU.triInverse ib mb mb2 o crm st F.rs F.hi
    (fun i j => if i ≤ j ∧ j < F.rs then bandMat 0 F.hi F.QRx i j else minv i j)).map fun u =>
  LUATA.prodM F.rs (upperMat false u) (trM (upperMat false u)) u

/-- `BandQRDiv::logDet(&sign)` (TMV_BandQRD.cpp:177-188). -/
def Fac.logDet (F : Fac K) : ℝ × K :=
  let r := LU.logDetLoop (fun i => F.QRx i i) F.rs 0 (0, 1)
  (r.1, F.signdet * r.2)

/-- `BandQRDiv::det()` (TMV_BandQRD.cpp:164-175). -/
def Fac.det (F : Fac K) : K :=
  let r := F.logDet
  if r.2 = 0 then 0 else r.2 * ((Real.exp r.1 : ℝ) : K)

/-- `BandQRDiv::getQ()` (TMV_BandQRD.cpp:244-254): `temp = QRx` clears everything outside the band. -/
def Fac.getQ (F : Fac K) (temp : Nat → Nat → K) : Nat → Nat → K :=
  let temp : Nat → Nat → K := fun i j => if i < F.cs ∧ j < F.rs then bandMat F.lo F.hi F.QRx i j else temp i j
  if F.lo = 0 then fun i j => if i < F.cs ∧ j < F.rs then (if i = j then 1 else 0) else temp i j
  else getQFrom F.cs F.rs F.lo F.beta temp

/-- `BandQRDiv::getR()` (TMV_BandQRD.cpp:256-261). -/
def Fac.getR (F : Fac K) : Nat → Nat → K := bandMat 0 F.hi F.QRx

end
end TMV.BandQR
