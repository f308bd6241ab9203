import Verif.Model.QR
import Verif.Model.LUDiv

/-! Right division by the packed Q (src/TMV_PackedQ.cpp), the `PackedQ` class (include/tmv/TMV_PackedQ.h), division by a QR
decomposition (src/TMV_QRDiv.cpp), its inverse (src/TMV_QRInverse.cpp) and the `QRDiv` divider (src/TMV_QRD.cpp), without
LAPACK. -/
namespace TMV.QR
noncomputable section
open Classical TMV.Tri

variable {K : Type} [RCLike K]

/-- `m.transpose()`. -/
def trM (m : Nat → Nat → K) : Nat → Nat → K := fun a b => m b a
/-- `m.conjugate()`. -/
def conjM (m : Nat → Nat → K) : Nat → Nat → K := fun a b => star (m a b)
/-- `m.adjoint()`. -/
def adjM (m : Nat → Nat → K) : Nat → Nat → K := fun a b => star (m b a)

/-- `NonBlockQRDivEq` (TMV_PackedQ.cpp:566-589): `n` reflectors left; `m` has `nr` rows. -/
def qRDivLoop (M nr : Nat) (V : Nat → Nat → K) (beta : Nat → K) : Nat → (Nat → Nat → K) → Nat → Nat → K
  | 0, m => m
  | j+1, m => qRDivLoop M nr V beta j
      (if beta j ≠ 0 then trM (lmult M j 0 nr (conjM V) (beta j) (trM m)) else m)

/-- Loop of `BlockQRDivEq` (TMV_PackedQ.cpp:591-636): reflectors below `j2` left. -/
def qRDivBlock (nb M nr : Nat) (V : Nat → Nat → K) (beta : Nat → K) (j2 : Nat) (Z m : Nat → Nat → K) : Nat → Nat → K :=
  if _h : j2 > 0 ∧ 0 < nb then
    let j1 := if j2 > nb then j2 - nb else 0
    let Z := makeZ M V beta j1 (j2-j1) Z
    qRDivBlock nb M nr V beta j1 Z (adjM (blockLMult M j1 j2 0 nr V Z (adjM m)))
  else m
termination_by j2
decreasing_by split <;> omega

/-- `Q_RDivEq(Q,beta,m)` (TMV_PackedQ.cpp:638-652 `NonLapQRDivEq`, 1012-1074): `m <- m Q⁻¹`. -/
def qRDivEq (nb M N nr : Nat) (V : Nat → Nat → K) (beta : Nat → K) (Z0 m : Nat → Nat → K) : Nat → Nat → K :=
  if N > nb ∧ nr > nb then qRDivBlock nb M nr V beta N Z0 m else qRDivLoop M nr V beta N m

/-! ### The `PackedQ` class -/

/-- `PackedQ::LDiv(m,x)` (TMV_PackedQ.cpp:1183-1205): `m` is `M`×`nc`, `x` is `N`×`nc`.  (Also `LDivEq`, with `x = m`, and
with `nc = 1` the vector versions, 1093-1140, 1158-1181.)  A non-square `Q` works on a copy of `m`. -/
def pqLDiv (nb M N nc : Nat) (V : Nat → Nat → K) (beta : Nat → K) (Z0 m x : Nat → Nat → K) : Nat → Nat → K :=
  if M = N then qLDivEq nb M N nc V beta Z0 (paste x 0 0 M nc m)
  else
    let m1 := qLDivEq nb M N nc V beta Z0 m
    paste x 0 0 N nc m1

/-- `PackedQ::RDiv(m,x)` (TMV_PackedQ.cpp:1207-1222): `m` is `nr`×`N`, `x` is `nr`×`M`. -/
def pqRDiv (nb M N nr : Nat) (V : Nat → Nat → K) (beta : Nat → K) (Z0 m x : Nat → Nat → K) : Nat → Nat → K :=
  let x := paste x 0 0 nr N m
  let x : Nat → Nat → K := fun a b => if a < nr ∧ N ≤ b ∧ b < M then 0 else x a b
  qRDivEq nb M N nr V beta Z0 x

/-- `PackedQ::LMult(m,x)` (TMV_PackedQ.h:126-128): `RDiv(m.adjoint(),x.adjoint())`. -/
def pqLMult (nb M N nc : Nat) (V : Nat → Nat → K) (beta : Nat → K) (Z0 m x : Nat → Nat → K) : Nat → Nat → K :=
  adjM (pqRDiv nb M N nc V beta Z0 (adjM m) (adjM x))

/-- `PackedQ::RMult(m,x)` (TMV_PackedQ.h:131-133): `LDiv(m.adjoint(),x.adjoint())`. -/
def pqRMult (nb M N nr : Nat) (V : Nat → Nat → K) (beta : Nat → K) (Z0 m x : Nat → Nat → K) : Nat → Nat → K :=
  adjM (pqLDiv nb M N nr V beta Z0 (adjM m) (adjM x))

/-- `ProdpQM::assignToM` (TMV_PackedQ.h:320-333): what `m0 = x * Q * m` does.  The scalar `x` is not used. -/
def prodpQM (nb M N nc : Nat) (_x : K) (V : Nat → Nat → K) (beta : Nat → K) (Z0 m m0 : Nat → Nat → K) : Nat → Nat → K :=
  pqLMult nb M N nc V beta Z0 m m0

/-! ### Division by the decomposition -/

/-- `QR_LDiv(QRx,beta,0,m,x,N1)` (TMV_QRDiv.cpp:33-95) without a permutation: `m` is `M`×`nc`, `x` is `N`×`nc`.
`tb`, `tb2`, `o`, `brm`: block sizes and storage orders of the triangular division. -/
def qrLDiv (nb tb tb2 : Nat) (o : Ord) (brm : Bool) (M N nc N1 : Nat) (V : Nat → Nat → K) (beta : Nat → K)
    (Z0 m x : Nat → Nat → K) : Option (Nat → Nat → K) :=
  let x := pqLDiv nb M N nc V beta Z0 m x
  let x : Nat → Nat → K := fun a b => if N1 ≤ a ∧ a < N ∧ b < nc then 0 else x a b
  upperM tb tb2 o brm false N1 nc V x

/-- `QR_RDiv(QRx,beta,0,m,x,N1)` (TMV_QRDiv.cpp:126-166) without a permutation: `m` is `nr`×`N`, `x` is `nr`×`M`. -/
def qrRDiv (nb tb tb2 : Nat) (o : Ord) (brm : Bool) (M N nr N1 : Nat) (V : Nat → Nat → K) (beta : Nat → K)
    (Z0 m x : Nat → Nat → K) : Option (Nat → Nat → K) :=
  let x := paste x 0 0 nr N m
  let x : Nat → Nat → K := fun a b => if a < nr ∧ N1 ≤ b ∧ b < M then 0 else x a b
  (lowerM tb tb2 (LU.Ord.tr o) brm false N1 nr (trM V) (trM x)).map fun xt => qRDivEq nb M N nr V beta Z0 (trM xt)

/-- `QR_Inverse(QRx,beta,0,minv,N1)` (TMV_QRInverse.cpp:30-45) without a permutation: `minv` is `N`×`M`. -/
def qrInverse (nb ib mb mb2 : Nat) (o : Ord) (crm st : Bool) (M N N1 : Nat) (V : Nat → Nat → K) (beta : Nat → K)
    (Z0 minv : Nat → Nat → K) : Option (Nat → Nat → K) :=
  let minv : Nat → Nat → K := fun a b => if a < N ∧ b < M then 0 else minv a b
  let minv : Nat → Nat → K := fun a b => if a ≤ b ∧ b < N1 then V a b else minv a b
  (TriProd.triInverse ib mb mb2 o crm st false N1 minv).map fun minv => qRDivEq nb M N N V beta Z0 minv

/-! ### The `QRDiv` divider -/

/-- `QRDiv_Impl` (TMV_QRD.cpp:40-54): `istrans`, `QRx`, `beta`, `signdet`. -/
structure QRFac (K : Type) where
  istrans : Bool
  QRx : Nat → Nat → K
  beta : Nat → K
  signdet : K

/-- `QRDiv(A)` (TMV_QRD.cpp:66-104), not in place, for an `M`×`N` matrix. -/
def QRFac.make (tiny : ℝ) (nb M N : Nat) (A Z0 : Nat → Nat → K) (beta0 : Nat → K) : QRFac K :=
  if M < N then
    let r := decompose tiny nb N M (trM A) Z0 beta0 1
    ⟨true, r.1.A, r.2, r.1.det⟩
  else
    let r := decompose tiny nb M N A Z0 beta0 1
    ⟨false, r.1.A, r.2, r.1.det⟩

/-- `QRDiv::doLDiv(m,x)` (TMV_QRD.cpp:128-140): `x = A⁻¹ m`, `A` being `M`×`N`, `m` `M`×`nc`. -/
def QRFac.lDiv (nb tb tb2 : Nat) (brm : Bool) (M N nc : Nat) (F : QRFac K) (Z0 m x : Nat → Nat → K) : Option (Nat → Nat → K) :=
  if F.istrans then (qrRDiv nb tb tb2 .cm brm N M nc M F.QRx F.beta Z0 (trM m) (trM x)).map trM
  else qrLDiv nb tb tb2 .cm brm M N nc N F.QRx F.beta Z0 m x

/-- `QRDiv::doRDiv(m,x)` (TMV_QRD.cpp:142-156): `x = m A⁻¹`, `m` being `nr`×`N`. -/
def QRFac.rDiv (nb tb tb2 : Nat) (brm : Bool) (M N nr : Nat) (F : QRFac K) (Z0 m x : Nat → Nat → K) : Option (Nat → Nat → K) :=
  if F.istrans then (qrLDiv nb tb tb2 .cm brm N M nr M F.QRx F.beta Z0 (trM m) (trM x)).map trM
  else qrRDiv nb tb tb2 .cm brm M N nr N F.QRx F.beta Z0 m x

/-- `QRDiv::doMakeInverse(minv)` (TMV_QRD.cpp:184-193): `minv` is `N`×`M`. -/
def QRFac.inverse (nb ib mb mb2 : Nat) (o : Ord) (crm st : Bool) (M N : Nat) (F : QRFac K) (Z0 minv : Nat → Nat → K) :
    Option (Nat → Nat → K) :=
  if F.istrans then (qrInverse nb ib mb mb2 o crm st N M M F.QRx F.beta Z0 (trM minv)).map trM
  else qrInverse nb ib mb mb2 o crm st M N N F.QRx F.beta Z0 minv

/-- `QRDiv::logDet(&sign)` (TMV_QRD.cpp:171-182). -/
def QRFac.logDet (N : Nat) (F : QRFac K) : ℝ × K :=
  let r := LU.logDetLoop (fun i => F.QRx i i) N 0 (0, 1)
  (r.1, F.signdet * r.2)

/-- `QRDiv::det()` (TMV_QRD.cpp:158-169). -/
def QRFac.det (N : Nat) (F : QRFac K) : K :=
  let r := F.logDet N
  if r.2 = 0 then 0 else r.2 * ((Real.exp r.1 : ℝ) : K)

end
end TMV.QR
