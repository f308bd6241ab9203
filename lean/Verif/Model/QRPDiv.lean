import Verif.Model.QRP
import Verif.Model.QRDiv

/-! Division by a QR decomposition with column pivoting: src/TMV_QRDiv.cpp, src/TMV_QRInverse.cpp with a permutation, and the `QRPDiv`
divider (src/TMV_QRPD.cpp), without LAPACK. -/
namespace TMV.QR
noncomputable section
open Classical TMV.Tri

variable {K : Type} [RCLike K]

/-- `QR_LDiv(QRx,beta,P,m,x,N1)` (TMV_QRDiv.cpp:33-95).  (`QR_LDivEq`, 101-119, is the case `x = m`, `M = N`.) -/
def qrpLDiv (nb tb tb2 : Nat) (o : Ord) (brm : Bool) (M N nc N1 : Nat) (V : Nat → Nat → K) (beta : Nat → K) (P : Nat → Nat)
    (Z0 m x : Nat → Nat → K) : Option (Nat → Nat → K) :=
  (qrLDiv nb tb tb2 o brm M N nc N1 V beta Z0 m x).map fun x => LU.reversePermuteRows nc P N 0 x

/-- `QR_RDiv(QRx,beta,P,m,x,N1)` (TMV_QRDiv.cpp:126-166).  (`QR_RDivEq`, 172-191, is the case `x = m`, `M = N`.) -/
def qrpRDiv (nb tb tb2 : Nat) (o : Ord) (brm : Bool) (M N nr N1 : Nat) (V : Nat → Nat → K) (beta : Nat → K) (P : Nat → Nat)
    (Z0 m x : Nat → Nat → K) : Option (Nat → Nat → K) :=
  let x := paste x 0 0 nr N m
  let x := trM (LU.permuteRows nr P N 0 (trM x))
  let x : Nat → Nat → K := fun a b => if a < nr ∧ N1 ≤ b ∧ b < M then 0 else x a b
  (lowerM tb tb2 (LU.Ord.tr o) brm false N1 nr (trM V) (trM x)).map fun xt => qRDivEq nb M N nr V beta Z0 (trM xt)

/-- `QR_Inverse(QRx,beta,P,minv,N1)` (TMV_QRInverse.cpp:30-45). -/
def qrpInverse (nb ib mb mb2 : Nat) (o : Ord) (crm st : Bool) (M N N1 : Nat) (V : Nat → Nat → K) (beta : Nat → K) (P : Nat → Nat)
    (Z0 minv : Nat → Nat → K) : Option (Nat → Nat → K) :=
  (qrInverse nb ib mb mb2 o crm st M N N1 V beta Z0 minv).map fun minv => LU.reversePermuteRows M P N 0 minv

/-- `QRPDiv_Impl` (TMV_QRPD.cpp:40-56). -/
structure QRPFac (K : Type) where
  istrans : Bool
  QRx : Nat → Nat → K
  beta : Nat → K
  P : Nat → Nat
  signdet : K
  N1 : Nat

/-- `while(N1>0 && *endofdiag==0) --N1` (TMV_QRPD.cpp:94-98). -/
def lastNZ (d : Nat → K) : Nat → Nat
  | 0 => 0
  | n+1 => if d n = 0 then lastNZ d n else n+1

/-- How the matrix is handed to the constructor: the parameter `inplace`, `A.iscm() || A.isrm()`, and what newly allocated memory holds. -/
structure QRPArg (K : Type) where
  inplace : Bool
  unitStep : Bool
  g : Nat → Nat → K

/-- `QRx` before the decomposition (TMV_QRPD.cpp:58-88): the storage of `A` itself if the constructor of `QRPDiv_Impl` says `inplace`, else
new memory; it is filled from `A` only if the *parameter* `inplace` is false. -/
def QRPArg.src (a : QRPArg K) (A : Nat → Nat → K) : Nat → Nat → K :=
  if a.inplace then (if a.unitStep then A else a.g) else A

/-- Parameters of the decomposition: block size, underflow threshold, epsilon and its root, `QRP_IsStrict()`. -/
structure QRPCfg where
  nb : Nat
  tiny : ℝ
  eps : ℝ
  sqe : ℝ
  strict : Bool

/-- `QRPDiv(A,inplace)` (TMV_QRPD.cpp:66-99) for an `M`×`N` matrix; `none`: the decomposition has not ended after `fuel` rounds. -/
def QRPFac.make (g : QRPCfg) (a : QRPArg K) (M N : Nat) (A Z0 : Nat → Nat → K) (beta0 : Nat → K) (P0 : Nat → Nat) (fuel : Nat) :
    Option (QRPFac K) :=
  if M < N then
    (qrp g.tiny g.eps g.sqe g.strict g.nb N M (a.src (trM A)) Z0 beta0 P0 1 fuel).map fun r =>
      ⟨true, r.A, r.beta, r.P, r.det, lastNZ (fun i => r.A i i) M⟩
  else
    (qrp g.tiny g.eps g.sqe g.strict g.nb M N (a.src A) Z0 beta0 P0 1 fuel).map fun r =>
      ⟨false, r.A, r.beta, r.P, r.det, lastNZ (fun i => r.A i i) N⟩

/-- `QRPDiv::doLDiv(m,x)` (TMV_QRPD.cpp:129-143). -/
def QRPFac.lDiv (nb tb tb2 : Nat) (brm : Bool) (M N nc : Nat) (F : QRPFac K) (Z0 m x : Nat → Nat → K) : Option (Nat → Nat → K) :=
  if F.istrans then (qrpRDiv nb tb tb2 .cm brm N M nc F.N1 F.QRx F.beta F.P Z0 (trM m) (trM x)).map trM
  else qrpLDiv nb tb tb2 .cm brm M N nc F.N1 F.QRx F.beta F.P Z0 m x

/-- `QRPDiv::doRDiv(m,x)` (TMV_QRPD.cpp:145-157). -/
def QRPFac.rDiv (nb tb tb2 : Nat) (brm : Bool) (M N nr : Nat) (F : QRPFac K) (Z0 m x : Nat → Nat → K) : Option (Nat → Nat → K) :=
  if F.istrans then (qrpLDiv nb tb tb2 .cm brm N M nr F.N1 F.QRx F.beta F.P Z0 (trM m) (trM x)).map trM
  else qrpRDiv nb tb tb2 .cm brm M N nr F.N1 F.QRx F.beta F.P Z0 m x

/-- `QRPDiv::doMakeInverse(minv)` (TMV_QRPD.cpp:186-195). -/
def QRPFac.inverse (nb ib mb mb2 : Nat) (o : Ord) (crm st : Bool) (M N : Nat) (F : QRPFac K) (Z0 minv : Nat → Nat → K) :
    Option (Nat → Nat → K) :=
  if F.istrans then (qrpInverse nb ib mb mb2 o crm st N M F.N1 F.QRx F.beta F.P Z0 (trM minv)).map trM
  else qrpInverse nb ib mb mb2 o crm st M N F.N1 F.QRx F.beta F.P Z0 minv

/-- `QRPDiv::logDet(&sign)` (TMV_QRPD.cpp:173-184). -/
def QRPFac.logDet (N : Nat) (F : QRPFac K) : ℝ × K :=
  let r := LU.logDetLoop (fun i => F.QRx i i) N 0 (0, 1)
  (r.1, F.signdet * r.2)

/-- `QRPDiv::det()` (TMV_QRPD.cpp:160-171). -/
def QRPFac.det (N : Nat) (F : QRPFac K) : K :=
  let r := F.logDet N
  if r.2 = 0 then 0 else r.2 * ((Real.exp r.1 : ℝ) : K)

end
end TMV.QR
