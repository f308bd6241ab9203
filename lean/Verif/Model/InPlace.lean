import Verif.Model.LUDiv
import Verif.Model.QRDiv
import Verif.Model.CHDiv
import Verif.Model.LDLDiv

/-! The constructors of the dividers with the `inplace` argument, which is true after `m.divideInPlace()`: `LUDiv` (TMV_LUD.cpp:56-88),
`QRDiv` (TMV_QRD.cpp:55-104), `HermCHDiv` (TMV_SymCHD.cpp:53-85), `SymLDLDiv` (TMV_SymLDLD.cpp:58-94).

`req` is the argument, `rm`, `cm` are `A.isrm()`, `A.iscm()`; `A` the elements of the matrix, `g` what the memory of the divider holds when
it has just been allocated.  The asserts `TMVAssert(A == LUx)` are not part of the model. -/
namespace TMV.InPlace
noncomputable section
variable {K : Type} [RCLike K]

/-- The member `inplace` of `LUDiv_Impl`, `QRDiv_Impl`, `HermCHDiv_Impl` and `SymLDLDiv_Impl`
(TMV_LUD.cpp:67, TMV_QRD.cpp:67, TMV_SymCHD.cpp:62, TMV_SymLDLD.cpp:72). -/
def impl (req rm cm : Bool) : Bool := req && (cm || rm)

/-- The elements of `LUx` when `LU_Decompose(LUx,P)` is called (macro `LUX` TMV_LUD.cpp:58-62, TMV_LUD.cpp:75-86). -/
def luStart (req rm cm : Bool) (A g : Nat → Nat → K) : Nat → Nat → K :=
  let x := if rm then (if impl req rm cm then TriProd.tr A else g) else (if impl req rm cm then A else g)
  if rm then (if impl req rm cm then x else TriProd.tr A) else (if req then x else A)

/-- `LUDiv(A,inplace)` (TMV_LUD.cpp:74-88). -/
def luMake {S : Type} [LinearOrder S] [Zero S] (ab : K → S) (uf : S → Bool) (bs : LU.Blk) (req rm cm : Bool) (N : Nat)
    (A g : Nat → Nat → K) : Option (LU.Fac K) :=
  letI := Classical.decEq K
  (LU.decompose ab uf bs .cm N N (luStart req rm cm A g)).map fun s => ⟨rm, s.1, s.2⟩

/-- The elements of `QRx` when `QR_Decompose(QRx,beta,signdet)` is called (TMV_QRD.cpp:55-102), `it` = `istrans`. -/
def qrStart (req rm cm it : Bool) (A g : Nat → Nat → K) : Nat → Nat → K :=
  let x := if it then (if impl req rm cm then QR.trM A else g) else (if impl req rm cm then A else g)
  if it then (if req then x else QR.trM A) else (if req then x else A)

/-- `QRDiv(A,inplace)` (TMV_QRD.cpp:88-104). -/
def qrMake (tiny : ℝ) (nb : Nat) (req rm cm : Bool) (M N : Nat) (A g Z0 : Nat → Nat → K) (beta0 : Nat → K) : QR.QRFac K :=
  let r := if M < N then QR.decompose tiny nb N M (qrStart req rm cm true A g) Z0 beta0 1
    else QR.decompose tiny nb M N (qrStart req rm cm false A g) Z0 beta0 1
  ⟨decide (M < N), r.1.A, r.2, r.1.det⟩

/-- The elements of `LLx` when `CH_Decompose(LLx)` or `LDL_Decompose(LLx,...)` is called (TMV_SymCHD.cpp:53-75,
TMV_SymLDLD.cpp:58-88), a matrix stored in its lower triangle. -/
def symStart (req rm cm : Bool) (N : Nat) (A g : Nat → Nat → K) : Nat → Nat → K :=
  let t : Nat → Nat → K := fun i j => if j ≤ i ∧ i < N then A i j else g i j
  let x := if impl req rm cm then t else g
  if req then x else t

/-- `HermCHDiv(A,inplace)` (TMV_SymCHD.cpp:69-85). -/
def chMake (bk : CH.Blks) (o : Tri.Ord) (req rm cm : Bool) (N : Nat) (A g : Nat → Nat → K) : Option (Nat → Nat → K) :=
  CH.decompose bk o N (symStart req rm cm N A g)

/-- `SymLDLDiv(A,inplace)` (TMV_SymLDLD.cpp:79-88). -/
def ldlMake (nb nb2 bs : Nat) (o : Tri.Ord) (cm' h : Bool) (req rm cm : Bool) (N : Nat) (A g LD0 : Nat → Nat → K) (P0 : Nat → Nat) :
    LDL.St K :=
  LDL.decompose nb nb2 bs o cm' h N (symStart req rm cm N A g) LD0 P0

end
end TMV.InPlace
