import Verif.Model.CHDiv
import Verif.Model.BandLU
import Verif.Model.Diag

/-! Cholesky and tridiagonal LDL decomposition of Hermitian/symmetric band matrices and the `HermBandCHDiv` divider:
src/TMV_SymBandCHDecompose.cpp, src/TMV_SymBandCHD.cpp, src/TMV_SymBandCHDiv.cpp, src/TMV_SymBandCHInverse.cpp (the code
used without LAPACK).

The matrix is stored in its lower band (`lo` subdiagonals) and given by the element function of that storage: only
elements with `j ≤ i ≤ j+lo`, `i < N` belong to it.  An upper or conjugated one is passed on as its adjoint or conjugate
(TMV_SymBandCHDecompose.cpp:590-591, 616-617).  Elements are exact real or complex numbers.  `none` = an exception was
thrown. -/
namespace TMV.BandCH
open Tri (Ord splitAt sub paste)
open CH (setRe root divCol)
noncomputable section
open Classical

variable {K : Type} [RCLike K]

/-- The divider made for `/ B`, `% B`, `/= B` and `%= B` with a square band matrix view `B`: `BandLUDiv(B,false)`
(src/TMV_BandMatrix.cpp, `setDiv`).  For the triangular `B` here no decomposition takes place, so the parameters for
pivoting do not matter. -/
def quot (o : Ord) (N lo hi : Nat) (B : Nat → Nat → K) : BandLU.Fac K :=
  BandLU.Fac.make (fun x : K => ‖x‖) (fun x : ℝ => decide (x = 0)) (fun x : K => decide (x = 0)) o N lo hi B B

/-- One iteration of the column loop (TMV_SymBandCHDecompose.cpp:99-117); state `(A, endcol)`. -/
def colStep (N j : Nat) (s : (Nat → Nat → K) × Nat) : Option ((Nat → Nat → K) × Nat) :=
  (root j s.1).map fun A =>
    let A := divCol s.2 j A
    (paste A (j+1) (j+1) (s.2-(j+1)) (s.2-(j+1))
      (SymRK.rank1 .cm false true true (s.2-(j+1)) (-1) (fun i => A (j+1+i) j) (sub A (j+1) (j+1))),
     if s.2 < N then s.2+1 else s.2)

/-- `DoNonLapCH_Decompose<true>`, `nlo > 0` (TMV_SymBandCHDecompose.cpp:95-130), `N > 0`. -/
def decCM (N lo : Nat) (A : Nat → Nat → K) : Option (Nat → Nat → K) :=
  (forRange (colStep N) (N-1) 0 (A, lo+1)).bind fun s => root (N-1) s.1

/-- One iteration of the row loop (TMV_SymBandCHDecompose.cpp:148-167); state `(A, startrow)`; `o`: the storage order of
`A`; `bcm`: `iscm()` of the row seen as a matrix. -/
def rowStep (o : Ord) (bcm : Bool) (lo i : Nat) (s : (Nat → Nat → K) × Nat) : Option ((Nat → Nat → K) × Nat) :=
  let r := if i > lo then s.2+1 else s.2
  let A := s.1
  ((quot (LU.Ord.tr o) (i-r) 0 (min lo (i-r-1)) (fun a b => star (A (r+b) (r+a)))).rDiv bcm (i-r) 1
    (fun _ b => A i (r+b))).bind fun v =>
  let A : Nat → Nat → K := fun a b => if a = i ∧ r ≤ b ∧ b < i then v 0 (b-r) else A a b
  (root i (setE A i i (setRe (A i i)
    (RCLike.re (A i i) - ∑ j ∈ Finset.range (i-r), RCLike.normSq (A i (r+j)))))).map fun A => (A, r)

/-- `DoNonLapCH_Decompose<false>`, `nlo > 0` (TMV_SymBandCHDecompose.cpp:131-168), `N > 0`. -/
def decRM (o : Ord) (bcm : Bool) (N lo : Nat) (A : Nat → Nat → K) : Option (Nat → Nat → K) :=
  (root 0 A).bind fun A => (forRange (rowStep o bcm lo) (N-1) 1 (A, 0)).map fun s => s.1

/-- `CH_Decompose(A)` (TMV_SymBandCHDecompose.cpp:610-625, 188-194; the loop for `nlo == 0`: 77-94). -/
def decompose (o : Ord) (bcm : Bool) (N lo : Nat) (A : Nat → Nat → K) : Option (Nat → Nat → K) :=
  if N > 0 then
    if lo = 0 then forRange root N 0 A
    else if o = .cm then decCM N lo A
    else decRM o bcm N lo A
  else some A

/-- One iteration of `NonLapLDL_Decompose` (TMV_SymBandCHDecompose.cpp:254-268; 236-250 for diagonal-major storage, the
same on the elements). -/
def hStep (j : Nat) (A : Nat → Nat → K) : Option (Nat → Nat → K) :=
  let ax := A (j+1) j
  if RCLike.re (A j j) = 0 then none
  else
    let A := setE A (j+1) j (A (j+1) j / ((RCLike.re (A j j) : ℝ) : K))
    some (setE A (j+1) (j+1) (setRe (A (j+1) (j+1))
      (RCLike.re (A (j+1) (j+1)) - RCLike.re (star (A (j+1) j) * ax))))

/-- `NonLapLDL_Decompose` (TMV_SymBandCHDecompose.cpp:196-303), `N > 0`, for a Hermitian matrix with `nlo = 1`. -/
def hLDL (N : Nat) (A : Nat → Nat → K) : Option (Nat → Nat → K) :=
  (forRange hStep (N-1) 0 A).bind fun A => if RCLike.re (A (N-1) (N-1)) = 0 then none else some A

/-- One step of `SymLDL_Decompose` (TMV_SymBandCHDecompose.cpp:340-352, 324-336). -/
def sStep (j : Nat) (A : Nat → Nat → K) : Option (Nat → Nat → K) :=
  let ax := A (j+1) j
  if A j j = 0 then none
  else
    let A := setE A (j+1) j (A (j+1) j / A j j)
    some (setE A (j+1) (j+1) (A (j+1) (j+1) - A (j+1) j * ax))

/-- `SymLDL_Decompose` (TMV_SymBandCHDecompose.cpp:306-387) for a symmetric (complex) matrix with `nlo = 1`, `N > 1`; `dm`:
diagonal-major storage, for which there is one step and no loop (323-336). -/
def sLDL (dm : Bool) (N : Nat) (A : Nat → Nat → K) : Option (Nat → Nat → K) :=
  if dm then (sStep 0 A).bind fun A => if A 1 1 = 0 then none else some A
  else (forRange sStep (N-1) 0 A).bind fun A => if A (N-1) (N-1) = 0 then none else some A

/-! ### The `HermBandCHDiv` divider -/

/-- `HermBandCHDiv(A,false)` (TMV_SymBandCHD.cpp:63-110): `A` are the elements of the matrix, `LLx` holds its lower band, in
new storage (`g`: what is there before) or, for `nlo == 0`, in that of `A`; `bcm` as in `rowStep`.
`A.realPart().diag().minElement() <= 0` is simplified to "some element is not positive, or there is none": `minElement` of
an empty vector is 0 (src/TMV_Vector.cpp:735-741). -/
def make (bcm : Bool) (N lo : Nat) (A g : Nat → Nat → K) : Option (Nat → Nat → K) :=
  let L : Nat → Nat → K := fun i j => if i < N ∧ j ≤ i ∧ i ≤ j + lo then A i j else g i j
  if lo > 1 then decompose .cm bcm N lo L
  else if lo = 1 then (if N > 0 then hLDL N L else some L)
  else if N = 0 ∨ ∃ i, i < N ∧ RCLike.re (A i i) ≤ 0 then none else some L

/-- `HermBandCHDiv(A,true)` (TMV_SymBandCHD.cpp:63-110) for a matrix with storage order `o` (`.no`: diagonal major): whether
`LLx` is `A`'s storage is decided in the `Impl` constructor (66-69); if not, `LLx` is new memory (`g`), and the assignment
`LLx = A` is skipped because the argument `inplace` is true (84-85). -/
def makeInPlace (o : Ord) (bcm : Bool) (N lo : Nat) (A g : Nat → Nat → K) : Option (Nat → Nat → K) :=
  let inplace := decide ((o ≠ .no ∧ lo > 1) ∨ (o = .no ∧ lo = 1) ∨ lo = 0)
  let L := if inplace then A else g
  if lo > 1 then decompose (if inplace then o else .cm) bcm N lo L
  else if lo = 1 then (if N > 0 then hLDL N L else some L)
  else if N = 0 ∨ ∃ i, i < N ∧ RCLike.re (A i i) ≤ 0 then none else some L

/-- `doLDivEq(m)` (TMV_SymBandCHD.cpp:115-125; CH_LDivEq, LDL_LDivEq: TMV_SymBandCHDiv.cpp:34-57); `o`: the storage order of
`LLx`, `brm`, `l`: of `m`, which has `nc` columns; `g1`: what new memory holds.  `LL.upperBand()` is the adjoint of the
stored `LL.lowerBand()`. -/
def lDivEq (o : Ord) (brm : Bool) (l : Diag.Lay) (g1 : Nat → K) (N lo nc : Nat) (LL m : Nat → Nat → K) :
    Option (Nat → Nat → K) :=
  if lo > 1 then
    ((quot o N lo 0 LL).lDiv brm N nc m).bind fun m =>
    (quot (LU.Ord.tr o) N 0 lo (fun i j => star (LL j i))).lDiv brm N nc m
  else if lo = 1 then
    (BandTri.triM o brm true N 1 0 nc LL m).bind fun m =>
    (Diag.divM l g1 N nc ⟨fun i => ((RCLike.re (LL i i) : ℝ) : K), false, false⟩ m).bind fun m =>
    BandTri.triM (LU.Ord.tr o) brm true N 0 1 nc (fun i j => star (LL j i)) m
  else Diag.divM l g1 N nc ⟨fun i => LL i i, false, false⟩ m

/-- The adjoint. -/
def adj (m : Nat → Nat → K) : Nat → Nat → K := fun i j => star (m j i)

/-- `doRDivEq(m)` (TMV_SymBandCHD.cpp:127-137; CH_RDivEq, LDL_RDivEq: TMV_SymBandCHDiv.cpp:59-84): `m` has `nr` rows; `bcm`,
`l`: the storage of `m.transpose()`.  `m %= D` is `m.transpose() /= D`. -/
def rDivEq (o : Ord) (bcm : Bool) (l : Diag.Lay) (g1 : Nat → K) (N lo nr : Nat) (LL m : Nat → Nat → K) :
    Option (Nat → Nat → K) :=
  if lo > 1 then
    (((quot o N lo 0 LL).lDiv bcm N nr (adj m)).bind fun m =>
    (quot (LU.Ord.tr o) N 0 lo (fun i j => star (LL j i))).lDiv bcm N nr m).map adj
  else if lo = 1 then
    ((BandTri.triM o bcm true N 1 0 nr LL (adj m)).map adj).bind fun m =>
    ((Diag.divM l g1 N nr ⟨fun i => ((RCLike.re (LL i i) : ℝ) : K), false, false⟩ (TriProd.tr m)).map TriProd.tr).bind fun m =>
    (BandTri.triM (LU.Ord.tr o) bcm true N 0 1 nr (fun i j => star (LL j i)) (adj m)).map adj
  else (Diag.divM l g1 N nr ⟨fun i => LL i i, false, false⟩ (TriProd.tr m)).map TriProd.tr

/-- `logDet(&sign)` (TMV_SymBandCHD.cpp:183-198). -/
def logDet (N lo : Nat) (LL : Nat → Nat → K) : ℝ × K :=
  let r := LU.logDetLoop (fun i => LL i i) N 0 (0, 1)
  (if lo > 1 then 2 * r.1 else r.1, if r.2 = 0 then 0 else 1)

/-- `det()` (TMV_SymBandCHD.cpp:169-181). -/
def det (N lo : Nat) (LL : Nat → Nat → K) : K :=
  let r := LU.logDetLoop (fun i => LL i i) N 0 (0, 1)
  if r.2 = 0 then 0 else ((Real.exp (if lo > 1 then 2 * r.1 else r.1) : ℝ) : K)

/-- `getL()` (TMV_SymBandCHD.cpp:244-250), its elements on and below the diagonal; `lowerBand()` has zeros outside the band. -/
def getL (lo : Nat) (LL : Nat → Nat → K) : Nat → Nat → K :=
  fun i j => if lo ≤ 1 ∧ i = j then 1 else bandMat lo 0 LL i j

/-- `getD()` (TMV_SymBandCHD.cpp:252-257), its diagonal. -/
def getD (lo : Nat) (LL : Nat → Nat → K) : Nat → K := fun i => if lo ≤ 1 then LL i i else 1

/-! ### The inverse -/

/-- `RecursiveInverse<true>` with a bandwidth (TMV_BandLUInverse.cpp:106-153), for a unit upper triangle. -/
def bandInvU (nb mb mb2 : Nat) (o : Ord) (brm st : Bool) (nhi : Nat) :
    Nat → Nat → (Nat → Nat → K) → Option (Nat → Nat → K)
  | 0, _, _ => none
  | fuel+1, N, U =>
    if N = 1 then some U
    else
      let k := splitAt nb N
      (bandInvU nb mb mb2 o brm st nhi fuel k U).bind fun U00 =>
      (bandInvU nb mb mb2 o brm st nhi fuel (N-k) (sub U k k)).map fun U11 =>
        let U := paste (paste U 0 0 k k U00) k k (N-k) (N-k) U11
        let U := if nhi < N-k then
            paste U 0 k k nhi (TriMul.upperRec mb mb2 o false brm st nhi (k+1) k true (-1) U (sub U 0 k))
          else
            paste U 0 k k (N-k) (TriMul.upperRec mb mb2 o false brm st (N-k) (k+1) k true (-1) U (sub U 0 k))
        paste U 0 k k (N-k) (TriProd.tr (TriMul.lowerRec mb mb2 o false brm st k (N-k+1) (N-k) true 1
          (TriProd.tr (sub U k k)) (TriProd.tr (sub U 0 k))))

/-- `CH_Inverse(LLx,sinv)` (TMV_SymBandCHInverse.cpp:125-167, DoCHInverse 54-62) for a `sinv` that is row or column major,
stored in its lower triangle and not conjugated: `sinv = LLx` (which has zeros outside the band), `TriInverse(L.transpose(),nlo)`,
`sinv = L.adjoint()*L` (as in `CH.inverse`). -/
def chInverse (bk : CH.UBlk) (o : Ord) (xrm brm bst crm cst : Bool) (N lo : Nat) (LL sinv : Nat → Nat → K) : Option (Nat → Nat → K) :=
  if N > 0 then
    let S : Nat → Nat → K := fun i j => if j ≤ i ∧ i < N then bandMat lo 0 LL i j else sinv i j
    (BandLU.triInverse bk.ti bk.mb bk.mb2 (LU.Ord.tr o) crm cst N lo (TriProd.tr S)).bind fun M =>
    some (TriProd.tr (CH.setUUt bk o xrm brm bst true (N+1) N M))
  else some sinv

/-- `SimpleLDLt_AddXtDX(sinv,X,D)` (TMV_SymBandCHInverse.cpp:64-76): `sinv` is `n × n`, `X` is `N × n`. -/
def addXtDX (o : Ord) (n : Nat) : Nat → Nat → (Nat → Nat → K) → (Nat → K) → (Nat → Nat → K) → Nat → Nat → K
  | 0, _, _, _, S => S
  | fuel+1, N, X, D, S =>
    if N = 1 then SymRK.rank1 o true true true n (D 0) (X 0) S
    else
      let k := N/2
      let S := addXtDX o n fuel k X D S
      addXtDX o n fuel (N-k) (fun l => X (k+l)) (fun l => D (k+l)) S

/-- `SimpleLDLt_CombineInverse(sinv)` (TMV_SymBandCHInverse.cpp:78-103); `o`, `crm`, `cst`, `l` describe the storage of `sinv`,
`ac`: `SameStorage` of its diagonal and the block `X10`. -/
def combine (mb mb2 : Nat) (o : Ord) (crm cst ac : Bool) (l : Diag.Lay) : Nat → Nat → (Nat → Nat → K) → Nat → Nat → K
  | 0, _, S => S
  | fuel+1, N, S =>
    if N > 1 then
      let k := N/2
      let S := combine mb mb2 o crm cst ac l fuel k S
      let D : Nat → K := fun i => S (k+i) (k+i)
      let S := addXtDX o k (N+1) (N-k) (sub S k 0) D S
      let S := paste S k 0 (N-k) k (Diag.mulM false ac true l l 1 (N-k) k ⟨D, false, false⟩ (sub S k 0) (sub S k 0))
      let S := paste S k 0 (N-k) k (TriMul.upperRec mb mb2 (LU.Ord.tr o) false crm cst k (N+1) (N-k) true 1
        (fun i j => star (S (k+j) (k+i))) (sub S k 0))
      paste S k k (N-k) (N-k) (combine mb mb2 o crm cst ac l fuel (N-k) (sub S k k))
    else S

/-- `LDL_Inverse(LLx,sinv)` (TMV_SymBandCHInverse.cpp:169-219, DoLDL_Inverse 105-113), `sinv` as in `chInverse`. -/
def ldlInverse (bk : CH.UBlk) (o : Ord) (crm cst ac : Bool) (l : Diag.Lay) (N : Nat) (LL sinv : Nat → Nat → K) :
    Option (Nat → Nat → K) :=
  if N > 0 then
    let S : Nat → Nat → K := fun i j => if j ≤ i ∧ i < N then bandMat 1 0 LL i j else sinv i j
    ((bandInvU bk.ti bk.mb bk.mb2 (LU.Ord.tr o) crm cst 1 (N+1) N (TriProd.tr S)).map TriProd.tr).bind fun S =>
    -- D.realPart().invertSelf()
    (forRange (fun i S => if RCLike.re (S i i) = 0 then none else some (setE S i i (setRe (S i i) (RCLike.re (S i i))⁻¹))) N 0 S).map
      fun S => combine bk.mb bk.mb2 o crm cst ac l (N+1) N S
  else some sinv

/-- `doMakeInverse(sinv)` for a Hermitian view (TMV_SymBandCHD.cpp:200-211). -/
def inverse (bk : CH.UBlk) (o : Ord) (xrm brm bst crm cst ac : Bool) (l : Diag.Lay) (N lo : Nat) (LL sinv : Nat → Nat → K) :
    Option (Nat → Nat → K) :=
  if lo > 1 then chInverse bk o xrm brm bst crm cst N lo LL sinv
  else if lo = 1 then ldlInverse bk o crm cst ac l N LL sinv
  else (Diag.invertSelf N (fun i => ((RCLike.re (LL i i) : ℝ) : K))).map fun d =>
    fun i j => if j ≤ i ∧ i < N then (if i = j then d i else 0) else sinv i j

/-- `doMakeInverse(minv)` for a matrix (TMV_SymBandCHD.cpp:213-224). -/
def makeInverse (bk : CH.UBlk) (o : Ord) (xrm brm bst crm cst ac : Bool) (l : Diag.Lay) (N lo : Nat) (LL minv : Nat → Nat → K) :
    Option (Nat → Nat → K) :=
  let m : Nat → Nat → K := fun i j => if i = j ∧ i < N then ((RCLike.re (minv i i) : ℝ) : K) else minv i j
  (inverse bk o xrm brm bst crm cst ac l N lo LL m).map fun m =>
    if N > 1 then (fun i j => if i < j ∧ j < N then star (m j i) else m i j) else m

end
end TMV.BandCH
