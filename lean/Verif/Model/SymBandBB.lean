import Verif.Model.SymBandMul

/-! The product of a symmetric or Hermitian band matrix and a band matrix or another symmetric band matrix (src/TMV_MultsBB.cpp).  Exact
arithmetic, one element type.  `none` = a failed `TMVAssert`.  The products of general band matrices that the code calls for (C94) are taken as
the mathematical ones, with their assertions about the widths. -/
namespace TMV.SymBandBB
open SymBandMul
variable {K : Type _}

/-- The shape of a band matrix view: where it begins in the array, its size, and `nlo()`, `nhi()`. -/
structure Win where
  r0 : Nat
  c0 : Nat
  cs : Nat
  rs : Nat
  lo : Int
  hi : Int

/-- `(i,j)` is an element in the band. -/
def Win.has (w : Win) (i j : Nat) : Prop := i < w.cs ∧ j < w.rs ∧ (i : Int) - j ≤ w.lo ∧ (j : Int) - i ≤ w.hi

instance (w : Win) (i j : Nat) : Decidable (w.has i j) := by unfold Win.has; infer_instance

/-- The assertions of the view's constructor (include/tmv/TMV_BandMatrix.h:1012-1015, 1358-1361). -/
def Win.ok (w : Win) : Prop := (w.rs = 0 ∨ w.hi < w.rs) ∧ (w.cs = 0 ∨ w.lo < w.cs) ∧ 0 ≤ w.hi ∧ 0 ≤ w.lo

instance (w : Win) : Decidable w.ok := by unfold Win.ok; infer_instance

/-- `okij(i,j)` (include/tmv/TMV_BandMatrix.h:959-960). -/
def Win.okij (w : Win) (i j : Int) : Prop := i - j ≤ w.lo ∧ j - i ≤ w.hi

instance (w : Win) (i j : Int) : Decidable (w.okij i j) := by unfold Win.okij; infer_instance

/-- `hasSubBandMatrix(i1,i2,j1,j2,newnlo,newnhi,1,1)` (src/TMV_BandMatrix.cpp:294-371). -/
def Win.hasSub (w : Win) (i1 i2 j1 j2 : Nat) (nlo nhi : Int) : Prop :=
  i1 = i2 ∨ j1 = j2 ∨
  (i1 < w.cs ∧ 1 ≤ i2 ∧ i2 ≤ w.cs ∧ i1 ≤ i2 ∧ j1 < w.rs ∧ 1 ≤ j2 ∧ j2 ≤ w.rs ∧ j1 ≤ j2 ∧ w.okij i1 j1 ∧ w.okij i1 (j1 + nhi) ∧
    w.okij (i1 + nlo) j1 ∧ nhi < (j2 : Int) - j1 ∧ nlo < (i2 : Int) - i1)

instance (w : Win) (i1 i2 j1 j2 : Nat) (nlo nhi : Int) : Decidable (w.hasSub i1 i2 j1 j2 nlo nhi) := by unfold Win.hasSub; infer_instance

/-- `subBandMatrix(i1,i2,j1,j2,newnlo,newnhi)` (include/tmv/TMV_BandMatrix.h:596-604). -/
def Win.sub (w : Win) (i1 i2 j1 j2 : Nat) (nlo nhi : Int) : Option Win :=
  let v : Win := ⟨w.r0 + i1, w.c0 + j1, i2 - i1, j2 - j1, nlo, nhi⟩
  if w.hasSub i1 i2 j1 j2 nlo nhi ∧ v.ok then some v else none

/-- The element `(i,j)` of the view `w` of an array. -/
def wel [Zero K] (w : Win) (E : Nat → Nat → K) (i j : Nat) : K := if w.has i j then E (w.r0 + i) (w.c0 + j) else 0

variable [Field K] [StarRing K]

/-- `C (+)= alpha*P*Q` for a band matrix with elements `P` and widths `plo`, `phi`, a band view `wq` of the array `E`, and a band view `wc` of
the array `X` (`ProdBB`, include/tmv/TMV_BandMatrixArith.h:467-495, 517-551). -/
def prodBB (add : Bool) (α : K) (P : Nat → Nat → K) (plo phi : Int) (wq : Win) (E : Nat → Nat → K) (wc : Win) (X : Nat → Nat → K) :
    Option (Nat → Nat → K) :=
  if min ((wc.cs : Int) - 1) (plo + wq.lo) ≤ wc.lo ∧ min ((wc.rs : Int) - 1) (phi + wq.hi) ≤ wc.hi then
    some fun i j => if wc.r0 ≤ i ∧ wc.c0 ≤ j ∧ wc.has (i - wc.r0) (j - wc.c0) then
      (if add then X i j else 0) + α * ∑ l ∈ Finset.range wq.cs, P (i - wc.r0) l * wel wq E l (j - wc.c0) else X i j
  else none

/-- `DoMultMM<add>(alpha,A,B,C)` (src/TMV_MultsBB.cpp:54-94). -/
def doMM (add : Bool) (α : K) (A : SB K) (wb : Win) (E : Nat → Nat → K) (wc : Win) (X : Nat → Nat → K) : Option (Nat → Nat → K) :=
  let N := wb.cs
  let M := wc.rs
  (prodBB add α A.lowerEl A.k 0 wb E wc X).bind fun X =>
  if N > 1 ∧ A.k > 0 then
    if wb.lo > 0 then
      (wc.sub 0 (N - 1) 0 M (if wc.lo = (wc.cs : Int) - 1 then wc.lo - 1 else wc.lo) wc.hi).bind fun vc =>
      (wb.sub 1 N 0 M (wb.lo - 1) (if wb.hi = (wb.rs : Int) - 1 then wb.hi else wb.hi + 1)).bind fun vb =>
      prodBB true α A.upperOffEl 0 ((A.k : Int) - 1) vb E vc X
    else
      (wc.sub 0 (N - 1) 1 M (if (wc.cs : Int) - 2 ≤ wc.lo then (wc.cs : Int) - 2 else wc.lo + 1) (wc.hi - 1)).bind fun vc =>
      (wb.sub 1 N 1 M wb.lo wb.hi).bind fun vb =>
      prodBB true α A.upperOffEl 0 ((A.k : Int) - 1) vb E vc X
  else some X

/-- `TempMultMM<add>(alpha,A,B,C)` (src/TMV_MultsBB.cpp:96-117); `g` is what the new band matrix holds.  The three layouts make no
difference. -/
def tempMM (add : Bool) (g : Nat → Nat → K) (α : K) (A : SB K) (wb : Win) (E : Nat → Nat → K) (wc : Win) (X : Nat → Nat → K) :
    Option (Nat → Nat → K) :=
  (doMM false 1 A wb E wc g).map fun C2 => fun i j => if wc.has i j then (if add then X i j + α * C2 i j else α * C2 i j) else X i j

/-- `MultMM<add>(alpha,A,B,C)` for a `C` that is not conjugated and `alpha != 0`; `inC` tells whether `A` is stored in the array `X` of `C`
(src/TMV_MultsBB.cpp:146-150). -/
def multMMnc (add inC : Bool) (g : Nat → Nat → K) (α : K) (A : SB K) (wb : Win) (B : BSrc K) (wc : Win) (X : Nat → Nat → K) :
    Option (Nat → Nat → K) :=
  let s := match B with
    | .apart _ => false
    | .inC .. => true
  if inC || s then tempMM add g α (aMat inC A X) wb (B.rd X) wc X
  else doMM add α (aMat inC A X) wb (B.rd X) wc X

/-- `MultMM<add>(alpha,A,B,C)`, i.e. `C (+)= alpha*A*B` for a symmetric band `A` and band matrices `B`, `C` (src/TMV_MultsBB.cpp:119-168); `cc` tells whether `C` is a conjugated view of its array. -/
def multMM [DecidableEq K] (add inC cc : Bool) (g : Nat → Nat → K) (α : K) (A : SB K) (wb : Win) (B : BSrc K) (wc : Win)
    (X : Nat → Nat → K) : Option (Nat → Nat → K) :=
  if wc.cs > 0 ∧ wc.rs > 0 then
    if α = 0 then some (if add then X else fun i j => if wc.has i j then 0 else X i j)
    else if cc then multMMnc add inC g (star α) A.conjugate wb B.conjugate wc X
    else multMMnc add inC g α A wb B wc X
  else some X

/-- `MultMM<add>(alpha,A,B,C)` for two symmetric band matrices of size `N`, `alpha != 0` and a `C` that is not conjugated
(src/TMV_MultsBB.cpp:198-217): the narrower of them is copied, times `alpha`, into a band matrix; when that is `A`, the transposes are
multiplied.  Either may be stored in the array of `C`, which begins at its origin.  Real and complex `alpha` take separate but like branches. -/
def multSSnc [DecidableEq K] (add aIn bIn : Bool) (g : Nat → Nat → K) (α : K) (A B : SB K) (N : Nat) (wc : Win) (X : Nat → Nat → K) :
    Option (Nat → Nat → K) :=
  if A.k > B.k then
    multMM add aIn false g 1 A ⟨0, 0, N, N, B.k, B.k⟩ (.apart fun i j => α * (aMat bIn B X).el i j) wc X
  else
    (multMM add bIn false (fun i j => g j i) 1 (if bIn then { B with up := !B.up } else B.transpose) ⟨0, 0, N, N, A.k, A.k⟩
      (.apart fun i j => α * (aMat aIn A X).el j i) ⟨0, 0, wc.rs, wc.cs, wc.hi, wc.lo⟩ (fun i j => X j i)).map
      fun Y => fun i j => Y j i

/-- `MultMM<add>(alpha,A,B,C)` for two symmetric band matrices (src/TMV_MultsBB.cpp:170-238); `cc` tells whether `C` is a conjugated view of its
array. -/
def multSS [DecidableEq K] (add aIn bIn cc : Bool) (g : Nat → Nat → K) (α : K) (A B : SB K) (N : Nat) (wc : Win) (X : Nat → Nat → K) :
    Option (Nat → Nat → K) :=
  if wc.cs > 0 ∧ wc.rs > 0 then
    if α = 0 then some (if add then X else fun i j => if wc.has i j then 0 else X i j)
    else if cc then multSSnc add aIn bIn g (star α) A.conjugate B.conjugate N wc X
    else multSSnc add aIn bIn g α A B N wc X
  else some X

end TMV.SymBandBB
