import Verif.Model.Loop
import Verif.Model.Tri

/-! Multiplication by a triangle matrix in place: src/TMV_MultUV.cpp, src/TMV_MultUM.cpp (code used without
BLAS).  Conventions as in `Model/Tri.lean`. -/
namespace TMV.TriMul
open TMV.Tri
variable {K : Type _} [Field K] [DecidableEq K]

/-- `if (!ua) *xi *= *Aii`. -/
def diagMul (ua : Bool) (A : Nat → Nat → K) (i : Nat) (x : Nat → K) : Nat → K :=
  if ua then x else Function.update x i (x i * A i i)

/-- The inner loops `*xi += (*xj) * (*Aij)`, `j = lo … lo+n-1` (TMV_MultUV.cpp:115-121). -/
def addRow (A : Nat → Nat → K) (i lo n : Nat) (x : Nat → K) : Nat → K :=
  up (fun j x => Function.update x i (x i + x j * A i j)) n lo x

/-- The inner loops `*xi += *xj * (*Aij)`, `i = lo … lo+n-1` (TMV_MultUV.cpp:178-184, 320-326). -/
def addCol (A : Nat → Nat → K) (j lo n : Nat) (x : Nat → K) : Nat → K :=
  up (fun i x => Function.update x i (x i + x j * A i j)) n lo x

/-- `DoRowMultEqMV`, upper (TMV_MultUV.cpp:91-129). -/
def rowU (ua : Bool) (N : Nat) (A : Nat → Nat → K) (x : Nat → K) : Nat → K :=
  diagMul ua A (N-1) (up (fun i x => addRow A i (i+1) (N-1-i) (diagMul ua A i x)) (N-1) 0 x)

/-- `DoColMultEqMV`, upper (TMV_MultUV.cpp:147-195). -/
def colU (ua : Bool) (N : Nat) (A : Nat → Nat → K) (x : Nat → K) : Nat → K :=
  up (fun j x => if x j ≠ 0 then diagMul ua A j (addCol A j 0 j x) else x) (N-1) 1 (diagMul ua A 0 x)

/-- `DoRowMultEqMV`, lower (TMV_MultUV.cpp:213-258): the local `xx` collects the row, then is stored. -/
def rowL (ua : Bool) (N : Nat) (A : Nat → Nat → K) (x : Nat → K) : Nat → K :=
  diagMul ua A 0 (down (fun r x =>
    let xx := if ua then x (r+1) else x (r+1) * A (r+1) (r+1)
    Function.update x (r+1) (up (fun j xx => xx + x j * A (r+1) j) (r+1) 0 xx)) (N-1) x)

/-- `DoColMultEqMV`, lower (TMV_MultUV.cpp:276-327). -/
def colL (ua : Bool) (N : Nat) (A : Nat → Nat → K) (x : Nat → K) : Nat → K :=
  down (fun j x => if x j ≠ 0 then diagMul ua A j (addCol A j (j+1) (N-1-j) x) else x) (N-1)
    (diagMul ua A (N-1) x)

/-- `DoMultEqMV`, upper (TMV_MultUV.cpp:345-353). -/
def doU (o : Ord) (ua : Bool) (N : Nat) (A : Nat → Nat → K) (x : Nat → K) : Nat → K :=
  if o = .cm then colU ua N A x else rowU ua N A x

/-- `DoMultEqMV`, lower (TMV_MultUV.cpp:392-400); `ss` is `SameStorage(A,x)`. -/
def doL (o : Ord) (ss ua : Bool) (N : Nat) (A : Nat → Nat → K) (x : Nat → K) : Nat → K :=
  if o = .cm ∧ ss = false then colL ua N A x else rowL ua N A x

/-- `x1 += A12*x2` (UnitAMultMV1<true,false>), rows `r … r+m-1`, columns `c … c+n-1`. -/
def addMV (A : Nat → Nat → K) (r m c n : Nat) (x : Nat → K) : Nat → K :=
  fun i => if r ≤ i ∧ i < r+m then x i + ∑ k ∈ Finset.range n, A i (c+k) * x (c+k) else x i

/-- Operation on the sub-vector `[lo,hi)`. -/
def onSub (lo hi : Nat) (f : (Nat → K) → Nat → K) (x : Nat → K) : Nat → K :=
  let y := f (fun i => x (lo+i))
  fun i => if lo ≤ i ∧ i < hi then y (i-lo) else x i

/-- `MultEqMV` = `NonBlasMultEqMV`, upper (TMV_MultUV.cpp:355-390): skip zeros at both ends. -/
def upperV (o : Ord) (ua : Bool) (N : Nat) (A : Nat → Nat → K) (x : Nat → K) : Nat → K :=
  let j2 := trimHi x N
  if j2 = 0 then x
  else
    let j1 := trimLo x N 0
    if j1 = 0 ∧ j2 = N then doU o ua N A x
    else
      let x := if j1 ≠ 0 then addMV A 0 j1 j1 (j2-j1) x else x
      onSub j1 j2 (doU o ua (j2-j1) (sub A j1 j1)) x

/-- `MultEqMV` = `NonBlasMultEqMV`, lower (TMV_MultUV.cpp:402-438). -/
def lowerV (o : Ord) (ss ua : Bool) (N : Nat) (A : Nat → Nat → K) (x : Nat → K) : Nat → K :=
  let j2 := trimHi x N
  if j2 = 0 then x
  else
    let j1 := trimLo x N 0
    if j1 = 0 ∧ j2 = N then doL o ss ua N A x
    else
      let x := if j2 ≠ N then addMV A j2 (N-j2) j1 (j2-j1) x else x
      onSub j1 j2 (doL o (ss && j1 == 0) ua (j2-j1) (sub A j1 j1)) x

/-- `B.row(i) *= *Aii` unless unit (TMV_MultUM.cpp:72-74). -/
def diagMulM (ua : Bool) (A : Nat → Nat → K) (i nc : Nat) (B : Nat → Nat → K) : Nat → Nat → K :=
  if ua then B else fun a c => if a = i ∧ c < nc then B a c * A i i else B a c

/-- `B.row(i) += A.row(i,lo,lo+n) * B.rowRange(lo,lo+n)` (TMV_MultUM.cpp:66, 73, 220, 227). -/
def addRowM (A : Nat → Nat → K) (i lo n nc : Nat) (B : Nat → Nat → K) : Nat → Nat → K :=
  fun a c => if a = i ∧ c < nc then B i c + ∑ k ∈ Finset.range n, A i (lo+k) * B (lo+k) c else B a c

/-- `B.rowRange(lo,lo+n) += A.col(j,lo,lo+n) ^ B.row(j)` (TMV_MultUM.cpp:96, 101, 252, 258). -/
def addOuterM (A : Nat → Nat → K) (j lo n nc : Nat) (B : Nat → Nat → K) : Nat → Nat → K :=
  fun a c => if lo ≤ a ∧ a < lo+n ∧ c < nc then B a c + A a j * B j c else B a c

/-- `B *= alpha` (`N`×`nc`). -/
def scaleM (α : K) (N nc : Nat) (B : Nat → Nat → K) : Nat → Nat → K :=
  fun a c => if a < N ∧ c < nc then B a c * α else B a c

/-- `RRMultEqMM`, upper (TMV_MultUM.cpp:54-79), without the final scaling. -/
def rrU (ua : Bool) (N nc : Nat) (A B : Nat → Nat → K) : Nat → Nat → K :=
  up (fun i B => addRowM A i (i+1) (N-(i+1)) nc (diagMulM ua A i nc B)) N 0 B

/-- `CRMultEqMM`, upper (TMV_MultUM.cpp:81-107), without the final scaling. -/
def crU (ua : Bool) (N nc : Nat) (A B : Nat → Nat → K) : Nat → Nat → K :=
  up (fun j B => diagMulM ua A j nc (addOuterM A j 0 j nc B)) N 0 B

/-- `RRMultEqMM`, lower (TMV_MultUM.cpp:205-232). -/
def rrL (ua : Bool) (N nc : Nat) (A B : Nat → Nat → K) : Nat → Nat → K :=
  down (fun i B => addRowM A i 0 i nc (diagMulM ua A i nc B)) N B

/-- `CRMultEqMM`, lower (TMV_MultUM.cpp:234-263). -/
def crL (ua : Bool) (N nc : Nat) (A B : Nat → Nat → K) : Nat → Nat → K :=
  down (fun j B => diagMulM ua A j nc (addOuterM A j (j+1) (N-(j+1)) nc B)) N B

/-- `CMultEqMM`: `for j: B.col(j) = alpha*A*B.col(j)` through `MultMV<false>` (TMV_MultUM.cpp:109-123,
TMV_MultUV.cpp:746-765): with unit step the column is multiplied in place, otherwise through a temporary. -/
def cM (f : (Nat → K) → Nat → K) (α : K) (unitStep : Bool) (N nc : Nat) (B : Nat → Nat → K) : Nat → Nat → K :=
  up (fun j B =>
    let y := if unitStep then (fun i => f (fun i => B i j) i * α) else f (fun i => α * B i j)
    fun a c => if c = j ∧ a < N then y a else B a c) nc 0 B

/-- `C += alpha*A*B` (product kernels: `Model/MultMM.lean`). -/
def addMul (α : K) (m n k : Nat) (A B C : Nat → Nat → K) : Nat → Nat → K :=
  fun i j => if i < m ∧ j < n then C i j + α * ∑ l ∈ Finset.range k, A i l * B l j else C i j

/-- `alpha*A` as a `NonUnitDiag` copy (TMV_MultUM.cpp:151-153). -/
def scaledCopy (ua : Bool) (α : K) (A : Nat → Nat → K) : Nat → Nat → K :=
  fun i j => if i = j ∧ ua then α else α * A i j

/-- `NonBlasMultEqMM`, upper (TMV_MultUM.cpp:125-178): `B = alpha*A*B`. `ss` is `SameStorage(A,B)`, `brm` is
`B.isrm()`, `bst` is "columns of `B` have unit step"; fuel bounds the recursion. -/
def upperRec (nb nb2 : Nat) (o : Ord) (ss brm bst : Bool) (nc : Nat) :
    Nat → Nat → Bool → K → (Nat → Nat → K) → (Nat → Nat → K) → Nat → Nat → K
  | 0, _, _, _, _, B => B
  | fuel+1, N, ua, α, A, B =>
    if N ≤ nb2 then
      if o = .rm ∧ brm then scaleM α N nc (rrU ua N nc A B)
      else if o = .cm ∧ brm then scaleM α N nc (crU ua N nc A B)
      else if o = .no ∨ ss then
        let AA := scaledCopy ua α A
        if brm then crU false N nc AA B else cM (upperV .cm false N AA) 1 bst N nc B
      else cM (upperV o ua N A) α bst N nc B
    else
      let k := splitAt nb N
      let B := paste B 0 0 k nc (upperRec nb nb2 o ss brm bst nc fuel k ua α A B)
      let B := addMul α k nc (N-k) (sub A 0 k) (sub B k 0) B
      paste B k 0 (N-k) nc (upperRec nb nb2 o false brm bst nc fuel (N-k) ua α (sub A k k) (sub B k 0))

/-- `NonBlasMultEqMM`, lower (TMV_MultUM.cpp:281-325). -/
def lowerRec (nb nb2 : Nat) (o : Ord) (ss brm bst : Bool) (nc : Nat) :
    Nat → Nat → Bool → K → (Nat → Nat → K) → (Nat → Nat → K) → Nat → Nat → K
  | 0, _, _, _, _, B => B
  | fuel+1, N, ua, α, A, B =>
    if N ≤ nb2 then
      if o = .rm ∧ brm then scaleM α N nc (rrL ua N nc A B)
      else if o = .cm ∧ brm then scaleM α N nc (crL ua N nc A B)
      else if o = .no ∨ ss then
        let AA := scaledCopy ua α A
        if brm then crL false N nc AA B else cM (lowerV .cm false false N AA) 1 bst N nc B
      else cM (lowerV o false ua N A) α bst N nc B
    else
      let k := splitAt nb N
      let B := paste B k 0 (N-k) nc (lowerRec nb nb2 o false brm bst nc fuel (N-k) ua α (sub A k k) (sub B k 0))
      let B := paste B k 0 (N-k) nc (addMul α (N-k) nc k (sub A k 0) B (sub B k 0))
      paste B 0 0 k nc (lowerRec nb nb2 o ss brm bst nc fuel k ua α A B)

end TMV.TriMul
