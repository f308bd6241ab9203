import Verif.Model.CH
import Verif.Model.LUDiv
import Verif.Model.TriProd

/-! The `HermCHDiv` divider (src/TMV_SymCHD.cpp): division (src/TMV_SymCHDiv.cpp), inverse (src/TMV_SymCHInverse.cpp without LAPACK) and
the products `U U†`, `L L†` in place (src/TMV_RankK_ULS.cpp, src/TMV_RankK_LUS.cpp without LAPACK).

Exact real or complex elements, one element type. -/
namespace TMV.CH
open Tri (Ord splitAt sub paste)
noncomputable section
open Classical

variable {K : Type} [RCLike K]

/-- Block sizes: `SYM_RK_BLOCKSIZE(2)`, those of the triangular products and of the triangular inverse. -/
structure UBlk where
  rk : Nat
  rk2 : Nat
  mb : Nat
  mb2 : Nat
  ti : Nat

/-- `RecursiveSetUUt<sa>(A)` (TMV_RankK_ULS.cpp:127-169), `A` stored in its upper triangle (`M`: its elements), `h` = `!sa`; `o`: the
storage order of `A.transpose()`.  `A12 *= U22.adjoint()` is computed as `A12.transpose() = conj(U22)*A12.transpose()`; `brm`, `bst`
describe `A12.transpose()`.  Fuel bounds the recursion. -/
def setUUt (bk : UBlk) (o : Ord) (xrm brm bst h : Bool) : Nat → Nat → (Nat → Nat → K) → Nat → Nat → K
  | 0, _, M => M
  | fuel+1, N, M =>
    if N = 1 then setE M 0 0 (if h then ((RCLike.normSq (M 0 0) : ℝ) : K) else M 0 0 * M 0 0)
    else
      let k := splitAt bk.rk N
      let M := setUUt bk o xrm brm bst h fuel k M
      let M := TriProd.tr (SymRK.rankK bk.rk bk.rk2 o xrm h h true k (N-k) 1 (fun i l => cj h (M i (k+l))) (TriProd.tr M))
      let X := TriMul.upperRec bk.mb bk.mb2 (LU.Ord.tr o) false brm bst k (N+1) (N-k) false 1 (fun i j => cj h (M (k+i) (k+j)))
        (fun a b => M b (k+a))
      let M : Nat → Nat → K := fun i j => if i < k ∧ k ≤ j ∧ j < N then X (j-k) i else M i j
      paste M k k (N-k) (N-k) (setUUt bk o xrm brm bst h fuel (N-k) (sub M k k))

/-- `RecursiveSetLLt<ha>(A)` (TMV_RankK_LUS.cpp:128-164), `A` stored in its lower triangle.  `A21 *= L11.adjoint()` is computed as
`A21.transpose() = conj(L11)*A21.transpose()`. -/
def setLLt (bk : UBlk) (o : Ord) (xrm brm bst h : Bool) : Nat → Nat → (Nat → Nat → K) → Nat → Nat → K
  | 0, _, S => S
  | fuel+1, N, S =>
    if N = 1 then setE S 0 0 (if h then ((RCLike.normSq (S 0 0) : ℝ) : K) else S 0 0 * S 0 0)
    else
      let k := splitAt bk.rk N
      let S := paste S k k (N-k) (N-k) (setLLt bk o xrm brm bst h fuel (N-k) (sub S k k))
      let S := paste S k k (N-k) (N-k) (SymRK.rankK bk.rk bk.rk2 o xrm false h true (N-k) k 1 (fun i l => S (k+i) l) (sub S k k))
      let X := TriMul.lowerRec bk.mb bk.mb2 o false brm bst (N-k) (N+1) k false 1 (fun i j => cj h (S i j)) (fun a b => S (k+b) a)
      let S : Nat → Nat → K := fun i j => if k ≤ i ∧ i < N ∧ j < k then X j (i-k) else S i j
      setLLt bk o xrm brm bst h fuel k S

/-- `HermCHDiv(A)` (TMV_SymCHD.cpp:70-85): `A` are the elements of the matrix, `LLx` (`o`: its storage order) holds its lower triangle,
either in new storage (`g`: what is there before) or in that of `A`.  `none` = `NonPosDefHermMatrix` was thrown. -/
def make (bk : Blks) (o : Ord) (N : Nat) (A g : Nat → Nat → K) : Option (Nat → Nat → K) :=
  decompose bk o N (fun i j => if j ≤ i ∧ i < N then A i j else g i j)

/-- `CH_LDivEq(LL,m)` (TMV_SymCHDiv.cpp:36-44): `m /= LL.lowerTri(); m /= LL.upperTri();`, the upper triangle is the adjoint of the
stored one; `none` = `SingularMatrix` was thrown. -/
def lDivEq (tb tb2 : Nat) (o : Ord) (brm : Bool) (N nc : Nat) (LL m : Nat → Nat → K) : Option (Nat → Nat → K) :=
  (Tri.lowerM tb tb2 o brm false N nc LL m).bind fun m =>
  Tri.upperM tb tb2 (LU.Ord.tr o) brm false N nc (fun i j => star (LL j i)) m

/-- `CH_RDivEq(LL,m)` (TMV_SymCHDiv.cpp:50-58): `m %= LL.upperTri(); m %= LL.lowerTri();`, where `m %= X` is
`m.transpose() /= X.transpose()`. -/
def rDivEq (tb tb2 : Nat) (o : Ord) (bcm : Bool) (N nr : Nat) (LL m : Nat → Nat → K) : Option (Nat → Nat → K) :=
  ((Tri.lowerM tb tb2 o bcm false N nr (fun i j => star (LL i j)) (TriProd.tr m)).bind fun m =>
  Tri.upperM tb tb2 (LU.Ord.tr o) bcm false N nr (fun i j => LL j i) m).map TriProd.tr

/-- `HermCHDiv::logDet(&sign)` (TMV_SymCHD.cpp:139-154). -/
def logDet (N : Nat) (LL : Nat → Nat → K) : ℝ × K :=
  let r := LU.logDetLoop (fun i => LL i i) N 0 (0, 1)
  (2 * r.1, if r.2 = 0 then 0 else 1)

/-- `HermCHDiv::det()` (TMV_SymCHD.cpp:125-137). -/
def det (N : Nat) (LL : Nat → Nat → K) : K :=
  let r := LU.logDetLoop (fun i => LL i i) N 0 (0, 1)
  if r.2 = 0 then 0 else ((Real.exp (2 * r.1) : ℝ) : K)

/-- `CH_Inverse(LLx,sinv)` (TMV_SymCHInverse.cpp:118-148, NonLapCHInverse 42-50) for a `sinv` that is row or column major, stored in its
lower triangle and not conjugated: `sinv = LLx; L = sinv.lowerTri(); L.invertSelf(); sinv = L.adjoint()*L`.  The last is
`RankKUpdate<false>(1,L.adjoint(),sinv)`, which calls itself for `L.transpose()` and `sinv.transpose()` and copies `L.transpose()` to the
upper triangle of that, which is its place already (TMV_RankK_ULS.cpp:257-267). -/
def inverse (bk : UBlk) (o : Ord) (xrm brm bst crm cst : Bool) (N : Nat) (LL sinv : Nat → Nat → K) : Option (Nat → Nat → K) :=
  if N > 0 then
    let S : Nat → Nat → K := fun i j => if j ≤ i ∧ i < N then LL i j else sinv i j
    (TriProd.triInverse bk.ti bk.mb bk.mb2 (LU.Ord.tr o) crm cst false N (TriProd.tr S)).bind fun M =>
    some (TriProd.tr (setUUt bk o xrm brm bst true (N+1) N M))
  else some sinv

/-- `HermCHDiv::doMakeInverse(minv)` for a matrix `minv` (TMV_SymCHD.cpp:164-174). -/
def makeInverse (bk : UBlk) (o : Ord) (xrm brm bst crm cst : Bool) (N : Nat) (LL minv : Nat → Nat → K) : Option (Nat → Nat → K) :=
  let m : Nat → Nat → K := fun i j => if i = j ∧ i < N then ((RCLike.re (minv i i) : ℝ) : K) else minv i j
  (inverse bk o xrm brm bst crm cst N LL m).bind fun m =>
  some (if N > 1 then (fun i j => if i < j ∧ j < N then star (m j i) else m i j) else m)

end
end TMV.CH
