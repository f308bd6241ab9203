import Verif.Model.LDL
import Verif.Model.TriProd

/-! The `SymLDLDiv` divider (src/TMV_SymLDLD.cpp): division (src/TMV_SymLDLDiv.cpp, src/TMV_SymLDLPseudo.cpp) and inverse
(src/TMV_SymLDLInverse.cpp).

Exact real or complex elements, one element type.  Where the code divides by zero (a singular matrix), the model has the field's `x/0`;
nothing is claimed there. -/
namespace TMV.LDL
open Tri (Ord sub paste)
open SymRK (rank1 symMul)
noncomputable section
open Classical

variable {K : Type} [RCLike K]

/-- `LMultEq_2x2(a,b,c,cc,m)` on the rows `i`, `i+1` of a matrix with `nc` columns (TMV_SymLDLPseudo.cpp:65-118; the loops for row-major
and other matrices visit the same columns). -/
def lmult2 (nc i : Nat) (a b c cc : K) (m : Nat → Nat → K) : Nat → Nat → K :=
  up (fun k m =>
    let tempx := m i k
    let m := setE m i k (a * m i k + cc * m (i+1) k)
    setE m (i+1) k (b * m (i+1) k + c * tempx)) nc 0 m

/-- `SymLMultEq_2x2<herm>(a,b,c,m)` (TMV_SymLDLPseudo.cpp:120-137) on the rows `i`, `i+1`; `mc` is `m.isconj()`, `m` are the elements of
the matrix, so that `cj mc (m a c)` is what is stored. -/
def symLMult2 (h mc : Bool) (nc i : Nat) (a b c : K) (m : Nat → Nat → K) : Nat → Nat → K :=
  let st : Nat → Nat → K := fun x y => cj mc (m x y)
  let r := if h then
      (if mc then lmult2 nc i ((RCLike.re a : ℝ) : K) ((RCLike.re b : ℝ) : K) (star c) c st
       else lmult2 nc i ((RCLike.re a : ℝ) : K) ((RCLike.re b : ℝ) : K) c (star c) st)
    else
      (if mc then lmult2 nc i (star a) (star b) (star c) (star c) st else lmult2 nc i a b c c st)
  fun x y => cj mc (r x y)

/-- `PseudoDiag_LDivEq<herm>(D,xD,m)` (TMV_SymLDLPseudo.cpp:160-217), from row `i` on; `fuel` bounds the number of iterations. -/
def pseudoLDiv (h mc : Bool) (N nc : Nat) (D xD : Nat → K) : Nat → Nat → (Nat → Nat → K) → Nat → Nat → K
  | 0, _, m => m
  | fuel+1, i, m =>
    if i < N then
      if i = N - 1 ∨ xD i = 0 then
        pseudoLDiv h mc N nc D xD fuel (i+1) (fun a c => if a = i ∧ c < nc then m a c / reH h (D i) else m a c)
      else
        let v := invert2 h (D i) (D (i+1)) (xD i)
        pseudoLDiv h mc N nc D xD fuel (i+2) (symLMult2 h mc nc i v.1 v.2.1 v.2.2.1 m)
    else m

/-- `PseudoDiag_LMultEq<herm>(D,xD,m)` (TMV_SymLDLPseudo.cpp:219-272), from row `i` on. -/
def pseudoLMult (h mc : Bool) (N nc : Nat) (D xD : Nat → K) : Nat → Nat → (Nat → Nat → K) → Nat → Nat → K
  | 0, _, m => m
  | fuel+1, i, m =>
    if i < N then
      if i = N - 1 ∨ xD i = 0 then
        pseudoLMult h mc N nc D xD fuel (i+1) (fun a c => if a = i ∧ c < nc then m a c * reH h (D i) else m a c)
      else
        pseudoLMult h mc N nc D xD fuel (i+2) (symLMult2 h mc nc i (D i) (D (i+1)) (xD i) m)
    else m

/-- `LDL_LDivEq(LL,xD,P,m)` (TMV_SymLDLDiv.cpp:96-150): `o` is the storage order of `LL`, `brm` is `m.isrm()`, `mc` is `m.isconj()`. -/
def lDivEq (nb nb2 : Nat) (o : Ord) (h brm mc : Bool) (N nc : Nat) (LL : Nat → Nat → K) (xD : Nat → K) (P : Nat → Nat)
    (m : Nat → Nat → K) : Option (Nat → Nat → K) :=
  let m := LU.permuteRows nc P N 0 m
  (Tri.lowerM nb nb2 o brm true N nc LL m).bind fun m =>
  let m := pseudoLDiv h mc N nc (fun i => LL i i) xD (N+1) 0 m
  (Tri.upperM nb nb2 (LU.Ord.tr o) brm true N nc (fun i j => cj h (LL j i)) m).bind fun m =>
  some (LU.reversePermuteRows nc P N 0 m)

/-- `LDL_RDivEq(LL,xD,P,m)` (TMV_SymLDLDiv.cpp:156-169): `m` has `nr` rows; `brm` and `mc` describe `m`, of which the adjoint or the
transpose is divided. -/
def rDivEq (nb nb2 : Nat) (o : Ord) (h bcm mc : Bool) (N nr : Nat) (LL : Nat → Nat → K) (xD : Nat → K) (P : Nat → Nat)
    (m : Nat → Nat → K) : Option (Nat → Nat → K) :=
  (lDivEq nb nb2 o h bcm (if h then !mc else mc) N nr LL xD P (fun i j => cj h (m j i))).map fun r => fun i j => cj h (r j i)

/-- `SymLDLDiv(A)` (TMV_SymLDLD.cpp:76-94): `A` are the elements of the matrix, `LLx` (`o`, `cm`: its storage) holds its lower triangle,
either in new storage (`g`: what is there before) or in that of `A`.  `xD` and `P` have no use before. -/
def make (nb nb2 bs : Nat) (o : Ord) (cm h : Bool) (N : Nat) (A g LD0 : Nat → Nat → K) (P0 : Nat → Nat) : St K :=
  decompose nb nb2 bs o cm h N (fun i j => if j ≤ i ∧ i < N then A i j else g i j) LD0 P0

/-- `SymLDLDiv::det()` (TMV_SymLDLD.cpp:117-122). -/
def det (s : St K) : K := if s.signdet = 0 then 0 else s.signdet * ((Real.exp s.logdet : ℝ) : K)

/-- `SymLDLDiv::isSingular()` (TMV_SymLDLD.cpp:167-172): `signdet == 0` or the least element of the diagonal is at most `eps` =
`TMV_Epsilon<T>()` times the greatest (so some element is at most `eps` times some element). -/
def isSingular (eps : ℝ) (N : Nat) (s : St K) : Prop :=
  let abs2 (z : K) : ℝ := |RCLike.re z| + |RCLike.im z|
  s.signdet = 0 ∨ ∃ i j, i < N ∧ j < N ∧ abs2 (s.A i i) ≤ eps * abs2 (s.A j j)

/-- The diagonal loop of `LDLt_InvertComponents<herm>(sinv,xD)` (TMV_SymLDLInverse.cpp:72-107), from row `i` on. -/
def invertDiag (h : Bool) (N : Nat) : Nat → Nat → (Nat → Nat → K) × (Nat → K) → (Nat → Nat → K) × (Nat → K)
  | 0, _, s => s
  | fuel+1, i, s =>
    if i < N then
      if i = N - 1 ∨ s.2 i = 0 then invertDiag h N fuel (i+1) (setE s.1 i i (1 / reH h (s.1 i i)), s.2)
      else
        let v := invert2 h (s.1 i i) (s.1 (i+1) (i+1)) (s.2 i)
        invertDiag h N fuel (i+2) (setE (setE s.1 i i v.1) (i+1) (i+1) v.2.1, Function.update s.2 i v.2.2.1)
    else s

/-- `LDLt_AddXtDX<herm>(sinv,X,D,xD)` (TMV_SymLDLInverse.cpp:124-176): `sinv` is `n × n`, `X` is `N × n`; `X` is read only and shares no
element with `sinv`; `bs` = `SYM_LDL_BLOCKSIZE2`; `nb`, `nb2`: the block sizes of `SymMultMM`. -/
def addXtDX (nb nb2 bs : Nat) (o : Ord) (h : Bool) (n : Nat) : Nat → Nat → (Nat → Nat → K) → (Nat → K) → (Nat → K) →
    (Nat → Nat → K) → Nat → Nat → K
  | 0, _, _, _, _, S => S
  | fuel+1, N, X, D, xD, S =>
    if N = 1 then rank1 o h h true n (D 0) (X 0) S
    else if (N = 2 ∧ xD 0 ≠ 0) ∨ N ≤ bs then
      let DX := pseudoLMult h false N n D xD (N+1) 0 X
      symMul nb nb2 (o == .rm) h true n N 1 (fun i l => cj h (X l i)) DX S
    else
      let k := if xD (N/2-1) ≠ 0 then N/2+1 else N/2
      let S := addXtDX nb nb2 bs o h n fuel k X D xD S
      addXtDX nb nb2 bs o h n fuel (N-k) (fun l => X (k+l)) (fun l => D (k+l)) (fun l => xD (k+l)) S

/-- Block sizes of the inverse: of `SymMultMM`, `SYM_LDL_BLOCKSIZE2`, of the triangular products and of the triangular inverse. -/
structure IBlk where
  nb : Nat
  nb2 : Nat
  bs : Nat
  mb : Nat
  mb2 : Nat
  ti : Nat

/-- `LDLt_CombineInverse<herm>(sinv,xDinv)` (TMV_SymLDLInverse.cpp:198-290); `o`, `crm`, `cst` describe the storage of `sinv`; fuel bounds
the recursion. -/
def combine (bk : IBlk) (o : Ord) (crm cst h : Bool) : Nat → Nat → (Nat → K) → (Nat → Nat → K) → Nat → Nat → K
  | 0, _, _, S => S
  | fuel+1, N, xD, S =>
    if N > 1 then
      if N = 2 then
        if xD 0 ≠ 0 then setE S 1 0 (xD 0)
        else
          let D11 := reH h (S 1 1)
          let X10 := S 1 0
          let temp := D11 * X10
          let S := setE S 1 0 temp
          setE S 0 0 (S 0 0 + reH h (cj h X10 * temp))
      else
        let k := if xD (N/2-1) ≠ 0 then N/2+1 else N/2
        let xD1 : Nat → K := fun i => xD (k+i)
        let S := combine bk o crm cst h fuel k xD S
        let D1 : Nat → K := fun i => S (k+i) (k+i)
        let S := addXtDX bk.nb bk.nb2 bk.bs o h k (N+1) (N-k) (sub S k 0) D1 xD1 S
        let S := paste S k 0 (N-k) k (pseudoLMult h false (N-k) k D1 xD1 (N+1) 0 (sub S k 0))
        let S := paste S k 0 (N-k) k (TriMul.upperRec bk.mb bk.mb2 (LU.Ord.tr o) false crm cst k (N+1) (N-k) true 1
          (fun i j => cj h (S (k+j) (k+i))) (sub S k 0))
        paste S k k (N-k) (N-k) (combine bk o crm cst h fuel (N-k) xD1 (sub S k k))
    else S

/-- `sinv.reversePermuteRowsCols(P)` (src/TMV_SymMatrix.cpp:519-537): `for(i=N;i>0;) { --i; swapRowsCols(i,P[i]); }`; `n` steps are left. -/
def reversePermuteRC (h : Bool) (N : Nat) (P : Nat → Nat) (S : Nat → Nat → K) : Nat → Nat → K :=
  down (fun i S => swapRC h N i (P i) S) N S

/-- `LDL_Inverse(LLx,xD,P,sinv)` for a `sinv` that is row or column major, stored in its lower triangle and not conjugated
(TMV_SymLDLInverse.cpp:335-366). -/
def inverse (bk : IBlk) (o : Ord) (crm cst h : Bool) (N : Nat) (LL : Nat → Nat → K) (xD : Nat → K) (P : Nat → Nat)
    (sinv : Nat → Nat → K) : Option (Nat → Nat → K) :=
  if N > 0 then
    let S : Nat → Nat → K := fun i j => if j ≤ i ∧ i < N then LL i j else sinv i j
    ((TriProd.triInverse bk.ti bk.mb bk.mb2 (LU.Ord.tr o) crm cst true N (TriProd.tr S)).map TriProd.tr).bind fun S =>
    let r := invertDiag h N (N+1) 0 (S, xD)
    let S := combine bk o crm cst h (N+1) N r.2 r.1
    some (reversePermuteRC h N P S)
  else some sinv

/-- `SymLDLDiv::doMakeInverse(minv)` for a matrix `minv` (TMV_SymLDLD.cpp:139-155). -/
def makeInverse (bk : IBlk) (o : Ord) (crm cst h : Bool) (N : Nat) (s : St K) (minv : Nat → Nat → K) : Option (Nat → Nat → K) :=
  let m : Nat → Nat → K := if h then (fun i j => if i = j ∧ i < N then ((RCLike.re (minv i i) : ℝ) : K) else minv i j) else minv
  (inverse bk o crm cst h N s.A s.xD s.P m).bind fun m =>
  some (if N > 1 then (fun i j => if i < j ∧ j < N then cj h (m j i) else m i j) else m)

end
end TMV.LDL
