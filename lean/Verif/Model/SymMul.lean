import Verif.Model.TriMM
import Verif.Model.LU
import Verif.Model.SymRK

/-! Symmetric (Hermitian) matrix times vector and matrix: TMV_MultSV.cpp, TMV_MultSM.cpp without BLAS.

`L` holds the stored lower triangle (an upper one is transposed or adjoined first, a conjugated destination is handled by conjugating all
operands), `h` = `isherm()`, `o` the storage order.  Exact real or complex elements of one type. -/
namespace TMV.SymMul
open Tri (Ord splitAt sub paste trimLo trimHi)
noncomputable section
open Classical

variable {K : Type} [RCLike K]

/-- The element `A(i,j)` (C66: the views `row`, `col`, `subMatrix`, `subSymMatrix` show these). -/
def el (h : Bool) (L : Nat → Nat → K) (i j : Nat) : K := if j ≤ i then L i j else cj h (L j i)

/-- `MultMV<add>(1,A',x,y)` for a full matrix (C71): rows `0…m-1`, `n` columns. -/
def gemv (add : Bool) (m n : Nat) (A : Nat → Nat → K) (x y : Nat → K) : Nat → K :=
  fun i => if i < m then SymRK.put add (y i) (∑ k ∈ Finset.range n, A i k * x k) else y i

/-- `DoUnitAMultMV<add>` (TMV_MultSV.cpp:73-84): the lower triangle, then the strict upper one. -/
def unit0 (o : Ord) (h add : Bool) (N : Nat) (L : Nat → Nat → K) (x y : Nat → K) : Nat → K :=
  let y := TriMul.mulV add true (TriMul.lowerV o false false N L) 1 N x y
  if N > 1 then
    TriMul.mulV true true (TriMul.upperV (LU.Ord.tr o) false (N-1) (fun i j => el h L i (1+j))) 1 (N-1) (fun i => x (1+i)) y
  else y

/-- The vector after an operation through the sub-vector of `n` elements at `lo` left `z` there. -/
def pasteV (lo n : Nat) (z y : Nat → K) : Nat → K := fun i => if lo ≤ i ∧ i < lo + n then z (i-lo) else y i

/-- `UnitAMultMV<add>` (TMV_MultSV.cpp:86-117): zeros at both ends of `x` are skipped. -/
def unitMul (o : Ord) (h add : Bool) (N : Nat) (L : Nat → Nat → K) (x y : Nat → K) : Nat → K :=
  let j2 := trimHi x N
  if j2 = 0 then (if add then y else fun i => if i < N then 0 else y i)
  else
    let j1 := trimLo x N 0
    if j1 = 0 ∧ j2 = N then unit0 o h add N L x y
    else
      let xs : Nat → K := fun i => x (j1+i)
      let y := if j1 > 0 then gemv add j1 (j2-j1) (fun i k => el h L i (j1+k)) xs y else y
      let y := pasteV j1 (j2-j1) (unit0 o h add (j2-j1) (sub L j1 j1) xs (fun i => y (j1+i))) y
      if j2 < N then pasteV j2 (N-j2) (gemv add (N-j2) (j2-j1) (fun i k => el h L (j2+i) (j1+k)) xs (fun i => y (j2+i))) y else y

/-- `NonBlasMultMV<add>` (TMV_MultSV.cpp:119-172); `xs`, `ys`: the steps are 1; `g` is what a new vector holds. -/
def nonBlasV (o : Ord) (h add xs ys : Bool) (N : Nat) (L : Nat → Nat → K) (α : K) (g x y : Nat → K) : Nat → K :=
  let addTo (β : K) (yy : Nat → K) : Nat → K := fun i => if i < N then SymRK.put add (y i) (β * yy i) else y i
  if !xs then
    let xx : Nat → K := fun i => α * x i
    if !ys then addTo 1 (unitMul o h false N L xx g) else unitMul o h add N L xx y
  else if !ys ∨ α ≠ 1 then addTo α (unitMul o h false N L x g)
  else unitMul o h add N L x y

/-- `MultMV<add>(alpha,A,x,y)` (TMV_MultSV.cpp:620-667), `ss` = `SameStorage(x,y)`; `x` are the elements before the call. -/
def mulV (o : Ord) (h add xs ys ss : Bool) (N : Nat) (L : Nat → Nat → K) (α : K) (g x y : Nat → K) : Nat → K :=
  if N > 0 then
    if α = 0 then (if add then y else fun i => if i < N then 0 else y i)
    else if ss then
      let yy := nonBlasV o h false xs true N L 1 g x g
      fun i => if i < N then SymRK.put add (y i) (α * yy i) else y i
    else nonBlasV o h add xs ys N L α g x y
  else y

/-- `RRowMultMM<add>` (TMV_MultSM.cpp:58-79). -/
def rrow (h add : Bool) (α : K) (N nc : Nat) (L B C : Nat → Nat → K) : Nat → Nat → K :=
  up (fun j C =>
    let C : Nat → Nat → K := fun a c => if a = j ∧ c < nc then SymRK.put add (C a c) (α * ∑ k ∈ Finset.range (j+1), el h L j k * B k c) else C a c
    fun a c => if a < j ∧ c < nc then C a c + α * el h L a j * B j c else C a c) N 0 C

/-- `CRowMultMM<add>` (TMV_MultSM.cpp:81-102). -/
def crow (h add : Bool) (α : K) (N nc : Nat) (L B C : Nat → Nat → K) : Nat → Nat → K :=
  down (fun j C =>
    let C : Nat → Nat → K := fun a c => if a = j ∧ c < nc then
      SymRK.put add (C a c) (α * ∑ k ∈ Finset.range (N-j), el h L j (j+k) * B (j+k) c) else C a c
    fun a c => if j+1 ≤ a ∧ a < N ∧ c < nc then C a c + α * el h L a j * B j c else C a c) N C

/-- `ColMultMM<add>` (TMV_MultSM.cpp:113-132): `C.col(j) (+)= alpha * A * B.col(j)`. -/
def colM (o : Ord) (h add xs ys : Bool) (α : K) (g : Nat → K) (N nc : Nat) (L B C : Nat → Nat → K) : Nat → Nat → K :=
  up (fun j C => fun a c => if c = j ∧ a < N then mulV o h add xs ys false N L α g (fun i => B i j) (fun i => C i j) a else C a c) nc 0 C

/-- Storage of `B` and `C`: `isrm()`, `iscm()`. -/
structure Lay where
  brm : Bool
  bcm : Bool
  crm : Bool
  ccm : Bool

/-- `RecursiveMultMM<add>` (TMV_MultSM.cpp:134-179); fuel bounds the recursion. -/
def recM (nb nb2 : Nat) (o : Ord) (ly : Lay) (h add : Bool) (α : K) (g : Nat → K) (nc : Nat) :
    Nat → Nat → (Nat → Nat → K) → (Nat → Nat → K) → (Nat → Nat → K) → Nat → Nat → K
  | 0, _, _, _, C => C
  | fuel+1, N, L, B, C =>
    if N ≤ nb2 then
      let row := if o = .cm then crow h add α N nc L B C else rrow h add α N nc L B C
      let col := colM o h add ly.bcm ly.ccm α g N nc L B C
      if ly.brm ∧ ly.crm then row
      else if ly.bcm ∧ ly.ccm then col
      else if N < nc then row
      else col
    else
      let k := splitAt nb N
      let C := paste C 0 0 k nc (recM nb nb2 o ly h add α g nc fuel k L B C)
      let C := paste C k 0 (N-k) nc (recM nb nb2 o ly h add α g nc fuel (N-k) (sub L k k) (sub B k 0) (sub C k 0))
      let C := paste C k 0 (N-k) nc (TriMul.addMul α (N-k) nc k (sub L k 0) B (sub C k 0))
      TriMul.addMul α k nc (N-k) (fun i l => cj h (L (k+l) i)) (sub B k 0) C

/-- `FullTempMultMM<add>` (TMV_MultSM.cpp:531-547): `D n B C` is `DoMultMM<false>(1,A,B,C)` with `n` columns, `G` the new matrix. -/
def fullTemp (add : Bool) (D : Nat → (Nat → Nat → K) → (Nat → Nat → K) → Nat → Nat → K) (α : K) (N nc : Nat) (G B C : Nat → Nat → K) :
    Nat → Nat → K :=
  let C2 := D nc B G
  fun i c => if i < N ∧ c < nc then SymRK.put add (C i c) (α * C2 i c) else C i c

/-- `BlockTempMultMM<add>` (TMV_MultSM.cpp:549-576) when `B` is `C` or its conjugate: `B` = `φ(C)`. -/
def blockTemp (D : Nat → (Nat → Nat → K) → (Nat → Nat → K) → Nat → Nat → K) (φ : K → K) (α : K) (bs N nc : Nat) :
    Nat → Nat → (Nat → Nat → K) → Nat → Nat → K
  | 0, _, C => C
  | fuel+1, j, C =>
    if j < nc then
      let j2 := min nc (j+bs)
      let R := D (j2-j) (fun i c => α * φ (C i (j+c))) (sub C 0 j)
      blockTemp D φ α bs N nc fuel j2 (paste C 0 j N (j2-j) R)
    else C

/-- `MultMM<add>(alpha,A,B,C)` (TMV_MultSM.cpp:578-628; `NonBlasMultMM` 181-201).  `B` are the elements of the second operand before the
call; if it is `C` itself (`bc` and `st`) these are `φ(C)`.  `ct` is the layout of the temporaries. -/
def mulM (nb nb2 : Nat) (o : Ord) (ly ct : Lay) (al : TriMul.Alias) (φ : K → K) (h add : Bool) (α : K) (g : Nat → K) (N nc : Nat)
    (L G B C : Nat → Nat → K) : Nat → Nat → K :=
  if N > 0 ∧ nc > 0 then
    if α = 0 then (if add then C else fun i c => if i < N ∧ c < nc then 0 else C i c)
    else if al.ac then fullTemp add (fun n B C => recM nb nb2 o ct h false 1 g n (N+1) N L B C) α N nc G B C
    else if al.bc then
      if al.st then blockTemp (fun n B C => recM nb nb2 o ct h add 1 g n (N+1) N L B C) φ α nb N nc (nc+1) 0 C
      else fullTemp add (fun n B C => recM nb nb2 o ct h false 1 g n (N+1) N L B C) α N nc G B C
    else recM nb nb2 o ly h add α g nc (N+1) N L B C
  else C

/-- `BlockTempMultMM<add>` for two symmetric matrices (TMV_MultSM.cpp:630-676): the columns `j … j2-1` of `B` are copied in three parts. -/
def blockTempSS (D : Nat → (Nat → Nat → K) → (Nat → Nat → K) → Nat → Nat → K) (hb : Bool) (α : K) (bs N : Nat) (LB G : Nat → Nat → K) :
    Nat → Nat → (Nat → Nat → K) → Nat → Nat → K
  | 0, _, C => C
  | fuel+1, j, C =>
    if j < N then
      let j2 := min N (j+bs)
      let B2 : Nat → Nat → K := fun i c =>
        if i < j then α * el hb LB i (j+c)
        else if i < j2 then α * el hb (sub LB j j) (i-j) c
        else if i < N then α * el hb LB i (j+c)
        else G i c
      blockTempSS D hb α bs N LB G fuel j2 (paste C 0 j N (j2-j) (D (j2-j) B2 (sub C 0 j)))
    else C

/-- `MultMM<add>(alpha,A,B,C)`, `A` and `B` symmetric or Hermitian (TMV_MultSM.cpp:696-738); `ss` = `SameStorage(A,C) || SameStorage(B,C)`. -/
def mulSS (nb nb2 : Nat) (o : Ord) (ly ct : Lay) (ss h hb add : Bool) (α : K) (g : Nat → K) (N : Nat) (L LB G C : Nat → Nat → K) :
    Nat → Nat → K :=
  if N > 0 then
    if ss then
      let C2 := blockTempSS (fun n B C => recM nb nb2 o ct h false 1 g n (N+1) N L B C) hb 1 nb N LB G (N+1) 0 G
      fun i c => if i < N ∧ c < N then SymRK.put add (C i c) (α * C2 i c) else C i c
    else blockTempSS (fun n B C => recM nb nb2 o ly h add 1 g n (N+1) N L B C) hb α nb N LB G (N+1) 0 C
  else C

end
end TMV.SymMul
