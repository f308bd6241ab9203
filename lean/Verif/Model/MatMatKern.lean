import Verif.Model.MatArith

/-!
The small-size kernels of the matrix product `C (+)= alpha*A*B` (src/TMV_MultMM_CCC.cpp, src/TMV_MultMM_CRC.cpp,
src/TMV_MultMM_RCC.cpp), on the memory of `Model/Mem`.  Pointers are addresses; the storage letters give the storage of
A, B, C (column- or row-major).  Simplifications as in `Model/VecArith`; sequences of unrolled statements with
consecutive indices are written as loops of fixed length.
-/
namespace TMV
variable {K : Type _}

/-- `for(i=n;i;--i) { C[0] += conj?(A[0])*b00; ... C[7] += ...; A += 8; C += 8; }`
(src/TMV_MultMM_CCC.cpp:37-47). -/
def colMult8 [Star K] [Ring K] (ca : Bool) (b : K) : Nat → Int → Int → Mem K → Option (Mem K)
  | 0, _, _, m => some m
  | n+1, pA, pC, m =>
      (loop2 (fun a c => c + cj ca a * b) 1 1 8 pA pC m).bind fun m => colMult8 ca b n (pA + 8) (pC + 8) m

/-- `ColMult<ca>(M,b00,A,C)` (src/TMV_MultMM_CCC.cpp:33-66, src/TMV_MultMM_CRC.cpp:32-64). -/
def colMult [Star K] [Ring K] (ca : Bool) (M : Nat) (b : K) (pA pC : Int) (m : Mem K) : Option (Mem K) :=
  let f := fun a c => c + cj ca a * b
  (colMult8 ca b (M / 8) pA pC m).bind fun m =>
  let pA := pA + 8 * (M / 8 : Nat)
  let pC := pC + 8 * (M / 8 : Nat)
  let M := M % 8
  if M ≠ 0 then
    (if M ≥ 4 then loop2 f 1 1 4 pA pC m else some m).bind fun m =>
    let d := if M ≥ 4 then 4 else 0
    let pA := pA + (d : Nat)
    let pC := pC + (d : Nat)
    let M := M - d
    (if M ≥ 2 then loop2 f 1 1 2 pA pC m else some m).bind fun m =>
    let d := if M ≥ 2 then 2 else 0
    let pA := pA + (d : Nat)
    let pC := pC + (d : Nat)
    let M := M - d
    if M ≠ 0 then loop2 f 1 1 1 pA pC m else some m
  else some m

/-- `RecursiveCCCMultMM<ca,cb>(M,N,K,A,B,C,Ask,Bsj,Csj)` (src/TMV_MultMM_CCC.cpp:68-86) is the case `Bsk = 1`;
`RecursiveCRCMultMM<ca,cb>(M,N,K,A,B,C,Ask,Bsk,Csj)` (src/TMV_MultMM_CRC.cpp:66-84) is the case `Bsj = 1`.  The first
argument bounds the depth of the recursion; running out is `none`. -/
def recCC [Star K] [Ring K] (ca cb : Bool) (Ask Bsk Bsj Csj : Int) :
    Nat → Nat → Nat → Nat → Int → Int → Int → Mem K → Option (Mem K)
  | 0, _, _, _, _, _, _, _ => none
  | fuel+1, M, N, k, A, B, C, m =>
    if k > N then
      let K1 := k / 2
      (recCC ca cb Ask Bsk Bsj Csj fuel M N K1 A B C m).bind fun m =>
      recCC ca cb Ask Bsk Bsj Csj fuel M N (k - K1) (A + K1 * Ask) (B + K1 * Bsk) C m
    else if N > 1 then
      let N1 := N / 2
      (recCC ca cb Ask Bsk Bsj Csj fuel M N1 k A B C m).bind fun m =>
      recCC ca cb Ask Bsk Bsj Csj fuel M (N - N1) k A (B + N1 * Bsj) (C + N1 * Csj) m
    else (m.read B).bind fun b => colMult ca M (cj cb b) A C m

/-! ### RCC -/

/-- One accumulator of a kernel: `T c(0); for(k=K-1;k>=0;--k) c += conj?(A[k])*conj?(B[k]);`
(src/TMV_MultMM_RCC.cpp:37-42). -/
def dotRCC [Star K] [Ring K] (ca cb : Bool) (m : Mem K) (pA pB : Int) : Nat → K → Option K
  | 0, c => some c
  | k+1, c => (m.read (pA + k)).bind fun a => (m.read (pB + k)).bind fun b =>
      dotRCC ca cb m pA pB k (c + cj ca a * cj cb b)

/-- The accumulators `c_ij` of one loop over `k`, for the listed index pairs.  The code computes them in one common
loop; memory is only read.  `dot m a b` is the accumulator for the row at address `a` and the column at address `b`. -/
def tileDots (dot : Mem K → Int → Int → Option K) (A B Asi Bsj : Int) (m : Mem K) :
    List (Nat × Nat) → Option (List K)
  | [] => some []
  | (i, j) :: l => (dot m (A + i * Asi) (B + j * Bsj)).bind fun c =>
      (tileDots dot A B Asi Bsj m l).bind fun cs => some (c :: cs)

/-- `C[i] += c_i0; C1[i] += c_i1; ...` for the listed index pairs (src/TMV_MultMM_RCC.cpp:155-158). -/
def tileAdd [Ring K] (C Csj : Int) : List (Nat × Nat) → List K → Mem K → Option (Mem K)
  | (i, j) :: l, c :: cs, m => (m.modify (C + i + j * Csj) (· + c)).bind fun m => tileAdd C Csj l cs m
  | _, _, m => some m

/-- The index pairs of a tile, column by column. -/
def tilePairs (rows cols : List Nat) : List (Nat × Nat) := cols.flatMap fun j => rows.map fun i => (i, j)

/-- A kernel is a sequence of tiles: compute all accumulators of the tile, then add them to C. -/
def runTiles [Ring K] (dot : Mem K → Int → Int → Option K) (A B C Asi Bsj Csj : Int) :
    List (List Nat × List Nat) → Mem K → Option (Mem K)
  | [], m => some m
  | (rows, cols) :: l, m =>
      (tileDots dot A B Asi Bsj m (tilePairs rows cols)).bind fun cs =>
      (tileAdd C Csj (tilePairs rows cols) cs m).bind fun m =>
      runTiles dot A B C Asi Bsj Csj l m

/-- The tiles (rows × columns) of the kernels `RCCMultMM11` ... `RCCMultMM44`, and their choice by size
(src/TMV_MultMM_RCC.cpp:32-617, 634-672; `else` branches are size 1). -/
def rccTiles (M N : Nat) : List (List Nat × List Nat) :=
  if N = 4 then
    if M = 4 then [([0,1],[0,1]), ([2,3],[0,1]), ([2,3],[2,3]), ([0,1],[2,3])]
    else if M = 3 then [([0,1,2],[0,1]), ([0,1,2],[2,3])]
    else if M = 2 then [([0,1],[0,1]), ([0,1],[2,3])]
    else [([0],[0,1,2,3])]
  else if N = 3 then
    if M = 4 then [([0,1],[0,1,2]), ([2,3],[0,1,2])]
    else if M = 3 then [([0,1,2],[0,1,2])]
    else if M = 2 then [([0,1],[0,1,2])]
    else [([0],[0,1,2])]
  else if N = 2 then
    if M = 4 then [([0,1],[0,1]), ([2,3],[0,1])]
    else if M = 3 then [([0,1,2],[0,1])]
    else if M = 2 then [([0,1],[0,1])]
    else [([0],[0,1])]
  else
    if M = 4 then [([0,1,2,3],[0])]
    else if M = 3 then [([0,1,2],[0])]
    else if M = 2 then [([0,1],[0])]
    else [([0],[0])]

/-- `RecursiveRCCMultMM<ca,cb>(M,N,K,A,B,C,Asi,Bsj,Csj)` (src/TMV_MultMM_RCC.cpp:619-673).  The first argument bounds
the depth of the recursion; running out is `none`. -/
def recRCC [Star K] [Ring K] (ca cb : Bool) (Asi Bsj Csj : Int) :
    Nat → Nat → Nat → Nat → Int → Int → Int → Mem K → Option (Mem K)
  | 0, _, _, _, _, _, _, _ => none
  | fuel+1, M, N, k, A, B, C, m =>
    if M > N ∧ M > 4 then
      let M1 := M / 2
      (recRCC ca cb Asi Bsj Csj fuel M1 N k A B C m).bind fun m =>
      recRCC ca cb Asi Bsj Csj fuel (M - M1) N k (A + M1 * Asi) B (C + M1) m
    else if N > 4 then
      let N1 := N / 2
      (recRCC ca cb Asi Bsj Csj fuel M N1 k A B C m).bind fun m =>
      recRCC ca cb Asi Bsj Csj fuel M (N - N1) k A (B + N1 * Bsj) (C + N1 * Csj) m
    else runTiles (fun m a b => dotRCC ca cb m a b k 0) A B C Asi Bsj Csj (rccTiles M N) m

namespace MView

/-- The common frame of `DoCCCMultMM`, `DoCRCMultMM`, `DoRCCMultMM`: the product is accumulated in a zero
column-major temporary, scaled, and added or assigned to `C` (src/TMV_MultMM_CCC.cpp:111-119,
src/TMV_MultMM_CRC.cpp:108-116, src/TMV_MultMM_RCC.cpp:700-708).  `kern t m` is the call of the recursive function with
`Ct = t`. -/
def viaTemp [Star K] [Ring K] [DecidableEq K] (al : Alloc K) (add : Bool) (alpha : K) (C : MView)
    (kern : Int → Mem K → Option (Mem K)) (m : Mem K) : Option (Mem K) :=
  al.withTemp (C.cs * C.rs) (fun t m =>
    let Ct := ofStor t C.cs C.rs false
    (Ct.setAllTo 0 m).bind fun m =>
    (kern t m).bind fun m =>
    (if alpha ≠ 1 then Ct.mulX alpha m else some m).bind fun m =>
    if add then addMM al 1 Ct C m else assign al Ct C m) m

/-- `CCCMultMM<add>(alpha,A,B,C)` (src/TMV_MultMM_CCC.cpp:88-135). -/
def cccMulMM [Star K] [Ring K] [DecidableEq K] (al : Alloc K) (add : Bool) (alpha : K) (A B C : MView) :
    Mem K → Option (Mem K) :=
  viaTemp al add alpha C fun t =>
    recCC A.conj B.conj A.sj 1 B.sj C.cs (C.rs + A.rs) C.cs C.rs A.rs A.ptr B.ptr t

/-- `CRCMultMM<add>(alpha,A,B,C)` (src/TMV_MultMM_CRC.cpp:86-132). -/
def crcMulMM [Star K] [Ring K] [DecidableEq K] (al : Alloc K) (add : Bool) (alpha : K) (A B C : MView) :
    Mem K → Option (Mem K) :=
  viaTemp al add alpha C fun t =>
    recCC A.conj B.conj A.sj B.si 1 C.cs (C.rs + A.rs) C.cs C.rs A.rs A.ptr B.ptr t

/-- `RCCMultMM<add>(alpha,A,B,C)` (src/TMV_MultMM_RCC.cpp:675-727). -/
def rccMulMM [Star K] [Ring K] [DecidableEq K] (al : Alloc K) (add : Bool) (alpha : K) (A B C : MView) :
    Mem K → Option (Mem K) :=
  viaTemp al add alpha C fun t =>
    recRCC A.conj B.conj A.si B.sj C.cs (C.cs + C.rs) C.cs C.rs A.rs A.ptr B.ptr t

end MView
end TMV
