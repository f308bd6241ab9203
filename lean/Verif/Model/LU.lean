import Verif.Model.Tri
import Verif.Model.Perm

/-! LU decomposition and the divisions that use it: src/TMV_LUDecompose.cpp, src/TMV_LUDiv.cpp,
src/TMV_LUD.cpp (the code used without LAPACK).  Elements are exact field elements, `ab` is `TMV_ABS`,
`uf` is `TMV_Underflow`. -/
namespace TMV.LU
open TMV.Tri
variable {K : Type _} [Field K] [DecidableEq K] {S : Type _} [LinearOrder S] [Zero S]

/-- `v.maxAbsElement(&imax)` over `v[0..n)` (src/TMV_Vector.cpp:476-505, 799-821): first index with the largest
value; loop state `(max, imax)`. The model of the function on memory is `VView.maxAbs`. -/
def maxAbsLoop (ab : K → S) (v : Nat → K) : Nat → Nat → S × Nat → S × Nat
  | 0, _, cur => cur
  | n+1, i, cur => maxAbsLoop ab v n (i+1) (if ab (v i) > cur.1 then (ab (v i), i) else cur)

def maxAbs (ab : K → S) (v : Nat → K) (n : Nat) : S × Nat := maxAbsLoop ab v n 0 (0, 0)

/-- `A.swapRows(i1,i2)` on a view with `n` columns (include/tmv/TMV_Matrix.h; swap of two rows). -/
def swapRows (n : Nat) (A : Nat → Nat → K) (i1 i2 : Nat) : Nat → Nat → K :=
  fun a b => if b < n then (if a = i1 then A i2 b else if a = i2 then A i1 b else A a b) else A a b

/-- `A.permuteRows(p,i1,i1+n)` on a view with `nc` columns: `for(i=i1;i<i2;++i) swapRows(i,p[i])`
(src/TMV_Matrix.cpp, permuteRows; the column blocking does not matter, see C19). -/
def permuteRows (nc : Nat) (p : Nat → Nat) : Nat → Nat → (Nat → Nat → K) → (Nat → Nat → K)
  | 0, _, A => A
  | n+1, i, A => permuteRows nc p n (i+1) (swapRows nc A i (p i))

/-- `A.reversePermuteRows(p,i1,i1+n)`: `for(i=i2;i>i1;) { --i; swapRows(i,p[i]); }`. -/
def reversePermuteRows (nc : Nat) (p : Nat → Nat) : Nat → Nat → (Nat → Nat → K) → (Nat → Nat → K)
  | 0, _, A => A
  | n+1, i, A => swapRows nc (reversePermuteRows nc p n (i+1) A) i (p i)

/-- First part of the column loop body of `NonBlockLUDecompose` (TMV_LUDecompose.cpp:148-157):
`A.col(j,0,j) /= A.subMatrix(0,j,0,j).lowerTri(UnitDiag); A.col(j,j,M) -= A.subMatrix(j,M,0,j)*A.col(j,0,j)`. -/
def colUpdate (M j : Nat) (A : Nat → Nat → K) : Option (Nat → Nat → K) :=
  if j > 0 then (lowerV .cm true j A (fun i => A i j)).map fun u =>
    let A := fun a b => if b = j ∧ a < j then u a else A a b
    fun a b => if b = j ∧ j ≤ a ∧ a < M then A a j - ∑ k ∈ Finset.range j, A a k * A k j else A a b
  else some A

/-- Rest of the loop body: pivot search, underflow check, row swap, division (TMV_LUDecompose.cpp:159-188). -/
def pivotCol (ab : K → S) (uf : S → Bool) (M N j : Nat) (A : Nat → Nat → K) (P : Nat → Nat) :
    (Nat → Nat → K) × (Nat → Nat) :=
  let piv := (maxAbs ab (fun i => A (j+i) j) (M-j)).1
  let ip := (maxAbs ab (fun i => A (j+i) j) (M-j)).2
  if uf piv then
    ((fun a b => if b = j ∧ j ≤ a ∧ a < M then 0 else A a b), Function.update P j j)
  else
    let A := if ip ≠ 0 then swapRows N A (ip + j) j else A
    let P := Function.update P j (if ip ≠ 0 then ip + j else j)
    ((if A j j ≠ 0 then fun a b => if b = j ∧ j < a ∧ a < M then A a j / A j j else A a b else A), P)

/-- One iteration of the column loop of `NonBlockLUDecompose` (TMV_LUDecompose.cpp:145-189). -/
def nonBlockStep (ab : K → S) (uf : S → Bool) (M N j : Nat) (s : (Nat → Nat → K) × (Nat → Nat)) :
    Option ((Nat → Nat → K) × (Nat → Nat)) :=
  (colUpdate M j s.1).map fun A => pivotCol ab uf M N j A s.2

/-- `NonBlockLUDecompose` (TMV_LUDecompose.cpp:60-215). -/
def nonBlock (ab : K → S) (uf : S → Bool) (nb nb2 M N : Nat) (A : Nat → Nat → K) (P : Nat → Nat) :
    Option ((Nat → Nat → K) × (Nat → Nat)) :=
  (forRange (nonBlockStep ab uf M N) (min N M) 0 (A, P)).bind fun s =>
    if N > M then
      (lowerM nb nb2 .cm false true M (N-M) s.1 (sub s.1 0 M)).map fun X => (paste s.1 0 M M (N-M) X, s.2)
    else some s

/-- The loop of the `R==2` branch (TMV_LUDecompose.cpp:302-318): `*Ai0 *= invA00; *Ai1 -= *Ai0*A01;` and the
search for the next pivot.  State `(A, piv, ip1)`. -/
def two1 (ab : K → S) (inv a01 : K) (i : Nat) (s : (Nat → Nat → K) × S × Nat) : (Nat → Nat → K) × S × Nat :=
  let A := setE s.1 i 0 (s.1 i 0 * inv)
  let A := setE A i 1 (A i 1 - A i 0 * a01)
  if ab (A i 1) > s.2.1 then (A, ab (A i 1), i) else (A, s.2)

/-- `R == 2`: first pivot search and underflow check (TMV_LUDecompose.cpp:280-292): `(A, piv, ip0)`. -/
def twoA (ab : K → S) (uf : S → Bool) (M : Nat) (A : Nat → Nat → K) : (Nat → Nat → K) × S × Nat :=
  let m := maxAbs ab (fun i => A i 0) M
  if uf m.1 then ((fun a b => if b = 0 ∧ a < M then 0 else A a b), 0, 0) else (A, m.1, m.2)

/-- `R == 2`: elimination with the first pivot, search for the second (TMV_LUDecompose.cpp:294-325). -/
def twoB (ab : K → S) (M : Nat) (s : (Nat → Nat → K) × S × Nat) : Option ((Nat → Nat → K) × S × Nat) :=
  if s.2.1 ≠ 0 then
    let A := if s.2.2 ≠ 0 then swapRows 2 s.1 s.2.2 0 else s.1
    forRange (fun i t => some (two1 ab (A 0 0)⁻¹ (A 0 1) i t)) (M-1) 1 (A, 0, 1)
  else
    let m := maxAbs ab (fun i => s.1 (1+i) 1) (M-1)
    some (s.1, m.1, m.2+1)

/-- `R == 2`: second underflow check (TMV_LUDecompose.cpp:327-333) and division (335-347). -/
def twoC (uf : S → Bool) (M : Nat) (s : (Nat → Nat → K) × S × Nat) : (Nat → Nat → K) × Nat :=
  let s := if uf s.2.1 then ((fun a b => if b = 1 ∧ 1 ≤ a ∧ a < M then 0 else s.1 a b), (0 : S), 1) else s
  if s.2.1 ≠ 0 ∧ M > 2 then
    let A := if s.2.2 ≠ 1 then swapRows 2 s.1 s.2.2 1 else s.1
    ((fun a b => if b = 1 ∧ 2 ≤ a ∧ a < M then A a 1 / A 1 1 else A a b), s.2.2)
  else (s.1, s.2.2)

/-- `R == 2`: the columns right of the square for a wide matrix (TMV_LUDecompose.cpp:349-356). -/
def twoD (N ip0 : Nat) (A : Nat → Nat → K) : Nat → Nat → K :=
  if N > 2 then
    let A := if ip0 = 1 then
        fun a b => if 2 ≤ b ∧ b < N then (if a = 0 then A 1 b else if a = 1 then A 0 b else A a b) else A a b
      else A
    fun a b => if a = 1 ∧ 2 ≤ b ∧ b < N then A 1 b - A 0 1 * A 0 b else A a b
  else A

/-- The `R == 2` branch of `RecursiveLUDecompose` (TMV_LUDecompose.cpp:274-358). -/
def two (ab : K → S) (uf : S → Bool) (M N : Nat) (A : Nat → Nat → K) :
    Option ((Nat → Nat → K) × (Nat → Nat)) :=
  (twoB ab M (twoA ab uf M A)).map fun s =>
    let ip0 := (twoA ab uf M A).2.2
    (twoD N ip0 (twoC uf M s).1, fun k => if k = 0 then ip0 else (twoC uf M s).2)

/-- The `R == 1` branch (TMV_LUDecompose.cpp:359-383). -/
def one (ab : K → S) (uf : S → Bool) (M : Nat) (A : Nat → Nat → K) : (Nat → Nat → K) × (Nat → Nat) :=
  let (piv, p) := maxAbs ab (fun i => A i 0) M
  let (A, piv, p) :=
    if uf piv then ((fun a b => if b = 0 ∧ a < M then 0 else A a b), 0, 0) else (A, piv, p)
  if piv ≠ 0 then
    let A := if p ≠ 0 then swapRows 1 A p 0 else A
    ((fun a b => if b = 0 ∧ 1 ≤ a ∧ a < M then A a 0 / A 0 0 else A a b), fun _ => p)
  else (A, fun _ => p)

/-- Block sizes: `LU_BLOCKSIZE(2)` and `TRI_DIV_BLOCKSIZE(2)` (TMV_LUDecompose.cpp:47-53,
TMV_TriDiv_M.cpp:46-52), all positive (64, 2, 64, 32 by default). -/
structure Blk where
  lu : Nat
  lu2 : Nat
  tri : Nat
  tri2 : Nat

/-- `RecursiveLUDecompose` (TMV_LUDecompose.cpp:217-407), `A` column major; fuel bounds the depth. Returns the
new elements and `P[0..R)` (relative to the view). -/
def recursive (ab : K → S) (uf : S → Bool) (bs : Blk) :
    Nat → Nat → Nat → (Nat → Nat → K) → Option ((Nat → Nat → K) × (Nat → Nat))
  | 0, _, _, _ => none
  | fuel+1, M, N, A =>
    let R := min N M
    if R > bs.lu2 then
      let N1 := splitAt bs.lu R
      (recursive ab uf bs fuel M N1 A).bind fun s0 =>
      -- A1.permuteRows(P,0,N1)
      let A1 := permuteRows (N-N1) s0.2 N1 0 (sub A 0 N1)
      -- A01 /= A00.lowerTri(UnitDiag)
      (lowerM bs.tri bs.tri2 .cm false true N1 (N-N1) s0.1 A1).bind fun A01 =>
      -- A11 -= A10*A01
      (recursive ab uf bs fuel (M-N1) (N-N1)
        (subMul (M-N1) (N-N1) N1 (sub s0.1 N1 0) A01 (sub A1 N1 0))).map fun s1 =>
      -- P[i] += N1 for i in [N1,R)
      let P := fun k => if k < N1 then s0.2 k else s1.2 (k-N1) + N1
      -- A0.permuteRows(P,N1,R)
      let A0 := permuteRows N1 P (R-N1) N1 s0.1
      (paste (paste (paste A 0 0 M N1 A0) 0 N1 N1 (N-N1) A01) N1 N1 (M-N1) (N-N1) s1.1, P)
    else if bs.lu2 > 2 ∧ R > 2 then nonBlock ab uf bs.tri bs.tri2 M N A (fun _ => 0)
    else if R = 2 then two ab uf M N A
    else if R = 1 then some (one ab uf M A)
    else some (A, fun _ => 0)

/-- Storage of the view passed to `LU_Decompose`: column major, row major, neither. -/
inductive Store | cm | rm | no

/-- `LU_Decompose(A,P)` (TMV_LUDecompose.cpp:514-558).  For a row-major (square) matrix `A.transposeSelf()`
followed by the transposed view leaves the element function unchanged, so this case is
`transpose; decompose the column-major view; transpose`; written out to show the element order.
Conjugation of the whole decomposition is a field automorphism and is not modelled. -/
def decompose (ab : K → S) (uf : S → Bool) (bs : Blk) (st : Store) (M N : Nat) (A : Nat → Nat → K) :
    Option ((Nat → Nat → K) × (Nat → Nat)) :=
  match st with
  | .cm => if M > 0 ∧ N > 0 then recursive ab uf bs (min N M + 1) M N A else some (A, fun _ => 0)
  | .rm =>
      -- after A.transposeSelf() the storage holds the transpose; A.transpose() views it as A again
      let stored := fun i j => A j i
      let viewed := fun i j => stored j i
      (if M > 0 ∧ N > 0 then recursive ab uf bs (min N M + 1) M N viewed else some (viewed, fun _ => 0)).map
        fun s => let stored := fun i j => s.1 j i   -- what A.view() shows now
                 ((fun i j => stored j i), s.2)     -- and after the second transposeSelf()
  | .no => if M > 0 ∧ N > 0 then recursive ab uf bs (min N M + 1) M N A else some (A, fun _ => 0)

/-- `LU_LDivEq` (TMV_LUDiv.cpp:46-55, 186-230): `m.permuteRows(P); m /= L; m /= U`. -/
def lDivEq (bs : Blk) (o : Ord) (brm : Bool) (N nc : Nat) (LUx : Nat → Nat → K) (P : Nat → Nat)
    (m : Nat → Nat → K) : Option (Nat → Nat → K) := do
  let m := permuteRows nc P N 0 m
  let m ← lowerM bs.tri bs.tri2 o brm true N nc LUx m
  upperM bs.tri bs.tri2 o brm false N nc LUx m

/-- The transposed storage order. -/
def Ord.tr : Ord → Ord
  | .rm => .cm
  | .cm => .rm
  | .no => .no

/-- `LU_RDivEq` (TMV_LUDiv.cpp:236-246, 356-400) on the transpose of `m`: `m %= U; m %= L;
m.reversePermuteCols(P)`, where `m %= X` is `m.transpose() /= X.transpose()`; `mt` is `m.transpose()`. -/
def rDivEq (bs : Blk) (o : Ord) (brm : Bool) (N nc : Nat) (LUx : Nat → Nat → K) (P : Nat → Nat)
    (mt : Nat → Nat → K) : Option (Nat → Nat → K) := do
  let mt ← lowerM bs.tri bs.tri2 (Ord.tr o) brm false N nc (fun i j => LUx j i) mt
  let mt ← upperM bs.tri bs.tri2 (Ord.tr o) brm true N nc (fun i j => LUx j i) mt
  some (reversePermuteRows nc P N 0 mt)

end TMV.LU
