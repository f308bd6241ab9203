import Verif.Model.Fun
import Mathlib.Algebra.Field.Basic
import Mathlib.Algebra.BigOperators.Group.Finset.Basic

/-! Triangular solves: src/TMV_TriDiv_V.cpp, src/TMV_TriDiv_M.cpp (the code used without BLAS).

A triangular matrix is given by the element function of the storage it lives in; only the named triangle
(and the diagonal, unless `ua`) is read.  Elements are exact field elements; the conj flag of the view is
already applied to the element function (`TMV_CONJ(x)==0` iff `x==0`).  `none` = `SingularUpperTriMatrix` /
`SingularLowerTriMatrix` was thrown.  Vectors are element functions. -/
namespace TMV.Tri
variable {K : Type _} [Field K] [DecidableEq K]

/-- `if (*Aii==0) throw Singular…; x = TMV_Divide(x,*Aii)` (TMV_TriDiv_V.cpp:84-98 and the other uses). -/
def divBy (x d : K) : Option K := if d = 0 then none else some (x / d)

/-- The inner row loop `*bi -= (*bj) * (*Aij)` for `j = lo … lo+n-1` (TMV_TriDiv_V.cpp:108-117, 268-277). -/
def subRow (A : Nat → Nat → K) (i lo n : Nat) (b : Nat → K) : Option (Nat → K) :=
  forRange (fun j b => some (Function.update b i (b i - b j * A i j))) n lo b

/-- The inner column loop `*bi -= *bj * (*Aij)` for `i = lo … lo+n-1` (TMV_TriDiv_V.cpp:190-199, 346-355). -/
def subCol (A : Nat → Nat → K) (j lo n : Nat) (b : Nat → K) : Option (Nat → K) :=
  forRange (fun i b => some (Function.update b i (b i - b j * A i j))) n lo b

/-- Divide `b[i]` by the diagonal element, unless the diagonal is implicit. -/
def diagDiv (ua : Bool) (A : Nat → Nat → K) (i : Nat) (b : Nat → K) : Option (Nat → K) :=
  if ua then some b else (divBy (b i) (A i i)).map (Function.update b i)

/-- `DoRowTriLDivEq` for an upper triangle matrix (TMV_TriDiv_V.cpp:59-133); `N > 0`. -/
def rowUpper (ua : Bool) (N : Nat) (A : Nat → Nat → K) (b : Nat → K) : Option (Nat → K) := do
  let b ← diagDiv ua A (N-1) b
  if N = 1 then some b
  else forDown (fun r b => (subRow A r (r+1) (N-1-r) b).bind (diagDiv ua A r)) (N-1) b

/-- `DoColTriLDivEq` for an upper triangle matrix (TMV_TriDiv_V.cpp:152-222). -/
def colUpper (ua : Bool) (N : Nat) (A : Nat → Nat → K) (b : Nat → K) : Option (Nat → K) := do
  let b ← forDown (fun r b =>
    if b (r+1) ≠ 0 then (diagDiv ua A (r+1) b).bind (subCol A (r+1) 0 (r+1)) else some b) (N-1) b
  if ¬ ua ∧ b 0 ≠ 0 then diagDiv ua A 0 b else some b

/-- `DoRowTriLDivEq` for a lower triangle matrix (TMV_TriDiv_V.cpp:241-300). -/
def rowLower (ua : Bool) (N : Nat) (A : Nat → Nat → K) (b : Nat → K) : Option (Nat → K) := do
  let b ← diagDiv ua A 0 b
  forRange (fun i b => (subRow A i 0 i b).bind (diagDiv ua A i)) (N-1) 1 b

/-- `DoColTriLDivEq` for a lower triangle matrix (TMV_TriDiv_V.cpp:319-378). -/
def colLower (ua : Bool) (N : Nat) (A : Nat → Nat → K) (b : Nat → K) : Option (Nat → K) := do
  let b ← forRange (fun j b =>
    if b j ≠ 0 then (diagDiv ua A j b).bind (subCol A j (j+1) (N-1-j)) else some b) (N-1) 0 b
  if ¬ ua ∧ b (N-1) ≠ 0 then diagDiv ua A (N-1) b else some b

/-- Storage order of the triangle matrix: row major, column major, neither. -/
inductive Ord | rm | cm | no
deriving DecidableEq

/-- `DoTriLDivEq` (TMV_TriDiv_V.cpp:397-417), upper. -/
def doUpper (o : Ord) (ua : Bool) (N : Nat) (A : Nat → Nat → K) (b : Nat → K) : Option (Nat → K) :=
  match o with
  | .rm => rowUpper ua N A b
  | .cm => colUpper ua N A b
  | .no => rowUpper ua N A b

/-- `DoTriLDivEq` (TMV_TriDiv_V.cpp:397-417), lower. -/
def doLower (o : Ord) (ua : Bool) (N : Nat) (A : Nat → Nat → K) (b : Nat → K) : Option (Nat → K) :=
  match o with
  | .rm => rowLower ua N A b
  | .cm => colLower ua N A b
  | .no => rowLower ua N A b

/-- `for(b2 = b+i2-1; i2>0 && *b2==0; --i2,--b2);` (TMV_TriDiv_V.cpp:429-430): the new `i2`. -/
def trimHi (b : Nat → K) : Nat → Nat
  | 0 => 0
  | n+1 => if b n = 0 then trimHi b n else n+1

/-- `for(b1 = b; i1<N && *b1==0; ++i1,++b1);` (TMV_TriDiv_V.cpp:450-451): the new `i1`; fuel `N - i1`. -/
def trimLo (b : Nat → K) : Nat → Nat → Nat
  | 0, i1 => i1
  | n+1, i1 => if b i1 = 0 then trimLo b n (i1+1) else i1

/-- `TriLDivEq(U,b)` = `NonBlasTriLDivEq` (TMV_TriDiv_V.cpp:419-438, 757-806): `b /= U`.  Simplification: a
vector with step ≠ 1 or a conj flag is copied/conjugated first, which does not change its element function. -/
def upperV (o : Ord) (ua : Bool) (N : Nat) (A : Nat → Nat → K) (b : Nat → K) : Option (Nat → K) :=
  if N = 0 then some b
  else
    let i2 := trimHi b N
    if i2 = 0 then some b else doUpper o ua i2 A b

/-- `TriLDivEq(L,b)` (TMV_TriDiv_V.cpp:440-460, 808-845): `b /= L`. The views `A.subTriMatrix(i1,N)` and
`b.subVector(i1,N)` are the shifted element functions. -/
def lowerV (o : Ord) (ua : Bool) (N : Nat) (A : Nat → Nat → K) (b : Nat → K) : Option (Nat → K) :=
  if N = 0 then some b
  else
    let i1 := trimLo b N 0
    if i1 = N then some b
    else (doLower o ua (N-i1) (fun i j => A (i1+i) (i1+j)) (fun i => b (i1+i))).map
      (fun c i => if i < i1 then b i else c (i-i1))

/-- `B.row(i) -= A.row(i,lo,lo+n) * B.rowRange(lo,lo+n)` with `nc` columns (TMV_TriDiv_M.cpp:71, 78, 137, 143). -/
def subRowM (A : Nat → Nat → K) (i lo n nc : Nat) (B : Nat → Nat → K) : Nat → Nat → K :=
  fun a c => if a = i ∧ c < nc then B i c - ∑ k ∈ Finset.range n, A i (lo+k) * B (lo+k) c else B a c

/-- `B.rowRange(lo,lo+n) -= A.col(j,lo,lo+n) ^ B.row(j)` (outer product; TMV_TriDiv_M.cpp:104, 119, 170, 185). -/
def subOuterM (A : Nat → Nat → K) (j lo n nc : Nat) (B : Nat → Nat → K) : Nat → Nat → K :=
  fun a c => if lo ≤ a ∧ a < lo+n ∧ c < nc then B a c - A a j * B j c else B a c

/-- `if (*Aii==0) throw …; B.row(i) /= *Aii` unless the diagonal is implicit (TMV_TriDiv_M.cpp:79-87). -/
def diagDivM (ua : Bool) (A : Nat → Nat → K) (i nc : Nat) (B : Nat → Nat → K) : Option (Nat → Nat → K) :=
  if ua then some B
  else if A i i = 0 then none
  else some (fun a c => if a = i ∧ c < nc then B a c / A i i else B a c)

/-- `RowTriLDivEq` (TMV_TriDiv_M.cpp:58-89), upper. -/
def rowUpperM (ua : Bool) (N nc : Nat) (A B : Nat → Nat → K) : Option (Nat → Nat → K) :=
  forDown (fun i B => diagDivM ua A i nc (subRowM A i (i+1) (N-1-i) nc B)) N B

/-- `ColTriLDivEq` (TMV_TriDiv_M.cpp:91-122), upper; the unit version omits the (empty) last update. -/
def colUpperM (ua : Bool) (N nc : Nat) (A B : Nat → Nat → K) : Option (Nat → Nat → K) :=
  if ua then forDown (fun r B => some (subOuterM A (r+1) 0 (r+1) nc B)) (N-1) B
  else forDown (fun j B => (diagDivM ua A j nc B).map (subOuterM A j 0 j nc)) N B

/-- `RowTriLDivEq` (TMV_TriDiv_M.cpp:124-155), lower. -/
def rowLowerM (ua : Bool) (N nc : Nat) (A B : Nat → Nat → K) : Option (Nat → Nat → K) :=
  forRange (fun i B => diagDivM ua A i nc (subRowM A i 0 i nc B)) N 0 B

/-- `ColTriLDivEq` (TMV_TriDiv_M.cpp:157-188), lower. -/
def colLowerM (ua : Bool) (N nc : Nat) (A B : Nat → Nat → K) : Option (Nat → Nat → K) :=
  forRange (fun j B => (diagDivM ua A j nc B).map (subOuterM A j (j+1) (N-1-j) nc)) N 0 B

/-- `for(j=0;j<K;++j) TriLDivEq(A,B.col(j))` (TMV_TriDiv_M.cpp:210-211, 249-250), `f` the vector solver. -/
def colsM (f : (Nat → K) → Option (Nat → K)) (N nc : Nat) (B : Nat → Nat → K) : Option (Nat → Nat → K) :=
  forRange (fun j B => (f (fun i => B i j)).map
    (fun x a c => if c = j ∧ a < N then x a else B a c)) nc 0 B

/-- A view `A.subMatrix(r,…,c,…)` as an element function. -/
def sub (A : Nat → Nat → K) (r c : Nat) : Nat → Nat → K := fun i j => A (r+i) (c+j)

/-- The parent after an operation through the `m`×`n` view at `(r,c)` left `B` there. -/
def paste (A : Nat → Nat → K) (r c m n : Nat) (B : Nat → Nat → K) : Nat → Nat → K :=
  fun i j => if r ≤ i ∧ i < r+m ∧ c ≤ j ∧ j < c+n then B (i-r) (j-c) else A i j

/-- `C -= A*B` where `A` has `k` columns and `C` is `m`×`n` (the product kernels are modelled in
`Model/MultMM.lean`). -/
def subMul (m n k : Nat) (A B C : Nat → Nat → K) : Nat → Nat → K :=
  fun i j => if i < m ∧ j < n then C i j - ∑ l ∈ Finset.range k, A i l * B l j else C i j

/-- `k = N/2; if (k > nb) k = k/nb*nb` (TMV_TriDiv_M.cpp:214-215, 253-254). -/
def splitAt (nb N : Nat) : Nat := if N/2 > nb then N/2/nb*nb else N/2

/-- `NonBlasTriLDivEq` (TMV_TriDiv_M.cpp:190-227), upper.  `nb`, `nb2` are `TRI_DIV_BLOCKSIZE(2)`
(64 and 32, or `TMV_BLOCKSIZE` and half of it); `brm` is `B.isrm()`; fuel `≥ N` bounds the recursion depth
(`none` would mean it ran out, which the theorems exclude). -/
def upperRec (nb nb2 : Nat) (o : Ord) (brm ua : Bool) (nc : Nat) :
    Nat → Nat → (Nat → Nat → K) → (Nat → Nat → K) → Option (Nat → Nat → K)
  | 0, _, _, _ => none
  | fuel+1, N, A, B =>
    if N ≤ nb2 then
      if brm then (if o = .rm then rowUpperM ua N nc A B else colUpperM ua N nc A B)
      else colsM (upperV o ua N A) N nc B
    else
      let k := splitAt nb N
      (upperRec nb nb2 o brm ua nc fuel (N-k) (sub A k k) (sub B k 0)).bind fun B1 =>
      (upperRec nb nb2 o brm ua nc fuel k A (subMul k nc (N-k) (sub A 0 k) B1 B)).map fun B0 =>
      paste (paste B k 0 (N-k) nc B1) 0 0 k nc B0

/-- `NonBlasTriLDivEq` (TMV_TriDiv_M.cpp:229-266), lower. -/
def lowerRec (nb nb2 : Nat) (o : Ord) (brm ua : Bool) (nc : Nat) :
    Nat → Nat → (Nat → Nat → K) → (Nat → Nat → K) → Option (Nat → Nat → K)
  | 0, _, _, _ => none
  | fuel+1, N, A, B =>
    if N ≤ nb2 then
      if brm then (if o = .rm then rowLowerM ua N nc A B else colLowerM ua N nc A B)
      else colsM (lowerV o ua N A) N nc B
    else
      let k := splitAt nb N
      (lowerRec nb nb2 o brm ua nc fuel k A B).bind fun B0 =>
      (lowerRec nb nb2 o brm ua nc fuel (N-k) (sub A k k)
        (subMul (N-k) nc k (sub A k 0) B0 (sub B k 0))).map fun B1 =>
      paste (paste B 0 0 k nc B0) k 0 (N-k) nc B1

/-- `TriLDivEq(U,B)` (TMV_TriDiv_M.cpp:583-633): `B /= U`.  A copy made because `A` and `B` share storage has
the same element function. -/
def upperM (nb nb2 : Nat) (o : Ord) (brm ua : Bool) (N nc : Nat) (A B : Nat → Nat → K) :
    Option (Nat → Nat → K) :=
  if N = 0 ∨ nc = 0 then some B
  else if nc = 1 then colsM (upperV o ua N A) N 1 B
  else upperRec nb nb2 o brm ua nc (N+1) N A B

/-- `TriLDivEq(L,B)` (TMV_TriDiv_M.cpp:648-697): `B /= L`. -/
def lowerM (nb nb2 : Nat) (o : Ord) (brm ua : Bool) (N nc : Nat) (A B : Nat → Nat → K) :
    Option (Nat → Nat → K) :=
  if N = 0 ∨ nc = 0 then some B
  else if nc = 1 then colsM (lowerV o ua N A) N 1 B
  else lowerRec nb nb2 o brm ua nc (N+1) N A B

end TMV.Tri
