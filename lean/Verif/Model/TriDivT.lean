import Verif.Model.Tri
import Verif.Model.Vec
import Verif.Spec.Lin
import Mathlib.Algebra.BigOperators.Intervals
import Mathlib.Algebra.Star.Basic

/-! Division of a triangular matrix by a triangular matrix of the same shape, `B %= A` (src/TMV_TriDiv_L.cpp).  Exact arithmetic, one element
type; `A` is apart from `B`.  A matrix is the element function of the array it is kept in, `ua` and `ub` tell that the diagonal of `A`, `B` is
implicit; `upperMat`/`lowerMat` is the matrix such a triangle stands for, where one is an operand of a product that the code leaves to
another function.  `none` = an exception. -/
namespace TMV.TriDivT
open TMV.Tri
variable {K : Type _} [Field K] [DecidableEq K]

/-- `if (*Aii == 0) throw; if (*Aii != 1) B.row(i,lo,hi) /= *Aii` (TMV_TriDiv_L.cpp:79-88, 119-128, 155-164, 193-202). -/
def divRow (A : Nat → Nat → K) (i lo hi : Nat) (X : Nat → Nat → K) : Option (Nat → Nat → K) :=
  if A i i = 0 then none
  else if A i i ≠ 1 then some fun a c => if a = i ∧ lo ≤ c ∧ c < hi then X a c / A i i else X a c
  else some X

/-! ### Upper -/

/-- `B.row(i,i+1,N) -= A.row(i,i+1,N) * B.subTriMatrix(i+1,N)` (TMV_TriDiv_L.cpp:69, 76). -/
def rowSubU (ub : Bool) (A : Nat → Nat → K) (i N : Nat) (X : Nat → Nat → K) : Nat → Nat → K := fun a c =>
  if a = i ∧ i + 1 ≤ c ∧ c < N then X a c - ∑ k ∈ Finset.Ico (i + 1) N, A i k * upperMat ub X k c else X a c

/-- `RowTriLDivEq`, upper (TMV_TriDiv_L.cpp:53-89). -/
def rowU (ua ub : Bool) (N : Nat) (A X : Nat → Nat → K) : Option (Nat → Nat → K) :=
  if ua then forDown (fun i X => some (rowSubU ub A i N X)) N X
  else forDown (fun i X => divRow A i i N (rowSubU ub A i N X)) N X

/-- `B.subMatrix(0,j,lo,N) -= A.col(j,0,j) ^ B.row(j,lo,N)` (TMV_TriDiv_L.cpp:107, 113, 129). -/
def outSubU (A : Nat → Nat → K) (j lo N : Nat) (X : Nat → Nat → K) : Nat → Nat → K := fun a c =>
  if a < j ∧ lo ≤ c ∧ c < N then X a c - A a j * X j c else X a c

/-- `B.col(j,0,j) -= A.col(j,0,j)` (TMV_TriDiv_L.cpp:108, 241). -/
def colSubU (A : Nat → Nat → K) (j : Nat) (X : Nat → Nat → K) : Nat → Nat → K := fun a c =>
  if a < j ∧ c = j then X a c - A a j else X a c

/-- `ColTriLDivEq`, upper (TMV_TriDiv_L.cpp:91-132). -/
def colU (ua ub : Bool) (N : Nat) (A X : Nat → Nat → K) : Option (Nat → Nat → K) :=
  if ua then
    if ub then forDown (fun j X => some (colSubU A j (outSubU A j (j + 1) N X))) N X
    else forDown (fun j X => some (outSubU A j j N X)) N X
  else forDown (fun j X => (divRow A j j N X).map (outSubU A j j N)) N X

/-- Column `j`, rows `lo..hi-1`, replaced. -/
def putCol (j lo hi : Nat) (x : Nat → K) (X : Nat → Nat → K) : Nat → Nat → K := fun a c =>
  if c = j ∧ lo ≤ a ∧ a < hi then x (a - lo) else X a c

/-- The loop over columns of `DoTriLDivEq`, upper (TMV_TriDiv_L.cpp:239-247). -/
def colsU (oa : Ord) (ua ub : Bool) (N : Nat) (A X : Nat → Nat → K) : Option (Nat → Nat → K) :=
  if ub then forRange (fun j X =>
      let X := colSubU A j X
      (upperV oa ua j A (fun i => X i j)).map fun x => putCol j 0 j x X) N 0 X
  else forRange (fun j X => (upperV oa ua (j + 1) A (fun i => X i j)).map fun x => putCol j 0 (j + 1) x X) N 0 X

/-- `DoTriLDivEq`, upper (TMV_TriDiv_L.cpp:221-267); `oa` the layout of `A`, `brm` tells that `B` is row-major; fuel bounds the recursion. -/
def doU (nb nb2 : Nat) (oa : Ord) (brm ua ub : Bool) : Nat → Nat → (Nat → Nat → K) → (Nat → Nat → K) → Option (Nat → Nat → K)
  | 0, _, _, _ => none
  | fuel+1, N, A, B =>
    if N ≤ nb2 then
      if brm then (if oa = .rm then rowU ua ub N A B else colU ua ub N A B)
      else colsU oa ua ub N A B
    else
      let k := splitAt nb N
      (doU nb nb2 oa brm ua ub fuel (N - k) (sub A k k) (sub B k k)).bind fun B11 =>
      (upperM nb nb2 oa brm ua k (N - k) A (subMul k (N - k) (N - k) (sub A 0 k) (upperMat ub B11) (sub B 0 k))).bind fun B01 =>
      (doU nb nb2 oa brm ua ub fuel k A B).map fun B00 =>
      paste (paste (paste B k k (N - k) (N - k) B11) 0 k k (N - k) B01) 0 0 k k B00

/-! ### Lower -/

/-- `B.row(i,0,i) -= A.row(i,0,i) * B.subTriMatrix(0,i)` (TMV_TriDiv_L.cpp:149, 154). -/
def rowSubL (ub : Bool) (A : Nat → Nat → K) (i : Nat) (X : Nat → Nat → K) : Nat → Nat → K := fun a c =>
  if a = i ∧ c < i then X a c - ∑ k ∈ Finset.range i, A i k * lowerMat ub X k c else X a c

/-- `RowTriLDivEq`, lower (TMV_TriDiv_L.cpp:134-168). -/
def rowL (ua ub : Bool) (N : Nat) (A X : Nat → Nat → K) : Option (Nat → Nat → K) :=
  if ua then forRange (fun i X => some (rowSubL ub A i X)) N 0 X
  else forRange (fun i X => divRow A i 0 (i + 1) (rowSubL ub A i X)) N 0 X

/-- `B.subMatrix(j+1,N,0,hi) -= A.col(j,j+1,N) ^ B.row(j,0,hi)` (TMV_TriDiv_L.cpp:187, 191, 207). -/
def outSubL (A : Nat → Nat → K) (j hi N : Nat) (X : Nat → Nat → K) : Nat → Nat → K := fun a c =>
  if j + 1 ≤ a ∧ a < N ∧ c < hi then X a c - A a j * X j c else X a c

/-- `B.col(j,j+1,N) -= A.col(j,j+1,N)` (TMV_TriDiv_L.cpp:186, 317). -/
def colSubL (A : Nat → Nat → K) (j N : Nat) (X : Nat → Nat → K) : Nat → Nat → K := fun a c =>
  if j + 1 ≤ a ∧ a < N ∧ c = j then X a c - A a j else X a c

/-- `ColTriLDivEq`, lower (TMV_TriDiv_L.cpp:170-210). -/
def colL (ua ub : Bool) (N : Nat) (A X : Nat → Nat → K) : Option (Nat → Nat → K) :=
  if ua then
    if ub then forRange (fun j X => some (outSubL A j j N (colSubL A j N X))) N 0 X
    else forRange (fun j X => some (outSubL A j (j + 1) N X)) N 0 X
  else forRange (fun j X => (divRow A j 0 (j + 1) X).map (outSubL A j (j + 1) N)) N 0 X

/-- The loop over columns of `DoTriLDivEq`, lower (TMV_TriDiv_L.cpp:315-323). -/
def colsL (oa : Ord) (ua ub : Bool) (N : Nat) (A X : Nat → Nat → K) : Option (Nat → Nat → K) :=
  if ub then forRange (fun j X =>
      let X := colSubL A j N X
      (lowerV oa ua (N - (j + 1)) (sub A (j + 1) (j + 1)) (fun i => X (j + 1 + i) j)).map fun x => putCol j (j + 1) N x X) N 0 X
  else forRange (fun j X =>
      (lowerV oa ua (N - j) (sub A j j) (fun i => X (j + i) j)).map fun x => putCol j j N x X) N 0 X

/-- `DoTriLDivEq`, lower (TMV_TriDiv_L.cpp:297-343). -/
def doL (nb nb2 : Nat) (oa : Ord) (brm ua ub : Bool) : Nat → Nat → (Nat → Nat → K) → (Nat → Nat → K) → Option (Nat → Nat → K)
  | 0, _, _, _ => none
  | fuel+1, N, A, B =>
    if N ≤ nb2 then
      if brm then (if oa = .rm then rowL ua ub N A B else colL ua ub N A B)
      else colsL oa ua ub N A B
    else
      let k := splitAt nb N
      (doL nb nb2 oa brm ua ub fuel k A B).bind fun B00 =>
      (lowerM nb nb2 oa brm ua (N - k) k (sub A k k) (subMul (N - k) k k (sub A k 0) (lowerMat ub B00) (sub B k 0))).bind fun B10 =>
      (doL nb nb2 oa brm ua ub fuel (N - k) (sub A k k) (sub B k k)).map fun B11 =>
      paste (paste (paste B 0 0 k k B00) k 0 (N - k) k B10) k k (N - k) (N - k) B11

/-- `TriLDivEq(A,B)`, `B` a triangular matrix (TMV_TriDiv_L.cpp:269-283 upper, 345-360 lower); `cb` is the conj flag of the view `B`, `A` the
elements of `A`, `S` the numbers stored for `B`.  For an upper triangular `B` of size 0 the code has no test; its loops are then empty. -/
def ldivEq [Star K] (nb nb2 : Nat) (up : Bool) (oa : Ord) (brm ua ub cb : Bool) (N : Nat) (A S : Nat → Nat → K) :
    Option (Nat → Nat → K) :=
  let A' : Nat → Nat → K := fun i j => cj cb (A i j)
  if up then doU nb nb2 oa brm ua ub (N + 1) N A' S
  else if 0 < N then doL nb nb2 oa brm ua ub (N + 1) N A' S else some S

end TMV.TriDivT
