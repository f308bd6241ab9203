import Verif.Model.Diag

/-! Products of a diagonal and a triangular matrix (src/TMV_MultDU.cpp, include/tmv/TMV_DiagTriArithFunc.h).  Exact real or complex elements
of one type.  The stored triangle of a matrix is a function of the row and the column, without the part that is not stored; what is not
recorded is memory shared in any other way than the operands beginning at the address of the destination. -/
namespace TMV.Diag
noncomputable section
open Classical
variable {K : Type} [RCLike K]

/-- A view of a triangular matrix: the numbers stored, `isconj()`, `isunit()`, and the layout. -/
structure TV (K : Type) where
  b : Nat → Nat → K
  cj : Bool
  unit : Bool
  lay : Lay

/-- The elements in the triangle. -/
def TV.el (B : TV K) (i j : Nat) : K := if B.unit = true ∧ i = j then 1 else TMV.cj B.cj (B.b i j)

/-- `transpose()` (include/tmv/TMV_TriMatrix.h:1003-1012). -/
def TV.tr (B : TV K) : TV K := ⟨fun i j => B.b j i, B.cj, B.unit, ⟨B.lay.cm, B.lay.rm⟩⟩

/-- `conjugate()` (include/tmv/TMV_TriMatrix.h:1014-1022). -/
def TV.conjugate (B : TV K) : TV K := { B with cj := !B.cj }

/-- `conjugate()` of a diagonal matrix (include/tmv/TMV_DiagMatrix.h:226-230). -/
def DV.conjugate (A : DV K) : DV K := { A with cj := !A.cj }

/-- `subDiagMatrix(k,..)` (include/tmv/TMV_DiagMatrix.h:176-181). -/
def DV.sub (A : DV K) (k : Nat) : DV K := ⟨fun i => A.d (k + i), A.cj, A.unit⟩

/-- An operation on `subMatrix(r,r+M,c,c+N)`. -/
def onBlock (r c M N : Nat) (f : (Nat → Nat → K) → Nat → Nat → K) (X : Nat → Nat → K) : Nat → Nat → K := fun i j =>
  if r ≤ i ∧ i < r + M ∧ c ≤ j ∧ j < c + N then f (fun a b => X (r + a) (c + b)) (i - r) (j - c) else X i j

/-- The 1×1 case of `DoMultEqMM` (TMV_MultDU.cpp:54-61, 323-330). -/
def eqOne (α : K) (A : DV K) (o : Nat) (B : Nat → Nat → K) : Nat → Nat → K := fun i j =>
  if i = o ∧ j = o then
    (if α = 1 then B i j * TMV.cj A.cj (A.d o) else B i j * (α * TMV.cj A.cj (A.d o)))
  else B i j

/-- `DoMultEqMM<a1,ca>(alpha,A,B)`, upper (TMV_MultDU.cpp:42-81), on rows and columns `o`..`o+n-1`; `l` is the layout of `B`. -/
def eqU (l : Lay) (α : K) (A : DV K) (n o : Nat) (B : Nat → Nat → K) : Nat → Nat → K :=
  if _h : n ≤ 1 then (if n = 0 then B else eqOne α A o B)
  else
    let k := n / 2
    let B := eqU l α A k o B
    let B := onBlock o (o + k) k (n - k) (fun X => mulM false false true l l α k (n - k) (A.sub o) X X) B
    eqU l α A (n - k) (o + k) B
termination_by n

/-- `DoMultEqMM<a1,ca>(alpha,A,B)`, lower (TMV_MultDU.cpp:311-350). -/
def eqL (l : Lay) (α : K) (A : DV K) (n o : Nat) (B : Nat → Nat → K) : Nat → Nat → K :=
  if _h : n ≤ 1 then (if n = 0 then B else eqOne α A o B)
  else
    let k := n / 2
    let B := eqL l α A k o B
    let B := onBlock (o + k) o (n - k) k (fun X => mulM false false true l l α (n - k) k (A.sub (o + k)) X X) B
    eqL l α A (n - k) (o + k) B
termination_by n

/-- `MultEqMM(alpha,A,B)`, i.e. `B = alpha*A*B` (TMV_MultDU.cpp:83-131, 352-400); `up` tells whether `B` is upper triangular, `cc` is
`B.isconj()`, `B` the numbers stored. -/
def mulEqT (up cc : Bool) (l : Lay) (α : K) (N : Nat) (A : DV K) (B : Nat → Nat → K) : Nat → Nat → K :=
  let go (α : K) (A : DV K) := if up then eqU l α A N 0 B else eqL l α A N 0 B
  if cc then go (star α) A.conjugate else go α A

/-- The 1×1 case of `DoAddMultMM` (TMV_MultDU.cpp:149-162, 418-431). -/
def addOne (α : K) (A : DV K) (B : TV K) (o : Nat) (C : Nat → Nat → K) : Nat → Nat → K := fun i j =>
  if i = o ∧ j = o then
    (if α = 1 then (if B.unit then C i j + TMV.cj A.cj (A.d o) else C i j + TMV.cj A.cj (A.d o) * TMV.cj B.cj (B.b o o))
     else (if B.unit then C i j + α * TMV.cj A.cj (A.d o) else C i j + α * TMV.cj A.cj (A.d o) * TMV.cj B.cj (B.b o o)))
  else C i j

/-- `DoAddMultMM<a1,ca,ub,cb>(alpha,A,B,C)`, upper (TMV_MultDU.cpp:133-185). -/
def addU (l : Lay) (α : K) (A : DV K) (B : TV K) (n o : Nat) (C : Nat → Nat → K) : Nat → Nat → K :=
  if _h : n ≤ 1 then (if n = 0 then C else addOne α A B o C)
  else
    let k := n / 2
    let C := addU l α A B k o C
    let C := onBlock o (o + k) k (n - k) (fun X => mulM true false false B.lay l α k (n - k) (A.sub o)
      (fun a c => TMV.cj B.cj (B.b (o + a) (o + k + c))) X) C
    addU l α A B (n - k) (o + k) C
termination_by n

/-- `DoAddMultMM<a1,ca,ub,cb>(alpha,A,B,C)`, lower (TMV_MultDU.cpp:402-454). -/
def addL (l : Lay) (α : K) (A : DV K) (B : TV K) (n o : Nat) (C : Nat → Nat → K) : Nat → Nat → K :=
  if _h : n ≤ 1 then (if n = 0 then C else addOne α A B o C)
  else
    let k := n / 2
    let C := addL l α A B k o C
    let C := onBlock (o + k) o (n - k) k (fun X => mulM true false false B.lay l α (n - k) k (A.sub (o + k))
      (fun a c => TMV.cj B.cj (B.b (o + k + a) (o + c))) X) C
    addL l α A B (n - k) (o + k) C
termination_by n

/-- `AddMultMM(alpha,A,B,C)`, i.e. `C += alpha*A*B` (TMV_MultDU.cpp:201-258, 470-527). -/
def addMulT (up cc : Bool) (l : Lay) (α : K) (N : Nat) (A : DV K) (B : TV K) (C : Nat → Nat → K) : Nat → Nat → K :=
  let go (α : K) (A : DV K) (B : TV K) := if up then addU l α A B N 0 C else addL l α A B N 0 C
  if cc then go (star α) A.conjugate B.conjugate else go α A B

/-- Is `(i,j)` in the upper (lower) triangle of an `N`×`N` matrix? -/
def inTri (up : Bool) (N i j : Nat) : Prop := if up then i ≤ j ∧ j < N else j ≤ i ∧ i < N

/-- `MultMM<add>(alpha,A,B,C)`, `C (+)= alpha*A*B` for a diagonal `A`, triangular `B` and `C` of the same shape, `C` without an implicit
diagonal (TMV_MultDU.cpp:260-309, 529-580).  `ac` = `SameStorage(A.diag(),C)`, `bc` = `SameStorage(B,C)`, `cc` = `C.isconj()`, `l` = the
layout of `C`; `C` and the result are the numbers stored.  The assignment `C = B` and the sum `C += tempB` of triangular matrices are
taken from `Props/TriMat` and `Props/TriSum`. -/
def mulDT (up add ac bc cc : Bool) (l : Lay) (α : K) (N : Nat) (A : DV K) (B : TV K) (C : Nat → Nat → K) : Nat → Nat → K :=
  let body (A : DV K) : Nat → Nat → K :=
    if !add then mulEqT up cc l α N A (fun i j => if inTri up N i j then TMV.cj cc (B.el i j) else C i j)
    else if bc then
      let t := mulEqT up false ⟨B.lay.rm, !B.lay.rm⟩ α N A B.el
      fun i j => if inTri up N i j then TMV.cj cc (TMV.cj cc (C i j) + t i j) else C i j
    else addMulT up cc l α N A B C
  if N > 0 then
    if α = 0 then (if add then C else fun i j => if inTri up N i j then 0 else C i j)
    else if ac then body (DV.new A.el)
    else body A
  else C

/-- `MultMM<add>(alpha,A,B,C)` for a triangular `A` and a diagonal `B`: the transposes are multiplied
(include/tmv/TMV_DiagTriArithFunc.h:46-57). -/
def mulTD (up add bc ac cc : Bool) (l : Lay) (α : K) (N : Nat) (A : TV K) (B : DV K) (C : Nat → Nat → K) : Nat → Nat → K :=
  fun i j => mulDT (!up) add bc ac cc ⟨l.cm, l.rm⟩ α N B A.tr (fun i j => C j i) j i

end
end TMV.Diag
