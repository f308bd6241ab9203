import Verif.Model.TriUU

/-! Products of an upper and a lower triangular matrix, put into a full matrix (src/TMV_MultUL.cpp), on the array that holds the destination.
Exact arithmetic, one element type; an operand is apart from the destination, or is kept in its array, in its own triangle (`same`) or in the
opposite one (`other`).  The products of blocks, rows and columns that the code leaves to other functions of the library are taken as the
mathematical ones.  Indices are absolute: a function on `subMatrix(o,o+n,o,o+n)` takes `o` and `n`.  The case of both factors in place is
also modelled in Model/TriProd.lean, with the functions it calls. -/
namespace TMV.TriUL
open TMV.Tri TMV.TriUU
variable {K : Type _} [Field K] [Star K] [DecidableEq K]

/-- `transpose()`; the array of the destination is transposed with it. -/
def tr : Src K → Src K
  | .apart a => .apart fun i j => a j i
  | .same c => .same c
  | .other c => .other c

/-- Whether the operand is kept in the opposite triangle of the destination: the test `SameStorage(A,C) && A.stepj() == C.stepi()` for an
upper, `A.stepi() == C.stepj()` for a lower matrix (TMV_MultUL.cpp:83, 405), and `SameStorage(A01,C10)`, `SameStorage(A10,C01)` etc.
(TMV_MultUL.cpp:291-292, 634-635). -/
def opp : Src K → Bool
  | .other _ => true
  | _ => false

/-- `xBjj`, the multiple of `A.col(j)` (TMV_MultUL.cpp:117-118, 138-143, 174-175, 195-200). -/
def xB (B : Src K) (ub : Bool) (α : K) (j : Nat) (X : Nat → Nat → K) : K :=
  if ub then α else if α ≠ 1 then B.rd X j j * α else B.rd X j j

/-- What is added to the product of the strict parts of a row and a column in `newcjj` (TMV_MultUL.cpp:113, 139, 169-170). -/
def dd (A B : Src K) (ua ub : Bool) (j : Nat) (X : Nat → Nat → K) : K :=
  if ua then (if ub then 1 else B.rd X j j) else A.rd X j j

/-- `newcjj *= alpha` and `newcjj += *Cjj` (TMV_MultUL.cpp:114-115). -/
def fin (add : Bool) (α s c : K) : K :=
  let s := if α ≠ 1 then s * α else s
  if add then s + c else s

/-- What is there before the product is added: `C (+)= ...`. -/
def acc (add : Bool) (c : K) : K := if add then c else 0

/-! ### `C (+)= alpha*U*L` -/

/-- One turn of the loops of `ColMultMM`, upper times lower (TMV_MultUL.cpp:98-216). -/
def ulStep (add : Bool) (A B : Src K) (ua ub : Bool) (α : K) (o n j : Nat) (X : Nat → Nat → K) : Nat → Nat → K :=
  let new := fin add α (if ¬ ua ∧ ¬ ub then ∑ k ∈ Finset.Ico j (o + n), A.rd X j k * B.rd X k j
    else ∑ k ∈ Finset.Ico (j + 1) (o + n), A.rd X j k * B.rd X k j + dd A B ua ub j X) (X j j)
  let x := xB B ub α j X
  let X1 : Nat → Nat → K := fun p c => if c = j ∧ o ≤ p ∧ p < j then acc add (X p c) + x * A.rd X p j else X p c
  let X2 : Nat → Nat → K := fun p c => if c = j ∧ o ≤ p ∧ p < j then
    X1 p c + α * ∑ k ∈ Finset.Ico (j + 1) (o + n), A.rd X1 p k * B.rd X1 k j else X1 p c
  let X3 : Nat → Nat → K := fun p c => if c = j ∧ j < p ∧ p < o + n then
    acc add (X2 p c) + α * ∑ k ∈ Finset.Ico p (o + n), el ua (A.rd X2) p k * B.rd X2 k j else X2 p c
  fun p c => if p = j ∧ c = j then new else X3 p c

/-- `ColMultMM`, upper times lower (TMV_MultUL.cpp:53-218); an `A` in the lower triangle of `C` is copied, with its diagonal. -/
def ulCol (add : Bool) (A B : Src K) (ua ub : Bool) (α : K) (o n : Nat) (X : Nat → Nat → K) : Nat → Nat → K :=
  if opp A then up (fun j X' => ulStep add (.apart (el ua (A.rd X))) B false ub α o n j X') n o X
  else up (fun j X => ulStep add A B ua ub α o n j X) n o X

/-- The block `C10` (TMV_MultUL.cpp:297, 303, 306). -/
def ul10 (add : Bool) (A B : Src K) (ua : Bool) (α : K) (o n k : Nat) (X : Nat → Nat → K) : Nat → Nat → K := fun p c =>
  if o + k ≤ p ∧ p < o + n ∧ o ≤ c ∧ c < o + k then
    acc add (X p c) + α * ∑ l ∈ Finset.Ico p (o + n), el ua (A.rd X) p l * B.rd X l c else X p c

/-- The block `C01` (TMV_MultUL.cpp:298-299, 301-302, 307-308). -/
def ul01 (add : Bool) (A B : Src K) (ub : Bool) (α : K) (o n k : Nat) (X : Nat → Nat → K) : Nat → Nat → K := fun p c =>
  if o ≤ p ∧ p < o + k ∧ o + k ≤ c ∧ c < o + n then
    acc add (X p c) + α * ∑ l ∈ Finset.Ico c (o + n), A.rd X p l * el ub (B.rd X) l c else X p c

/-- The blocks off the diagonal, in the order that depends on where `A` and `B` are (TMV_MultUL.cpp:291-309). -/
def ulOff (add : Bool) (A B : Src K) (ua ub : Bool) (α : K) (o n k : Nat) (X : Nat → Nat → K) : Nat → Nat → K :=
  if opp A then
    if opp B then ul01 add (.apart (A.rd X)) B ub α o n k (ul10 add A B ua α o n k X)
    else ul10 add A B ua α o n k (ul01 add A B ub α o n k X)
  else ul01 add A B ub α o n k (ul10 add A B ua α o n k X)

/-- `DoMultMM`, upper times lower (TMV_MultUL.cpp:240-311); `crm` is `C.isrm()`. -/
def ulRec (nb nb2 : Nat) (crm add : Bool) (A B : Src K) (ua ub : Bool) (α : K) : Nat → Nat → Nat → (Nat → Nat → K) → Nat → Nat → K
  | 0, _, _, X => X
  | fuel+1, o, n, X =>
    if n ≤ nb2 then
      if crm then fun p c => ulCol add (tr B) (tr A) ub ua α o n (fun i j => X j i) c p
      else ulCol add A B ua ub α o n X
    else
      let k := splitU nb false n
      let X1 := ulRec nb nb2 crm add A B ua ub α fuel o k X
      let X2 : Nat → Nat → K := fun p c => if o ≤ p ∧ p < o + k ∧ o ≤ c ∧ c < o + k then
        X1 p c + α * ∑ l ∈ Finset.Ico (o + k) (o + n), A.rd X1 p l * B.rd X1 l c else X1 p c
      ulRec nb nb2 crm add A B ua ub α fuel (o + k) (n - k) (ulOff add A B ua ub α o n k X2)

/-! ### `C (+)= alpha*L*U` -/

/-- One turn of the loops of `ColMultMM`, lower times upper (TMV_MultUL.cpp:419-558). -/
def luStep (add : Bool) (A B : Src K) (ua ub : Bool) (α : K) (o n j : Nat) (X : Nat → Nat → K) : Nat → Nat → K :=
  let new := fin add α (if ¬ ua ∧ ¬ ub then ∑ k ∈ Finset.Ico o (j + 1), A.rd X j k * B.rd X k j
    else ∑ k ∈ Finset.Ico o j, A.rd X j k * B.rd X k j + dd A B ua ub j X) (X j j)
  let x := xB B ub α j X
  let X1 : Nat → Nat → K := fun p c => if c = j ∧ j < p ∧ p < o + n then acc add (X p c) + x * A.rd X p j else X p c
  let X2 : Nat → Nat → K := fun p c => if c = j ∧ j < p ∧ p < o + n then
    X1 p c + α * ∑ k ∈ Finset.Ico o j, A.rd X1 p k * B.rd X1 k j else X1 p c
  let X3 : Nat → Nat → K := fun p c => if c = j ∧ o ≤ p ∧ p < j then
    acc add (X2 p c) + α * ∑ k ∈ Finset.Ico o (p + 1), el ua (A.rd X2) p k * B.rd X2 k j else X2 p c
  fun p c => if p = j ∧ c = j then new else X3 p c

/-- `ColMultMM`, lower times upper (TMV_MultUL.cpp:385-560). -/
def luCol (add : Bool) (A B : Src K) (ua ub : Bool) (α : K) (o n : Nat) (X : Nat → Nat → K) : Nat → Nat → K :=
  if opp A then down (fun r X' => luStep add (.apart (el ua (A.rd X))) B false ub α o n (o + r) X') n X
  else down (fun r X => luStep add A B ua ub α o n (o + r) X) n X

/-- The block `C01` (TMV_MultUL.cpp:640, 646, 649). -/
def lu01 (add : Bool) (A B : Src K) (ua : Bool) (α : K) (o n k : Nat) (X : Nat → Nat → K) : Nat → Nat → K := fun p c =>
  if o ≤ p ∧ p < o + k ∧ o + k ≤ c ∧ c < o + n then
    acc add (X p c) + α * ∑ l ∈ Finset.Ico o (p + 1), el ua (A.rd X) p l * B.rd X l c else X p c

/-- The block `C10` (TMV_MultUL.cpp:641-642, 644-645, 650-651). -/
def lu10 (add : Bool) (A B : Src K) (ub : Bool) (α : K) (o n k : Nat) (X : Nat → Nat → K) : Nat → Nat → K := fun p c =>
  if o + k ≤ p ∧ p < o + n ∧ o ≤ c ∧ c < o + k then
    acc add (X p c) + α * ∑ l ∈ Finset.Ico o (c + 1), A.rd X p l * el ub (B.rd X) l c else X p c

/-- The blocks off the diagonal (TMV_MultUL.cpp:634-652). -/
def luOff (add : Bool) (A B : Src K) (ua ub : Bool) (α : K) (o n k : Nat) (X : Nat → Nat → K) : Nat → Nat → K :=
  if opp A then
    if opp B then lu10 add (.apart (A.rd X)) B ub α o n k (lu01 add A B ua α o n k X)
    else lu01 add A B ua α o n k (lu10 add A B ub α o n k X)
  else lu10 add A B ub α o n k (lu01 add A B ua α o n k X)

/-- `DoMultMM`, lower times upper (TMV_MultUL.cpp:582-654). -/
def luRec (nb nb2 : Nat) (crm add : Bool) (A B : Src K) (ua ub : Bool) (α : K) : Nat → Nat → Nat → (Nat → Nat → K) → Nat → Nat → K
  | 0, _, _, X => X
  | fuel+1, o, n, X =>
    if n ≤ nb2 then
      if crm then fun p c => luCol add (tr B) (tr A) ub ua α o n (fun i j => X j i) c p
      else luCol add A B ua ub α o n X
    else
      let k := splitU nb false n
      let X1 := luRec nb nb2 crm add A B ua ub α fuel (o + k) (n - k) X
      let X2 : Nat → Nat → K := fun p c => if o + k ≤ p ∧ p < o + n ∧ o + k ≤ c ∧ c < o + n then
        X1 p c + α * ∑ l ∈ Finset.Ico o (o + k), A.rd X1 p l * B.rd X1 l c else X1 p c
      luRec nb nb2 crm add A B ua ub α fuel o k (luOff add A B ua ub α o n k X2)

/-! ### The product -/

/-- `MultMM<add>(alpha,A,B,C)`, `up`: upper times lower (TMV_MultUL.cpp:331-360), else lower times upper (TMV_MultUL.cpp:674-702); `cc` =
`C.isconj()`, `X` the numbers stored in the array of `C`. -/
def mulT (nb nb2 : Nat) (crm up add cc : Bool) (α : K) (N : Nat) (A B : Opd K) (X : Nat → Nat → K) : Nat → Nat → K :=
  if N = 0 then X
  else if α = 0 then (if add then X else fun i j => if i < N ∧ j < N then 0 else X i j)
  else
    let α := if cc then star α else α
    let a := if cc then A.src.conj else A.src
    let b := if cc then B.src.conj else B.src
    if up then ulRec nb nb2 crm add a b A.unit B.unit α (N + 1) 0 N X
    else luRec nb nb2 crm add a b A.unit B.unit α (N + 1) 0 N X

end TMV.TriUL
