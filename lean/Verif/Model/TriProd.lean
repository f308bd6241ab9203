import Verif.Model.TriMul

/-! Products of two triangle matrices stored in the matrix that receives the product, and the inverse of a
triangle matrix: src/TMV_MultUL.cpp, src/TMV_TriInverse.cpp. -/
namespace TMV.TriProd
open TMV.Tri
variable {K : Type _} [Field K] [DecidableEq K]

/-- The diagonal element `i` (1 if the triangle is `UnitDiag`). -/
def dia (ua : Bool) (C : Nat → Nat → K) (i : Nat) : K := if ua then 1 else C i i

/-- Column `j` of `ColMultMM<false>` for `C = alpha*U*L`, where `U = C.upperTri()` (`ua`: unit) and
`L = C.lowerTri()` (`ub`: unit) live in `C` itself (TMV_MultUL.cpp:53-213, the four unit/non-unit versions). -/
def ulStep (α : K) (o : Ord) (ua ub : Bool) (N j : Nat) (C : Nat → Nat → K) : Nat → Nat → K :=
  let xB := dia ub C j * α
  let new := α * (∑ k ∈ Finset.range (N-1-j), C j (j+1+k) * C (j+1+k) j + dia ua C j * dia ub C j)
  -- C.col(j,0,j) = xBjj * A.col(j,0,j)
  let C := fun a b => if b = j ∧ a < j then xB * C a j else C a b
  -- C.col(j,0,j) += alpha * A.subMatrix(0,j,jj,N) * B.col(j,jj,N)
  let C := fun a b => if b = j ∧ a < j then
    C a j + α * ∑ k ∈ Finset.range (N-1-j), C a (j+1+k) * C (j+1+k) j else C a b
  -- MultMV<add>(alpha,A.subTriMatrix(jj,N),B.col(j,jj,N),C.col(j,jj,N))
  let x := TriMul.upperV o ua (N-1-j) (sub C (j+1) (j+1)) (fun i => C (j+1+i) j)
  let C := fun a b => if b = j ∧ j < a ∧ a < N then α * x (a-(j+1)) else C a b
  setE C j j new

def ulCol (α : K) (o : Ord) (ua ub : Bool) (N : Nat) (C : Nat → Nat → K) : Nat → Nat → K :=
  up (ulStep α o ua ub N) N 0 C

/-- Column `j` of `ColMultMM<false>` for `C = alpha*L*U` in `C`'s own storage (TMV_MultUL.cpp:385-557). -/
def luStep (α : K) (o : Ord) (ua ub : Bool) (N j : Nat) (C : Nat → Nat → K) : Nat → Nat → K :=
  let xB := dia ub C j * α
  let new := α * (∑ k ∈ Finset.range j, C j k * C k j + dia ua C j * dia ub C j)
  -- C.col(j,jj,N) = xBjj * A.col(j,jj,N)
  let C := fun a b => if b = j ∧ j < a ∧ a < N then xB * C a j else C a b
  -- C.col(j,jj,N) += alpha * A.subMatrix(jj,N,0,j) * B.col(j,0,j)
  let C := fun a b => if b = j ∧ j < a ∧ a < N then
    C a j + α * ∑ k ∈ Finset.range j, C a k * C k j else C a b
  -- MultMV<add>(alpha,A.subTriMatrix(0,j),B.col(j,0,j),C.col(j,0,j)): A and x do not share the first element
  let x := TriMul.lowerV o false ua j C (fun i => C i j)
  let C := fun a b => if b = j ∧ a < j then α * x a else C a b
  setE C j j new

def luCol (α : K) (o : Ord) (ua ub : Bool) (N : Nat) (C : Nat → Nat → K) : Nat → Nat → K :=
  down (luStep α o ua ub N) N C

/-- Transpose of an element function. -/
def tr (C : Nat → Nat → K) : Nat → Nat → K := fun i j => C j i

/-- `DoMultMM<false>`, `C = alpha*U*L` in place (TMV_MultUL.cpp:239-318); `crm` is `C.isrm()`, `o` the storage
order of `C` (and so of both triangles).  In place `A01` and `C10` have different first elements, so the last
branch of the alias test is taken. -/
def ulRec (nb nb2 : Nat) (o : Ord) (crm st : Bool) :
    Nat → Nat → Bool → Bool → K → (Nat → Nat → K) → Nat → Nat → K
  | 0, _, _, _, _, C => C
  | fuel+1, N, ua, ub, α, C =>
    if N ≤ nb2 then
      -- C.isrm(): the transposed problem; it stores through the transposed view
      if crm then tr (ulCol α o ub ua N (tr C)) else ulCol α o ua ub N C
    else
      let k := splitAt nb N
      -- DoMultMM(alpha,A00,B00,C00)
      let C := paste C 0 0 k k (ulRec nb nb2 o crm st fuel k ua ub α C)
      -- C00 += alpha*A01*B10
      let C := TriMul.addMul α k k (N-k) (sub C 0 k) (sub C k 0) C
      -- MultMM(alpha,A11,B10,C10)
      let C := paste C k 0 (N-k) k (TriMul.upperRec nb nb2 o false crm st k (N-k+1) (N-k) ua α (sub C k k) (sub C k 0))
      -- MultMM(alpha,B11.transpose(),A01.transpose(),C01.transpose())
      let C := paste C 0 k k (N-k) (tr (TriMul.upperRec nb nb2 o false crm st k (N-k+1) (N-k) ub α
        (tr (sub C k k)) (tr (sub C 0 k))))
      -- DoMultMM(alpha,A11,B11,C11)
      paste C k k (N-k) (N-k) (ulRec nb nb2 o crm st fuel (N-k) ua ub α (sub C k k))

/-- `DoMultMM<false>`, `C = alpha*L*U` in place (TMV_MultUL.cpp:581-657). -/
def luRec (nb nb2 : Nat) (o : Ord) (crm st : Bool) :
    Nat → Nat → Bool → Bool → K → (Nat → Nat → K) → Nat → Nat → K
  | 0, _, _, _, _, C => C
  | fuel+1, N, ua, ub, α, C =>
    if N ≤ nb2 then
      if crm then tr (luCol α o ub ua N (tr C)) else luCol α o ua ub N C
    else
      let k := splitAt nb N
      -- DoMultMM(alpha,A11,B11,C11)
      let C := paste C k k (N-k) (N-k) (luRec nb nb2 o crm st fuel (N-k) ua ub α (sub C k k))
      -- C11 += alpha*A10*B01
      let C := paste C k k (N-k) (N-k) (TriMul.addMul α (N-k) (N-k) k (sub C k 0) (sub C 0 k) (sub C k k))
      -- MultMM(alpha,A00,B01,C01)
      let C := paste C 0 k k (N-k) (TriMul.lowerRec nb nb2 o false crm st (N-k) (k+1) k ua α C (sub C 0 k))
      -- MultMM(alpha,B00.transpose(),A10.transpose(),C10.transpose())
      let C := paste C k 0 (N-k) k (tr (TriMul.lowerRec nb nb2 o false crm st (N-k) (k+1) k ub α
        (tr C) (tr (sub C k 0))))
      -- DoMultMM(alpha,A00,B00,C00)
      paste C 0 0 k k (luRec nb nb2 o crm st fuel k ua ub α C)

/-- `MultMM<false>`: `C = alpha*C.upperTri()*C.lowerTri()` (TMV_MultUL.cpp:334-370). -/
def multUL (nb nb2 : Nat) (o : Ord) (crm st ua ub : Bool) (N : Nat) (α : K) (C : Nat → Nat → K) : Nat → Nat → K :=
  if N = 0 then C
  else if α = 0 then fun i j => if i < N ∧ j < N then 0 else C i j
  else ulRec nb nb2 o crm st (N+1) N ua ub α C

/-- `MultMM<false>`: `C = alpha*C.lowerTri()*C.upperTri()` (TMV_MultUL.cpp:673-710). -/
def multLU (nb nb2 : Nat) (o : Ord) (crm st ua ub : Bool) (N : Nat) (α : K) (C : Nat → Nat → K) : Nat → Nat → K :=
  if N = 0 then C
  else if α = 0 then fun i j => if i < N ∧ j < N then 0 else C i j
  else luRec nb nb2 o crm st (N+1) N ua ub α C

/-- `RecursiveInverse` (TMV_TriInverse.cpp:50-93): invert the upper triangle stored in `U`; the result is
`none` if `SingularUpperTriMatrix` is thrown.  `mb`, `mb2` are the block sizes of the products. -/
def triInv (nb mb mb2 : Nat) (o : Ord) (brm st ua : Bool) : Nat → Nat → (Nat → Nat → K) → Option (Nat → Nat → K)
  | 0, _, _ => none
  | fuel+1, N, U =>
    if N = 1 then
      if ua then some U
      else if U 0 0 = 0 then none else some (setE U 0 0 (U 0 0)⁻¹)
    else
      let k := splitAt nb N
      (triInv nb mb mb2 o brm st ua fuel k U).bind fun U00 =>
      (triInv nb mb mb2 o brm st ua fuel (N-k) (sub U k k)).map fun U11 =>
        let U := paste (paste U 0 0 k k U00) k k (N-k) (N-k) U11
        -- U01 = -U00 * U01
        let U := paste U 0 k k (N-k) (TriMul.upperRec mb mb2 o false brm st (N-k) (k+1) k ua (-1) U (sub U 0 k))
        -- U01 *= U11, i.e. U01.transpose() = U11.transpose() * U01.transpose()
        paste U 0 k k (N-k) (tr (TriMul.lowerRec mb mb2 o false brm st k (N-k+1) (N-k) ua 1
          (tr (sub U k k)) (tr (sub U 0 k))))

/-- `TriInverse` (TMV_TriInverse.cpp:170-191). -/
def triInverse (nb mb mb2 : Nat) (o : Ord) (brm st ua : Bool) (N : Nat) (U : Nat → Nat → K) :
    Option (Nat → Nat → K) :=
  if N > 0 then triInv nb mb mb2 o brm st ua (N+1) N U else some U

end TMV.TriProd
