import Verif.Model.Tri
import Verif.Model.Loop
import Verif.Model.Vec
import Mathlib.Algebra.BigOperators.Intervals
import Mathlib.Algebra.Star.Basic

/-! Products of two triangular matrices of the same shape (src/TMV_MultUU.cpp), on the square array of numbers that holds the destination.
Exact arithmetic, one element type.  An operand is either apart from the destination, or is kept in the same array: the same triangle, or
the other one (the transpose), both with or without conjugation.  The products and sums of rows, columns and blocks that the code leaves
to other functions of the library are taken as the mathematical ones; `row*triangle` is a sum over the indices within the triangle.
Indices are absolute: a function on `subTriMatrix(o,o+n)` takes `o` and `n`. -/
namespace TMV.TriUU
open TMV.Tri
variable {K : Type _}

/-- Where an operand is kept, relative to the destination. -/
inductive Src (K : Type _) where
  | apart (A : Nat → Nat → K)
  | same (c : Bool)
  | other (c : Bool)

/-- The number `A(i,j)` off an implicit diagonal, read when the array of the destination holds `X`. -/
def Src.rd [Star K] : Src K → (Nat → Nat → K) → Nat → Nat → K
  | .apart A, _, i, j => A i j
  | .same c, X, i, j => cj c (X i j)
  | .other c, X, i, j => cj c (X j i)

/-- `SameStorage(A,B)` with the destination (include/tmv/TMV_Base.h:243-252). -/
def Src.ss : Src K → Bool
  | .apart _ => false
  | _ => true

/-- `conjugate()`. -/
def Src.conj [Star K] : Src K → Src K
  | .apart A => .apart fun i j => star (A i j)
  | .same c => .same (!c)
  | .other c => .other (!c)

/-- An element of a triangular matrix with or without an implicit diagonal (`u`). -/
def el [One K] (u : Bool) (x : Nat → Nat → K) (i j : Nat) : K := if u = true ∧ i = j then 1 else x i j

/-- `(i,j)` is stored by the upper triangular matrix on `o..o+n-1`. -/
def St (u : Bool) (o n i j : Nat) : Prop := o ≤ i ∧ i ≤ j ∧ j < o + n ∧ (u = true → i < j)

instance (u : Bool) (o n i j : Nat) : Decidable (St u o n i j) := by unfold St; infer_instance

/-- `B *= alpha` on the stored elements. -/
def scaleT [Mul K] (α : K) (o n : Nat) (X : Nat → Nat → K) : Nat → Nat → K := fun p c =>
  if St false o n p c then X p c * α else X p c

variable [Field K] [Star K] [DecidableEq K]

/-! ### `B = alpha*A*B`, upper -/

/-- One turn of the loop of `RRMultEqMM`, upper (TMV_MultUU.cpp:68-91). -/
def rrStep (A : Src K) (ua ub : Bool) (α : K) (o n i : Nat) (X : Nat → Nat → K) : Nat → Nat → K :=
  if ua then
    let X' : Nat → Nat → K := fun p c => if p = i ∧ i + 1 ≤ c ∧ c < o + n then
      X p c + ∑ k ∈ Finset.Ico (i + 1) (c + 1), A.rd X i k * el ub X k c else X p c
    if ub then X' else fun p c => if p = i ∧ i ≤ c ∧ c < o + n then X' p c * α else X' p c
  else
    let aa := if α ≠ 1 then A.rd X i i * α else A.rd X i i
    let X' : Nat → Nat → K := fun p c => if p = i ∧ i + 1 ≤ c ∧ c < o + n then
      aa * X p c + α * ∑ k ∈ Finset.Ico (i + 1) (c + 1), A.rd X i k * X k c else X p c
    fun p c => if p = i ∧ c = i then X' p c * aa else X' p c

/-- `RRMultEqMM`, upper (TMV_MultUU.cpp:53-92). -/
def rrMul (A : Src K) (ua ub : Bool) (α : K) (o n : Nat) (X : Nat → Nat → K) : Nat → Nat → K :=
  up (fun i X => rrStep A ua ub α o n i X) n o X

/-- One turn of the loops of `CRMultEqMM`, upper (TMV_MultUU.cpp:110-126). -/
def crStep (A : Src K) (ua ub : Bool) (o n j : Nat) (X : Nat → Nat → K) : Nat → Nat → K :=
  if ua then
    if ub then
      let X' : Nat → Nat → K := fun p c => if o ≤ p ∧ p < j ∧ j + 1 ≤ c ∧ c < o + n then X p c + A.rd X p j * X j c else X p c
      fun p c => if o ≤ p ∧ p < j ∧ c = j then X' p c + A.rd X' p j else X' p c
    else fun p c => if o ≤ p ∧ p < j ∧ j ≤ c ∧ c < o + n then X p c + A.rd X p j * X j c else X p c
  else
    let X' : Nat → Nat → K := fun p c => if o ≤ p ∧ p < j ∧ j ≤ c ∧ c < o + n then X p c + A.rd X p j * X j c else X p c
    fun p c => if p = j ∧ j ≤ c ∧ c < o + n then X' p c * A.rd X' j j else X' p c

/-- `CRMultEqMM`, upper (TMV_MultUU.cpp:94-130). -/
def crMul (A : Src K) (ua ub : Bool) (α : K) (o n : Nat) (X : Nat → Nat → K) : Nat → Nat → K :=
  if ua ∧ ub then up (fun j X => crStep A ua ub o n j X) (n - 1) (o + 1) X
  else scaleT α o n (up (fun j X => crStep A ua ub o n j X) n o X)

/-- One column of `CMultEqMM`, upper (TMV_MultUU.cpp:157-186); with an implicit diagonal of `B` the column of `A` is kept in a vector
beforehand if `A` is in the same storage. -/
def cStep (A : Src K) (ua ub : Bool) (α : K) (o j : Nat) (X : Nat → Nat → K) : Nat → Nat → K :=
  if ub then
    let a0 : Nat → K := fun p => A.rd X p j
    let X' : Nat → Nat → K := fun p c => if o ≤ p ∧ p < j ∧ c = j then
      ∑ k ∈ Finset.Ico p j, el ua (A.rd X) p k * X k j else X p c
    fun p c => if o ≤ p ∧ p < j ∧ c = j then X' p c + (if A.ss then a0 p else A.rd X' p j) else X' p c
  else fun p c => if o ≤ p ∧ p ≤ j ∧ c = j then α * ∑ k ∈ Finset.Ico p (j + 1), el ua (A.rd X) p k * X k j else X p c

/-- `CMultEqMM`, upper (TMV_MultUU.cpp:132-193). -/
def cMul (A : Src K) (ua ub : Bool) (α : K) (o n : Nat) (X : Nat → Nat → K) : Nat → Nat → K :=
  if ub then down (fun r X => cStep A ua ub α o (o + 1 + r) X) (n - 1) X
  else if A.ss then down (fun r X => cStep A ua ub α o (o + r) X) n X
  else up (fun j X => cStep A ua ub α o j X) n o X

/-- The small case of `MultEqMM`, upper (TMV_MultUU.cpp:219-256); `oa`, `ob` the layouts of `A` and `B`.  The temporary `BB` starts as a copy
of the array. -/
def leafU (oa ob : Ord) (A : Src K) (ua ub : Bool) (α : K) (o n : Nat) (X : Nat → Nat → K) : Nat → Nat → K :=
  if oa = .rm ∧ ob = .rm then rrMul A ua ub α o n X
  else if oa = .cm ∧ ob = .rm then crMul A ua ub α o n X
  else if ob = .cm then cMul A ua ub α o n X
  else
    let BB := cMul (.apart (A.rd X)) ua ub α o n X
    fun p c => if St ub o n p c then BB p c else X p c

/-- `A` is in the triangle of the destination: the test that chooses the size of the first block and the form of the off-diagonal block
(TMV_MultUU.cpp:257-291). -/
def Src.tri : Src K → Bool
  | .same _ => true
  | _ => false

/-- The off-diagonal block, `k` rows, of `MultEqMM`, upper (TMV_MultUU.cpp:268-286). -/
def blkU (A : Src K) (ua ub : Bool) (α : K) (o n k : Nat) (X : Nat → Nat → K) : Nat → Nat → K :=
  if A.tri = true then
    fun p c => if o ≤ p ∧ p < o + k ∧ o + k ≤ c ∧ c < o + n then
      α * (∑ l ∈ Finset.Ico p (o + k), el ua (A.rd X) p l * X l c) +
        α * ∑ l ∈ Finset.Ico (o + k) (c + 1), A.rd X p l * el ub X l c else X p c
  else
    let X' : Nat → Nat → K := fun p c => if o ≤ p ∧ p < o + k ∧ o + k ≤ c ∧ c < o + n then
      α * ∑ l ∈ Finset.Ico p (o + k), el ua (A.rd X) p l * X l c else X p c
    fun p c => if o ≤ p ∧ p < o + k ∧ o + k ≤ c ∧ c < o + n then
      X' p c + α * ∑ l ∈ Finset.Ico (o + k) (c + 1), A.rd X' p l * el ub X' l c else X' p c

/-- The size of the first block (TMV_MultUU.cpp:258-262). -/
def splitU (nb : Nat) (sto : Bool) (n : Nat) : Nat := if n / 2 > nb then (if sto = true then nb else n / 2 / nb * nb) else n / 2

/-- `MultEqMM`, upper (TMV_MultUU.cpp:195-291): `B = alpha*A*B`; fuel bounds the recursion. -/
def eqU (nb nb2 : Nat) (oa ob : Ord) (A : Src K) (ua ub : Bool) (α : K) : Nat → Nat → Nat → (Nat → Nat → K) → Nat → Nat → K
  | 0, _, _, X => X
  | fuel+1, o, n, X =>
    if n ≤ nb2 then leafU oa ob A ua ub α o n X
    else
      let k := splitU nb A.tri n
      eqU nb nb2 oa ob A ua ub α fuel (o + k) (n - k) (eqU nb nb2 oa ob A ua ub α fuel o k (blkU A ua ub α o n k X))

/-! ### `B = alpha*A*B`, lower.  Used only when `A` is apart from `B` (TMV_MultUU.cpp:789-790). -/

/-- One turn of the loop of `RRMultEqMM`, lower (TMV_MultUU.cpp:308-332). -/
def rrStepL (A : Nat → Nat → K) (ua ub : Bool) (α : K) (o i : Nat) (X : Nat → Nat → K) : Nat → Nat → K :=
  if ua then
    let X' : Nat → Nat → K := fun p c => if p = i ∧ o ≤ c ∧ c < i then X p c + ∑ k ∈ Finset.Ico c i, A i k * el ub X k c else X p c
    fun p c => if p = i ∧ o ≤ c ∧ c < i then X' p c * α else X' p c
  else
    let aa := if α ≠ 1 then A i i * α else A i i
    let X' : Nat → Nat → K := fun p c => if p = i ∧ o ≤ c ∧ c < i then aa * X p c + α * ∑ k ∈ Finset.Ico c i, A i k * X k c else X p c
    fun p c => if p = i ∧ c = i then X' p c * aa else X' p c

/-- `RRMultEqMM`, lower (TMV_MultUU.cpp:293-332). -/
def rrMulL (A : Nat → Nat → K) (ua ub : Bool) (α : K) (o n : Nat) (X : Nat → Nat → K) : Nat → Nat → K :=
  let X := down (fun r X => rrStepL A ua ub α o (o + r) X) n X
  if ua ∧ ¬ ub then (fun p c => if p = c ∧ o ≤ p ∧ p < o + n then X p c * α else X p c) else X

/-- One turn of the loops of `CRMultEqMM`, lower (TMV_MultUU.cpp:349-366). -/
def crStepL (A : Nat → Nat → K) (ua ub : Bool) (o n j : Nat) (X : Nat → Nat → K) : Nat → Nat → K :=
  if ua then
    if ub then
      let X' : Nat → Nat → K := fun p c => if j < p ∧ p < o + n ∧ o ≤ c ∧ c < j then X p c + A p j * X j c else X p c
      fun p c => if j < p ∧ p < o + n ∧ c = j then X' p c + A p j else X' p c
    else fun p c => if j < p ∧ p < o + n ∧ o ≤ c ∧ c ≤ j then X p c + A p j * X j c else X p c
  else
    let X' : Nat → Nat → K := fun p c => if j < p ∧ p < o + n ∧ o ≤ c ∧ c ≤ j then X p c + A p j * X j c else X p c
    fun p c => if p = j ∧ o ≤ c ∧ c ≤ j then X' p c * A j j else X' p c

/-- `CRMultEqMM`, lower (TMV_MultUU.cpp:334-368). -/
def crMulL (A : Nat → Nat → K) (ua ub : Bool) (α : K) (o n : Nat) (X : Nat → Nat → K) : Nat → Nat → K :=
  let X := down (fun r X => crStepL A ua ub o n (o + r) X) n X
  if ua ∧ ub then X else fun p c => if o ≤ c ∧ c ≤ p ∧ p < o + n then X p c * α else X p c

/-- One column of `CMultEqMM`, lower (TMV_MultUU.cpp:383-390). -/
def cStepL (A : Nat → Nat → K) (ua ub : Bool) (α : K) (o n j : Nat) (X : Nat → Nat → K) : Nat → Nat → K :=
  if ub then
    let X' : Nat → Nat → K := fun p c => if j < p ∧ p < o + n ∧ c = j then
      ∑ k ∈ Finset.Ico (j + 1) (p + 1), el ua A p k * X k j else X p c
    fun p c => if j < p ∧ p < o + n ∧ c = j then X' p c + A p j else X' p c
  else fun p c => if j ≤ p ∧ p < o + n ∧ c = j then α * ∑ k ∈ Finset.Ico j (p + 1), el ua A p k * X k j else X p c

/-- `CMultEqMM`, lower (TMV_MultUU.cpp:370-391). -/
def cMulL (A : Nat → Nat → K) (ua ub : Bool) (α : K) (o n : Nat) (X : Nat → Nat → K) : Nat → Nat → K :=
  up (fun j X => cStepL A ua ub α o n j X) (if ub then n - 1 else n) o X

/-- `(i,j)` is stored by the lower triangular matrix on `o..o+n-1`. -/
def StL (u : Bool) (o n i j : Nat) : Prop := St u o n j i

instance (u : Bool) (o n i j : Nat) : Decidable (StL u o n i j) := by unfold StL; infer_instance

/-- The small case of `MultEqMM`, lower (TMV_MultUU.cpp:416-453). -/
def leafL (oa ob : Ord) (A : Nat → Nat → K) (ua ub : Bool) (α : K) (o n : Nat) (X : Nat → Nat → K) : Nat → Nat → K :=
  if oa = .rm ∧ ob = .rm then rrMulL A ua ub α o n X
  else if oa = .cm ∧ ob = .rm then crMulL A ua ub α o n X
  else if ob = .cm then cMulL A ua ub α o n X
  else
    let BB := cMulL A ua ub α o n X
    fun p c => if StL ub o n p c then BB p c else X p c

/-- The off-diagonal block, `k` columns, of `MultEqMM`, lower (TMV_MultUU.cpp:463-482). -/
def blkL (A : Nat → Nat → K) (ua ub : Bool) (α : K) (o n k : Nat) (X : Nat → Nat → K) : Nat → Nat → K :=
  let X' : Nat → Nat → K := fun p c => if o + k ≤ p ∧ p < o + n ∧ o ≤ c ∧ c < o + k then
    α * ∑ l ∈ Finset.Ico (o + k) (p + 1), el ua A p l * X l c else X p c
  fun p c => if o + k ≤ p ∧ p < o + n ∧ o ≤ c ∧ c < o + k then
    X' p c + α * ∑ l ∈ Finset.Ico c (o + k), A p l * el ub X' l c else X' p c

/-- `MultEqMM`, lower (TMV_MultUU.cpp:393-487). -/
def eqL (nb nb2 : Nat) (oa ob : Ord) (A : Nat → Nat → K) (ua ub : Bool) (α : K) : Nat → Nat → Nat → (Nat → Nat → K) → Nat → Nat → K
  | 0, _, _, X => X
  | fuel+1, o, n, X =>
    if n ≤ nb2 then leafL oa ob A ua ub α o n X
    else
      let k := splitU nb false n
      eqL nb nb2 oa ob A ua ub α fuel (o + k) (n - k) (eqL nb nb2 oa ob A ua ub α fuel o k (blkL A ua ub α o n k X))

/-! ### `C += alpha*A*B`; `A` and `B` apart from `C` -/

/-- One turn of the loops of `RRAddMultMM` (TMV_MultUU.cpp:508-532). -/
def rrAddStep (A B : Nat → Nat → K) (ua ub : Bool) (α : K) (o n i : Nat) (C : Nat → Nat → K) : Nat → Nat → K :=
  if ua then
    let C1 : Nat → Nat → K := fun p c => if p = i ∧ i + 1 ≤ c ∧ c < o + n then
      C p c + α * ∑ k ∈ Finset.Ico (i + 1) (c + 1), A i k * el ub B k c else C p c
    if ub then
      let C2 : Nat → Nat → K := fun p c => if p = i ∧ i + 1 ≤ c ∧ c < o + n then C1 p c + α * B i c else C1 p c
      fun p c => if p = i ∧ c = i then C2 p c + α else C2 p c
    else fun p c => if p = i ∧ i ≤ c ∧ c < o + n then C1 p c + α * B i c else C1 p c
  else fun p c => if p = i ∧ i ≤ c ∧ c < o + n then C p c + α * ∑ k ∈ Finset.Ico i (c + 1), A i k * el ub B k c else C p c

/-- One turn of the loops of `CRAddMultMM` (TMV_MultUU.cpp:553-582). -/
def crAddStep (A B : Nat → Nat → K) (ua ub : Bool) (α : K) (o n j : Nat) (C : Nat → Nat → K) : Nat → Nat → K :=
  if ua then
    if ub then
      let C1 : Nat → Nat → K := fun p c => if o ≤ p ∧ p < j ∧ j + 1 ≤ c ∧ c < o + n then C p c + α * (A p j * B j c) else C p c
      let C2 : Nat → Nat → K := fun p c => if o ≤ p ∧ p < j ∧ c = j then C1 p c + α * A p j else C1 p c
      let C3 : Nat → Nat → K := fun p c => if p = j ∧ j + 1 ≤ c ∧ c < o + n then C2 p c + α * B j c else C2 p c
      fun p c => if p = j ∧ c = j then C3 p c + α else C3 p c
    else
      let C1 : Nat → Nat → K := fun p c => if o ≤ p ∧ p < j ∧ j ≤ c ∧ c < o + n then C p c + α * (A p j * B j c) else C p c
      fun p c => if p = j ∧ j ≤ c ∧ c < o + n then C1 p c + α * B j c else C1 p c
  else
    if ub then
      let C1 : Nat → Nat → K := fun p c => if o ≤ p ∧ p < j + 1 ∧ j + 1 ≤ c ∧ c < o + n then C p c + α * (A p j * B j c) else C p c
      fun p c => if o ≤ p ∧ p < j + 1 ∧ c = j then C1 p c + α * A p j else C1 p c
    else fun p c => if o ≤ p ∧ p < j + 1 ∧ j ≤ c ∧ c < o + n then C p c + α * (A p j * B j c) else C p c

/-- One turn of the loops of `CAddMultMM` (TMV_MultUU.cpp:602-623). -/
def cAddStep (A B : Nat → Nat → K) (ua ub : Bool) (α : K) (o j : Nat) (C : Nat → Nat → K) : Nat → Nat → K :=
  if ub then
    let C1 : Nat → Nat → K := fun p c => if o ≤ p ∧ p < j ∧ c = j then
      C p c + α * ∑ k ∈ Finset.Ico p j, el ua A p k * B k j else C p c
    if ua then
      let C2 : Nat → Nat → K := fun p c => if o ≤ p ∧ p < j ∧ c = j then C1 p c + α * A p j else C1 p c
      fun p c => if p = j ∧ c = j then C2 p c + α else C2 p c
    else fun p c => if o ≤ p ∧ p < j + 1 ∧ c = j then C1 p c + α * A p j else C1 p c
  else fun p c => if o ≤ p ∧ p < j + 1 ∧ c = j then C p c + α * ∑ k ∈ Finset.Ico p (j + 1), el ua A p k * B k j else C p c

/-- The small case of `AddMultMM` (TMV_MultUU.cpp:643-679): operands in the wrong layout are copied (`fuel`: at most three copies). -/
def addLeaf (A B : Nat → Nat → K) (ua ub : Bool) (α : K) (o n : Nat) : Nat → Ord → Ord → Ord → (Nat → Nat → K) → Nat → Nat → K
  | 0, _, _, _, C => C
  | fuel+1, oa, ob, oc, C =>
    if oa = .rm ∧ ob = .rm ∧ oc = .rm then up (fun i C => rrAddStep A B ua ub α o n i C) n o C
    else if oa = .cm ∧ ob = .rm ∧ oc = .rm then up (fun j C => crAddStep A B ua ub α o n j C) n o C
    else if oa = .no then addLeaf A B ua ub α o n fuel .cm ob oc C
    else if ob = .cm ∧ oc = .cm then up (fun j C => cAddStep A B ua ub α o j C) n o C
    else if oc = .rm then addLeaf A B ua ub α o n fuel oa .rm oc C
    else if oc = .cm then addLeaf A B ua ub α o n fuel oa .cm oc C
    else
      let CC := addLeaf A B ua ub α o n fuel oa ob .cm C
      fun p c => if St false o n p c then CC p c else C p c

/-- The off-diagonal block, `k` rows, of `AddMultMM` (TMV_MultUU.cpp:680-699). -/
def addBlk (A B : Nat → Nat → K) (ua ub : Bool) (α : K) (o n k : Nat) (C : Nat → Nat → K) : Nat → Nat → K :=
  let C : Nat → Nat → K := fun p c => if o ≤ p ∧ p < o + k ∧ o + k ≤ c ∧ c < o + n then
    C p c + α * ∑ l ∈ Finset.Ico p (o + k), el ua A p l * B l c else C p c
  fun p c => if o ≤ p ∧ p < o + k ∧ o + k ≤ c ∧ c < o + n then
    C p c + α * ∑ l ∈ Finset.Ico (o + k) (c + 1), A p l * el ub B l c else C p c

/-- `AddMultMM` (TMV_MultUU.cpp:626-702): `C += alpha*A*B`. -/
def addU (nb nb2 : Nat) (oa ob oc : Ord) (A B : Nat → Nat → K) (ua ub : Bool) (α : K) : Nat → Nat → Nat → (Nat → Nat → K) → Nat → Nat → K
  | 0, _, _, C => C
  | fuel+1, o, n, C =>
    if n ≤ nb2 then addLeaf A B ua ub α o n 4 oa ob oc C
    else
      let k := splitU nb false n
      addU nb nb2 oa ob oc A B ua ub α fuel (o + k) (n - k) (addBlk A B ua ub α o n k (addU nb nb2 oa ob oc A B ua ub α fuel o k C))

/-! ### The product -/

/-- An operand: where it is, `isunit()`, and its layout. -/
structure Opd (K : Type _) where
  src : Src K
  unit : Bool
  ord : Ord

/-- Its elements in the triangle. -/
def Opd.el (A : Opd K) (X : Nat → Nat → K) : Nat → Nat → K := TriUU.el A.unit (A.src.rd X)

/-- The layout of the transpose. -/
def flip : Ord → Ord
  | .rm => .cm
  | .cm => .rm
  | .no => .no

/-- `C = A` for a triangular `A` (include/tmv/TMV_TriMatrix.h:619-632): the elements stored by `C`. -/
def setT (uc : Bool) (N : Nat) (a X : Nat → Nat → K) : Nat → Nat → K := fun i j => if St uc 0 N i j then a i j else X i j

/-- `TempMultMM<add>(alpha,A,B,C)` (TMV_MultUU.cpp:704-735). -/
def tempMul (nb nb2 : Nat) (add uc : Bool) (α : K) (N : Nat) (A B : Opd K) (X : Nat → Nat → K) : Nat → Nat → K :=
  let ut := uc && B.unit
  let T := eqU nb nb2 A.ord (if B.ord = .rm then .rm else .cm) (.apart (A.src.rd X)) A.unit ut α (N + 1) 0 N (setT ut N (B.el X) X)
  if add then fun i j => if St uc 0 N i j then X i j + el ut T i j else X i j
  else setT uc N (el ut T) X

/-- `C.isSameAs(B)` (include/tmv/TMV_TriMatrix.h:590-598) for a `C` that is not conjugated. -/
def isSame (uc : Bool) (B : Opd K) : Bool := match B.src with
  | .same c => !c && (B.unit == uc)
  | _ => false

/-- `MultMM<add>(alpha,A,B,C)` for a `C` that is not conjugated (TMV_MultUU.cpp:755-797); `uc` = `C.isunit()`, `oc` its layout. -/
def mulNC (nb nb2 : Nat) (add uc : Bool) (oc : Ord) (α : K) (N : Nat) (A B : Opd K) (X : Nat → Nat → K) : Nat → Nat → K :=
  if α = 0 then (if add then X else setT uc N (fun _ _ => 0) X)
  else if add then
    if A.src.ss || B.src.ss then tempMul nb nb2 add uc α N A B X
    else addU nb nb2 A.ord B.ord oc (A.src.rd X) (B.src.rd X) A.unit B.unit α (N + 1) 0 N X
  else if A.src.ss then
    if B.src.ss then
      if isSame uc B then eqU nb nb2 A.ord oc A.src A.unit uc α (N + 1) 0 N X
      else tempMul nb nb2 add uc α N A B X
    else
      let X1 := setT uc N (A.el X) X
      fun i j => eqL nb nb2 (flip B.ord) (flip oc) (fun i j => B.src.rd X1 j i) B.unit uc α (N + 1) 0 N (fun i j => X1 j i) j i
  else
    eqU nb nb2 A.ord oc A.src A.unit uc α (N + 1) 0 N (setT uc N (B.el X) X)

/-- `MultMM<add>(alpha,A,B,C)`, i.e. `C (+)= alpha*A*B` for upper triangular matrices (TMV_MultUU.cpp:737-806); `cc` = `C.isconj()`, `X` the
numbers stored in the array of `C`; `nb`, `nb2` are the block sizes (TMV_MultUU.cpp:41-47).  Lower triangular matrices are passed as their
transposes, in the reverse order (include/tmv/TMV_TriMatrixArithFunc.h:143-147). -/
def mulUU (nb nb2 : Nat) (add cc uc : Bool) (oc : Ord) (α : K) (N : Nat) (A B : Opd K) (X : Nat → Nat → K) : Nat → Nat → K :=
  if N > 0 then
    if cc then mulNC nb nb2 add uc oc (star α) N { A with src := A.src.conj } { B with src := B.src.conj } X
    else mulNC nb nb2 add uc oc α N A B X
  else X

/-- `transpose()` of an operand; the array of the destination is transposed with it. -/
def Opd.tr (A : Opd K) : Opd K where
  src := match A.src with
    | .apart a => .apart fun i j => a j i
    | .same c => .same c
    | .other c => .other c
  unit := A.unit
  ord := flip A.ord

/-- `MultMM<add>(alpha,A,B,C)` for lower triangular matrices: `MultMM<add>(alpha,B.transpose(),A.transpose(),C.transpose())`
(include/tmv/TMV_TriMatrixArithFunc.h:143-147). -/
def mulLL (nb nb2 : Nat) (add cc uc : Bool) (oc : Ord) (α : K) (N : Nat) (A B : Opd K) (X : Nat → Nat → K) : Nat → Nat → K :=
  fun i j => mulUU nb nb2 add cc uc (flip oc) α N B.tr A.tr (fun i j => X j i) j i

end TMV.TriUU
