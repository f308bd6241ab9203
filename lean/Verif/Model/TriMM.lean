import Verif.Model.TriMul

/-! Triangle times vector and times matrix into another vector or matrix, with or without adding: `MultMV<add>` (TMV_MultUV.cpp:807-898)
and `MultMM<add>` (TMV_MultUM.cpp:688-1166), code used without BLAS.  Conventions as in `Model/TriMul.lean`; the destination is not
conjugated (otherwise the functions call themselves with the conjugates of all operands). -/
namespace TMV.TriMul
open TMV.Tri
variable {K : Type _} [Field K] [DecidableEq K]

/-- `MultMV<add>(alpha,A,x,y)` (TMV_MultUV.cpp:807-898); `f` is `MultEqMV(A,·)`, `unit` is `y.step() == 1`; `y` shares no storage with `A`. -/
def mulV (add unit : Bool) (f : (Nat → K) → Nat → K) (α : K) (N : Nat) (x y : Nat → K) : Nat → K :=
  if α = 0 then (if add then y else fun i => if i < N then 0 else y i)
  else if !add && unit then
    let r := f x
    fun i => if i < N then r i * α else y i
  else
    let xx := f (fun i => α * x i)
    fun i => if i < N then (if add then y i + xx i else xx i) else y i

/-- `RRAddMultMM`, upper (TMV_MultUM.cpp:691-712): `C.row(i) += alpha * A.row(i,i,N) * B.rowRange(i,N)`. -/
def rrAddU (α : K) (N nc : Nat) (A B C : Nat → Nat → K) : Nat → Nat → K :=
  up (fun i C => fun a c => if a = i ∧ c < nc then C a c + α * ∑ k ∈ Finset.range (N-i), A i (i+k) * B (i+k) c else C a c) N 0 C

/-- `CRAddMultMM`, upper (TMV_MultUM.cpp:714-742), `B` and `C` in different storage: `C.rowRange(0,j+1) += alpha * A.col(j,0,j+1) ^ B.row(j)`. -/
def crAddU (α : K) (N nc : Nat) (A B C : Nat → Nat → K) : Nat → Nat → K :=
  up (fun j C => fun a c => if a < j+1 ∧ c < nc then C a c + α * A a j * B j c else C a c) N 0 C

/-- `RRAddMultMM`, lower (TMV_MultUM.cpp:846-864): `C.row(i) += alpha * A.row(i,0,i+1) * B.rowRange(0,i+1)`. -/
def rrAddL (α : K) (N nc : Nat) (A B C : Nat → Nat → K) : Nat → Nat → K :=
  up (fun i C => fun a c => if a = i ∧ c < nc then C a c + α * ∑ k ∈ Finset.range (i+1), A i k * B k c else C a c) N 0 C

/-- `CRAddMultMM`, lower (TMV_MultUM.cpp:866-884): `C.rowRange(j,N) += alpha * A.col(j,j,N) ^ B.row(j)`. -/
def crAddL (α : K) (N nc : Nat) (A B C : Nat → Nat → K) : Nat → Nat → K :=
  up (fun j C => fun a c => if j ≤ a ∧ a < N ∧ c < nc then C a c + α * A a j * B j c else C a c) N 0 C

/-- `CAddMultMM` (TMV_MultUM.cpp:744-761, 886-903): `for j: C.col(j) += alpha * A * B.col(j)`. -/
def cAdd (f : (Nat → K) → Nat → K) (α : K) (N nc : Nat) (B C : Nat → Nat → K) : Nat → Nat → K :=
  up (fun j C => fun a c => if c = j ∧ a < N then mulV true false f α N (fun i => B i j) (fun i => C i j) a else C a c) nc 0 C

/-- The non-unit column-major copy `AA = A` (TMV_MultUM.cpp:806, 948). -/
def nonUnitCopy (ua : Bool) (A : Nat → Nat → K) : Nat → Nat → K := fun i j => if i = j ∧ ua then 1 else A i j

/-- `C += alpha*B` (`N`×`nc`). -/
def addScaled (α : K) (N nc : Nat) (B C : Nat → Nat → K) : Nat → Nat → K :=
  fun a c => if a < N ∧ c < nc then C a c + α * B a c else C a c

/-- `AddMultMM`, upper (TMV_MultUM.cpp:763-840), `B` and `C` in different storage; `brm`, `crm` are `B.isrm()`, `C.isrm()`; fuel bounds the
recursion. -/
def addUpper (nb nb2 : Nat) (brm crm : Bool) (nc : Nat) : Nat → Ord → Nat → Bool → K → (Nat → Nat → K) → (Nat → Nat → K) →
    (Nat → Nat → K) → Nat → Nat → K
  | 0, _, _, _, _, _, _, C => C
  | fuel+1, o, N, ua, α, A, B, C =>
    if N ≤ nb2 then
      if ua ∧ ((o = .rm ∧ crm) ∨ (o = .cm ∧ brm)) then
        let C := if N > 1 then paste C 0 0 (N-1) nc (addUpper nb nb2 brm crm nc fuel o (N-1) false α (sub A 0 1) (sub B 1 0) C) else C
        addScaled α N nc B C
      else if o = .rm ∧ crm then rrAddU α N nc A B C
      else if o = .cm ∧ brm then crAddU α N nc A B C
      else if o = .no then
        let AA := nonUnitCopy ua A
        if brm then crAddU α N nc AA B C else cAdd (upperV .cm false N AA) α N nc B C
      else cAdd (upperV o ua N A) α N nc B C
    else
      let k := splitAt nb N
      let C := paste C 0 0 k nc (addUpper nb nb2 brm crm nc fuel o k ua α A B C)
      let C := addMul α k nc (N-k) (sub A 0 k) (sub B k 0) C
      paste C k 0 (N-k) nc (addUpper nb nb2 brm crm nc fuel o (N-k) ua α (sub A k k) (sub B k 0) (sub C k 0))

/-- `AddMultMM`, lower (TMV_MultUM.cpp:905-983). -/
def addLower (nb nb2 : Nat) (brm crm : Bool) (nc : Nat) : Nat → Ord → Nat → Bool → K → (Nat → Nat → K) → (Nat → Nat → K) →
    (Nat → Nat → K) → Nat → Nat → K
  | 0, _, _, _, _, _, _, C => C
  | fuel+1, o, N, ua, α, A, B, C =>
    if N ≤ nb2 then
      if ua ∧ ((o = .rm ∧ crm) ∨ (o = .cm ∧ brm)) then
        let C := if N > 1 then paste C 1 0 (N-1) nc (addLower nb nb2 brm crm nc fuel o (N-1) false α (sub A 1 0) B (sub C 1 0)) else C
        addScaled α N nc B C
      else if o = .rm ∧ crm then rrAddL α N nc A B C
      else if o = .cm ∧ brm then crAddL α N nc A B C
      else if o = .no then
        let AA := nonUnitCopy ua A
        if brm then crAddL α N nc AA B C else cAdd (lowerV .cm false false N AA) α N nc B C
      else cAdd (lowerV o false ua N A) α N nc B C
    else
      let k := splitAt nb N
      let C := paste C k 0 (N-k) nc (addLower nb nb2 brm crm nc fuel o (N-k) ua α (sub A k k) (sub B k 0) (sub C k 0))
      let C := paste C k 0 (N-k) nc (addMul α (N-k) nc k (sub A k 0) B (sub C k 0))
      paste C 0 0 k nc (addLower nb nb2 brm crm nc fuel o k ua α A B C)

/-- How the operands of `MultMM` share storage: `ac` = `SameStorage(A,C)`, `bc` = `SameStorage(B,C)`, `st` = `B` and `C` have the same
steps. -/
structure Alias where
  ac : Bool
  bc : Bool
  st : Bool

/-- `FullTempMultMM<add>` (TMV_MultUM.cpp:1009-1026, 1085-1102): `g` is `MultEqMM(1,A,·)`. -/
def fullTemp (add : Bool) (g : Nat → (Nat → Nat → K) → Nat → Nat → K) (α : K) (N nc : Nat) (B C : Nat → Nat → K) : Nat → Nat → K :=
  let B2 := g nc (fun i c => α * B i c)
  fun i c => if i < N ∧ c < nc then (if add then C i c + B2 i c else B2 i c) else C i c

/-- `BlockTempMultMM<true>` (TMV_MultUM.cpp:985-1007, 1104-1126) when `B` is `C` itself or `C.conjugate()`: each block of `bs` columns of
`B` = `φ(C)` is read, multiplied and added to the same columns of `C`; fuel bounds the loop. -/
def blockTemp (g : Nat → (Nat → Nat → K) → Nat → Nat → K) (φ : K → K) (α : K) (bs N nc : Nat) : Nat → Nat → (Nat → Nat → K) → Nat → Nat → K
  | 0, _, C => C
  | fuel+1, j, C =>
    if j < nc then
      let j2 := min nc (j+bs)
      let B2 := g (j2-j) (fun i c => α * φ (C i (j+c)))
      blockTemp g φ α bs N nc fuel j2 (fun i c => if i < N ∧ j ≤ c ∧ c < j2 then C i c + B2 i (c-j) else C i c)
    else C

/-- `MultMM<add>(alpha,A,B,C)` (TMV_MultUM.cpp:1028-1083, 1128-1180), `upper` or lower `A`.  `B` are the elements of the second operand
before the call; if it is `C` itself (`bc` and `st`) these are `φ(C)`.  `brm`, `crm` = `isrm()`, `bst`, `cst` = "columns have unit step"
(`bst` for the temporary: never if it is row major). -/
def mulM (upper add : Bool) (al : Alias) (φ : K → K) (nb nb2 : Nat) (o : Ord) (brm crm cst : Bool) (N nc : Nat) (ua : Bool) (α : K)
    (A B C : Nat → Nat → K) : Nat → Nat → K :=
  let g (rm st : Bool) (n : Nat) (X : Nat → Nat → K) : Nat → Nat → K :=
    if upper then upperRec nb nb2 o false rm st n (N+1) N ua 1 A X else lowerRec nb nb2 o false rm st n (N+1) N ua 1 A X
  if N > 0 ∧ nc > 0 then
    if α = 0 then (if add then C else fun i c => if i < N ∧ c < nc then 0 else C i c)
    else if al.ac then fullTemp add (g brm (!brm)) α N nc B C
    else if !add then g crm cst nc (fun i c => if i < N ∧ c < nc then α * B i c else C i c)
    else if al.bc then
      if al.st then blockTemp (g brm (!brm)) φ α nb N nc (nc+1) 0 C else fullTemp add (g brm (!brm)) α N nc B C
    else if upper then addUpper nb nb2 brm crm nc (N+1) o N ua α A B C else addLower nb nb2 brm crm nc (N+1) o N ua α A B C
  else C

/-- `MultMV<false>(alpha,U,x,y)` when `y` is the first column, with unit step, of the column-major matrix `m` that holds the upper triangle
`U` (not unit): `y = x; MultEqMV(U,y); y *= alpha` (TMV_MultUV.cpp:826-829), for an `x` whose first and last element are not zero, so that
`MultEqMV` is `DoColMultEqMV` (TMV_MultUV.cpp:147-195).  The state is the matrix. -/
def mulVCol0 (α : K) (N : Nat) (x : Nat → K) (m : Nat → Nat → K) : Nat → Nat → K :=
  let m : Nat → Nat → K := fun i c => if c = 0 ∧ i < N then x i else m i c
  let m : Nat → Nat → K := fun i c => if c = 0 ∧ i = 0 then m 0 0 * m 0 0 else m i c
  let m := up (fun j m =>
    if m j 0 ≠ 0 then
      let m := up (fun i m => fun a c => if a = i ∧ c = 0 then m i 0 + m j 0 * m i j else m a c) j 0 m
      fun a c => if a = j ∧ c = 0 then m j 0 * m j j else m a c
    else m) (N-1) 1 m
  fun i c => if c = 0 ∧ i < N then m i c * α else m i c

end TMV.TriMul
