import Verif.Model.Conc

/-!
`OpenMPMultMM` (src/TMV_MultMM_OpenMP.cpp).  The copies and the additions that the blocked algorithm makes are between matrices with
different first elements; their branch for aliased arguments is undefined here (and the theorems say that it is not reached).
-/
namespace TMV
variable {K : Type _}
namespace MView
section
variable [Star K] [Ring K] [DecidableEq K]

omit [Ring K] [DecidableEq K] in
/-- `B = A` (`Copy`, include/tmv/TMV_Matrix.h:3691-3733), without the branch `SameStorage(m1,m2)`. -/
def copyNA (A B : MView) (m : Mem K) : Option (Mem K) :=
  if B.rs > 0 ∧ B.cs > 0 then
    if A.ptr = B.ptr then none else copyDiff A B m
  else some m

/-- `AddMM(alpha,A,B)`, i.e. `B += alpha*A` (src/TMV_AddMM.cpp:134-167), without the branch `SameStorage(A,B)`. -/
def addNA (x : K) (A B : MView) (m : Mem K) : Option (Mem K) :=
  if x ≠ 0 ∧ B.cs > 0 ∧ B.rs > 0 then
    if A.sameStorage B then none
    else if B.conj then doAdd (star x) A.conjugate B.conjugate m
    else doAdd x A B m
  else some m

/-- `C.subMatrix(i1,i2,j1,j2) (+)= x*P` (src/TMV_MultMM_Block.cpp:88-99; cf. `blockStore`). -/
def storeNA (add : Bool) (x : K) (P C : MView) (m : Mem K) : Option (Mem K) :=
  if add then addNA x P C m
  else if x ≠ 1 then (copyNA P C m).bind fun m => C.mulX x m
  else copyNA P C m

end
end MView

/-! ### The calls of `DoBlockMultMM` on real matrices that `BlockMultMM` makes -/

/-- What `SingleBlockMultMM` does with the finished block: `C.subMatrix(..) (+)= x*Cp`, or the same with the real or imaginary part of C
(an update `g c p` of the elements of C). -/
inductive StoreKind (K : Type _)
  | whole (add : Bool) (x : K)
  | part (g : K → K → K)

/-- One call of `DoBlockMultMM`: `fa`, `fb` say which part of A and B is multiplied (none: A, B themselves). -/
structure Call (K : Type _) where
  fa : Option (K → K)
  fb : Option (K → K)
  st : StoreKind K

section
variable [Star K] [Ring K] [DecidableEq K]

/-- The calls of `DoBlockMultMM` for real matrices, in order (src/TMV_MultMM_Block.cpp:334-391, 394-399). -/
def blockCalls (E : ElemTy K) (ca cb add : Bool) (x : K) (A B : MView) : List (Call K) :=
  let xr := E.re x
  let ix := E.I * x
  match ca, cb with
  | false, false => [⟨none, none, .whole add x⟩]
  | false, true =>
    if E.im x = 0 then
      [⟨none, some E.re, .part (MView.reUpd E add xr)⟩, ⟨none, some E.im, .part (MView.imUpd E add (if B.conj then -xr else xr))⟩]
    else [⟨none, some E.re, .whole add x⟩, ⟨none, some E.im, .whole true (if B.conj then -ix else ix)⟩]
  | true, false =>
    if E.im x = 0 then
      [⟨some E.re, none, .part (MView.reUpd E add xr)⟩, ⟨some E.im, none, .part (MView.imUpd E add (if A.conj then -xr else xr))⟩]
    else [⟨some E.re, none, .whole add x⟩, ⟨some E.im, none, .whole true (if A.conj then -ix else ix)⟩]
  | true, true =>
    if E.im x = 0 then
      [⟨some E.re, some E.re, .part (MView.reUpd E add xr)⟩,
       ⟨some E.im, some E.im, .part (MView.reUpd E true (if A.conj = B.conj then -xr else xr))⟩,
       ⟨some E.re, some E.im, .part (MView.imUpd E add (if B.conj then -xr else xr))⟩,
       ⟨some E.im, some E.re, .part (MView.imUpd E true (if A.conj then -xr else xr))⟩]
    else
      [⟨some E.re, some E.re, .whole add x⟩, ⟨some E.im, some E.im, .whole true (if A.conj = B.conj then -x else x)⟩,
       ⟨some E.re, some E.im, .whole true (if B.conj then -ix else ix)⟩, ⟨some E.im, some E.re, .whole true (if A.conj then -ix else ix)⟩]

/-- The copies and the addition of one call, as in `blockPart` (with the allocator for the temporaries of aliased copies). -/
def Call.ops (E : ElemTy K) (al : Alloc K) (c : Call K) : BlockOps K where
  KB := E.KB
  ru := E.ru
  pa := match c.fa with | none => MView.assign al | some f => MView.partCopy f
  pb := match c.fb with | none => MView.assign al | some f => MView.partCopy f
  st := match c.st with | .whole add x => MView.blockStore al add x | .part g => MView.partStore g

/-- The same without the branches for aliased copies. -/
def Call.opsNA (E : ElemTy K) (c : Call K) : BlockOps K where
  KB := E.KB
  ru := E.ru
  pa := match c.fa with | none => MView.copyNA | some f => MView.partCopy f
  pb := match c.fb with | none => MView.copyNA | some f => MView.partCopy f
  st := match c.st with | .whole add x => MView.storeNA add x | .part g => MView.partStore g

/-- The calls one after the other. -/
def runCalls (E : ElemTy K) (al : Alloc K) (A B C : MView) : List (Call K) → Mem K → Option (Mem K)
  | [], m => some m
  | c :: cs, m => (BlockOps.run (c.ops E al) al A B C m).bind fun m => runCalls E al A B C cs m

end

/-! ### The division of the work -/

/-- `((((Mx-1)>>4)+1)<<4)` with `Mx = M/num_threads` (src/TMV_MultMM_OpenMP.cpp:46-47): `>>` rounds down. -/
def ompStep (M T : Nat) : Nat := (((((M / T : Nat) : Int) - 1) / 16 + 1) * 16).toNat

/-- `i1`, `i2` of a thread (src/TMV_MultMM_OpenMP.cpp:48-50). -/
def ompRange (M T t : Nat) : Nat × Nat :=
  let Mx := ompStep M T
  let i1 := t * Mx
  let i2 := (t + 1) * Mx
  (i1, if i2 > M ∨ t = T - 1 then M else i2)

/-- The operands of the call `BlockMultMM<add>(x,..)` that thread `t` of `T` makes, if any (src/TMV_MultMM_OpenMP.cpp:42-64). -/
def ompPart (A B C : MView) (T t : Nat) : Option (MView × MView × MView) :=
  if T = 1 then some (A, B, C)
  else if C.cs > C.rs then
    let r := ompRange C.cs T t
    if r.1 < C.cs then some (A.rowRange r.1 r.2, B, C.rowRange r.1 r.2) else none
  else
    let r := ompRange C.rs T t
    if r.1 < C.rs then some (A, B.colRange r.1 r.2, C.colRange r.1 r.2) else none

end TMV
