import Verif.Model.MatMatBlock

/-!
The matrix product `C (+)= alpha*A*B` (src/TMV_MultMM.cpp) on the memory of `Model/Mem`.  Element types may be real or complex:
one cell of the model's memory holds one element of either kind.
-/
namespace TMV
variable {K : Type _}

/-- `TMV_REAL`, `TMV_IMAG`, `std::complex<RT>(0,1)` and the block size of the real type (`KB` and `RoundUp` of `BlockHelper<RT>`,
src/TMV_MultMM_Block.cpp:96-166). -/
structure ElemTy (K : Type _) where
  re : K → K
  im : K → K
  I : K
  KB : Nat
  ru : Nat → Nat

namespace MView

/-- `D = S.realPart()`, `D = S.imagPart()` for a real `D` (`f` is the real or imaginary part; it is taken of the stored element, whether
or not `S` is conjugated: include/tmv/TMV_Matrix.h:801-815).  The order of the elements is not that of the real code. -/
def partCopy (f : K → K) (S D : MView) (m : Mem K) : Option (Mem K) :=
  loopN (fun i => loopN (fun j m => (m.read (S.addr i j)).bind fun a => m.write (D.addr i j) (f a)) D.rs 0) D.cs 0 m

/-- `D.realPart() (+)= x*P`, `D.imagPart() (+)= x*P` for a real `P` and `x`, as an update `g c p` of the elements of `D`.  The order of
the elements is not that of the real code. -/
def partStore (g : K → K → K) (P D : MView) (m : Mem K) : Option (Mem K) :=
  loopN (fun i => loopN (fun j m => (m.read (P.addr i j)).bind fun p => m.modify (D.addr i j) (fun c => g c p)) D.rs 0) D.cs 0 m

/-- What `D.realPart() (+)= x*P` does to an element. -/
def reUpd [Ring K] (E : ElemTy K) (add : Bool) (x c p : K) : K :=
  (if add then E.re c + x * p else x * p) + E.I * E.im c
/-- What `D.imagPart() (+)= x*P` does to an element. -/
def imUpd [Ring K] (E : ElemTy K) (add : Bool) (x c p : K) : K :=
  E.re c + E.I * (if add then E.im c + x * p else x * p)

section
variable [Star K] [Ring K] [DecidableEq K]

/-- The call `DoBlockMultMM(add,x,A.fa,B.fb,C.realPart())` and so on, with `fa`, `fb` = the identity for a real operand, and `st` the
update of `C`. -/
def blockPart (E : ElemTy K) (al : Alloc K) (pa pb st : MView → MView → Mem K → Option (Mem K)) (A B C : MView) : Mem K → Option (Mem K) :=
  BlockOps.run ⟨E.KB, E.ru, pa, pb, st⟩ al A B C

/-- `DoBlockMultMM` for real A and complex B, C (src/TMV_MultMM_Block.cpp:336-351). -/
def blockRC (E : ElemTy K) (al : Alloc K) (add : Bool) (x : K) (A B C : MView) (m : Mem K) : Option (Mem K) :=
  if E.im x = 0 then
    let xr := E.re x
    (blockPart E al (assign al) (partCopy E.re) (partStore (reUpd E add xr)) A B C m).bind fun m =>
    blockPart E al (assign al) (partCopy E.im) (partStore (imUpd E add (if B.conj then -xr else xr))) A B C m
  else
    let ix := E.I * x
    (blockPart E al (assign al) (partCopy E.re) (blockStore al add x) A B C m).bind fun m =>
    blockPart E al (assign al) (partCopy E.im) (blockStore al true (if B.conj then -ix else ix)) A B C m

/-- `DoBlockMultMM` for complex A, C and real B (src/TMV_MultMM_Block.cpp:352-367). -/
def blockCR (E : ElemTy K) (al : Alloc K) (add : Bool) (x : K) (A B C : MView) (m : Mem K) : Option (Mem K) :=
  if E.im x = 0 then
    let xr := E.re x
    (blockPart E al (partCopy E.re) (assign al) (partStore (reUpd E add xr)) A B C m).bind fun m =>
    blockPart E al (partCopy E.im) (assign al) (partStore (imUpd E add (if A.conj then -xr else xr))) A B C m
  else
    let ix := E.I * x
    (blockPart E al (partCopy E.re) (assign al) (blockStore al add x) A B C m).bind fun m =>
    blockPart E al (partCopy E.im) (assign al) (blockStore al true (if A.conj then -ix else ix)) A B C m

/-- `DoBlockMultMM` for complex A, B, C (src/TMV_MultMM_Block.cpp:368-391). -/
def blockCC (E : ElemTy K) (al : Alloc K) (add : Bool) (x : K) (A B C : MView) (m : Mem K) : Option (Mem K) :=
  if E.im x = 0 then
    let xr := E.re x
    (blockPart E al (partCopy E.re) (partCopy E.re) (partStore (reUpd E add xr)) A B C m).bind fun m =>
    (blockPart E al (partCopy E.im) (partCopy E.im) (partStore (reUpd E true (if A.conj = B.conj then -xr else xr))) A B C m).bind fun m =>
    (blockPart E al (partCopy E.re) (partCopy E.im) (partStore (imUpd E add (if B.conj then -xr else xr))) A B C m).bind fun m =>
    blockPart E al (partCopy E.im) (partCopy E.re) (partStore (imUpd E true (if A.conj then -xr else xr))) A B C m
  else
    let ix := E.I * x
    (blockPart E al (partCopy E.re) (partCopy E.re) (blockStore al add x) A B C m).bind fun m =>
    (blockPart E al (partCopy E.im) (partCopy E.im) (blockStore al true (if A.conj = B.conj then -x else x)) A B C m).bind fun m =>
    (blockPart E al (partCopy E.re) (partCopy E.im) (blockStore al true (if B.conj then -ix else ix)) A B C m).bind fun m =>
    blockPart E al (partCopy E.im) (partCopy E.re) (blockStore al true (if A.conj then -ix else ix)) A B C m

/-- `BlockMultMM<add>(x,A,B,C)` (src/TMV_MultMM_Block.cpp:394-399); `ca`, `cb`: whether the element types of A and B are complex.  Failure
of an allocation (lines 400-437) is not modelled here. -/
def blockMM (E : ElemTy K) (al : Alloc K) (ca cb : Bool) (add : Bool) (x : K) (A B C : MView) (m : Mem K) : Option (Mem K) :=
  match ca, cb with
  | false, false => blockMulMM E.KB E.ru al add x A B C m
  | false, true => blockRC E al add x A B C m
  | true, false => blockCR E al add x A B C m
  | true, true => blockCC E al add x A B C m

/-- The test for the simple algorithms (src/TMV_MultMM.cpp:64-81). -/
def useSimple (M N k : Nat) : Bool :=
  let Mb := M / 64
  let Nb := N / 64
  let Kb := k / 64
  let Mc := if M < 16 then 1 else M / 16
  let Nc := if N < 16 then 1 else N / 16
  let Kc := if k < 16 then 1 else k / 16
  let twobig := (Mb ≠ 0 ∧ Nb ≠ 0) ∨ (Mb ≠ 0 ∧ Kb ≠ 0) ∨ (Nb ≠ 0 ∧ Kb ≠ 0)
  decide ((M < 16 ∧ N < 16 ∧ k < 16) ∨ (M ≤ 3 ∨ N ≤ 3 ∨ k ≤ 3) ∨
    ((M < 16 ∨ N < 16 ∨ k < 16) ∧ (¬ twobig ∨ Mc * Nc * Kc < 4)))

/-- `NonBlasMultMM<add>(alpha,A,B,C)` (src/TMV_MultMM.cpp:46-105), without OpenMP.  `B` is copied to a column-major matrix if A is
not column-major and B is not. -/
def nonBlasMulMM (E : ElemTy K) (al : Alloc K) (ca cb : Bool) (add : Bool) (alpha : K) (A B C : MView) (m : Mem K) : Option (Mem K) :=
  if useSimple C.cs C.rs A.rs then
    if A.iscm then
      if B.iscm then cccMulMM al add alpha A B C m
      else crcMulMM al add alpha A B C m
    else if B.iscm then rccMulMM al add alpha A B C m
    else
      al.withTemp (B.cs * B.rs) (fun t m =>
        let B1 := ofStor t B.cs B.rs false
        (assign al B B1 m).bind fun m => rccMulMM al add alpha A B1 C m) m
  else blockMM E al ca cb add alpha A B C m

/-- `A.conjugate()`: does nothing for a real element type. -/
def conjIf (c : Bool) (A : MView) : MView := if c then A.conjugate else A

/-- `MultMM<add>(alpha,A,B,C)` (src/TMV_MultMM.cpp:404-445).  `ct`, `ca`, `cb`: whether the element types of C, A and B are complex
(the temporary copies of A and B have C's type).  The first argument bounds the recursion depth; running out is `none`. -/
def mulMMAux (E : ElemTy K) (al : Alloc K) (ct : Bool) : Nat → Bool → Bool → Bool → K → MView → MView → MView → Mem K → Option (Mem K)
  | 0, _, _, _, _, _, _, _, _ => none
  | fuel+1, ca, cb, add, alpha, A, B, C, m =>
    if C.cs > 0 ∧ C.rs > 0 then
      if A.rs = 0 ∨ alpha = 0 then
        if add then some m else C.setZero m
      else if C.conj then
        mulMMAux E al ct fuel ca cb add (star alpha) (A.conjIf ca) (B.conjIf cb) C.conjugate m
      else if C.iscm then
        if ¬ A.sameStorage C ∧ (A.iscm ∨ A.isrm) then
          if ¬ B.sameStorage C ∧ (B.iscm ∨ B.isrm) then nonBlasMulMM E al ca cb add alpha A B C m
          else
            al.withTemp (B.cs * B.rs) (fun t m =>
              let B2 := ofStor t B.cs B.rs false
              (assignMulX al alpha B B2 m).bind fun m => nonBlasMulMM E al ca ct add 1 A B2 C m) m
        else
          al.withTemp (A.cs * A.rs) (fun t m =>
            let A2 := ofStor t A.cs A.rs false
            (assignMulX al alpha A A2 m).bind fun m => mulMMAux E al ct fuel ct cb add 1 A2 B C m) m
      else if C.isrm then mulMMAux E al ct fuel cb ca add alpha B.transpose A.transpose C.transpose m
      else
        al.withTemp (C.cs * C.rs) (fun t m =>
          let C2 := ofStor t C.cs C.rs false
          (mulMMAux E al ct fuel ca cb false 1 A B C2 m).bind fun m =>
          if add then addMM al alpha C2 C m else assignMulX al alpha C2 C m) m
    else some m

/-- `MultMM<add>(alpha,A,B,C)`, i.e. `C (+)= alpha*A*B` (src/TMV_MultMM.cpp:404-445). -/
def mulMM (E : ElemTy K) (al : Alloc K) (ct ca cb : Bool) (add : Bool) (alpha : K) (A B C : MView) (m : Mem K) : Option (Mem K) :=
  mulMMAux E al ct 4 ca cb add alpha A B C m

end
end MView
end TMV
