import Verif.Model.Omp

/-! `BlockMultMM` when an allocation fails (src/TMV_MultMM_Block.cpp:394-437). -/
namespace TMV
variable {K : Type _}
namespace MView
section
variable [Star K] [Ring K] [DecidableEq K]

/-- `B1 = B; RCCMultMM<add>(x,A,B1,C)` with a column-major `B1` (src/TMV_MultMM_Block.cpp:421-423, 425-427, 429-430).  The code uses
one matrix of 16 columns for all slices; here each slice has its own. -/
def rrcSlice (al : Alloc K) (add : Bool) (x : K) (A B C : MView) (m : Mem K) : Option (Mem K) :=
  al.withTemp (B.cs * B.rs) (fun t m =>
    let B1 := ofStor t B.cs B.rs false
    (assign al B B1 m).bind fun m => rccMulMM al add x A B1 C m) m

/-- The loop over slices of 16 columns (src/TMV_MultMM_Block.cpp:419-427) from column `j1`; the first argument bounds the number of
rounds, running out is `none`. -/
def rrcLoop (al : Alloc K) (add : Bool) (x : K) (A B C : MView) : Nat → Nat → Mem K → Option (Mem K)
  | 0, _, _ => none
  | fuel+1, j1, m =>
    if j1 + 16 < B.rs then
      (rrcSlice al add x A (B.colRange j1 (j1 + 16 : Nat)) (C.colRange j1 (j1 + 16 : Nat)) m).bind fun m =>
        rrcLoop al add x A B C fuel (j1 + 16) m
    else rrcSlice al add x A (B.colRange j1 B.rs) (C.colRange j1 B.rs) m

/-- The handler of `std::bad_alloc` (src/TMV_MultMM_Block.cpp:400-435).  Its own allocations succeed here. -/
def fallback (al : Alloc K) (add : Bool) (x : K) (A B C : MView) (m : Mem K) : Option (Mem K) :=
  if A.iscm then
    if B.iscm then cccMulMM al add x A B C m
    else crcMulMM al add x A B C m
  else if B.iscm then rccMulMM al add x A B C m
  else if B.rs > 16 then rrcLoop al add x A B C (B.rs + 1) 0 m
  else rrcSlice al add x A B C m

/-- `BlockMultMM<add>(x,A,B,C)` (src/TMV_MultMM_Block.cpp:394-437) if the temporaries of the call number `f` (from 0) of the real
`DoBlockMultMM` cannot be allocated: that call allocates before it writes to `C` (lines 214-222, 279-280), so the calls before it have
been made.  No failure if there are not so many calls. -/
def blockMMFail (E : ElemTy K) (al : Alloc K) (ca cb add : Bool) (x : K) (f : Nat) (A B C : MView) (m : Mem K) : Option (Mem K) :=
  let ks := blockCalls E ca cb add x A B
  if f < ks.length then (runCalls E al A B C (ks.take f) m).bind fun m => fallback al add x A B C m
  else blockMM E al ca cb add x A B C m

end
end MView
end TMV
