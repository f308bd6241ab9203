import Verif.Model.MatMatKern

/-!
The blocked matrix product (src/TMV_MultMM_Block.cpp, src/TMV_MultMM_Kernel.h), on the memory of `Model/Mem`.
-/
namespace TMV
variable {K : Type _}

/-! ### Kernels -/

/-- `C00 = T(0); for k: C00 += A0[k]*B0[k]` (src/TMV_MultMM_Kernel.h:1083-1110): the three loops over `k` (unrolled by 4,
remainder, last element) written as one. -/
def dotUp [Ring K] (m : Mem K) : Nat → Int → Int → K → Option K
  | 0, _, _, c => some c
  | n+1, a, b, c => (m.read a).bind fun x => (m.read b).bind fun y => dotUp m n (a + 1) (b + 1) (c + x * y)

/-- The order in which `generic_multmm_M_N_K` visits the 2×2 tiles of C and the odd last row and column
(src/TMV_MultMM_Kernel.h:1075-1200). -/
def kernTiles (M N : Nat) : List (List Nat × List Nat) :=
  ((List.range (N / 2)).flatMap fun j =>
    ((List.range (M / 2)).map fun i => ([2 * i, 2 * i + 1], [2 * j, 2 * j + 1])) ++
      (if M % 2 ≠ 0 then [([M - 1], [2 * j, 2 * j + 1])] else [])) ++
  (if N % 2 ≠ 0 then
    ((List.range (M / 2)).map fun i => ([2 * i, 2 * i + 1], [N - 1])) ++
      (if M % 2 ≠ 0 then [([M - 1], [N - 1])] else [])
   else [])

/-- `generic_multmm_M_N_K(M,N,K,Kd,A0,B0,C0)`: `C += A*B` for `A` row-major with row stride `Kd`, `B` column-major with
column stride `Kd`, `C` column-major (src/TMV_MultMM_Kernel.h:1038-1201).  The kernels for fixed sizes
(`16_16_16`, `M_16_16`, `16_N_16`, `16_16_K`; lines 41-1036) are unrolled versions of the same computation and are modelled by the
same function; half of their tiles run `k` downwards. -/
def kernMNK [Ring K] (M N k Kd : Nat) (A B C : Int) (m : Mem K) : Option (Mem K) :=
  runTiles (fun m a b => dotUp m k a b 0) A B C Kd Kd M (kernTiles M N) m

/-! ### Blocks -/

/-- The parts of the block algorithm that depend on the element types: `KB` and `RoundUp`
(`BlockHelper`, src/TMV_MultMM_Block.cpp:96-166), the copies `Ax = A.subMatrix(..)`, `Bx = B.subMatrix(..)`, and
`C.subMatrix(..) (+)= x*Cp`. -/
structure BlockOps (K : Type _) where
  KB : Nat
  ru : Nat → Nat
  pa : MView → MView → Mem K → Option (Mem K)
  pb : MView → MView → Mem K → Option (Mem K)
  st : MView → MView → Mem K → Option (Mem K)

namespace BlockOps

/-- The body of the loop over `k` in `SingleBlockMultMM`, and the cleanup after it: copy the blocks of A and B if they have
not been copied yet, and multiply (src/TMV_MultMM_Block.cpp:64-72, 79-85). -/
def chunk [Ring K] (o : BlockOps K) (A B : MView) (i1 j1 i2 j2 MB NB : Nat) (Cp : Int) (firstA firstB : Bool)
    (k1 k2 Kd : Nat) (Ap Bp : Int) (m : Mem K) : Option (Mem K) :=
  let Ax : MView := ⟨Ap, MB, k2 - k1, Kd, 1, false, MB * (k2 - k1 : Nat)⟩
  let Bx : MView := ⟨Bp, k2 - k1, NB, 1, Kd, false, NB * (k2 - k1 : Nat)⟩
  (if firstA then o.pa (A.subMatrix4 i1 i2 k1 k2) Ax m else some m).bind fun m =>
  (if firstB then o.pb (B.subMatrix4 k1 k2 j1 j2) Bx m else some m).bind fun m =>
  kernMNK MB NB (k2 - k1) Kd Ap Bp Cp m

/-- `k1=0; for (k2=KB;k2<=K;k1=k2,k2+=KB,Ap+=size1,Bp+=size2) {...}` (src/TMV_MultMM_Block.cpp:61-73).  Returns `k1`, `Ap`,
`Bp` at the end.  The first argument bounds the number of iterations. -/
def kLoop [Ring K] (o : BlockOps K) (A B : MView) (i1 j1 i2 j2 MB NB : Nat) (size1 size2 : Nat) (Cp : Int)
    (firstA firstB : Bool) (k : Nat) : Nat → Nat → Int → Int → Mem K → Option (Nat × Int × Int × Mem K)
  | 0, _, _, _, _ => none
  | fuel+1, k1, Ap, Bp, m =>
    if k1 + o.KB ≤ k then
      (chunk o A B i1 j1 i2 j2 MB NB Cp firstA firstB k1 (k1 + o.KB) o.KB Ap Bp m).bind fun m =>
      kLoop o A B i1 j1 i2 j2 MB NB size1 size2 Cp firstA firstB k fuel (k1 + o.KB) (Ap + size1) (Bp + size2) m
    else some (k1, Ap, Bp, m)

/-- `SingleBlockMultMM(...)` (src/TMV_MultMM_Block.cpp:35-94). -/
def single [Ring K] [Star K] (o : BlockOps K) (A B C : MView) (i1 j1 i2 j2 MB NB : Nat) (size1 size2 : Nat)
    (Ap Bp Cp : Int) (firstA firstB : Bool) (k Kc Kd : Nat) (m : Mem K) : Option (Mem K) :=
  (VView.setZero ⟨Cp, 256, 1, false⟩ m).bind fun m =>
  (kLoop o A B i1 j1 i2 j2 MB NB size1 size2 Cp firstA firstB k (k + 1) 0 Ap Bp m).bind fun r =>
  (if Kc ≠ 0 then chunk o A B i1 j1 i2 j2 MB NB Cp firstA firstB r.1 k Kd r.2.1 r.2.2.1 r.2.2.2
   else some r.2.2.2).bind fun m =>
  o.st (MView.ofStor Cp MB NB false) (C.subMatrix4 i1 i2 j1 j2) m

/-- `DoBlockMultMM(add,x,A,B,C)` (src/TMV_MultMM_Block.cpp:173-332); `Cp`, `Ap0`, `Bp0`: the three temporary arrays, of
`256`, and `M*Ktot_d` and `16*Ktot_d` (for `N >= M`) or `16*Ktot_d` and `N*Ktot_d` elements. -/
def loops [Ring K] [Star K] (o : BlockOps K) (A B C : MView) (Cp Ap0 Bp0 : Int) (m : Mem K) : Option (Mem K) :=
  let M := C.cs
  let N := C.rs
  let k := A.rs
  let KB := o.KB
  let Mb := M / 16
  let Nb := N / 16
  let Kb := k / KB
  let Ma := Mb * 16
  let Na := Nb * 16
  let Ka := Kb * KB
  let Mc := M - Ma
  let Nc := N - Na
  let Kc := k - Ka
  let Kd := o.ru Kc
  let Ktot := Kb * KB + Kd
  let size1 := 16 * KB
  let size1y := Mc * KB
  let size2 := 16 * KB
  let size2y := Nc * KB
  let full := 16 * Ktot
  if N ≥ M then
    (loopN (fun j m =>
      (loopN (fun i => single o A B C (i*16) (j*16) ((i+1)*16) ((j+1)*16) 16 16 size1 size2
        (Ap0 + i * full) Bp0 Cp (j == 0) (i == 0) k Kc Kd) Mb 0 m).bind fun m =>
      if Mc ≠ 0 then
        single o A B C Ma (j*16) M ((j+1)*16) Mc 16 size1y size2 (Ap0 + Mb * full) Bp0 Cp (j == 0) (Mb == 0) k Kc Kd m
      else some m) Nb 0 m).bind fun m =>
    if Nc ≠ 0 then
      (loopN (fun i => single o A B C (i*16) Na ((i+1)*16) N 16 Nc size1 size2y
        (Ap0 + i * full) Bp0 Cp (Nb == 0) (i == 0) k Kc Kd) Mb 0 m).bind fun m =>
      if Mc ≠ 0 then
        single o A B C Ma Na M N Mc Nc size1y size2y (Ap0 + Mb * full) Bp0 Cp (Nb == 0) (Mb == 0) k Kc Kd m
      else some m
    else some m
  else
    (loopN (fun i m =>
      (loopN (fun j => single o A B C (i*16) (j*16) ((i+1)*16) ((j+1)*16) 16 16 size1 size2
        Ap0 (Bp0 + j * full) Cp (j == 0) (i == 0) k Kc Kd) Nb 0 m).bind fun m =>
      if Nc ≠ 0 then
        single o A B C (i*16) Na ((i+1)*16) N 16 Nc size1 size2y Ap0 (Bp0 + Nb * full) Cp (Nb == 0) (i == 0) k Kc Kd m
      else some m) Mb 0 m).bind fun m =>
    if Mc ≠ 0 then
      (loopN (fun j => single o A B C Ma (j*16) M ((j+1)*16) Mc 16 size1y size2
        Ap0 (Bp0 + j * full) Cp (j == 0) (Mb == 0) k Kc Kd) Nb 0 m).bind fun m =>
      if Nc ≠ 0 then
        single o A B C Ma Na M N Mc Nc size1y size2y Ap0 (Bp0 + Nb * full) Cp (Nb == 0) (Mb == 0) k Kc Kd m
      else some m
    else some m

/-- `DoBlockMultMM(add,x,A,B,C)` with its allocations (src/TMV_MultMM_Block.cpp:173-332). -/
def run [Ring K] [Star K] (o : BlockOps K) (al : Alloc K) (A B C : MView) (m : Mem K) : Option (Mem K) :=
  let Kb := A.rs / o.KB
  let Ktot := Kb * o.KB + o.ru (A.rs - Kb * o.KB)
  al.withTemp 256 (fun Cp m =>
    al.withTemp (if C.rs ≥ C.cs then C.cs * Ktot else 16 * Ktot) (fun Ap m =>
      al.withTemp (if C.rs ≥ C.cs then 16 * Ktot else C.rs * Ktot) (fun Bp m =>
        loops o A B C Cp Ap Bp m) m) m) m

end BlockOps

namespace MView

/-- `C.subMatrix(i1,i2,j1,j2) (+)= x*P` (src/TMV_MultMM_Block.cpp:88-99). -/
def blockStore [Star K] [Ring K] [DecidableEq K] (al : Alloc K) (add : Bool) (x : K) (P C : MView) (m : Mem K) :
    Option (Mem K) :=
  if add then addMM al x P C m
  else if x ≠ 1 then assignMulX al x P C m
  else assign al P C m

/-- `BlockMultMM<add>(x,A,B,C)` for one real element type (src/TMV_MultMM_Block.cpp:394-399), `KB = 16` and `RoundUp` the
identity for the generic type, 32 or 64 and rounding up to 2 or 4 for `double` and `float` with SSE.  Failure of an
allocation (lines 400-437) is not modelled. -/
def blockMulMM [Star K] [Ring K] [DecidableEq K] (KB : Nat) (ru : Nat → Nat) (al : Alloc K) (add : Bool) (x : K)
    (A B C : MView) (m : Mem K) : Option (Mem K) :=
  BlockOps.run ⟨KB, ru, assign al, assign al, blockStore al add x⟩ al A B C m

end MView
end TMV
