import Verif.Model.BandMV

/-! Products of a band matrix and a dense matrix: src/TMV_MultBM.cpp (the code used without BLAS and LAPACK).

Conventions as in `Model/BandMV.lean`.  `C` is given by what its memory holds and a flag `cc` (`C.isconj()`); the products of
dense matrices and vectors inside (MultMV, `^`, row operations) are their formulas. -/
namespace TMV.BandMM
open BandMV
open Tri (sub)
variable {K : Type _} [Field K] [StarRing K] [DecidableEq K]

/-- A dense matrix argument: memory, `isrm()`, `iscm()`, `isconj()`. -/
structure MArg (K : Type _) where
  mem : Nat → Nat → K
  rm : Bool
  cm : Bool
  conj : Bool

/-- Its elements. -/
def MArg.val (B : MArg K) : Nat → Nat → K := fun i j => cj B.conj (B.mem i j)

/-- `B.conjugate()`. -/
def MArg.cjg (B : MArg K) : MArg K := { B with conj := !B.conj }

/-- The elements of a matrix whose memory is `C`; also the memory for given elements. -/
def mval (cc : Bool) (C : Nat → Nat → K) : Nat → Nat → K := fun i j => cj cc (C i j)

/-- `C.rowRange(i,i+n).setZero()`, `nc` columns. -/
def zeroRows (i n nc : Nat) (C : Nat → Nat → K) : Nat → Nat → K :=
  fun r c => if i ≤ r ∧ r < i+n ∧ c < nc then 0 else C r c

/-- The loop of `RowMultMM` (TMV_MultBM.cpp:73-82): `n` rows to go. -/
def rowLoop (add : Bool) (α : K) (N nc : Nat) (A B : Nat → Nat → K) :
    Nat → Nat → Nat → Nat → Nat → (Nat → Nat → K) → Nat → Nat → K
  | 0, _, _, _, _, C => C
  | n+1, i, k, j1, j2, C =>
    let C := fun r c => if r = i ∧ c < nc then
      (if add then C r c else 0) + α * ∑ t ∈ Finset.range (j2-j1), B (j1+t) c * A i (j1+t) else C r c
    let k' := if k > 0 then k - 1 else k
    let j1' := if k > 0 then j1 else j1 + 1
    if j2 < N then rowLoop add α N nc A B n (i+1) k' j1' (j2+1) C
    else if j1' = N then (if add then C else zeroRows (i+1) n nc C)
    else rowLoop add α N nc A B n (i+1) k' j1' j2 C

/-- `RowMultMM<add>` (TMV_MultBM.cpp:53-83). -/
def rowMM (add : Bool) (α : K) (M N nc lo hi : Nat) (A B C : Nat → Nat → K) : Nat → Nat → K :=
  rowLoop add α N nc A B M 0 lo 0 (hi+1) C

/-- The loop of `OPMultMM` (TMV_MultBM.cpp:106-111): `n` columns of `A` to go. -/
def opLoop (α : K) (M nc : Nat) (A B : Nat → Nat → K) :
    Nat → Nat → Nat → Nat → Nat → (Nat → Nat → K) → Nat → Nat → K
  | 0, _, _, _, _, C => C
  | n+1, j, k, i1, i2, C =>
    let C := fun r c => if i1 ≤ r ∧ r < i2 ∧ c < nc then C r c + α * A r j * B j c else C r c
    let k' := if k > 0 then k - 1 else k
    let i1' := if k > 0 then i1 else i1 + 1
    if i2 < M then opLoop α M nc A B n (j+1) k' i1' (i2+1) C
    else if i1' = M then C
    else opLoop α M nc A B n (j+1) k' i1' i2 C

/-- `OPMultMM<add>` (TMV_MultBM.cpp:85-112). -/
def opMM (add : Bool) (α : K) (M N nc lo hi : Nat) (A B C : Nat → Nat → K) : Nat → Nat → K :=
  opLoop α M nc A B N 0 hi 0 (lo+1) (if add then C else zeroRows 0 M nc C)

/-- `ColMultMM<add>` (TMV_MultBM.cpp:114-132): `C` not conjugated, nothing shares memory; `MultMV` as in
`Model/BandMV.lean`. -/
def colMM (add : Bool) (α : K) (M N nc lo hi : Nat) (A : BArg K) (B : MArg K) (ccm : Bool) (g : Nat → K) (C : Nat → Nat → K) :
    Nat → Nat → K :=
  up (fun j C =>
    let y := multMV add α M N lo hi A.rm A.cm A.conj (fun _ => A.mem) ⟨fun k => B.mem k j, B.cm, B.conj⟩ false false ccm false g
      (fun i => C i j)
    fun r c => if c = j then y r else C r c) nc 0 C

/-- `C.row(i) += d*B.row(m)` or `=`. -/
def rowOp (add : Bool) (nc i m : Nat) (d : K) (B C : Nat → Nat → K) : Nat → Nat → K :=
  fun r c => if r = i ∧ c < nc then (if add then C r c else 0) + d * B m c else C r c

/-- `NonLapTriDiagMultMM<add>` (TMV_MultBM.cpp:134-168): `D` is `A.diag().size()`; on the elements of `C`.  The pointers `di`,
`dui`, `dli` step along contiguous diagonals. -/
def nonLap (add : Bool) (M N nc : Nat) (A B C : Nat → Nat → K) : Nat → Nat → K :=
  let D := min M N
  let Nu := if N > M then D else D - 1
  let Nl := if N < M then D else D - 1
  let C := up (fun i C =>
    let C := rowOp add nc i i (A i i) B C
    let C := if i > 0 then rowOp true nc i (i-1) (A i (i-1)) B C else C
    if i < Nu then rowOp true nc i (i+1) (A i (i+1)) B C else C) D 0 C
  if Nl = D then rowOp add nc D (D-1) (A D (D-1)) B C else C

/-- `TriDiagMultMM<add>` (TMV_MultBM.cpp:328-345), `dm` is `A.isdm()`; `cc` is `C.isconj()`. -/
def triDiag (add : Bool) (α : K) (M N nc : Nat) (dm : Bool) (A : BArg K) (B : MArg K) (cc : Bool) (C : Nat → Nat → K) :
    Nat → Nat → K :=
  if α = 1 ∧ dm = true then
    if A.conj then mval (!cc) (nonLap add M N nc A.mem B.cjg.val (mval (!cc) C))
    else mval cc (nonLap add M N nc A.mem B.val (mval cc C))
  else mval cc (nonLap add M N nc (fun i j => α * A.val i j) B.val (mval cc C))

/-- `DoMultMM<add>` (TMV_MultBM.cpp:348-405), `C` not conjugated. -/
def doMM (add : Bool) (α : K) (M N nc lo hi : Nat) (dm : Bool) (A : BArg K) (B : MArg K) (crm ccm : Bool) (g : Nat → K)
    (C : Nat → Nat → K) : Nat → Nat → K :=
  if A.rm = true ∧ crm = true then rowMM add α M N nc lo hi A.val B.val C
  else if A.cm = true ∧ B.rm = true then opMM add α M N nc lo hi A.val B.val C
  else if B.cm = true ∧ ccm = true then colMM add α M N nc lo hi A B ccm g C
  else if lo = 1 ∧ hi = 1 then
    if A.conj then triDiag add (star α) M N nc dm A.cjg B.cjg true C else triDiag add α M N nc dm A B false C
  else if M < nc then rowMM add α M N nc lo hi A.val B.val C
  else colMM add α M N nc lo hi A B ccm g C

/-- `C += alpha*Z` or `C = alpha*Z`, `M`×`nc`. -/
def putM (add : Bool) (M nc : Nat) (Z C : Nat → Nat → K) : Nat → Nat → K :=
  fun i c => if i < M ∧ c < nc then (if add then C i c + Z i c else Z i c) else C i c

/-- `FullTempMultMM<add>` (TMV_MultBM.cpp:407-423); `G` is what the memory of the temporary holds. -/
def fullTemp (add : Bool) (α : K) (M N nc lo hi : Nat) (dm : Bool) (A : BArg K) (B : MArg K) (crm : Bool) (g : Nat → K)
    (G C : Nat → Nat → K) : Nat → Nat → K :=
  let Z := if crm then doMM false 1 M N nc lo hi dm A B true false g G else doMM false 1 M N nc lo hi dm A B false true g G
  putM add M nc (fun i c => α * Z i c) C

/-- `BlockTempMultMM<add>` (TMV_MultBM.cpp:425-452): `B` is read from memory that `C` may share: `Bacc C` are the elements of
`B` when the memory of `C` holds `C`.  `TMV_REAL(alpha)` is `alpha` where it is used. -/
def blockTemp (add : Bool) (α : K) (M N nc lo hi : Nat) (dm : Bool) (A : BArg K) (Bacc : (Nat → Nat → K) → Nat → Nat → K)
    (crm ccm : Bool) (nb : Nat) (g : Nat → K) : Nat → Nat → (Nat → Nat → K) → Nat → Nat → K
  | 0, _, C => C
  | f+1, j, C =>
    if j < nc then
      let j2 := min nc (j+nb)
      let B2 : MArg K := ⟨fun k c => α * Bacc C k (j+c), crm, !crm, false⟩
      let R := doMM add 1 M N (j2-j) lo hi dm A B2 crm ccm g (sub C 0 j)
      blockTemp add α M N nc lo hi dm A Bacc crm ccm nb g f j2 (fun r c => if j ≤ c ∧ c < j2 then R r (c-j) else C r c)
    else C

/-- `MultMM<add>` (TMV_MultBM.cpp:454-520) once the matrix is cut, `C` not conjugated: `ssA` is `SameStorage(A,C)`, `ssB` is
`SameStorage(B,C)`, `st` whether `B` and `C` have the same steps. -/
def multMM3 (add : Bool) (α : K) (M N nc lo hi : Nat) (dm : Bool) (A : BArg K) (B : (Nat → Nat → K) → MArg K) (crm ccm : Bool)
    (ssA ssB st : Bool) (nb : Nat) (g : Nat → K) (G C : Nat → Nat → K) : Nat → Nat → K :=
  if ssA then fullTemp add α M N nc lo hi dm A (B C) crm g G C
  else if ssB then
    if st then blockTemp add α M N nc lo hi dm A (fun C => (B C).val) crm ccm nb g nc 0 C
    else fullTemp add α M N nc lo hi dm A (B C) crm g G C
  else doMM add α M N nc lo hi dm A (B C) crm ccm g C

/-- The `C.isconj()` branch of `MultMM<add>` (TMV_MultBM.cpp:491-493). -/
def multMM2 (add : Bool) (α : K) (M N nc lo hi : Nat) (dm : Bool) (A : BArg K) (B : (Nat → Nat → K) → MArg K) (crm ccm cc : Bool)
    (ssA ssB st : Bool) (nb : Nat) (g : Nat → K) (G C : Nat → Nat → K) : Nat → Nat → K :=
  if cc then multMM3 add (star α) M N nc lo hi dm A.cjg (fun C => (B C).cjg) crm ccm ssA ssB st nb g G C
  else multMM3 add α M N nc lo hi dm A B crm ccm ssA ssB st nb g G C

/-- `MultMM<add>` for a band and a dense matrix (TMV_MultBM.cpp:454-520): `C` is `M`×`nc`, `A` is `M`×`N`. -/
def multMM (add : Bool) (α : K) (M N nc lo hi : Nat) (dm : Bool) (A : BArg K) (B : (Nat → Nat → K) → MArg K) (crm ccm cc : Bool)
    (ssA ssB st : Bool) (nb : Nat) (g : Nat → K) (G C : Nat → Nat → K) : Nat → Nat → K :=
  if M > 0 ∧ nc > 0 then
    if N = 0 ∨ α = 0 then (if add then C else zeroRows 0 M nc C)
    else if N > M + hi then multMM2 add α M (M+hi) nc lo hi dm A B crm ccm cc ssA ssB st nb g G C
    else if M > N + lo then
      let C := multMM2 add α (N+lo) N nc lo hi dm A B crm ccm cc ssA ssB st nb g G C
      if add then C else zeroRows (N+lo) (M-(N+lo)) nc C
    else multMM2 add α M N nc lo hi dm A B crm ccm cc ssA ssB st nb g G C
  else C

end TMV.BandMM
