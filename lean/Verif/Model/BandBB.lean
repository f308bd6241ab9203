import Verif.Model.BandMM

/-! Products of two band matrices: src/TMV_MultBB.cpp (the code used without BLAS).

Conventions as in `Model/BandMV.lean` and `Model/BandMM.lean`.  `A` is `M`×`K`, `B` is `KB`×`N` (the code takes `K` from
`A.rowsize()` and `KB` from `B.colsize()`), `C` is `M`×`N`. -/
namespace TMV.BandBB
open BandMV BandMM
variable {K : Type _} [Field K] [StarRing K] [DecidableEq K]

/-- `A.transpose()` (include/tmv/TMV_BandMatrix.h:730-736). -/
def BArg.tr (A : BArg K) : BArg K := ⟨fun i j => A.mem j i, A.cm, A.rm, A.conj⟩

/-- `C.subBandMatrix(i,M,j,N,lo,hi).setZero()` (TMV_MultBB.cpp:97). -/
def zeroSub (i M j N lo hi : Nat) (C : Nat → Nat → K) : Nat → Nat → K :=
  fun r c => if i ≤ r ∧ r < M ∧ j ≤ c ∧ c < N ∧ r - i ≤ c - j + lo ∧ c - j ≤ r - i + hi then 0 else C r c

/-- The loop of `RowMultMM` (TMV_MultBB.cpp:79-101): `rem` rows to go.  Each row is a product of a vector with a transposed
sub-band of `B` (`MultMV`, `Model/BandMV.lean`). -/
def rowLoop (add : Bool) (α : K) (M N KA blo k2 : Nat) (A B : BArg K) (crm : Bool) (g : Nat → K) :
    Nat → Nat → Nat → Nat → Nat → Nat → Nat → Nat → Nat → Nat → (Nat → Nat → K) → Nat → Nat → K
  | 0, _, _, _, _, _, _, _, _, _, C => C
  | rem+1, i, n, k, m1, m2, j1, j2, snl, snh, C =>
    let y := multMV add α (j2-j1) (m2-m1) snh snl B.cm B.rm B.conj (fun _ r c => B.mem (m1+c) (j1+r))
      ⟨fun t => A.mem i (m1+t), A.rm, A.conj⟩ false false crm false g (fun t => C i (j1+t))
    let C := fun r c => if r = i ∧ j1 ≤ c then y (c-j1) else C r c
    let n' := if k = 0 then n else if n = 0 then n else n-1
    let k' := if k = 0 then k else k-1
    let m1' := if k = 0 then m1+1 else if n = 0 then m1+1 else m1
    let j1' := if k = 0 then j1+1 else j1
    let snl' := if k = 0 then snl else if n = 0 then (if m2 > blo then snl-1 else snl) else (if snl < blo then snl+1 else snl)
    let snh' := if k = 0 then snh else if n = 0 then snh+1 else snh
    let go := fun j2' snh'' =>
      if m2 < KA then rowLoop add α M N KA blo k2 A B crm g rem (i+1) n' k' m1' (m2+1) j1' j2' snl' snh'' C
      else if m1' = KA then (if add = false ∧ i+1 < M then zeroSub (i+1) M j1' N 0 (j2'-j1'-1) C else C)
      else rowLoop add α M N KA blo k2 A B crm g rem (i+1) n' k' m1' m2 j1' j2' snl' snh'' C
    if j2 < N then go (j2+1) snh'
    else if j1' = N then C
    else go j2 (if m1' ≥ k2 then snh'-1 else snh')

/-- `RowMultMM<add>` (TMV_MultBB.cpp:45-102). -/
def rowMM (add : Bool) (α : K) (M N KA alo ahi blo bhi clo chi : Nat) (A B : BArg K) (crm : Bool) (g : Nat → K)
    (C : Nat → Nat → K) : Nat → Nat → K :=
  rowLoop add α M N KA blo (N-bhi) A B crm g M 0 alo clo 0 (ahi+1) 0 (chi+1) (min ahi blo) bhi C

/-- `C.setZero()`: every element in the band. -/
def zeroB (M N clo chi : Nat) (C : Nat → Nat → K) : Nat → Nat → K :=
  fun r c => if r < M ∧ c < N ∧ r ≤ c + clo ∧ c ≤ r + chi then 0 else C r c

/-- The loop of `OPMultMM` (TMV_MultBB.cpp:134-143): `rem` columns of `A` to go. -/
def opLoop (α : K) (M N : Nat) (A B : Nat → Nat → K) :
    Nat → Nat → Nat → Nat → Nat → Nat → Nat → Nat → (Nat → Nat → K) → Nat → Nat → K
  | 0, _, _, _, _, _, _, _, C => C
  | rem+1, j, k, i1, i2, n, m1, m2, C =>
    let C := fun r c => if i1 ≤ r ∧ r < i2 ∧ m1 ≤ c ∧ c < m2 then C r c + α * A r j * B j c else C r c
    let k' := if k > 0 then k-1 else k
    let i1' := if k > 0 then i1 else i1+1
    let n' := if n > 0 then n-1 else n
    let m1' := if n > 0 then m1 else m1+1
    let go := fun i2' =>
      if m2 < N then opLoop α M N A B rem (j+1) k' i1' i2' n' m1' (m2+1) C
      else if m1' = N then C
      else opLoop α M N A B rem (j+1) k' i1' i2' n' m1' m2 C
    if i2 < M then go (i2+1) else if i1' = M then C else go i2

/-- `OPMultMM<add>` (TMV_MultBB.cpp:104-144). -/
def opMM (add : Bool) (α : K) (M N KA alo ahi blo bhi clo chi : Nat) (A B C : Nat → Nat → K) : Nat → Nat → K :=
  opLoop α M N A B KA 0 ahi 0 (alo+1) blo 0 (bhi+1) (if add then C else zeroB M N clo chi C)

/-- The local variables of `DoDiagMultMM` (TMV_MultBB.cpp:176-197). -/
structure DSt where
  m1A : Int
  m1B : Int
  m1C : Int
  m2A : Int
  m2B : Int
  m2C : Int
  len : Int
  j2C : Int
deriving DecidableEq

/-- Their initial values (TMV_MultBB.cpp:178-197); `X` is `A.rowsize()`. -/
def dInit (M N X kA kB1 kC : Int) : DSt :=
  let m1A := if kA < 0 then -kB1 else if kC < 0 then -kC else 0
  let m1B := if kC < 0 then 0 else kC
  let len := if kC < 0 then min (min N (M+kC)) (X+kB1) else min (min (N-kC) M) (X-kA)
  let m2C := len
  ⟨m1A, m1B, 0, if kC < 0 then m1A + m2C else m2C, if kC < 0 then m2C else m1B + m2C, m2C, len,
    if kC < 0 then m2C else m2C + kC⟩

/-- The update at the end of an iteration (TMV_MultBB.cpp:219-336). -/
def dUpd (N kA kB kC : Int) (s : DSt) : DSt :=
  if kC < 0 then
    if kB ≥ 0 then
      let s := { s with m1C := s.m1C+1 }
      if s.m2C = N then { s with m2B := s.m2B-1, m2A := s.m2A-1, len := s.len-1 }
      else { s with m2C := s.m2C+1, j2C := s.j2C+1 }
    else
      let s := { s with m1A := s.m1A-1 }
      if s.m2C = N then { s with m2A := s.m2A-1 }
      else { s with m2B := s.m2B+1, m2C := s.m2C+1, len := s.len+1, j2C := s.j2C+1 }
  else
    if kB < 0 then
      let s := { s with m1B := s.m1B+1 }
      if s.m2B = N then { s with m2A := s.m2A-1, m2C := s.m2C-1, len := s.len-1 }
      else { s with m2B := s.m2B+1, j2C := s.j2C+1 }
    else if kA < 0 then
      if s.j2C = N then { s with m2A := s.m2A-1, m2B := s.m2B-1, m2C := s.m2C-1, len := s.len-1 }
      else { s with j2C := s.j2C+1 }
    else
      if s.j2C = N then { s with m2A := s.m2A-1, m2B := s.m2B-1, m2C := s.m2C-1, len := s.len-1 }
      else { s with j2C := s.j2C+1 }

/-- Row of element `m` of `diag(k)` (include/tmv/TMV_BandMatrix.h:412-441). -/
def dRow (k m : Int) : Nat := (m + max 0 (-k)).toNat
/-- Its column. -/
def dCol (k m : Int) : Nat := (m + max 0 k).toNat

/-- `ElemMultVV<true>(s,A.diag(kA,m1A,m2A),B.diag(kB,m1B,m2B),C.diag(kC,m1C,m2C))` (TMV_MultBB.cpp:203-205): element `t` of the
diagonal of `C` gets `s` times the product of elements `t` of the others. -/
def dElem (s : K) (A B : Nat → Nat → K) (kA kB kC : Int) (st : DSt) (C : Nat → Nat → K) : Nat → Nat → K :=
  fun r c =>
    let m : Int := r - max 0 (-kC)
    let t := m - st.m1C
    if (c : Int) - r = kC ∧ st.m1C ≤ m ∧ m < st.m2C then
      C r c + s * (A (dRow kA (st.m1A+t)) (dCol kA (st.m1A+t)) * B (dRow kB (st.m1B+t)) (dCol kB (st.m1B+t)))
    else C r c

/-- The inner loop of `DoDiagMultMM` (TMV_MultBB.cpp:199-353): `rem` values of `kB` to go. -/
def dInner (s : K) (N chi kA : Int) (A B : Nat → Nat → K) : Nat → Int → Int → DSt → (Nat → Nat → K) → Nat → Nat → K
  | 0, _, _, _, C => C
  | rem+1, kB, kC, st, C =>
    if kC > chi then C
    else dInner s N chi kA A B rem (kB+1) (kC+1) (dUpd N kA kB kC st) (dElem s A B kA kB kC st C)

/-- One iteration of the outer loop of `DoDiagMultMM` (TMV_MultBB.cpp:172-353). -/
def dOuter (s : K) (M N X blo bhi clo chi : Nat) (A B : Nat → Nat → K) (kA : Int) (C : Nat → Nat → K) : Nat → Nat → K :=
  let kC0 : Int := kA - blo
  let kC : Int := if kC0 < -(clo : Int) then -(clo : Int) else kC0
  let kB1 : Int := if kC0 < -(clo : Int) then -(clo : Int) - kA else -(blo : Int)
  dInner s N chi kA A B (bhi + 1 - kB1).toNat kB1 kC (dInit M N X kA kB1 kC) C

/-- `DoDiagMultMM<alpha>` (TMV_MultBB.cpp:146-355), `s` is ±1. -/
def doDiag (s : K) (M N X alo ahi blo bhi clo chi : Nat) (A B C : Nat → Nat → K) : Nat → Nat → K :=
  up (fun t C => dOuter s M N X blo bhi clo chi A B ((t : Int) - alo) C) (alo+ahi+1) 0 C

/-- `C *= alpha` on the band. -/
def scaleB (α : K) (M N clo chi : Nat) (C : Nat → Nat → K) : Nat → Nat → K :=
  fun r c => if r < M ∧ c < N ∧ r ≤ c + clo ∧ c ≤ r + chi then α * C r c else C r c

/-- `DiagMultMM<add>` (TMV_MultBB.cpp:357-388). -/
def diagMM (add : Bool) (α : K) (M N X alo ahi blo bhi clo chi : Nat) (A B C : Nat → Nat → K) : Nat → Nat → K :=
  if add = false then
    let C := doDiag 1 M N X alo ahi blo bhi clo chi A B (zeroB M N clo chi C)
    if α = 1 then C else scaleB α M N clo chi C
  else if α = 1 then doDiag 1 M N X alo ahi blo bhi clo chi A B C
  else doDiag (-1) M N X alo ahi blo bhi clo chi A B C

/-- `C += alpha*Z` or `C = alpha*Z` for band matrices of the same shape. -/
def putB (add : Bool) (α : K) (M N clo chi : Nat) (Z C : Nat → Nat → K) : Nat → Nat → K :=
  fun r c => if r < M ∧ c < N ∧ r ≤ c + clo ∧ c ≤ r + chi then (if add then C r c + α * Z r c else α * Z r c) else C r c

/-- `RowMultMM<add>(alpha,B.transpose(),A.transpose(),C.transpose())` (TMV_MultBB.cpp:445, 457). -/
def rowT (add : Bool) (α : K) (M N KB alo ahi blo bhi clo chi : Nat) (A B : BArg K) (ccm : Bool) (g : Nat → K)
    (C : Nat → Nat → K) : Nat → Nat → K :=
  fun r c => rowMM add α N M KB bhi blo ahi alo chi clo (BArg.tr B) (BArg.tr A) ccm g (fun i j => C j i) c r

/-- `DoMultMM<add>` (TMV_MultBB.cpp:390-461), `C` not conjugated.  `crm`, `ccm`, `cdm`, `adm`, `bdm`: `isrm()`, `iscm()`,
`isdm()`; `G` is what the memory of a temporary holds. -/
def doMM (add : Bool) (α : K) (M KA KB N alo ahi blo bhi clo chi : Nat) (A B : BArg K) (adm bdm crm ccm cdm : Bool) (g : Nat → K)
    (G C : Nat → Nat → K) : Nat → Nat → K :=
  if A.rm = true ∧ crm = true then rowMM add α M N KA alo ahi blo bhi clo chi A B crm g C
  else if A.cm = true ∧ B.rm = true then opMM add α M N KA alo ahi blo bhi clo chi A.val B.val C
  else if B.cm = true ∧ ccm = true then rowT add α M N KB alo ahi blo bhi clo chi A B ccm g C
  else if add = false ∨ α = 1 ∨ α = -1 then diagMM add α M N KA alo ahi blo bhi clo chi A.val B.val C
  else if adm = true ∧ bdm = true ∧ cdm = true then
    putB add α M N clo chi (diagMM false 1 M N KA alo ahi blo bhi clo chi A.val B.val G) C
  else if A.rm = true ∨ crm = true then rowMM add α M N KA alo ahi blo bhi clo chi A B crm g C
  else if A.cm = true ∨ B.rm = true then opMM add α M N KA alo ahi blo bhi clo chi A.val B.val C
  else rowT add α M N KB alo ahi blo bhi clo chi A B ccm g C

/-- `TempMultMM<add>` (TMV_MultBB.cpp:463-484). -/
def tempMM (add : Bool) (α : K) (M KA KB N alo ahi blo bhi clo chi : Nat) (A B : BArg K) (adm bdm crm ccm : Bool) (g : Nat → K)
    (G C : Nat → Nat → K) : Nat → Nat → K :=
  if crm then putB add α M N clo chi (doMM false 1 M KA KB N alo ahi blo bhi clo chi A B adm bdm true false false g G G) C
  else if ccm then putB add α M N clo chi (doMM false 1 M KA KB N alo ahi blo bhi clo chi A B adm bdm false true false g G G) C
  else putB add α M N clo chi (doMM false 1 M KA KB N alo ahi blo bhi clo chi A B adm bdm false false true g G G) C

/-- `C.rowRange(i,M).setZero()` (TMV_MultBB.cpp:524); the case of a row range without columns is in `Props/Band.lean`. -/
def zeroRowsB (i M N clo chi : Nat) (C : Nat → Nat → K) : Nat → Nat → K :=
  fun r c => if i ≤ r ∧ r < M ∧ c < N ∧ r ≤ c + clo ∧ c ≤ r + chi then 0 else C r c

/-- `C.colRange(j,N).setZero()` (TMV_MultBB.cpp:538). -/
def zeroColsB (j M N clo chi : Nat) (C : Nat → Nat → K) : Nat → Nat → K :=
  fun r c => if r < M ∧ j ≤ c ∧ c < N ∧ r ≤ c + clo ∧ c ≤ r + chi then 0 else C r c

/-- `if (C.nlo() > nlo) C.diagRange(-C.nlo(),-nlo).setZero(); if (C.nhi() > nhi) C.diagRange(nhi+1,C.nhi()+1).setZero();`
(TMV_MultBB.cpp:545-548). -/
def zeroDiagsB (nlo nhi M N clo chi : Nat) (C : Nat → Nat → K) : Nat → Nat → K :=
  fun r c => if r < M ∧ c < N ∧ ((c + nlo < r ∧ r ≤ c + clo) ∨ (r + nhi < c ∧ c ≤ r + chi)) then 0 else C r c

/-- `MultMM<add>` for band matrices (TMV_MultBB.cpp:486-577), which calls itself for parts of the matrices (at most `fuel`
times).  `cc` is `C.isconj()`, `ss` is `SameStorage(A,C) || SameStorage(B,C)`.  `C.diagRange(-nlo,nhi+1)` has the size of `C`
there. -/
def multMM (add : Bool) (adm bdm crm ccm cdm ss : Bool) (g : Nat → K) (G : Nat → Nat → K) :
    Nat → K → Nat → Nat → Nat → Nat → Nat → Nat → Nat → Nat → Nat → Nat → BArg K → BArg K → Bool → (Nat → Nat → K) → Nat → Nat → K
  | 0, _, _, _, _, _, _, _, _, _, _, _, _, _, _, C => C
  | f+1, α, M, KA, KB, N, alo, ahi, blo, bhi, clo, chi, A, B, cc, C =>
    if M > 0 ∧ N > 0 then
      if KA = 0 ∨ α = 0 then (if add then C else zeroB M N clo chi C)
      else if KA > M + ahi then
        multMM add adm bdm crm ccm cdm ss g G f α M (M+ahi) (M+ahi) N alo ahi (min blo (M+ahi-1)) bhi clo chi A B cc C
      else if M > KA + alo then
        let C := multMM add adm bdm crm ccm cdm ss g G f α (KA+alo) KA KB N alo ahi blo bhi (min clo (KA+alo-1)) chi A B cc C
        if add then C else zeroRowsB (KA+alo) M N clo chi C
      else if KB > N + blo then
        multMM add adm bdm crm ccm cdm ss g G f α M N (N+blo) N alo (min ahi (N-1)) blo bhi clo chi A B cc C
      else if N > KB + bhi then
        let C := multMM add adm bdm crm ccm cdm ss g G f α M KA KB (KB+bhi) alo ahi blo bhi clo (min chi (KB+bhi-1)) A B cc C
        if add then C else zeroColsB (KB+bhi) M N clo chi C
      else
        let nhi := min (N-1) (ahi+bhi)
        let nlo := min (M-1) (alo+blo)
        if chi > nhi ∨ clo > nlo then
          let C := multMM add adm bdm crm ccm cdm ss g G f α M KA KB N alo ahi blo bhi nlo nhi A B cc C
          if add then C else zeroDiagsB nlo nhi M N clo chi C
        else if cc then
          multMM add adm bdm crm ccm cdm ss g G f (star α) M KA KB N alo ahi blo bhi clo chi A.cjg B.cjg false C
        else if ss then tempMM add α M KA KB N alo ahi blo bhi clo chi A B adm bdm crm ccm g G C
        else doMM add α M KA KB N alo ahi blo bhi clo chi A B adm bdm crm ccm cdm g G C
    else C

/-- `MultMM<add>(alpha,A,B,C)` (TMV_MultBB.cpp:486-577): `A` is `M`×`X`, `B` is `X`×`N`. -/
def multBB (add : Bool) (α : K) (M X N alo ahi blo bhi clo chi : Nat) (A B : BArg K) (adm bdm crm ccm cdm cc ss : Bool)
    (g : Nat → K) (G C : Nat → Nat → K) : Nat → Nat → K :=
  multMM add adm bdm crm ccm cdm ss g G (M+2*X+N+clo+chi+2) α M X X N alo ahi blo bhi clo chi A B cc C

end TMV.BandBB
