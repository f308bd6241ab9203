import Verif.Model.TriMul
import Verif.Model.Vec
import Mathlib.Algebra.Star.Basic

/-! Products of a band matrix and a vector: src/TMV_MultBV.cpp (the code used without BLAS).

A band matrix is the element function of the memory it lives in (row and column of the view; elements outside the band do
not belong to it) with the flags `rm`, `cm` (`isrm()`, `iscm()`), `conj` (`isconj()`).  The loop counters (`k`, `len`, `j1`,
...) are loop state as in the code.  Elements are exact. -/
namespace TMV.BandMV
open Tri (trimHi trimLo sub)
open TriMul (onSub)
variable {K : Type _} [Field K] [StarRing K] [DecidableEq K]

/-- A band matrix view: what its memory holds, `isrm()`, `iscm()`, `isconj()`. -/
structure BArg (K : Type _) where
  mem : Nat → Nat → K
  rm : Bool
  cm : Bool
  conj : Bool

/-- The elements of the matrix (`cref`, include/tmv/TMV_BandMatrix.h). -/
def BArg.val (A : BArg K) : Nat → Nat → K := fun i j => cj A.conj (A.mem i j)

/-- `A.conjugate()`. -/
def BArg.cjg (A : BArg K) : BArg K := { A with conj := !A.conj }

/-- The view that starts at element `(i,j)`. -/
def BArg.at (A : BArg K) (i j : Nat) : BArg K := { A with mem := sub A.mem i j }

/-- A vector argument: memory of the elements, `step() == 1`, `isconj()`. -/
structure XArg (K : Type _) where
  mem : Nat → K
  step1 : Bool
  conj : Bool

/-- Its elements. -/
def XArg.val (x : XArg K) : Nat → K := fun i => cj x.conj (x.mem i)

/-- `x.conjugate()`. -/
def XArg.cjg (x : XArg K) : XArg K := { x with conj := !x.conj }

/-- `x.subVector(j1,…)`. -/
def XArg.at (x : XArg K) (j1 : Nat) : XArg K := { x with mem := fun j => x.mem (j1+j) }

/-- The loop of `RowMultMV` (TMV_MultBV.cpp:145-174): `n` rows to go, row `i`; `Aij1` stands at element `(i,j1)`. -/
def rowLoop (add cx ca : Bool) (N : Nat) (A : Nat → Nat → K) (x : Nat → K) :
    Nat → Nat → Nat → Nat → Nat → Nat → (Nat → K) → Nat → K
  | 0, _, _, _, _, _, y => y
  | n+1, i, k, j1, j2, len, y =>
    let y := if add then y else Function.update y i 0
    let y := up (fun t y => Function.update y i (y i + cj cx (x (j1+t)) * cj ca (A i (j1+t)))) len 0 y
    let k' := if k > 0 then k - 1 else k
    let len' := if k > 0 then len + 1 else len
    let j1' := if k > 0 then j1 else j1 + 1
    if j2 < N then rowLoop add cx ca N A x n (i+1) k' j1' (j2+1) len' y
    else if j1' = N then (if add then y else fun r => if i+1 ≤ r ∧ r < i+1+n then 0 else y r)
    else rowLoop add cx ca N A x n (i+1) k' j1' j2 (len'-1) y

/-- `RowMultMV<add,cx,ca,rm>` (TMV_MultBV.cpp:113-175). -/
def rowMV (add cx ca : Bool) (M N lo hi : Nat) (A : Nat → Nat → K) (x y : Nat → K) : Nat → K :=
  rowLoop add cx ca N A x M 0 lo 0 (hi+1) (hi+1) y

/-- The loop of `ColMultMV` (TMV_MultBV.cpp:210-229): `n` columns to go, column `j`; `Ai1j` stands at element `(i1,j)`. -/
def colLoop (cx ca : Bool) (M : Nat) (A : Nat → Nat → K) (x : Nat → K) :
    Nat → Nat → Nat → Nat → Nat → Nat → (Nat → K) → Nat → K
  | 0, _, _, _, _, _, y => y
  | n+1, j, k, i1, i2, len, y =>
    let y := if x j ≠ 0 then
        up (fun t y => Function.update y (i1+t) (y (i1+t) + cj cx (x j) * cj ca (A (i1+t) j))) len 0 y
      else y
    let k' := if k > 0 then k - 1 else k
    let len' := if k > 0 then len + 1 else len
    let i1' := if k > 0 then i1 else i1 + 1
    if i2 < M then colLoop cx ca M A x n (j+1) k' i1' (i2+1) len' y
    else if i1' = M then y
    else colLoop cx ca M A x n (j+1) k' i1' i2 (len'-1) y

/-- `y.setZero()` of the first `M` elements. -/
def zeroV (M : Nat) (y : Nat → K) : Nat → K := fun i => if i < M then 0 else y i

/-- `ColMultMV<add,cx,ca,cm>` (TMV_MultBV.cpp:177-230). -/
def colMV (add cx ca : Bool) (M N lo hi : Nat) (A : Nat → Nat → K) (x y : Nat → K) : Nat → K :=
  let y := if add then y else zeroV M y
  colLoop cx ca M A x N 0 hi 0 (lo+1) (lo+1) y

/-- The loop of `DiagMultMV` (TMV_MultBV.cpp:266-284), `k = d - lo`; `yi1`, `xj1` stand at `i1`, `j1` and `Ai1j1` at element
`(i1,j1)`. -/
def diagLoop (cx ca : Bool) (lo N : Nat) (A : Nat → Nat → K) (x : Nat → K) :
    Nat → Nat → Nat → Nat → Nat → Nat → (Nat → K) → Nat → K
  | 0, _, _, _, _, _, y => y
  | n+1, d, i1, j1, j2, len, y =>
    let y := up (fun t y => Function.update y (i1+t) (y (i1+t) + cj cx (x (j1+t)) * cj ca (A (i1+t) (j1+t)))) len 0 y
    let i1' := if d < lo then i1 - 1 else i1
    let len' := if d < lo then len + 1 else len
    let j1' := if d < lo then j1 else j1 + 1
    if j2 < N then diagLoop cx ca lo N A x n (d+1) i1' j1' (j2+1) len' y
    else diagLoop cx ca lo N A x n (d+1) i1' j1' j2 (len'-1) y

/-- `DiagMultMV<add,cx,ca,dm>` (TMV_MultBV.cpp:232-285). -/
def diagMV (add cx ca : Bool) (M N lo hi : Nat) (A : Nat → Nat → K) (x y : Nat → K) : Nat → K :=
  let j2 := min (M-lo) N
  let y := if add then y else zeroV M y
  diagLoop cx ca lo N A x (lo+hi+1) 0 lo 0 j2 j2 y

/-- `UnitAMultMV1<add,cx>` (TMV_MultBV.cpp:287-322). -/
def unitA1 (add cx : Bool) (M N lo hi : Nat) (A : BArg K) (x y : Nat → K) : Nat → K :=
  if A.rm then rowMV add cx A.conj M N lo hi A.mem x y
  else if A.cm then colMV add cx A.conj M N lo hi A.mem x y
  else diagMV add cx A.conj M N lo hi A.mem x y

/-- `UnitAMultMV<add,cx>` (TMV_MultBV.cpp:324-370): zeros at the ends of `x` are skipped. -/
def unitA (add cx : Bool) (M N lo hi : Nat) (A : BArg K) (x y : Nat → K) : Nat → K :=
  let j2 := trimHi x N
  if j2 = 0 then (if add then y else zeroV M y)
  else
    let j1 := trimLo x N 0
    if j1 = 0 ∧ j2 = N then unitA1 add cx M N lo hi A x y
    else
      let i1 := if j1 > hi then j1 - hi else 0
      let i2 := min (j2+lo) M
      let newhi := if j1 < hi then hi - j1 else 0
      let newlo := lo + hi - newhi
      let newM := i2 - i1
      let newN := j2 - j1
      let newhi := if newhi ≥ newN then newN - 1 else newhi
      let newlo := if newlo ≥ newM then newM - 1 else newlo
      let y := onSub i1 i2 (unitA1 add cx newM newN newlo newhi (A.at i1 j1) (fun j => x (j1+j))) y
      if add then y else fun i => if i < i1 then 0 else if i2 ≤ i ∧ i < M then 0 else y i

/-- `y += z` or `y = z`, `M` elements. -/
def putV (add : Bool) (M : Nat) (z y : Nat → K) : Nat → K :=
  fun i => if i < M then (if add then y i + z i else z i) else y i

/-- `NonBlasMultMV<add>` (TMV_MultBV.cpp:372-450), `y` not conjugated; `ss` is `SameStorage(x,y)`, `g` what the memory of the
temporary `yy` holds before.  `TMV_REAL(alpha)` is `alpha` where it is used.  Both branches on `TMV_IMAG(alpha)` compute the
same values. -/
def nonBlas (add : Bool) (α : K) (M N lo hi : Nat) (A : BArg K) (x : XArg K) (ss ystep1 : Bool) (g y : Nat → K) : Nat → K :=
  if x.step1 = false ∨ ss = true then
    let xx := fun j => α * x.val j
    if ystep1 = false then putV add M (unitA false false M N lo hi A xx g) y
    else unitA add false M N lo hi A xx y
  else if ystep1 = false ∨ α ≠ 1 then
    let yy := if x.conj then unitA false true M N lo hi A x.mem g else unitA false false M N lo hi A x.mem g
    putV add M (fun i => α * yy i) y
  else if x.conj then unitA add true M N lo hi A x.mem y
  else unitA add false M N lo hi A x.mem y

/-- `DoMultMV<add>` (TMV_MultBV.cpp:889-991); `cy` is `y.isconj()`, `y` the memory. -/
def doMV (add : Bool) (α : K) (M N lo hi : Nat) (A : BArg K) (x : XArg K) (ss ystep1 cy : Bool) (g y : Nat → K) : Nat → K :=
  if cy then nonBlas add (star α) M N lo hi A.cjg x.cjg ss ystep1 g y
  else nonBlas add α M N lo hi A x ss ystep1 g y

/-! In place, triangular: the vector may share memory with the matrix, so the matrix is given as a function of the vector. -/

/-- The inner loops `*xi += (*xj) * (*Aij)`, `j = lo … lo+n-1` (TMV_MultBV.cpp:1028-1034, 1153-1159). -/
def addRow (ca : Bool) (A : (Nat → K) → Nat → Nat → K) (i lo n : Nat) (x : Nat → K) : Nat → K :=
  up (fun j x => Function.update x i (x i + x j * cj ca (A x i j))) n lo x

/-- The inner loops `*xi += *xj * (*Aij)`, `i = lo … lo+n-1` (TMV_MultBV.cpp:1088-1094, 1215-1221). -/
def addCol (ca : Bool) (A : (Nat → K) → Nat → Nat → K) (j lo n : Nat) (x : Nat → K) : Nat → K :=
  up (fun i x => Function.update x i (x i + x j * cj ca (A x i j))) n lo x

/-- `*xi *= *Aij`. -/
def mulBy (ca : Bool) (A : (Nat → K) → Nat → Nat → K) (i j : Nat) (x : Nat → K) : Nat → K :=
  Function.update x i (x i * cj ca (A x i j))

/-- `DoRowUpperMultEqMV` (TMV_MultBV.cpp:997-1044); fuel, `i`, `j2`, `len`. -/
def rowUpLoop (ca : Bool) (N : Nat) (A : (Nat → K) → Nat → Nat → K) : Nat → Nat → Nat → Nat → (Nat → K) → Nat → K
  | 0, _, _, _, x => x
  | f+1, i, j2, len, x =>
    if len > 0 then
      let x := addRow ca A i (i+1) len (mulBy ca A i i x)
      if j2 < N then rowUpLoop ca N A f (i+1) (j2+1) len x else rowUpLoop ca N A f (i+1) j2 (len-1) x
    else mulBy ca A i i x

/-- `DoRowUpperMultEqMV` (TMV_MultBV.cpp:997-1044). -/
def rowUp (ca : Bool) (N hi : Nat) (A : (Nat → K) → Nat → Nat → K) (x : Nat → K) : Nat → K :=
  rowUpLoop ca N A N 0 (hi+1) hi x

/-- `DoColUpperMultEqMV` (TMV_MultBV.cpp:1056-1107); loop state `(x, i1, k, len)`, `Ai1j` stands at element `(i1,j)`. -/
def colUp (ca : Bool) (N hi : Nat) (A : (Nat → K) → Nat → Nat → K) (x : Nat → K) : Nat → K :=
  (up (fun j (s : (Nat → K) × Nat × Nat × Nat) =>
      let x := if s.1 j ≠ 0 then mulBy ca A (s.2.1 + s.2.2.2) j (addCol ca A j s.2.1 s.2.2.2 s.1) else s.1
      (x, if s.2.2.1 > 0 then (s.2.1, s.2.2.1 - 1, s.2.2.2 + 1) else (s.2.1 + 1, s.2.2.1, s.2.2.2)))
    (N-1) 1 (mulBy ca A 0 0 x, 0, hi-1, 1)).1

/-- The loop of `DoRowLowerMultEqMV` (TMV_MultBV.cpp:1143-1168); fuel, `i`, `j1`, `len`; `Aij1` stands at element `(i,j1)`. -/
def rowLoLoop (ca : Bool) (A : (Nat → K) → Nat → Nat → K) : Nat → Nat → Nat → Nat → (Nat → K) → Nat → K
  | 0, _, _, _, x => x
  | f+1, i, j1, len, x =>
    if len > 0 then
      let x := addRow ca A i j1 len (mulBy ca A i i x)
      if j1 > 0 then rowLoLoop ca A f (i-1) (j1-1) len x else rowLoLoop ca A f (i-1) j1 (len-1) x
    else mulBy ca A i i x

/-- `DoRowLowerMultEqMV` (TMV_MultBV.cpp:1119-1169). -/
def rowLo (ca : Bool) (N lo : Nat) (A : (Nat → K) → Nat → Nat → K) (x : Nat → K) : Nat → K :=
  rowLoLoop ca A N (N-1) (N-1-lo) lo x

/-- `DoColLowerMultEqMV` (TMV_MultBV.cpp:1181-1231); loop state `(x, k, len)`, the pointers stand at index `j`. -/
def colLo (ca : Bool) (N lo : Nat) (A : (Nat → K) → Nat → Nat → K) (x : Nat → K) : Nat → K :=
  (down (fun j (s : (Nat → K) × Nat × Nat) =>
      let x := if s.1 j ≠ 0 then mulBy ca A j j (addCol ca A j (j+1) s.2.2 s.1) else s.1
      (x, if s.2.1 > 0 then (s.2.1 - 1, s.2.2 + 1) else s.2))
    (N-1) (mulBy ca A (N-1) (N-1) x, lo-1, 1)).1

/-- `DoUpperMultEqMV` (TMV_MultBV.cpp:1243-1251). -/
def doUp (rm cm ca : Bool) (N hi : Nat) (A : (Nat → K) → Nat → Nat → K) (x : Nat → K) : Nat → K :=
  if rm then rowUp ca N hi A x else if cm then colUp ca N hi A x else rowUp ca N hi A x

/-- `DoLowerMultEqMV` (TMV_MultBV.cpp:1253-1261); `ss` is `SameStorage(A,x)`. -/
def doLo (rm cm ca ss : Bool) (N lo : Nat) (A : (Nat → K) → Nat → Nat → K) (x : Nat → K) : Nat → K :=
  if rm then rowLo ca N lo A x else if cm = true ∧ ss = false then colLo ca N lo A x else rowLo ca N lo A x

/-- The vector `x` with the elements from `lo` on replaced by those of `s`, up to `hi`. -/
def splice (lo hi : Nat) (x s : Nat → K) : Nat → K := fun i => if lo ≤ i ∧ i < hi then s (i-lo) else x i

/-- An in-place operation on `x.subVector(lo,hi)` with the view of the matrix at `(r,c)`. -/
def onSubA (lo hi r c : Nat) (f : ((Nat → K) → Nat → Nat → K) → (Nat → K) → Nat → K)
    (A : (Nat → K) → Nat → Nat → K) (x : Nat → K) : Nat → K :=
  splice lo hi x (f (fun s => sub (A (splice lo hi x s)) r c) (fun i => x (lo+i)))

/-- `NonBlasUpperMultEqMV` (TMV_MultBV.cpp:1263-1330).  Simplification: `UnitAMultMV1` is given the matrix as it is when it is
called. -/
def upperEq (rm cm ca : Bool) (N hi : Nat) (A : (Nat → K) → Nat → Nat → K) (x : Nat → K) : Nat → K :=
  let j2 := trimHi x N
  if j2 = 0 then x
  else
    let j1 := trimLo x N 0
    if j1 = 0 ∧ j2 = N then doUp rm cm ca N hi A x
    else
      let N22 := j2 - j1
      if N22 > hi then
        let x := if j1 > 0 then
            let jx := j1 + hi
            if j1 < hi then
              onSub 0 j1 (unitA1 false false j1 (jx-j1) (j1-1) (hi-j1) ⟨sub (A x) 0 j1, rm, cm, ca⟩ (fun j => x (j1+j))) x
            else
              let x := splice (j1-hi) j1 x (fun i => x (j1+i))
              onSubA (j1-hi) j1 (j1-hi) j1 (doLo rm cm ca false hi (hi-1)) A x
          else x
        onSubA j1 j2 j1 j1 (doUp rm cm ca N22 hi) A x
      else
        let x := if j1 > 0 then
            let M12 := if j1 < hi then j1 else hi
            let newhi := hi - M12
            let newhi := if newhi ≥ N22 then N22 - 1 else newhi
            onSub (j1-M12) j1 (unitA1 false false M12 N22 (M12-1) newhi ⟨sub (A x) (j1-M12) j1, rm, cm, ca⟩
              (fun j => x (j1+j))) x
          else x
        onSubA j1 j2 j1 j1 (doUp rm cm ca N22 (N22-1)) A x

/-- `NonBlasLowerMultEqMV` (TMV_MultBV.cpp:1332-1400); `ss` is `SameStorage(A,x)`. -/
def lowerEq (rm cm ca ss : Bool) (N lo : Nat) (A : (Nat → K) → Nat → Nat → K) (x : Nat → K) : Nat → K :=
  let j2 := trimHi x N
  if j2 = 0 then x
  else
    let j1 := trimLo x N 0
    if j1 = 0 ∧ j2 = N then doLo rm cm ca ss N lo A x
    else
      let N22 := j2 - j1
      if N22 > lo then
        let x := if j2 < N then
            let jx := j2 - lo
            if j2 + lo > N then
              onSub j2 N (unitA1 false false (N-j2) lo 0 (lo-1) ⟨sub (A x) j2 (j2-lo), rm, cm, ca⟩ (fun j => x (jx+j))) x
            else
              let x := splice j2 (j2+lo) x (fun i => x (jx+i))
              onSubA j2 (j2+lo) j2 (j2-lo) (doUp rm cm ca lo (lo-1)) A x
          else x
        onSubA j1 j2 j1 j1 (doLo rm cm ca ss N22 lo) A x
      else
        let x := if j2 < N then
            let M32 := if j2 + lo > N then N - j2 else lo
            let newlo := lo - N22
            let newlo := if newlo ≥ M32 then M32 - 1 else newlo
            onSub j2 (j2+M32) (unitA1 false false M32 N22 newlo (N22-1) ⟨sub (A x) (j1+N22) j1, rm, cm, ca⟩
              (fun j => x (j1+j))) x
          else x
        onSubA j1 j2 j1 j1 (doLo rm cm ca ss N22 (N22-1)) A x

/-- `MultEqMV` (TMV_MultBV.cpp:1581-1630): `cx` is `x.isconj()`, `x` the memory. -/
def multEq (rm cm ca ss cx : Bool) (N lo hi : Nat) (A : (Nat → K) → Nat → Nat → K) (x : Nat → K) : Nat → K :=
  let ca := if cx then !ca else ca
  if lo = 0 then upperEq rm cm ca N hi A x else lowerEq rm cm ca ss N lo A x

/-- `MultMV<add>` (TMV_MultBV.cpp:1632-1711) once the matrix is cut; `ssA` is `SameStorage(y,A)`, `acc y` what the memory of
the matrix holds when the memory of `y` holds `y`; `cy` is `y.isconj()`.  The product with a diagonal matrix
(src/TMV_MultDV.cpp) is the formula. -/
def multMV3 (add : Bool) (α : K) (M N lo hi : Nat) (rm cm ca : Bool) (acc : (Nat → K) → Nat → Nat → K) (x : XArg K)
    (ss ssA ystep1 cy : Bool) (g y : Nat → K) : Nat → K :=
  let A : BArg K := ⟨acc y, rm, cm, ca⟩
  if M = N ∧ (lo = 0 ∨ hi = 0) then
    if lo = 0 ∧ hi = 0 then
      fun i => if i < M then (if add then y i else 0) + cj cy (α * A.val i i * x.val i) else y i
    else if add = false ∧ ystep1 = true then
      let y := fun i => if i < M then cj cy (α * x.val i) else y i
      multEq rm cm ca ssA cy N lo hi acc y
    else
      let xx := multEq rm cm ca false false N lo hi (fun _ => A.mem) (fun i => if i < M then α * x.val i else g i)
      putV add M (fun i => cj cy (xx i)) y
  else if ssA then
    let yy := doMV false 1 M N lo hi A x false true false g g
    putV add M (fun i => cj cy (α * yy i)) y
  else doMV add α M N lo hi A x ss ystep1 cy g y

/-- `MultMV<add>` (TMV_MultBV.cpp:1632-1711): `A` is `M`×`N`. -/
def multMV (add : Bool) (α : K) (M N lo hi : Nat) (rm cm ca : Bool) (acc : (Nat → K) → Nat → Nat → K) (x : XArg K)
    (ss ssA ystep1 cy : Bool) (g y : Nat → K) : Nat → K :=
  if M > 0 then
    if N = 0 ∨ α = 0 then (if add then y else zeroV M y)
    else if N > M + hi then multMV3 add α M (M+hi) lo hi rm cm ca acc x ss ssA ystep1 cy g y
    else if M > N + lo then
      let y := multMV3 add α (N+lo) N lo hi rm cm ca acc x ss ssA ystep1 cy g y
      if add then y else fun i => if N+lo ≤ i ∧ i < M then 0 else y i
    else multMV3 add α M N lo hi rm cm ca acc x ss ssA ystep1 cy g y
  else y

end TMV.BandMV
