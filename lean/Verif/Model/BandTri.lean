import Verif.Model.Tri

/-! Solving with triangular band matrices: src/TMV_BandTriDiv_V.cpp, src/TMV_BandTriDiv_M.cpp (the code used without
BLAS and LAPACK).

A band matrix is given by the element function of the storage it lives in: only elements of the band belong to it, the
others are arbitrary.  The counters of the loops (`k`, `len`, `i1`, ...) are kept in the loop state as in the code.
Elements are exact field elements, the conj flag of the view is already applied.  `none` = an exception was thrown. -/
namespace TMV.BandTri
open TMV.Tri
variable {K : Type _} [Field K] [DecidableEq K]

/-- `DoRowUpperTriLDivEq` (TMV_BandTriDiv_V.cpp:63-135), `N > 0`, `nhi > 0`; loop state `(b, k, len)`. -/
def rowUpper (ua : Bool) (N hi : Nat) (A : Nat → Nat → K) (b : Nat → K) : Option (Nat → K) :=
  (diagDiv ua A (N-1) b).bind fun b =>
  if N = 1 then some b
  else (forDown (fun i (s : (Nat → K) × Nat × Nat) =>
      (subRow A i (i+1) s.2.2 s.1).bind fun b => (diagDiv ua A i b).map fun b =>
        (b, if s.2.1 > 0 then (s.2.1 - 1, s.2.2 + 1) else s.2)) (N-1) (b, hi - 1, 1)).map fun s => s.1

/-- The loop of `DoColUpperTriLDivEq` (TMV_BandTriDiv_V.cpp:177-211); the pointers `bj`, `Ajj` stand at index `j`,
`bi1`, `Ai1j` at row `i1`.  The first argument only bounds the number of iterations. -/
def colUpperLoop (ua : Bool) (A : Nat → Nat → K) :
    Nat → Nat → Nat → Nat → (Nat → K) → Option ((Nat → K) × Nat)
  | 0, j, _, _, b => some (b, j)
  | fuel+1, j, i1, len, b =>
    if len > 0 then
      (if b j ≠ 0 then (diagDiv ua A j b).bind (subCol A j i1 len) else some b).bind fun b =>
        if i1 > 0 then colUpperLoop ua A fuel (j-1) (i1-1) len b else colUpperLoop ua A fuel (j-1) i1 (len-1) b
    else some (b, j)

/-- `DoColUpperTriLDivEq` (TMV_BandTriDiv_V.cpp:147-227). -/
def colUpper (ua : Bool) (N hi : Nat) (A : Nat → Nat → K) (b : Nat → K) : Option (Nat → K) :=
  let i1 := if N-1 > hi then N-1-hi else 0
  (colUpperLoop ua A N (N-1) i1 (N-1-i1) b).bind fun s =>
    if ¬ ua ∧ s.1 s.2 ≠ 0 then diagDiv ua A s.2 s.1 else some s.1

/-- `DoRowLowerTriLDivEq` (TMV_BandTriDiv_V.cpp:239-313); loop state `(b, j1, k, len)` where `bj1`, `Aij1` stand at
column `j1`; after the inner loop `Aij` stands at column `j1 + len`. -/
def rowLower (ua : Bool) (N lo : Nat) (A : Nat → Nat → K) (b : Nat → K) : Option (Nat → K) :=
  (diagDiv ua A 0 b).bind fun b =>
  (forRange (fun i (s : (Nat → K) × Nat × Nat × Nat) =>
      (subRow A i s.2.1 s.2.2.2 s.1).bind fun b =>
      (if ua then some b else (divBy (b i) (A i (s.2.1 + s.2.2.2))).map (Function.update b i)).map fun b =>
        (b, if s.2.2.1 > 0 then (s.2.1, s.2.2.1 - 1, s.2.2.2 + 1) else (s.2.1 + 1, s.2.2.1, s.2.2.2)))
    (N-1) 1 (b, 0, lo - 1, 1)).map fun s => s.1

/-- The loop of `DoColLowerTriLDivEq` (TMV_BandTriDiv_V.cpp:349-378). -/
def colLowerLoop (ua : Bool) (N : Nat) (A : Nat → Nat → K) :
    Nat → Nat → Nat → Nat → (Nat → K) → Option ((Nat → K) × Nat)
  | 0, j, _, _, b => some (b, j)
  | fuel+1, j, i2, len, b =>
    if len > 0 then
      (if b j ≠ 0 then (diagDiv ua A j b).bind (subCol A j (j+1) len) else some b).bind fun b =>
        if i2 < N then colLowerLoop ua N A fuel (j+1) (i2+1) len b else colLowerLoop ua N A fuel (j+1) i2 (len-1) b
    else some (b, j)

/-- `DoColLowerTriLDivEq` (TMV_BandTriDiv_V.cpp:325-394). -/
def colLower (ua : Bool) (N lo : Nat) (A : Nat → Nat → K) (b : Nat → K) : Option (Nat → K) :=
  let i2 := min (lo+1) N
  (colLowerLoop ua N A N 0 i2 (i2-1) b).bind fun s =>
    if ¬ ua ∧ s.1 s.2 ≠ 0 then diagDiv ua A s.2 s.1 else some s.1

/-- `b /= DiagMatrixViewOf(A.diag())` (TMV_BandTriDiv_V.cpp:412, 431; DoDiagLDivEq, TMV_DiagMatrix.cpp:306-351). -/
def diagV (N : Nat) (A : Nat → Nat → K) (b : Nat → K) : Option (Nat → K) :=
  forRange (fun i b => diagDiv false A i b) N 0 b

/-- `UpperTriLDivEq` (TMV_BandTriDiv_V.cpp:406-423). -/
def doUpper (o : Ord) (ua : Bool) (N hi : Nat) (A : Nat → Nat → K) (b : Nat → K) : Option (Nat → K) :=
  if hi = 0 then (if ua then some b else diagV N A b)
  else match o with
    | .rm => rowUpper ua N hi A b
    | .cm => colUpper ua N hi A b
    | .no => rowUpper ua N hi A b

/-- `LowerTriLDivEq` (TMV_BandTriDiv_V.cpp:425-442). -/
def doLower (o : Ord) (ua : Bool) (N lo : Nat) (A : Nat → Nat → K) (b : Nat → K) : Option (Nat → K) :=
  if lo = 0 then (if ua then some b else diagV N A b)
  else match o with
    | .rm => rowLower ua N lo A b
    | .cm => colLower ua N lo A b
    | .no => rowLower ua N lo A b

/-- `NonBlasTriLDivEq` for `A.nlo() == 0` (TMV_BandTriDiv_V.cpp:456-469): trailing zeros of `b` are left alone.
A vector with step ≠ 1 or a conj flag is copied or conjugated first (TMV_BandTriDiv_V.cpp:484-486, 677-678), which does
not change its elements. -/
def upperV (o : Ord) (ua : Bool) (N hi : Nat) (A : Nat → Nat → K) (b : Nat → K) : Option (Nat → K) :=
  let i2 := trimHi b N
  if i2 = 0 then some b
  else if i2 = N then doUpper o ua N hi A b
  else if hi < i2 then doUpper o ua i2 hi A b
  else doUpper o ua i2 (i2-1) A b

/-- The same for `A.nlo() > 0` (TMV_BandTriDiv_V.cpp:470-482): leading zeros of `b` are left alone; the views
`A.subBandMatrix(i1,N,i1,N,..)`, `b.subVector(i1,N)` are the shifted element functions. -/
def lowerV (o : Ord) (ua : Bool) (N lo : Nat) (A : Nat → Nat → K) (b : Nat → K) : Option (Nat → K) :=
  let i1 := trimLo b N 0
  let back := fun (c : Nat → K) i => if i < i1 then b i else c (i-i1)
  if i1 = N then some b
  else if i1 = 0 then doLower o ua N lo A b
  else if lo < N - i1 then (doLower o ua (N-i1) lo (fun i j => A (i1+i) (i1+j)) (fun i => b (i1+i))).map back
  else (doLower o ua (N-i1) (N-i1-1) (fun i j => A (i1+i) (i1+j)) (fun i => b (i1+i))).map back

/-- `RowUpperTriLDivEq` (TMV_BandTriDiv_M.cpp:48-85); loop state `(B, k, N)`. -/
def rowUpperM (ua : Bool) (N hi nc : Nat) (A B : Nat → Nat → K) : Option (Nat → Nat → K) :=
  (forDown (fun i (s : (Nat → Nat → K) × Nat × Nat) =>
    (diagDivM ua A i nc (subRowM A i (i+1) (s.2.2 - (i+1)) nc s.1)).map fun B =>
      (B, if s.2.1 > 0 then (s.2.1 - 1, s.2.2) else (s.2.1, s.2.2 - 1))) N (B, hi, N)).map fun s => s.1

/-- `ColUpperTriLDivEq` (TMV_BandTriDiv_M.cpp:87-125); loop state `(B, i1)`. -/
def colUpperM (ua : Bool) (N hi nc : Nat) (A B : Nat → Nat → K) : Option (Nat → Nat → K) :=
  let dec := fun i1 : Nat => if i1 > 0 then i1 - 1 else i1
  if ua then
    (forDown (fun r (s : (Nat → Nat → K) × Nat) =>
      some (subOuterM A (r+1) s.2 (r+1-s.2) nc s.1, dec s.2)) (N-1) (B, N-1-hi)).map fun s => s.1
  else
    (forDown (fun j (s : (Nat → Nat → K) × Nat) =>
      (diagDivM false A j nc s.1).map fun B => (subOuterM A j s.2 (j-s.2) nc B, dec s.2)) N (B, N-1-hi)).map fun s => s.1

/-- `RowLowerTriLDivEq` (TMV_BandTriDiv_M.cpp:127-165); loop state `(B, i1, k)`. -/
def rowLowerM (ua : Bool) (N lo nc : Nat) (A B : Nat → Nat → K) : Option (Nat → Nat → K) :=
  (forRange (fun i (s : (Nat → Nat → K) × Nat × Nat) =>
    (diagDivM ua A i nc (subRowM A i s.2.1 (i - s.2.1) nc s.1)).map fun B =>
      (B, if s.2.2 > 0 then (s.2.1, s.2.2 - 1) else (s.2.1 + 1, s.2.2))) N 0 (B, 0, lo)).map fun s => s.1

/-- `ColLowerTriLDivEq` (TMV_BandTriDiv_M.cpp:167-204); loop state `(B, i2)`. -/
def colLowerM (ua : Bool) (N lo nc : Nat) (A B : Nat → Nat → K) : Option (Nat → Nat → K) :=
  (forRange (fun j (s : (Nat → Nat → K) × Nat) =>
    (diagDivM ua A j nc s.1).map fun B =>
      (subOuterM A j (j+1) (s.2 - (j+1)) nc B, if s.2 < N then s.2 + 1 else s.2)) N 0 (B, lo+1)).map fun s => s.1

/-- `TriLDivEq(A,B,dt)` for an upper triangular band matrix, `A.nlo() == 0` (TMV_BandTriDiv_M.cpp:206-234, 392-439):
`B /= A`; `brm` is `B.isrm()`. -/
def upperM (o : Ord) (brm ua : Bool) (N hi nc : Nat) (A B : Nat → Nat → K) : Option (Nat → Nat → K) :=
  if nc = 0 then some B
  else if nc = 1 then colsM (upperV o ua N hi A) N 1 B
  else if brm then
    match o with
    | .rm => rowUpperM ua N hi nc A B
    | .cm => colUpperM ua N hi nc A B
    | .no => rowUpperM ua N hi nc A B
  else colsM (upperV o ua N hi A) N nc B

/-- The same for `A.nlo() > 0`, `A.nhi() == 0`. -/
def lowerM (o : Ord) (brm ua : Bool) (N lo nc : Nat) (A B : Nat → Nat → K) : Option (Nat → Nat → K) :=
  if nc = 0 then some B
  else if nc = 1 then colsM (lowerV o ua N lo A) N 1 B
  else if brm then
    match o with
    | .rm => rowLowerM ua N lo nc A B
    | .cm => colLowerM ua N lo nc A B
    | .no => rowLowerM ua N lo nc A B
  else colsM (lowerV o ua N lo A) N nc B

/-- `TriLDivEq(A,B,dt)`: a band matrix with `lo` sub- and `hi` superdiagonals, one of which is 0; the upper case is
chosen by `A.nlo() == 0`. -/
def triM (o : Ord) (brm ua : Bool) (N lo hi nc : Nat) (A B : Nat → Nat → K) : Option (Nat → Nat → K) :=
  if lo = 0 then upperM o brm ua N hi nc A B else lowerM o brm ua N lo nc A B

end TMV.BandTri
