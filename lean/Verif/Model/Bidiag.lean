import Verif.Model.QR
import Verif.Model.Diag

/-! Reduction of a matrix to bidiagonal form (src/TMV_SVDecompose_Bidiag.cpp) and the part of `SV_Decompose` (src/TMV_SVDecompose.cpp) around
it.  Elements are exact real or complex numbers; sums are not ordered. -/
namespace TMV.Bidiag
noncomputable section
open Classical TMV.QR

variable {K : Type} [RCLike K]

/-- `A.transpose().rowRange(1,N)`. -/
def rowT (A : Nat → Nat → K) : Nat → Nat → K := fun i k => A k (i+1)

/-- `A` after `T`, a view `rowT A`, has been written to. -/
def unrowT (A T : Nat → Nat → K) : Nat → Nat → K := fun k p => if p = 0 then A k p else T (p-1) k

/-- `A`, `Ubeta`, `Vtbeta`, `D`, `E`, `signdet`. -/
structure St (K : Type) where
  A : Nat → Nat → K
  ub : Nat → K
  vb : Nat → K
  D : Nat → ℝ
  E : Nat → ℝ
  det : K

/-- One pass of the loop of `NonBlockBidiagonalize` (TMV_SVDecompose_Bidiag.cpp:90-102):
`A.transpose().subMatrix(j+1,N,j,M)` is `rowT(A).subMatrix(j,N-1,j,M)`. -/
def nbStep (tiny : ℝ) (M N j : Nat) (s : St K) : St K :=
  let (A, b, det) := reflectMat tiny M N j s.A s.det
  let (T, g, det) := reflectMat tiny (N-1) M j (rowT A) det
  { s with A := unrowT A T, ub := fun k => if k = j then b else s.ub k, vb := fun k => if k = j then g else s.vb k, det := det }

/-- `NonBlockBidiagonalize(A,Ubeta,Vtbeta,D,E,signdet)` (TMV_SVDecompose_Bidiag.cpp:58-144). -/
def nonBlock (tiny : ℝ) (M N : Nat) (s : St K) : St K :=
  let s := up (nbStep tiny M N) (N-1) 0 s
  let (A, b, det) := reflectCol tiny M (N-1) s.A s.det
  { A := A, ub := fun k => if k = N-1 then b else s.ub k, vb := s.vb,
    D := fun k => if k < N then RCLike.re (A k k) else s.D k, E := fun k => if k < N-1 then RCLike.re (A k (k+1)) else s.E k, det := det }

/-- `St`, `ZYtm` (its row, the column of `A`) and `mXtW` (the row of `A`, its column).  The parts of these used for temporary vectors
(TMV_SVDecompose_Bidiag.cpp:270, 335-336) are never read again and are not modelled. -/
structure BSt (K : Type) extends St K where
  Z : Nat → Nat → K
  W : Nat → Nat → K

/-- The column `j` of `A` brought up to date (TMV_SVDecompose_Bidiag.cpp:209-223). -/
def bCol (M j1 j : Nat) (A Z W : Nat → Nat → K) : Nat → Nat → K := fun i p =>
  if p = j ∧ j ≤ i ∧ i < M then
    A i j - (∑ k ∈ Finset.range (j-j1), A i (j1+k) * Z k j) - ∑ k ∈ Finset.range (j-j1), W i k * A (j1+k) j
  else A i p

/-- The new row `j-j1` of `ZYtm` (TMV_SVDecompose_Bidiag.cpp:269-288). -/
def bZ (M N j1 j : Nat) (b : K) (A Z W : Nat → Nat → K) : Nat → Nat → K := fun r p =>
  if r = j-j1 ∧ j < p ∧ p < N then
    ((∑ i ∈ Finset.Ico j M, star (A i j) * A i p)
      - (∑ k ∈ Finset.range (j-j1), (∑ i ∈ Finset.Ico j M, star (A i j) * A i (j1+k)) * Z k p)
      - ∑ k ∈ Finset.range (j-j1), (∑ i ∈ Finset.Ico j M, star (A i j) * W i k) * A (j1+k) p) * b
  else Z r p

/-- The row `j` of `A` brought up to date (TMV_SVDecompose_Bidiag.cpp:298-303). -/
def bRow (N j1 j : Nat) (A Z W : Nat → Nat → K) : Nat → Nat → K := fun i p =>
  if i = j ∧ j < p ∧ p < N then
    A j p - (∑ k ∈ Finset.range (j-j1+1), A j (j1+k) * Z k p) - ∑ k ∈ Finset.range (j-j1), W j k * A (j1+k) p
  else A i p

/-- The new column `j-j1` of `mXtW` (TMV_SVDecompose_Bidiag.cpp:334-355). -/
def bW (M N j1 j : Nat) (g : K) (A Z W : Nat → Nat → K) : Nat → Nat → K := fun i c =>
  if c = j-j1 ∧ j < i ∧ i < M then
    ((∑ p ∈ Finset.Ico (j+1) N, A i p * star (A j p))
      - (∑ k ∈ Finset.range (j-j1+1), A i (j1+k) * ∑ p ∈ Finset.Ico (j+1) N, Z k p * star (A j p))
      - ∑ k ∈ Finset.range (j-j1), W i k * ∑ p ∈ Finset.Ico (j+1) N, A (j1+k) p * star (A j p)) * g
  else W i c

/-- `*x.ptr() = T(1)` for the element `i`, `p`. -/
def setOne (i p : Nat) (A : Nat → Nat → K) : Nat → Nat → K := fun a b => if a = i ∧ b = p then 1 else A a b

/-- One pass of the inner loop of `BlockBidiagonalize` (TMV_SVDecompose_Bidiag.cpp:203-357). -/
def bStep (tiny : ℝ) (M N j1 j : Nat) (s : BSt K) : BSt K :=
  let A := bCol M j1 j s.A s.Z s.W
  let (A, b, det) := reflectCol tiny M j A s.det
  let d := RCLike.re (A j j)
  let A := setOne j j A
  let Z := bZ M N j1 j b A s.Z s.W
  let A := bRow N j1 j A Z s.W
  let (T, g, det) := reflectCol tiny (N-1) j (rowT A) det
  let A := unrowT A T
  let e := RCLike.re (A j (j+1))
  let A := setOne j (j+1) A
  { A := A, ub := fun k => if k = j then b else s.ub k, vb := fun k => if k = j then g else s.vb k,
    D := fun k => if k = j then d else s.D k, E := fun k => if k = j then e else s.E k, det := det,
    Z := Z, W := bW M N j1 j g A Z s.W }

/-- The update of the rest of `A` after a block (TMV_SVDecompose_Bidiag.cpp:360-363). -/
def bTail (M N j1 j2 : Nat) (s : BSt K) : BSt K :=
  let A : Nat → Nat → K := fun i p => if j2 ≤ i ∧ i < M ∧ j2 ≤ p ∧ p < N then
      (s.A i p - ∑ k ∈ Finset.range (j2-j1), s.A i (j1+k) * s.Z k p) - ∑ k ∈ Finset.range (j2-j1), s.W i k * s.A (j1+k) p
    else s.A i p
  { s with A := A }

/-- The outer loop of `BlockBidiagonalize` (TMV_SVDecompose_Bidiag.cpp:201-365); `nb` is `BIDIAG_BLOCKSIZE` (`0` would not end). -/
def bLoop (tiny : ℝ) (nb M N j1 : Nat) (s : BSt K) : BSt K :=
  if _h : j1 < N-1 ∧ 0 < nb then
    let j2 := min (N-1) (j1+nb)
    bLoop tiny nb M N j2 (bTail M N j1 j2 (up (bStep tiny M N j1) (j2-j1) j1 s))
  else s
termination_by N-1-j1

/-- `BlockBidiagonalize(A,Ubeta,Vtbeta,D,E,signdet)` (TMV_SVDecompose_Bidiag.cpp:146-421). -/
def block (tiny : ℝ) (nb M N : Nat) (Z W : Nat → Nat → K) (s : St K) : St K :=
  let s := bLoop tiny nb M N 0 { s with Z := Z, W := W }
  let (A, b, det) := reflectCol tiny M (N-1) s.A s.det
  { A := A, ub := fun k => if k = N-1 then b else s.ub k, vb := s.vb,
    D := fun k => if k = N-1 then RCLike.re (A k k) else s.D k, E := s.E, det := det }

/-- `Bidiagonalize(A,Ubeta,Vtbeta,D,E,signdet)` (TMV_SVDecompose_Bidiag.cpp:729-811 with `NonLapBidiagonalize`, 423-440).  `Z`, `W`: what new
matrices hold. -/
def bidiagonalize (tiny : ℝ) (nb M N : Nat) (Z W : Nat → Nat → K) (s : St K) : St K :=
  if N > 0 then if N > nb then block tiny nb M N Z W s else nonBlock tiny M N s else s

/-- `Vt` from the packed form (TMV_SVDecompose.cpp:832-836): `Vt.subMatrix(1,N,1,N).transpose()` is `rowT(Vt.rowRange(1,N))`. -/
def makeVt (qb N : Nat) (vb : Nat → K) (Z U Vt : Nat → Nat → K) : Nat → Nat → K :=
  let Vt : Nat → Nat → K := fun i p => if i = 0 ∧ p < N then (if p = 0 then 1 else 0) else Vt i p
  let Vt : Nat → Nat → K := fun i p => if 1 ≤ i ∧ i < N ∧ p < N then U (i-1) p else Vt i p
  let Vt : Nat → Nat → K := fun i p => if p = 0 ∧ 1 ≤ i ∧ i < N then 0 else Vt i p
  let Q := getQ qb (N-1) (N-1) vb Z (fun a k => Vt (k+1) (a+1))
  fun i p => if 1 ≤ i ∧ 1 ≤ p ∧ i < N ∧ p < N then Q (p-1) (i-1) else Vt i p

end
end TMV.Bidiag
