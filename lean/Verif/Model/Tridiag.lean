import Verif.Model.QR
import Verif.Model.Loop
import Verif.Spec.LDL

/-! Reduction of a symmetric or Hermitian matrix to tridiagonal form (src/TMV_SymSVDecompose_Tridiag.cpp, `HouseholderLRMult` of
src/TMV_SymHouseholder.cpp), without LAPACK.  Elements are exact real or complex numbers; sums are not ordered.  `h`: is the matrix Hermitian
(`A.isherm()`; for real elements both values stand for the same code).  Only the lower triangle of `A` is stored (`A.uplo() == Lower`; an upper one
is brought to this case by `A.adjoint()` or `A.transpose()`, TMV_SymSVDecompose_Tridiag.cpp:523-525); `symFull h A` is the matrix it stands for. -/
namespace TMV.Tridiag
noncomputable section
open Classical TMV.QR

variable {K : Type} [RCLike K]

/-- `A.rowRange(1,N)`. -/
def rowS (A : Nat → Nat → K) : Nat → Nat → K := fun i k => A (i+1) k
/-- `A` after `T`, a view `rowS A`, has been written to. -/
def unrowS (A T : Nat → Nat → K) : Nat → Nat → K := fun i k => if i = 0 then A i k else T (i-1) k

/-- `A`, `beta`, `D`, `E`, `signdet`. -/
structure St (K : Type) where
  A : Nat → Nat → K
  b : Nat → K
  D : Nat → K
  E : Nat → ℝ
  det : K

/-- `HouseholderLRMult(A.col(j,j+2,N),beta,A.subSymMatrix(j+1,N))` (TMV_SymHouseholder.cpp:34-81). -/
def lrMult (h : Bool) (N j : Nat) (beta : K) (A : Nat → Nat → K) : Nat → Nat → K :=
  if N - (j+1) > 0 ∧ beta ≠ 0 then
    let vv : Nat → K := fun q => if q = j+1 then 1 else A q j
    let mv : Nat → K := fun i => ∑ q ∈ Finset.Ico (j+1) N, symFull h A i q * (if h then vv q else star (vv q))
    let w : K := if h then ((RCLike.re (((RCLike.normSq beta : ℝ) : K) * ∑ q ∈ Finset.Ico (j+1) N, star (vv q) * mv q) : ℝ) : K)
      else beta * beta * ∑ q ∈ Finset.Ico (j+1) N, star (vv q) * mv q
    fun i p => if j < p ∧ p ≤ i ∧ i < N then
        A i p + ((-beta) * vv i * cj h (mv p) + cj h (-beta) * mv i * cj h (vv p)) + w * (vv i * cj h (vv p))
      else A i p
  else A

/-- One pass of the loop of `NonBlockTridiagonalize` (TMV_SymSVDecompose_Tridiag.cpp:79-87). -/
def nbStep (h : Bool) (tiny : ℝ) (N j : Nat) (s : St K) : St K :=
  let (T, b, det) := reflectCol tiny (N-1) j (rowS s.A) s.det
  let A := unrowS s.A T
  { s with A := if b ≠ 0 then lrMult h N j b A else A, b := fun k => if k = j then b else s.b k, det := det }

/-- `D = A.diag()` or its real part. -/
def getD (h : Bool) (N : Nat) (A : Nat → Nat → K) (D : Nat → K) : Nat → K :=
  fun k => if k < N then (if h then ((RCLike.re (A k k) : ℝ) : K) else A k k) else D k

/-- `NonBlockTridiagonalize(A,beta,D,E,signdet)` (TMV_SymSVDecompose_Tridiag.cpp:53-95).  `A.diag(1)` is the part above the diagonal. -/
def nonBlock (h : Bool) (tiny : ℝ) (N : Nat) (s : St K) : St K :=
  let s := up (nbStep h tiny N) (N-1) 0 s
  { s with D := getD h N s.A s.D, E := fun k => if k < N-1 then RCLike.re (symFull h s.A k (k+1)) else s.E k,
           det := if h then s.det else s.det * s.det }

/-- `St` and `ZYtmT`.  The part of `ZYtmT` used for a temporary vector (TMV_SymSVDecompose_Tridiag.cpp:188) is never read again and is not modelled. -/
structure BSt (K : Type) extends St K where
  Z : Nat → Nat → K

/-- The column `j` of `A` brought up to date (TMV_SymSVDecompose_Tridiag.cpp:140-149). -/
def bCol (h : Bool) (N j1 j : Nat) (A Z : Nat → Nat → K) : Nat → Nat → K := fun i p =>
  if p = j ∧ j ≤ i ∧ i < N then
    A i j - (∑ k ∈ Finset.range (j-j1), A i (j1+k) * cj h (Z j k)) - ∑ k ∈ Finset.range (j-j1), Z i k * cj h (A j (j1+k))
  else A i p

/-- `*u0 = T(1)`. -/
def setOne (i p : Nat) (A : Nat → Nat → K) : Nat → Nat → K := fun a b => if a = i ∧ b = p then 1 else A a b

/-- `ZYtmTj` before its last change (TMV_SymSVDecompose_Tridiag.cpp:192-197). -/
def bZ0 (h : Bool) (N j1 j : Nat) (b : K) (A Z : Nat → Nat → K) (i : Nat) : K :=
  let uu : Nat → K := fun q => if h then A q j else star (A q j)
  ((∑ q ∈ Finset.Ico (j+1) N, symFull h A i q * uu q)
    - (∑ k ∈ Finset.range (j-j1), A i (j1+k) * ∑ q ∈ Finset.Ico (j+1) N, cj h (Z q k) * uu q)
    - ∑ k ∈ Finset.range (j-j1), Z i k * ∑ q ∈ Finset.Ico (j+1) N, cj h (A q (j1+k)) * uu q) * cj h b

/-- The new column `j-j1` of `ZYtmT` (TMV_SymSVDecompose_Tridiag.cpp:182-208). -/
def bZ (h : Bool) (N j1 j : Nat) (b : K) (A Z : Nat → Nat → K) : Nat → Nat → K := fun i c =>
  if c = j-j1 ∧ j < i ∧ i < N then
    bZ0 h N j1 j b A Z i -
      (((1/2 : ℝ) : K) * cj h b * ∑ q ∈ Finset.Ico (j+1) N, cj h (bZ0 h N j1 j b A Z q) * (if h then A q j else star (A q j))) * A i j
  else Z i c

/-- One pass of the inner loop of `BlockTridiagonalize` (TMV_SymSVDecompose_Tridiag.cpp:134-209). -/
def bStep (h : Bool) (tiny : ℝ) (N j1 j : Nat) (s : BSt K) : BSt K :=
  let A := bCol h N j1 j s.A s.Z
  let (T, b, det) := reflectCol tiny (N-1) j (rowS A) s.det
  let A := unrowS A T
  let e := RCLike.re (A (j+1) j)
  let A := setOne (j+1) j A
  { A := A, b := fun k => if k = j then b else s.b k, D := s.D, E := fun k => if k = j then e else s.E k, det := det,
    Z := bZ h N j1 j b A s.Z }

/-- `Rank2KUpdate<true>(T(-1),Y,ZYtmT,A.subSymMatrix(j2,N))` (TMV_SymSVDecompose_Tridiag.cpp:212-215). -/
def bTail (h : Bool) (N j1 j2 : Nat) (s : BSt K) : BSt K :=
  let A : Nat → Nat → K := fun i p => if j2 ≤ p ∧ p ≤ i ∧ i < N then
      s.A i p - (∑ k ∈ Finset.range (j2-j1), s.A i (j1+k) * cj h (s.Z p k)) - ∑ k ∈ Finset.range (j2-j1), s.Z i k * cj h (s.A p (j1+k))
    else s.A i p
  { s with A := A }

/-- The outer loop of `BlockTridiagonalize` (TMV_SymSVDecompose_Tridiag.cpp:130-220); `nb` is `SYM_TRIDIAG_BLOCKSIZE` (`0` would not end).  The test `j2 < N` at 133 always
holds. -/
def bLoop (h : Bool) (tiny : ℝ) (nb N j1 : Nat) (s : BSt K) : BSt K :=
  if _h : j1 < N-1 ∧ 0 < nb then
    let j2 := min (N-1) (j1+nb)
    bLoop h tiny nb N j2 (bTail h N j1 j2 (up (bStep h tiny N j1) (j2-j1) j1 s))
  else s
termination_by N-1-j1

/-- `BlockTridiagonalize(A,beta,D,E,signdet)` (TMV_SymSVDecompose_Tridiag.cpp:97-228); `Z` is what the new `ZYtmT` holds. -/
def block (h : Bool) (tiny : ℝ) (nb N : Nat) (Z : Nat → Nat → K) (s : St K) : St K :=
  let s := bLoop h tiny nb N 0 { s with Z := Z }
  { A := s.A, b := s.b, D := getD h N s.A s.D, E := s.E, det := if h then s.det else s.det * s.det }

/-- `NonLapTridiagonalize` (TMV_SymSVDecompose_Tridiag.cpp:230-239). -/
def nonLap (h : Bool) (tiny : ℝ) (nb N : Nat) (Z : Nat → Nat → K) (s : St K) : St K :=
  if N ≥ nb*2 then block h tiny nb N Z s else nonBlock h tiny N s

/-- `Tridiagonalize(A,beta,D,E,signdet)` (TMV_SymSVDecompose_Tridiag.cpp:493-619) for a lower `A`. -/
def tridiagonalize (h : Bool) (tiny : ℝ) (nb N : Nat) (Z : Nat → Nat → K) (s : St K) : St K :=
  let r := if N > 0 then nonLap h tiny nb N Z { s with det := if h then 0 else 1 } else { s with det := if h then 0 else 1 }
  { r with det := if h then s.det else s.det * r.det }

/-- The unitary matrix from the packed form (TMV_SymSVDecompose.cpp:1246-1250). -/
def makeU (qb N : Nat) (b : Nat → K) (Z U : Nat → Nat → K) : Nat → Nat → K :=
  let U := down (fun j (U : Nat → Nat → K) => fun i p => if p = j + 1 ∧ j + 1 ≤ i ∧ i < N then U i j else U i p) (N-1) U
  let U : Nat → Nat → K := fun i p => if p = 0 ∧ i < N then (if i = 0 then 1 else 0) else U i p
  let U : Nat → Nat → K := fun i p => if i = 0 ∧ 1 ≤ p ∧ p < N then 0 else U i p
  let Q := getQ qb (N-1) (N-1) b Z (fun a k => U (a+1) (k+1))
  fun i p => if 1 ≤ i ∧ 1 ≤ p ∧ i < N ∧ p < N then Q (i-1) (p-1) else U i p

end
end TMV.Tridiag
