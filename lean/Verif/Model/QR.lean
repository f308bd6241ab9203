import Verif.Model.Tri
import Verif.Model.Givens

/-! Householder reflections (src/TMV_Householder.cpp), QR decomposition (src/TMV_QRDecompose.cpp), recovery of Q
(src/TMV_GetQFromQR.cpp), multiplication by the packed Q (src/TMV_PackedQ.cpp), all without LAPACK.

Matrices are element functions with exact real or complex elements; a sub-view `A.subMatrix(a,M,a,b)` is addressed
by the row and column numbers of the parent.  `tiny > 0` is `std::numeric_limits<RT>::min()`: `TMV_Underflow(r)` is
`|r| < tiny`.  Matrix products inside the routines are exact sums. -/
namespace TMV.QR
noncomputable section
open Classical

variable {K : Type} [RCLike K]

/-! ### One reflection -/

/-- `TMV_ABS2`: `|re| + |im|`. -/
def abs2 (z : K) : ℝ := |RCLike.re z| + |RCLike.im z|

/-- `x.maxAbs2Element()` of `x(0..n-1)` (0 for an empty vector). -/
def maxAbs2 (x : Nat → K) : Nat → ℝ
  | 0 => 0
  | n+1 => max (maxAbs2 x n) (abs2 (x n))

/-- Result of `HouseholderReflect`: the new `x0`, `x`, the returned `beta`, the new `det`. -/
structure Refl (K : Type) where
  x0 : K
  x : Nat → K
  beta : K
  det : K

/-- `det` update (TMV_Householder.cpp:132-141). -/
def updDet (beta det : K) : K :=
  if det ≠ 0 then
    if RCLike.im beta = 0 then -det
    else det * (-star (beta * beta) / ((RCLike.normSq beta : ℝ) : K))
  else det

/-- `HouseholderReflect(x0,x,det)` (TMV_Householder.cpp:45-176), `n = x.size()`. -/
def reflect (tiny : ℝ) (n : Nat) (x0 : K) (x : Nat → K) (det : K) : Refl K :=
  let scale := maxAbs2 x n
  let scale := if ‖x0‖ > scale then ‖x0‖ else scale
  if |scale| < tiny then ⟨0, fun i => if i < n then 0 else x i, 0, det⟩
  else
    let invscale := 1 / scale
    let normsqx := ∑ i ∈ Finset.range n, RCLike.normSq ((invscale : K) * x i)
    if normsqx = 0 ∧ RCLike.im x0 = 0 then ⟨x0, fun i => if i < n then 0 else x i, 0, det⟩
    else
      let absx0 := ‖x0‖ * invscale
      let x0 := x0 * (invscale : K)
      let normsqx := normsqx + absx0 * absx0
      let normx := Real.sqrt normsqx
      let y := if RCLike.re x0 > 0 then -normx else normx
      let v0 := x0 - (y : K)
      let beta := ((RCLike.normSq v0 : ℝ) : K) / ((normsqx : K) - (y : K) * x0)
      let invv0 := 1 / v0
      let scaled := invv0 * (invscale : K)
      let x := if (RCLike.re invv0 ≠ 0 ∧ |RCLike.re scaled| < tiny) ∨ (RCLike.im invv0 ≠ 0 ∧ |RCLike.im scaled| < tiny)
        then fun i => if i < n then (x i * (invscale : K)) * invv0 else x i
        else fun i => if i < n then x i * scaled else x i
      ⟨((y * scale : ℝ) : K), x, beta, updDet beta det⟩

/-- Result of `HouseholderUnReflect`: the new `y`, `x`, `beta`. -/
structure UnRefl (K : Type) where
  y : K
  x : Nat → K
  beta : K

/-- `HouseholderUnReflect(y,x,beta)` (TMV_Householder.cpp:260-310); `none` = returned false (`beta` and `x`
unchanged then). -/
def unReflect (n : Nat) (y : K) (x : Nat → K) : Option (UnRefl K) :=
  let normsqx1 := ∑ i ∈ Finset.range n, RCLike.normSq (x i)
  if normsqx1 = 0 then some ⟨y, x, 0⟩
  else
    let normsqx := RCLike.re y ^ 2
    let normsqx0 := normsqx - normsqx1
    if normsqx0 < 0 then none
    else
      let x0 := if RCLike.re y > 0 then -Real.sqrt normsqx0 else Real.sqrt normsqx0
      let v0 := (x0 : K) - y
      let beta := ((RCLike.normSq v0 : ℝ) : K) / ((normsqx : K) - y * (x0 : K))
      some ⟨(x0 : K), fun i => if i < n then x i / v0 else x i, beta⟩

/-! ### Reflections in a matrix -/

/-- `HouseholderReflect(A.col(j,j,M),det)` (TMV_Householder.cpp:251-257) in place. -/
def reflectCol (tiny : ℝ) (M j : Nat) (A : Nat → Nat → K) (det : K) : (Nat → Nat → K) × K × K :=
  let r := reflect tiny (M-(j+1)) (A j j) (fun i => A (j+1+i) j) det
  (fun a b => if b = j ∧ a = j then r.x0 else if b = j ∧ j < a ∧ a < M then r.x (a-(j+1)) else A a b, r.beta, r.det)

/-- `HouseholderLMult(v,beta,m0,mx)` (TMV_Householder.cpp:333-373) with `v = V.col(j,j+1,M)` and
`(m0,mx) = m.subMatrix(j,M,c0,c1)`. -/
def lmult (M j c0 c1 : Nat) (V : Nat → Nat → K) (beta : K) (m : Nat → Nat → K) : Nat → Nat → K :=
  if c1 - c0 = 0 then m
  else if beta ≠ 0 then
    let temp : Nat → K := fun c => ((∑ p ∈ Finset.Ico (j+1) M, star (V p j) * m p c) + m j c) * beta
    fun a c => if c0 ≤ c ∧ c < c1 then
        if a = j then m a c - temp c else if j < a ∧ a < M then m a c - V a j * temp c else m a c
      else m a c
  else m

/-- `HouseholderReflect(A.subMatrix(j,M,j,N),det)` (TMV_Householder.cpp:178-211): new `A`, `beta`, `det`. -/
def reflectMat (tiny : ℝ) (M N j : Nat) (A : Nat → Nat → K) (det : K) : (Nat → Nat → K) × K × K :=
  let (A, beta, det) := reflectCol tiny M j A det
  (if beta ≠ 0 then lmult M j (j+1) N A beta A else A, beta, det)

/-- The unit lower trapezoid of `V`: `V.lowerTri(UnitDiag)` and the rows below. -/
def ul (V : Nat → Nat → K) (p k : Nat) : K := if p < k then 0 else if p = k then 1 else V p k

/-- `Y.rowRange(0,N).lowerTri(UnitDiag).adjoint() * m.rowRange(0,N) + Y.rowRange(N,M).adjoint() * m.rowRange(N,M)`,
`Y = V.subMatrix(a,M,a,b)` (TMV_Householder.cpp:627-628, 677-678). -/
def ytm (M a b : Nat) (V m : Nat → Nat → K) (k c : Nat) : K :=
  (∑ p ∈ Finset.Ico a b, star (ul V p k) * m p c) + ∑ p ∈ Finset.Ico b M, star (V p k) * m p c

/-- `m.rowRange(0,N) -= Y.rowRange(0,N).lowerTri(UnitDiag) * W; m.rowRange(N,M) -= Y.rowRange(N,M) * W`
(TMV_Householder.cpp:630-631, 680-681). -/
def subYW (M a b c0 c1 : Nat) (V W m : Nat → Nat → K) : Nat → Nat → K :=
  fun p c => if c0 ≤ c ∧ c < c1 then
      if a ≤ p ∧ p < b then m p c - ∑ k ∈ Finset.Ico a b, ul V p k * W k c
      else if b ≤ p ∧ p < M then m p c - ∑ k ∈ Finset.Ico a b, V p k * W k c
      else m p c
    else m p c

/-- `BlockHouseholderLMult(Y,Z,m)` (TMV_Householder.cpp:601-650): `m <- (I - Y Z Yᴴ) m`. -/
def blockLMult (M a b c0 c1 : Nat) (V Z m : Nat → Nat → K) : Nat → Nat → K :=
  subYW M a b c0 c1 V (fun k c => ∑ l ∈ Finset.Ico k b, Z k l * ytm M a b V m l c) m

/-- `BlockHouseholderLDiv(Y,Z,m)` (TMV_Householder.cpp:652-698): `m <- (I - Y Zᴴ Yᴴ) m`. -/
def blockLDiv (M a b c0 c1 : Nat) (V Z m : Nat → Nat → K) : Nat → Nat → K :=
  subYW M a b c0 c1 V (fun k c => ∑ l ∈ Finset.Ico a (k+1), star (Z l k) * ytm M a b V m l c) m

/-- The off-diagonal block `Z3 = -Z1 * (Y1ᴴ Y2) * Z2` of rows `[a,c)`, columns `[c,b)`
(TMV_Householder.cpp:575-581; the same code in TMV_QRDecompose.cpp:165-172). -/
def z3 (M a c b : Nat) (V Z : Nat → Nat → K) : Nat → Nat → K :=
  let G : Nat → Nat → K := fun l k =>
    (∑ p ∈ Finset.Ico c b, star (V p l) * ul V p k) + ∑ p ∈ Finset.Ico b M, star (V p l) * V p k
  let G1 : Nat → Nat → K := fun l k => -∑ q ∈ Finset.Ico l c, Z l q * G q k
  fun l k => if a ≤ l ∧ l < c ∧ c ≤ k ∧ k < b then ∑ q ∈ Finset.Ico c (k+1), G1 l q * Z q k else Z l k

/-- `BlockHouseholderMakeZ(Y,Z,beta)` (TMV_Householder.cpp:486-599), `Y = V.subMatrix(a,M,a,a+N)`.  (`N = 0` is never
passed; the code would recurse forever.) -/
def makeZ (M : Nat) (V : Nat → Nat → K) (beta : Nat → K) (a N : Nat) (Z : Nat → Nat → K) : Nat → Nat → K :=
  if _h0 : N = 0 then Z
  else if _h1 : N = 1 then setE Z a a (star (beta a))
  else if _h2 : N = 2 then
    let cb0 := star (beta a)
    let cb1 := star (beta (a+1))
    let temp := (∑ p ∈ Finset.Ico (a+2) M, star (V p a) * V p (a+1)) + star (V (a+1) a)
    setE (setE (setE Z a a cb0) (a+1) (a+1) cb1) a (a+1) (-cb0 * cb1 * temp)
  else
    let j1 := (N+1)/2
    let Z := makeZ M V beta a j1 Z
    let Z := makeZ M V beta (a+j1) (N-j1) Z
    z3 M a (a+j1) (a+N) V Z
termination_by N
decreasing_by all_goals omega

/-! ### QR decomposition -/

/-- State of the decomposition: `A`, the block-Householder matrix `Z`, `det`. -/
structure St (K : Type) where
  A : Nat → Nat → K
  Z : Nat → Nat → K
  det : K

/-- `RecursiveQRDecompose(A,Z,det,makeZ)` (TMV_QRDecompose.cpp:110-175) on `A.subMatrix(a,M,a,a+N)`; `Z` is addressed
by the column numbers of the parent as well. -/
def recQR (tiny : ℝ) (M a N : Nat) (mz : Bool) (s : St K) : St K :=
  if _h0 : N = 0 then s
  else if _h1 : N = 1 then
    let (A, b, det) := reflectCol tiny M a s.A s.det
    ⟨A, setE s.Z a a (star b), det⟩
  else if _h2 : N = 2 then
    let (A, b0, det) := reflectMat tiny M (a+2) a s.A s.det
    let Z := setE s.Z a a (star b0)
    let (A, b1, det) := reflectCol tiny M (a+1) A det
    let Z := setE Z (a+1) (a+1) (star b1)
    let temp := (∑ p ∈ Finset.Ico (a+2) M, star (A p a) * A p (a+1)) + star (A (a+1) a)
    ⟨A, if mz then setE Z a (a+1) (-star (b0 * b1) * temp) else Z, det⟩
  else
    let j1 := (N+1)/2
    let s := recQR tiny M a j1 true s
    let s : St K := ⟨blockLDiv M a (a+j1) (a+j1) (a+N) s.A s.Z s.A, s.Z, s.det⟩
    let s := recQR tiny M (a+j1) (N-j1) mz s
    ⟨s.A, if mz then z3 M a (a+j1) (a+N) s.A s.Z else s.Z, s.det⟩
termination_by N
decreasing_by all_goals omega

/-- Loop of `BlockQRDecompose` from column `j1` (TMV_QRDecompose.cpp:199-211); `nb` = `QR_BLOCKSIZE`.  `beta` is
collected from the diagonal of `Z`.  Simplification: `BaseZ` is reused for every block in the code; here each block
has its own part of `Z` (whatever its contents). -/
def blockQRLoop (tiny : ℝ) (nb M N j1 : Nat) (s : St K) (beta : Nat → K) : St K × (Nat → K) :=
  if _h : j1 < N ∧ 0 < nb then
    let j2 := min N (j1+nb)
    let s := recQR tiny M j1 (j2-j1) (decide (j2 < N)) s
    let beta : Nat → K := fun j => if j1 ≤ j ∧ j < j2 then star (s.Z j j) else beta j
    let s : St K := if j2 < N then ⟨blockLDiv M j1 j2 j2 N s.A s.Z s.A, s.Z, s.det⟩ else s
    blockQRLoop tiny nb M N j2 s beta
  else (s, beta)
termination_by N - j1
decreasing_by omega

/-- `QR_Decompose(A,beta,det)` (TMV_QRDecompose.cpp:603-637 with `NonLapQRDecompose`, 238-258).  `Z0`, `beta0` are the
(irrelevant) previous contents of `Z` and `beta`. -/
def decompose (tiny : ℝ) (nb M N : Nat) (A Z0 : Nat → Nat → K) (beta0 : Nat → K) (det : K) : St K × (Nat → K) :=
  if N > 0 then
    if N > nb then blockQRLoop tiny nb M N 0 ⟨A, Z0, det⟩ beta0
    else
      let s := recQR tiny M 0 N false ⟨A, Z0, det⟩
      (s, fun j => if j < N then star (s.Z j j) else beta0 j)
  else (⟨A, Z0, det⟩, beta0)

/-- `NonBlockQRDecompose` (TMV_QRDecompose.cpp:56-86; only used by debug checks). -/
def nonBlock (tiny : ℝ) (M N : Nat) : Nat → Nat → (Nat → Nat → K) → (Nat → K) → K → (Nat → Nat → K) × (Nat → K) × K
  | 0, _, A, beta, det => (A, beta, det)
  | n+1, j, A, beta, det =>
    let (A, b, det) := reflectMat tiny M N j A det
    nonBlock tiny M N n (j+1) A (fun k => if k = j then b else beta k) det

/-! ### Q from the packed form -/

/-- `Q.upperTri().setZero()`. -/
def zeroUpper (N : Nat) (Q : Nat → Nat → K) : Nat → Nat → K :=
  fun a b => if a ≤ b ∧ b < N then 0 else Q a b

/-- `HouseholderUnpack(Q.subMatrix(i,M,i,N),beta)` (TMV_Householder.cpp:385-455). -/
def unpackCol (M N i : Nat) (beta : K) (Q : Nat → Nat → K) : Nat → Nat → K :=
  let Q := lmult M i (i+1) N Q (star beta) Q
  if beta = 0 then setE Q i i 1
  else fun a b => if b = i ∧ a = i then 1 - star beta
    else if b = i ∧ i < a ∧ a < M then Q a b * (-star beta) else Q a b

/-- `NonBlockGetQFromQR` (TMV_GetQFromQR.cpp:50-74): `n` columns left. -/
def unpackLoop (M N : Nat) (beta : Nat → K) : Nat → (Nat → Nat → K) → Nat → Nat → K
  | 0, Q => Q
  | i+1, Q => unpackLoop M N beta i (unpackCol M N i (beta i) Q)

/-- `BlockHouseholderUnpack(Y,Z,m)` (TMV_Householder.cpp:700-732), `Y = Q.subMatrix(a,M,a,b)`,
`m = Q.subMatrix(a,M,b,N)`. -/
def blockUnpack (M N a b : Nat) (Z Q : Nat → Nat → K) : Nat → Nat → K :=
  let Q := blockLMult M a b b N Q Z Q
  let temp : Nat → Nat → K := fun k l => -∑ q ∈ Finset.Ico k (l+1), Z k q * star (ul Q l q)
  fun p l => if a ≤ l ∧ l < b then
      if b ≤ p ∧ p < M then ∑ k ∈ Finset.Ico a (l+1), Q p k * temp k l
      else if a ≤ p ∧ p < b then (∑ k ∈ Finset.Ico a (l+1), ul Q p k * temp k l) + if p = l then 1 else 0
      else Q p l
    else Q p l

/-- Loop of `BlockGetQFromQR` (TMV_GetQFromQR.cpp:93-101): columns below `j2` left. -/
def blockUnpackLoop (nb M N : Nat) (beta : Nat → K) (j2 : Nat) (Z Q : Nat → Nat → K) : Nat → Nat → K :=
  if _h : j2 > 0 ∧ 0 < nb then
    let j1 := if j2 > nb then j2 - nb else 0
    let Z := makeZ M Q beta j1 (j2-j1) Z
    blockUnpackLoop nb M N beta j1 Z (blockUnpack M N j1 j2 Z Q)
  else Q
termination_by j2
decreasing_by split <;> omega

/-- `GetQFromQR(Q,beta)` (TMV_GetQFromQR.cpp:114-124). -/
def getQ (nb M N : Nat) (beta : Nat → K) (Z0 Q : Nat → Nat → K) : Nat → Nat → K :=
  if N ≥ nb then blockUnpackLoop nb M N beta N Z0 (zeroUpper N Q)
  else unpackLoop M N beta N (zeroUpper N Q)

/-- `QR_Decompose(Q,R,det)` (TMV_QRDecompose.cpp:676-693): new `Q`, `R` (upper triangle), `det`. -/
def unpacked (tiny : ℝ) (nb M N : Nat) (A Z0 Z1 : Nat → Nat → K) (beta0 : Nat → K) (det : K) :
    (Nat → Nat → K) × (Nat → Nat → K) × K :=
  let r := decompose tiny nb M N A Z0 beta0 det
  (getQ nb M N r.2 Z1 r.1.A, fun i j => if i ≤ j then r.1.A i j else 0, r.1.det)

/-! ### Packed Q -/

/-- `NonBlockQLDivEq` (TMV_PackedQ.cpp:55-79) from column `j`, `n` columns left; `m` has `nc` columns. -/
def qLDivLoop (M nc : Nat) (V : Nat → Nat → K) (beta : Nat → K) : Nat → Nat → (Nat → Nat → K) → Nat → Nat → K
  | 0, _, m => m
  | n+1, j, m => qLDivLoop M nc V beta n (j+1) (if beta j ≠ 0 then lmult M j 0 nc V (beta j) m else m)

/-- Loop of `BlockQLDivEq` (TMV_PackedQ.cpp:104-116). -/
def qLDivBlock (nb M N nc : Nat) (V : Nat → Nat → K) (beta : Nat → K) (j1 : Nat) (Z m : Nat → Nat → K) : Nat → Nat → K :=
  if _h : j1 < N ∧ 0 < nb then
    let j2 := min N (j1+nb)
    let Z := makeZ M V beta j1 (j2-j1) Z
    qLDivBlock nb M N nc V beta j2 Z (blockLDiv M j1 j2 0 nc V Z m)
  else m
termination_by N - j1
decreasing_by omega

/-- `Q_LDivEq(Q,beta,m)` (TMV_PackedQ.cpp:131-147 `NonLapQLDivEq`): `m <- Q⁻¹ m`. -/
def qLDivEq (nb M N nc : Nat) (V : Nat → Nat → K) (beta : Nat → K) (Z0 m : Nat → Nat → K) : Nat → Nat → K :=
  if N > nb ∧ nc > nb then qLDivBlock nb M N nc V beta 0 Z0 m else qLDivLoop M nc V beta N 0 m

end
end TMV.QR
