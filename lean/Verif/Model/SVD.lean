import Verif.Model.Diag
import Verif.Model.SymMM

/-! The dividers that use a singular value decomposition: src/TMV_SVDiv.cpp, src/TMV_SVD.cpp, src/TMV_BandSVD.cpp, src/TMV_SymSVD.cpp,
src/TMV_SymSVInverse.cpp, src/TMV_SymBandSVD.cpp.

The decomposition itself (`SV_Decompose`, an iteration) is not part of this model: a divider is given by what it holds.  Exact real or complex
elements; products of matrices are exact and new (temporary) matrices hold `0` outside of their range. -/
namespace TMV.SVD
noncomputable section
open Classical

variable {K : Type} [RCLike K]

/-- A `GenDiagMatrix<RT>` with the singular values, used with elements of type `K`. -/
def dv (S : Nat → ℝ) : Diag.DV K := ⟨fun i => ((S i : ℝ) : K), false, false⟩

/-- `Matrix<T> X = A * B`, `m × n` with inner dimension `k`. -/
def newMul (m k n : Nat) (A B : Nat → Nat → K) : Nat → Nat → K :=
  fun i j => if i < m ∧ j < n then ∑ l ∈ Finset.range k, A i l * B l j else 0

/-- `x = A * B`, `m × n` with inner dimension `k`. -/
def assignMul (m k n : Nat) (A B x : Nat → Nat → K) : Nat → Nat → K :=
  fun i j => if i < m ∧ j < n then ∑ l ∈ Finset.range k, A i l * B l j else x i j

/-- `transpose()`. -/
def tr (A : Nat → Nat → K) : Nat → Nat → K := fun i j => A j i

/-- `adjoint()`. -/
def adj (A : Nat → Nat → K) : Nat → Nat → K := fun i j => star (A j i)

/-- `conjugate()`. -/
def conj (A : Nat → Nat → K) : Nat → Nat → K := fun i j => star (A i j)

/-- `SV_LDiv(U,SS,Vt,kmax,m,x)` (TMV_SVDiv.cpp:47-69): `U` is `M × N`, `Vt` is `N × N`, `m` has `R` columns; `m2` is row-major. -/
def svLDiv (g : Nat → K) (M N k R : Nat) (U : Nat → Nat → K) (S : Nat → ℝ) (Vt m x : Nat → Nat → K) : Option (Nat → Nat → K) :=
  let m2 := newMul k M R (adj U) m
  (Diag.divM ⟨true, false⟩ g k R (dv S) m2).map fun m2 =>
  assignMul N k R (adj Vt) m2 x

/-- `SV_RDiv(U,SS,Vt,kmax,m,x)` (TMV_SVDiv.cpp:92-114): `m` has `R` rows; `m2 %= D` divides `m2.transpose()`, which is column-major. -/
def svRDiv (g : Nat → K) (M N k R : Nat) (U : Nat → Nat → K) (S : Nat → ℝ) (Vt m x : Nat → Nat → K) : Option (Nat → Nat → K) :=
  let m2 := newMul R N k m (adj Vt)
  (Diag.divM ⟨false, true⟩ g k R (dv S) (tr m2)).map fun m2t =>
  assignMul R k M (tr m2t) (adj U) x

/-- What `SVDiv` and `BandSVDiv` hold (TMV_SVD.cpp:37-71, TMV_BandSVD.cpp:39-64): the decomposition of the matrix, or of its transpose. -/
structure Fac (K : Type) where
  istrans : Bool
  U : Nat → Nat → K
  S : Nat → ℝ
  Vt : Nat → Nat → K
  kmax : Nat

/-- `thresh(toler)` (TMV_SVD.cpp:217-235, TMV_BandSVD.cpp:189-207): the loop that lowers `kmax`, begun with `n`. -/
def threshLoop (S : Nat → ℝ) (t : ℝ) : Nat → Nat
  | 0 => 0
  | n+1 => if S n ≤ t then threshLoop S t n else n+1

/-- `thresh(toler)`; `N` is `S.size()`. -/
def Fac.thresh (N : Nat) (toler : ℝ) (F : Fac K) : Fac K :=
  { F with kmax := if N = 0 then 0 else threshLoop F.S (F.S 0 * toler) N }

/-- `top(neigen)` (TMV_SVD.cpp:237-248). -/
def Fac.top (N n : Nat) (F : Fac K) : Fac K := { F with kmax := if n < N then n else N }

/-- `isSingular()` (TMV_SVD.cpp:202-204). -/
def Fac.isSingular (N : Nat) (F : Fac K) : Prop := F.kmax < N

/-- `norm2()` (TMV_SVD.cpp:206-208). -/
def Fac.norm2 (N : Nat) (F : Fac K) : ℝ := if N > 0 then F.S 0 else 0

/-- `condition()` (TMV_SVD.cpp:210-215). -/
def Fac.condition (N : Nat) (F : Fac K) : ℝ := if N > 0 then F.S 0 / F.S (N-1) else 1

/-- `getU()` (TMV_SVD.cpp:254-258). -/
def Fac.getU (F : Fac K) : Nat → Nat → K := if F.istrans then tr F.Vt else F.U

/-- `getVt()` (TMV_SVD.cpp:264-268). -/
def Fac.getVt (F : Fac K) : Nat → Nat → K := if F.istrans then tr F.U else F.Vt

/-- `doLDiv(m,x)` (TMV_SVD.cpp:121-132), with `x = m` `doLDivEq(m)` (TMV_SVD.cpp:96-106).  The matrix is `M × N`, `m` is `M × R`. -/
def Fac.lDiv (g : Nat → K) (M N R : Nat) (F : Fac K) (m x : Nat → Nat → K) : Option (Nat → Nat → K) :=
  if F.istrans then (svRDiv g N M F.kmax R F.U F.S F.Vt (tr m) (tr x)).map tr
  else svLDiv g M N F.kmax R F.U F.S F.Vt m x

/-- `doRDiv(m,x)` (TMV_SVD.cpp:134-146), with `x = m` `doRDivEq(m)` (TMV_SVD.cpp:108-119).  `m` is `R × N`. -/
def Fac.rDiv (g : Nat → K) (M N R : Nat) (F : Fac K) (m x : Nat → Nat → K) : Option (Nat → Nat → K) :=
  if F.istrans then (svLDiv g N M F.kmax R F.U F.S F.Vt (tr m) (tr x)).map tr
  else svRDiv g M N F.kmax R F.U F.S F.Vt m x

/-- `doMakeInverse(minv)` (TMV_SVD.cpp:162-178, TMV_BandSVD.cpp:145-159); the quotient is a new column-major matrix. -/
def Fac.makeInverse (g : Nat → K) (M N : Nat) (F : Fac K) (minv : Nat → Nat → K) : Option (Nat → Nat → K) :=
  if F.istrans then
    (Diag.divM ⟨false, true⟩ g F.kmax M (dv F.S) (conj F.Vt)).map fun SinvVt => assignMul N F.kmax M (conj F.U) SinvVt minv
  else
    (Diag.divM ⟨false, true⟩ g F.kmax M (dv F.S) (adj F.U)).map fun SinvUt => assignMul N F.kmax M (adj F.Vt) SinvUt minv

/-- `doMakeInverseATA(minv)` (TMV_SVD.cpp:180-200, TMV_BandSVD.cpp:161-171). -/
def Fac.makeInverseATA (g : Nat → K) (M N : Nat) (F : Fac K) (minv : Nat → Nat → K) : Option (Nat → Nat → K) :=
  (Diag.divM ⟨false, true⟩ g F.kmax (if F.istrans then M else N) (dv F.S) F.Vt).map fun SinvVt =>
  if F.istrans then assignMul M F.kmax M (tr SinvVt) (conj SinvVt) minv else assignMul N F.kmax N (adj SinvVt) SinvVt minv

/-! ### `HermSVDiv` -/

/-- What `HermSVDiv` holds (TMV_SymSVD.cpp:38-77): eigenvectors, eigenvalues. -/
structure HFac (K : Type) where
  U : Nat → Nat → K
  S : Nat → ℝ
  kmax : Nat

/-- `thresh(toler)` (TMV_SymSVD.cpp:185-203). -/
def HFac.thresh (N : Nat) (toler : ℝ) (F : HFac K) : HFac K :=
  { F with kmax := if N = 0 then 0 else threshLoop (fun i => |F.S i|) (|F.S 0| * toler) N }

/-- `top(neigen)` (TMV_SymSVD.cpp:205-216). -/
def HFac.top (N n : Nat) (F : HFac K) : HFac K := { F with kmax := if n < N then n else N }

/-- `isSingular()` (TMV_SymSVD.cpp:170-172). -/
def HFac.isSingular (N : Nat) (F : HFac K) : Prop := F.kmax < N

/-- `norm2()` (TMV_SymSVD.cpp:174-176). -/
def HFac.norm2 (N : Nat) (F : HFac K) : ℝ := if N > 0 then |F.S 0| else 0

/-- `condition()` (TMV_SymSVD.cpp:178-183). -/
def HFac.condition (N : Nat) (F : HFac K) : ℝ := if N > 0 then |F.S 0 / F.S (N-1)| else 1

/-- `getS()` (TMV_SymSVD.cpp:226-234). -/
def HFac.getS (N : Nat) (F : HFac K) : Nat → ℝ := up (fun i t => fun a => if a = i ∧ t i < 0 then - t i else t a) N 0 F.S

/-- `getVt()` (TMV_SymSVD.cpp:236-244). -/
def HFac.getVt (N : Nat) (F : HFac K) : Nat → Nat → K :=
  up (fun i t => if F.S i < 0 then (fun a b => if a = i ∧ b < N then t a b * (-1) else t a b) else t) N 0 (adj F.U)

/-- `doLDiv(m,x)`, `doLDivEq(m)` (TMV_SymSVD.cpp:82-87, 96-104). -/
def HFac.lDiv (g : Nat → K) (N R : Nat) (F : HFac K) (m x : Nat → Nat → K) : Option (Nat → Nat → K) :=
  svLDiv g N N F.kmax R F.U F.S (adj F.U) m x

/-- `doRDiv(m,x)`, `doRDivEq(m)` (TMV_SymSVD.cpp:89-94, 106-114). -/
def HFac.rDiv (g : Nat → K) (N R : Nat) (F : HFac K) (m x : Nat → Nat → K) : Option (Nat → Nat → K) :=
  svRDiv g N N F.kmax R F.U F.S (adj F.U) m x

/-- `logDet(&sign)` (TMV_SymSVD.cpp:127-136). -/
def HFac.logDet (N : Nat) (F : HFac K) : ℝ × ℝ := Diag.logDet N (⟨F.S, false, false⟩ : Diag.DV ℝ)

/-- `det()` (TMV_SymSVD.cpp:116-125). -/
def HFac.det (N : Nat) (F : HFac K) : K :=
  if (F.logDet N).2 = 0 then 0 else (((F.logDet N).2 : ℝ) : K) * ((Real.exp (F.logDet N).1 : ℝ) : K)

/-- `HermSV_Inverse(U,SS,kmax,sinv)` (TMV_SymSVInverse.cpp:35-44) for a `sinv` stored in its lower triangle, not conjugated. -/
def hermInverse (nb nb2 : Nat) (rm : Bool) (g : Nat → K) (N k : Nat) (U : Nat → Nat → K) (S : Nat → ℝ) (sinv : Nat → Nat → K) :
    Option (Nat → Nat → K) :=
  (Diag.divM ⟨false, true⟩ g k N (dv S) (adj U)).map fun SinvUt => SymRK.symMul nb nb2 rm true false N k 1 U SinvUt sinv

/-- `HermSV_Inverse(U,SS,kmax,HermMatrixViewOf(minv,Upper))`: `SymMultMM` goes to the adjoint of the Hermitian matrix, stored in the lower
triangle of the transpose of the memory and conjugated, and from there to the conjugate (TMV_SymMultMMS.cpp:301-307). -/
def hermInverseUpper (nb nb2 : Nat) (rm : Bool) (g : Nat → K) (N k : Nat) (U : Nat → Nat → K) (S : Nat → ℝ) (minv : Nat → Nat → K) :
    Option (Nat → Nat → K) :=
  (Diag.divM ⟨false, true⟩ g k N (dv S) (adj U)).map fun SinvUt =>
  tr (SymRK.symMul nb nb2 rm true false N k 1 (conj U) (conj SinvUt) (tr minv))

/-- `doMakeInverse(minv)` for a matrix (TMV_SymSVD.cpp:145-154). -/
def HFac.makeInverse (nb nb2 : Nat) (rm : Bool) (g : Nat → K) (N : Nat) (F : HFac K) (minv : Nat → Nat → K) : Option (Nat → Nat → K) :=
  let m : Nat → Nat → K := fun i j => if i = j ∧ i < N then ((RCLike.re (minv i i) : ℝ) : K) else minv i j
  (hermInverseUpper nb nb2 rm g N F.kmax F.U F.S m).map fun m =>
  if N > 1 then (fun i j => if j < i ∧ i < N then star (m j i) else m i j) else m

/-- `doMakeInverseATA(minv)` (TMV_SymSVD.cpp:156-168). -/
def HFac.makeInverseATA (g : Nat → K) (N : Nat) (F : HFac K) (minv : Nat → Nat → K) : Option (Nat → Nat → K) :=
  (Diag.divM ⟨true, false⟩ g F.kmax N (dv F.S) (adj F.U)).map fun SinvUt => assignMul N F.kmax N (adj SinvUt) SinvUt minv

/-! ### `SymSVDiv` (complex symmetric matrices): division, `isSingular`, `norm2`, `condition` are those of `SVDiv` with `istrans = false`
(TMV_SymSVD.cpp:321-353, 400-413), `thresh` too but for an empty matrix (TMV_SymSVD.cpp:415-430). -/

/-- `top(neigen)` of `SymSVDiv` (TMV_SymSVD.cpp:432-443): an assertion only. -/
def symTop (n : Nat) (F : Fac K) : Fac K := { F with kmax := n }

/-- `SymSV_Inverse(U,SS,Vt,kmax,sinv)` (TMV_SymSVInverse.cpp:46-57) for a `sinv` stored in its lower triangle, not conjugated. -/
def symInverse (nb nb2 : Nat) (rm : Bool) (g : Nat → K) (N : Nat) (F : Fac K) (sinv : Nat → Nat → K) : Option (Nat → Nat → K) :=
  (Diag.divM ⟨false, true⟩ g F.kmax N (dv F.S) (adj F.U)).map fun SinvUt =>
  SymRK.symMul nb nb2 rm false false N F.kmax 1 (adj F.Vt) SinvUt sinv

/-- `doMakeInverse(minv)` of `SymSVDiv` for a matrix (TMV_SymSVD.cpp:377-385): `SymMatrixViewOf(minv,Upper)` is passed on as its transpose. -/
def symMakeInverse (nb nb2 : Nat) (rm : Bool) (g : Nat → K) (N : Nat) (F : Fac K) (minv : Nat → Nat → K) : Option (Nat → Nat → K) :=
  (symInverse nb nb2 rm g N F (tr minv)).map fun m =>
  let m := tr m
  if N > 1 then (fun i j => if j < i ∧ i < N then m j i else m i j) else m

end
end TMV.SVD
