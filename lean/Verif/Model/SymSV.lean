import Verif.Model.EigQR
import Verif.Model.Tridiag
import Verif.Model.SVDec

/-! Eigenvalues and eigenvectors of a Hermitian matrix, its singular value decomposition and square root, and the polar decomposition
(src/TMV_SymSVDecompose.cpp:1203-1690): the tridiagonalization (`Model/Tridiag`) and the eigenvalues of the tridiagonal matrix (`Model/EigQR`) put together.
Exact real or complex numbers.  Views are given by their elements; matrix products by a diagonal or a full matrix are the exact ones. -/
namespace TMV.SymSV
noncomputable section
open Classical

variable {K : Type} [RCLike K]

/-- The parameters, as in `SVDec.Env`; `srtR` is `std::sort` of real numbers. -/
structure Env (K : Type) where
  tiny : ℝ
  eps : ℝ
  nb : Nat
  qb : Nat
  dcl : Nat
  fuel : Nat
  srt : List (ℝ × Nat) → List (ℝ × Nat)
  srtR : List ℝ → List ℝ
  dc : EigQR.Cfg → Nat → Nat → EigQR.St K → Option (EigQR.St K)
  Z : Nat → Nat → K
  Zu : Nat → Nat → K
  b0 : Nat → K
  E0 : Nat → ℝ

/-- The results.  `low`, `cnt` and `cnt3` are not in the code: was a zero found on the subdiagonal (where a vector may have been taken as zero because
its elements underflow), and the numbers of nonzero elements dropped in the iterations (`EigQR.St`). -/
structure Out (K : Type) where
  U : Nat → Nat → K
  S : Nat → ℝ
  low : Prop
  cnt : Nat
  cnt3 : Nat

/-- Numbers are exact: the small angle approximation of `GivensRotate` is left out (`ge = 0`). -/
def cfg (e : Env K) (hU : Bool) (N : Nat) : EigQR.Cfg := ⟨hU, N, e.eps, 0, e.tiny, e.dcl⟩

/-- `UnsortedHermEigen(U,SS)` (TMV_SymSVDecompose.cpp:1203-1276) of a `U` that is not conjugated (no caller passes another one), `hU = true`;
`UnsortedEigen(A,SS)` (1279-1302) of a lower `A` that is not conjugated, `hU = false`. -/
def unsorted (e : Env K) (hU : Bool) (N : Nat) (U : Nat → Nat → K) (S : Nat → ℝ) : Option (Out K) :=
  if N = 0 then some ⟨U, S, False, 0, 0⟩
  else
    let t := Tridiag.tridiagonalize true e.tiny e.nb N e.Z ⟨U, e.b0, fun k => ((S k : ℝ) : K), e.E0, 0⟩
    let U' := if hU = true then Tridiag.makeU e.qb N t.b e.Zu t.A else t.A
    (EigQR.fromTridiag (cfg e hU N) (e.dc (cfg e hU N)) e.srt e.fuel N ⟨U', fun k => RCLike.re (t.D k), t.E, 0, 0⟩).map fun r =>
      ⟨r.U, r.D, ∃ k, k + 1 < N ∧ t.E k = 0, r.cnt, r.cnt3⟩

/-- `SS.sort(sortp,...); U.permuteCols(sortp)` for an `N × N` matrix, `key` being what is compared. -/
def sortU (e : Env K) (N : Nat) (key : ℝ → ℝ) (o : Out K) : Out K :=
  let P := EigQR.sortPerm e.srt N fun i => key (o.S i)
  { o with S := fun i => if i < N then LU.permuteRows 1 P N 0 (fun a _ => o.S a) i 0 else o.S i,
           U := fun r p => LU.permuteRows N P N 0 (fun p r => o.U r p) p r }

/-- `SS.sort(Ascend)` or `Descend` of a contiguous vector (TMV_Vector.cpp:1271-1272; `Model/Sort` for the others); `srt` is `std::sort` with the
comparison asked for. -/
def sortV (srt : List ℝ → List ℝ) (N : Nat) (S : Nat → ℝ) : Nat → ℝ :=
  fun i => if i < N then (srt ((List.range N).map S)).getD i 0 else S i

/-- `U.lowerTri() = A.lowerTri()`. -/
def setLower (N : Nat) (A U : Nat → Nat → K) : Nat → Nat → K := fun i j => if j ≤ i ∧ i < N then A i j else U i j

/-- The elements of the conjugate. -/
def conjM (A : Nat → Nat → K) : Nat → Nat → K := fun i j => star (A i j)

/-- `Eigen(A,U,SS)` (TMV_SymSVDecompose.cpp:1468-1485).  `A i j` for `j ≤ i` are the elements of the Hermitian matrix, whatever its storage; `uc` is
`U.isconj()`; `U0` and the result are the elements of the view `U`. -/
def eigen (e : Env K) (uc : Bool) (N : Nat) (A U0 : Nat → Nat → K) (S0 : Nat → ℝ) : Option (Out K) :=
  if uc = true then
    ((unsorted e true N (setLower N (conjM A) (conjM U0)) S0).map (sortU e N id)).map fun o => { o with U := conjM o.U }
  else (unsorted e true N (setLower N A U0) S0).map (sortU e N id)

/-- `Eigen(A,SS)` (TMV_SymSVDecompose.cpp:1487-1495) for a contiguous `SS`; `e.srtR` sorts up. -/
def eigenS (e : Env K) (N : Nat) (A : Nat → Nat → K) (S0 : Nat → ℝ) : Option (Out K) :=
  (unsorted e false N A S0).map fun o => { o with S := sortV e.srtR N o.S }

/-- `HermSV_Decompose(U,SS)` (TMV_SymSVDecompose.cpp:1304-1342). -/
def hermSV (e : Env K) (N : Nat) (U : Nat → Nat → K) (S0 : Nat → ℝ) : Option (Out K) :=
  (unsorted e true N U S0).map (sortU e N fun x => -|x|)

/-- `if (SS(i) < RT(0)) SS(i) = -SS(i)` for all `i`. -/
def absS (N : Nat) (S : Nat → ℝ) : Nat → ℝ := fun i => if i < N ∧ S i < 0 then -S i else S i

/-- `Vt = U.adjoint()` with the rows of the negative values negated. -/
def vtOf (N : Nat) (U : Nat → Nat → K) (S : Nat → ℝ) (Vt : Nat → Nat → K) : Nat → Nat → K :=
  fun i j => if i < N ∧ j < N then (if S i < 0 then -star (U j i) else star (U j i)) else Vt i j

/-- `SV_Decompose(A,U,SS,Vt)` of a Hermitian matrix, neither `U` nor `Vt` conjugated (TMV_SymSVDecompose.cpp:1519-1527): the results and `Vt`. -/
def hermSVU (e : Env K) (N : Nat) (A U0 : Nat → Nat → K) (S0 : Nat → ℝ) (Vt0 : Nat → Nat → K) : Option (Out K × (Nat → Nat → K)) :=
  (hermSV e N (setLower N A U0) S0).map fun o => ({ o with S := absS N o.S }, vtOf N o.U o.S Vt0)

/-- `Vt.conjugateSelf()` of an `N × N` view. -/
def conjVt (N : Nat) (V : Nat → Nat → K) : Nat → Nat → K := fun i j => if i < N ∧ j < N then star (V i j) else V i j

/-- `SV_Decompose(A,U,SS,Vt)` of a Hermitian matrix (TMV_SymSVDecompose.cpp:1497-1534); `uc`, `vc` are `U.isconj()`, `Vt.isconj()`; all matrices are given by
the elements of the views. -/
def svHerm (e : Env K) (uc vc : Bool) (N : Nat) (A U0 : Nat → Nat → K) (S0 : Nat → ℝ) (Vt0 : Nat → Nat → K) : Option (Out K × (Nat → Nat → K)) :=
  if uc = true then
    if vc = true then (hermSVU e N (conjM A) (conjM U0) S0 (conjM Vt0)).map fun o => ({ o.1 with U := conjM o.1.U }, conjM o.2)
    else (hermSVU e N (conjM A) (conjM U0) S0 Vt0).map fun o => ({ o.1 with U := conjM o.1.U }, conjVt N o.2)
  else
    if vc = true then (hermSVU e N A U0 S0 (conjM Vt0)).map fun o => (o.1, conjVt N (conjM o.2))
    else hermSVU e N A U0 S0 Vt0

/-- `SV_Decompose(A,U,SS)` of a Hermitian matrix (TMV_SymSVDecompose.cpp:1536-1560). -/
def svHermU (e : Env K) (uc : Bool) (N : Nat) (A U0 : Nat → Nat → K) (S0 : Nat → ℝ) : Option (Out K) :=
  if uc = true then (hermSV e N (setLower N (conjM A) (conjM U0)) S0).map fun o => { o with S := absS N o.S, U := conjM o.U }
  else (hermSV e N (setLower N A U0) S0).map fun o => { o with S := absS N o.S }

/-- `SV_Decompose(A,SS,Vt)` of a Hermitian matrix (TMV_SymSVDecompose.cpp:1562-1572): `U` is the view `Vt.adjoint()`, conjugated if `Vt` is not; the result's `U`
are the elements of `Vt`. -/
def svHermV (e : Env K) (vc : Bool) (N : Nat) (A Vt0 : Nat → Nat → K) (S0 : Nat → ℝ) : Option (Out K) :=
  (svHermU e (!vc) N A (fun i j => star (Vt0 j i)) S0).map fun o => { o with U := fun i j => star (o.U j i) }

/-- `SV_Decompose(A,SS)` of a Hermitian `A` (TMV_SymSVDecompose.cpp:1427-1437) for contiguous `SS`; `upA` is `A.isupper()`, `ac` is `A.isconj()`, `A` the elements in memory:
an upper one is replaced by its transpose, a conjugated one by its conjugate (1283-1284).  `e.srtR` sorts down. -/
def svHermS (e : Env K) (upA : Bool) (N : Nat) (A : Nat → Nat → K) (S0 : Nat → ℝ) : Option (Out K) :=
  (unsorted e false N (if upA = true then (fun i j => A j i) else A) S0).map fun o => { o with S := sortV e.srtR N (absS N o.S) }

/-- The loop of `SquareRoot` (TMV_SymSVDecompose.cpp:1674-1686); `none`: `NonPosDef` is thrown. -/
def sqrtLoop : Nat → Nat → (Nat → ℝ) → Option (Nat → ℝ)
  | 0, _, D => some D
  | m+1, i, D => if D i < 0 then none else sqrtLoop m (i+1) (fun k => if k = i then Real.sqrt (D i) else D k)

/-- `SquareRoot(A)` (TMV_SymSVDecompose.cpp:1660-1690) of a Hermitian matrix stored in its lower triangle: `none` when the iterations do not stop, the result with `none` when `NonPosDef` is
thrown (and `A` is unchanged).  The product (`SymMultMM`, `Model/SymMM`) is the exact one, with a real diagonal. -/
def squareRoot (e : Env K) (N : Nat) (A V0 : Nat → Nat → K) (S0 : Nat → ℝ) : Option (Out K × Option (Nat → Nat → K)) :=
  (eigen e false N A V0 S0).map fun o => (o, (sqrtLoop N 0 o.S).map fun D => fun i j =>
    if j ≤ i ∧ i < N then
      (let x := ∑ k ∈ Finset.range N, o.U i k * (((D k : ℝ) : K) * star (o.U j k))
       if i = j then ((RCLike.re x : ℝ) : K) else x)
    else A i j)

/-- `for(i) if (S(i) < thresh) S(i) = 0` with `thresh = eps*N*S(0)` (TMV_SymSVDecompose.cpp:1603-1604). -/
def dropS (eps : ℝ) (N : Nat) (S : Nat → ℝ) : Nat → ℝ := fun i => if i < N ∧ S i < eps * N * S 0 then 0 else S i

/-- `PolarDecompose(U,P)` (TMV_SymSVDecompose.cpp:1574-1629) for an `M × N` matrix `U`, `uc = U.isconj()` and `U` the elements in memory; `P` Hermitian, stored in
its lower triangle.  The products are the exact ones.  The results: those of `SV_Decompose`, `U` (the elements of the view), `P`. -/
def polar (e : SVDec.Env K) (uc : Bool) (M N : Nat) (U P S0V : Nat → Nat → K) (S0 : Nat → ℝ) : Option (SVDec.Out K × (Nat → Nat → K) × (Nat → Nat → K)) :=
  (SVDec.svUser e true uc false M N U S0 S0V).map fun o =>
    let W := SVDec.view uc o.U
    let S := dropS e.eps N o.S
    (o, (fun i j => if i < M ∧ j < N then ∑ k ∈ Finset.range N, W i k * o.Vt k j else W i j),
      fun i j => if j ≤ i ∧ i < N then
          (let x := ∑ k ∈ Finset.range N, star (o.Vt k i) * ((S k : ℝ) : K) * o.Vt k j
           if i = j then ((RCLike.re x : ℝ) : K) else x)
        else P i j)

end
end TMV.SymSV
