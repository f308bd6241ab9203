import Verif.Model.SVQR
import Verif.Model.LUDiv

/-! `SV_Decompose` (src/TMV_SVDecompose.cpp:750-918): the bidiagonalization (`Model/Bidiag`), the singular value decomposition of the bidiagonal
matrix (`Model/SVQR`) and, for tall matrices, a QR decomposition first (`Model/QR`), put together. -/
namespace TMV.SVDec
noncomputable section
open Classical
open SVQR (Cfg)
open QR

variable {K : Type} [RCLike K]

/-- The parameters: `TMV_Epsilon`, the smallest number, the block sizes, `DC_LIMIT`, a bound for the passes of the iterations, `std::sort`, the
divide and conquer part; and what newly allocated memory holds. -/
structure Env (K : Type) where
  tiny : ℝ
  eps : ℝ
  nb : Nat
  qb : Nat
  dcl : Nat
  fuel : Nat
  srt : List (ℝ × Nat) → List (ℝ × Nat)
  dc : Cfg → Nat → Nat → SVQR.St K → Option (SVQR.St K)
  Z : Nat → Nat → K
  W : Nat → Nat → K
  Zu : Nat → Nat → K
  Zv : Nat → Nat → K
  b0 : Nat → K
  E0 : Nat → ℝ

/-- The results.  `low` and `cnt` are not in the code: was a zero found on the diagonal or superdiagonal (where a vector may have been taken
as zero because its elements underflow), and the number of nonzero elements dropped in the iterations. -/
structure Out (K : Type) where
  U : Nat → Nat → K
  S : Nat → ℝ
  Vt : Nat → Nat → K
  logdet : ℝ
  signdet : K
  low : Prop
  cnt : Nat

/-- Numbers are exact: the small angle approximation of `GivensRotate` is left out (`ge = 0`). -/
def cfg (e : Env K) (storeU hV : Bool) (M N : Nat) : Cfg := ⟨storeU, hV, M, N, e.eps, 0, e.tiny, e.dcl⟩

/-- `if (signdet != T(0)) { RT s; logdet += S.logDet(&s); signdet *= s; }` (TMV_SVDecompose.cpp:819-823; `GenDiagMatrix::logDet`, TMV_DiagMatrix.cpp:59-100,
is the loop of `LU.logDetLoop`). -/
def addDet (N : Nat) (D : Nat → ℝ) (ld : ℝ) (sd : K) : ℝ × K :=
  if sd ≠ 0 then
    let r := LU.logDetLoop D N 0 (0, 1)
    (ld + r.1, sd * ((r.2 : ℝ) : K))
  else (ld, sd)

/-- The part of `SV_Decompose` for `M ≤ 5*N/3` (TMV_SVDecompose.cpp:805-851). -/
def body (e : Env K) (storeU hV : Bool) (M N : Nat) (U : Nat → Nat → K) (S : Nat → ℝ) (Vt : Nat → Nat → K) (ld : ℝ) (sd : K) : Option (Out K) :=
  let t := Bidiag.bidiagonalize e.tiny e.nb M N e.Z e.W ⟨U, e.b0, e.b0, S, e.E0, sd⟩
  let d := addDet N t.D ld t.det
  let Vt' := if hV = true then Bidiag.makeVt e.qb N t.vb e.Zv t.A Vt else Vt
  let U' := if storeU = true then getQ e.qb M N t.ub e.Zu t.A else t.A
  (SVQR.fromBidiag (cfg e storeU hV M N) (e.dc (cfg e storeU hV M N)) e.srt e.fuel N false ⟨U', t.D, t.E, Vt', 0⟩).map fun r =>
    ⟨r.U, r.D, r.V, d.1, d.2, (∃ k, k < N ∧ t.D k = 0) ∨ (∃ k, k + 1 < N ∧ t.E k = 0), r.cnt⟩

/-- `SV_Decompose(U,S,Vt,logdet,signdet,StoreU)` (TMV_SVDecompose.cpp:750-872); `hV`: there is a `Vt`.  The call for the `N × N` matrix
takes the other branch, as `N ≤ 5*N/3`.  `U = U*R` is the exact product. -/
def svDecompose (e : Env K) (storeU hV : Bool) (M N : Nat) (U : Nat → Nat → K) (S : Nat → ℝ) (Vt : Nat → Nat → K) (ld : ℝ) (sd : K) : Option (Out K) :=
  if N = 0 then some ⟨U, S, Vt, ld, sd, False, 0⟩
  else if M > 5*N/3 then
    if storeU = true then
      let q := unpacked e.tiny e.qb M N U e.Z e.Zu e.b0 sd
      (body e true hV N N q.2.1 S Vt ld q.2.2).map fun o =>
        { o with U := fun i j => if i < M ∧ j < N then ∑ k ∈ Finset.range N, q.1 i k * o.U k j else q.1 i j,
                 low := o.low ∨ ∃ k, k < N ∧ q.2.1 k k = 0 }
    else
      let r := decompose e.tiny e.qb M N U e.Z e.b0 sd
      let R : Nat → Nat → K := fun i j => if j < i ∧ i < N then 0 else r.1.A i j
      (body e false hV N N R S Vt ld r.1.det).map fun o => { o with low := o.low ∨ ∃ k, k < N ∧ R k k = 0 }
  else body e storeU hV M N U S Vt ld sd

/-- The elements of a view of the matrix `A` in memory, conjugated or not. -/
def view (cj : Bool) (A : Nat → Nat → K) : Nat → Nat → K := fun i j => if cj = true then star (A i j) else A i j

/-- `Vt.conjugateSelf()` of the `N × N` matrix in memory. -/
def conjSelf (N : Nat) (A : Nat → Nat → K) : Nat → Nat → K := fun i j => if i < N ∧ j < N then star (A i j) else A i j

/-- `SV_Decompose(U,SS,Vt,StoreU)` (TMV_SVDecompose.cpp:877-902); `uc`, `vc` are `U.isconj()`, `Vt.isconj()`, the arguments and results the elements in memory. -/
def svUser (e : Env K) (storeU uc vc : Bool) (M N : Nat) (U : Nat → Nat → K) (S : Nat → ℝ) (Vt : Nat → Nat → K) : Option (Out K) :=
  if uc = true then
    if vc = true then svDecompose e storeU true M N U S Vt 0 0
    else (svDecompose e storeU true M N U S Vt 0 0).map fun o => { o with Vt := conjSelf N o.Vt }
  else
    if vc = true then (svDecompose e storeU true M N U S Vt 0 0).map fun o => { o with Vt := conjSelf N o.Vt }
    else svDecompose e storeU true M N U S Vt 0 0

/-- `SV_Decompose(U,SS,StoreU)` (TMV_SVDecompose.cpp:904-918), for `U` conjugated or not. -/
def svUserS (e : Env K) (storeU : Bool) (M N : Nat) (U : Nat → Nat → K) (S : Nat → ℝ) : Option (Out K) :=
  svDecompose e storeU false M N U S (fun _ _ => 0) 0 0

end
end TMV.SVDec
