import Verif.Model.SVQR

/-! Eigenvalues and eigenvectors of a Hermitian tridiagonal matrix by QR iterations (src/TMV_SymSVDecompose_QR.cpp,
src/TMV_SymSVDecompose.cpp:56-100, 1087-1160, src/TMV_SymSVDecompose_DC.cpp:794-799, 932).

Numbers are exact.  The sub-views `D.subVector(p,q+1)`, `E.subVector(p,q)`, `U.colRange(p,q+1)` are the ranges `p..q` of the arrays of the
whole problem.  Loops whose end depends on the convergence of the iteration take a bound on the number of passes and give `none` when it
is used up. -/
namespace TMV.EigQR
noncomputable section
open Classical
open SVQR (upd underflow scan maxAbsEl)

variable {K : Type} [RCLike K]

/-- The vectors and the matrix worked on.  `cnt` and `cnt3` are not in the code: they count the nonzero elements of `D` and `E` that were set
to zero, by the tests against `eps` and the smallest number (`cnt`), and by the third test (`cnt3`). -/
structure St (K : Type) where
  U : Nat → Nat → K
  D : Nat → ℝ
  E : Nat → ℝ
  cnt : Nat
  cnt3 : Nat

/-- `hU`: is there a `U` (`U.cptr()`); `m` = `U.colsize()`; `eps` = `TMV_Epsilon<T>()` in the tests for negligible elements, `ge` the same number
inside `GivensRotate`; `tiny` = `numeric_limits<RT>::min()`; `dcl` = `DC_LIMIT`. -/
structure Cfg where
  hU : Bool
  m : Nat
  eps : ℝ
  ge : ℝ
  tiny : ℝ
  dcl : Nat

/-- `G.mult(U.colPair(i,k).transpose())` for real `s` (TMV_Givens.h, with the test of TMV_Givens.cpp:328-348; rows `0..m`), if there is a `U`. -/
def rotU (c : Cfg) (g : Givens ℝ) (i k : Nat) (s : St K) : St K :=
  if c.hU = true ∧ g.s ≠ 0 then
    { s with U := fun r p => if r < c.m then
        (if p = i then ((g.c : ℝ) : K) * s.U r i + ((g.s : ℝ) : K) * s.U r k
         else if p = k then ((g.c : ℝ) : K) * s.U r k - ((g.s : ℝ) : K) * s.U r i else s.U r p) else s.U r p }
  else s

/-- `GivensRotate` on real numbers. -/
def rotate (c : Cfg) (x y : ℝ) : ℝ × ℝ × Givens ℝ := givensRotate c.ge signR x y

/-! ### Negligible elements -/

/-- `if (TMV_Underflow(*Di)) *Di = T(0)` (TMV_SymSVDecompose_QR.cpp:63-65, 72-74). -/
def chopD (c : Cfg) (i : Nat) (s : St K) : St K :=
  if underflow c.tiny (s.D i) then { s with D := upd s.D i 0, cnt := s.cnt + if s.D i = 0 then 0 else 1 } else s

/-- TMV_SymSVDecompose_QR.cpp:79-82: `Ei` is `E(i)`, `Di` is `D(i+1)`. -/
def chopE (c : Cfg) (i : Nat) (s : St K) : St K :=
  if ¬ (|s.E i| > c.eps * (|s.D (i+1)| + |s.D i|)) ∨ underflow c.tiny (s.E i) then
    { s with E := upd s.E i 0, cnt := s.cnt + if s.E i = 0 then 0 else 1 } else s

/-- TMV_SymSVDecompose_QR.cpp:89-92, the third test.  Where the sum of the two elements is zero, the division gives an infinity, which is no underflow. -/
def chopE3 (c : Cfg) (i : Nat) (s : St K) : St K :=
  if |s.E i| < Real.sqrt c.eps * (|s.D (i+1)| + |s.D i|) ∧
      (s.D (i+1) + s.D i ≠ 0 ∧ underflow c.tiny (s.E i * ((s.D (i+1) - s.D i) / (s.D (i+1) + s.D i)))) then
    { s with E := upd s.E i 0, cnt3 := s.cnt3 + if s.E i = 0 then 0 else 1 } else s

/-- One pass of the loop of `HermTridiagonalChopSmallElements` (TMV_SymSVDecompose_QR.cpp:67-93). -/
def chopStep (c : Cfg) (i : Nat) (s : St K) : St K := chopE3 c i (chopE c i (chopD c (i+1) s))

/-- `HermTridiagonalChopSmallElements(D.subVector(p,q+1),E.subVector(p,q))` (TMV_SymSVDecompose_QR.cpp:46-94). -/
def chop (c : Cfg) (p q : Nat) (s : St K) : St K := up (chopStep c) (q-p) p (chopD c p s)

/-! ### One QR step -/

/-- `TridiagonalTrailingEigenValue` (TMV_SymSVDecompose_QR.cpp:96-133) of the rows `..q`. -/
def trailing (q : Nat) (D E : Nat → ℝ) : ℝ :=
  let a := D (q-1)
  let c := D q
  let b := E (q-1)
  let d := (c-a)/2
  let absb := |b|
  if d = 0 then c + absb
  else
    let bod := absb/d
    c + absb*bod/(1 + Real.sqrt (1 + bod^2))

/-- One pass of the loop of `ReduceHermTridiagonal` (TMV_SymSVDecompose_QR.cpp:221-247); `j` is the index of `*Di`, `*Ei`; the loop ends in the
middle of the pass `j+1 = q`. -/
def redStep (c : Cfg) (q j : Nat) (a : St K × ℝ × Givens ℝ) : St K × ℝ × Givens ℝ :=
  let s := a.1
  let g := a.2.2
  let t := givensSymMult true g.c g.s (s.D j) (s.D (j+1)) (s.E j)
  let s := { s with D := upd (upd s.D j t.1) (j+1) t.2.1, E := upd s.E j t.2.2 }
  let s := rotU c g j (j+1) s
  if j + 1 = q then (s, a.2.1, g)
  else
    let xe := g.mult a.2.1 (s.E (j+1))
    let s := { s with E := upd s.E (j+1) xe.2 }
    let r := rotate c (s.E j) xe.1
    ({ s with E := upd s.E j r.1 }, r.2.1, r.2.2)

/-- `ReduceHermTridiagonal` on the rows and columns `p..q` (TMV_SymSVDecompose_QR.cpp:135-278). -/
def reduce (c : Cfg) (p q : Nat) (s : St K) : St K :=
  if q - p + 1 = 1 then s
  else
    let r := rotate c (s.D p - trailing q s.D s.E) (s.E p)
    (up (redStep c q) (q-p) p (s, r.2.1, r.2.2)).1

/-! ### The iteration -/

/-- The loop of `EigenFromTridiagonal_QR` (TMV_SymSVDecompose_QR.cpp:318-337) on the rows `lo..`. -/
def qrLoop (c : Cfg) (lo : Nat) : Nat → Nat → St K → Option (St K)
  | 0, _, _ => none
  | f+1, q, s =>
      if lo < q then
        if s.E (q-1) = 0 then qrLoop c lo f (q-1) s
        else
          let p := scan (fun p => s.E (p-1) ≠ 0) lo (q-1)
          qrLoop c lo f q (chop c p q (reduce c p q s))
      else some s

/-- `DoEigenFromTridiagonal_NZ` (TMV_SymSVDecompose.cpp:56-62), the entry of `EigenFromTridiagonal_DC` (TMV_SymSVDecompose_DC.cpp:932) and `SmallProblem`
(794-799).  The divide and conquer part is not modelled: `dc` stands for it. -/
def nz (c : Cfg) (dc : Nat → Nat → St K → Option (St K)) (f : Nat) (p q : Nat) (s : St K) : Option (St K) :=
  if q - p + 1 ≤ c.dcl then (if q - p > 0 then qrLoop c p f q s else some s) else dc p q s

/-- The loop of `NonLapEigenFromTridiagonal` (TMV_SymSVDecompose.cpp:83-99). -/
def doLoop (c : Cfg) (nz : Nat → Nat → St K → Option (St K)) : Nat → Nat → St K → Option (St K)
  | 0, _, _ => none
  | f+1, q, s =>
      if 0 < q then
        if s.E (q-1) = 0 then doLoop c nz f (q-1) s
        else
          let p := scan (fun p => s.E (p-1) ≠ 0) 0 (q-1)
          (nz p q s).bind fun s => doLoop c nz f p s
      else some s

/-- `NonLapEigenFromTridiagonal` (TMV_SymSVDecompose.cpp:64-100). -/
def dec (c : Cfg) (dc : Nat → Nat → St K → Option (St K)) (f N : Nat) (s : St K) : Option (St K) :=
  doLoop c (nz c dc f) f (N-1) (chop c 0 (N-1) s)

/-! ### The whole -/

/-- The list of interchanges made by `v.sort(sortp,...)` (TMV_Vector.cpp:1255-1271; `VView.sortP` is the model on memory), `key` being what is compared. -/
def sortPerm (srt : List (ℝ × Nat) → List (ℝ × Nat)) (N : Nat) (key : Nat → ℝ) : Nat → Nat :=
  convertIndexToPermute N fun i => ((srt ((List.range N).map fun i => (key i, i))).map Prod.snd).getD i 0

/-- `D.sort(sortp,...); if (U.cptr()) U.permuteCols(sortp)`. -/
def sortDU (c : Cfg) (srt : List (ℝ × Nat) → List (ℝ × Nat)) (N : Nat) (key : ℝ → ℝ) (s : St K) : St K :=
  let P := sortPerm srt N fun i => key (s.D i)
  { s with D := fun i => if i < N then LU.permuteRows 1 P N 0 (fun a _ => s.D a) i 0 else s.D i,
           U := if c.hU = true then (fun r p => LU.permuteRows c.m P N 0 (fun p r => s.U r p) p r) else s.U }

/-- `D *= x; E *= x`, or only `D`. -/
def scaleD (N : Nat) (x : ℝ) (s : St K) : St K := { s with D := fun i => if i < N then x * s.D i else s.D i }
/-- `D /= scale; E /= scale` (TMV_SymSVDecompose.cpp:1141-1142). -/
def unscale (N : Nat) (x : ℝ) (s : St K) : St K :=
  { s with D := fun i => if i < N then s.D i / x else s.D i, E := fun i => if i < N-1 then s.E i / x else s.E i }
/-- One element of `D.setZero()`; the counter as in `chopD`. -/
def zeroD (i : Nat) (s : St K) : St K := { s with D := upd s.D i 0, cnt := s.cnt + if s.D i = 0 then 0 else 1 }
/-- One element of `E.setZero()`. -/
def zeroE (i : Nat) (s : St K) : St K := { s with E := upd s.E i 0, cnt := s.cnt + if s.E i = 0 then 0 else 1 }

/-- `EigenFromTridiagonal(U,D,E)` (TMV_SymSVDecompose.cpp:1087-1173). -/
def fromTridiag (c : Cfg) (dc : Nat → Nat → St K → Option (St K)) (srt : List (ℝ × Nat) → List (ℝ × Nat)) (f N : Nat) (s : St K) : Option (St K) :=
  if N = 0 then some s
  else
    let scale := max (maxAbsEl N s.D) (maxAbsEl (N-1) s.E)
    if underflow c.tiny scale then some (up zeroE (N-1) 0 (up zeroD N 0 s))
    else (dec c dc f N (unscale N scale s)).map fun s => scaleD N scale (sortDU c srt N (fun x => -|x|) s)

end
end TMV.EigQR
