import Verif.Model.Givens
import Verif.Model.Sort
import Verif.Model.LU
import Verif.Model.Bidiag

/-! The singular value decomposition of a bidiagonal matrix by QR iterations (src/TMV_SVDecompose_QR.cpp,
src/TMV_SVDecompose.cpp:52-250, src/TMV_SVDecompose_DC.cpp:890-906, 1063-1074) and `SV_Decompose` (src/TMV_SVDecompose.cpp:750-918).

Numbers are exact.  The sub-views `D.subVector(p,q+1)`, `E.subVector(p,q)`, `U.colRange(p,q+1)`, `Vt.rowRange(p,q+1)` are the ranges
`p..q` of the arrays of the whole problem; `E` is a function on all indices, those from `N-1` on are memory behind the vector `E`.
Loops whose end depends on the convergence of the iteration take a bound on the number of passes and give `none` when it is used up. -/
namespace TMV.SVQR
noncomputable section
open Classical

variable {K : Type} [RCLike K]

/-- The vectors and matrices worked on; `cnt` is not in the code: it counts the nonzero elements of `D` and `E` that were set to zero as
negligible. -/
structure St (K : Type) where
  U : Nat → Nat → K
  D : Nat → ℝ
  E : Nat → ℝ
  V : Nat → Nat → K
  cnt : Nat

/-- `hU`, `hV`: is there a `U`, a `Vt` (`U.cptr()`, `Vt.cptr()`); `m` = `U.colsize()`, `n` = `Vt.rowsize()`; `eps` = `TMV_Epsilon<T>()`
in the tests for negligible elements, `ge` the same number inside `GivensRotate`; `tiny` = `numeric_limits<RT>::min()`; `dcl` = `DC_LIMIT`. -/
structure Cfg where
  hU : Bool
  hV : Bool
  m : Nat
  n : Nat
  eps : ℝ
  ge : ℝ
  tiny : ℝ
  dcl : Nat

/-- An assignment `v(i) = x`. -/
def upd (v : Nat → ℝ) (i : Nat) (x : ℝ) : Nat → ℝ := fun k => if k = i then x else v k

/-- `TMV_Underflow` (include/tmv/TMV_Base.h:692-696). -/
def underflow (tiny x : ℝ) : Prop := |x| < tiny

/-- `G.conjMult(U.colPair(i,k).transpose())` for real `s` (TMV_Givens.h, with the test of TMV_Givens.cpp:328-348; rows `0..m`), if there is a `U`. -/
def rotU (c : Cfg) (g : Givens ℝ) (i k : Nat) (s : St K) : St K :=
  if c.hU = true ∧ g.s ≠ 0 then
    { s with U := fun r p => if r < c.m then
        (if p = i then ((g.c : ℝ) : K) * s.U r i + ((g.s : ℝ) : K) * s.U r k
         else if p = k then ((g.c : ℝ) : K) * s.U r k - ((g.s : ℝ) : K) * s.U r i else s.U r p) else s.U r p }
  else s

/-- `G.conjMult(Vt.rowPair(i,k))` for real `s`, if there is a `Vt`. -/
def rotV (c : Cfg) (g : Givens ℝ) (i k : Nat) (s : St K) : St K :=
  if c.hV = true ∧ g.s ≠ 0 then
    { s with V := fun p r => if r < c.n then
        (if p = i then ((g.c : ℝ) : K) * s.V i r + ((g.s : ℝ) : K) * s.V k r
         else if p = k then ((g.c : ℝ) : K) * s.V k r - ((g.s : ℝ) : K) * s.V i r else s.V p r) else s.V p r }
  else s

/-- `GivensRotate` on real numbers. -/
def rotate (c : Cfg) (x y : ℝ) : ℝ × ℝ × Givens ℝ := givensRotate c.ge signR x y

/-! ### Negligible elements -/

/-- `*Di = T(0)` in `BidiagonalChopSmallElements`. -/
def zeroD (i : Nat) (s : St K) : St K := { s with D := upd s.D i 0, cnt := s.cnt + if s.D i = 0 then 0 else 1 }
/-- `*Ei = T(0)` in `BidiagonalChopSmallElements`. -/
def zeroE (i : Nat) (s : St K) : St K := { s with E := upd s.E i 0, cnt := s.cnt + if s.E i = 0 then 0 else 1 }

/-- TMV_SVDecompose_QR.cpp:76-79 and 86-89. -/
def chopD (c : Cfg) (i : Nat) (x : St K × Bool) : St K × Bool :=
  if underflow c.tiny (x.1.D i ^ 2) then (zeroD i x.1, true) else x

/-- TMV_SVDecompose_QR.cpp:96-99: `Ei` is `E(i)`, `Di` is `D(i+1)`. -/
def chopE (c : Cfg) (i : Nat) (s : St K) : St K :=
  if ¬ (|s.E i| > c.eps * (|s.D (i+1)| + |s.D i|)) ∨ underflow c.tiny (s.E i) then zeroE i s else s

/-- TMV_SVDecompose_QR.cpp:108-111, and 112-115 with `k` for `Di-1`. -/
def chopP (c : Cfg) (i k : Nat) (s : St K) : St K :=
  if underflow c.tiny (s.D k * s.E i) ∧ s.D k ≠ 0 ∧ s.E i ≠ 0 then
    if |s.E i| ≤ |s.D k| then zeroE i s else zeroD k s
  else s

/-- One pass of the loop of `BidiagonalChopSmallElements` (TMV_SVDecompose_QR.cpp:81-116). -/
def chopStep (c : Cfg) (i : Nat) (x : St K × Bool) : St K × Bool :=
  let (s, zd) := chopD c (i+1) x
  (chopP c i i (chopP c i (i+1) (chopE c i s)), zd)

/-- `BidiagonalChopSmallElements(D.subVector(p,q+1),E.subVector(p,q),zd)` (TMV_SVDecompose_QR.cpp:57-117); the flag is whether `*zd` is set. -/
def chop (c : Cfg) (p q : Nat) (s : St K) : St K × Bool := up (chopStep c) (q-p) p (chopD c p (s, false))

/-! ### Zeros on the diagonal -/

/-- One pass of the loop of `BidiagonalZeroFirstRow` (TMV_SVDecompose_QR.cpp:150-166); `i` is the index in the whole problem: `Di` is `D(i)`,
`Ei` is `E(i)`; the column pair of `U` is `(i,p)`.  The test `i<N` of line 157 always holds. -/
def zfrStep (c : Cfg) (p i : Nat) (a : St K × ℝ) : St K × ℝ :=
  let r := rotate c (a.1.D i) a.2
  let e := r.2.2.mult (a.1.E i) r.2.1
  (rotU c r.2.2 i p { a.1 with D := upd a.1.D i r.1, E := upd a.1.E i e.1 }, e.2)

/-- `BidiagonalZeroFirstRow(U.colRange(p,q+1),D.subVector(p+1,q+1),E.subVector(p,q))` (TMV_SVDecompose_QR.cpp:119-168). -/
def zeroFirstRow (c : Cfg) (p q : Nat) (s : St K) : St K :=
  let x := s.E p
  if x ≠ 0 then (up (zfrStep c p) (q-p) (p+1) ({ s with E := upd s.E p 0 }, x)).1 else s

/-- The loop of `BidiagonalZeroLastCol` (TMV_SVDecompose_QR.cpp:199-215) with `i` passes left; the index is `p+i-1`, `Di` is `D(p+i-1)`, `*(--Ei)`
is `E(p+i-2)`, the rows of `Vt` are `p+i-1` and `q`. -/
def zlcLoop (c : Cfg) (p q : Nat) : Nat → St K × ℝ → St K × ℝ
  | 0, a => a
  | i+1, a =>
      let r := rotate c (a.1.D (p+i)) a.2
      let s := { a.1 with D := upd a.1.D (p+i) r.1 }
      let b : St K × ℝ := if i > 0 then
          let e := r.2.2.mult (s.E (p+i-1)) r.2.1
          ({ s with E := upd s.E (p+i-1) e.1 }, e.2)
        else (s, r.2.1)
      zlcLoop c p q i (rotV c r.2.2 (p+i) q b.1, b.2)

/-- `BidiagonalZeroLastCol(D.subVector(p,q),E.subVector(p,q),Vt.rowRange(p,q+1))` (TMV_SVDecompose_QR.cpp:170-217). -/
def zeroLastCol (c : Cfg) (p q : Nat) (s : St K) : St K :=
  let x := s.E (q-1)
  if x ≠ 0 then (zlcLoop c p q (q-p) ({ s with E := upd s.E (q-1) 0 }, x)).1 else s

/-! ### One QR step -/

/-- `BidiagonalTrailingEigenValue` (TMV_SVDecompose_QR.cpp:219-263) of the rows `p..q`. -/
def trailing (p q : Nat) (D E : Nat → ℝ) : ℝ :=
  let a := D (q-1) ^ 2 + (if q - p + 1 > 2 then E (q-2) ^ 2 else 0)
  let c := D q ^ 2 + E (q-1) ^ 2
  let absb := |D (q-1) * E (q-1)|
  let d := (c-a)/2
  if d = 0 then c + absb
  else
    let bod := absb/d
    c + absb*bod/(1 + Real.sqrt (1 + bod^2))

/-- `c2`, `s2` when `|d|` is not small (TMV_SVDecompose_QR.cpp:381-387). -/
def bigCS2 (d b z : ℝ) : ℝ × ℝ :=
  let s2 := b / Real.sqrt (2*z*(z+1))
  let s2 := if d < 0 then -s2 else s2
  let c2 := Real.sqrt (1-s2*s2)
  (if |s2| < 1/10 then 1 - s2*s2/(1+c2) else c2, s2)

/-- `c1` before it is normalized, when `|d|` is not small (TMV_SVDecompose_QR.cpp:392-435). -/
def bigC1 (d0 d1 e d b z c2 s2 : ℝ) : ℝ :=
  let s1 := s2*d1
  let c1 := s2*e - c2*d0
  if |c1| < 1/10 * |s1| then
    let W := ((d0-d1)*(d0+d1) - d*b*b*(1+1/(1+z)))/(e*e)
    d0*d0/d * (e*e/d) * (d0*d0+(d0-d1)*(d0+d1)+2*W*d) / ((s2*e+c2*d0) * (2*z*(1+z)))
  else c1

/-- The normalization of `c1`, `s1` (TMV_SVDecompose_QR.cpp:437-440, 522-525). -/
def norm1 (c1 s1 : ℝ) : ℝ × ℝ :=
  let n := if c1 < 0 then -Real.sqrt (s1*s1+c1*c1) else Real.sqrt (s1*s1+c1*c1)
  (c1/n, s1/n)

/-- The normalization of `c2`, `s2` (TMV_SVDecompose_QR.cpp:459-461, 513-515). -/
def norm2 (c2 s2 : ℝ) : ℝ × ℝ := (c2 / Real.sqrt (s2*s2+c2*c2), s2 / Real.sqrt (s2*s2+c2*c2))

/-- The improvement of `c2`, `s2` by a Newton step (TMV_SVDecompose_QR.cpp:497-515). -/
def newton (b f c2 s2 : ℝ) : ℝ × ℝ :=
  let t2 := s2/c2
  let dt := (b - t2*(b*(t2+b)-(1-f)*(1+f))) / (b*(2*t2+b)-(1-f)*(1+f))
  let dt := dt*(c2*c2)
  norm2 (c2-s2*dt) (s2+c2*dt)

/-- TMV_SVDecompose_QR.cpp:376-443, `(c1, s1, c2, s2)`. -/
def big22 (d0 d1 e d : ℝ) : ℝ × ℝ × ℝ × ℝ :=
  let b := d0*e/|d|
  let z := Real.sqrt (1+b*b)
  let x := bigCS2 d b z
  let y := norm1 (bigC1 d0 d1 e d b z x.1 x.2) (x.2*d1)
  (if |y.2| < 1/10 then 1 - y.2*y.2/(1+y.1) else y.1, y.2, x.1, x.2)

/-- TMV_SVDecompose_QR.cpp:450-526, `(c1, s1, c2, s2)`.  In line 457 `absd` is still `|d|` before `d` was divided by `d0*d0`. -/
def small22 (d0 d1 e d : ℝ) : ℝ × ℝ × ℝ × ℝ :=
  let b := e/d0
  let absd := |d|
  let d := d/(d0*d0)
  let f := d1/d0
  let w := norm2 (absd + Real.sqrt (d*d+b*b)) (if d < 0 then -b else b)
  let x := newton b f w.1 w.2
  let y := norm1 (x.2*b-x.1) (x.2*f)
  (y.1, y.2, x.1, x.2)

/-- The rotations of `ReduceBidiagonal22` (TMV_SVDecompose_QR.cpp:346-527): `(exact, c1, s1, c2, s2)` from `D(0)`, `D(1)`, `E(0)`. -/
def rot22 (D0 D1 E0 : ℝ) : Bool × ℝ × ℝ × ℝ × ℝ :=
  let mx := max |D0| (max |D1| |E0|)
  let d0 := D0/mx
  let d1 := D1/mx
  let e := E0/mx
  let d := ((d1-d0)*(d1+d0)+e*e)/2
  if |d| > 1/10 then (!decide (|e| > 1/1000), big22 d0 d1 e d) else (false, small22 d0 d1 e d)

/-- `ReduceBidiagonal22` on the rows and columns `p`, `p+1` (TMV_SVDecompose_QR.cpp:265-596). -/
def reduce22 (c : Cfg) (p : Nat) (s : St K) : St K :=
  let r := rot22 (s.D p) (s.D (p+1)) (s.E p)
  let c1 := r.2.1
  let s1 := r.2.2.1
  let c2 := r.2.2.2.1
  let s2 := r.2.2.2.2
  let s' : St K := if r.1 then
      { s with D := upd (upd s.D p (s.D p * (c1/c2))) (p+1) (s.D (p+1) * (c2/c1)), E := upd s.E p 0 }
    else
      let d0 := s.D p
      let d1 := s.D (p+1)
      let e := s.E p
      { s with D := upd (upd s.D p (c1*c2*d0 - c1*s2*e - s1*s2*d1)) (p+1) (-s1*s2*d0 - s1*c2*e + c1*c2*d1),
               E := upd s.E p (c1*s2*d0 + c1*c2*e + s1*c2*d1) }
  rotV c ⟨c2, -s2⟩ p (p+1) (rotU c ⟨c1, s1⟩ p (p+1) s')

/-- One pass of the loop of `ReduceBidiagonal` (TMV_SVDecompose_QR.cpp:688-707); `j` is the index of `*Di`, `*Ei` before the pass. -/
def redStep (c : Cfg) (q j : Nat) (a : St K × ℝ × Givens ℝ) : St K × ℝ × Givens ℝ :=
  let s := a.1
  let g := a.2.2
  let de := g.mult (s.D j) (s.E j)
  let s := { s with D := upd s.D j de.1, E := upd s.E j de.2 }
  let s := rotV c g j (j+1) s
  let xd := g.mult a.2.1 (s.D (j+1))
  let s := { s with D := upd s.D (j+1) xd.2 }
  let r := rotate c (s.D j) xd.1
  let s := { s with D := upd s.D j r.1 }
  let g := r.2.2
  let ed := g.mult (s.E j) (s.D (j+1))
  let s := { s with E := upd s.E j ed.1, D := upd s.D (j+1) ed.2 }
  let s := rotU c g j (j+1) s
  if j + 1 < q then
    let xe := g.mult r.2.1 (s.E (j+1))
    let s := { s with E := upd s.E (j+1) xe.2 }
    let r := rotate c (s.E j) xe.1
    ({ s with E := upd s.E j r.1 }, r.2.1, r.2.2)
  else (s, r.2.1, g)

/-- `ReduceBidiagonal` on the rows and columns `p..q` (TMV_SVDecompose_QR.cpp:598-736). -/
def reduce (c : Cfg) (p q : Nat) (s : St K) : St K :=
  if q - p + 1 = 1 then s
  else if q - p + 1 = 2 then reduce22 c p s
  else
    let mu := trailing p q s.D s.E
    let r := rotate c (s.D p ^ 2 - mu) (s.D p * s.E p)
    (up (redStep c q) (q-p) p (s, r.2.1, r.2.2)).1

/-! ### The iteration -/

/-- `while (p > lo && cond p) --p`. -/
def scan (cond : Nat → Prop) (lo : Nat) : Nat → Nat
  | 0 => 0
  | p+1 => if lo < p+1 ∧ cond (p+1) then scan cond lo p else p+1

/-- The loop of `SV_DecomposeFromBidiagonal_QR` (TMV_SVDecompose_QR.cpp:780-839) on the rows `lo..`; `dec` is `DoSVDecomposeFromBidiagonal`. -/
def qrLoop (c : Cfg) (dec : Nat → Nat → St K → Option (St K)) (lo : Nat) : Nat → Nat → St K → Option (St K)
  | 0, _, _ => none
  | f+1, q, s =>
      if lo < q then
        if s.E (q-1) = 0 then qrLoop c dec lo f (q-1) s
        else
          let p := scan (fun p => s.E (p-1) ≠ 0) lo (q-1)
          let (s, zd) := chop c p q (reduce c p q s)
          if zd then (dec p q s).bind fun s => qrLoop c dec lo f p s
          else qrLoop c dec lo f q s
      else some s

/-- `if (*Di < 0) { *Di = -(*Di); if (Vt.cptr()) Vt.row(i) = -Vt.row(i); }` (TMV_SVDecompose_DC.cpp:901-904, TMV_SVDecompose.cpp:208-215). -/
def posStep (c : Cfg) (i : Nat) (s : St K) : St K :=
  if s.D i < 0 then
    let s := { s with D := upd s.D i (-s.D i) }
    if c.hV = true then { s with V := fun p r => if p = i ∧ r < c.n then -s.V p r else s.V p r } else s
  else s

/-- `SmallProblem` (TMV_SVDecompose_DC.cpp:890-906) on the rows `p..q`. -/
def small (c : Cfg) (f : Nat) (dec : Nat → Nat → St K → Option (St K)) (p q : Nat) (s : St K) : Option (St K) :=
  (if q - p > 0 then qrLoop c dec p f q s else some s).map fun s => up (posStep c) (q-p+1) p s

/-- `DoSVDecomposeFromBidiagonal_NZ` (TMV_SVDecompose.cpp:52-60), the entry of `SV_DecomposeFromBidiagonal_DC` (TMV_SVDecompose_DC.cpp:1063-1075).
Its divide and conquer part is not modelled: `dc` stands for it. -/
def nz (c : Cfg) (dc : Nat → Nat → St K → Option (St K)) (f : Nat) (dec : Nat → Nat → St K → Option (St K)) (p q : Nat) (s : St K) : Option (St K) :=
  if q - p + 1 ≤ c.dcl then small c f dec p q s
  else if ¬ (c.hU = true ∨ c.hV = true) then small c f dec p q s
  else dc p q s

/-- The loop of `DoSVDecomposeFromBidiagonal` (TMV_SVDecompose.cpp:79-150) on the rows `lo..`.  `UisI`, `VisI` are only used by the part of
the code behind `dc`. -/
def doLoop (c : Cfg) (nz : Nat → Nat → St K → Option (St K)) (lo : Nat) : Nat → Nat → St K → Option (St K)
  | 0, _, _ => none
  | f+1, q, s =>
      if lo < q then
        if s.E (q-1) = 0 then doLoop c nz lo f (q-1) s
        else if s.D q = 0 then
          let p := scan (fun p => ¬ s.E (p-1) = 0) lo (q-1)
          doLoop c nz lo f (q-1) (zeroLastCol c p q s)
        else
          let p := scan (fun p => ¬ s.E (p-1) = 0 ∧ ¬ s.D p = 0) lo (q-1)
          let (p, s) := if s.D p = 0 then (p+1, zeroFirstRow c p q s) else (p, s)
          if q > p then (nz p q s).bind fun s => doLoop c nz lo f p s
          else doLoop c nz lo f p s
      else some s

/-- `DoSVDecomposeFromBidiagonal` on the rows `lo..hi` (TMV_SVDecompose.cpp:62-151). -/
def dec (c : Cfg) (dc : Nat → Nat → St K → Option (St K)) : Nat → Nat → Nat → St K → Option (St K)
  | 0, _, _, _ => none
  | f+1, lo, hi, s => doLoop c (nz c dc f (dec c dc f)) lo (f+1) hi (chop c lo hi s).1

/-! ### The whole -/

/-- `D.sort(sortp,Descend)` (TMV_Vector.cpp:1255-1271; `VView.sortP` is the model on memory): the list of interchanges. -/
def sortPerm (srt : List (ℝ × Nat) → List (ℝ × Nat)) (N : Nat) (D : Nat → ℝ) : Nat → Nat :=
  convertIndexToPermute N fun i => ((srt ((List.range N).map fun i => (-D i, i))).map Prod.snd).getD i 0

/-- `D.maxAbs2Element()` of `n` elements. -/
def maxAbsEl (n : Nat) (D : Nat → ℝ) : ℝ := (LU.maxAbs (fun x : ℝ => |x|) D n).1

/-- `U.setToIdentity(); Vt.setToIdentity();` (TMV_SVDecompose.cpp:179-183). -/
def setI (c : Cfg) (N : Nat) (s : St K) : St K :=
  { s with U := fun r p => if r < c.m ∧ p < N then (if r = p then 1 else 0) else s.U r p,
           V := fun p r => if p < N ∧ r < c.n then (if p = r then 1 else 0) else s.V p r }

/-- `D /= scale; E /= scale;` (TMV_SVDecompose.cpp:196-197). -/
def unscale (N : Nat) (scale : ℝ) (s : St K) : St K :=
  { s with D := fun i => if i < N then s.D i / scale else s.D i, E := fun i => if i < N-1 then s.E i / scale else s.E i }

/-- The sorting of the singular values, and `D *= scale` (TMV_SVDecompose.cpp:219-227). -/
def finish (c : Cfg) (srt : List (ℝ × Nat) → List (ℝ × Nat)) (N : Nat) (scale : ℝ) (s : St K) : St K :=
  let P := sortPerm srt N s.D
  { s with D := fun i => if i < N then scale * LU.permuteRows 1 P N 0 (fun a _ => s.D a) i 0 else s.D i,
           U := if c.hU = true then (fun r p => LU.permuteRows c.m P N 0 (fun p r => s.U r p) p r) else s.U,
           V := if c.hV = true then LU.permuteRows c.n P N 0 s.V else s.V }

/-- `NonLapSVDecomposeFromBidiagonal(U,D,E,Vt,setUV)` (TMV_SVDecompose.cpp:153-250), called with `N > 0` by `SV_DecomposeFromBidiagonal` (652-697). -/
def fromBidiag (c : Cfg) (dc : Nat → Nat → St K → Option (St K)) (srt : List (ℝ × Nat) → List (ℝ × Nat)) (f N : Nat) (setUV : Bool) (s : St K) :
    Option (St K) :=
  if N > 0 then
    let s := bif setUV then setI c N s else s
    let scale := max (maxAbsEl N s.D) (maxAbsEl (N-1) s.E)
    if underflow c.tiny scale then some (up zeroE (N-1) 0 (up zeroD N 0 s))
    else (dec c dc f 0 (N-1) (unscale N scale s)).map fun s => finish c srt N scale (up (posStep c) N 0 s)
  else some s

end
end TMV.SVQR
