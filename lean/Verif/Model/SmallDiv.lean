import Verif.Model.Loop
import Verif.Model.LU
import Verif.Model.QRDiv

/-! Determinant, inverse and division of a `SmallMatrix` (include/tmv/TMV_SmallMatrixDiv.h).

A `SmallMatrix<T,M,N,S>` is a flat array `Nat → K` of `M*N` elements; the arrays of the caller are accessed through the
macro `TMV_Val`, i.e. through an accessor `Acc`.  The local matrices (`LU`, `QR`, always `ColMajor`) are element functions.
Elements are exact real or complex numbers; the mixed real/complex instantiations are the ones with a real matrix embedded.
`none` = `throw Singular()` (what a half finished result array holds then is not modelled).  `NOTHROW` is not defined. -/
namespace TMV.SmallDiv
noncomputable section
open Classical

variable {K : Type} [RCLike K]

/-- `TMV_Index(M,N,S,i,j)` (TMV_SmallMatrixDiv.h:37); `rm`: `S==RowMajor`. -/
def idx (rm : Bool) (M N i j : Nat) : Nat := if rm then i*N+j else j*M+i

/-- How a routine reads and writes elements of an array. -/
structure Acc (σ : Type) (K : Type) where
  get : σ → Nat → Nat → K
  set : σ → Nat → Nat → K → σ

/-- `TMV_Val(m,M,N,S,i,j)` (TMV_SmallMatrixDiv.h:38). -/
def flat (rm : Bool) (M N : Nat) : Acc (Nat → K) K where
  get m i j := m (idx rm M N i j)
  set m i j x := Function.update m (idx rm M N i j) x

/-- `SmallMatrixCopy<M,N,S1,S2>(m1,m2)` (TMV_SmallMatrix.h:874-907). -/
def copy (M N : Nat) (s1 s2 : Bool) (m1 m2 : Nat → K) : Nat → K :=
  if s1 = s2 then up (fun i m2 => Function.update m2 i (m1 i)) (M*N) 0 m2
  else up (fun i m2 => up (fun j m2 => Function.update m2 (idx s2 M N i j) (m1 (idx s1 M N i j))) N 0 m2) M 0 m2

/-- The element function of a local `SmallMatrix<T,M,N,ColMajor>` over the array `q`. -/
def loc (M : Nat) (q : Nat → K) : Nat → Nat → K := fun i j => q (j*M+i)

variable {σ : Type}

/-- `LDivEq_L` (TMV_SmallMatrixDiv.h:67-91); `nc` is `K`. -/
def lDivEqL (a : Acc σ K) (N nc : Nat) (L : Nat → Nat → K) (m : σ) : σ :=
  up (fun j m => up (fun k m => up (fun i m =>
    a.set m i k (a.get m i k - a.get m j k * L i j)) (N-(j+1)) (j+1) m) nc 0 m) N 0 m

/-- `LDivEq_U` (TMV_SmallMatrixDiv.h:93-138). -/
def lDivEqU (a : Acc σ K) (N nc : Nat) (U : Nat → Nat → K) (m : σ) : Option σ :=
  forDown (fun j m => if U j j = 0 then none else
    some (up (fun k m =>
      let m := a.set m j k (a.get m j k / U j j)
      up (fun i m => a.set m i k (a.get m i k - a.get m j k * U i j)) j 0 m) nc 0 m)) N m

/-- `RDivEq_U` (TMV_SmallMatrixDiv.h:140-163); `nr` is `K`. -/
def rDivEqU (a : Acc σ K) (N nr : Nat) (U : Nat → Nat → K) (m : σ) : Option σ :=
  forRange (fun i m => if U i i = 0 then none else
    some (up (fun k m =>
      let m := up (fun j m => a.set m k i (a.get m k i - a.get m k j * U j i)) i 0 m
      a.set m k i (a.get m k i / U i i)) nr 0 m)) N 0 m

/-- `InvertU` (TMV_SmallMatrixDiv.h:166-186). -/
def invertU (N : Nat) (U : Nat → Nat → K) : Option (Nat → Nat → K) :=
  forRange (fun j U => if U j j = 0 then none else
    let U := setE U j j (1 / U j j)
    let U := up (fun k U =>
      let U := up (fun i U => setE U i j (U i j + U k j * U i k)) k 0 U
      setE U k j (U k j * U k k)) j 0 U
    some (up (fun i U => setE U i j (U i j * -U j j)) j 0 U)) N 0 U

/-- `for(i=hi-1; i>=lo; --i)`. -/
def downFrom {S : Type} (f : Nat → S → S) (lo hi : Nat) (s : S) : S := down (fun i => f (lo+i)) (hi-lo) s

/-- `InvertL` (TMV_SmallMatrixDiv.h:188-199). -/
def invertL (N : Nat) (L : Nat → Nat → K) : Nat → Nat → K :=
  down (fun j L =>
    let L := downFrom (fun k L => downFrom (fun i L => setE L i j (L i j + L k j * L i k)) (k+1) N L) (j+1) N L
    downFrom (fun i L => setE L i j (-L i j)) (j+1) N L) N L

/-- The body of the loop over the columns `k` in `Q_LDivEq` (TMV_SmallMatrixDiv.h:210-222) and `DoQRD` (lines 328-335):
the reflector in column `j` of `Q` applied to column `k` of `m`. -/
def hlCol (a : Acc σ K) (M j : Nat) (Q : Nat → Nat → K) (b : K) (k : Nat) (m : σ) : σ :=
  let temp : K := up (fun i t => t + star (Q i j) * a.get m i k) (M-(j+1)) (j+1) 0
  let temp := temp + a.get m j k
  let temp := temp * b
  let m := a.set m j k (a.get m j k - temp)
  up (fun i m => a.set m i k (a.get m i k - Q i j * temp)) (M-(j+1)) (j+1) m

/-- `Q_LDivEq` (TMV_SmallMatrixDiv.h:201-224). -/
def qLDivEq (a : Acc σ K) (M N nc : Nat) (Q : Nat → Nat → K) (beta : Nat → K) (m : σ) : σ :=
  up (fun j m => if beta j ≠ 0 then up (fun k m => hlCol a M j Q (beta j) k m) nc 0 m else m) N 0 m

/-- Loop body of `Q_RDivEq` for row `k` (TMV_SmallMatrixDiv.h:236-248). -/
def hrRow (a : Acc σ K) (M j : Nat) (Q : Nat → Nat → K) (b : K) (k : Nat) (m : σ) : σ :=
  let temp : K := up (fun i t => t + Q i j * a.get m k i) (M-(j+1)) (j+1) 0
  let temp := temp + a.get m k j
  let temp := temp * b
  let m := a.set m k j (a.get m k j - temp)
  up (fun i m => a.set m k i (a.get m k i - star (Q i j) * temp)) (M-(j+1)) (j+1) m

/-- `Q_RDivEq` (TMV_SmallMatrixDiv.h:226-250). -/
def qRDivEq (a : Acc σ K) (M N nr : Nat) (Q : Nat → Nat → K) (beta : Nat → K) (m : σ) : σ :=
  down (fun j m => if beta j ≠ 0 then up (fun k m => hrRow a M j Q (beta j) k m) nr 0 m else m) N m

/-! ### Decompositions -/

/-- The size used in the pivot search (TMV_SmallMatrixDiv.h:285-291): `TMV_ABS` of a real element, `TMV_NORM` (the squared
modulus) of a complex one; `cplx`: `T` is complex. -/
def size (cplx : Bool) (x : K) : ℝ := if cplx then RCLike.normSq x else ‖x‖

/-- Element updates of column `j` in `DoLUD` (TMV_SmallMatrixDiv.h:266-282). -/
def ludCol (N j : Nat) (LU : Nat → Nat → K) : Nat → Nat → K :=
  let LU := if j > 1 then up (fun k LU => if LU k j ≠ 0 then
      up (fun i LU => setE LU i j (LU i j - LU k j * LU i k)) (j-(k+1)) (k+1) LU else LU) j 0 LU else LU
  if j > 0 then up (fun k LU => up (fun i LU => setE LU i j (LU i j - LU i k * LU k j)) (N-j) j LU) j 0 LU else LU

/-- Pivot search (TMV_SmallMatrixDiv.h:284-302). -/
def ludPiv (cplx : Bool) (N j : Nat) (LU : Nat → Nat → K) : Nat :=
  if j < N-1 then
    (up (fun k (s : ℝ × Nat) => if size cplx (LU k j) > s.1 then (size cplx (LU k j), k) else s) (N-(j+1)) (j+1)
      (size cplx (LU j j), j)).2
  else j

/-- Loop body of `DoLUD` (TMV_SmallMatrixDiv.h:264-310). -/
def ludStep (cplx : Bool) (N j : Nat) (s : (Nat → Nat → K) × (Nat → Nat)) : (Nat → Nat → K) × (Nat → Nat) :=
  let LU := ludCol N j s.1
  let ip := ludPiv cplx N j LU
  let LU := if ip ≠ j then TMV.LU.swapRows N LU ip j else LU
  let P := Function.update s.2 j ip
  let LU := if LU j j ≠ 0 then
    let inv := 1 / LU j j
    up (fun k LU => setE LU k j (LU k j * inv)) (N-(j+1)) (j+1) LU else LU
  (LU, P)

/-- `DoLUD` (TMV_SmallMatrixDiv.h:260-311). -/
def doLUD (cplx : Bool) (N : Nat) (LU : Nat → Nat → K) : (Nat → Nat → K) × (Nat → Nat) :=
  up (ludStep cplx N) N 0 (LU, fun _ => 0)

/-- Accessor of a local matrix given by its element function. -/
def elem : Acc (Nat → Nat → K) K where
  get A i j := A i j
  set A i j x := setE A i j x

/-- `DoQRD` (TMV_SmallMatrixDiv.h:319-339).  `det` is 0, so that it is not updated. -/
def doQRD (tiny : ℝ) (M N : Nat) (Q : Nat → Nat → K) : (Nat → Nat → K) × (Nat → K) :=
  up (fun j (s : (Nat → Nat → K) × (Nat → K)) =>
    let r := QR.reflectCol tiny M j s.1 0
    let Q := r.1
    let beta := Function.update s.2 j r.2.1
    (if beta j ≠ 0 ∧ j < N-1 then up (fun k Q => hlCol elem M j Q (beta j) k Q) (N-(j+1)) (j+1) Q else Q, beta)) N 0
    (Q, fun _ => 0)

/-! ### Determinant -/

/-- `SMDet<1>`, `SMDet<2>`, `SMDet<3>` (TMV_SmallMatrixDiv.h:348-365). -/
def det1 (m : Nat → K) : K := m 0
def det2 (m : Nat → K) : K := m 0 * m 3 - m 1 * m 2
def det3 (m : Nat → K) : K :=
  m 0 * (m 4 * m 8 - m 5 * m 7) - m 1 * (m 3 * m 8 - m 5 * m 6) + m 2 * (m 3 * m 7 - m 4 * m 6)

/-- `SMDet<10>` (TMV_SmallMatrixDiv.h:367-384). -/
def detLU (cplx rm : Bool) (N : Nat) (m : Nat → K) : K :=
  let LU := loc N (copy N N rm false m fun _ => 0)
  let s := doLUD cplx N LU
  up (fun i d => let d := d * s.1 i i; if s.2 i ≠ i then -d else d) N 0 1

/-- `DoDet` (TMV_SmallMatrixDiv.h:456-468) for a type that is not an integer type (for those see `Model/Bareiss.lean`: the
code of `SMDet<20>` is the same algorithm). -/
def det (cplx rm : Bool) (N : Nat) (m : Nat → K) : K :=
  if N = 1 then det1 m else if N = 2 then det2 m else if N = 3 then det3 m else detLU cplx rm N m

/-! ### Inverse -/

/-- `for(i=0;i<n;++i) m[i] = 0`. -/
def zeroAll (n : Nat) (m : Nat → K) : Nat → K := up (fun i m => Function.update m i 0) n 0 m

/-- `SMQRInv` (TMV_SmallMatrixDiv.h:474-490): `Q` is the element function of the local `M`×`N` matrix. -/
def qrInv (tiny : ℝ) (s2 : Bool) (M N : Nat) (Q : Nat → Nat → K) (minv : Nat → K) : Option (Nat → K) :=
  let s := doQRD tiny M N Q
  (invertU N s.1).map fun W =>
    let minv := zeroAll (M*N) minv
    let minv := up (fun j m => up (fun i m => (flat s2 N M).set m i j (W i j)) (j+1) 0 m) N 0 minv
    qRDivEq (flat s2 N M) M N N W s.2 minv

/-- `SMInv<N,N>` by LU (TMV_SmallMatrixDiv.h:537-574). -/
def luInv (cplx s s2 : Bool) (N : Nat) (m minv : Nat → K) : Option (Nat → K) :=
  let r := doLUD cplx N (loc N (copy N N s false m fun _ => 0))
  (invertU N r.1).map fun LU =>
    let LU := invertL N LU
    let a : Acc (Nat → K) K := flat s2 N N
    let minv := zeroAll (N*N) minv
    let minv := up (fun j m =>
      let m := up (fun i m => a.set m i j (LU i j)) (j+1) 0 m
      up (fun k m => up (fun i m => a.set m i j (a.get m i j + LU i k * LU k j)) (k+1) 0 m) (N-(j+1)) (j+1) m) N 0 minv
    down (fun j m => if r.2 j ≠ j then
      up (fun i m => let x := a.get m i j; let y := a.get m i (r.2 j); a.set (a.set m i j y) i (r.2 j) x) N 0 m else m) N minv

/-- `SMInv<1,1>` (TMV_SmallMatrixDiv.h:584-597). -/
def inv1 (m minv : Nat → K) : Option (Nat → K) :=
  if m 0 = 0 then none else some (Function.update minv 0 (1 / m 0))

/-- `SMInv<2,2>` (TMV_SmallMatrixDiv.h:599-625); `m` and `minv` are different arrays. -/
def inv2 (s s2 : Bool) (m minv : Nat → K) : Option (Nat → K) :=
  let d := det2 m
  if d = 0 then none
  else
    let v := Function.update minv 0 (m 3 / d)
    let v := Function.update v 3 (m 0 / d)
    some (if s = s2 then Function.update (Function.update v 1 (-m 1 / d)) 2 (-m 2 / d)
      else Function.update (Function.update v 1 (-m 2 / d)) 2 (-m 1 / d))

/-- `SMInv<3,3>` (TMV_SmallMatrixDiv.h:627-658); `m` and `minv` are different arrays. -/
def inv3 (s s2 : Bool) (m minv : Nat → K) : Option (Nat → K) :=
  let d := det3 m
  if d = 0 then none
  else
    let v := Function.update minv 0 ((m 4 * m 8 - m 7 * m 5) / d)
    let v := Function.update v 4 ((m 0 * m 8 - m 6 * m 2) / d)
    let v := Function.update v 8 ((m 0 * m 4 - m 3 * m 1) / d)
    some (if s = s2 then
      let v := Function.update v 1 (-(m 1 * m 8 - m 7 * m 2) / d)
      let v := Function.update v 2 ((m 1 * m 5 - m 4 * m 2) / d)
      let v := Function.update v 3 (-(m 3 * m 8 - m 6 * m 5) / d)
      let v := Function.update v 5 (-(m 0 * m 5 - m 3 * m 2) / d)
      let v := Function.update v 6 ((m 3 * m 7 - m 6 * m 4) / d)
      Function.update v 7 (-(m 0 * m 7 - m 6 * m 1) / d)
    else
      let v := Function.update v 1 (-(m 3 * m 8 - m 6 * m 5) / d)
      let v := Function.update v 2 ((m 3 * m 7 - m 6 * m 4) / d)
      let v := Function.update v 3 (-(m 1 * m 8 - m 7 * m 2) / d)
      let v := Function.update v 5 (-(m 0 * m 7 - m 6 * m 1) / d)
      let v := Function.update v 6 ((m 1 * m 5 - m 4 * m 2) / d)
      Function.update v 7 (-(m 0 * m 5 - m 3 * m 2) / d))

/-- `DoInverse(m,minv)` (TMV_SmallMatrixDiv.h:681-696) with the choice of `SMInv` (lines 492-521, 537-658): `m` is `M`×`N`
stored by `s`, `minv` is `N`×`M` stored by `s2`.  A row-major copy of the `M`×`N` matrix is the transposed matrix in
the column-major local `QR`. -/
def inverse (tiny : ℝ) (cplx s s2 : Bool) (M N : Nat) (m minv : Nat → K) : Option (Nat → K) :=
  if M < N then qrInv tiny (!s2) N M (loc N (copy M N s true m fun _ => 0)) minv
  else if M = N then
    if N = 1 then inv1 m minv else if N = 2 then inv2 s s2 m minv else if N = 3 then inv3 s s2 m minv
    else luInv cplx s s2 N m minv
  else qrInv tiny s2 M N (loc M (copy M N s false m fun _ => 0)) minv

/-! ### Division -/

/-- `SMQRLDiv` (TMV_SmallMatrixDiv.h:702-720): `m1` is `M`×`nc` stored by `s1`, `m2` is `N`×`nc` stored by `s2`. -/
def qrLDiv (tiny : ℝ) (s1 s2 : Bool) (M N nc : Nat) (Q : Nat → Nat → K) (m1 m2 : Nat → K) : Option (Nat → K) :=
  let s := doQRD tiny M N Q
  let temp := copy M nc s1 true m1 fun _ => 0
  let temp := qLDivEq (flat true M nc) M N nc s.1 s.2 temp
  let m2 := copy N nc true s2 temp m2
  lDivEqU (flat s2 N nc) N nc s.1 m2

/-- `SMQRRDiv` (TMV_SmallMatrixDiv.h:722-744): `m1` is `nr`×`N` stored by `s1`, `m2` is `nr`×`M` stored by `s2`. -/
def qrRDiv (tiny : ℝ) (s1 s2 : Bool) (M N nr : Nat) (Q : Nat → Nat → K) (m1 m2 : Nat → K) : Option (Nat → K) :=
  let s := doQRD tiny M N Q
  let m2 := zeroAll (nr*M) m2
  let m2 := if s2 = false then copy nr N s1 s2 m1 m2
    else up (fun i m => up (fun j m => (flat s2 nr M).set m i j ((flat s1 nr N).get m1 i j)) N 0 m) nr 0 m2
  (rDivEqU (flat s2 nr M) N nr s.1 m2).map fun m2 => qRDivEq (flat s2 nr M) M N nr s.1 s.2 m2

/-- `SMLULDivEq` (TMV_SmallMatrixDiv.h:746-776): `m2` is `N`×`nc` stored by `s2`. -/
def luLDivEq (cplx s2 : Bool) (N nc : Nat) (LU : Nat → Nat → K) (m2 : Nat → K) : Option (Nat → K) :=
  let r := doLUD cplx N LU
  let a : Acc (Nat → K) K := flat s2 N nc
  let m2 := up (fun i m => if r.2 i ≠ i then
    up (fun j m => let x := a.get m i j; let y := a.get m (r.2 i) j; a.set (a.set m i j y) (r.2 i) j x) nc 0 m else m) N 0 m2
  let m2 := lDivEqL a N nc r.1 m2
  lDivEqU a N nc r.1 m2

/-- `SMLDivEqM::ldiveq`, what `DoLDivEq(m,m2)` does (TMV_SmallMatrixDiv.h:846-868, 919-934). -/
def lDivEq (cplx s s2 : Bool) (N nc : Nat) (m m2 : Nat → K) : Option (Nat → K) :=
  luLDivEq cplx s2 N nc (loc N (copy N N s false m fun _ => 0)) m2

/-- `SMRDivEqM::rdiveq`, what `DoRDivEq(m,m2)` does (TMV_SmallMatrixDiv.h:1071-1085, 1124-1139): `m2` is `nr`×`N`. -/
def rDivEq (cplx s s2 : Bool) (N nr : Nat) (m m2 : Nat → K) : Option (Nat → K) :=
  luLDivEq cplx (!s2) N nr (loc N (copy N N s true m fun _ => 0)) m2

/-- `DoLDiv(m,m1,m2)` (TMV_SmallMatrixDiv.h:937-955) with the choice of `SMLDivM` (lines 783-816, 877-902): `m2 = m⁻¹ m1`,
`m` is `M`×`N`, `m1` `M`×`nc`, `m2` `N`×`nc`. -/
def lDiv (tiny : ℝ) (cplx s s1 s2 : Bool) (M N nc : Nat) (m m1 m2 : Nat → K) : Option (Nat → K) :=
  if M < N then qrRDiv tiny (!s1) (!s2) N M nc (loc N (copy M N s true m fun _ => 0)) m1 m2
  else if M = N then lDivEq cplx s s2 N nc m (copy N nc s1 s2 m1 m2)
  else qrLDiv tiny s1 s2 M N nc (loc M (copy M N s false m fun _ => 0)) m1 m2

/-- `DoRDiv(m,m1,m2)` (TMV_SmallMatrixDiv.h:1142-1161) with the choice of `SMRDivM` (lines 1008-1041, 1094-1107):
`m2 = m1 m⁻¹`, `m` is `M`×`N`, `m1` `nr`×`N`, `m2` `nr`×`M`. -/
def rDiv (tiny : ℝ) (cplx s s1 s2 : Bool) (M N nr : Nat) (m m1 m2 : Nat → K) : Option (Nat → K) :=
  if M < N then qrLDiv tiny (!s1) (!s2) N M nr (loc N (copy M N s true m fun _ => 0)) m1 m2
  else if M = N then rDivEq cplx s s2 N nr m (copy nr N s1 s2 m1 m2)
  else qrRDiv tiny s1 s2 M N nr (loc M (copy M N s false m fun _ => 0)) m1 m2

/-- `DoLDiv(m,v1,v2)` and `DoLDivEq(m,v2)` for vectors (TMV_SmallMatrixDiv.h:962-1001). -/
def lDivV (tiny : ℝ) (cplx s : Bool) (M N : Nat) (m v1 v2 : Nat → K) : Option (Nat → K) := lDiv tiny cplx s false false M N 1 m v1 v2
def lDivEqV (cplx s : Bool) (N : Nat) (m v2 : Nat → K) : Option (Nat → K) := lDivEq cplx s false N 1 m v2

/-- `DoRDiv(m,v1,v2)` and `DoRDivEq(m,v2)` for vectors (TMV_SmallMatrixDiv.h:1167-1200). -/
def rDivV (tiny : ℝ) (cplx s : Bool) (M N : Nat) (m v1 v2 : Nat → K) : Option (Nat → K) := rDiv tiny cplx s true true M N 1 m v1 v2
def rDivEqV (cplx s : Bool) (N : Nat) (m v2 : Nat → K) : Option (Nat → K) := rDivEq cplx s true N 1 m v2

/-! ### InverseATA -/

/-- `SMQRATA` (TMV_SmallMatrixDiv.h:1206-1227). -/
def qrATA (tiny : ℝ) (s2 : Bool) (M N : Nat) (Q : Nat → Nat → K) (ata : Nat → K) : Option (Nat → K) :=
  let s := doQRD tiny M N Q
  (invertU N s.1).map fun W =>
    let a : Acc (Nat → K) K := flat s2 N N
    let ata := zeroAll (N*N) ata
    up (fun j m => up (fun k m => up (fun i m => a.set m i j (a.get m i j + W i k * star (W j k))) (k+1) 0 m) (N-j) j m) N 0 ata

/-- `DoInverseATA` (TMV_SmallMatrixDiv.h:1229-1267). -/
def inverseATA (tiny : ℝ) (s s2 : Bool) (M N : Nat) (m ata : Nat → K) : Option (Nat → K) :=
  if M < N then qrATA tiny s2 N M (loc N (copy M N s true m fun _ => 0)) ata
  else qrATA tiny s2 M N (loc M (copy M N s false m fun _ => 0)) ata

end
end TMV.SmallDiv
