import Verif.Model.QR

/-! QR decomposition with column pivoting, `QRP_Decompose` (src/TMV_QRPDecompose.cpp), without LAPACK.

Elements are exact real or complex numbers, so the running column norms are exact as long as the code keeps them up to
date.  `tiny` as in Model/QR; `eps` is `TMV_Epsilon<T>()`, `sqe` is `TMV_SQRT(TMV_Epsilon<T>())`, `nb` is
`QRP_BLOCKSIZE`.  `s` is `scale`, `th` is `thresh`.  Loops that need not end are given `fuel`; `none` = not finished yet. -/
namespace TMV.QR
noncomputable section
open Classical

variable {K : Type} [RCLike K]

/-- State of the decomposition: `A`, `beta`, `P`, `colnormsq`, `det`. -/
structure PSt (K : Type) where
  A : Nat → Nat → K
  beta : Nat → K
  P : Nat → Nat
  cn : Nat → ℝ
  det : K

/-- `A.col(k,a,b).normSq(scale)`. -/
def cnorm (s : ℝ) (A : Nat → Nat → K) (k a b : Nat) : ℝ := ∑ p ∈ Finset.Ico a b, RCLike.normSq ((s : K) * A p k)

/-- `colnormsq.subVector(j,j+n).maxElement(&jpiv)`, `n > 0`: index of the first maximum (TMV_Vector.cpp:444-472), counted
from 0 and not from `j`. -/
def argMax (f : Nat → ℝ) (j : Nat) : Nat → Nat
  | 0 => j
  | 1 => j
  | n+2 => let m := argMax f j (n+1); if f (j+(n+1)) > f m then j+(n+1) else m

/-- `A.swapCols(i,k)`. -/
def swapC (A : Nat → Nat → K) (i k : Nat) : Nat → Nat → K := fun p c => A p (Equiv.swap i k c)
/-- `colnormsq.swap(i,k)`. -/
def swapV (f : Nat → ℝ) (i k : Nat) : Nat → ℝ := fun c => f (Equiv.swap i k c)
/-- `P[i] = k`. -/
def setP (P : Nat → Nat) (i k : Nat) : Nat → Nat := fun c => if c = i then k else P c

/-- `A.maxAbs2Element()` of an `M`×`N` matrix. -/
def maxAbs2M (M : Nat) (A : Nat → Nat → K) : Nat → ℝ
  | 0 => 0
  | n+1 => max (maxAbs2M M A n) (maxAbs2 (fun p => A p n) M)

/-- `scale` (TMV_QRPDecompose.cpp:102, 254, 484).  Simplification: for `A = 0` the code has `1/0 = inf` and then NaN column
norms, for which every comparison is false; here `scale = 1` and norms 0, for which the comparisons made are false too. -/
def qrpScale (M N : Nat) (A : Nat → Nat → K) : ℝ := if maxAbs2M M A N = 0 then 1 else 1 / maxAbs2M M A N

/-- `colnormsq` at the start (TMV_QRPDecompose.cpp:107, 259, 489) and recalculated from row `j` for the columns `k0..N-1`
(139-140, 286-287, 693-694). -/
def recalc (s : ℝ) (M N j k0 : Nat) (st : PSt K) : PSt K :=
  { st with cn := fun k => if k0 ≤ k ∧ k < N then cnorm s st.A k j M else st.cn k }

/-- `thresh` (TMV_QRPDecompose.cpp:109-110, 260-261, 491-492). -/
def qrpThresh (eps : ℝ) (N : Nat) (cn : Nat → ℝ) : ℝ := N * eps ^ 2 * ∑ k ∈ Finset.range N, cn k

/-- Zero the rest (TMV_QRPDecompose.cpp:155-159, 295-297, 520-522). -/
def zeroRest (M N j : Nat) (st : PSt K) : PSt K :=
  { st with
    A := fun p c => if j ≤ p ∧ p < M ∧ j ≤ c ∧ c < N then 0 else st.A p c
    beta := fun c => if j ≤ c ∧ c < N then 0 else st.beta c
    P := fun c => if j ≤ c ∧ c < N then c else st.P c }

/-- Swap the pivot column to the front (TMV_QRPDecompose.cpp:165-175, 310-321 without `ZYtA`). -/
def pivot (j jp : Nat) (st : PSt K) : PSt K :=
  if jp ≠ j then { st with A := swapC st.A j jp, P := setP st.P j jp, cn := swapV st.cn j jp, det := -st.det }
  else { st with P := setP st.P j j }

/-- Decompose column `j` and update the norms (TMV_QRPDecompose.cpp:186-193). -/
def nbStep (tiny s : ℝ) (M N j : Nat) (st : PSt K) : PSt K :=
  let (A, b, det) := reflectMat tiny M N j st.A st.det
  { st with
    A := A, det := det
    beta := fun c => if c = j then b else st.beta c
    cn := fun k => if j < k ∧ k < N then st.cn k - RCLike.normSq (A j k * (s : K)) else st.cn k }

/-- Loop of `NonBlockQRPDecompose` (TMV_QRPDecompose.cpp:121-194) from column `j`; `n` columns left, `rt` is
`recalcthresh`. -/
def nbLoop (tiny sqe s th : ℝ) (strict : Bool) (M N : Nat) : Nat → Nat → ℝ → PSt K → PSt K
  | 0, _, _, st => st
  | n+1, j, rt, st =>
    if strict = true ∨ j = 0 ∨ st.cn j < rt then
      let jp := argMax st.cn j (N-j)
      let mx := st.cn jp
      let rt := if j = 0 then 4*sqe*mx else rt
      if mx < rt then
        let st := recalc s M N j j st
        let jp := argMax st.cn j (N-j)
        let mx := st.cn jp
        let rt := 4*sqe*mx
        let rt := if rt < th then th else rt
        if mx < th then zeroRest M N j st
        else nbLoop tiny sqe s th strict M N n (j+1) rt (nbStep tiny s M N j (pivot j jp st))
      else if mx < th then zeroRest M N j st
      else nbLoop tiny sqe s th strict M N n (j+1) rt (nbStep tiny s M N j (pivot j jp st))
    else nbLoop tiny sqe s th strict M N n (j+1) rt (nbStep tiny s M N j { st with P := setP st.P j j })

/-- Start of the three routines. -/
def qrpInit (M N : Nat) (A : Nat → Nat → K) (beta0 : Nat → K) (P0 : Nat → Nat) (det : K) : PSt K :=
  recalc (qrpScale M N A) M N 0 0 ⟨A, beta0, P0, fun _ => 0, det⟩

/-- `NonBlockQRPDecompose` (TMV_QRPDecompose.cpp:69-223). -/
def nonBlockQRP (tiny eps sqe : ℝ) (strict : Bool) (M N : Nat) (A : Nat → Nat → K) (beta0 : Nat → K) (P0 : Nat → Nat) (det : K) : PSt K :=
  let st := qrpInit M N A beta0 P0 det
  nbLoop tiny sqe (qrpScale M N A) (qrpThresh eps N st.cn) strict M N N 0 0 st

/-! ### Strict pivoting by blocks -/

/-- One column of `StrictBlockQRPDecompose` after the pivoting (TMV_QRPDecompose.cpp:328-369); `Y` is `ZYtA`, whose row
`jmj1` is here row `j = j1 + jmj1`. -/
def sbStep (tiny s : ℝ) (M N j1 j : Nat) (st : PSt K) (Y : Nat → Nat → K) : PSt K × (Nat → Nat → K) :=
  let A := st.A
  let A : Nat → Nat → K := fun p c => if c = j ∧ j ≤ p ∧ p < M then A p c - ∑ k ∈ Finset.Ico j1 j, A p k * Y k j else A p c
  let (A, b, det) := reflectCol tiny M j A st.det
  let Y : Nat → Nat → K :=
    if b ≠ 0 then
      let row : Nat → K := fun c => if j < c then (∑ p ∈ Finset.Ico (j+1) M, star (A p j) * A p c) + A j c else 0
      let vtY : Nat → K := fun k => (∑ p ∈ Finset.Ico (j+1) M, star (A p j) * A p k) + A j k
      fun k c => if k = j ∧ j1 ≤ c ∧ c < N then (row c - ∑ l ∈ Finset.Ico j1 j, vtY l * Y l c) * b else Y k c
    else fun k c => if k = j ∧ j1 ≤ c ∧ c < N then 0 else Y k c
  let A : Nat → Nat → K := fun p c => if p = j ∧ j < c ∧ c < N then A p c - (∑ k ∈ Finset.Ico j1 j, A j k * Y k c) - Y j c else A p c
  ({ st with
     A := A, det := det
     beta := fun c => if c = j then b else st.beta c
     cn := fun k => if j < k ∧ k < N then st.cn k - RCLike.normSq (A j k * (s : K)) else st.cn k }, Y)

/-- Loop over one block (TMV_QRPDecompose.cpp:272-372) from column `j`, at most `n` columns: returns the last `j2`,
`recalcthresh`, the state, `ZYtA`. -/
def sbInner (tiny sqe s th : ℝ) (M N j1 : Nat) : Nat → Nat → ℝ → PSt K → (Nat → Nat → K) → Nat × ℝ × PSt K × (Nat → Nat → K)
  | 0, j, rt, st, Y => (j, rt, st, Y)
  | n+1, j, rt, st, Y =>
    let jp := argMax st.cn j (N-j)
    let mx := st.cn jp
    let rt := if rt = 0 then 4*sqe*mx else rt
    if mx < rt then
      if j = j1 then (j, 0, recalc s M N j j st, Y) else (j, rt, st, Y)
    else if mx < th then
      if j = j1 then (N, rt, zeroRest M N j st, Y) else (j, rt, st, Y)
    else
      let st := pivot j jp st
      let Y : Nat → Nat → K := fun k c => if j1 ≤ k ∧ k < j then swapC Y j jp k c else Y k c
      let (st, Y) := sbStep tiny s M N j1 j st Y
      sbInner tiny sqe s th M N j1 n (j+1) rt st Y

/-- Outer loop of `StrictBlockQRPDecompose` (TMV_QRPDecompose.cpp:270-378). -/
def sbOuter (tiny sqe s th : ℝ) (nb M N : Nat) : Nat → Nat → ℝ → PSt K → (Nat → Nat → K) → Option (PSt K)
  | 0, _, _, _, _ => none
  | f+1, j1, rt, st, Y =>
    if j1 < N then
      let (j2, rt, st, Y) := sbInner tiny sqe s th M N j1 (min N (j1+nb) - j1) j1 rt st Y
      let A := st.A
      let A : Nat → Nat → K := fun p c => if j2 ≤ p ∧ p < M ∧ j2 ≤ c ∧ c < N then A p c - ∑ k ∈ Finset.Ico j1 j2, A p k * Y k c else A p c
      sbOuter tiny sqe s th nb M N f j2 rt { st with A := A } Y
    else some st

/-! ### Loose pivoting by blocks -/

/-- `while (j3 > j1 && colnormsq(j3) < thresh) --j3;` (TMV_QRPDecompose.cpp:416). -/
def scanDown (cn : Nat → ℝ) (rt : ℝ) (j1 : Nat) : Nat → Nat
  | 0 => 0
  | j+1 => if j+1 > j1 ∧ cn (j+1) < rt then scanDown cn rt j1 j else j+1

/-- `while (colnormsq(--j3) < thresh);` (TMV_QRPDecompose.cpp:429). -/
def scanDown2 (cn : Nat → ℝ) (rt : ℝ) : Nat → Nat
  | 0 => 0
  | j+1 => if cn j < rt then scanDown2 cn rt j else j

/-- Loop of `moveLowColsToEnd` (TMV_QRPDecompose.cpp:423-432): returns `j2`, `j3`, the state. -/
def moveLowLoop (rt : ℝ) : Nat → Nat → Nat → Nat → PSt K → Nat × Nat × PSt K
  | 0, _, j2, j3, st => (j2, j3, st)
  | n+1, i, j2, j3, st =>
    if i < j2 then
      if st.cn i < rt then
        let st : PSt K := { st with A := swapC st.A i j3, cn := swapV st.cn i j3, P := setP st.P i j3 }
        let j3 := scanDown2 st.cn rt j3
        let j2 := if j3 < j2 then j3+1 else j2
        moveLowLoop rt n (i+1) j2 j3 st
      else moveLowLoop rt n (i+1) j2 j3 { st with P := setP st.P i i }
    else (j2, j3, st)

/-- `moveLowColsToEnd(colnormsq,thresh,j1,j2,j3,A,P)` (TMV_QRPDecompose.cpp:404-434), `j3 > 0`. -/
def moveLow (rt : ℝ) (j1 j2 j3 : Nat) (st : PSt K) : Nat × Nat × PSt K :=
  let j3 := j3 - 1
  let j3 := scanDown st.cn rt j1 j3
  if j3 = j1 then
    if st.cn j1 < rt then (j1, j3, st)
    else (j1+1, j1+1, { st with P := setP st.P j1 j1 })
  else
    let j2 := if j3 < j2 then j3+1 else j2
    let (j2, j3, st) := moveLowLoop rt (j2-j1) j1 j2 j3 st
    (j2, j3+1, st)

/-- Swap column `j` out of the block (TMV_QRPDecompose.cpp:587-608), `j2` already decremented. -/
def swapOut (j j2 : Nat) (st : PSt K) : PSt K :=
  let st : PSt K := { st with A := swapC st.A j j2, cn := swapV st.cn j j2 }
  if st.P j2 > j2 then
    if st.P j > j2 then
      let P := setP (setP st.P j (st.P j2)) j2 (st.P j)
      { st with P := P, A := swapC st.A (P j) (P j2), cn := swapV st.cn (P j) (P j2) }
    else { st with P := setP st.P j (st.P j2) }
  else
    let P := if st.P j > j2 then setP st.P j2 (st.P j) else st.P
    { st with P := setP P j j2 }

/-- `BlockHouseholderAugment(A.subMatrix(j1,M,j1,j+1),Z,b)` (TMV_Householder.cpp:474-540). -/
def augment (M j1 j : Nat) (V Z : Nat → Nat → K) (b : K) : Nat → Nat → K :=
  if b = 0 then fun k l => if l = j ∧ j1 ≤ k ∧ k ≤ j then 0 else Z k l
  else if j = j1 then setE Z j j b
  else
    let z : Nat → K := fun q => (∑ p ∈ Finset.Ico (j+1) M, star (V p q) * V p j) + star (V j q)
    fun k l => if l = j ∧ j1 ≤ k ∧ k < j then -b * ∑ q ∈ Finset.Ico k j, Z k q * z q
      else if l = j ∧ k = j then b else Z k l

/-- Decompose column `j` of a loose block of columns `..o-1` (TMV_QRPDecompose.cpp:623-639). -/
def lStep (tiny s : ℝ) (M o j1 j j2 : Nat) (st : PSt K) (Z : Nat → Nat → K) : PSt K × (Nat → Nat → K) :=
  let (A, b, det) := reflectMat tiny M o j st.A st.det
  ({ st with
     A := A, det := det
     beta := fun c => if c = j then b else st.beta c
     cn := fun k => if j < k ∧ k < j2 then st.cn k - RCLike.normSq (A j k * (s : K)) else st.cn k },
   augment M j1 j A Z (star b))

/-- Loop over the columns of a block (TMV_QRPDecompose.cpp:566-640), `o = origj2`: returns `j2`, the state, `Z`. -/
def lInner (tiny s rt : ℝ) (M o j1 : Nat) : Nat → Nat → Nat → PSt K → (Nat → Nat → K) → Nat × PSt K × (Nat → Nat → K)
  | 0, _, j2, st, Z => (j2, st, Z)
  | n+1, j, j2, st, Z =>
    if j < j2 then
      if st.cn j < rt then
        let j2 := j2 - 1
        if j = j2 then (j2, st, Z)
        else
          let (st, Z) := lStep tiny s M o j1 j j2 (swapOut j j2 st) Z
          lInner tiny s rt M o j1 n (j+1) j2 st Z
      else
        let (st, Z) := lStep tiny s M o j1 j j2 st Z
        lInner tiny s rt M o j1 n (j+1) j2 st Z
    else (j2, st, Z)

/-- Update of the columns behind the block and of their norms (TMV_QRPDecompose.cpp:642-665). -/
def lUpdate (s : ℝ) (M N j1 j2 o : Nat) (st : PSt K) (Z : Nat → Nat → K) : PSt K :=
  if j1 < j2 then
    let A := blockLDiv M j1 j2 o N st.A Z st.A
    { st with
      A := A
      cn := fun k => if o ≤ k ∧ k < N then
          if M-j2 > j2-j1 then st.cn k - cnorm s A k j1 j2 else cnorm s A k j2 M
        else st.cn k }
  else st

/-- `for(j=j2; j<origj2; ++j) if (P[j] > j2) ...` (TMV_QRPDecompose.cpp:673-680): `n` columns left. -/
def putBack (j2 : Nat) : Nat → Nat → PSt K → PSt K
  | 0, _, st => st
  | n+1, j, st =>
    putBack j2 n (j+1) (if st.P j > j2 then { st with A := swapC st.A j (st.P j), cn := swapV st.cn j (st.P j) } else st)

/-- One block: body of the loop TMV_QRPDecompose.cpp:551-688.  Returns `j2`, `j3`, the state; `Z0` is the uninitialised `Z`. -/
def lBlock (tiny s rt : ℝ) (nb M N j1 j1x j3 : Nat) (st : PSt K) (Z0 : Nat → Nat → K) : Nat × Nat × PSt K :=
  let j2 := min j3 (j1+nb)
  let (j2, j3, st) := moveLow rt j1x j2 j3 st
  let o := j2
  let (j2, st, Z) := lInner tiny s rt M o j1 (o-j1) j1 j2 st Z0
  let st := lUpdate s M N j1 j2 o st Z
  (j2, j3, putBack j2 (o-j2) j2 st)

/-- `while (j1 < j3)` (TMV_QRPDecompose.cpp:551-688): returns `j1`, `j3`, the state. -/
def lWhile (tiny s rt : ℝ) (nb M N : Nat) (Z0 : Nat → Nat → K) : Nat → Nat → Nat → Nat → PSt K → Option (Nat × Nat × PSt K)
  | 0, _, _, _, _ => none
  | f+1, j1, j1x, j3, st =>
    if j1 < j3 then
      let (j2, j3, st) := lBlock tiny s rt nb M N j1 j1x j3 st Z0
      lWhile tiny s rt nb M N Z0 f j2 j2 j3 st
    else some (j1, j3, st)

/-- Outer loop of `LooseBlockQRPDecompose` (TMV_QRPDecompose.cpp:502-697).  (The determinant is not changed here by the
swaps.) -/
def lOuter (tiny sqe s th : ℝ) (nb M N : Nat) (Z0 : Nat → Nat → K) : Nat → Nat → PSt K → Option (PSt K)
  | 0, _, _ => none
  | f+1, j1, st =>
    if j1 < N then
      let jp := argMax st.cn j1 (N-j1)
      let mx := st.cn jp
      if mx < th then some (zeroRest M N j1 st)
      else
        let st : PSt K := if jp ≠ j1 then { st with A := swapC st.A j1 jp, cn := swapV st.cn j1 jp, P := setP st.P j1 jp }
          else { st with P := setP st.P j1 j1 }
        let rt := N * sqe * mx
        let rt := if rt < th then th else rt
        match lWhile tiny s rt nb M N Z0 f j1 (j1+1) N st with
        | none => none
        | some (j1, j3, st) => lOuter tiny sqe s th nb M N Z0 f j1 (if j3 < N then recalc s M N j3 j3 st else st)
    else some st

/-- `if (det != 0) for i: if (P[i] != i) det = -det;` (TMV_QRPDecompose.cpp:699-701). -/
def signLoop (P : Nat → Nat) : Nat → Nat → K → K
  | 0, _, det => det
  | n+1, i, det => signLoop P n (i+1) (if P i ≠ i then -det else det)

/-- `LooseBlockQRPDecompose` (TMV_QRPDecompose.cpp:452-731). -/
def looseQRP (tiny eps sqe : ℝ) (nb M N : Nat) (A : Nat → Nat → K) (Z0 : Nat → Nat → K) (beta0 : Nat → K) (P0 : Nat → Nat) (det : K)
    (fuel : Nat) : Option (PSt K) :=
  let st := qrpInit M N A beta0 P0 det
  (lOuter tiny sqe (qrpScale M N A) (qrpThresh eps N st.cn) nb M N Z0 fuel 0 st).map fun st =>
    if st.det ≠ 0 then { st with det := signLoop st.P N 0 st.det } else st

/-- `StrictBlockQRPDecompose` (TMV_QRPDecompose.cpp:225-402). -/
def strictQRP (tiny eps sqe : ℝ) (nb M N : Nat) (A : Nat → Nat → K) (Z0 : Nat → Nat → K) (beta0 : Nat → K) (P0 : Nat → Nat) (det : K)
    (fuel : Nat) : Option (PSt K) :=
  let st := qrpInit M N A beta0 P0 det
  sbOuter tiny sqe (qrpScale M N A) (qrpThresh eps N st.cn) nb M N fuel 0 0 st Z0

/-- `QRP_Decompose(A,beta,P,det,strict)` (TMV_QRPDecompose.cpp:1060-1097 with `NonLapQRPDecompose`, 735-760).  `Z0`, `beta0`,
`P0` are the (irrelevant) previous contents of the work arrays. -/
def qrp (tiny eps sqe : ℝ) (strict : Bool) (nb M N : Nat) (A : Nat → Nat → K) (Z0 : Nat → Nat → K) (beta0 : Nat → K) (P0 : Nat → Nat)
    (det : K) (fuel : Nat) : Option (PSt K) :=
  if N > 0 then
    if N > nb then
      if strict = true then strictQRP tiny eps sqe nb M N A Z0 beta0 P0 det fuel
      else looseQRP tiny eps sqe nb M N A Z0 beta0 P0 det fuel
    else some (nonBlockQRP tiny eps sqe strict M N A beta0 P0 det)
  else some ⟨A, beta0, P0, fun _ => 0, det⟩

/-- `QRP_Decompose(Q,R,P,strict)` (TMV_QRPDecompose.cpp:1139-1174): new `Q`, `R` (upper triangle), `P`.  `nbu` is the block size of
`GetQFromQR`; `beta0`, `P0`, `Z0`, `Z1` are previous contents of work arrays. -/
def qrpUnpacked (tiny eps sqe : ℝ) (strict : Bool) (nb nbu M N : Nat) (A Z0 Z1 : Nat → Nat → K) (beta0 : Nat → K) (P0 : Nat → Nat)
    (fuel : Nat) : Option ((Nat → Nat → K) × (Nat → Nat → K) × (Nat → Nat)) :=
  (qrp tiny eps sqe strict nb M N A Z0 beta0 P0 0 fuel).map fun r =>
    (getQ nbu M N r.beta Z1 r.A, fun i j => if i ≤ j then r.A i j else 0, r.P)

end
end TMV.QR
