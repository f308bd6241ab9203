import Verif.Model.SmallProd
import Verif.Model.MatArith

/-! Sums of `SmallMatrix`es assigned to a `MatrixView` (include/tmv/TMV_SmallMatrixArith.h:919-1872), on the memory of `Model/Mem`.

A `SmallMatrix<T,M,N,S>` at address `p` is the view `MView.ofStor p M N S`.  Every `assignToM` tests whether the target is contiguous and
whether it starts at the address of an operand (`SameStorage`); it then calls the routines of TMV_SmallMatrixArithFunc.h on the arrays
(`Model/SmallProd`), otherwise the library's `AddMM` (`Model/MatArith`).

Simplifications: the arrays are read before the target is written (an operand that overlaps the target without starting at the same
address is outside the theorems); a dead address reads as 0 (outside the theorems as well).  Each class has the same code for a real
target without the two `isconj()` lines; it is the case of views that are not conjugated. -/
namespace TMV.SmallSum
noncomputable section
open TMV.SmallDiv TMV.SmallProd Classical

variable {K : Type} [RCLike K]

/-- The array at address `p`. -/
def arr (m : Mem K) (p : Int) : Nat → K := fun k => (m (p + k)).getD 0

/-- The memory after the array at address `p` has become `c`: every element that differs is written. -/
def put (m : Mem K) (p : Int) (c : Nat → K) : Mem K :=
  fun a => if p ≤ a ∧ c (a - p).toNat ≠ arr m p (a - p).toNat then some (c (a - p).toNat) else m a

/-- `kern(m0.ptr()); if (m0.isconj()) m0.conjugateSelf();` for a contiguous `m0`. -/
def onArray (M N : Nat) (kern : (Nat → K) → Nat → K) (m0 : MView) (m : Mem K) : Mem K :=
  let c := kern (arr m m0.ptr)
  put m m0.ptr (if m0.conj then conjSelf (M*N) c else c)

/-- The common shape of the `assignToM` of `Summm_1_1` ... `Summm` (e.g. lines 1012-1030): `kern rm` for a column-major (`rm = false`) or
row-major target, `AddMM(y1,m1,y2,m2,m0)` otherwise. -/
def summm (M N : Nat) (kern : Bool → (Nat → K) → (Nat → K) → (Nat → K) → Nat → K) (y1 y2 : K) (al : Alloc K)
    (m1 m2 m0 : MView) (m : Mem K) : Option (Mem K) :=
  if m0.si = 1 ∧ m0.sj = M ∧ !m0.sameStorage m1 ∧ !m0.sameStorage m2 then
    some (onArray M N (kern false (arr m m1.ptr) (arr m m2.ptr)) m0 m)
  else if m0.sj = 1 ∧ m0.si = N ∧ !m0.sameStorage m1 ∧ !m0.sameStorage m2 then
    some (onArray M N (kern true (arr m m1.ptr) (arr m m2.ptr)) m0 m)
  else MView.addMM3 al y1 m1 y2 m2 m0 m

section
variable (M N : Nat) (s1 s2 : Bool) (al : Alloc K) (p1 p2 : Int) (m0 : MView) (m : Mem K)

/-- `m0 = m1 + m2`: `Summm_1_1::assignToM` (lines 994-1030). -/
def assign_1_1 : Option (Mem K) :=
  summm M N (fun rm a1 a2 c => addMM1 M N s2 rm a2 (copy M N s1 rm a1 c)) 1 1 al (.ofStor p1 M N s1) (.ofStor p2 M N s2) m0 m

/-- `m0 = m1 - m2`: `Summm_1_m1::assignToM` (lines 1108-1142). -/
def assign_1_m1 : Option (Mem K) :=
  summm M N (fun rm a1 a2 c => addMMm1 M N s2 rm a2 (copy M N s1 rm a1 c)) 1 (-1) al (.ofStor p1 M N s1) (.ofStor p2 M N s2) m0 m

/-- `m0 = m1 + x2*m2`: `Summm_1_x::assignToM` (lines 1223-1261). -/
def assign_1_x (x2 : K) : Option (Mem K) :=
  summm M N (fun rm a1 a2 c => addMM1 M N s1 rm a1 (multXV (M*N) x2 (copy M N s2 rm a2 c))) 1 x2 al
    (.ofStor p1 M N s1) (.ofStor p2 M N s2) m0 m

/-- `m0 = x1*m1 + m2`: `Summm_x_1::assignToM` (lines 1343-1381). -/
def assign_x_1 (x1 : K) : Option (Mem K) :=
  summm M N (fun rm a1 a2 c => addMM1 M N s2 rm a2 (multXV (M*N) x1 (copy M N s1 rm a1 c))) x1 1 al
    (.ofStor p1 M N s1) (.ofStor p2 M N s2) m0 m

/-- `m0 = x1*m1 - m2`: `Summm_x_m1::assignToM` (lines 1463-1501).  The last branch is `AddMM(x1,m1.view(),T(1),m2.view(),m0)`. -/
def assign_x_m1 (x1 : K) : Option (Mem K) :=
  summm M N (fun rm a1 a2 c => addMMm1 M N s2 rm a2 (multXV (M*N) x1 (copy M N s1 rm a1 c))) x1 1 al
    (.ofStor p1 M N s1) (.ofStor p2 M N s2) m0 m

/-- `m0 = x1*m1 + x2*m2`: `Summm::assignToM` (lines 1583-1621). -/
def assign_x_x (x1 x2 : K) : Option (Mem K) :=
  summm M N (fun rm a1 a2 c => addMM M N s2 rm x2 a2 (multXV (M*N) x1 (copy M N s1 rm a1 c))) x1 x2 al
    (.ofStor p1 M N s1) (.ofStor p2 M N s2) m0 m

end

/-- The body shared by `SummM` and `SumMm` for contiguous arrays (lines 1650-1657, 1699-1707, 1774-1781 ...): copy the array `a` of
layout `sa` (conjugated if `cja`), scale it by `x`, add `y` times the array `b` of layout `sb`. -/
def sumBody (M N : Nat) (sa sb cja : Bool) (x y : K) (a b : Nat → K) (rm : Bool) (c : Nat → K) : Nat → K :=
  let c := copy M N sa rm a c
  let c := if cja then conjSelf (M*N) c else c
  let c := if x ≠ 1 then multXV (M*N) x c else c
  if y = 1 then addMM1 M N sb rm b c else addMM M N sb rm y b c

/-- The four inner branches on the target. -/
def sumTarget (M N : Nat) (body : Bool → (Nat → K) → Nat → K) (m0 : MView) (m : Mem K) (els : Option (Mem K)) : Option (Mem K) :=
  if m0.si = 1 ∧ m0.sj = M then some (onArray M N (body false) m0 m)
  else if m0.sj = 1 ∧ m0.si = N then some (onArray M N (body true) m0 m)
  else els

/-- `m0 = x1*m1 + x2*m2` with a `SmallMatrix` `m1` and any matrix `m2`: `SummM::assignToM` (lines 1691-1744, complex target).
The version for a real target (lines 1645-1690) starts with a copy of `m1` instead of `m2`: `assign_mM_real`. -/
def assign_mM (M N : Nat) (s1 : Bool) (al : Alloc K) (x1 : K) (p1 : Int) (x2 : K) (m2 m0 : MView) (m : Mem K) : Option (Mem K) :=
  let m1 := MView.ofStor p1 M N s1
  let gen := MView.addMM3 al x1 m1 x2 m2 m0 m
  if m2.si = 1 ∧ m2.sj = M ∧ !m0.sameStorage m1 ∧ !m0.sameStorage m2 then
    sumTarget M N (sumBody M N false s1 m2.conj x2 x1 (arr m m2.ptr) (arr m p1)) m0 m gen
  else if m2.sj = 1 ∧ m2.si = N ∧ !m0.sameStorage m1 ∧ !m0.sameStorage m2 then
    sumTarget M N (sumBody M N true s1 m2.conj x2 x1 (arr m m2.ptr) (arr m p1)) m0 m gen
  else gen

/-- `SummM::assignToM` for a real target (lines 1645-1690); `m2` and `m0` are not conjugated. -/
def assign_mM_real (M N : Nat) (s1 : Bool) (al : Alloc K) (x1 : K) (p1 : Int) (x2 : K) (m2 m0 : MView) (m : Mem K) : Option (Mem K) :=
  let m1 := MView.ofStor p1 M N s1
  let gen := MView.addMM3 al x1 m1 x2 m2 m0 m
  if m2.si = 1 ∧ m2.sj = M ∧ !m0.sameStorage m1 ∧ !m0.sameStorage m2 then
    sumTarget M N (sumBody M N s1 false false x1 x2 (arr m p1) (arr m m2.ptr)) m0 m gen
  else if m2.sj = 1 ∧ m2.si = N ∧ !m0.sameStorage m1 ∧ !m0.sameStorage m2 then
    sumTarget M N (sumBody M N s1 true false x1 x2 (arr m p1) (arr m m2.ptr)) m0 m gen
  else gen

/-- `m0 = x1*m1 + x2*m2` with any matrix `m1` and a `SmallMatrix` `m2`: `SumMm::assignToM` (lines 1769-1868).  The second test looks
at the steps of `m2`, not of `m1` (lines 1793, 1842). -/
def assign_Mm (M N : Nat) (s2 : Bool) (al : Alloc K) (x1 : K) (m1 : MView) (x2 : K) (p2 : Int) (m0 : MView) (m : Mem K) : Option (Mem K) :=
  let m2 := MView.ofStor p2 M N s2
  let gen := MView.addMM3 al x1 m1 x2 m2 m0 m
  if m1.si = 1 ∧ m1.sj = M ∧ !m0.sameStorage m1 ∧ !m0.sameStorage m2 then
    sumTarget M N (sumBody M N false s2 m1.conj x1 x2 (arr m m1.ptr) (arr m p2)) m0 m gen
  else if m2.sj = 1 ∧ m2.si = N ∧ !m0.sameStorage m1 ∧ !m0.sameStorage m2 then
    sumTarget M N (sumBody M N true s2 m1.conj x1 x2 (arr m m1.ptr) (arr m p2)) m0 m gen
  else gen

end
end TMV.SmallSum
