import Verif.Model.Mem
import Mathlib.Algebra.Star.Basic
import Mathlib.Order.Defs.LinearOrder
import Mathlib.Algebra.Field.Defs

/-!
Vector views and the element loops of `Vector` / `VectorView`.
The library is modelled in its plain C++ configuration (no BLAS/LAPACK `#ifdef`s) and
with `TMVAssert` disabled (release build), so every function is described also on
inputs that the debug asserts would reject.
-/
namespace TMV

/-- `ConstVectorView`/`VectorView`: the four data members
`itsv/_v, itssize, itsstep, itsct` (include/tmv/TMV_Vector.h:560-620, 760-800). `Vector` is
the case `step = 1, conj = false`. -/
structure VView where
  ptr : Int
  size : Nat
  step : Int
  conj : Bool
deriving DecidableEq, Repr

variable {K : Type _}

/-- `TMV_CONJ` applied when the view is conjugated. -/
def cj [Star K] (c : Bool) (x : K) : K := if c then star x else x

namespace VView

/-- Address of element `i`: `cptr() + i*step()` (src/TMV_Vector.cpp:76, 83). -/
def addr (v : VView) (i : Int) : Int := v.ptr + i * v.step

/-- `GenVector::cref` (src/TMV_Vector.cpp:74-78). -/
def cref [Star K] (v : VView) (m : Mem K) (i : Int) : Option K :=
  (m.read (v.addr i)).map (cj v.conj)

/-- `v.ref(i) = x` (src/TMV_Vector.cpp:80-85 and `VarConjRef::operator=`,
include/tmv/TMV_VIt.h: assignment stores `conj(x)` through a conjugated reference). -/
def setRef [Star K] (v : VView) (i : Int) (x : K) (m : Mem K) : Option (Mem K) :=
  m.write (v.addr i) (cj v.conj x)

/-! ### Sub-views -/

/-- `GenVector::hasSubVector(i1,i2,istep)` (src/TMV_Vector.cpp:90-119).  Every test
is evaluated in order as in the code; `%` and `/` are C++ truncated division, and
`x % 0` is undefined behaviour (`none`). -/
def hasSubVector (v : VView) (i1 i2 istep : Int) : Option Bool :=
  if i1 = i2 then some true else
  let ok := true
  let ok := if istep = 0 then false else ok
  let ok := if i1 < 0 ∨ i1 ≥ v.size then false else ok
  let ok := if i2 - istep < 0 ∨ i2 - istep ≥ v.size then false else ok
  if istep = 0 then none else          -- evaluates (i2-i1)%istep: division by zero
  let ok := if (i2 - i1).tmod istep ≠ 0 then false else ok
  let ok := if (i2 - i1).tdiv istep < 0 then false else ok
  some ok

/-- `ConstVectorView<T,FortranStyle>::hasSubVector` (src/TMV_Vector.cpp:121-151). -/
def hasSubVectorF (v : VView) (i1 i2 istep : Int) : Option Bool :=
  if i1 = i2 then some true else
  let ok := true
  let ok := if istep = 0 then false else ok
  let ok := if i1 < 1 ∨ i1 > v.size then false else ok
  let ok := if i2 < 1 ∨ i2 > v.size then false else ok
  if istep = 0 then none else
  let ok := if (i2 - i1).tmod istep ≠ 0 then false else ok
  let ok := if (i2 - i1).tdiv istep < 0 then false else ok
  some ok

/-- `cSubVector(i1,i2,istep)` (include/tmv/TMV_Vector.h:413-417).  A negative count
(rejected by the check) is stored as 0 here. -/
def subVector (v : VView) (i1 i2 istep : Int) : VView :=
  ⟨v.ptr + i1 * v.step, ((i2 - i1).tdiv istep).toNat, istep * v.step, v.conj⟩

/-- `cSubVector(i1,i2,istep)` including the undefined behaviour of `(i2-i1)/istep` for
`istep == 0` (include/tmv/TMV_Vector.h:413-417). -/
def cSubVector (v : VView) (i1 i2 istep : Int) : Option VView :=
  if istep = 0 then none else some (v.subVector i1 i2 istep)

/-- `cSubVector(i1,i2)` (include/tmv/TMV_Vector.h:404-405). -/
def subVector2 (v : VView) (i1 i2 : Int) : VView :=
  ⟨v.ptr + i1 * v.step, (i2 - i1).toNat, v.step, v.conj⟩

/-- Fortran-style `subVector(i1,i2,istep)` (include/tmv/TMV_Vector.h:668-673). -/
def subVectorF (v : VView) (i1 i2 istep : Int) : VView :=
  v.subVector (i1 - 1) (i2 - 1 + istep) istep

/-- Fortran-style `subVector(i1,i2)` (include/tmv/TMV_Vector.h:662-666). -/
def subVector2F (v : VView) (i1 i2 : Int) : VView := v.subVector2 (i1 - 1) i2

/-- `reverse()` (include/tmv/TMV_Vector.h:425-429). -/
def reverse (v : VView) : VView := ⟨v.ptr + (v.size - 1) * v.step, v.size, -v.step, v.conj⟩

/-- `conjugate()` (include/tmv/TMV_Vector.h:440-445). -/
def conjugate (v : VView) : VView := ⟨v.ptr, v.size, v.step, !v.conj⟩

/-- `isSameAs` (include/tmv/TMV_Vector.h:390-396); object identity implies the second
disjunct. -/
def isSameAs (v w : VView) : Bool := decide (v = w)

end VView

/-! ### Loops over pointers -/

/-- `for(i=n;i>0;--i,p+=s) *p = f(*p);` -/
def loopMod (f : K → K) (s : Int) : Nat → Int → Mem K → Option (Mem K)
  | 0, _, m => some m
  | n+1, p, m => do
      let m' ← m.modify p f
      loopMod f s n (p + s) m'

/-- `for(i=n;i>0;--i,p+=s) *p = x;` (also `std::fill_n` with `s = 1`). -/
def loopFill (x : K) (s : Int) : Nat → Int → Mem K → Option (Mem K)
  | 0, _, m => some m
  | n+1, p, m => do
      let m' ← m.write p x
      loopFill x s n (p + s) m'

/-- `for(i=n;i>0;--i,p+=s) acc = g(acc,*p);` -/
def loopFold {β : Type _} (g : β → K → β) (s : Int) : Nat → Int → Mem K → β → Option β
  | 0, _, _, b => some b
  | n+1, p, m, b => do
      let x ← m.read p
      loopFold g s n (p + s) m (g b x)

/-- `for(i=n;i>0;--i,p1+=s1,p2+=s2) f(*p1,*p2)` where the body replaces the pair
`(*p1,*p2)` by `(g y, g x)` in the order of `TMV_SWAP` / `conjswap`. -/
def loopSwap (g : K → K) (s1 s2 : Int) : Nat → Int → Int → Mem K → Option (Mem K)
  | 0, _, _, m => some m
  | n+1, p1, p2, m => do
      let x ← m.read p1
      let y ← m.read p2
      let m ← m.write p1 (g y)
      let m ← m.write p2 (g x)
      loopSwap g s1 s2 n (p1 + s1) (p2 + s2) m

/-- `for(i=n;i>0;--i,p1+=s1,p2+=s2) *p2 = *p1;` -/
def loopCopy (s1 s2 : Int) : Nat → Int → Int → Mem K → Option (Mem K)
  | 0, _, _, m => some m
  | n+1, p1, p2, m => do
      let x ← m.read p1
      let m ← m.write p2 x
      loopCopy s1 s2 n (p1 + s1) (p2 + s2) m

/-- `for(i=n;i>0;--i,p1+=s1,p2+=s2) if (*p1 != g(*p2)) return false; return true;` -/
def loopEq [DecidableEq K] (g : K → K) (s1 s2 : Int) :
    Nat → Int → Int → Mem K → Option Bool
  | 0, _, _, _ => some true
  | n+1, p1, p2, m => do
      let x ← m.read p1
      let y ← m.read p2
      if x ≠ g y then return false
      loopEq g s1 s2 n (p1 + s1) (p2 + s2) m

namespace VView

/-! ### In-place operations -/

/-- `VectorView::setAllTo` (src/TMV_Vector.cpp:928-963), the part reached with
`step() >= 0`. -/
def setAllToNonneg [Star K] (v : VView) (x : K) (m : Mem K) : Option (Mem K) :=
  if v.step = 0 then m.write v.ptr x
  else if v.step = 1 then loopFill x 1 v.size v.ptr m
  else if v.conj then loopFill (star x) v.step v.size v.ptr m
  else loopFill x v.step v.size v.ptr m

/-- `VectorView::setAllTo` (src/TMV_Vector.cpp:928-963). -/
def setAllTo [Star K] (v : VView) (x : K) (m : Mem K) : Option (Mem K) :=
  if v.step < 0 then v.reverse.setAllToNonneg x m else v.setAllToNonneg x m

/-- `VectorView::setZero` (src/TMV_Vector.cpp:880-886). -/
def setZero [Star K] [Zero K] (v : VView) (m : Mem K) : Option (Mem K) :=
  if v.step = 1 then loopFill 0 1 v.size v.ptr m else v.setAllTo 0 m

/-- `VectorView::addToAll` (src/TMV_Vector.cpp:972-996), `step() >= 0`. -/
def addToAllNonneg [Star K] [Add K] (v : VView) (x : K) (m : Mem K) : Option (Mem K) :=
  if v.step = 0 then m.modify v.ptr (· + x)
  else if v.conj then
    if v.step = 1 then loopMod (· + star x) 1 v.size v.ptr m
    else loopMod (· + star x) v.step v.size v.ptr m
  else
    if v.step = 1 then loopMod (· + x) 1 v.size v.ptr m
    else loopMod (· + x) v.step v.size v.ptr m

/-- `VectorView::addToAll` (src/TMV_Vector.cpp:972-996). -/
def addToAll [Star K] [Add K] (v : VView) (x : K) (m : Mem K) : Option (Mem K) :=
  if v.step < 0 then v.reverse.addToAllNonneg x m else v.addToAllNonneg x m

/-- `VectorView::clip` (src/TMV_Vector.cpp:895-915), `step() >= 0`; `abs` is `TMV_ABS`. -/
def clipNonneg {R : Type _} [LT R] [DecidableLT R] [Zero K] (abs : K → R)
    (v : VView) (thresh : R) (m : Mem K) : Option (Mem K) :=
  if v.step = 0 then m.modify v.ptr (fun x => if abs x < thresh then 0 else x)
  else if v.step = 1 then
    loopMod (fun x => if abs x < thresh then 0 else x) 1 v.size v.ptr m
  else loopMod (fun x => if abs x < thresh then 0 else x) v.step v.size v.ptr m

/-- `VectorView::clip` (src/TMV_Vector.cpp:895-915).  Simplification: an element that is
not below the threshold is rewritten with its own value instead of being left alone. -/
def clip {R : Type _} [LT R] [DecidableLT R] [Zero K] (abs : K → R)
    (v : VView) (thresh : R) (m : Mem K) : Option (Mem K) :=
  if v.step < 0 then v.reverse.clipNonneg abs thresh m else v.clipNonneg abs thresh m

/-- `NonLapConjugate` (src/TMV_Vector.cpp:1008-1027).  The code negates the imaginary
component in memory, i.e. replaces `*p` by its complex conjugate `star`. -/
def nonLapConjugate [Star K] (v : VView) (m : Mem K) : Option (Mem K) :=
  if v.step = 1 then loopMod star 1 v.size v.ptr m
  else if v.step = 0 then m.modify v.ptr star
  else loopMod star v.step v.size v.ptr m

/-- `VectorView::conjugateSelf` (src/TMV_Vector.cpp:1051-1063). -/
def conjugateSelf [Star K] (v : VView) (m : Mem K) : Option (Mem K) :=
  if v.step < 0 then v.reverse.nonLapConjugate m else v.nonLapConjugate m

/-- `VectorView::DoBasis` (src/TMV_Vector.cpp:1074-1082) = `makeBasis(i)`. -/
def makeBasis [Star K] [Zero K] [One K] (v : VView) (i : Int) (m : Mem K) :
    Option (Mem K) := do
  let m ← v.setZero m
  v.setRef i 1 m

/-- `VectorView::DoSwap(i1,i2)` (src/TMV_Vector.cpp:1099-1111) = `v.swap(i1,i2)`. -/
def swap (v : VView) (i1 i2 : Int) (m : Mem K) : Option (Mem K) :=
  if i1 ≠ i2 then
    if v.step = 1 then m.swap (v.ptr + i1) (v.ptr + i2)
    else m.swap (v.ptr + i1 * v.step) (v.ptr + i2 * v.step)
  else some m

/-- Loop of `DoPermute`: `n` iterations starting at `i`. -/
def permuteLoop (v : VView) (p : Nat → Nat) : Nat → Nat → Mem K → Option (Mem K)
  | 0, _, m => some m
  | n+1, i, m => do
      let m ← v.swap i (p i) m
      permuteLoop v p n (i+1) m

/-- `VectorView::DoPermute(p,i1,i2)` (src/TMV_Vector.cpp:1125-1134). -/
def permute (v : VView) (p : Nat → Nat) (i1 i2 : Nat) (m : Mem K) : Option (Mem K) :=
  permuteLoop v p (i2 - i1) i1 m

/-- Loop of `DoReversePermute`: `for(i=i1+n;i>i1;) { --i; DoSwap(i,p[i]); }`. -/
def reversePermuteLoop (v : VView) (p : Nat → Nat) (i1 : Nat) : Nat → Mem K → Option (Mem K)
  | 0, m => some m
  | n+1, m => do
      let m ← v.swap (i1 + n : Nat) (p (i1 + n)) m
      reversePermuteLoop v p i1 n m

/-- `VectorView::DoReversePermute(p,i1,i2)` (src/TMV_Vector.cpp:1136-1145). -/
def reversePermute (v : VView) (p : Nat → Nat) (i1 i2 : Nat) (m : Mem K) : Option (Mem K) :=
  reversePermuteLoop v p i1 (i2 - i1) m

/-- Inner loop of `reverseSelf`: `for(;p2>p1;p1+=s,p2-=s) TMV_SWAP(*p1,*p2);`.
The trip count is bounded by the distance of the pointers. -/
def reverseLoop (s : Int) : Nat → Int → Int → Mem K → Option (Mem K)
  | 0, p1, p2, m => if p2 > p1 then none else some m
  | fuel+1, p1, p2, m =>
      if p2 > p1 then do
        let m ← m.swap p1 p2
        reverseLoop s fuel (p1 + s) (p2 - s) m
      else some m

/-- `VectorView::reverseSelf` (src/TMV_Vector.cpp:1147-1160), `step() >= 0`.  The loop
gets `size` iterations of fuel; running out of fuel would be the outcome `none`. -/
def reverseSelfNonneg (v : VView) (m : Mem K) : Option (Mem K) :=
  if v.step > 0 then
    if v.step = 1 then reverseLoop 1 v.size v.ptr (v.ptr + v.size - 1) m
    else reverseLoop v.step v.size v.ptr (v.ptr + v.step * (v.size - 1)) m
  else some m

/-- `VectorView::reverseSelf` (src/TMV_Vector.cpp:1147-1160). -/
def reverseSelf (v : VView) (m : Mem K) : Option (Mem K) :=
  if v.step < 0 then v.reverse.reverseSelfNonneg m else v.reverseSelfNonneg m

/-! ### Copy, Swap, == -/

/-- `shouldReverse` (include/tmv/TMV_Vector.h:1985-1989). -/
def shouldReverse (step1 step2 : Int) : Bool :=
  (decide (step2 < 0) && (decide (step1 ≠ 1) || decide (step2 = -1))) ||
    (decide (step1 = -1) && decide (step2 ≠ 1))

/-- The recursion in `Copy`/`Swap` re-enters at most once. -/
theorem shouldReverse_neg (s1 s2 : Int) (h : shouldReverse s1 s2 = true) :
    shouldReverse (-s1) (-s2) = false := by
  simp [shouldReverse] at *
  omega

/-- `DoCopy`/`DoCopySameType` (include/tmv/TMV_Vector.h:1994-1996,
src/TMV_Vector.cpp:1302-1328). -/
def doCopy (v1 v2 : VView) (m : Mem K) : Option (Mem K) :=
  if v1.isSameAs v2 then some m
  else if v1.step = 1 ∧ v2.step = 1 then loopCopy 1 1 v2.size v1.ptr v2.ptr m
  else loopCopy v1.step v2.step v2.size v1.ptr v2.ptr m

/-- `Copy(v1,v2)` (include/tmv/TMV_Vector.h:2045-2073), i.e. `v2 = v1`. -/
def copy [Star K] (v1 v2 : VView) (m : Mem K) : Option (Mem K) :=
  if v1.size > 0 then
    if _h : shouldReverse v1.step v2.step = true then
      copy v1.reverse v2.reverse m
    else if v1.conj then
      if v2.conj then doCopy v1.conjugate v2.conjugate m
      else do
        let m ← doCopy v1.conjugate v2 m
        v2.conjugateSelf m
    else if v2.conj then do
        let m ← doCopy v1 v2.conjugate m
        v2.conjugateSelf m
    else doCopy v1 v2 m
  else some m
termination_by (shouldReverse v1.step v2.step).toNat
decreasing_by simp [_h, reverse, shouldReverse_neg _ _ _h]

/-- `DoSwap` (src/TMV_Vector.cpp:1403-1428). -/
def doSwap [Star K] (v1 v2 : VView) (m : Mem K) : Option (Mem K) :=
  if v1.conj then
    if v1.step = 1 ∧ v2.step = 1 then loopSwap star 1 1 v2.size v1.ptr v2.ptr m
    else loopSwap star v1.step v2.step v2.size v1.ptr v2.ptr m
  else
    if v1.step = 1 ∧ v2.step = 1 then loopSwap id 1 1 v2.size v1.ptr v2.ptr m
    else loopSwap id v1.step v2.step v2.size v1.ptr v2.ptr m

/-- `Swap(v1,v2)` (src/TMV_Vector.cpp:1485-1499). -/
def swapV [Star K] (v1 v2 : VView) (m : Mem K) : Option (Mem K) :=
  if v1.size > 0 ∧ ¬ v2.isSameAs v1 then
    if _h : shouldReverse v1.step v2.step = true then
      swapV v1.reverse v2.reverse m
    else if v2.conj then doSwap v1.conjugate v2.conjugate m
    else doSwap v1 v2 m
  else some m
termination_by (shouldReverse v1.step v2.step).toNat
decreasing_by simp [_h, reverse, shouldReverse_neg _ _ _h]

/-- `operator==(v1,v2)` (src/TMV_Vector.cpp:1504-1534). -/
def eqV [Star K] [DecidableEq K] (v1 v2 : VView) (m : Mem K) : Option Bool :=
  if v1.size ≠ v2.size then some false
  else if v2.isSameAs v1 then some true
  else if v1.conj = v2.conj then
    if v1.step = 1 ∧ v2.step = 1 then loopEq id 1 1 v2.size v1.ptr v2.ptr m
    else loopEq id v1.step v2.step v2.size v1.ptr v2.ptr m
  else
    if v1.step = 1 ∧ v2.step = 1 then loopEq star 1 1 v2.size v1.ptr v2.ptr m
    else loopEq star v1.step v2.step v2.size v1.ptr v2.ptr m

/-! ### Reductions -/

/-- `sumElements` (src/TMV_Vector.cpp:279-300), `step() >= 0`. -/
def sumElementsNonneg [Star K] [Semiring K] (v : VView) (m : Mem K) : Option K :=
  if v.size = 0 then some 0
  else if v.step = 1 then
    (loopFold (· + ·) 1 v.size v.ptr m 0).map (cj v.conj)
  else if v.step = 0 then do
    let x ← m.read v.ptr
    some ((v.size : K) * x)
  else (loopFold (· + ·) v.step v.size v.ptr m 0).map (cj v.conj)

/-- `sumElements` (src/TMV_Vector.cpp:279-300). -/
def sumElements [Star K] [Semiring K] (v : VView) (m : Mem K) : Option K :=
  if v.step < 0 then v.reverse.sumElementsNonneg m else v.sumElementsNonneg m

/-- `normSq(scale)` (src/TMV_Vector.cpp:156-187), `step() >= 0`; `nrm` is `TMV_NORM`
(|x|²) and `scal` the multiplication of an element by a real.  Simplification: the
`flatten()` shortcut for contiguous complex vectors (sum of squares of the real and
imaginary parts) is identified with the sum of `TMV_NORM`. -/
def normSqNonneg {R : Type _} [Semiring R] [DecidableEq R] (nrm : K → R) (scal : R → K → K)
    (scale : R) (v : VView) (m : Mem K) : Option R :=
  if v.size = 0 then some 0
  else if v.step = 1 then
    if scale = 1 then loopFold (fun b x => b + nrm x) 1 v.size v.ptr m 0
    else loopFold (fun b x => b + nrm (scal scale x)) 1 v.size v.ptr m 0
  else if v.step = 0 then do
    let x ← m.read v.ptr
    some ((v.size : R) * nrm (scal scale x))
  else
    if scale = 1 then loopFold (fun b x => b + nrm x) v.step v.size v.ptr m 0
    else loopFold (fun b x => b + nrm (scal scale x)) v.step v.size v.ptr m 0

/-- `normSq(scale)` (src/TMV_Vector.cpp:156-187). -/
def normSq {R : Type _} [Semiring R] [DecidableEq R] (nrm : K → R) (scal : R → K → K)
    (scale : R) (v : VView) (m : Mem K) : Option R :=
  if v.step < 0 then v.reverse.normSqNonneg nrm scal scale m
  else v.normSqNonneg nrm scal scale m

/-- `sumAbsElements` / `sumAbs2Elements` (src/TMV_Vector.cpp:302-314, 389-411); `ab` is
`TMV_ABS` resp. `TMV_ABS2`. -/
def sumAbs {R : Type _} [Semiring R] (ab : K → R) (v : VView) (m : Mem K) : Option R :=
  if v.size = 0 then some 0
  else if v.step > 0 then loopFold (fun b x => b + ab x) v.step v.size v.ptr m 0
  else if v.step < 0 then
    loopFold (fun b x => b + ab x) v.reverse.step v.reverse.size v.reverse.ptr m 0
  else do
    let x ← m.read v.ptr
    some ((v.size : R) * ab x)

/-- Search loop of `FindMinElement` and its five siblings (src/TMV_Vector.cpp:417-597):
`n` remaining elements at `p`, current index `i`, best value `b` at index `ib`;
`better new old` is the strict comparison of the code. -/
def findLoop {β : Type _} (val : K → β) (better : β → β → Bool) (s : Int) :
    Nat → Int → Int → Mem K → β → Int → Option (β × Int)
  | 0, _, _, _, b, ib => some (b, ib)
  | n+1, p, i, m, b, ib => do
      let x ← m.read p
      if better (val x) b then findLoop val better s n (p + s) (i + 1) m (val x) i
      else findLoop val better s n (p + s) (i + 1) m b ib

/-- `Find{Min,Max}{,Abs,Abs2}Element` (src/TMV_Vector.cpp:417-597); `fin` is the final
conjugation of the returned value (identity for the Abs variants). -/
def findBest {β : Type _} (val : K → β) (better : β → β → Bool) (fin : β → β) (v : VView)
    (m : Mem K) : Option (β × Int) := do
  let x ← m.read v.ptr
  let r ← findLoop val better v.step (v.size - 1) (v.ptr + v.step) 1 m (val x) 0
  some (fin r.1, r.2)

/-- `do{Min,Max}{,Abs,Abs2}Element` (src/TMV_Vector.cpp:735-867).  The returned pair is
(value, index).  `z` is `T(0)`.  In the `step()==0` branch the code returns
`*cptr()` without conjugation. -/
def doBest {β : Type _} (val : K → β) (better : β → β → Bool) (fin : β → β) (z : β)
    (v : VView) (m : Mem K) : Option (β × Int) :=
  if v.size = 0 then some (z, -1)
  else if v.step > 0 then v.findBest val better fin m
  else if v.step = 0 then do
    let x ← m.read v.ptr
    some (val x, 0)
  else do
    let r ← v.reverse.findBest val better fin m
    some (r.1, v.size - 1 - r.2)

/-- `minElement(&i)` (src/TMV_Vector.cpp:735-754, 417-445); `re` is `TMV_REAL`. -/
def minElement {R : Type _} [LT R] [DecidableLT R] [Star K] [Zero K] (re : K → R) (v : VView)
    (m : Mem K) : Option (K × Int) :=
  v.doBest id (fun new old => decide (re new < re old)) (cj v.conj) 0 m

/-- `maxElement(&i)` (src/TMV_Vector.cpp:755-775, 446-475). -/
def maxElement {R : Type _} [LT R] [DecidableLT R] [Star K] [Zero K] (re : K → R) (v : VView)
    (m : Mem K) : Option (K × Int) :=
  v.doBest id (fun new old => decide (re new > re old)) (cj v.conj) 0 m

/-- `minAbsElement(&i)` / `minAbs2Element(&i)` (src/TMV_Vector.cpp:777-798, 823-844, 506-535,
567-597); `ab` is `TMV_ABS` resp. `TMV_ABS2`. -/
def minAbs {R : Type _} [LT R] [DecidableLT R] [Zero R] (ab : K → R) (v : VView)
    (m : Mem K) : Option (R × Int) :=
  v.doBest ab (fun new old => decide (new < old)) id 0 m

/-- `maxAbsElement(&i)` / `maxAbs2Element(&i)` (src/TMV_Vector.cpp:799-821, 846-867, 476-505,
537-566). -/
def maxAbs {R : Type _} [LT R] [DecidableLT R] [Zero R] (ab : K → R) (v : VView)
    (m : Mem K) : Option (R × Int) :=
  v.doBest ab (fun new old => decide (new > old)) id 0 m

/-- The rescaling loop `while (vmax < eps2) { scale *= inveps; vmax *= inveps; }`
(src/TMV_Vector.cpp:212) resp. `while (vmax > inveps) { scale *= eps; vmax *= eps; }` (:224),
with `more` the loop condition and `f` the factor.  `none`: not finished within `fuel`. -/
def rescaleLoop {R : Type _} [Mul R] (more : R → Bool) (f : R) : Nat → R → R → Option R
  | 0, _, _ => none
  | fuel+1, scale, vmax =>
      if more vmax then rescaleLoop more f fuel (scale * f) (vmax * f) else some scale

/-- `DoNorm2` (src/TMV_Vector.cpp:195-229).  `uflow` is `TMV_Underflow`, `invZero x` the floating
point test `RT(1)/x == RT(0)`, both left arbitrary; `sqrt` is `TMV_SQRT`. -/
def doNorm2 {R : Type _} [Field R] [LT R] [DecidableLT R] [DecidableEq R] (eps : R)
    (uflow invZero : R → Bool) (sqrt : R → R) (ab2 nrm : K → R) (scal : R → K → K) (fuel : Nat)
    (v : VView) (m : Mem K) : Option R := do
  let vmax ← (v.maxAbs ab2 m).map (·.1)
  if vmax = 0 then return 0
  else if uflow (vmax * vmax) then do
    let inveps := 1 / eps
    let scale := inveps
    let vmax := vmax * scale
    let eps2 := eps * eps
    let scale ← rescaleLoop (fun x => decide (x < eps2)) inveps fuel scale vmax
    let s ← v.normSq nrm scal scale m
    return sqrt s / scale
  else if invZero vmax then return vmax
  else if invZero (vmax * vmax) then do
    let inveps := 1 / eps
    let scale := eps
    let vmax := vmax * scale
    let scale ← rescaleLoop (fun x => decide (x > inveps)) eps fuel scale vmax
    let s ← v.normSq nrm scal scale m
    return sqrt s / scale
  else do
    let s ← v.normSq nrm scal 1 m
    return sqrt s

/-- `norm2()` (src/TMV_Vector.cpp:267-273). -/
def norm2 {R : Type _} [Field R] [LT R] [DecidableLT R] [DecidableEq R] (eps : R)
    (uflow invZero : R → Bool) (sqrt : R → R) (ab2 nrm : K → R) (scal : R → K → K) (fuel : Nat)
    (v : VView) (m : Mem K) : Option R :=
  if v.size = 0 then some 0
  else if v.step < 0 then v.reverse.doNorm2 eps uflow invZero sqrt ab2 nrm scal fuel m
  else v.doNorm2 eps uflow invZero sqrt ab2 nrm scal fuel m

end VView
end TMV
