import Verif.Model.Vec
import Mathlib.Analysis.Complex.Basic

/-! Element references and iterators of views (include/tmv/TMV_VIt.h).  Complex numbers are exact (`ℂ`). -/
namespace TMV

noncomputable section
open Classical

/-- The operators `=`, `+=`, `-=`, `*=`, `/=` on complex numbers (old value, operand ↦ new value). -/
inductive AOp | set | add | sub | mul | div
deriving DecidableEq

/-- `val op= x` of `std::complex`. -/
def AOp.ap : AOp → ℂ → ℂ → ℂ
  | .set, _, x => x
  | .add, v, x => v + x
  | .sub, v, x => v - x
  | .mul, v, x => v * x
  | .div, v, x => v / x

/-- `VarConjRef<complex<T>>` (TMV_VIt.h:427-605): a location and a conjugation flag. -/
structure VRef where
  addr : Int
  conj : Bool
deriving DecidableEq

/-- `ConjRef<complex<T>>` (TMV_VIt.h:46-175): a location, always conjugated. -/
structure CRef where
  addr : Int
deriving DecidableEq

namespace VRef
/-- `operator CT` (TMV_VIt.h:439). -/
def toC (r : VRef) (m : Mem ℂ) : Option ℂ := (m.read r.addr).map fun v => if r.conj then star v else v
/-- `conj()` (441). -/
def conjVal (r : VRef) (m : Mem ℂ) : Option ℂ := (m.read r.addr).map fun v => if r.conj then v else star v
/-- `real()` (442). -/
def real (r : VRef) (m : Mem ℂ) : Option ℝ := (m.read r.addr).map fun v => v.re
/-- `imag()` (443-444). -/
def imag (r : VRef) (m : Mem ℂ) : Option ℝ := (m.read r.addr).map fun v => if r.conj then -v.im else v.im
/-- unary minus (445). -/
def neg (r : VRef) (m : Mem ℂ) : Option ℂ := (r.toC m).map fun v => -v
/-- `=, +=, -=, *=, /=` with a `VarConjRef` operand (447-448, 454-455, 473-474, 492-493, 511-512). -/
def assignRef (op : AOp) (r x : VRef) (m : Mem ℂ) : Option (Mem ℂ) := do
  let x2 ← m.read x.addr
  m.modify r.addr fun v => op.ap v (if r.conj = x.conj then x2 else star x2)
/-- the same with a complex operand (449-450, 456-457, 475-476, 494-495, 513-514). -/
def assignC (op : AOp) (r : VRef) (x : ℂ) (m : Mem ℂ) : Option (Mem ℂ) :=
  m.modify r.addr fun v => op.ap v (if r.conj then star x else x)
/-- the same with a real operand (451-452, 458-459, 477-478, 496-497, 515-516). -/
def assignR (op : AOp) (r : VRef) (x : ℝ) (m : Mem ℂ) : Option (Mem ℂ) :=
  m.modify r.addr fun v => op.ap v (x : ℂ)
/-- `==` with a `VarConjRef` (530-531). -/
def eqRef (r x : VRef) (m : Mem ℂ) : Option Bool := do
  let v ← m.read r.addr
  let x2 ← m.read x.addr
  pure (decide (v = if r.conj = x.conj then x2 else star x2))
/-- `==` with a complex number (532-533). -/
def eqC (r : VRef) (x : ℂ) (m : Mem ℂ) : Option Bool := do
  let v ← m.read r.addr
  pure (decide (v = if r.conj then star x else x))
/-- `==` with a real number (534-535). -/
def eqR (r : VRef) (x : ℝ) (m : Mem ℂ) : Option Bool := do
  let v ← m.read r.addr
  pure (decide (v.re = x) && decide (v.im = 0))
/-- `swapWith(CT&)` (551-558). -/
def swapC (r : VRef) (a : Int) (m : Mem ℂ) : Option (Mem ℂ) :=
  if r.addr = a then some m
  else do
    let temp ← m.read a
    let w ← r.toC m
    let m ← m.write a w
    r.assignC .set temp m
/-- `swapWith(VarConjRef)` (559-571). -/
def swapRef (r x : VRef) (m : Mem ℂ) : Option (Mem ℂ) :=
  if r.addr = x.addr then some m
  else if r.conj = x.conj then do
    let temp ← m.read x.addr
    let v ← m.read r.addr
    let m ← m.write x.addr v
    m.write r.addr temp
  else do
    let temp ← x.toC m
    let w ← r.toC m
    let m ← x.assignC .set w m
    r.assignC .set temp m
/-- `TMV_NORM(T(x))` (590-591). -/
def norm (r : VRef) (m : Mem ℂ) : Option ℝ := (r.toC m).map Complex.normSq
/-- `TMV_SQR(T(x))` (594-595). -/
def sqr (r : VRef) (m : Mem ℂ) : Option ℂ := (r.toC m).map fun v => v * v
end VRef

namespace CRef
/-- `operator CT` (TMV_VIt.h:56). -/
def toC (r : CRef) (m : Mem ℂ) : Option ℂ := (m.read r.addr).map star
/-- `conj()` (58). -/
def conjVal (r : CRef) (m : Mem ℂ) : Option ℂ := m.read r.addr
/-- `real()` (59). -/
def real (r : CRef) (m : Mem ℂ) : Option ℝ := (m.read r.addr).map fun v => v.re
/-- `imag()` (60). -/
def imag (r : CRef) (m : Mem ℂ) : Option ℝ := (m.read r.addr).map fun v => -v.im
/-- unary minus (61). -/
def neg (r : CRef) (m : Mem ℂ) : Option ℂ := (m.read r.addr).map fun v => -(star v)
/-- `=, +=, -=, *=, /=` with a `ConjRef` operand (63-64, 70-71, 89-90, 108-109, 127-128). -/
def assignRef (op : AOp) (r x : CRef) (m : Mem ℂ) : Option (Mem ℂ) := do
  let x2 ← m.read x.addr
  m.modify r.addr fun v => op.ap v x2
/-- the same with a complex operand (65-66, 72-73, 91-92, 110-111, 129-130). -/
def assignC (op : AOp) (r : CRef) (x : ℂ) (m : Mem ℂ) : Option (Mem ℂ) :=
  m.modify r.addr fun v => op.ap v (star x)
/-- the same with a real operand (67-68, 74-75, 93-94, 112-113, 131-132). -/
def assignR (op : AOp) (r : CRef) (x : ℝ) (m : Mem ℂ) : Option (Mem ℂ) :=
  m.modify r.addr fun v => op.ap v (x : ℂ)
/-- `+ - * /` of two `ConjRef`s (76-77, 95-96, 114-115, 133-134): `conj(val op x2.val)`. -/
def binRef (op : AOp) (r x : CRef) (m : Mem ℂ) : Option ℂ := do
  let v ← m.read r.addr
  let x2 ← m.read x.addr
  pure (star (op.ap v x2))
/-- `+ - * /` with a complex right operand (78-79, 97-98, 116-117, 135-136). -/
def binC (op : AOp) (r : CRef) (x : ℂ) (m : Mem ℂ) : Option ℂ := (m.read r.addr).map fun v => op.ap (star v) x
/-- `==` with a `ConjRef` (146-147). -/
def eqRef (r x : CRef) (m : Mem ℂ) : Option Bool := do
  let v ← m.read r.addr
  let x2 ← m.read x.addr
  pure (decide (v = x2))
/-- `==` with a complex number (148-149). -/
def eqC (r : CRef) (x : ℂ) (m : Mem ℂ) : Option Bool := (m.read r.addr).map fun v => decide (star v = x)
/-- `==` with a real number (150-151). -/
def eqR (r : CRef) (x : ℝ) (m : Mem ℂ) : Option Bool :=
  (m.read r.addr).map fun v => decide (v.re = x) && decide (v.im = 0)
/-- `swapWith(CT&)` (167-171). -/
def swapC (r : CRef) (a : Int) (m : Mem ℂ) : Option (Mem ℂ) := do
  let temp ← m.read a
  let v ← m.read r.addr
  let m ← m.write a (star v)
  m.write r.addr (star temp)
/-- `swapWith(ConjRef)` (172-176). -/
def swapRef (r x : CRef) (m : Mem ℂ) : Option (Mem ℂ) := do
  let temp ← m.read x.addr
  let v ← m.read r.addr
  let m ← m.write x.addr v
  m.write r.addr temp
/-- `TMV_NORM(x.conj())` (378-380). -/
def norm (r : CRef) (m : Mem ℂ) : Option ℝ := (r.conjVal m).map Complex.normSq
/-- `TMV_SQR(x.conj())` (384-386). -/
def sqr (r : CRef) (m : Mem ℂ) : Option ℂ := (r.conjVal m).map fun v => v * v
/-- `TMV_SQRT(x.conj())` (387-389), for a given square root function. -/
def sqrt (f : ℂ → ℂ) (r : CRef) (m : Mem ℂ) : Option ℂ := (r.conjVal m).map f
end CRef

end

/-- `VIt`, `CVIt`, `VarConjIter`, `CVarConjIter`: pointer, step, conjugation (TMV_VIt.h:203-370, 610-800).
For `VIt`/`CVIt` the conjugation is a template parameter. -/
structure It where
  p : Int
  s : Int
  conj : Bool
deriving DecidableEq

namespace It
/-- `begin()` of a view (include/tmv/TMV_Vector.h `RefHelper<T>::makeIter(ptr(),step(),ct())`). -/
def begin_ (v : VView) : It := ⟨v.ptr, v.step, v.conj⟩
/-- `end()`: `begin() + size()`. -/
def end_ (v : VView) : It := ⟨v.ptr + v.size * v.step, v.step, v.conj⟩
/-- `++it` (VIt 245, VarConjIter 656). -/
def incr (i : It) : It := { i with p := i.p + i.s }
/-- `--it` (VIt 246, VarConjIter 657). -/
def decr (i : It) : It := { i with p := i.p - i.s }
/-- `VIt::operator+=` (252), also `CVIt`. -/
def addEqV (i : It) (n : Int) : It := { i with p := i.p + n * i.s }
/-- `VIt::operator-=` (253). -/
def subEqV (i : It) (n : Int) : It := { i with p := i.p - n * i.s }
/-- `VarConjIter::operator+=` (663-664), also `CVarConjIter` (766-767): used by every vector and view of complex
elements. -/
def addEq (i : It) (n : Int) : It := if i.s = 1 then { i with p := i.p + 1 } else { i with p := i.p + n * i.s }
/-- `VarConjIter::operator-=` (665-666). -/
def subEq (i : It) (n : Int) : It := if i.s = 1 then { i with p := i.p - 1 } else { i with p := i.p - n * i.s }
/-- `it + n` (254-255 for VIt; 667-668 for VarConjIter). -/
def plus (i : It) (n : Int) : It := { i with p := if i.s = 1 then i.p + n else i.p + n * i.s }
/-- `it - n` (256-257; 669-670). -/
def minus (i : It) (n : Int) : It := { i with p := if i.s = 1 then i.p - n else i.p - n * i.s }
/-- `it2 - it1` (260-261; 672-677): division by the step (undefined for step 0). -/
def diff (i j : It) : Option Int :=
  if i.s = 1 then some (i.p - j.p) else if i.s = 0 then none else some ((i.p - j.p).tdiv i.s)
/-- `it1 < it2` (240-241; 631-632). -/
def lt (i j : It) : Bool := if i.s > 0 then i.p < j.p else i.p > j.p
/-- `it1 == it2` (236-237; 627-628). -/
def beq (i j : It) : Bool := i.p = j.p
/-- `*it` as a value (CVIt 322, CVarConjIter 757). -/
def deref {K : Type _} [Star K] (i : It) (m : Mem K) : Option K := (m.read i.p).map (cj i.conj)
/-- `it[n]` (263-264; 680-693). -/
def at_ {K : Type _} [Star K] (i : It) (n : Int) (m : Mem K) : Option K :=
  (m.read (if i.s = 1 then i.p + n else i.p + n * i.s)).map (cj i.conj)
/-- `*it = x` through the returned reference (44-45 of the reference classes). -/
def store {K : Type _} [Star K] (i : It) (x : K) (m : Mem K) : Option (Mem K) := m.write i.p (cj i.conj x)
end It

end TMV
