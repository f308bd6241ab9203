import Verif.Model.Vec
import Mathlib.Analysis.RCLike.Basic
import Mathlib.Analysis.Complex.Basic

/-! Scalar division helpers (include/tmv/TMV_Base.h) and Givens rotations (src/TMV_Givens.cpp,
include/tmv/TMV_Givens.h).  Numbers are exact real or complex numbers; `eps ≥ 0` stands for
`std::numeric_limits<RT>::epsilon()`. -/
namespace TMV
noncomputable section
open Classical

/-! ### Complex reciprocal -/

/-- `TMV_InverseOf(std::complex<T>)` (include/tmv/TMV_Base.h:722-744); in the last branch (`0/0`) the model gives 0. -/
def inverseOfC (x : ℂ) : ℂ :=
  if |x.re| > |x.im| then
    let xi := x.im / x.re
    let denom := x.re * (1 + xi * xi)
    ⟨1 / denom, -xi / denom⟩
  else if |x.im| > 0 then
    let xr := x.re / x.im
    let denom := x.im * (1 + xr * xr)
    ⟨xr / denom, -1 / denom⟩
  else 0

/-- `TMV_Divide(complex,complex)` (TMV_Base.h:751-753). -/
def divideCC (x y : ℂ) : ℂ := x * inverseOfC y
/-- `TMV_Divide(T,complex)` (TMV_Base.h:747-749). -/
def divideRC (x : ℝ) (y : ℂ) : ℂ := x * inverseOfC y
/-- `TMV_Divide(complex,T)` (TMV_Base.h:709-716). -/
def divideCR (x : ℂ) (y : ℝ) : ℂ := ⟨x.re / y, x.im / y⟩

/-- `TMV_SIGN(T,T)` for real numbers (TMV_Base.h:755-757). -/
def signR (x _absx : ℝ) : ℝ := if x > 0 then 1 else -1
/-- `TMV_SIGN(complex,T)` (TMV_Base.h:759-761). -/
def signC (x : ℂ) (absx : ℝ) : ℂ := if absx > 0 then divideCR x absx else 1

/-! ### Givens rotations -/

variable {K : Type} [RCLike K]

/-- `TMV_MAXABS` (TMV_Givens.h:113-120); for a real number `im = 0`. -/
def maxAbs (x : K) : ℝ := max |RCLike.re x| |RCLike.im x|

/-- `Givens<T>`: the data members `c`, `s` (TMV_Givens.h:228-231). -/
structure Givens (K : Type) where
  c : ℝ
  s : K

/-- `GivensRotate(x,y)` (TMV_Givens.cpp:39-122): the new `x`, `y` and the returned rotation.  `sgn` is `TMV_SIGN`
of the element type. -/
def givensRotate (eps : ℝ) (sgn : K → ℝ → K) (x y : K) : K × K × Givens K :=
  if maxAbs y = 0 then (x, 0, ⟨1, 0⟩)
  else if maxAbs x = 0 then (((‖y‖ : ℝ) : K), 0, ⟨0, sgn (star y) ‖y‖⟩)
  else if maxAbs x > maxAbs y then
    if maxAbs y ≤ Real.sqrt eps * maxAbs x then (x, 0, ⟨1, star y / star x⟩)
    else
      let yoverx := y / x
      let n := RCLike.normSq yoverx
      let f := Real.sqrt (1 + n)
      let c := 1 / f
      (x + x * ((n / (1 + f) : ℝ) : K), 0, ⟨c, star yoverx * (c : K)⟩)
  else
    let xovery := x / y
    let n := RCLike.normSq xovery
    let a := Real.sqrt n
    if n ≤ eps then
      let s := sgn xovery a
      (s * y, 0, ⟨a, s⟩)
    else
      let f := Real.sqrt (1 + n)
      let inv := 1 / f
      let sg := sgn xovery a
      (y * sg * (f : K), 0, ⟨a * inv, sg * (inv : K)⟩)

/-- `GivensMult(c,s,x,y)` on scalars (TMV_Givens.cpp:127-136): the new `(x,y)`. -/
def givensMult (c : ℝ) (s : K) (x y : K) : K × K :=
  ((c : K) * x + s * y, (c : K) * y - star s * x)

namespace Givens
/-- `transpose()` (TMV_Givens.h:164-165). -/
def transpose (g : Givens K) : Givens K := ⟨g.c, -star g.s⟩
/-- `conjugate()` (TMV_Givens.h:167-168). -/
def conjugate (g : Givens K) : Givens K := ⟨g.c, star g.s⟩
/-- `adjoint()` (TMV_Givens.h:170-171). -/
def adjoint (g : Givens K) : Givens K := ⟨g.c, -g.s⟩
/-- `mult(x,y)` (TMV_Givens.h:173-175). -/
def mult (g : Givens K) (x y : K) : K × K := givensMult g.c g.s x y
/-- `conjMult(x,y)` (TMV_Givens.h:176-178). -/
def conjMult (g : Givens K) (x y : K) : K × K := givensMult g.c (star g.s) x y
/-- `mult(ConjRef,ConjRef)` (TMV_Givens.h:180-182, 133-136): works on the stored numbers behind the references;
given and returned here are the stored numbers. -/
def multRef (g : Givens K) (x y : K) : K × K := givensMult g.c (star g.s) x y
end Givens

/-- The loop of `NonBlasGivensMult` (TMV_Givens.cpp:160-193); both branches step through the stored elements.  The
template parameter `c0` (is `v1` conjugated?) is not used by the code. -/
def loopGivens (c : ℝ) (s : K) (s1 s2 : Int) : Nat → Int → Int → Mem K → Option (Mem K)
  | 0, _, _, m => some m
  | n+1, p1, p2, m => do
      let x ← m.read p1
      let y ← m.read p2
      let m ← m.write p2 (givensMult c s x y).2
      let m ← m.write p1 (givensMult c s x y).1
      loopGivens c s s1 s2 n (p1 + s1) (p2 + s2) m

/-- `DoGivensMult` (TMV_Givens.cpp:195-201). -/
def doGivensMult (c : ℝ) (s : K) (v1 v2 : VView) (m : Mem K) : Option (Mem K) :=
  loopGivens c s v1.step v2.step v1.size v1.ptr v2.ptr m

/-- `GivensMult(c,s,v1,v2)` on vectors (TMV_Givens.cpp:328-348). -/
def givensMultV (c : ℝ) (s : K) (v1 v2 : VView) (m : Mem K) : Option (Mem K) :=
  if v1.size > 0 ∧ s ≠ 0 then
    if _h : VView.shouldReverse v1.step v2.step = true then givensMultV c s v1.reverse v2.reverse m
    else if v2.conj then doGivensMult c (star s) v1.conjugate v2.conjugate m
    else doGivensMult c s v1 v2 m
  else some m
termination_by (VView.shouldReverse v1.step v2.step).toNat
decreasing_by simp [_h, VView.reverse, VView.shouldReverse_neg _ _ _h]

/-- `GivensHermMult(c,s,d0,d1,e0)` (TMV_Givens.cpp:353-375): the new `(d0,d1,e0)`. -/
def givensHermMult (c : ℝ) (s d0 d1 e0 : K) : K × K × K :=
  let re : ℝ := RCLike.re (s * e0)
  let d1md0 := d1 - d0
  let dd : K := ((2 * c * re : ℝ) : K) + (s * d1md0) * star s
  (d0 + dd, d1 - dd, e0 + star s * ((c : K) * d1md0 - ((2 * re : ℝ) : K)))

/-- `GivensSymMult(c,s,d0,d1,e0)` (TMV_Givens.cpp:376-396): the new `(d0,d1,e0)`; `real` = `isReal(T())`, the type
of `s`. -/
def givensSymMult (real : Bool) (c : ℝ) (s d0 d1 e0 : K) : K × K × K :=
  let se0 := s * e0
  let d1md0 := d1 - d0
  let dd := ((2 * c : ℝ) : K) * se0 + (s * d1md0) * s
  let d0' := d0 + dd
  let d1' := d1 - dd
  (d0', d1',
    if real then e0 + s * ((c : K) * d1md0 - 2 * se0)
    else e0 + ((c : K) * (s * d1' - star s * d0') - 2 * star s * se0))

end
end TMV
