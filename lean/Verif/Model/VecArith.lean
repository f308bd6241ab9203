import Verif.Model.Vec
import Mathlib.Algebra.Ring.Defs
import Mathlib.Algebra.Star.Basic

/-!
Vector arithmetic: `v *= x`, `v2 = x*v1`, `v2 += x*v1`, `v3 = x1*v1 + x2*v2`, `v1*v2`, `ElemProd`
(src/TMV_MultXV.cpp, src/TMV_AddVV.cpp, src/TMV_MultVV.cpp, include/tmv/TMV_VectorArith.h), on the memory of
`Model/Mem`, in the configuration without BLAS.  Simplifications: one element type (the code also
mixes real and complex operands), exact arithmetic; the special treatment of a real factor of a complex
vector (`TMV_REAL(x)`, `flatten()`) performs the same multiplications and is not distinguished.
-/
namespace TMV
variable {K : Type _}

/-! ### Loops -/

/-- One statement `*p2 = f(*p1,*p2)`. -/
def step2 (f : K → K → K) (p1 p2 : Int) (m : Mem K) : Option (Mem K) :=
  (m.read p1).bind fun x => (m.read p2).bind fun y => m.write p2 (f x y)

/-- `for(i=n;i>0;--i,p1+=s1,p2+=s2) *p2 = f(*p1,*p2);` (src/TMV_AddVV.cpp:125-150,
src/TMV_MultXV.cpp:218-225). -/
def loop2 (f : K → K → K) (s1 s2 : Int) : Nat → Int → Int → Mem K → Option (Mem K)
  | 0, _, _, m => some m
  | n+1, p1, p2, m => (step2 f p1 p2 m).bind fun m => loop2 f s1 s2 n (p1 + s1) (p2 + s2) m

/-- The unrolled loop `for(i=N1;i>0;--i,p1+=4,p2+=4) { *p2 = ..; p2[1] = ..; p2[2] = ..; p2[3] = ..; }`
(src/TMV_AddVV.cpp:67-100, src/TMV_MultXV.cpp:198-208). -/
def loop2x4 (f : K → K → K) : Nat → Int → Int → Mem K → Option (Mem K)
  | 0, _, _, m => some m
  | n+1, p1, p2, m =>
      (step2 f p1 p2 m).bind fun m => (step2 f (p1+1) (p2+1) m).bind fun m =>
      (step2 f (p1+2) (p2+2) m).bind fun m => (step2 f (p1+3) (p2+3) m).bind fun m =>
      loop2x4 f n (p1 + 4) (p2 + 4) m

/-- The `s1==1 && s2==1` branch: `N1=N/4` unrolled iterations and `N2=N-4*N1` single ones
(src/TMV_AddVV.cpp:62-122, src/TMV_MultXV.cpp:195-216). -/
def unit2 (f : K → K → K) (N : Nat) (p1 p2 : Int) (m : Mem K) : Option (Mem K) :=
  let N1 := N / 4
  let N2 := N - 4 * N1
  (if N1 ≠ 0 then loop2x4 f N1 p1 p2 m else some m).bind fun m =>
  if N2 ≠ 0 then loop2 f 1 1 N2 (p1 + 4 * N1) (p2 + 4 * N1) m else some m

/-- The same for one pointer: `*vptr *= x` (src/TMV_MultXV.cpp:57-74). -/
def loopMod4 (f : K → K) : Nat → Int → Mem K → Option (Mem K)
  | 0, _, m => some m
  | n+1, p, m =>
      (m.modify p f).bind fun m => (m.modify (p+1) f).bind fun m =>
      (m.modify (p+2) f).bind fun m => (m.modify (p+3) f).bind fun m => loopMod4 f n (p + 4) m

namespace VView

/-! ### `v *= x` -/

/-- `DoMultXV(x,v)` (src/TMV_MultXV.cpp:44-85). -/
def doMulX [Mul K] (x : K) (v : VView) (m : Mem K) : Option (Mem K) :=
  if v.step = 1 then
    let N1 := v.size / 4
    let N2 := v.size - 4 * N1
    (if N1 ≠ 0 then loopMod4 (· * x) N1 v.ptr m else some m).bind fun m =>
    if N2 ≠ 0 then loopMod (· * x) 1 N2 (v.ptr + 4 * N1) m else some m
  else loopMod (· * x) v.step v.size v.ptr m

/-- `MultXV(x,v)`, i.e. `v *= x` (src/TMV_MultXV.cpp:141-172). -/
def mulX [Star K] [Mul K] [Zero K] [One K] [DecidableEq K] (x : K) (v : VView) (m : Mem K) :
    Option (Mem K) :=
  if v.size > 0 ∧ x ≠ 1 then
    if _h : v.step < 0 then mulX x v.reverse m
    else if _h : v.conj = true then mulX (star x) v.conjugate m
    else if x = 0 then v.setZero m
    else doMulX x v m
  else some m
termination_by (decide (v.step < 0)).toNat * 2 + v.conj.toNat
decreasing_by
  · rw [show decide (v.reverse.step < 0) = false by
        have : v.reverse.step = -v.step := rfl
        rw [this]; exact decide_eq_false (by omega),
      show decide (v.step < 0) = true by simpa using _h]
    show 0 * 2 + v.conj.toNat < 1 * 2 + v.conj.toNat
    omega
  · show (decide (v.step < 0)).toNat * 2 + (!v.conj).toNat < _
    rw [_h]; exact Nat.lt_succ_self _

/-! ### `v2 = x*v1` -/

/-- `DoMultXV<c1>(x,v1,v2)` (src/TMV_MultXV.cpp:174-226). -/
def doMulXV [Star K] [Mul K] (x : K) (v1 v2 : VView) (m : Mem K) : Option (Mem K) :=
  if v1.step = 1 ∧ v2.step = 1 then unit2 (fun a _ => x * cj v1.conj a) v1.size v1.ptr v2.ptr m
  else loop2 (fun a _ => x * cj v1.conj a) v1.step v2.step v1.size v1.ptr v2.ptr m

/-- `MultXV(x,v1,v2)`, i.e. `v2 = x*v1` (src/TMV_MultXV.cpp:228-297). -/
def mulXV [Star K] [Mul K] [Zero K] [One K] [DecidableEq K] (x : K) (v1 v2 : VView) (m : Mem K) :
    Option (Mem K) :=
  if v2.size > 0 then
    if _h : v2.conj = true then mulXV (star x) v1.conjugate v2.conjugate m
    else if v2.size = 1 then (m.read v1.ptr).bind fun a => m.write v2.ptr (x * cj v1.conj a)
    else if _h : shouldReverse v1.step v2.step = true then mulXV x v1.reverse v2.reverse m
    else if x = 0 then v2.setZero m
    else if x = 1 then copy v1 v2 m
    else if v1.step = 0 then (m.read v1.ptr).bind fun a => v2.setAllTo (x * cj v1.conj a) m
    else if v2.isSameAs v1 then mulX x v2 m
    else doMulXV x v1 v2 m
  else some m
termination_by v2.conj.toNat * 2 + (shouldReverse v1.step v2.step).toNat
decreasing_by
  · simp only [conjugate, _h]; rw [show (!true).toNat = 0 from rfl, show true.toNat = 1 from rfl]; omega
  · simp [_h, reverse, shouldReverse_neg _ _ _h]

/-! ### `v2 += x*v1` -/

/-- `NonBlasAddVV<c1>(x,v1,v2)` (src/TMV_AddVV.cpp:44-157), called by `DoAddVV` (:159-170). -/
def doAddVV [Star K] [Ring K] [DecidableEq K] (x : K) (v1 v2 : VView) (m : Mem K) : Option (Mem K) :=
  if v1.step = 1 ∧ v2.step = 1 then
    if x = 1 then unit2 (fun a b => b + cj v1.conj a) v2.size v1.ptr v2.ptr m
    else if x = -1 then unit2 (fun a b => b - cj v1.conj a) v2.size v1.ptr v2.ptr m
    else unit2 (fun a b => b + x * cj v1.conj a) v2.size v1.ptr v2.ptr m
  else
    if x = 1 then loop2 (fun a b => b + cj v1.conj a) v1.step v2.step v2.size v1.ptr v2.ptr m
    else if x = -1 then loop2 (fun a b => b - cj v1.conj a) v1.step v2.step v2.size v1.ptr v2.ptr m
    else loop2 (fun a b => b + x * cj v1.conj a) v1.step v2.step v2.size v1.ptr v2.ptr m

/-- `AddVV(x,v1,v2)`, i.e. `v2 += x*v1` (src/TMV_AddVV.cpp:288-333). -/
def addVV [Star K] [Ring K] [DecidableEq K] (x : K) (v1 v2 : VView) (m : Mem K) : Option (Mem K) :=
  if v2.size > 0 ∧ x ≠ 0 then
    if v2.isSameAs v1 then
      if x = -1 then v2.setZero m else mulX (x + 1) v2 m
    else if _h : v2.conj = true then addVV (star x) v1.conjugate v2.conjugate m
    else if _h : shouldReverse v1.step v2.step = true then addVV x v1.reverse v2.reverse m
    else doAddVV x v1 v2 m
  else some m
termination_by v2.conj.toNat * 2 + (shouldReverse v1.step v2.step).toNat
decreasing_by
  · simp only [conjugate, _h]; rw [show (!true).toNat = 0 from rfl, show true.toNat = 1 from rfl]; omega
  · simp [_h, reverse, shouldReverse_neg _ _ _h]

end VView

/-! ### Temporary storage -/

/-- A fresh array of `n` elements at address `t` (`AlignedArray`, include/tmv/TMV_Array.h), with arbitrary
initial contents. -/
def Mem.alloc (m : Mem K) (t : Int) (n : Nat) (junk : Int → K) : Mem K :=
  fun a => if t ≤ a ∧ a < t + n then some (junk a) else m a
/-- The array is destroyed. -/
def Mem.free (m : Mem K) (t : Int) (n : Nat) : Mem K :=
  fun a => if t ≤ a ∧ a < t + n then none else m a
/-- `SameStorage(v1,v2)` (include/tmv/TMV_Base.h:240-252; without NOALIASCHECK). -/
def VView.sameStorage (v w : VView) : Bool := decide (v.ptr = w.ptr)

namespace VView

/-- `AddVV(x1,v1,x2,v2,v3)`, i.e. `v3 = x1*v1 + x2*v2` (src/TMV_AddVV.cpp:335-395); `t` is the address the
allocator gives to `Vector<T> temp(v3.size())`. -/
def addVV3 [Star K] [Ring K] [DecidableEq K] (t : Int) (junk : Int → K) (x1 : K) (v1 : VView) (x2 : K)
    (v2 v3 : VView) (m : Mem K) : Option (Mem K) :=
  if v3.size > 0 then
    if v1.sameStorage v3 then
      if v2.sameStorage v3 then
        let temp : VView := ⟨t, v3.size, 1, false⟩
        let m := m.alloc t v3.size junk
        (mulXV x2 v2 temp m).bind fun m => (addVV x1 v1 temp m).bind fun m =>
        (copy temp v3 m).bind fun m => some (m.free t v3.size)
      else (mulXV x1 v1 v3 m).bind fun m => addVV x2 v2 v3 m
    else (mulXV x2 v2 v3 m).bind fun m => addVV x1 v1 v3 m
  else some m

/-! ### `v1*v2` -/

/-- `for(i=n;i>0;--i,p1+=s1,p2+=s2) res += (*p1) * conj?(*p2)` (src/TMV_MultVV.cpp:104-105, 109-110). -/
def dotLoop [Star K] [Add K] [Mul K] (c2 : Bool) (s1 s2 : Int) (m : Mem K) :
    Nat → Int → Int → K → Option K
  | 0, _, _, r => some r
  | n+1, p1, p2, r => do
      let a ← m.read p1
      let b ← m.read p2
      dotLoop c2 s1 s2 m n (p1 + s1) (p2 + s2) (r + a * cj c2 b)
/-- The unrolled loop (src/TMV_MultVV.cpp:98-103). -/
def dotLoop4 [Star K] [Add K] [Mul K] (c2 : Bool) (m : Mem K) : Nat → Int → Int → K → Option K
  | 0, _, _, r => some r
  | n+1, p1, p2, r => do
      let a0 ← m.read p1
      let b0 ← m.read p2
      let a1 ← m.read (p1+1)
      let b1 ← m.read (p2+1)
      let a2 ← m.read (p1+2)
      let b2 ← m.read (p2+2)
      let a3 ← m.read (p1+3)
      let b3 ← m.read (p2+3)
      dotLoop4 c2 m n (p1 + 4) (p2 + 4)
        (r + a0 * cj c2 b0 + a1 * cj c2 b1 + a2 * cj c2 b2 + a3 * cj c2 b3)

/-- `nonBlasMultVV<unit,c2>` (src/TMV_MultVV.cpp:65-114); `bs` is `TMV_MULTVV_RECURSE_SIZE` (64, or
`TMV_BLOCKSIZE`; 0 would never terminate, hence `bs+1`). -/
def dotRec [Star K] [Add K] [Mul K] [Zero K] (bs : Nat) (unit c2 : Bool) (v1 v2 : VView) (m : Mem K) :
    Option K :=
  if _h : v1.size > bs + 1 then
    let N1 := v1.size / 2
    (dotRec bs unit c2 (v1.subVector2 0 N1) (v2.subVector2 0 N1) m).bind fun a =>
    (dotRec bs unit c2 (v1.subVector2 N1 v1.size) (v2.subVector2 N1 v1.size) m).bind fun b => some (a + b)
  else if unit then
    let N1 := v1.size / 4
    let N2 := v1.size - 4 * N1
    (dotLoop4 c2 m N1 v1.ptr v2.ptr 0).bind fun r => dotLoop c2 1 1 m N2 (v1.ptr + 4 * N1) (v2.ptr + 4 * N1) r
  else dotLoop c2 v1.step v2.step m v1.size v1.ptr v2.ptr 0
termination_by v1.size
decreasing_by
  · simp only [subVector2]; omega
  · simp only [subVector2]; omega

/-- `DoMultVV` (src/TMV_MultVV.cpp:115-125). -/
def doMulVV [Star K] [Add K] [Mul K] [Zero K] (bs : Nat) (v1 v2 : VView) (m : Mem K) : Option K :=
  dotRec bs (decide (v1.step = 1 ∧ v2.step = 1)) v2.conj v1 v2 m

/-- `MultVV(v1,v2)`, i.e. `v1*v2` (src/TMV_MultVV.cpp:250-277).  `nrm a` is `conj(a)*a` in the result type. -/
def mulVV [Star K] [Semiring K] [DecidableEq K] (bs : Nat) (nrm : K → K) (v1 v2 : VView) (m : Mem K) :
    Option K :=
  if v1.size > 0 then
    if v2.isSameAs v1.conjugate then v1.normSq nrm (· * ·) 1 m
    else if shouldReverse v1.step v2.step then
      if v1.conj then (doMulVV bs v1.reverse.conjugate v2.reverse.conjugate m).map star
      else doMulVV bs v1.reverse v2.reverse m
    else
      if v1.conj then (doMulVV bs v1.conjugate v2.conjugate m).map star
      else doMulVV bs v1 v2 m
  else some 0

/-! ### Element-wise product -/

/-- `for(i=n;i>0;--i,xp+=sx,yp+=sy,zp+=sz) *zp (+)= f(*xp,*yp)` (src/TMV_MultXV.cpp:390-413);
`f a b c` is the new value for the old `c`. -/
def loop3 (f : K → K → K → K) (sx sy sz : Int) : Nat → Int → Int → Int → Mem K → Option (Mem K)
  | 0, _, _, _, m => some m
  | n+1, px, py, pz, m =>
      (m.read px).bind fun a => (m.read py).bind fun b => (m.read pz).bind fun c =>
      (m.write pz (f a b c)).bind fun m => loop3 f sx sy sz n (px + sx) (py + sy) (pz + sz) m

/-- `DoElemMultVV<add,cx,cy>` (src/TMV_MultXV.cpp:316-415).  Simplification: the loop unrolled by four for
unit steps is not distinguished. -/
def doElemMul [Star K] [Ring K] [DecidableEq K] (add : Bool) (alpha : K) (x y z : VView) (m : Mem K) :
    Option (Mem K) :=
  loop3 (fun a b c =>
      let p := if alpha = 1 then cj x.conj a * cj y.conj b else alpha * cj x.conj a * cj y.conj b
      if add then c + p else p)
    x.step y.step z.step z.size x.ptr y.ptr z.ptr m

/-- The test for reversing all three vectors (src/TMV_MultXV.cpp:457-461). -/
def elemReverse (sx sy sz : Int) : Bool :=
  decide ((sz = -1 ∧ ¬ (sx = 1 ∧ sy = 1)) ∨ (sz ≠ 1 ∧ (sx = -1 ∨ (sx ≠ 1 ∧ sy = -1))) ∨
    (sz < 0 ∧ ¬ (sx = 1 ∨ sy = 1)))

/-- `ElemMultVV<add>(alpha,x,y,z)`, i.e. `z (+)= alpha*ElemProd(x,y)` (src/TMV_MultXV.cpp:433-500).  `t k` is
the address of the `k`-th temporary; `fuel` bounds the recursion (its exhaustion is `none`). -/
def elemMulVV [Star K] [Ring K] [DecidableEq K] : Nat → (Nat → Int) → (Int → K) → Bool → K →
    VView → VView → VView → Mem K → Option (Mem K)
  | 0, _, _, _, _, _, _, _, _ => none
  | fuel+1, t, junk, add, alpha, x, y, z, m =>
    let rec' := elemMulVV fuel (fun k => t (k+1)) junk
    if z.size > 0 ∧ alpha ≠ 0 then
      if z.conj then rec' add (star alpha) x.conjugate y.conjugate z.conjugate m
      else if elemReverse x.step y.step z.step then rec' add alpha x.reverse y.reverse z.reverse m
      else if x.sameStorage z ∧ x.step > z.step then
        let xx : VView := ⟨t 0, x.size, 1, false⟩
        if add then
          (copy x xx (m.alloc (t 0) x.size junk)).bind fun m =>
          (rec' add alpha xx y z m).bind fun m => some (m.free (t 0) x.size)
        else if y.sameStorage z then
          (copy x xx (m.alloc (t 0) x.size junk)).bind fun m =>
          (copy y z m).bind fun m =>
          (rec' false alpha xx z z m).bind fun m => some (m.free (t 0) x.size)
        else (copy x z m).bind fun m => rec' false alpha z y z m
      else if y.sameStorage z ∧ y.step > z.step then
        let yy : VView := ⟨t 0, y.size, 1, false⟩
        if add then
          (copy y yy (m.alloc (t 0) y.size junk)).bind fun m =>
          (rec' add alpha x yy z m).bind fun m => some (m.free (t 0) y.size)
        else if x.sameStorage z then
          (copy y yy (m.alloc (t 0) y.size junk)).bind fun m =>
          (copy x z m).bind fun m =>
          (rec' false alpha z yy z m).bind fun m => some (m.free (t 0) y.size)
        else (copy y z m).bind fun m => rec' false alpha x z z m
      else doElemMul add alpha x y z m
    else some m

end VView
end TMV
