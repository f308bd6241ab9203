import Mathlib.Algebra.Star.Basic

/-!
Memory layer.  Element memory is a partial map from integer addresses (in units of
elements, as C++ pointer arithmetic on `T*`) to values.  `none` = the address is not
part of a live allocation: reading or writing it is undefined behaviour in C++, and
makes the whole computation `none`.
-/
namespace TMV

/-- Element memory.  Models the C++ object representation of the arrays behind
`T* ptr()` (e.g. include/tmv/TMV_Vector.h:404 `cptr()+i1*step()`).  Simplification: an
unbounded address space of `Int`, no `ptrdiff_t` overflow. -/
abbrev Mem (K : Type _) := Int → Option K

namespace Mem
variable {K : Type _}

/-- `*p` as an rvalue. -/
def read (m : Mem K) (a : Int) : Option K := m a

/-- `*p = x`.  Undefined (`none`) if `p` does not point into a live array. -/
def write (m : Mem K) (a : Int) (x : K) : Option (Mem K) :=
  match m a with
  | none => none
  | some _ => some (fun b => if b = a then some x else m b)

/-- `*p = f(*p)`. -/
def modify (m : Mem K) (a : Int) (f : K → K) : Option (Mem K) := do
  let x ← m.read a
  m.write a (f x)

/-- `TMV_SWAP(*p,*q)` = `std::swap` (include/tmv/TMV_Base.h `TMV_SWAP`). -/
def swap (m : Mem K) (a b : Int) : Option (Mem K) := do
  let x ← m.read a
  let y ← m.read b
  let m1 ← m.write a y
  m1.write b x

end Mem
end TMV
