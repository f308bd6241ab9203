import Mathlib.Data.Nat.Bitwise
import Mathlib.Data.List.Basic

/-! Aligned allocation (include/tmv/TMV_Array.h), on byte addresses. -/
namespace TMV.Arr

/-- `calculateP()` (TMV_Array.h:126-133, 162-169): `mem + ((0x10-((ptrdiff_t)(mem) & 0xf)) & ~0x10)`.
`~0x10` is taken on 64 bits. -/
def calcP (mem : Nat) : Nat := mem + ((0x10 - (mem &&& 0xf)) &&& (2^64 - 1 - 0x10))

/-- Bytes requested by `allocate(n)` for elements of `2^sh` bytes (`float`: `sh = 2`, 105-119; `double`: `sh = 3`,
143-157); `pad` = `TMV_END_PADDING`. -/
def nbytes (sh : Nat) (pad : Bool) (n : Nat) : Nat := if pad then (n <<< sh) + 15 + 16 else (n <<< sh) + 15

/-- First byte after the last padding element written by the loop `for(i=n;i<(nn>>sh);++i) p[i] = 0`
(TMV_Array.h:112, 150), for the block at `mem`. -/
def padEnd (sh : Nat) (mem n : Nat) : Nat := calcP mem + ((nbytes sh true n >>> sh) <<< sh)

/-- `AlignedMemory<float>`/`<double>`: `mem` (as the number of the heap block, `none` = null), and `p`; together
with the requested size `_n` (TMV_Array.h:136-138, 172-174, 282). -/
structure AM where
  mem : Option Nat
  p : Nat
  n : Nat

/-- Heap and arrays: block number ↦ (base address, length in bytes) of live blocks; the next block number; array
variable ↦ object. -/
structure St where
  live : Nat → Option (Nat × Nat)
  next : Nat
  arr : Nat → Option AM

/-- Nothing allocated, no array variables. -/
def St.init : St := ⟨fun _ => none, 0, fun _ => none⟩

/-- `p.deallocate()`: `if (mem) delete [] mem; mem=0; p=0;` (TMV_Array.h:120-121, 158-159). Undefined (`none`) if the
block is not live. -/
def dealloc (s : St) (a : AM) : Option (St × AM) :=
  match a.mem with
  | none => some (s, ⟨none, 0, a.n⟩)
  | some b => match s.live b with
      | none => none
      | some _ => some ({ s with live := fun x => if x = b then none else s.live x }, ⟨none, 0, a.n⟩)

/-- `if (n > 0) p.allocate(n)` (TMV_Array.h:217, 255, 304, 343), the new block being placed at `base`. -/
def alloc (sh : Nat) (s : St) (a : AM) (n base : Nat) : St × AM :=
  if n > 0 then
    ({ s with live := fun x => if x = s.next then some (base, nbytes sh false n) else s.live x, next := s.next + 1 },
      ⟨some s.next, calcP base, n⟩)
  else (s, { a with n := n })

/-- Operations on array variables.  `base`: address the allocator happens to return. -/
inductive Op
  | ctor (k n base : Nat)
  | resize (k n base : Nat)
  | swap (k l : Nat)
  | dtor (k : Nat)

/-- Assign the object of variable `k`. -/
def St.set (s : St) (k : Nat) (a : Option AM) : St := { s with arr := fun x => if x = k then a else s.arr x }

/-- `AlignedArray(n)` (214-223), `resize` (248-259), `swapWith` (241-247, member-wise 122-126), destructor
(224-230).  Operations on variables that do not exist (or already exist, for the constructor) are not calls a
program can make and change nothing. -/
def step (sh : Nat) (s : St) : Op → Option St
  | .ctor k n base => match s.arr k with
      | some _ => some s
      | none => let r := alloc sh s ⟨none, 0, 0⟩ n base; some (r.1.set k (some r.2))
  | .resize k n base => match s.arr k with
      | none => some s
      | some a => match dealloc s a with
          | none => none
          | some (s, a) => let r := alloc sh s a n base; some (r.1.set k (some r.2))
  | .swap k l => match s.arr k, s.arr l with
      | some a, some b => some ((s.set k (some b)).set l (some a))
      | _, _ => some s
  | .dtor k => match s.arr k with
      | none => some s
      | some a => match dealloc s a with
          | none => none
          | some (s, _) => some (s.set k none)

/-- A history. -/
def run (sh : Nat) : St → List Op → Option St
  | s, [] => some s
  | s, o :: os => (step sh s o).bind fun s => run sh s os

end TMV.Arr
