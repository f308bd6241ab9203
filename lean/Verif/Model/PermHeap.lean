import Mathlib.Logic.Function.Basic
import Mathlib.Data.List.Basic

/-! Memory ownership of `class Permutation` (include/tmv/TMV_Permutation.h): a state machine over a
heap of `ptrdiff_t` arrays. -/
namespace TMV.PermHeap

/-- An array `new ptrdiff_t[len]`; `none` = not yet written (reading it is undefined behaviour). -/
abbrev Block := List (Option Nat)

/-- A live `Permutation` object: `itsn`, `itsmem` (the owned block, null = `none`), `itsp` (null =
`none`), `isinv` (TMV_Permutation.h:522-525). -/
structure Obj where
  n : Nat
  mem : Option Nat
  ptr : Option Nat
  isinv : Bool
deriving DecidableEq

/-- Heap blocks (freed or never allocated = `none`), next unused block name, and the live objects by
variable name. -/
structure St where
  heap : Nat → Option Block
  next : Nat
  objs : Nat → Option Obj

/-- Nothing allocated. -/
def St.init : St := ⟨fun _ => none, 0, fun _ => none⟩

/-- `p.allocate(n)` after the old block is gone (TMV_Array.h:204, 258-259): nothing for `n = 0`. -/
def St.alloc (s : St) (n : Nat) : St × Option Nat :=
  if n > 0 then
    (⟨Function.update s.heap s.next (some (List.replicate n none)), s.next+1, s.objs⟩, some s.next)
  else (s, none)

/-- `delete [] mem` (TMV_Array.h:86-87): freeing a null pointer does nothing, freeing a dead block is
undefined. -/
def St.free (s : St) : Option Nat → Option St
  | none => some s
  | some b => match s.heap b with
      | none => none
      | some _ => some { s with heap := Function.update s.heap b none }

/-- `itsmem.resize(n)` (TMV_Array.h:252-260): deallocate, then allocate. -/
def St.resizeMem (s : St) (mem : Option Nat) (n : Nat) : Option (St × Option Nat) :=
  (s.free mem).map fun s => s.alloc n

/-- `itsmem[i] = x` for `i = i0, i0+1, …`; a null, freed or too short block is undefined. -/
def St.store (s : St) (mem : Option Nat) : List Nat → Nat → Option St
  | [], _ => some s
  | x :: xs, i => match mem with
      | none => none
      | some b => match s.heap b with
          | none => none
          | some l => if i < l.length then
              St.store { s with heap := Function.update s.heap b (some (l.set i (some x))) } mem xs (i+1)
            else none

def St.setObj (s : St) (o : Nat) (x : Option Obj) : St := { s with objs := Function.update s.objs o x }

/-- `allocateMem()` (TMV_Permutation.h:543-549). -/
def St.allocateMem (s : St) (x : Obj) : Option (St × Obj) :=
  match x.mem with
  | some _ => some (s, x)
  | none => (s.resizeMem none x.n).map fun (s, b) => (s, { x with mem := b, ptr := b })

/-- `resize(n)` (TMV_Permutation.h:508-517). -/
def St.resize (s : St) (x : Obj) (n : Nat) : Option (St × Obj) :=
  if n > x.n then
    (s.resizeMem x.mem n).map fun (s, b) => (s, ⟨n, b, b, false⟩)
  else some (s, { x with n := n, isinv := false })

/-- Operations on named `Permutation` variables. -/
inductive Op
  | ident (o n : Nat)                 -- Permutation o(n);
  | ext (l : List Nat)                -- user array {l...}
  | ofExt (o b n : Nat) (inv : Bool)  -- Permutation o(n,b,inv);
  | copy (o src : Nat)                -- Permutation o(src);
  | inverse (o src : Nat)             -- Permutation o(src.inverse())
  | assign (o src : Nat)              -- o = src;
  | transposeSelf (o : Nat)
  | setToIdentity (o : Nat)
  | resize (o n : Nat)
  | decomp (o : Nat) (l : List Nat) (inv : Bool)  -- LU_Decompose(m,o), QRP_, LDL_, v.sort(o)
  | read (o : Nat) (l : List Nat) (inv : Bool)    -- is >> CompactIO() >> o
  | swap (o1 o2 : Nat)
  | destroy (o : Nat)
deriving DecidableEq

/-- One operation; `none` = undefined behaviour (or a use of a dead variable).
* `ident`: TMV_Permutation.h:183-188;  `ofExt`: 190-192;  `copy`: 194-195;  `inverse`: 267-268
* `assign`: 199-206;  `transposeSelf`: 358-359;  `setToIdentity`: 350-356;  `resize`: 508-517
* `decomp`: 832-838 and 841-911 (resize, allocateMem, write through getMem(), set isinv)
* `read`: 696-805 for well-formed input (resize only if the size differs, then `itsmem[i] = temp`)
* `swap`: 814-820 (requires equal sizes: `TMVAssert`);  `destroy`: 197 (`itsmem`'s destructor). -/
def step (s : St) : Op → Option St
  | .ident o n =>
      match s.objs o with
      | some _ => none
      | none =>
        let (s, b) := s.alloc n
        (s.store b (List.range n) 0).map fun s => s.setObj o (some ⟨n, b, b, false⟩)
  | .ext l => some ⟨Function.update s.heap s.next (some (l.map some)), s.next+1, s.objs⟩
  | .ofExt o b n inv =>
      match s.objs o with
      | some _ => none
      | none => some (s.setObj o (some ⟨n, none, some b, inv⟩))
  | .copy o src =>
      match s.objs o, s.objs src with
      | none, some r => some (s.setObj o (some ⟨r.n, none, r.ptr, r.isinv⟩))
      | _, _ => none
  | .inverse o src =>
      match s.objs o, s.objs src with
      | none, some r => some (s.setObj o (some ⟨r.n, none, r.ptr, !r.isinv⟩))
      | _, _ => none
  | .assign o src =>
      match s.objs o, s.objs src with
      | some x, some r =>
        -- itsmem.resize(0); itsn = rhs.itsn; itsp = rhs.itsp; isinv = rhs.isinv
        (s.resizeMem x.mem 0).map fun (s, b) => s.setObj o (some ⟨r.n, b, r.ptr, r.isinv⟩)
      | _, _ => none
  | .transposeSelf o =>
      (s.objs o).map fun x => s.setObj o (some { x with isinv := !x.isinv })
  | .setToIdentity o =>
      match s.objs o with
      | none => none
      | some x => match s.allocateMem x with
          | none => none
          | some (s, x) =>
            (s.store x.mem (List.range x.n) 0).map fun s => s.setObj o (some { x with isinv := false })
  | .resize o n =>
      match s.objs o with
      | none => none
      | some x => (s.resize x n).map fun (s, x) => s.setObj o (some x)
  | .decomp o l inv =>
      match s.objs o with
      | none => none
      | some x => match s.resize x l.length with
          | none => none
          | some (s, x) => match s.allocateMem x with
              | none => none
              | some (s, x) =>
                (s.store x.mem l 0).map fun s => s.setObj o (some { x with isinv := inv })
  | .read o l inv =>
      match s.objs o with
      | none => none
      | some x =>
        match (if l.length ≠ x.n then s.resize x l.length else some (s, x)) with
        | none => none
        | some (s, x) => (s.store x.mem l 0).map fun s => s.setObj o (some { x with isinv := inv })
  | .swap o1 o2 =>
      match s.objs o1, s.objs o2 with
      | some x, some y =>
        if x.n = y.n then
          some ((s.setObj o1 (some ⟨x.n, y.mem, y.ptr, y.isinv⟩)).setObj o2
            (some ⟨y.n, x.mem, x.ptr, x.isinv⟩))
        else none
      | _, _ => none
  | .destroy o =>
      match s.objs o with
      | none => none
      | some x => (s.free x.mem).map fun s => s.setObj o none

/-- Running a history. -/
def run (s : St) : List Op → Option St
  | [] => some s
  | op :: ops => (step s op).bind fun s => run s ops

/-- What a client can observe of object `o`: the interchange list and the direction; `none` if looking
at it is undefined (dead object, null/freed memory, unwritten elements). -/
def value (s : St) (o : Nat) : Option (List Nat × Bool) := do
  let x ← s.objs o
  let l ← (if x.n = 0 then some [] else do
    let b ← x.ptr
    let blk ← s.heap b
    if x.n ≤ blk.length then (blk.take x.n).mapM id else none)
  some (l, x.isinv)

end TMV.PermHeap
