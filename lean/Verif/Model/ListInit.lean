import Verif.Model.Refs
import Verif.Model.Mat

/-! List initialisation `v << a1, a2, ...` (include/tmv/TMV_ListInit.h). -/
namespace TMV.ListInit
variable {K I : Type}

/-- An iterator class: `++it` and `*it = x`. -/
structure Iter (I K : Type) where
  next : I → I
  store : I → K → Mem K → Option (Mem K)

/-- `ListAssigner` (TMV_ListInit.h:46-98): members `_ptr, _nLeft, _isLast`. -/
structure LA (I : Type) where
  ptr : I
  nLeft : Int
  isLast : Bool

/-- `ListReadError(n)` (TMV_ListInit.h:26-43): too many (`n = 0`) or `n` missing. -/
inductive Exc
  | tooMany
  | tooFew (n : Int)
deriving DecidableEq

/-- How the full expression `v << x1, x2, …;` ends. -/
inductive Out (K : Type)
  | ok (m : Mem K)
  | threw (e : Exc) (m : Mem K)
  | terminated (m : Mem K)     -- std::terminate
  | ub

/-- The calls `operator,(x)` (or `operator<<`) for the remaining values on the current temporary `L`
(TMV_ListInit.h:76-88): returns the memory, all temporaries (newest first) and whether `ListReadError(0)` was
thrown.  `debug` = compiled with `TMV_DEBUG`.  Return by value is taken without copies (the copy constructor
passes `_isLast` on, 63-65, so it makes no difference). -/
def comma (it : Iter I K) (debug : Bool) : LA I → List (LA I) → List K → Mem K →
    Option (Mem K × List (LA I) × Bool)
  | L, st, [], m => some (m, L :: st, false)
  | L, st, x :: xs, m =>
    if debug = true ∧ L.nLeft = 0 then some (m, L :: st, true)
    else do
      let m ← it.store L.ptr x m
      let p := it.next L.ptr
      comma it debug ⟨p, L.nLeft - 1, true⟩ ({ L with ptr := p, isLast := false } :: st) xs m

/-- Destruction of the temporaries at the end of the expression (or while the exception `e` propagates), newest
first: `~ListAssigner` (TMV_ListInit.h:67-72).  A destructor that throws while an exception propagates, or at all
when destructors are `noexcept` (the default since C++11: `cxx11`), calls `std::terminate` (`none`). -/
def destroy (debug cxx11 : Bool) : List (LA I) → Option Exc → Option (Option Exc)
  | [], e => some e
  | L :: st, e =>
    if debug = true ∧ L.nLeft > 0 ∧ L.isLast = true then
      if cxx11 = true ∨ e.isSome then none else destroy debug cxx11 st (some (.tooFew L.nLeft))
    else destroy debug cxx11 st e

/-- `c << x, xs...;` for a container with `n` elements: the three-argument constructor (TMV_ListInit.h:52-61) for
the first value, `operator,` for the others, then the destructors. -/
def listInit (it : Iter I K) (debug cxx11 : Bool) (start : I) (n : Int) (x : K) (xs : List K) (m : Mem K) :
    Out K :=
  if debug = true ∧ n = 0 then .threw .tooMany m
  else match it.store start x m with
    | none => .ub
    | some m =>
      match comma it debug ⟨it.next start, n - 1, false⟩ [] xs m with
      | none => .ub
      | some (m, st, threw) =>
        match destroy debug cxx11 st (if threw then some .tooMany else none) with
        | none => .terminated m
        | some none => .ok m
        | some (some e) => .threw e m

/-- The iterators of vectors and vector views. -/
def vIter [Star K] : Iter It K where
  next := It.incr
  store := It.store

/-- `v << x, xs...` (include/tmv/TMV_Vector.h:914-916, 1663-1665). -/
def vecInit [Star K] (debug cxx11 : Bool) (v : VView) (x : K) (xs : List K) (m : Mem K) : Out K :=
  listInit vIter debug cxx11 (It.begin_ v) v.size x xs m

/-- `RMIt<M>` (include/tmv/TMV_MIt.h:37-89) on a matrix with element address `M.addr`, for the given
`rowstart`, `rowend`. -/
def rmIter [Star K] (M : MView) (rowstart rowend : Nat → Nat) : Iter (Nat × Nat) K where
  next := fun ij => if ij.2 + 1 = rowend ij.1 then (ij.1 + 1, rowstart (ij.1 + 1)) else (ij.1, ij.2 + 1)
  store := fun ij x m => M.setRef ij.1 ij.2 x m

/-- `m << x, xs...` (include/tmv/TMV_Matrix.h:1427-1429, 2646-2650): `rowmajor_begin()`, `colsize()*rowsize()`. -/
def matInit [Star K] (debug cxx11 : Bool) (M : MView) (x : K) (xs : List K) (m : Mem K) : Out K :=
  listInit (rmIter M (fun _ => 0) (fun _ => M.rs)) debug cxx11 (0, 0) (M.cs * M.rs : Nat) x xs m

/-- `u << x, xs...` for an `UpperTriMatrix` with elements at `M.addr i j`, `i ≤ j`
(include/tmv/TMV_TriMatrix.h:1009-1010, 2110-2112). -/
def upperInit [Star K] (debug cxx11 : Bool) (M : MView) (x : K) (xs : List K) (m : Mem K) : Out K :=
  listInit (rmIter M (fun i => i) (fun _ => M.rs)) debug cxx11 (0, 0) (M.rs * (M.rs + 1) / 2 : Nat) x xs m

/-- `l << x, xs...` for a `LowerTriMatrix` (include/tmv/TMV_TriMatrix.h:1543-1544, 4567-4569). -/
def lowerInit [Star K] (debug cxx11 : Bool) (M : MView) (x : K) (xs : List K) (m : Mem K) : Out K :=
  listInit (rmIter M (fun _ => 0) (fun i => i + 1)) debug cxx11 (0, 0) (M.rs * (M.rs + 1) / 2 : Nat) x xs m

end TMV.ListInit
