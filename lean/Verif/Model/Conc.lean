import Verif.Model.MatMat
import Mathlib.Logic.Function.Basic
import Mathlib.Data.Int.Init

/-!
Threads of `#pragma omp parallel` (src/TMV_MultMM_OpenMP.cpp): programs made of single memory accesses, run in any order that keeps
the order of each thread's accesses (sequentially consistent memory).
-/
namespace TMV
variable {K : Type _}

/-- What one thread still has to do: end; undefined behaviour; read `*a`; write `*a = v`; `new T[n]`; `delete[] t`. -/
inductive Prog (K : Type _)
  | done
  | fail
  | rd (a : Int) (k : K → Prog K)
  | wr (a : Int) (v : K) (k : Prog K)
  | alloc (n : Nat) (k : Int → Prog K)
  | free (t : Int) (n : Nat) (k : Prog K)

namespace Prog

/-- First `p`, then `q`. -/
def seq : Prog K → Prog K → Prog K
  | done, q => q
  | fail, _ => fail
  | rd a k, q => rd a fun v => (k v).seq q
  | wr a v k, q => wr a v (k.seq q)
  | alloc n k, q => alloc n fun t => (k t).seq q
  | free t n k, q => free t n (k.seq q)

/-- `p` run alone, for a `p` without allocations. -/
def run : Prog K → Mem K → Option (Mem K)
  | done, m => some m
  | fail, _ => none
  | rd a k, m => (m.read a).bind fun v => (k v).run m
  | wr a v k, m => (m.write a v).bind fun m => k.run m
  | alloc _ _, _ => none
  | free _ _ _, _ => none

end Prog

/-- One access by one of the threads.  The allocator (shared, thread safe) returns any block of memory that is not in use, with
arbitrary contents. -/
inductive Step {T : Nat} : Mem K × (Fin T → Prog K) → Mem K × (Fin T → Prog K) → Prop
  | rd {m ps} (t : Fin T) {a k v} : ps t = .rd a k → m.read a = some v → Step (m, ps) (m, Function.update ps t (k v))
  | wr {m m' ps} (t : Fin T) {a v k} : ps t = .wr a v k → m.write a v = some m' → Step (m, ps) (m', Function.update ps t k)
  | alloc {m ps} (t : Fin T) {n : Nat} {k} (p : Int) (junk : Int → K) : ps t = .alloc n k → (∀ a, p ≤ a → a < p + n → m a = none) →
      Step (m, ps) (m.alloc p n junk, Function.update ps t (k p))
  | free {m ps} (t : Fin T) {p : Int} {n : Nat} {k} : ps t = .free p n k → (∀ a, p ≤ a → a < p + n → m a ≠ none) →
      Step (m, ps) (m.free p n, Function.update ps t k)

/-- The states that some schedule of the threads leads to. -/
inductive Reach {T : Nat} (s : Mem K × (Fin T → Prog K)) : Mem K × (Fin T → Prog K) → Prop
  | refl : Reach s s
  | step {s' s''} : Reach s s' → Step s' s'' → Reach s s''

/-- Two threads' next accesses are to the same element, and one of them writes it (or destroys it). -/
def Prog.Races (p q : Prog K) : Prop :=
  match p, q with
  | .wr a _ _, .rd b _ => a = b
  | .wr a _ _, .wr b _ _ => a = b
  | .free t n _, .rd b _ => t ≤ b ∧ b < t + n
  | .free t n _, .wr b _ _ => t ≤ b ∧ b < t + n
  | .free t n _, .free t' n' _ => ∃ b, t ≤ b ∧ b < t + n ∧ t' ≤ b ∧ b < t' + n'
  | _, _ => False

end TMV
