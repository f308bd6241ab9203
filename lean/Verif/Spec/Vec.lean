import Verif.Model.Vec
import Mathlib.Logic.Equiv.Basic
import Mathlib.Algebra.Group.End

/-! Specification vocabulary for vector properties: nothing here refers to an
operation of the model, only to addresses and memory. -/
namespace TMV
variable {K : Type _}

/-- The view's elements are all live memory. -/
def VView.Live (v : VView) (m : Mem K) : Prop := ∀ i : Nat, i < v.size → (m (v.addr i)).isSome

/-- Distinct indices have distinct addresses. -/
def VView.Inj (v : VView) : Prop := v.step ≠ 0 ∨ v.size ≤ 1

/-- `a` is the address of some element of `v`. -/
def VView.Covers (v : VView) (a : Int) : Prop := ∃ i : Nat, i < v.size ∧ a = v.addr i

/-- Memory not belonging to `v` is unchanged. -/
def VView.Frame (v : VView) (m m' : Mem K) : Prop := ∀ a, ¬ v.Covers a → m' a = m a

/-- No element is shared. -/
def VView.Disjoint (v w : VView) : Prop := ∀ a, v.Covers a → ¬ w.Covers a

/-- A view as the library creates them: nonzero step, or exactly one element
(columns of a diagonal `BandMatrix` have step 0). -/
def VView.WF (v : VView) : Prop := v.step ≠ 0 ∨ v.size = 1

/-- `v` reads the values `x 0, x 1, ...` in memory `m`. -/
def VView.Holds [Star K] (v : VView) (m : Mem K) (x : Nat → K) : Prop :=
  ∀ i : Nat, i < v.size → v.cref m i = some (x i)

/-- The permutation performed by the interchanges `(i,p i), (i+1,p (i+1)), ...` (`n` of them),
as a product of transpositions: after them position `k` holds what was at `swapProd p n i k`. -/
def swapProd (p : Nat → Nat) : Nat → Nat → Equiv.Perm Nat
  | 0, _ => 1
  | n+1, i => Equiv.swap i (p i) * swapProd p n (i+1)

end TMV
