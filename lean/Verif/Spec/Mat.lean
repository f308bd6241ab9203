import Verif.Model.Mat
import Verif.Spec.Vec

/-! Specification vocabulary for matrix properties: addresses, memory and sizes only. -/
namespace TMV
variable {K : Type _}

/-- All elements are live memory. -/
def MView.Live (M : MView) (m : Mem K) : Prop :=
  ∀ i j : Nat, i < M.cs → j < M.rs → (m (M.addr i j)).isSome

/-- Distinct index pairs have distinct addresses. -/
def MView.Inj (M : MView) : Prop :=
  ∀ i j i' j' : Nat, i < M.cs → j < M.rs → i' < M.cs → j' < M.rs →
    M.addr i j = M.addr i' j' → i = i' ∧ j = j'

/-- `a` is the address of some element. -/
def MView.Covers (M : MView) (a : Int) : Prop :=
  ∃ i j : Nat, i < M.cs ∧ j < M.rs ∧ a = M.addr i j

/-- Memory outside the matrix is unchanged. -/
def MView.Frame (M : MView) (m m' : Mem K) : Prop := ∀ a, ¬ M.Covers a → m' a = m a

/-- No element is shared. -/
def MView.Disjoint (M N : MView) : Prop := ∀ a, M.Covers a → ¬ N.Covers a

/-- A matrix view as the library creates them: distinct elements are distinct, and an *empty* row
or column of a nonempty list of rows or columns does not have step 0. -/
def MView.WF (M : MView) : Prop :=
  M.Inj ∧ (M.rs = 0 → M.cs = 0 ∨ M.sj ≠ 0) ∧ (M.cs = 0 → M.rs = 0 ∨ M.si ≠ 0)

/-- The cached linear size is not set to a wrong value: it is "unknown", "not linear", or the
number of elements of a matrix whose elements are contiguous. -/
def MView.LSOK (M : MView) : Prop :=
  M.ls = -1 ∨ M.ls = 0 ∨
    (M.ls = M.cs * M.rs ∧ ((M.si = 1 ∧ M.sj = M.cs) ∨ (M.sj = 1 ∧ M.si = M.rs)))

/-- `M` reads the values `x i j` in memory `m`. -/
def MView.Holds [Star K] (M : MView) (m : Mem K) (x : Nat → Nat → K) : Prop :=
  ∀ i j : Nat, i < M.cs → j < M.rs → M.cref m i j = some (x i j)

end TMV
