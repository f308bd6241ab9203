import Verif.Model.SymMat
import Verif.Spec.TriMat

/-! Specification vocabulary for symmetric and Hermitian matrices: sizes, addresses and memory only. -/
namespace TMV
variable {K : Type _}

/-- `(i,j)` is in the stored triangle. -/
def SView.In (M : SView) (i j : Int) : Prop :=
  0 ≤ i ∧ i < M.n ∧ 0 ≤ j ∧ j < M.n ∧ (if M.upper = true then i ≤ j else j ≤ i)

instance SView.decIn (M : SView) (i j : Int) : Decidable (M.In i j) := by unfold SView.In; infer_instance

/-- All stored elements are live memory. -/
def SView.Live (M : SView) (m : Mem K) : Prop := ∀ i j, M.In i j → (m (M.addr i j)).isSome
/-- Distinct stored elements have distinct addresses. -/
def SView.Inj (M : SView) : Prop :=
  ∀ i j i' j', M.In i j → M.In i' j' → M.addr i j = M.addr i' j' → i = i' ∧ j = j'
/-- `a` is the address of some stored element. -/
def SView.Covers (M : SView) (a : Int) : Prop := ∃ i j, M.In i j ∧ a = M.addr i j
/-- A symmetric view as the library creates them: distinct elements are distinct, steps not 0. -/
def SView.WF (M : SView) : Prop :=
  M.Inj ∧ (M.n = 0 ∨ (M.si ≠ 0 ∧ M.sj ≠ 0)) ∧ M.si + M.sj ≠ 0

/-- `M` reads as the full matrix `x`. -/
def SView.Holds [Star K] (M : SView) (m : Mem K) (x : Nat → Nat → K) : Prop :=
  ∀ i j : Nat, i < M.n → j < M.n → M.cref m i j = some (x i j)

/-- `x` is symmetric, or Hermitian if `herm`. -/
def SymOf [Star K] (herm : Bool) (n : Nat) (x : Nat → Nat → K) : Prop :=
  ∀ i j, i < n → j < n → x i j = if herm then star (x j i) else x j i

/-- The diagonal of a Hermitian matrix is real in memory (no condition for a symmetric matrix). -/
def SView.HermOK [Star K] (M : SView) (m : Mem K) : Prop :=
  M.herm = true → ∀ (k : Nat) (x : K), k < M.n → m (M.addr k k) = some x → star x = x

end TMV
