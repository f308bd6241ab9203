import Verif.Model.TriMat
import Verif.Spec.Mat

/-! Specification vocabulary for triangular matrices: sizes, addresses and memory only. -/
namespace TMV
variable {K : Type _}

/-- `(i,j)` is a stored element of the upper triangular matrix: in or above the diagonal, and strictly
above it if the diagonal is implicitly 1. -/
def TView.In (M : TView) (i j : Int) : Prop :=
  0 ≤ i ∧ i < M.n ∧ 0 ≤ j ∧ j < M.n ∧ (i < j ∨ (M.unit = false ∧ i = j))

instance TView.decIn (M : TView) (i j : Int) : Decidable (M.In i j) := by unfold TView.In; infer_instance

/-- All stored elements are live memory. -/
def TView.Live (M : TView) (m : Mem K) : Prop := ∀ i j, M.In i j → (m (M.addr i j)).isSome

/-- Distinct stored elements have distinct addresses. -/
def TView.Inj (M : TView) : Prop :=
  ∀ i j i' j', M.In i j → M.In i' j' → M.addr i j = M.addr i' j' → i = i' ∧ j = j'

/-- `a` is the address of some stored element. -/
def TView.Covers (M : TView) (a : Int) : Prop := ∃ i j, M.In i j ∧ a = M.addr i j

/-- A triangular view as the library creates them: distinct elements are distinct, steps not 0. -/
def TView.WF (M : TView) : Prop :=
  M.Inj ∧ (M.n = 0 ∨ (M.si ≠ 0 ∧ M.sj ≠ 0)) ∧ M.si + M.sj ≠ 0

/-- `M` reads as the matrix `x`, including the zeros below and the implicit ones on the diagonal. -/
def TView.Holds [Star K] [Zero K] [One K] (M : TView) (m : Mem K) (x : Nat → Nat → K) : Prop :=
  ∀ i j : Nat, i < M.n → j < M.n → M.cref m i j = some (x i j)

/-- A stored element of `A` and a stored element of `B` are the same memory only if they have the same
indices: `A` and `B` share nothing, or are the same matrix, or (for instance) `A` is the transpose of
the lower triangle of the matrix whose upper triangle is `B`. -/
def TView.NoClash (A B : TView) : Prop :=
  ∀ i j i' j', A.In i j → B.In i' j' → A.addr i j = B.addr i' j' → i = i' ∧ j = j'

/-- `(i,j)` is a stored element of the lower triangular matrix. -/
def LView.In (M : LView) (i j : Int) : Prop :=
  0 ≤ i ∧ i < M.n ∧ 0 ≤ j ∧ j < M.n ∧ (j < i ∨ (M.unit = false ∧ i = j))

instance LView.decIn (M : LView) (i j : Int) : Decidable (M.In i j) := by unfold LView.In; infer_instance

def LView.Live (M : LView) (m : Mem K) : Prop := ∀ i j, M.In i j → (m (M.addr i j)).isSome
def LView.Inj (M : LView) : Prop :=
  ∀ i j i' j', M.In i j → M.In i' j' → M.addr i j = M.addr i' j' → i = i' ∧ j = j'
def LView.Covers (M : LView) (a : Int) : Prop := ∃ i j, M.In i j ∧ a = M.addr i j
def LView.WF (M : LView) : Prop :=
  M.Inj ∧ (M.n = 0 ∨ (M.si ≠ 0 ∧ M.sj ≠ 0)) ∧ M.si + M.sj ≠ 0

end TMV
