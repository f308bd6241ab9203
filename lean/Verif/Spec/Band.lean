import Verif.Model.Band
import Mathlib.Data.Finset.Prod
import Mathlib.Data.Finset.Range
import Verif.Spec.Mat

/-! Specification vocabulary for band matrices: sizes, diagonals, addresses and memory only. -/
namespace TMV
variable {K : Type _}

/-- `(i,j)` is inside the matrix and on one of its `lo` subdiagonals, the main diagonal or its `hi`
superdiagonals. -/
def InBand (cs rs : Nat) (lo hi : Int) (i j : Int) : Prop :=
  0 ≤ i ∧ i < cs ∧ 0 ≤ j ∧ j < rs ∧ i - j ≤ lo ∧ j - i ≤ hi

instance (cs rs : Nat) (lo hi i j : Int) : Decidable (InBand cs rs lo hi i j) := by
  unfold InBand; infer_instance

/-- `(i,j)` is an element of the matrix. -/
def InRect (cs rs : Nat) (i j : Int) : Prop := 0 ≤ i ∧ i < cs ∧ 0 ≤ j ∧ j < rs

/-- `(i,j)` is a stored element of `M`. -/
def BView.In (M : BView) (i j : Int) : Prop := InBand M.cs M.rs M.lo M.hi i j

instance (M : BView) (i j : Int) : Decidable (M.In i j) := by unfold BView.In; infer_instance

/-- All stored elements are live memory. -/
def BView.Live (M : BView) (m : Mem K) : Prop := ∀ i j, M.In i j → (m (M.addr i j)).isSome

/-- Distinct stored elements have distinct addresses. -/
def BView.Inj (M : BView) : Prop :=
  ∀ i j i' j', M.In i j → M.In i' j' → M.addr i j = M.addr i' j' → i = i' ∧ j = j'

/-- `a` is the address of some stored element. -/
def BView.Covers (M : BView) (a : Int) : Prop := ∃ i j, M.In i j ∧ a = M.addr i j

/-- A band view as the library creates them (the asserts of its constructor,
include/tmv/TMV_BandMatrix.h:1007-1024). -/
def BView.WF (M : BView) : Prop :=
  0 ≤ M.lo ∧ 0 ≤ M.hi ∧ (M.cs = 0 ∨ M.lo < M.cs) ∧ (M.rs = 0 ∨ M.hi < M.rs) ∧
  M.sd = M.si + M.sj ∧ M.Inj

/-- `V` shows exactly the stored elements of `M` that satisfy `keep`, shifted by `(a,b)`, at the same
addresses. -/
def BView.Shows (V M : BView) (a b : Int) (keep : Int → Int → Prop) : Prop :=
  ∀ i j, (V.In i j ↔ M.In (i + a) (j + b) ∧ keep (i + a) (j + b)) ∧
    V.addr i j = M.addr (i + a) (j + b)

/-- The number of stored elements. -/
def bandCount (cs rs : Nat) (lo hi : Int) : Nat :=
  ((Finset.range cs ×ˢ Finset.range rs).filter
    (fun p => (p.1 : Int) - p.2 ≤ lo ∧ (p.2 : Int) - p.1 ≤ hi)).card

end TMV
