import Mathlib.Algebra.Field.Basic
import Mathlib.Algebra.BigOperators.Group.Finset.Defs
import Mathlib.Data.Finset.Range
import Mathlib.Logic.Function.Basic

/-! `v2 = v1 / U` and `v2 = v1 / L` for triangular matrices whose storage may be shared with the vectors (src/TMV_TriDiv.cpp:53-64, 117-128).
Exact arithmetic, one element type, memory as a map from addresses. -/
namespace TMV.TriDivAlias
variable {ι K : Type _} [DecidableEq ι] [Field K]

/-- `TriLDivEq(L,b)` (src/TMV_TriDiv_V.cpp), its first `n` rows: forward substitution in the memory `M`, for a lower triangular matrix with the
addresses `a i j` and a vector with the addresses `b i`.  Simplified: the row-by-row form only, without the shortcut for leading zeros; that all
forms agree for separate storage is C30. -/
def fsub (unit : Bool) (a : Nat → Nat → ι) (b : Nat → ι) (M : ι → K) : Nat → ι → K
  | 0 => M
  | n + 1 =>
    let M' := fsub unit a b M n
    Function.update M' (b n) ((M' (b n) - ∑ j ∈ Finset.range n, M' (a n j) * M' (b j)) / (if unit then 1 else M' (a n n)))

/-- `TriLDivEq(U,b)` (src/TMV_TriDiv_V.cpp): the same from the last row up. -/
def bsub (unit : Bool) (a : Nat → Nat → ι) (b : Nat → ι) (N : Nat) (M : ι → K) : ι → K :=
  fsub unit (fun i j => a (N - 1 - i) (N - 1 - j)) (fun i => b (N - 1 - i)) M N

/-- `v = x` for a vector with the addresses `b`; the values are read before any is written (a `v1` that overlaps `v2` at an offset is not
modelled). -/
def putV (b : Nat → ι) (x : Nat → K) (M : ι → K) : Nat → ι → K
  | 0 => M
  | n + 1 => Function.update (putV b x M n) (b n) (x n)

/-- `GenLowerTriMatrix::doLDiv(v1,v2)` (src/TMV_TriDiv.cpp:117-128): `SameStorage` compares the addresses of the first elements
(include/tmv/TMV_Base.h:239-252); the temporary vector is memory of its own. -/
def lDivL (unit : Bool) (a : Nat → Nat → ι) (b1 b2 : Nat → ι) (N : Nat) (M : ι → K) : ι → K :=
  if a 0 0 = b2 0 then
    let T := fsub unit (fun i j => (Sum.inl (a i j) : ι ⊕ Nat)) Sum.inr (Sum.elim M fun i => M (b1 i)) N
    putV b2 (fun i => T (.inr i)) M N
  else fsub unit a b2 (putV b2 (fun i => M (b1 i)) M N) N

/-- `GenUpperTriMatrix::doLDiv(v1,v2)` (src/TMV_TriDiv.cpp:53-64): the test is on `v1`. -/
def lDivU (unit : Bool) (a : Nat → Nat → ι) (b1 b2 : Nat → ι) (N : Nat) (M : ι → K) : ι → K :=
  if a 0 0 = b1 0 then
    let T := bsub unit (fun i j => (Sum.inl (a i j) : ι ⊕ Nat)) Sum.inr N (Sum.elim M fun i => M (b1 i))
    putV b2 (fun i => T (.inr i)) M N
  else bsub unit a b2 N (putV b2 (fun i => M (b1 i)) M N)

end TMV.TriDivAlias
