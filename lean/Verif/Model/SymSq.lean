import Verif.Model.CHDiv
import Verif.Model.LDLDiv
import Verif.Model.BandCH

/-! `makeInverseATA` of the symmetric dividers: `SymSquare` (src/TMV_SymSquare.cpp), src/TMV_SymCHD.cpp:176-185,
src/TMV_SymLDLD.cpp:150-163, src/TMV_SymBandCHD.cpp:226-235. -/
namespace TMV.SymSq
open Tri (Ord)
noncomputable section
open Classical

variable {K : Type} [RCLike K]

/-- Assign to (`add = false`) or add to the block with upper left corner `(r, c)` and `m` rows and `n` columns the product `X*Y` with inner
dimension `k`.  The matrix product routines are modelled exactly (their properties are those of the matrix product, C36 and after). -/
def mulBlk (add : Bool) (r c m k n : Nat) (X Y : Nat → Nat → K) (M : Nat → Nat → K) : Nat → Nat → K := fun i j =>
  if r ≤ i ∧ i < r + m ∧ c ≤ j ∧ j < c + n then
    (if add then M i j else 0) + ∑ l ∈ Finset.range k, X (i-r) l * Y l (j-c)
  else M i j

/-- `SymSquare<herm>(A)` (TMV_SymSquare.cpp:31-70) on the block with corner `(o, o)` and size `N` of the matrix `M`; `fuel` bounds the depth
of the recursion, `none` means that it is exceeded. -/
def symSquare (h : Bool) : Nat → Nat → Nat → (Nat → Nat → K) → Option (Nat → Nat → K)
  | 0, _, _, _ => none
  | fuel+1, o, N, M =>
    if N = 1 then
      some fun i j => if i = o ∧ j = o then (if h then ((RCLike.re (M o o) * RCLike.re (M o o) : ℝ) : K) else M o o * M o o) else M i j
    else
      let k := N / 2
      let A00 (M : Nat → Nat → K) := fun i j => M (o+i) (o+j)
      let A11 (M : Nat → Nat → K) := fun i j => M (o+k+i) (o+k+j)
      let A10 (M : Nat → Nat → K) := fun i j => M (o+k+i) (o+j)
      let A10t (M : Nat → Nat → K) := fun i j => cj h (M (o+k+j) (o+i))
      -- A01 = A00 * A10t; A01 += A10t * A11
      let M := mulBlk false o (o+k) k k (N-k) (A00 M) (A10t M) M
      let M := mulBlk true o (o+k) k (N-k) (N-k) (A10t M) (A11 M) M
      -- SymSquare<herm>(A00); A00 += A10t*A10
      (symSquare h fuel o k M).bind fun M =>
      let M := mulBlk true o o k (N-k) k (A10t M) (A10 M) M
      -- SymSquare<herm>(A11); A11 += A10*A10t
      (symSquare h fuel (o+k) (N-k) M).bind fun M =>
      let M := mulBlk true (o+k) (o+k) (N-k) k (N-k) (A10 M) (A10t M) M
      -- A10t = A01
      some fun i j => if o + k ≤ i ∧ i < o + N ∧ o ≤ j ∧ j < o + k then cj h (M j i) else M i j

/-- `ata.diag().imagPart().setZero()`. -/
def realDiag (N : Nat) (M : Nat → Nat → K) : Nat → Nat → K :=
  fun i j => if i = j ∧ i < N then ((RCLike.re (M i i) : ℝ) : K) else M i j

/-- `HermCHDiv::doMakeInverseATA(ata)` (TMV_SymCHD.cpp:176-185); `fuel` bounds the recursion of `SymSquare`. -/
def chATA (fuel : Nat) (bk : CH.UBlk) (o : Ord) (xrm brm bst crm cst : Bool) (N : Nat) (LL ata : Nat → Nat → K) :
    Option (Nat → Nat → K) :=
  (CH.inverse bk o xrm brm bst crm cst N LL (realDiag N ata)).bind (symSquare true fuel 0 N)

/-- `SymLDLDiv::doMakeInverseATA(ata)` (TMV_SymLDLD.cpp:150-163). -/
def ldlATA (fuel : Nat) (bk : LDL.IBlk) (o : Ord) (crm cst h : Bool) (N : Nat) (s : LDL.St K) (ata : Nat → Nat → K) :
    Option (Nat → Nat → K) :=
  if h then (LDL.inverse bk o crm cst true N s.A s.xD s.P (realDiag N ata)).bind (symSquare true fuel 0 N)
  else (LDL.inverse bk o crm cst false N s.A s.xD s.P ata).bind (symSquare false fuel 0 N)

/-- `HermBandCHDiv::doMakeInverseATA(ata)` (TMV_SymBandCHD.cpp:226-235). -/
def bandATA (fuel : Nat) (bk : CH.UBlk) (o : Ord) (xrm brm bst crm cst ac : Bool) (l : Diag.Lay) (N lo : Nat) (LL ata : Nat → Nat → K) :
    Option (Nat → Nat → K) :=
  (BandCH.inverse bk o xrm brm bst crm cst ac l N lo LL (realDiag N ata)).bind (symSquare true fuel 0 N)

end
end TMV.SymSq
