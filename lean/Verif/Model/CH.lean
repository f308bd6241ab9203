import Verif.Model.SymRK
import Mathlib.Analysis.SpecialFunctions.Pow.NNReal

/-! Cholesky decomposition: src/TMV_SymCHDecompose.cpp (the code used without LAPACK).

The matrix is stored in its lower triangle and given by the element function of that storage; an upper or conjugated
one is passed on as its adjoint or conjugate (TMV_SymCHDecompose.cpp:556-557).  Elements are exact real or complex
numbers.  `none` = `NonPosDefHermMatrix` was thrown. -/
namespace TMV.CH
open Tri (Ord splitAt sub paste)
noncomputable section
open Classical

variable {K : Type} [RCLike K]

/-- `z.real() = r`, through the view `A.realPart().diag()` (TMV_SymCHDecompose.cpp:123). -/
def setRe (z : K) (r : ℝ) : K := (r : K) + (RCLike.im z : K) * RCLike.I

/-- `if (*Ajj <= 0) throw NonPosDef; *Ajj = TMV_SQRT(*Ajj)` on the real parts of the diagonal
(TMV_SymCHDecompose.cpp:128-140, 148-161). -/
def root (j : Nat) (A : Nat → Nat → K) : Option (Nat → Nat → K) :=
  if RCLike.re (A j j) ≤ 0 then none else some (setE A j j (setRe (A j j) (Real.sqrt (RCLike.re (A j j)))))

/-- `A.col(j,j+1,N) /= *Ajj` (TMV_SymCHDecompose.cpp:141). -/
def divCol (N j : Nat) (A : Nat → Nat → K) : Nat → Nat → K :=
  fun a b => if b = j ∧ j < a ∧ a < N then A a b / ((RCLike.re (A j j) : ℝ) : K) else A a b

/-- One iteration of the column loop (TMV_SymCHDecompose.cpp:127-144). -/
def colStep (N j : Nat) (A : Nat → Nat → K) : Option (Nat → Nat → K) :=
  (root j A).map fun A =>
    let A := divCol N j A
    paste A (j+1) (j+1) (N-(j+1)) (N-(j+1))
      (SymRK.rank1 .cm false true true (N-(j+1)) (-1) (fun i => A (j+1+i) j) (sub A (j+1) (j+1)))

/-- `NonBlockCH_Decompose<true>` (TMV_SymCHDecompose.cpp:60-161), `N > 0`. -/
def nonBlockCM (N : Nat) (A : Nat → Nat → K) : Option (Nat → Nat → K) :=
  (forRange (colStep N) (N-1) 0 A).bind (root (N-1))

/-- One iteration of the row loop (TMV_SymCHDecompose.cpp:178-201): `v %= Lᴴ` is the lower-triangle solve with
`conj(L)`. -/
def rowStep (o : Ord) (i : Nat) (A : Nat → Nat → K) : Option (Nat → Nat → K) :=
  (Tri.lowerV o false i (fun a b => star (A a b)) (fun j => A i j)).bind fun v =>
    let A : Nat → Nat → K := fun a b => if a = i ∧ b < i then v b else A a b
    root i (setE A i i (setRe (A i i) (RCLike.re (A i i) - ∑ j ∈ Finset.range i, RCLike.normSq (A i j))))

/-- `NonBlockCH_Decompose<false>` (TMV_SymCHDecompose.cpp:162-202), `N > 0`. -/
def nonBlockRM (o : Ord) (N : Nat) (A : Nat → Nat → K) : Option (Nat → Nat → K) :=
  (root 0 A).bind (forRange (rowStep o) (N-1) 1)

/-- The special case `N ≤ 2` (TMV_SymCHDecompose.cpp:342-397); `*Aptr = sqrt(A00)` sets the whole element. -/
def tiny (N : Nat) (A : Nat → Nat → K) : Option (Nat → Nat → K) :=
  if RCLike.re (A 0 0) ≤ 0 then none
  else
    let d := Real.sqrt (RCLike.re (A 0 0))
    let A := setE A 0 0 ((d : ℝ) : K)
    if N = 2 then
      let A := setE A 1 0 (A 1 0 / ((d : ℝ) : K))
      let a11 := RCLike.re (A 1 1) - RCLike.normSq (A 1 0)
      if a11 ≤ 0 then none else some (setE A 1 1 ((Real.sqrt a11 : ℝ) : K))
    else some A

/-- Block sizes: `CH_BLOCKSIZE(2)`, `TRI_DIV_BLOCKSIZE(2)`, `SYM_RK_BLOCKSIZE(2)`. -/
structure Blks where
  ch : Nat
  ch2 : Nat
  td : Nat
  td2 : Nat
  rk : Nat
  rk2 : Nat

/-- `RecursiveCH_Decompose` (TMV_SymCHDecompose.cpp:306-398); `A10 %= L00t` is the lower-triangle solve with
`conj(L00)` of the transpose of `A10`; `A11 -= A10*A10.adjoint()` is `RankKUpdate`.  Fuel bounds the recursion. -/
def rec (bk : Blks) (o : Ord) : Nat → Nat → (Nat → Nat → K) → Option (Nat → Nat → K)
  | 0, _, _ => none
  | fuel+1, N, A =>
    if N > bk.ch2 then
      let k := splitAt bk.ch N
      (rec bk o fuel k A).bind fun A =>
      (Tri.lowerM bk.td bk.td2 o (decide (o = .cm)) false k (N-k) (fun a b => star (A a b)) (fun a b => A (k+b) a)).bind fun X =>
      let A : Nat → Nat → K := fun a b => if k ≤ a ∧ a < N ∧ b < k then X b (a-k) else A a b
      let A := paste A k k (N-k) (N-k) (SymRK.rankK bk.rk bk.rk2 o (decide (o = .rm)) false true true (N-k) k (-1)
        (fun i l => A (k+i) l) (sub A k k))
      (rec bk o fuel (N-k) (sub A k k)).map (paste A k k (N-k) (N-k))
    else if bk.ch2 > 2 ∧ N > 2 then (if o = .cm then nonBlockCM N A else nonBlockRM o N A)
    else if N > 0 then tiny N A
    else some A

/-- `CH_Decompose(A)` (TMV_SymCHDecompose.cpp:550-565). -/
def decompose (bk : Blks) (o : Ord) (N : Nat) (A : Nat → Nat → K) : Option (Nat → Nat → K) :=
  if N > 0 then rec bk o (N+1) N A else some A

end
end TMV.CH
