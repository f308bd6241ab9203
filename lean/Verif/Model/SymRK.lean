import Verif.Model.Vec
import Verif.Model.Fun
import Verif.Model.Loop
import Verif.Model.Tri
import Verif.Model.TriMul
import Mathlib.Analysis.RCLike.Basic

/-! Rank-1 and rank-k updates of symmetric and Hermitian matrices: src/TMV_Rank1_VVS.cpp, src/TMV_RankK_MMS.cpp (the
code used without BLAS).

A symmetric matrix stored in its lower triangle is given by the element function of that storage; only elements with
`j ≤ i` belong to it.  `ha` = `A.isherm()`.  Matrices stored in the upper triangle or conjugated are passed on as their
transpose, adjoint or conjugate (TMV_Rank1_VVS.cpp:237-243, TMV_RankK_MMS.cpp:253-258), which is the case modelled here.
Elements are exact: `ℝ` or `ℂ`. -/
namespace TMV.SymRK
open Tri (Ord splitAt)
noncomputable section
open Classical

variable {K : Type} [RCLike K]

/-- `A.diag().imagPart().setZero()` (TMV_Rank1_VVS.cpp:136, 205). -/
def realDiag (N : Nat) (A : Nat → Nat → K) : Nat → Nat → K :=
  fun i j => if i = j ∧ i < N then ((RCLike.re (A i i) : ℝ) : K) else A i j

/-- `*Aij += temp` or `*Aij = temp`. -/
def put (add : Bool) (old temp : K) : K := if add then old + temp else temp

/-- `RowRank1Update` (TMV_Rank1_VVS.cpp:46-138), `N > 0`: `x` is the memory content of the vector, `cx` its
conjugation flag.  The inner loop over `j` assigns the elements of row `i` independently. -/
def rowRank1 (cx ha add : Bool) (N : Nat) (α : K) (x : Nat → K) (A : Nat → Nat → K) : Nat → Nat → K :=
  let A00 := if x 0 = 0 then 0 else if ha then α * (RCLike.normSq (x 0) : ℝ)
    else if cx then α * star (x 0 * x 0) else α * (x 0 * x 0)
  let A := up (fun i A => fun a b =>
    if a = i ∧ b ≤ i then
      (if x i ≠ 0 then put add (A i b) (α * cj cx (x i) * (if ha = cx then x b else star (x b)))
       else if add then A i b else 0)
    else A a b) (N-1) 1 A
  let A := setE A 0 0 (put add (A 0 0) A00)
  if ha then realDiag N A else A

/-- `ColRank1Update` (TMV_Rank1_VVS.cpp:140-207). -/
def colRank1 (cx ha add : Bool) (N : Nat) (α : K) (x : Nat → K) (A : Nat → Nat → K) : Nat → Nat → K :=
  let A := down (fun j A => fun a b =>
    if b = j ∧ j ≤ a ∧ a < N then
      (if x j ≠ 0 then put add (A a j) (α * (if ha ≠ cx then star (x j) else x j) * cj cx (x a))
       else if add then A a j else 0)
    else A a b) N A
  if ha then realDiag N A else A

/-- `Rank1Update<add>(alpha,x,A)` (TMV_Rank1_VVS.cpp:546-618 without BLAS, NonBlasRank1Update 227-274, DoRank1Update
209-224): nothing is done when `alpha == 0`.  A copy of `x` made because of its step has the same elements. -/
def rank1 (o : Ord) (cx ha add : Bool) (N : Nat) (α : K) (x : Nat → K) (A : Nat → Nat → K) : Nat → Nat → K :=
  if α ≠ 0 ∧ N > 0 then
    match o with
    | .rm => rowRank1 cx ha add N α x A
    | .cm => colRank1 cx ha add N α x A
    | .no => rowRank1 cx ha add N α x A
  else A

/-- `C = alpha*A*B` or `C += alpha*A*B` on the `m × n` block at row `r` of `C` (`MultMM<add>`). -/
def multBlock (add : Bool) (α : K) (r m n k : Nat) (A B C : Nat → Nat → K) : Nat → Nat → K :=
  fun i j => if r ≤ i ∧ i < r + m ∧ j < n then put add (C i j) (α * ∑ l ∈ Finset.range k, A (i-r) l * B l j) else C i j

/-- `RecursiveRankKUpdate` (TMV_RankK_MMS.cpp:59-141): `x` has `kx` columns, `xrm` is `x.isrm()`, `cx` its conjugation
flag (here `x` is the value, so the memory is `cj cx x`); `nb`, `nb2` are `SYM_RK_BLOCKSIZE(2)`; fuel bounds the
recursion. -/
def rankKRec (nb nb2 : Nat) (o : Ord) (xrm cx ha add : Bool) (kx : Nat) (α : K) :
    Nat → Nat → (Nat → Nat → K) → (Nat → Nat → K) → Nat → Nat → K
  | 0, _, _, A => A
  | fuel+1, N, x, A =>
    if N ≤ nb2 then
      if N = 1 then
        setE A 0 0 (put add (A 0 0) (α * (if ha then ((∑ l ∈ Finset.range kx, RCLike.normSq (x 0 l) : ℝ) : K)
          else ∑ l ∈ Finset.range kx, x 0 l * x 0 l)))
      else if xrm then
        if o = .rm then
          up (fun i A => fun a b => if a = i ∧ b ≤ i then
            put add (A i b) (α * ∑ l ∈ Finset.range kx, x i l * cj ha (x b l)) else A a b) N 0 A
        else
          up (fun j A => fun a b => if b = j ∧ j ≤ a ∧ a < N then
            put add (A a j) (α * ∑ l ∈ Finset.range kx, x a l * cj ha (x j l)) else A a b) N 0 A
      else up (fun l A => rank1 o cx ha add N α (fun i => cj cx (x i l)) A) kx 0 A
    else
      let k := splitAt nb N
      let A := rankKRec nb nb2 o xrm cx ha add kx α fuel k x A
      let A := multBlock add α k (N-k) k kx (fun i l => x (k+i) l) (fun l j => cj ha (x j l)) A
      Tri.paste A k k (N-k) (N-k) (rankKRec nb nb2 o xrm cx ha add kx α fuel (N-k) (fun i l => x (k+i) l) (Tri.sub A k k))

/-- `RankKUpdate<add>(alpha,x,A)` (TMV_RankK_MMS.cpp:408-466 without BLAS, NonBlasRankKUpdate 249-290) when `x` and `A`
do not share storage: nothing is done when `alpha == 0` or `x` has no columns. -/
def rankK (nb nb2 : Nat) (o : Ord) (xrm cx ha add : Bool) (N kx : Nat) (α : K) (x A : Nat → Nat → K) : Nat → Nat → K :=
  if α ≠ 0 ∧ N > 0 ∧ kx > 0 then
    if kx = 1 then rank1 o cx ha add N α (fun i => cj cx (x i 0)) A
    else rankKRec nb nb2 o xrm cx ha add kx α (N+1) N x A
  else A

/-- `RecursiveInPlaceRankKUpdate` (TMV_RankK_MMS.cpp:143-207): `x` is `N × N` and its memory is that of `A` (same
element functions: `x = A` with the conjugation `cx`, or its transpose when `tr`).  `none` of the temporaries matter
except `tempA10`, taken first. -/
def inPlace (nb nb2 : Nat) (o : Ord) (xrm ha add : Bool) (α : K) (val : (Nat → Nat → K) → Nat → Nat → K) :
    Nat → Nat → Nat → (Nat → Nat → K) → Nat → Nat → K
  | 0, _, _, A => A
  | fuel+1, N, r, A =>
    let x := val A
    if N = 1 then
      setE A r r (put add (A r r) (α * (if ha then ((RCLike.normSq (x r r) : ℝ) : K) else x r r * x r r)))
    else
      let k := N/2
      let temp := fun i j => (∑ l ∈ Finset.range k, x (r+k+i) (r+l) * cj ha (x (r+j) (r+l))) +
        ∑ l ∈ Finset.range (N-k), x (r+k+i) (r+k+l) * cj ha (x (r+j) (r+k+l))
      let A := inPlace nb nb2 o xrm ha add α val fuel (N-k) (r+k) A
      let A := Tri.paste A (r+k) (r+k) (N-k) (N-k)
        (rankKRec nb nb2 o xrm false ha true k α (N+1) (N-k) (fun i l => val A (r+k+i) (r+l)) (Tri.sub A (r+k) (r+k)))
      let A := inPlace nb nb2 o xrm ha add α val fuel k r A
      let A := Tri.paste A r r k k
        (rankKRec nb nb2 o xrm false ha true (N-k) α (N+1) k (fun i l => val A (r+i) (r+k+l)) (Tri.sub A r r))
      fun i j => if r+k ≤ i ∧ i < r+N ∧ r ≤ j ∧ j < r+k then put add (A i j) (α * temp (i-(r+k)) (j-r)) else A i j

/-- `NonBlasRankKUpdate` for a shared `x` with `kx > N` columns (TMV_RankK_MMS.cpp:263-268): the first `N` columns in
place, the others by `RecursiveRankKUpdate` with the same `add`. -/
def aliasWide (nb nb2 : Nat) (o : Ord) (xrm ha add : Bool) (α : K) (val : (Nat → Nat → K) → Nat → Nat → K)
    (N kx : Nat) (A : Nat → Nat → K) : Nat → Nat → K :=
  let A1 := inPlace nb nb2 o xrm ha add α val (N+1) N 0 A
  rankKRec nb nb2 o xrm false ha add (kx-N) α (N+1) N (fun i l => val A1 i (N+l)) A1

end
end TMV.SymRK
