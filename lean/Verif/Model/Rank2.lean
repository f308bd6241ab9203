import Verif.Model.SymRK
import Verif.Model.TriProd

/-! Rank-2 and rank-2k updates of symmetric and Hermitian matrices: src/TMV_Rank2_VVS.cpp, src/TMV_Rank2K_MMS.cpp (the
code used without BLAS).

A symmetric or Hermitian view is its memory `M` (indexed by row and column of the view) and flags: `up` (`isupper()`), `ca`
(`isconj()`), `ha` (`isherm()`), `o` (storage order).  For real element types the code uses `ha = false`, which has the same
effect.  Elements are exact: `ℝ` or `ℂ`. -/
namespace TMV.Rank2
open Tri (Ord splitAt)
open SymRK (put realDiag multBlock)
open TriProd (tr)
noncomputable section
open Classical

variable {K : Type} [RCLike K]

/-- A vector argument: its values, whether `step() == 1`, `isconj()`. -/
structure VArg (K : Type) where
  val : Nat → K
  step1 : Bool
  conj : Bool

/-- `v.conjugate()`. -/
def VArg.cjg (v : VArg K) : VArg K := ⟨fun i => star (v.val i), v.step1, !v.conj⟩

/-- `UpperRank2Update<ha,add>` (TMV_Rank2_VVS.cpp:47-153), `N > 0`, a column-major matrix stored in its upper triangle.  The
inner loops assign the elements of column `j` independently. -/
def upper2 (ha add : Bool) (N : Nat) (x y : Nat → K) (A : Nat → Nat → K) : Nat → Nat → K :=
  let A00 := if x 0 = 0 ∨ y 0 = 0 then 0 else if ha then 2 * ((RCLike.re (x 0 * star (y 0)) : ℝ) : K) else 2 * x 0 * y 0
  let A := up (fun j A => fun a b =>
    if b = j ∧ a ≤ j then
      (if x j ≠ 0 then
        (if y j ≠ 0 then put add (A a j) (x a * cj ha (y j) + y a * cj ha (x j)) else put add (A a j) (y a * cj ha (x j)))
       else if y j ≠ 0 then put add (A a j) (x a * cj ha (y j))
       else if add then A a j else 0)
    else A a b) (N-1) 1 A
  let A := setE A 0 0 (put add (A 0 0) A00)
  if ha then realDiag N A else A

/-- `LowerRank2Update<ha,add>` (TMV_Rank2_VVS.cpp:155-241). -/
def lower2 (ha add : Bool) (N : Nat) (x y : Nat → K) (A : Nat → Nat → K) : Nat → Nat → K :=
  let A := down (fun j A => fun a b =>
    if b = j ∧ j ≤ a ∧ a < N then
      (if y j ≠ 0 then
        (if x j ≠ 0 then put add (A a j) (x a * cj ha (y j) + y a * cj ha (x j)) else put add (A a j) (x a * cj ha (y j)))
       else if x j ≠ 0 then put add (A a j) (y a * cj ha (x j))
       else if add then A a j else 0)
    else A a b) N A
  if ha then realDiag N A else A

/-- `UnitARank2Update::F` (TMV_Rank2_VVS.cpp:243-288). -/
def unitA (up ha add : Bool) (N : Nat) (x y : Nat → K) (A : Nat → Nat → K) : Nat → Nat → K :=
  if up then upper2 ha add N x y A else lower2 ha add N x y A

/-- `NonBlasRank2Update<add>` (TMV_Rank2_VVS.cpp:291-371).  `x.size() <= y.size()` holds, the sizes are equal. -/
def nonBlas (up ha add : Bool) (N : Nat) (α : K) (x y : VArg K) (A : Nat → Nat → K) : Nat → Nat → K :=
  if x.step1 = false ∨ x.conj = true then
    unitA up ha add N (fun i => α * x.val i) y.val A
  else if y.step1 = false ∨ y.conj = true then
    unitA up ha add N x.val (fun i => α * y.val i) A
  else if α ≠ 1 then unitA up ha add N (fun i => α * x.val i) y.val A
  else unitA up ha add N x.val y.val A

/-- Element `(i,j)` is in the stored triangle. -/
def stored (up : Bool) (i j : Nat) : Prop := if up then i ≤ j else j ≤ i

/-- `A(i,j)` of the matrix (include/tmv/TMV_SymMatrix.h, `cref`). -/
def value (up ca ha : Bool) (M : Nat → Nat → K) (i j : Nat) : K :=
  if stored up i j then cj ca (M i j) else cj ha (cj ca (M j i))

/-- `Rank2Update<add>` for a matrix that is not conjugated (TMV_Rank2_VVS.cpp:620-684): the adjoint of a row-major Hermitian
view is a conjugated column-major view, which is conjugated once more. `mem`: the uninitialised temporary. -/
def rank2nc (o : Ord) (up ha add : Bool) (N : Nat) (α : K) (x y : VArg K) (mem M : Nat → Nat → K) : Nat → Nat → K :=
  match o with
  | .cm => nonBlas up ha add N α x y M
  | .rm =>
    if ha then tr (nonBlas (!up) ha add N (star α) x.cjg y.cjg (tr M))
    else tr (nonBlas (!up) ha add N α x y (tr M))
  | .no =>
    let AA := nonBlas false ha false N α x y mem
    fun i j => if stored up i j ∧ i < N ∧ j < N then put add (M i j) (value false false ha AA i j) else M i j

/-- `Rank2Update<add>(alpha,x,y,A)` (TMV_Rank2_VVS.cpp:585-702). -/
def rank2 (o : Ord) (up ca ha add : Bool) (N : Nat) (α : K) (x y : VArg K) (mem M : Nat → Nat → K) : Nat → Nat → K :=
  if α ≠ 0 ∧ N > 0 then
    if ca then rank2nc o up ha add N (star α) x.cjg y.cjg mem M else rank2nc o up ha add N α x y mem M
  else M

/-- A matrix argument: its values, `isrm()`, `iscm()`, `isconj()`. -/
structure MArg (K : Type) where
  val : Nat → Nat → K
  rm : Bool
  cm : Bool
  conj : Bool

/-- `m.conjugate()`. -/
def MArg.cjg (m : MArg K) : MArg K := ⟨fun i j => star (m.val i j), m.rm, m.cm, !m.conj⟩
/-- `m.rowRange(k,N)`. -/
def MArg.rows (m : MArg K) (k : Nat) : MArg K := ⟨fun i j => m.val (k+i) j, m.rm, m.cm, m.conj⟩
/-- `m.col(l)`. -/
def MArg.col (m : MArg K) (l : Nat) : VArg K := ⟨fun i => m.val i l, m.cm, m.conj⟩

/-- `RecursiveRank2KUpdate<ha,a1,add>` (TMV_Rank2K_MMS.cpp:58-154): `x`, `y` have `kx` columns, `A` is stored in its lower
triangle and not conjugated; the loop over the columns of matrices that are not row major runs to `N` (line 126). -/
def rank2KRec (nb nb2 : Nat) (o : Ord) (ha add : Bool) (kx : Nat) (α : K) (mem : Nat → Nat → K) :
    Nat → Nat → MArg K → MArg K → (Nat → Nat → K) → Nat → Nat → K
  | 0, _, _, _, A => A
  | fuel+1, N, x, y, A =>
    if N ≤ nb2 then
      if N = 1 then
        let temp := α * ∑ l ∈ Finset.range kx, x.val 0 l * cj ha (y.val 0 l)
        setE A 0 0 (put add (A 0 0) (if ha then 2 * ((RCLike.re temp : ℝ) : K) else 2 * temp))
      else if x.rm ∧ y.rm then
        if o = .rm then
          up (fun i A => fun a b => if a = i ∧ b ≤ i then
            put add (A i b) (α * ∑ l ∈ Finset.range kx, x.val i l * cj ha (y.val b l)) +
              ∑ l ∈ Finset.range kx, y.val i l * (cj ha α * cj ha (x.val b l)) else A a b) N 0 A
        else
          up (fun j A => fun a b => if b = j ∧ j ≤ a ∧ a < N then
            put add (A a j) (α * ∑ l ∈ Finset.range kx, x.val a l * cj ha (y.val j l)) +
              ∑ l ∈ Finset.range kx, y.val a l * (cj ha α * cj ha (x.val j l)) else A a b) N 0 A
      else up (fun l A => rank2 o false false ha add N α (x.col l) (y.col l) mem A) N 0 A
    else
      let k := splitAt nb N
      let A := rank2KRec nb nb2 o ha add kx α mem fuel k x y A
      let A := multBlock add α k (N-k) k kx (x.rows k).val (fun l j => cj ha (y.val j l)) A
      let A := multBlock true (cj ha α) k (N-k) k kx (y.rows k).val (fun l j => cj ha (x.val j l)) A
      Tri.paste A k k (N-k) (N-k) (rank2KRec nb nb2 o ha add kx α mem fuel (N-k) (x.rows k) (y.rows k) (Tri.sub A k k))

/-- `NonBlasRank2KUpdate<add>` (TMV_Rank2K_MMS.cpp:239-249, 338-349) when neither `x` nor `y` shares storage with `A`: an upper
triangle is passed on as its transpose or, if Hermitian, its adjoint, then a conjugated view as its conjugate. -/
def nonBlas2K (nb nb2 : Nat) (o : Ord) (up ca ha add : Bool) (N kx : Nat) (α : K) (x y : MArg K) (mem M : Nat → Nat → K) :
    Nat → Nat → K :=
  let o' := if up then (match o with | .rm => Ord.cm | .cm => Ord.rm | .no => Ord.no) else o
  let M' := if up then tr M else M
  let ca' := if up ∧ ha then !ca else ca
  let R := if ca' then rank2KRec nb nb2 o' ha add kx (star α) mem (N+1) N x.cjg y.cjg M'
    else rank2KRec nb nb2 o' ha add kx α mem (N+1) N x y M'
  if up then tr R else R

/-- `Rank2KUpdate<add>(alpha,x,y,A)` (TMV_Rank2K_MMS.cpp:535-705). -/
def rank2K (nb nb2 : Nat) (o : Ord) (up ca ha add : Bool) (N kx : Nat) (α : K) (x y : MArg K) (mem M : Nat → Nat → K) :
    Nat → Nat → K :=
  if α ≠ 0 ∧ N > 0 then
    if kx = 1 then rank2 o up ca ha add N α (x.col 0) (y.col 0) mem M
    else nonBlas2K nb nb2 o up ca ha add N kx α x y mem M
  else M

end
end TMV.Rank2
