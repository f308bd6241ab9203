import Verif.Model.SymMM

/-! `SymMultMM` (src/TMV_SymMultMMS.cpp:135-261) when an operand is stored in the same memory as the symmetric matrix.

`A` is the element function of the memory whose lower triangle (rows and columns below `N`) is the symmetric matrix.  An operand is
either another matrix, or a view of that memory that starts at the same element: the memory itself, transposed and/or conjugated. -/
namespace TMV.SymRK
noncomputable section
open Classical

variable {K : Type} [RCLike K]

/-- Where an operand is stored: in other memory, with elements `f`, or in that of `A` (`tr`: transposed, `c`: conjugated). -/
inductive Src (K : Type) where
  | ext (f : Nat → Nat → K)
  | own (tr c : Bool)

/-- The elements of an operand, given the current content of the memory. -/
def Src.rd : Src K → (Nat → Nat → K) → Nat → Nat → K
  | .ext f, _ => f
  | .own tr c, A => fun i j => cj c (if tr then A j i else A i j)

/-- `x.subMatrix(k,N,k,N)`, next to `A.subSymMatrix(k,N)`. -/
def Src.sub (s : Src K) (k : Nat) : Src K :=
  match s with
  | .ext f => .ext (Tri.sub f k k)
  | .own tr c => .own tr c

/-- `RecursiveInPlaceSymMultMM<ha,a1,add>` (lines 135-195), `N = A.size() > 0`.  The blocks `x10`, `y01`, `x01`, `y10` passed to
`RecursiveSymMultMM` are not stored in the block of `A` it changes.  Fuel bounds the recursion. -/
def inPlaceSym (nb nb2 : Nat) (rm ha add : Bool) (α : K) : Nat → Nat → Src K → Src K → (Nat → Nat → K) → Nat → Nat → K
  | 0, _, _, _, A => A
  | fuel+1, N, sx, sy, A =>
    if N = 1 then
      let temp := α * (sx.rd A 0 0 * sy.rd A 0 0)
      setE A 0 0 (put add (A 0 0) (if ha then ((RCLike.re temp : ℝ) : K) else temp))
    else
      let k := N/2
      -- tempA10 = x10*y00; tempA10 += x11*y10
      let t1 : Nat → Nat → K := fun i j => ∑ l ∈ Finset.range k, sx.rd A (k+i) l * sy.rd A l j
      let t : Nat → Nat → K := fun i j => t1 i j + ∑ l ∈ Finset.range (N-k), sx.rd A (k+i) (k+l) * sy.rd A (k+l) j
      let A := Tri.paste A k k (N-k) (N-k) (inPlaceSym nb nb2 rm ha add α fuel (N-k) (sx.sub k) (sy.sub k) (Tri.sub A k k))
      let A := Tri.paste A k k (N-k) (N-k) (symMulRec nb nb2 rm ha true k α (N-k+1) (N-k) (fun i l => sx.rd A (k+i) l)
        (fun l j => sy.rd A l (k+j)) (Tri.sub A k k))
      let A := inPlaceSym nb nb2 rm ha add α fuel k sx sy A
      let A := symMulRec nb nb2 rm ha true (N-k) α (k+1) k (fun i l => sx.rd A i (k+l)) (fun l j => sy.rd A (k+l) j) A
      fun i j => if k ≤ i ∧ i < N ∧ j < k then put add (A i j) (α * t (i-k) j) else A i j

/-- `DoSymMultMM<add>` (lines 216-261) if `SameStorage(x,A) || SameStorage(y,A)`: `x` is `N`×`kx`, `y` is `kx`×`N`; `c1` is
`(y.stepi() < y.stepj()) != (A.stepi() < A.stepj())` and `c2` is `(x.stepi() < x.stepj()) == (A.stepi() < A.stepj())`.  The inner calls
of `DoSymMultMM` get operands that do not start where their block of `A` starts, so they are `RecursiveSymMultMM`.  In the last line
`y.rowRange(0,K)` has more columns than `A.subSymMatrix(0,K)`, of which the recursion uses the first `K`.  `MultMM` computes its product
from the old elements also if `x` is stored in `C` (C41). -/
def doSymAlias (nb nb2 : Nat) (rm ha add c1 c2 : Bool) (N kx : Nat) (α : K) (sx sy : Src K) (A : Nat → Nat → K) : Nat → Nat → K :=
  if kx ≥ N then
    let A := inPlaceSym nb nb2 rm ha add α (N+1) N sx sy A
    if kx > N then
      symMulRec nb nb2 rm ha add (kx-N) α (N+1) N (fun i l => sx.rd A i (N+l)) (fun l j => sy.rd A (N+l) j) A
    else A
  else
    let A := Tri.paste A kx kx (N-kx) (N-kx) (symMulRec nb nb2 rm ha add kx α (N-kx+1) (N-kx) (fun i l => sx.rd A (kx+i) l)
      (fun l j => sy.rd A l (kx+j)) (Tri.sub A kx kx))
    let A :=
      if c1 then
        if c2 then
          let temp : Nat → Nat → K := fun i j => ∑ l ∈ Finset.range kx, sx.rd A (kx+i) l * sy.rd A l j
          fun i j => if kx ≤ i ∧ i < N ∧ j < kx then put add (A i j) (α * temp (i-kx) j) else A i j
        else
          let A := multBlock add α kx (N-kx) kx (N-kx) (fun i l => sx.rd A (kx+i) (kx+l)) (fun l j => sy.rd A (kx+l) j) A
          multBlock true α kx (N-kx) kx kx (fun i l => sx.rd A (kx+i) l) (fun l j => sy.rd A l j) A
      else multBlock add α kx (N-kx) kx kx (fun i l => sx.rd A (kx+i) l) (fun l j => sy.rd A l j) A
    inPlaceSym nb nb2 rm ha add α (kx+1) kx sx sy A

/-- `SymMultMM<add>(alpha,x,y,A)` (lines 276-309) with an operand stored in the memory of `A`. -/
def symMulAlias (nb nb2 : Nat) (rm ha add c1 c2 : Bool) (N kx : Nat) (α : K) (sx sy : Src K) (A : Nat → Nat → K) : Nat → Nat → K :=
  if α ≠ 0 ∧ N > 0 then doSymAlias nb nb2 rm ha add c1 c2 N kx α sx sy A else A

end
end TMV.SymRK
