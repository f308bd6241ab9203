import Verif.Model.SymRK

/-! `SymMultMM` (src/TMV_SymMultMMS.cpp): a matrix product that is known to be symmetric or Hermitian.

As in `Model/SymRK` the matrix is stored in its lower triangle and given by the element function of that storage; upper and
conjugated ones are passed on as their adjoint, transpose or conjugate (lines 301-307).  Exact real or complex elements. -/
namespace TMV.SymRK
open Tri (Ord splitAt)
noncomputable section
open Classical

variable {K : Type} [RCLike K]

/-- `RecursiveSymMultMM` (TMV_SymMultMMS.cpp:56-133): `x` is `N × kx`, `y` is `kx × N`; `rm` is `A.isrm()`; `nb`, `nb2` are
`SYM_R2K_BLOCKSIZE(2)`; fuel bounds the recursion. -/
def symMulRec (nb nb2 : Nat) (rm ha add : Bool) (kx : Nat) (α : K) :
    Nat → Nat → (Nat → Nat → K) → (Nat → Nat → K) → (Nat → Nat → K) → Nat → Nat → K
  | 0, _, _, _, A => A
  | fuel+1, N, x, y, A =>
    if N ≤ nb2 then
      if N = 1 then
        let temp := α * ∑ l ∈ Finset.range kx, x 0 l * y l 0
        setE A 0 0 (put add (A 0 0) (if ha then ((RCLike.re temp : ℝ) : K) else temp))
      else
        let A := if rm then
            up (fun i A => fun a b => if a = i ∧ b ≤ i then
              put add (A i b) (α * ∑ l ∈ Finset.range kx, x i l * y l b) else A a b) N 0 A
          else
            up (fun j A => fun a b => if b = j ∧ j ≤ a ∧ a < N then
              put add (A a j) (α * ∑ l ∈ Finset.range kx, x a l * y l j) else A a b) N 0 A
        if ha then realDiag N A else A
    else
      let k := splitAt nb N
      let A := symMulRec nb nb2 rm ha add kx α fuel k x y A
      let A := multBlock add α k (N-k) k kx (fun i l => x (k+i) l) y A
      Tri.paste A k k (N-k) (N-k)
        (symMulRec nb nb2 rm ha add kx α fuel (N-k) (fun i l => x (k+i) l) (fun l j => y l (k+j)) (Tri.sub A k k))

/-- `SymMultMM<add>(alpha,x,y,A)` (TMV_SymMultMMS.cpp:276-309, DoSymMultMM 263-272) when neither `x` nor `y` shares the storage of
`A`: nothing is done when `alpha == 0`. -/
def symMul (nb nb2 : Nat) (rm ha add : Bool) (N kx : Nat) (α : K) (x y A : Nat → Nat → K) : Nat → Nat → K :=
  if α ≠ 0 ∧ N > 0 then symMulRec nb nb2 rm ha add kx α (N+1) N x y A else A

end
end TMV.SymRK
