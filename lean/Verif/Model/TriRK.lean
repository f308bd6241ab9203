import Verif.Model.CHDiv
import Verif.Model.TriMM

/-! Rank-k updates of symmetric and Hermitian matrices by triangles, `A (+)= alpha*L*L†` and `A (+)= alpha*U*U†` (transposes instead of
adjoints for symmetric `A`): TMV_RankK_LUS.cpp, TMV_RankK_ULS.cpp without LAPACK; exact real or complex elements of one type.  The triangle is
not stored in `A`. -/
namespace TMV.CH
open Tri (Ord splitAt sub paste)
noncomputable section
open Classical

variable {K : Type} [RCLike K]

/-- The base case `N == 1` (TMV_RankK_LUS.cpp:71-84, TMV_RankK_ULS.cpp:71-84): `d` is the element of the triangle, `lc` its `isconj()`; the
code squares `*(L.cptr())`, which is the memory and not the element. -/
def rkBase (h uu lc : Bool) (α d a : K) : K :=
  a + (if uu then α else α * (if h then ((RCLike.normSq (cj lc d) : ℝ) : K) else cj lc d * cj lc d))

/-- `RecursiveRankKUpdate<ha,uu,a1>(alpha,L,A)` (TMV_RankK_LUS.cpp:55-109), `A` stored in its lower triangle, `h` = `ha`, `o` its storage
order; `xrm` is `L21.isrm()`; `A21 += alpha * L21 * L11†` is computed as `A21.transpose() += alpha * conj(L11) * L21.transpose()`, `ol` the
storage order of `L11`, `brm`, `crm` are `L21.transpose().isrm()`, `A21.transpose().isrm()`.  Fuel bounds the recursion. -/
def rkLower (bk : UBlk) (o ol : Ord) (xrm brm crm h uu lc : Bool) (α : K) : Nat → Nat → (Nat → Nat → K) → (Nat → Nat → K) → Nat → Nat → K
  | 0, _, _, S => S
  | fuel+1, N, L, S =>
    if N = 1 then setE S 0 0 (rkBase h uu lc α (L 0 0) (S 0 0))
    else
      let k := splitAt bk.rk N
      let S := paste S k k (N-k) (N-k) (rkLower bk o ol xrm brm crm h uu lc α fuel (N-k) (sub L k k) (sub S k k))
      let S := paste S k k (N-k) (N-k) (SymRK.rankK bk.rk bk.rk2 o xrm lc h true (N-k) k α (fun i l => L (k+i) l) (sub S k k))
      let X := TriMul.addLower bk.mb bk.mb2 brm crm (N-k) (N+1) ol k uu α (fun i j => cj h (L i j)) (fun a b => L (k+b) a)
        (fun a b => S (k+b) a)
      let S : Nat → Nat → K := fun i j => if k ≤ i ∧ i < N ∧ j < k then X j (i-k) else S i j
      rkLower bk o ol xrm brm crm h uu lc α fuel k L S

/-- `RecursiveRankKUpdate<ha,uu,a1>(alpha,U,A)` (TMV_RankK_ULS.cpp:55-109), `A` stored in its upper triangle.  `RankKUpdate(alpha,U12,A11)`
works on the lower triangle of `A11.transpose()` with the conjugate of `U12` if `A` is Hermitian (TMV_RankK_MMS.cpp:408-466). -/
def rkUpper (bk : UBlk) (o ol : Ord) (xrm brm crm h uu lc : Bool) (α : K) : Nat → Nat → (Nat → Nat → K) → (Nat → Nat → K) → Nat → Nat → K
  | 0, _, _, M => M
  | fuel+1, N, U, M =>
    if N = 1 then setE M 0 0 (rkBase h uu lc α (U 0 0) (M 0 0))
    else
      let k := splitAt bk.rk N
      let M := rkUpper bk o ol xrm brm crm h uu lc α fuel k U M
      let M := TriProd.tr (SymRK.rankK bk.rk bk.rk2 o xrm (xor h lc) h true k (N-k) (cj h α) (fun i l => cj h (U i (k+l))) (TriProd.tr M))
      let X := TriMul.addUpper bk.mb bk.mb2 brm crm k (N+1) ol (N-k) uu α (fun i j => cj h (U (k+i) (k+j))) (fun a b => U b (k+a))
        (fun a b => M b (k+a))
      let M : Nat → Nat → K := fun i j => if i < k ∧ k ≤ j ∧ j < N then X (j-k) i else M i j
      paste M k k (N-k) (N-k) (rkUpper bk o ol xrm brm crm h uu lc α fuel (N-k) (sub U k k) (sub M k k))

/-- `RankKUpdate<add>(alpha,L,A)` (TMV_RankK_LUS.cpp:173-206), `A` not conjugated and stored in its lower triangle (the code brings the
other cases to this one). -/
def rankKLower (bk : UBlk) (o ol : Ord) (xrm brm crm bst h uu lc add : Bool) (α : K) (N : Nat) (L S : Nat → Nat → K) : Nat → Nat → K :=
  if α ≠ 0 ∧ N > 0 then
    if !add then
      let S : Nat → Nat → K := fun i j => if j ≤ i ∧ i < N then (if i = j ∧ uu then 1 else L i j) else S i j
      let S := setLLt bk o xrm brm bst h (N+1) N S
      fun i j => if j ≤ i ∧ i < N then S i j * α else S i j
    else rkLower bk o ol xrm brm crm h uu lc α (N+1) N L S
  else S

/-- `RankKUpdate<add>(alpha,U,A)` (TMV_RankK_ULS.cpp:238-272), `A` not conjugated and stored in its upper triangle. -/
def rankKUpper (bk : UBlk) (o ol : Ord) (xrm brm crm bst h uu lc add : Bool) (α : K) (N : Nat) (U M : Nat → Nat → K) : Nat → Nat → K :=
  if α ≠ 0 ∧ N > 0 then
    if !add then
      let M : Nat → Nat → K := fun i j => if i ≤ j ∧ j < N then (if i = j ∧ uu then 1 else U i j) else M i j
      let M := setUUt bk o xrm brm bst h (N+1) N M
      if α ≠ 1 then (fun i j => if i ≤ j ∧ j < N then M i j * α else M i j) else M
    else rkUpper bk o ol xrm brm crm h uu lc α (N+1) N U M
  else M

end
end TMV.CH
