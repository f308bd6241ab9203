import Verif.Model.MatArith

/-!
The rank-1 update `A (+)= alpha * x^y` (src/TMV_Rank1_VVM.cpp, `OProdVV` of include/tmv/TMV_MatrixArith.h:236-330), on
the memory of `Model/Mem`, in the configuration without BLAS.  Simplifications as in `Model/VecArith`.
-/
namespace TMV
variable {K : Type _}
namespace MView

/-- `ColRank1Update<cx,cy,cm,add>(x,y,A)` (src/TMV_Rank1_VVM.cpp:54-104). -/
def colRank1 [Star K] [Ring K] [DecidableEq K] (add cx cm : Bool) (x y : VView) (A : MView) (m : Mem K) :
    Option (Mem K) :=
  let si := if cm then 1 else A.si
  loopN (fun j m =>
    (m.read (y.ptr + j * y.step)).bind fun yj =>
    if yj ≠ 0 then
      VView.loop3 (fun a b c => let t := cj cx a * cj y.conj b; if add then c + t else t) 1 0 si A.cs x.ptr
        (y.ptr + j * y.step) (A.ptr + j * A.sj) m
    else if add then some m
    else loopFill 0 si A.cs (A.ptr + j * A.sj) m) A.rs 0 m

/-- `UnitARank1Update<cx,add>(x,y,A)` (src/TMV_Rank1_VVM.cpp:106-129). -/
def unitRank1 [Star K] [Ring K] [DecidableEq K] (add cx : Bool) (x y : VView) (A : MView) (m : Mem K) :
    Option (Mem K) :=
  if A.iscm then colRank1 add cx true x y A m else colRank1 add cx false x y A m

/-- `NonBlasRank1Update<add>(alpha,x,y,A)` (src/TMV_Rank1_VVM.cpp:131-167). -/
def nonBlasRank1 [Star K] [Ring K] [DecidableEq K] (al : Alloc K) (add : Bool) (alpha : K) (x y : VView) (A : MView)
    (m : Mem K) : Option (Mem K) :=
  if x.step ≠ 1 ∨ alpha ≠ 1 then
    if x.step = 1 ∧ y.size < x.size then
      al.withTemp y.size (fun t m =>
        let yy : VView := ⟨t, y.size, 1, false⟩
        (VView.mulXV alpha y yy m).bind fun m => unitRank1 add x.conj x yy A m) m
    else
      al.withTemp x.size (fun t m =>
        let xx : VView := ⟨t, x.size, 1, false⟩
        (VView.mulXV alpha x xx m).bind fun m => unitRank1 add false xx y A m) m
  else unitRank1 add x.conj x y A m

/-- `Rank1Update<add>(alpha,x,y,A)` for a view that is not conjugated, `alpha != 0`
(src/TMV_Rank1_VVM.cpp:658-659, 746). -/
def rank1nc [Star K] [Ring K] [DecidableEq K] (al : Alloc K) (add : Bool) (alpha : K) (x y : VView) (A : MView)
    (m : Mem K) : Option (Mem K) :=
  if ¬ A.iscm ∧ A.isrm then nonBlasRank1 al add alpha y x A.transpose m
  else nonBlasRank1 al add alpha x y A m

/-- `Rank1Update<add>(alpha,x,y,A)`, i.e. `A (+)= alpha * x^y` (src/TMV_Rank1_VVM.cpp:625-748). -/
def rank1 [Star K] [Ring K] [DecidableEq K] (al : Alloc K) (add : Bool) (alpha : K) (x y : VView) (A : MView)
    (m : Mem K) : Option (Mem K) :=
  if A.cs > 0 ∧ A.rs > 0 then
    if alpha = 0 then (if add then some m else A.setZero m)
    else if A.conj then rank1nc al add (star alpha) x.conjugate y.conjugate A.conjugate m
    else rank1nc al add alpha x y A m
  else some m

end MView
end TMV
