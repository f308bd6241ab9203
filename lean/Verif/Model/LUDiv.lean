import Verif.Model.LU
import Verif.Model.TriProd
import Mathlib.Analysis.RCLike.Basic
import Mathlib.Analysis.SpecialFunctions.Log.Basic

/-! The `LUDiv` divider (src/TMV_LUD.cpp), `LU_Inverse` (src/TMV_LUInverse.cpp) and
`GenDiagMatrix::logDet` (src/TMV_DiagMatrix.cpp). -/
namespace TMV.LU
open TMV.Tri
variable {K : Type _} [Field K] [DecidableEq K] {S : Type _} [LinearOrder S] [Zero S]

/-- `LUDiv_Impl` (TMV_LUD.cpp:37-54): `istrans`, `LUx`, `P`. -/
structure Fac (K : Type _) where
  istrans : Bool
  LUx : Nat → Nat → K
  P : Nat → Nat

/-- `LUDiv(A)` (TMV_LUD.cpp:64-88), not in place: `istrans` is `A.isrm()`, `LUx` is a column-major copy of
`A` or of its transpose, which is decomposed. -/
def Fac.make (ab : K → S) (uf : S → Bool) (bs : Blk) (arm : Bool) (N : Nat) (A : Nat → Nat → K) : Option (Fac K) :=
  (decompose ab uf bs .cm N N (if arm then TriProd.tr A else A)).map fun s => ⟨arm, s.1, s.2⟩

/-- `doLDivEq` (TMV_LUD.cpp:93-101): `m /= A` for an `N`×`nc` matrix `m`. -/
def Fac.lDiv (bs : Blk) (brm : Bool) (N nc : Nat) (F : Fac K) (m : Nat → Nat → K) : Option (Nat → Nat → K) :=
  if F.istrans then rDivEq bs .cm brm N nc F.LUx F.P m else lDivEq bs .cm brm N nc F.LUx F.P m

/-- `doRDivEq` (TMV_LUD.cpp:103-111): `m %= A` for an `nr`×`N` matrix `m`. -/
def Fac.rDiv (bs : Blk) (brm : Bool) (N nr : Nat) (F : Fac K) (m : Nat → Nat → K) : Option (Nat → Nat → K) :=
  if F.istrans then (lDivEq bs .cm brm N nr F.LUx F.P (TriProd.tr m)).map TriProd.tr
  else (rDivEq bs .cm brm N nr F.LUx F.P (TriProd.tr m)).map TriProd.tr

/-- `LU_Inverse` (TMV_LUInverse.cpp:42-59, 234-280) into a matrix holding `minv` before: copy `LUx`, invert both
triangles, multiply them in place, undo the permutation (`reversePermuteCols` is `reversePermuteRows` of the
transpose).  `crm`, `o` describe the storage of `minv`; a view that is neither row nor column major goes through
a column-major temporary. `mb`, `mb2`: block sizes of the products. -/
def luInverse (nb mb mb2 : Nat) (o : Ord) (crm st : Bool) (N : Nat) (LUx : Nat → Nat → K) (P : Nat → Nat)
    (minv : Nat → Nat → K) : Option (Nat → Nat → K) :=
  if N > 0 then do
    let m := paste minv 0 0 N N LUx
    let m ← TriProd.triInverse nb mb mb2 o crm st false N m
    let m ← (TriProd.triInverse nb mb mb2 o crm st true N (TriProd.tr m)).map TriProd.tr
    let m := TriProd.multUL mb mb2 o crm st false true N 1 m
    some (TriProd.tr (reversePermuteRows N P N 0 (TriProd.tr m)))
  else some minv

/-- `doMakeInverse` (TMV_LUD.cpp:165-176). -/
def Fac.inverse (nb mb mb2 : Nat) (o : Ord) (crm st : Bool) (N : Nat) (F : Fac K) (minv : Nat → Nat → K) :
    Option (Nat → Nat → K) :=
  if F.istrans then (luInverse nb mb mb2 o crm st N F.LUx F.P (TriProd.tr minv)).map TriProd.tr
  else luInverse nb mb mb2 o crm st N F.LUx F.P minv

section Det
variable {𝕜 : Type _} [RCLike 𝕜] [DecidableEq 𝕜]

/-- Loop of `GenDiagMatrix::logDet` (TMV_DiagMatrix.cpp:59-93), state `(logdet, s)`.  `TMV_SIGN(d,a)` is `d/a`
(for real `d` the code writes it as `d > 0 ? 1 : -1`).  `log 0` is `-inf` in the code; only `s` is used then. -/
noncomputable def logDetLoop (d : Nat → 𝕜) : Nat → Nat → ℝ × 𝕜 → ℝ × 𝕜
  | 0, _, s => s
  | n+1, i, s => logDetLoop d n (i+1)
      (if d i = 0 then (Real.log (RCLike.re (d i)), 0)
       else (s.1 + Real.log ‖d i‖, s.2 * (d i / (‖d i‖ : 𝕜))))

/-- `LUDiv::logDet(&sign)` (TMV_LUD.cpp:152-163). -/
noncomputable def Fac.logDet (N : Nat) (F : Fac 𝕜) : ℝ × 𝕜 :=
  let r := logDetLoop (fun i => F.LUx i i) N 0 (0, 1)
  (r.1, ((Perm.detLoop ((List.range N).map F.P) 0 1 : Int) : 𝕜) * r.2)

/-- `LUDiv::det()` (TMV_LUD.cpp:139-150). -/
noncomputable def Fac.det (N : Nat) (F : Fac 𝕜) : 𝕜 :=
  let r := F.logDet N
  if r.2 = 0 then 0 else r.2 * ((Real.exp r.1 : ℝ) : 𝕜)

end Det
end TMV.LU
