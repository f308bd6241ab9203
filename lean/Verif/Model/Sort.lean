import Verif.Model.Vec
import Mathlib.Data.List.Basic
import Mathlib.Algebra.Group.Basic

/-! `VectorView::sort` and `ConvertIndexToPermute`. -/
namespace TMV
variable {K : Type _}

/-- `enum ADType` (include/tmv/TMV_Base.h). -/
inductive ADType | Ascend | Descend
deriving DecidableEq

/-- `enum CompType` (include/tmv/TMV_Base.h). -/
inductive CompType | RealComp | AbsComp | ImagComp | ArgComp
deriving DecidableEq

/-- Loop of `ConvertIndexToPermute` (src/TMV_ConvertIndex.h:42-53): `n` iterations left,
starting at `i`; the `std::vector`s are functions. -/
def convLoop (newIndex : Nat → Nat) : Nat → Nat → (Nat → Nat) → (Nat → Nat) → (Nat → Nat) → (Nat → Nat)
  | 0, _, _, _, P => P
  | n+1, i, currIndex, origIndex, P =>
      let ip := currIndex (newIndex i)
      let P := Function.update P i ip
      if i ≠ ip then
        let origi := origIndex i
        let origip := origIndex ip
        let currIndex := Function.update currIndex origi ip
        let currIndex := Function.update currIndex origip i
        let origIndex := Function.update origIndex i origip
        let origIndex := Function.update origIndex ip origi
        convLoop newIndex n (i+1) currIndex origIndex P
      else convLoop newIndex n (i+1) currIndex origIndex P

/-- `ConvertIndexToPermute(n,newIndex,P)` (src/TMV_ConvertIndex.h:30-54). -/
def convertIndexToPermute (n : Nat) (newIndex : Nat → Nat) : Nat → Nat :=
  convLoop newIndex n 0 id id (fun _ => 0)

/-- The key stored by `VTIndex(val,i,ad,comp)` (src/TMV_Vector.cpp:1174-1196): the chosen real
feature of the element, negated for `Descend`.  `feat comp` is `TMV_REAL`, `TMV_ABS`,
`TMV_IMAG` or `TMV_ARG`. -/
def vtKey {R : Type _} [Neg R] (feat : CompType → K → R) (ad : ADType) (comp : CompType) (x : K) : R :=
  match ad with
  | .Ascend => feat comp x
  | .Descend => -feat comp x

/-- Reading `v.ref(i)` for `i = i0, …, i0+n-1` into the `newindex` vector
(src/TMV_Vector.cpp:1268). -/
def VView.readKeys [Star K] {R : Type _} (key : K → R) (v : VView) (m : Mem K) :
    Nat → Nat → Option (List (R × Nat))
  | 0, _ => some []
  | n+1, i => do
      let x ← v.cref m i
      let l ← v.readKeys key m n (i+1)
      some ((key x, i) :: l)

/-- `sort(p,ad,comp)` with `p != 0` (src/TMV_Vector.cpp:1255-1271).  `srt` is `std::sort` on the
`VTIndex` vector.  Returns the memory and the interchange list. -/
def VView.sortP [Star K] {R : Type _} [Neg R] (feat : CompType → K → R)
    (srt : List (R × Nat) → List (R × Nat)) (v : VView) (ad : ADType) (comp : CompType)
    (m : Mem K) : Option (Mem K × (Nat → Nat)) := do
  let newindex ← v.readKeys (vtKey feat ad comp) m v.size 0
  let sorted := srt newindex
  let P := convertIndexToPermute v.size (fun i => (sorted.map Prod.snd).getD i 0)
  let m ← v.permute P 0 v.size m
  some (m, P)

/-- `n` consecutive elements from `p`. -/
def readRange (m : Mem K) : Nat → Int → Option (List K)
  | 0, _ => some []
  | n+1, p => do
      let x ← m.read p
      let l ← readRange m n (p+1)
      some (x :: l)

/-- Storing a list in consecutive elements from `p`. -/
def writeRange : List K → Int → Mem K → Option (Mem K)
  | [], _, m => some m
  | x :: l, p, m => do
      let m ← m.write p x
      writeRange l (p+1) m

/-- `Compare<T>(ad,comp)(x,y)` (src/TMV_Vector.cpp:1217-1249). -/
def compareT {R : Type _} [LT R] [DecidableLT R] (feat : CompType → K → R) (ad : ADType)
    (comp : CompType) (x y : K) : Bool :=
  match ad with
  | .Ascend => decide (feat comp x < feat comp y)
  | .Descend => decide (feat comp x > feat comp y)

/-- `sort(0,ad,comp)` (src/TMV_Vector.cpp:1272-1280): `std::sort(ptr(),ptr()+size(),cc)`.  `srt cc l`
is `std::sort` with comparison `cc`. -/
def VView.sortNoP {R : Type _} [LT R] [DecidableLT R] (feat : CompType → K → R)
    (srt : (K → K → Bool) → List K → List K) (v : VView) (ad : ADType) (comp : CompType)
    (m : Mem K) : Option (Mem K) := do
  let ad := if v.conj && (comp == .ImagComp || comp == .ArgComp) then
      (match ad with | .Ascend => .Descend | .Descend => .Ascend) else ad
  let l ← readRange m v.size v.ptr
  writeRange (srt (compareT feat ad comp) l) v.ptr m

end TMV
