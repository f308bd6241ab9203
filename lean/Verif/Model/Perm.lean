import Verif.Model.Vec
import Mathlib.Data.List.Basic

/-! `class Permutation` (include/tmv/TMV_Permutation.h), value layer: the array `itsp[0..itsn)` is a
list, reading outside it is `none`.  Ownership of the array is modelled in `Model/PermHeap.lean`. -/
namespace TMV
variable {K : Type _}

/-- `Permutation` (include/tmv/TMV_Permutation.h:522-525): `itsn` is `itsp.length`. -/
structure Perm where
  itsp : List Nat
  isinv : Bool
deriving DecidableEq, Repr

namespace Perm

/-- `size()` (TMV_Permutation.h:209). -/
def size (p : Perm) : Nat := p.itsp.length

/-- The array as a total function, for handing to `VView.permute` (which models
`const ptrdiff_t*`); indices outside are never used under `VView.permute p 0 n`. -/
def fn (p : Perm) : Nat → Nat := fun k => p.itsp.getD k 0

/-- `Permutation(n)` (TMV_Permutation.h:183-188). -/
def ident (n : Nat) : Perm := ⟨List.range n, false⟩

/-- The loop of `cref` (TMV_Permutation.h:250-253): `for(k=0;k<=i && k<=temp;++k) if (itsp[k]!=k)
{ if (temp == k) temp = itsp[k]; else if (temp == itsp[k]) temp = k; }`.  The fuel is `i+1`, the
largest possible number of iterations. -/
def crefLoop (l : List Nat) (i : Nat) : Nat → Nat → Nat → Option Nat
  | 0, _, temp => some temp
  | fuel+1, k, temp =>
      if k ≤ i ∧ k ≤ temp then do
        let pk ← l[k]?
        let temp := if pk ≠ k then (if temp = k then pk else if temp = pk then k else temp) else temp
        crefLoop l i fuel (k+1) temp
      else some temp

/-- `cref(i,j)` (TMV_Permutation.h:219-255). -/
def cref (p : Perm) (i j : Nat) : Option Int :=
  let ij := if p.isinv then (j, i) else (i, j)
  (crefLoop p.itsp ij.1 (ij.1+1) 0 ij.2).map fun temp => if temp = ij.1 then 1 else 0

/-- `inverse()` / `transpose()` (TMV_Permutation.h:267-271). -/
def inverse (p : Perm) : Perm := ⟨p.itsp, !p.isinv⟩

/-- Loop of `det()` (TMV_Permutation.h:275-276). -/
def detLoop : List Nat → Nat → Int → Int
  | [], _, d => d
  | x :: l, i, d => detLoop l (i+1) (if x ≠ i then -d else d)

/-- `det()` (TMV_Permutation.h:273-278). -/
def det (p : Perm) : Int := detLoop p.itsp 0 1

/-- `TMV_SWAP(index[k],index[pk])` on an array of length `n` (a function on its indices). -/
def swapIdx (n k pk : Nat) (index : Nat → Nat) : Option (Nat → Nat) :=
  if k < n ∧ pk < n then
    let a := index k
    let b := index pk
    some (Function.update (Function.update index k b) pk a)
  else none

/-- `if (itsp[k]!=k) TMV_SWAP(index[k],index[itsp[k]])` (TMV_Permutation.h:532, 535). -/
def indexStep (n k pk : Nat) (index : Nat → Nat) : Option (Nat → Nat) :=
  if pk ≠ k then swapIdx n k pk index else some index

/-- Forward loop of `makeIndex` (TMV_Permutation.h:534-535), `n` iterations starting at `k`. -/
def indexFwd (l : List Nat) : Nat → Nat → (Nat → Nat) → Option (Nat → Nat)
  | 0, _, index => some index
  | n+1, k, index => do
      let pk ← l[k]?
      let index ← indexStep l.length k pk index
      indexFwd l n (k+1) index

/-- Backward loop of `makeIndex` (TMV_Permutation.h:531-532): `k = n-1, …, 0`. -/
def indexBwd (l : List Nat) : Nat → (Nat → Nat) → Option (Nat → Nat)
  | 0, index => some index
  | n+1, index => do
      let pk ← l[n]?
      let index ← indexStep l.length n pk index
      indexBwd l n index

/-- `makeIndex` (TMV_Permutation.h:527-537). -/
def makeIndex (p : Perm) : Option (Nat → Nat) :=
  if p.isinv then indexBwd p.itsp p.size id else indexFwd p.itsp p.size 0 id

/-- Counting loop of `trace()` (TMV_Permutation.h:296). -/
def countFix (temp : Nat → Nat) : Nat → Nat → Nat → Nat
  | 0, _, t => t
  | n+1, k, t => countFix temp n (k+1) (if temp k = k then t+1 else t)

/-- `trace()` (TMV_Permutation.h:283-298). -/
def trace (p : Perm) : Option Nat := do
  let temp ← p.makeIndex
  some (countFix temp p.size 0 0)

/-- `setToIdentity()` value (TMV_Permutation.h:350-356). -/
def setToIdentity (p : Perm) : Perm := ⟨List.range p.size, false⟩

/-- `transposeSelf()` / `invertSelf()` (TMV_Permutation.h:358-362). -/
def transposeSelf (p : Perm) : Perm := ⟨p.itsp, !p.isinv⟩

/-- `apply(v)` (TMV_Permutation.h:433-437) i.e. `p * v` in place. -/
def apply (p : Perm) (v : VView) (m : Mem K) : Option (Mem K) :=
  if p.isinv then v.reversePermute p.fn 0 p.size m else v.permute p.fn 0 p.size m

/-- `for(i=0;i<n;++i) if (a[i] != b[i]) return false; return true;` (TMV_Permutation.h:919-921). -/
def eqLoop (a b : Nat → Option Nat) : Nat → Nat → Option Bool
  | 0, _ => some true
  | n+1, i => do
      let x ← a i
      let y ← b i
      if x ≠ y then some false else eqLoop a b n (i+1)

/-- `operator==` (TMV_Permutation.h:913-936).  The size equality is only a `TMVAssert`. -/
def eq (p1 p2 : Perm) : Option Bool :=
  if p1.isinv = p2.isinv then
    eqLoop (fun i => p1.itsp[i]?) (fun i => p2.itsp[i]?) p1.size 0
  else do
    let t1 ← p1.makeIndex
    let t2 ← p2.makeIndex
    eqLoop (fun i => some (t1 i)) (fun i => some (t2 i)) p1.size 0

end Perm
end TMV
