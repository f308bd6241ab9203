import Verif.Model.SymMM
import Verif.Model.LU
import Mathlib.Analysis.SpecialFunctions.Log.Basic

/-! Bunch-Kaufman decomposition `A = P L D L† P^T`: src/TMV_SymLDLDecompose.cpp (the code used without LAPACK) and
`SymInvert_2x2` (src/TMV_SymLDLPseudo.cpp).

The matrix is stored in its lower triangle and given by the element function of that storage.  Elements are exact real or complex
numbers; `TMV_Underflow(x)` is `x = 0`; `log 0` is not -inf, but is not used. -/
namespace TMV.LDL
open Tri (Ord sub paste)
open SymRK (rank1 realDiag symMul)
noncomputable section
open Classical

variable {K : Type} [RCLike K]

/-- `A`, `xD`, `P`, `logdet`, `signdet` of `LDL_Decompose`. -/
structure St (K : Type) where
  A : Nat → Nat → K
  xD : Nat → K
  P : Nat → Nat
  logdet : ℝ
  signdet : K

/-- `alpha` (TMV_SymLDLDecompose.cpp:187, 443). -/
def alpha : ℝ := (Real.sqrt 17 + 1) / 8

/-- `TMV_REAL(z)` in the Hermitian case. -/
def reH (h : Bool) (z : K) : K := if h then ((RCLike.re z : ℝ) : K) else z

/-- The decision about the pivot. -/
inductive Pivot
  /-- 1×1, after rows and columns `j` and `p` have been exchanged. -/
  | one (p : Nat)
  /-- 2×2, after rows and columns `j+1` and `p` have been exchanged. -/
  | two (p : Nat)

/-- The choice of the pivot (TMV_SymLDLDecompose.cpp:204-251, 469-560), given `N`, `j`, the column `j` of what remains (`cj` from row
`j`), and for each `p` the column (row) `p` of what remains. -/
def choose (h : Bool) (N j : Nat) (c : Nat → K) (col : Nat → Nat → K) : Pivot :=
  let ajj := ‖reH h (c j)‖
  let m := LU.maxAbs (fun z : K => ‖z‖) (fun i => c (j+i)) (N-j)
  let apj := m.1
  if apj = 0 then .one j
  else if m.2 = 0 ∨ ajj ≥ alpha * apj then .one j
  else
    let p := m.2 + j
    let app := ‖reH h (col p p)‖
    let apq := (LU.maxAbs (fun z : K => ‖z‖) (fun i => col p (j+i)) (p-j)).1
    let apq := if p + 1 < N then max apq (LU.maxAbs (fun z : K => ‖z‖) (fun i => col p (p+1+i)) (N-(p+1))).1 else apq
    if ajj * apq ≥ alpha * apj * apj then .one j
    else if app ≥ alpha * apq then .one p
    else .two p

/-- `A.swapRowsCols(i1,i2)` of the `N × N` matrix (src/TMV_SymMatrix.cpp:462-498), `i1 ≤ i2`. -/
def swapRC (h : Bool) (N i1 i2 : Nat) (A : Nat → Nat → K) : Nat → Nat → K :=
  if i1 = i2 then A
  else
    let A := LU.swapRows i1 A i1 i2
    let A0 := A
    let A : Nat → Nat → K := fun a b =>
      if a = i2 ∧ i1 < b ∧ b < i2 then A0 b i1 else if b = i1 ∧ i1 < a ∧ a < i2 then A0 i2 a else A0 a b
    let A : Nat → Nat → K := if h then (fun a b =>
      if a = i2 ∧ i1 ≤ b ∧ b < i2 then star (A a b) else if b = i1 ∧ i1 < a ∧ a < i2 then star (A a b) else A a b) else A
    let A1 := A
    let A : Nat → Nat → K := fun a b =>
      if i2 < a ∧ a < N then (if b = i1 then A1 a i2 else if b = i2 then A1 a i1 else A1 a b) else A1 a b
    let A2 := A
    fun a b => if a = i1 ∧ b = i1 then A2 i2 i2 else if a = i2 ∧ b = i2 then A2 i1 i1 else A2 a b

/-- `signdet`, `logdet` after a block with determinant `d` (TMV_SymLDLDecompose.cpp:258-280, 306-315). -/
def detUpd (h : Bool) (d : K) (s : ℝ × K) : ℝ × K :=
  if s.2 ≠ 0 then
    if d = 0 then (s.1, 0)
    else (s.1 + Real.log ‖d‖, if h then (if RCLike.re d < 0 then -s.2 else s.2) else s.2 * (d / ((‖d‖ : ℝ) : K)))
  else s

/-- `SymInvert_2x2<herm>(a,b,c)` (TMV_SymLDLPseudo.cpp:42-62): the new `a`, `b`, `c` and the determinant. -/
def invert2 (h : Bool) (a b c : K) : K × K × K × K :=
  let abs2 (z : K) : ℝ := |RCLike.re z| + |RCLike.im z|
  let mx : K := ((max (abs2 a) (max (abs2 b) (abs2 c)) : ℝ) : K)
  let a := a / mx
  let b := b / mx
  let c := c / mx
  let d : K := if h then ((RCLike.re a * RCLike.re b - RCLike.normSq c : ℝ) : K) else a * b - c * c
  let d := d * mx
  (b / d, a / d, c / (-d), d * mx)

/-- A 1×1 step (TMV_SymLDLDecompose.cpp:255-286); `o`: the storage order of `A`. -/
def step1 (o : Ord) (h : Bool) (N j : Nat) (s : St K) : St K :=
  let d := reH h (s.A j j)
  let t := detUpd h d (s.logdet, s.signdet)
  let A := if d ≠ 0 then
      let A : Nat → Nat → K := fun a b => if b = j ∧ j < a ∧ a < N then s.A a b / d else s.A a b
      paste A (j+1) (j+1) (N-(j+1)) (N-(j+1)) (rank1 o false h true (N-(j+1)) (-d) (fun i => A (j+1+i) j) (sub A (j+1) (j+1)))
    else s.A
  { s with A := A, logdet := t.1, signdet := t.2 }

/-- The rows `q` of a 2×2 step for a column-major `A` (TMV_SymLDLDecompose.cpp:338-355). -/
def step2cm (h : Bool) (N j : Nat) (x y z : K) (A : Nat → Nat → K) : Nat → Nat → K :=
  up (fun q A =>
    let L0 := A q j * x + A q (j+1) * z
    let L1 := A q j * cj h z + A q (j+1) * y
    let A : Nat → Nat → K := fun a b => if b = q ∧ q ≤ a ∧ a < N then A a b - A a j * cj h L0 else A a b
    let A : Nat → Nat → K := fun a b => if b = q ∧ q ≤ a ∧ a < N then A a b - A a (j+1) * cj h L1 else A a b
    setE (setE A q j L0) q (j+1) L1) (N-(j+2)) (j+2) A

/-- The rows `p` of a 2×2 step for another `A` (TMV_SymLDLDecompose.cpp:362-381). -/
def step2rm (h : Bool) (N j : Nat) (x y z : K) (A : Nat → Nat → K) : Nat → Nat → K :=
  down (fun t A =>
    let p := j + 2 + t
    let L0 := A p j * x + A p (j+1) * z
    let L1 := A p j * cj h z + A p (j+1) * y
    let A : Nat → Nat → K := fun a b => if a = p ∧ j + 2 ≤ b ∧ b ≤ p then A a b - L0 * cj h (A b j) else A a b
    let A : Nat → Nat → K := fun a b => if a = p ∧ j + 2 ≤ b ∧ b ≤ p then A a b - L1 * cj h (A b (j+1)) else A a b
    setE (setE A p j L0) p (j+1) L1) (N-(j+2)) A

/-- A 2×2 step (TMV_SymLDLDecompose.cpp:287-390). -/
def step2 (cm h : Bool) (N j : Nat) (s : St K) : St K :=
  let x := s.A j j
  let z := s.A (j+1) j
  let y := s.A (j+1) (j+1)
  let xD := Function.update s.xD j z
  let A := setE s.A (j+1) j 0
  let v := invert2 h x y z
  let t := detUpd h v.2.2.2 (s.logdet, s.signdet)
  let A := if cm then step2cm h N j v.1 v.2.1 v.2.2.1 A else step2rm h N j v.1 v.2.1 v.2.2.1 A
  let A : Nat → Nat → K := if h then (fun a b => if a = b ∧ j + 2 ≤ a ∧ a < N then ((RCLike.re (A a a) : ℝ) : K) else A a b) else A
  { s with A := A, xD := xD, logdet := t.1, signdet := t.2 }

/-- `NonBlockLDL_Decompose<herm>(A,xD,P,logdet,signdet,j1)` (TMV_SymLDLDecompose.cpp:65-421); `fuel` bounds the number of iterations. -/
def nonBlock (o : Ord) (cm h : Bool) (N : Nat) : Nat → Nat → St K → St K
  | 0, _, s => s
  | fuel+1, j, s =>
    if j < N then
      match (if j = N - 1 then Pivot.one j else choose h N j (fun i => s.A i j) (fun p i => if i ≤ p then s.A p i else s.A i p)) with
      | .one p => nonBlock o cm h N fuel (j+1)
          (step1 o h N j { s with A := swapRC h N j p s.A, P := Function.update s.P j p })
      | .two p => nonBlock o cm h N fuel (j+2)
          (step2 cm h N j { s with A := swapRC h N (j+1) p s.A, P := Function.update (Function.update s.P j j) (j+1) p })
    else s

/-- Column `jj+e` of `LD` from row `j` on: column `c` of what remains (TMV_SymLDLDecompose.cpp:460-462, 491-496). -/
def panelCol (h : Bool) (N j1 j c e : Nat) (A LD : Nat → Nat → K) : Nat → Nat → K :=
  let jj := j - j1
  fun a b => if b = jj + e ∧ j ≤ a ∧ a < N then
    (if c ≤ a then A a c else cj h (A c a)) - ∑ q ∈ Finset.range jj, A a (j1+q) * cj h (LD c q) else LD a b

/-- The exchange of rows and columns `r` and `p` of what remains when column `r` need not be kept (TMV_SymLDLDecompose.cpp:524-530,
549-555); the parts of rows `r` and `p` left of column `j` are exchanged. -/
def panelSwap (h : Bool) (N j r p : Nat) (A : Nat → Nat → K) : Nat → Nat → K :=
  let A0 := A
  let A : Nat → Nat → K := fun a b => if a = p ∧ b = p then A0 r r else A0 a b
  let A1 := A
  let A : Nat → Nat → K := fun a b => if a = p ∧ r + 1 ≤ b ∧ b < p then cj h (A1 b r) else A1 a b
  let A2 := A
  let A : Nat → Nat → K := fun a b => if b = p ∧ p + 1 ≤ a ∧ a < N then A2 a r else A2 a b
  LU.swapRows j A r p

/-- The end of a 1×1 step in a panel (TMV_SymLDLDecompose.cpp:564-600). -/
def panel1 (h : Bool) (N j1 j : Nat) (s : St K) (LD : Nat → Nat → K) : St K :=
  let jj := j - j1
  let A : Nat → Nat → K := fun a b => if b = j ∧ j ≤ a ∧ a < N then LD a jj else s.A a b
  let A := setE A j j (reH h (A j j))
  let d := reH h (A j j)
  let t := detUpd h d (s.logdet, s.signdet)
  let A : Nat → Nat → K := if d ≠ 0 then (fun a b => if b = j ∧ j < a ∧ a < N then A a b / d else A a b) else A
  { s with A := A, logdet := t.1, signdet := t.2 }

/-- The end of a 2×2 step in a panel (TMV_SymLDLDecompose.cpp:601-680). -/
def panel2 (h : Bool) (N j1 j : Nat) (s : St K) (LD : Nat → Nat → K) : St K :=
  let jj := j - j1
  let x := reH h (LD j jj)
  let z := LD (j+1) jj
  let y := reH h (LD (j+1) (jj+1))
  let A := setE (setE (setE s.A j j x) (j+1) (j+1) y) (j+1) j 0
  let v := invert2 h x y z
  let t := detUpd h v.2.2.2 (s.logdet, s.signdet)
  let A : Nat → Nat → K := fun a b =>
    if b = j ∧ j + 2 ≤ a ∧ a < N then LD a jj * v.1 + LD a (jj+1) * v.2.2.1
    else if b = j + 1 ∧ j + 2 ≤ a ∧ a < N then LD a jj * cj h v.2.2.1 + LD a (jj+1) * v.2.1
    else A a b
  { s with A := A, xD := Function.update s.xD j z, logdet := t.1, signdet := t.2 }

/-- The loop over the columns of a panel (TMV_SymLDLDecompose.cpp:455-681): the new state, `LD` and the column after the panel. -/
def panel (h : Bool) (N j1 j2 : Nat) : Nat → Nat → St K → (Nat → Nat → K) → St K × (Nat → Nat → K) × Nat
  | 0, j, s, LD => (s, LD, j)
  | fuel+1, j, s, LD =>
    if j < j2 then
      let jj := j - j1
      let LD := panelCol h N j1 j j 0 s.A LD
      let col := fun p => panelCol h N j1 j p 1 s.A LD
      match choose h N j (fun i => LD i jj) (fun p i => col p i (jj+1)) with
      | .one p =>
        if p = j then panel h N j1 j2 fuel (j+1) (panel1 h N j1 j { s with P := Function.update s.P j j } LD) LD
        else
          let LD := col p
          let LD : Nat → Nat → K := fun a b => if b = jj ∧ j ≤ a ∧ a < N then LD a (jj+1) else LD a b
          let A := panelSwap h N j j p s.A
          let LD := LU.swapRows (jj+1) LD j p
          panel h N j1 j2 fuel (j+1) (panel1 h N j1 j { s with A := A, P := Function.update s.P j p } LD) LD
      | .two p =>
        let LD := col p
        let P := Function.update (Function.update s.P j j) (j+1) p
        if p = j + 1 then panel h N j1 j2 fuel (j+2) (panel2 h N j1 j { s with P := P } LD) LD
        else
          let A := panelSwap h N j (j+1) p s.A
          let LD := LU.swapRows (jj+2) LD (j+1) p
          panel h N j1 j2 fuel (j+2) (panel2 h N j1 j { s with A := A, P := P } LD) LD
    else (s, LD, j)

/-- `BlockLDL_Decompose<herm>` (TMV_SymLDLDecompose.cpp:423-767), `bs` = `SYM_LDL_BLOCKSIZE`; `nb`, `nb2`: the block sizes of
`SymMultMM`. -/
def block (nb nb2 bs : Nat) (o : Ord) (cm h : Bool) (N : Nat) : Nat → Nat → St K → (Nat → Nat → K) → St K
  | 0, _, s, _ => s
  | fuel+1, j1, s, LD =>
    if j1 < N then
      let j2 := min (j1 + bs) N
      if j2 < N then
        let r := panel h N j1 j2 (N+1) j1 s LD
        let j2 := r.2.2
        let s := r.1
        let A := paste s.A j2 j2 (N-j2) (N-j2) (symMul nb nb2 (o == .rm) h true (N-j2) (j2-j1) (-1)
          (fun i l => s.A (j2+i) (j1+l)) (fun l i => cj h (r.2.1 (j2+i) l)) (sub s.A j2 j2))
        block nb nb2 bs o cm h N fuel j2 { s with A := A } r.2.1
      else nonBlock o cm h N (N+1) j1 s
    else s

/-- `LDL_Decompose(A,xD,P,logdet,signdet)` for an `A` stored in its lower triangle and not conjugated
(TMV_SymLDLDecompose.cpp:769-787, 1316-1338); `LD0`: what is in the new matrix `LD`. -/
def decompose (nb nb2 bs : Nat) (o : Ord) (cm h : Bool) (N : Nat) (A LD0 : Nat → Nat → K) (P : Nat → Nat) : St K :=
  let s : St K := ⟨A, fun _ => 0, P, 0, 1⟩
  if N > bs then block nb nb2 bs o cm h N (N+1) 0 s LD0 else nonBlock o cm h N (N+1) 0 s

end
end TMV.LDL
