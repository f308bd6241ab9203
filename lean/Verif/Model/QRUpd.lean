import Verif.Model.QR
import Verif.Model.Tri

/-! Updating and downdating a QR decomposition: src/TMV_QRUpdate.cpp, src/TMV_QRDowndate.cpp.  Sub-views of `R`, `A`, `Z` are addressed by the
row and column numbers of the parent; matrix products are exact sums. -/
namespace TMV.QR
noncomputable section
open Classical

variable {K : Type} [RCLike K]

/-- `R` (only `R(i,j)` with `i ≤ j` belongs to the upper triangle), `A` (`M` rows), `Z`. -/
structure US (K : Type) where
  R : Nat → Nat → K
  A : Nat → Nat → K
  Z : Nat → Nat → K

/-- `HouseholderReflect(R(j,j),A.col(j),det)` (TMV_QRUpdate.cpp:100, 113, 130): the new `R`, `A` and the returned `beta`. -/
def updCol (tiny : ℝ) (M j : Nat) (s : US K) : US K × K :=
  let r := reflect tiny M (s.R j j) (fun i => s.A i j) 0
  (⟨setE s.R j j r.x0, fun p c => if c = j ∧ p < M then r.x p else s.A p c, s.Z⟩, r.beta)

/-- `W = A1.adjoint()*A2; W += Rx; W = Z1.adjoint()*W; Rx -= W; A2 -= A1*W` (TMV_QRUpdate.cpp:158-162 and 196-201), where `A1` are the
columns `[a,b)`, `A2` the columns `[b,e)`, `Rx` the rows `[a,b)` and columns `[b,e)` of `R`.  In the recursive function `W` is the block
`Zx` of `Z`, whose contents are overwritten later or not used any more; here `W` is a temporary in both places. -/
def updBlock (M a b e : Nat) (s : US K) : US K :=
  let W1 : Nat → Nat → K := fun k c => ∑ p ∈ Finset.range M, star (s.A p k) * s.A p c
  let W2 : Nat → Nat → K := fun k c => W1 k c + s.R k c
  let W : Nat → Nat → K := fun k c => ∑ l ∈ Finset.Ico a (k+1), star (s.Z l k) * W2 l c
  ⟨fun k c => if a ≤ k ∧ k < b ∧ b ≤ c ∧ c < e then s.R k c - W k c else s.R k c,
   fun p c => if p < M ∧ b ≤ c ∧ c < e then s.A p c - ∑ k ∈ Finset.Ico a b, s.A p k * W k c else s.A p c, s.Z⟩

/-- `Zx = A1.adjoint()*A2; Zx = -Z1*Zx; Zx *= Z2` (TMV_QRUpdate.cpp:167-169; the same in TMV_QRDowndate.cpp), `Zx` the rows `[a,c)` and columns
`[c,b)` of `Z`. -/
def updZ3 (M a c b : Nat) (s : US K) : Nat → Nat → K :=
  let G : Nat → Nat → K := fun l k => ∑ p ∈ Finset.range M, star (s.A p l) * s.A p k
  let G1 : Nat → Nat → K := fun l k => -∑ q ∈ Finset.Ico l c, s.Z l q * G q k
  fun l k => if a ≤ l ∧ l < c ∧ c ≤ k ∧ k < b then ∑ q ∈ Finset.Ico c (k+1), G1 l q * s.Z q k else s.Z l k

/-- `RecursiveQRUpdate(R,A,Z,makeZ)` (TMV_QRUpdate.cpp:82-172) on the columns `[a,a+N)`. -/
def recUpd (tiny : ℝ) (M a N : Nat) (mz : Bool) (s : US K) : US K :=
  if _h0 : N = 0 then s
  else if _h1 : N = 1 then
    let (s, b) := updCol tiny M a s
    ⟨s.R, s.A, setE s.Z a a (star b)⟩
  else if _h2 : N = 2 then
    let (s, b0) := updCol tiny M a s
    let s : US K := if b0 ≠ 0 then
        let temp := b0 * ((∑ p ∈ Finset.range M, star (s.A p a) * s.A p (a+1)) + s.R a (a+1))
        ⟨setE s.R a (a+1) (s.R a (a+1) - temp), fun p c => if c = a+1 ∧ p < M then s.A p c - temp * s.A p a else s.A p c, s.Z⟩
      else s
    let s : US K := ⟨s.R, s.A, setE s.Z a a (star b0)⟩
    let (s, b1) := updCol tiny M (a+1) s
    let s : US K := ⟨s.R, s.A, setE s.Z (a+1) (a+1) (star b1)⟩
    if mz then
      let temp := ∑ p ∈ Finset.range M, star (s.A p a) * s.A p (a+1)
      ⟨s.R, s.A, setE s.Z a (a+1) (-(s.Z a a * s.Z (a+1) (a+1)) * temp)⟩
    else s
  else
    let j1 := N/2
    let s := recUpd tiny M a j1 true s
    let s := updBlock M a (a+j1) (a+N) s
    let s := recUpd tiny M (a+j1) (N-j1) mz s
    if mz then ⟨s.R, s.A, updZ3 M a (a+j1) (a+N) s⟩ else s
termination_by N
decreasing_by all_goals omega

/-- Loop of `BlockQRUpdate` from column `j1` (TMV_QRUpdate.cpp:174-206), `nb` = `QR_BLOCKSIZE`.  Simplification: `BaseZ` is reused for every
block; here each block has its own part of `Z`. -/
def blockUpd (tiny : ℝ) (nb M N j1 : Nat) (s : US K) : US K :=
  if _h : j1 < N ∧ 0 < nb then
    let j2 := min N (j1+nb)
    let s := recUpd tiny M j1 (j2-j1) (decide (j2 < N)) s
    let s := if j2 < N then updBlock M j1 j2 N s else s
    blockUpd tiny nb M N j2 s
  else s
termination_by N - j1
decreasing_by omega

/-- `QR_Update(R,A)` (TMV_QRUpdate.cpp:208-232), `A` is `M`×`N`; `Z0` = what the memory of `Z` holds. -/
def update (tiny : ℝ) (nb M N : Nat) (R A Z0 : Nat → Nat → K) : US K :=
  if N > 0 then
    if N > nb then blockUpd tiny nb M N 0 ⟨R, A, Z0⟩
    else recUpd tiny M 0 N false ⟨R, A, Z0⟩
  else ⟨R, A, Z0⟩

/-! ### Downdating -/

/-- How a downdate can fail: an exception, or the code has divided by zero and goes on with infinities and NaNs. -/
inductive DnErr
  | thrown
  | divZero

/-- `HouseholderUnReflect(R(j,j),A.col(j),b)`, `BadQRDowndate` thrown if it returns false (TMV_QRDowndate.cpp:144-155, 166-178, 195-205). -/
def dnCol (M j : Nat) (s : US K) : Except DnErr (US K × K) :=
  match unReflect M (s.R j j) (fun i => s.A i j) with
  | none => .error .thrown
  | some u => .ok (⟨setE s.R j j u.y, fun p c => if c = j ∧ p < M then u.x p else s.A p c, s.Z⟩, u.beta)

/-- The step between the two columns of the `N == 2` case (TMV_QRDowndate.cpp:184-192). -/
def dnTwo (M a : Nat) (b0 : K) (s : US K) : Except DnErr (US K) :=
  if b0 ≠ 0 then
    if 1 - b0 = 0 then .error .divZero
    else
      let vtmx := ∑ p ∈ Finset.range M, star (s.A p a) * s.A p (a+1)
      let r := (s.R a (a+1) + b0 * vtmx) / (1 - b0)
      .ok ⟨setE s.R a (a+1) r, fun p c => if c = a+1 ∧ p < M then s.A p c - b0 * (vtmx + r) * s.A p a else s.A p c, s.Z⟩
  else .ok s

/-- How `Rx /= ImZt` is done (block sizes and storage orders, see `Tri.lowerM`). -/
structure DnCfg where
  tb : Nat
  tb2 : Nat
  o : Tri.Ord
  brm : Bool

/-- `W = A1.adjoint()*A2; W = Z1.adjoint()*W; Rx += W; ImZt = 1-Z1.adjoint(); Rx /= ImZt; W += Z1.adjoint()*Rx; A2 -= A1*W`
(TMV_QRDowndate.cpp:236-244 and 294-309), `A1` the columns `[a,b)`, `A2` the columns `[b,e)`, `Rx` the rows `[a,b)` and columns `[b,e)` of `R`.
In the recursive function `W` is the block `Zx` of `Z` (see `updBlock`). -/
def dnBlock (g : DnCfg) (M a b e : Nat) (s : US K) : Except DnErr (US K) :=
  let W1 : Nat → Nat → K := fun k c => ∑ p ∈ Finset.range M, star (s.A p k) * s.A p c
  let W2 : Nat → Nat → K := fun k c => ∑ l ∈ Finset.Ico a (k+1), star (s.Z l k) * W1 l c
  let Rx : Nat → Nat → K := fun k c => s.R (a+k) (b+c) + W2 (a+k) (b+c)
  let ImZt : Nat → Nat → K := fun k l => (if k = l then 1 else 0) - star (s.Z (a+l) (a+k))
  match Tri.lowerM g.tb g.tb2 g.o g.brm false (b-a) (e-b) ImZt Rx with
  | none => .error .thrown
  | some X =>
    let R' : Nat → Nat → K := fun k c => if a ≤ k ∧ k < b ∧ b ≤ c ∧ c < e then X (k-a) (c-b) else s.R k c
    let W : Nat → Nat → K := fun k c => W2 k c + ∑ l ∈ Finset.Ico a (k+1), star (s.Z l k) * R' l c
    .ok ⟨R', fun p c => if p < M ∧ b ≤ c ∧ c < e then s.A p c - ∑ k ∈ Finset.Ico a b, s.A p k * W k c else s.A p c, s.Z⟩

/-- `RecursiveQRDowndate(R,A,Z,makeZ)` (TMV_QRDowndate.cpp:128-262) on the columns `[a,a+N)`.  The nested `catch` clauses only replace the
matrices stored in the exception. -/
def recDn (g : DnCfg) (M a N : Nat) (mz : Bool) (s : US K) : Except DnErr (US K) :=
  if _h0 : N = 0 then .ok s
  else if _h1 : N = 1 then
    (dnCol M a s).bind fun r => .ok ⟨r.1.R, r.1.A, setE r.1.Z a a (star r.2)⟩
  else if _h2 : N = 2 then
    (dnCol M a s).bind fun r0 =>
    (dnTwo M a r0.2 ⟨r0.1.R, r0.1.A, setE r0.1.Z a a (star r0.2)⟩).bind fun s1 =>
    (dnCol M (a+1) s1).bind fun r1 =>
    let s2 : US K := ⟨r1.1.R, r1.1.A, setE r1.1.Z (a+1) (a+1) (star r1.2)⟩
    .ok (if mz then ⟨s2.R, s2.A, setE s2.Z a (a+1) (-star (r0.2 * r1.2) * ∑ p ∈ Finset.range M, star (s2.A p a) * s2.A p (a+1))⟩ else s2)
  else
    let j1 := N/2
    (recDn g M a j1 true s).bind fun s =>
    (dnBlock g M a (a+j1) (a+N) s).bind fun s =>
    (recDn g M (a+j1) (N-j1) mz s).bind fun s =>
    .ok (if mz then ⟨s.R, s.A, updZ3 M a (a+j1) (a+N) s⟩ else s)
termination_by N
decreasing_by all_goals omega

/-- Loop of `BlockQRDowndate` from column `j1` (TMV_QRDowndate.cpp:264-313), `nb` = `QR_BLOCKSIZE`; each block has its own part of `Z`. -/
def blockDn (g : DnCfg) (nb M N j1 : Nat) (s : US K) : Except DnErr (US K) :=
  if _h : j1 < N ∧ 0 < nb then
    let j2 := min N (j1+nb)
    (recDn g M j1 (j2-j1) (decide (j2 < N)) s).bind fun s =>
    (if j2 < N then dnBlock g M j1 j2 N s else .ok s).bind fun s =>
    blockDn g nb M N j2 s
  else .ok s
termination_by N - j1
decreasing_by omega

/-- `QR_Downdate(R,A)` (TMV_QRDowndate.cpp:315-338). -/
def downdate (g : DnCfg) (nb M N : Nat) (R A Z0 : Nat → Nat → K) : Except DnErr (US K) :=
  if N > 0 then
    if N > nb then blockDn g nb M N 0 ⟨R, A, Z0⟩
    else recDn g M 0 N false ⟨R, A, Z0⟩
  else .ok ⟨R, A, Z0⟩

end
end TMV.QR
