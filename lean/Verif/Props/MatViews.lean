import Verif.Spec.Mat
import Verif.Props.VecViews

/-! Properties C16, C17: matrix views, their range checks, linear views. -/
namespace TMV
variable {K : Type _}

/-! ### Range checks -/

/-- For a nonzero step one half of the check is defined and accepts exactly the nonempty ranges all
of whose elements exist. -/
theorem rangeCheck_iff (n : Nat) (i1 i2 istep : Int) (hs : istep ≠ 0) (h12 : i1 ≠ i2) :
    ∃ b, MView.rangeCheck n i1 i2 istep = some b ∧ (b = true ↔ RangeOK n i1 i2 istep) := by
  obtain ⟨b, h1, h2⟩ := hasSubVector_iff ⟨0, n, 1, false⟩ i1 i2 istep hs
  refine ⟨b, ?_, h2⟩
  rw [← h1]
  simp only [VView.hasSubVector, if_neg h12, MView.rangeCheck]

/-- **C16** (checks).  `hasSubMatrix` with nonzero steps is defined and accepts exactly the
submatrices that are empty in one direction, or all of whose row and column indices exist. -/
theorem hasSubMatrix_iff (M : MView) (i1 i2 j1 j2 istep jstep : Int) (hi : istep ≠ 0)
    (hj : jstep ≠ 0) :
    ∃ b, M.hasSubMatrix i1 i2 j1 j2 istep jstep = some b ∧
      (b = true ↔ i1 = i2 ∨ j1 = j2 ∨
        (RangeOK M.cs i1 i2 istep ∧ RangeOK M.rs j1 j2 jstep)) := by
  by_cases h : i1 = i2 ∨ j1 = j2
  · exact ⟨true, by simp [MView.hasSubMatrix, h], by tauto⟩
  · obtain ⟨h1, h2⟩ := not_or.mp h
    obtain ⟨a, ha, ha'⟩ := rangeCheck_iff M.cs i1 i2 istep hi h1
    obtain ⟨b, hb, hb'⟩ := rangeCheck_iff M.rs j1 j2 jstep hj h2
    refine ⟨a && b, by simp [MView.hasSubMatrix, h, ha, hb], ?_⟩
    rw [Bool.and_eq_true, ha', hb']
    tauto

/-- **C16 violated**: the check divides by zero for `istep == 0` (it reports the problem and then
evaluates `(i2-i1)%istep`). -/
theorem hasSubMatrix_zero_step_violated :
    (⟨0, 10, 10, 1, 10, false, 100⟩ : MView).hasSubMatrix 1 4 1 4 0 1 = none := by decide

/-- **C16 violated**: `subMatrix(0,0,0,5,0,1)` passes the check and then divides by zero. -/
theorem subMatrix_empty_zero_step_violated :
    (⟨0, 10, 10, 1, 10, false, 100⟩ : MView).hasSubMatrix 0 0 0 5 0 1 = some true ∧
    (⟨0, 10, 10, 1, 10, false, 100⟩ : MView).subMatrix6 0 0 0 5 0 1 = none := by decide

/-- **C16 violated** (Fortran style): `subMatrix(7,7,1,3,1,1)` of a 5x5 matrix is accepted by the
check (`i1==i2` is taken to mean "no elements") although it denotes the nonexistent row 7, and
the view it creates is one row that lies outside the matrix. -/
theorem hasSubMatrixF_single_violated :
    ∃ M V : MView, M.cs = 5 ∧ M.rs = 5 ∧ M.hasSubMatrixF 7 7 1 3 1 1 = some true ∧
      M.subMatrix6F 7 7 1 3 1 1 = some V ∧ V.cs = 1 ∧ V.rs = 3 ∧ ¬ M.Covers (V.addr 0 2) := by
  refine ⟨⟨0, 5, 5, 5, 1, false, 25⟩, ⟨30, 1, 3, 5, 1, false, 0⟩, rfl, rfl, by decide, by decide,
    rfl, rfl, ?_⟩
  rintro ⟨i, j, hi, hj, h⟩
  simp only [MView.addr] at h hi hj
  omega

/-- `hasSubVector(i,j,istep,jstep,s)` with `s > 0` accepts exactly when not both steps are zero and
all `s` elements exist. -/
theorem matHasSubVector_iff (M : MView) (i j istep jstep : Int) (s : Nat) (hs : 0 < s) :
    M.hasSubVector i j istep jstep s = true ↔
      ¬ (istep = 0 ∧ jstep = 0) ∧
      ∀ k : Nat, k < s → (0 ≤ i + k * istep ∧ i + k * istep < M.cs) ∧
        (0 ≤ j + k * jstep ∧ j + k * jstep < M.rs) := by
  have hs0 : (s : Int) ≠ 0 := by omega
  have mid : ∀ (n : Nat) (a st : Int), 0 ≤ a → a < n → 0 ≤ a + st * ((s : Int) - 1) →
      a + st * ((s : Int) - 1) < n → ∀ k : Nat, k < s → 0 ≤ a + k * st ∧ a + k * st < n := by
    intro n a st h1 h2 h3 h4 k hk
    have hk' : (k : Int) ≤ s - 1 := by omega
    rcases le_total 0 st with h | h
    · have u : (k : Int) * st ≤ (s - 1) * st := mul_le_mul_of_nonneg_right hk' h
      have v : 0 ≤ (k : Int) * st := mul_nonneg (by omega) h
      constructor <;> linarith
    · have u : ((s : Int) - 1) * st ≤ k * st := mul_le_mul_of_nonpos_right hk' h
      have v : (k : Int) * st ≤ 0 := mul_nonpos_of_nonneg_of_nonpos (by omega) h
      constructor <;> linarith
  simp only [MView.hasSubVector, if_neg hs0]
  constructor
  · intro h
    split at h
    · simp at h
    split at h
    · simp at h
    split at h
    · simp at h
    split at h
    · simp at h
    split at h
    · simp at h
    rename_i b1 b2 b3 b4 b5
    simp only [not_or, not_lt, not_le, ge_iff_le] at *
    exact ⟨by simpa using b5, fun k hk => ⟨mid _ _ _ b4.1 b4.2 b2.1 b2.2 k hk,
      mid _ _ _ b3.1 b3.2 b1.1 b1.2 k hk⟩⟩
  · rintro ⟨h0, h⟩
    have a := h 0 hs
    have b := h (s - 1) (by omega)
    have hc : ((s - 1 : Nat) : Int) = s - 1 := by omega
    rw [hc] at b
    simp only [Nat.cast_zero, zero_mul, add_zero] at a
    rw [mul_comm ((s : Int) - 1) istep, mul_comm ((s : Int) - 1) jstep] at b
    rw [if_neg h0, if_neg (by omega), if_neg (by omega), if_neg (by omega), if_neg (by omega)]

/-- **C16 violated**: `hasSubVector` accepts a negative number of elements. -/
theorem matHasSubVector_negative_violated :
    (⟨0, 10, 10, 1, 10, false, 100⟩ : MView).hasSubVector 5 5 1 1 (-3) = true := by decide

/-! ### Chains of matrix views -/

/-- The matrix-valued view calls of the C-style API. -/
inductive MOp where
  | sub4 (i1 i2 j1 j2 : Int)
  | sub6 (i1 i2 j1 j2 istep jstep : Int)
  | colPair (j1 j2 : Int)
  | rowPair (i1 i2 : Int)
  | colRange (j1 j2 : Int)
  | rowRange (i1 i2 : Int)
  | transpose
  | conjugate
  | adjoint

/-- One call, rejected unless the check in the library's own assertion accepts it
(include/tmv/TMV_Matrix.h:685-800). -/
def MOp.run : MOp → MView → Option MView
  | .sub4 i1 i2 j1 j2, M =>
      if M.hasSubMatrix i1 i2 j1 j2 1 1 = some true then some (M.subMatrix4 i1 i2 j1 j2) else none
  | .sub6 i1 i2 j1 j2 is js, M =>
      if M.hasSubMatrix i1 i2 j1 j2 is js = some true then M.subMatrix6 i1 i2 j1 j2 is js else none
  | .colPair j1 j2, M =>
      if j1 ≥ 0 ∧ j1 < M.rs ∧ j2 ≥ 0 ∧ j2 < M.rs then some (M.colPair j1 j2) else none
  | .rowPair i1 i2, M =>
      if i1 ≥ 0 ∧ i1 < M.cs ∧ i2 ≥ 0 ∧ i2 < M.cs then some (M.rowPair i1 i2) else none
  | .colRange j1 j2, M => if j1 ≥ 0 ∧ j1 - j2 ≤ 0 ∧ j2 ≤ M.rs then some (M.colRange j1 j2) else none
  | .rowRange i1 i2, M => if i1 ≥ 0 ∧ i1 - i2 ≤ 0 ∧ i2 ≤ M.cs then some (M.rowRange i1 i2) else none
  | .transpose, M => some M.transpose
  | .conjugate, M => some M.conjugate
  | .adjoint, M => some M.adjoint

def MOp.runAll : List MOp → MView → Option MView
  | [], M => some M
  | o :: os, M => (o.run M).bind (MOp.runAll os)

/-- Documented meaning: element `(i,j)` of the result is element `sel (i,j)` of the argument. -/
def MOp.sel : MOp → Int × Int → Int × Int
  | .sub4 i1 _ j1 _, (i, j) => (i1 + i, j1 + j)
  | .sub6 i1 _ j1 _ is js, (i, j) => (i1 + i * is, j1 + j * js)
  | .colPair j1 j2, (i, j) => (i, if j = 0 then j1 else j2)
  | .rowPair i1 i2, (i, j) => (if i = 0 then i1 else i2, j)
  | .colRange j1 _, (i, j) => (i, j1 + j)
  | .rowRange i1 _, (i, j) => (i1 + i, j)
  | .transpose, (i, j) => (j, i)
  | .conjugate, (i, j) => (i, j)
  | .adjoint, (i, j) => (j, i)

/-- Does the call conjugate? -/
def MOp.isConj : MOp → Bool
  | .conjugate => true
  | .adjoint => true
  | _ => false

private theorem range_in {n : Nat} {i1 i2 s : Int} (hs : s ≠ 0) (h : RangeOK n i1 i2 s) (i : Nat)
    (hi : i < ((i2 - i1).tdiv s).toNat) : 0 ≤ i1 + i * s ∧ i1 + i * s < n := by
  obtain ⟨k, hk, hin⟩ := h
  have : i2 - i1 = k * s := by linarith
  rw [this, Int.mul_tdiv_cancel _ hs] at hi
  exact hin i (by omega)

/-- One accepted call: every element of the result is the documented, existing element. -/
theorem MOp.run_spec (o : MOp) (M V : MView) (h : o.run M = some V) :
    (∀ i j : Nat, i < V.cs → j < V.rs →
      (0 ≤ (o.sel (i, j)).1 ∧ (o.sel (i, j)).1 < M.cs) ∧
      (0 ≤ (o.sel (i, j)).2 ∧ (o.sel (i, j)).2 < M.rs) ∧
      V.addr i j = M.addr (o.sel (i, j)).1 (o.sel (i, j)).2) ∧
    V.conj = (M.conj ^^ o.isConj) := by
  cases o with
  | sub4 i1 i2 j1 j2 =>
    simp only [MOp.run] at h
    split at h
    · rename_i hc
      simp only [Option.some_inj] at h
      subst h
      refine ⟨fun i j hi hj => ?_, by simp [MOp.isConj, MView.subMatrix4]⟩
      simp only [MView.subMatrix4] at hi hj
      obtain ⟨b, hb, hb'⟩ := hasSubMatrix_iff M i1 i2 j1 j2 1 1 (by norm_num) (by norm_num)
      rw [hc, Option.some_inj] at hb
      rcases hb'.mp hb.symm with e | e | ⟨e1, e2⟩
      · subst e; simp at hi
      · subst e; simp at hj
      · have a := range_in (by norm_num) e1 i (by simpa using hi)
        have b := range_in (by norm_num) e2 j (by simpa using hj)
        refine ⟨by simpa [MOp.sel] using a, by simpa [MOp.sel] using b, ?_⟩
        simp only [MView.subMatrix4, MView.addr, MOp.sel]; ring
    · simp at h
  | sub6 i1 i2 j1 j2 is js =>
    simp only [MOp.run, MView.subMatrix6] at h
    split at h
    · rename_i hc
      split at h
      · simp at h
      rename_i hs
      obtain ⟨hs1, hs2⟩ := not_or.mp hs
      simp only [Option.some_inj] at h
      subst h
      refine ⟨fun i j hi hj => ?_, by simp [MOp.isConj]⟩
      simp only at hi hj
      obtain ⟨b, hb, hb'⟩ := hasSubMatrix_iff M i1 i2 j1 j2 is js hs1 hs2
      rw [hc, Option.some_inj] at hb
      rcases hb'.mp hb.symm with e | e | ⟨e1, e2⟩
      · subst e; simp at hi
      · subst e; simp at hj
      · have a := range_in hs1 e1 i hi
        have b := range_in hs2 e2 j hj
        refine ⟨by simpa [MOp.sel] using a, by simpa [MOp.sel] using b, ?_⟩
        simp only [MView.addr, MOp.sel]; ring
    · simp at h
  | colPair j1 j2 =>
    simp only [MOp.run] at h
    split at h
    · rename_i hc
      simp only [Option.some_inj] at h
      subst h
      refine ⟨fun i j hi hj => ?_, by simp [MOp.isConj, MView.colPair]⟩
      simp only [MView.colPair] at hi hj
      have : j = 0 ∨ j = 1 := by omega
      rcases this with rfl | rfl
      · refine ⟨by simp [MOp.sel, hi], by simp [MOp.sel]; omega, ?_⟩
        simp only [MView.colPair, MView.addr, MOp.sel]; simp; ring
      · refine ⟨by simp [MOp.sel, hi], by simp [MOp.sel]; omega, ?_⟩
        simp only [MView.colPair, MView.addr, MOp.sel]; simp; ring
    · simp at h
  | rowPair i1 i2 =>
    simp only [MOp.run] at h
    split at h
    · rename_i hc
      simp only [Option.some_inj] at h
      subst h
      refine ⟨fun i j hi hj => ?_, by simp [MOp.isConj, MView.rowPair]⟩
      simp only [MView.rowPair] at hi hj
      have : i = 0 ∨ i = 1 := by omega
      rcases this with rfl | rfl
      · refine ⟨by simp [MOp.sel]; omega, by simp [MOp.sel, hj], ?_⟩
        simp only [MView.rowPair, MView.addr, MOp.sel]; simp
      · refine ⟨by simp [MOp.sel]; omega, by simp [MOp.sel, hj], ?_⟩
        simp only [MView.rowPair, MView.addr, MOp.sel]; simp; ring
    · simp at h
  | colRange j1 j2 =>
    simp only [MOp.run] at h
    split at h
    · rename_i hc
      simp only [Option.some_inj] at h
      subst h
      refine ⟨fun i j hi hj => ?_, by simp [MOp.isConj, MView.colRange]⟩
      simp only [MView.colRange] at hi hj
      refine ⟨by simp [MOp.sel, hi], by simp only [MOp.sel]; omega, ?_⟩
      simp only [MView.colRange, MView.addr, MOp.sel]; ring
    · simp at h
  | rowRange i1 i2 =>
    simp only [MOp.run] at h
    split at h
    · rename_i hc
      simp only [Option.some_inj] at h
      subst h
      refine ⟨fun i j hi hj => ?_, by simp [MOp.isConj, MView.rowRange]⟩
      simp only [MView.rowRange] at hi hj
      refine ⟨by simp only [MOp.sel]; omega, by simp [MOp.sel, hj], ?_⟩
      simp only [MView.rowRange, MView.addr, MOp.sel]; ring
    · simp at h
  | transpose =>
    simp only [MOp.run, Option.some_inj] at h
    subst h
    refine ⟨fun i j hi hj => ?_, by simp [MOp.isConj, MView.transpose]⟩
    simp only [MView.transpose] at hi hj
    refine ⟨by simp [MOp.sel, hj], by simp [MOp.sel, hi], ?_⟩
    simp only [MView.transpose, MView.addr, MOp.sel]; ring
  | conjugate =>
    simp only [MOp.run, Option.some_inj] at h
    subst h
    refine ⟨fun i j hi hj => ?_, by simp [MOp.isConj, MView.conjugate]⟩
    simp only [MView.conjugate] at hi hj
    exact ⟨by simp [MOp.sel, hi], by simp [MOp.sel, hj], rfl⟩
  | adjoint =>
    simp only [MOp.run, Option.some_inj] at h
    subst h
    refine ⟨fun i j hi hj => ?_, by simp [MOp.isConj, MView.adjoint]⟩
    simp only [MView.adjoint] at hi hj
    refine ⟨by simp [MOp.sel, hj], by simp [MOp.sel, hi], ?_⟩
    simp only [MView.adjoint, MView.addr, MOp.sel]; ring

/-- Composition of the documented meanings of a chain (first call outermost). -/
def MOp.selAll : List MOp → Int × Int → Int × Int
  | [], p => p
  | o :: os, p => o.sel (MOp.selAll os p)

def MOp.conjAll : List MOp → Bool
  | [] => false
  | o :: os => o.isConj ^^ MOp.conjAll os

/-- **C16**.  Element `(i,j)` of any chain of accepted matrix views exists in the original matrix,
is the documented element `selAll (i,j)`, and reads as that element (conjugated iff the chain
contains an odd number of conjugating calls). -/
theorem mat_view_chain [InvolutiveStar K] (os : List MOp) (M V : MView) (m : Mem K)
    (h : MOp.runAll os M = some V) (i j : Nat) (hi : i < V.cs) (hj : j < V.rs) :
    M.Covers (V.addr i j) ∧
    (0 ≤ (MOp.selAll os (i, j)).1 ∧ (MOp.selAll os (i, j)).1 < M.cs) ∧
    (0 ≤ (MOp.selAll os (i, j)).2 ∧ (MOp.selAll os (i, j)).2 < M.rs) ∧
    V.cref m i j =
      (M.cref m (MOp.selAll os (i, j)).1 (MOp.selAll os (i, j)).2).map (cj (MOp.conjAll os)) := by
  have main : ∀ (os : List MOp) (M : MView), MOp.runAll os M = some V →
      (0 ≤ (MOp.selAll os (i, j)).1 ∧ (MOp.selAll os (i, j)).1 < M.cs) ∧
      (0 ≤ (MOp.selAll os (i, j)).2 ∧ (MOp.selAll os (i, j)).2 < M.rs) ∧
      V.addr i j = M.addr (MOp.selAll os (i, j)).1 (MOp.selAll os (i, j)).2 ∧
      V.conj = (M.conj ^^ MOp.conjAll os) := by
    intro os
    induction os with
    | nil =>
      intro M h
      simp only [MOp.runAll, Option.some_inj] at h
      subst h
      simp only [MOp.selAll, MOp.conjAll, Bool.xor_false]
      refine ⟨by omega, by omega, trivial, trivial⟩
    | cons o os ih =>
      intro M h
      simp only [MOp.runAll] at h
      cases hr : o.run M with
      | none => simp [hr] at h
      | some U =>
        rw [hr, Option.bind_some] at h
        obtain ⟨a, b, c, d⟩ := ih U h
        obtain ⟨s1, s2⟩ := o.run_spec M U hr
        obtain ⟨i', e1⟩ := Int.eq_ofNat_of_zero_le a.1
        obtain ⟨j', e2⟩ := Int.eq_ofNat_of_zero_le b.1
        have e : MOp.selAll os (i, j) = ((i' : Int), (j' : Int)) := Prod.ext e1 e2
        obtain ⟨t1, t2, t3⟩ := s1 i' j' (by rw [e] at a; simpa using a.2) (by rw [e] at b; simpa using b.2)
        simp only [MOp.selAll, MOp.conjAll, e]
        refine ⟨t1, t2, ?_, ?_⟩
        · rw [c, e]; exact t3
        · rw [d, s2, Bool.xor_assoc]
  obtain ⟨a, b, c, d⟩ := main os M h
  refine ⟨⟨(MOp.selAll os (i, j)).1.toNat, (MOp.selAll os (i, j)).2.toNat, by omega, by omega, ?_⟩,
    a, b, ?_⟩
  · rw [Int.toNat_of_nonneg a.1, Int.toNat_of_nonneg b.1]; exact c
  · simp only [MView.cref, Mem.read, c, d, Option.map_map]
    congr 1
    funext x
    cases M.conj <;> cases MOp.conjAll os <;> simp [cj]

/-- Non-vacuity: `m.rowRange(2,8).transpose().subMatrix(1,7,0,4,3,2).adjoint()` on a 10x9 matrix. -/
example : MOp.runAll [.rowRange 2 8, .transpose, .sub6 1 7 0 4 3 2, .adjoint]
    (MView.ofStor 100 10 9 true) = some ⟨119, 2, 2, 18, 3, true, 0⟩ ∧
    MOp.selAll [.rowRange 2 8, .transpose, .sub6 1 7 0 4 3 2, .adjoint] (1, 1) = (4, 4) := by
  decide

/-! ### Vector views of a matrix -/

/-- The vector-valued calls. -/
inductive MVOp where
  | row (i : Int)
  | col (j : Int)
  | diag
  | diagOff (i : Int)
  | row3 (i j1 j2 : Int)
  | col3 (j i1 i2 : Int)
  | diag3 (i j1 j2 : Int)
  | sub (i j istep jstep : Int) (s : Nat)

/-- One call, rejected unless the library's assertion accepts it (include/tmv/TMV_Matrix.h:560-626,
716-721). -/
def MVOp.run : MVOp → MView → Option VView
  | .row i, M => if i ≥ 0 ∧ i < M.cs then some (M.row i) else none
  | .col j, M => if j ≥ 0 ∧ j < M.rs then some (M.col j) else none
  | .diag, M => some M.diag
  | .diagOff i, M => if i ≥ -M.cs ∧ i ≤ M.rs then some (M.diagOff i) else none
  | .row3 i j1 j2, M =>
      if (i ≥ 0 ∧ i < M.cs) ∧ j1 ≥ 0 ∧ j1 - j2 ≤ 0 ∧ j2 ≤ M.rs then some (M.row3 i j1 j2) else none
  | .col3 j i1 i2, M =>
      if (j ≥ 0 ∧ j < M.rs) ∧ i1 ≥ 0 ∧ i1 - i2 ≤ 0 ∧ i2 ≤ M.cs then some (M.col3 j i1 i2) else none
  | .diag3 i j1 j2, M =>
      if (i ≥ -M.cs ∧ i ≤ M.rs) ∧ j1 ≥ 0 ∧ j1 - j2 ≤ 0 ∧
        j2 ≤ (if i ≥ 0 then min (M.cs : Int) (M.rs - i) else min ((M.cs : Int) + i) M.rs)
      then some (M.diag3 i j1 j2) else none
  | .sub i j is js s, M => if M.hasSubVector i j is js s then some (M.subVector i j is js s) else none

/-- Documented meaning: element `k` of the vector is matrix element `sel k`. -/
def MVOp.sel : MVOp → Int → Int × Int
  | .row i, k => (i, k)
  | .col j, k => (k, j)
  | .diag, k => (k, k)
  | .diagOff i, k => if i ≥ 0 then (k, i + k) else (k - i, k)
  | .row3 i j1 _, k => (i, j1 + k)
  | .col3 j i1 _, k => (i1 + k, j)
  | .diag3 i j1 _, k => if i ≥ 0 then (j1 + k, i + j1 + k) else (j1 + k - i, j1 + k)
  | .sub i j is js _, k => (i + k * is, j + k * js)

/-- Documented number of elements. -/
def MVOp.len : MVOp → MView → Int
  | .row _, M => M.rs
  | .col _, M => M.cs
  | .diag, M => min M.cs M.rs
  | .diagOff i, M => if i ≥ 0 then min (M.cs : Int) (M.rs - i) else min ((M.cs : Int) + i) M.rs
  | .row3 _ j1 j2, _ => j2 - j1
  | .col3 _ i1 i2, _ => i2 - i1
  | .diag3 _ j1 j2, _ => j2 - j1
  | .sub _ _ _ _ s, _ => s

/-- **C16** for rows, columns, diagonals and sub-vectors of a matrix: the accepted call has the
documented length, every element exists in the matrix and reads as the documented one. -/
theorem mat_vec_view [Star K] (o : MVOp) (M : MView) (v : VView) (m : Mem K) (h : o.run M = some v) :
    (v.size : Int) = o.len M ∧
    ∀ k : Nat, k < v.size →
      (0 ≤ (o.sel k).1 ∧ (o.sel k).1 < M.cs) ∧ (0 ≤ (o.sel k).2 ∧ (o.sel k).2 < M.rs) ∧
      v.addr k = M.addr (o.sel k).1 (o.sel k).2 ∧
      v.cref m k = M.cref m (o.sel k).1 (o.sel k).2 := by
  have fin : ∀ (k : Nat) (a b : Int), v.conj = M.conj → v.addr k = M.addr a b →
      v.addr k = M.addr a b ∧ v.cref m k = M.cref m a b := by
    intro k a b hc h
    exact ⟨h, by simp only [VView.cref, MView.cref, h, hc]⟩
  cases o with
  | row i =>
    simp only [MVOp.run] at h
    split at h <;> simp only [Option.some_inj, reduceCtorEq] at h
    subst h
    refine ⟨rfl, fun k hk => ?_⟩
    simp only [MView.row] at hk
    refine ⟨by simp [MVOp.sel]; omega, by simp [MVOp.sel]; omega, fin _ _ _ (by first | rfl | trivial) ?_⟩
    simp only [MView.row, VView.addr, MView.addr, MVOp.sel]
  | col j =>
    simp only [MVOp.run] at h
    split at h <;> simp only [Option.some_inj, reduceCtorEq] at h
    subst h
    refine ⟨rfl, fun k hk => ?_⟩
    simp only [MView.col] at hk
    refine ⟨by simp [MVOp.sel]; omega, by simp [MVOp.sel]; omega, fin _ _ _ (by first | rfl | trivial) ?_⟩
    simp only [MView.col, VView.addr, MView.addr, MVOp.sel]; ring
  | diag =>
    simp only [MVOp.run, Option.some_inj] at h
    subst h
    refine ⟨by simp [MView.diag, MVOp.len], fun k hk => ?_⟩
    simp only [MView.diag] at hk
    refine ⟨by simp [MVOp.sel]; omega, by simp [MVOp.sel]; omega, fin _ _ _ (by first | rfl | trivial) ?_⟩
    simp only [MView.diag, VView.addr, MView.addr, MVOp.sel]; ring
  | diagOff i =>
    simp only [MVOp.run] at h
    split at h <;> simp only [Option.some_inj, reduceCtorEq] at h
    rename_i hc
    subst h
    by_cases hi : i ≥ 0
    · simp only [MView.diagOff, MVOp.len, MVOp.sel, if_pos hi] at *
      refine ⟨by omega, fun k hk => ?_⟩
      refine ⟨by omega, by omega, fin _ _ _ (by first | rfl | trivial) ?_⟩
      simp only [VView.addr, MView.addr]; ring
    · simp only [MView.diagOff, MVOp.len, MVOp.sel, if_neg hi] at *
      refine ⟨by omega, fun k hk => ?_⟩
      refine ⟨by omega, by omega, fin _ _ _ (by first | rfl | trivial) ?_⟩
      simp only [VView.addr, MView.addr]; ring
  | row3 i j1 j2 =>
    simp only [MVOp.run] at h
    split at h <;> simp only [Option.some_inj, reduceCtorEq] at h
    subst h
    simp only [MView.row3, MVOp.len, MVOp.sel] at *
    refine ⟨by omega, fun k hk => ?_⟩
    refine ⟨by omega, by omega, fin _ _ _ (by first | rfl | trivial) ?_⟩
    simp only [VView.addr, MView.addr]; ring
  | col3 j i1 i2 =>
    simp only [MVOp.run] at h
    split at h <;> simp only [Option.some_inj, reduceCtorEq] at h
    subst h
    simp only [MView.col3, MVOp.len, MVOp.sel] at *
    refine ⟨by omega, fun k hk => ?_⟩
    refine ⟨by omega, by omega, fin _ _ _ (by first | rfl | trivial) ?_⟩
    simp only [VView.addr, MView.addr]; ring
  | diag3 i j1 j2 =>
    by_cases hi : i ≥ 0
    · simp only [MVOp.run, if_pos hi] at h
      split at h <;> simp only [Option.some_inj, reduceCtorEq] at h
      rename_i hc
      subst h
      simp only [MView.diag3, MVOp.len, MVOp.sel, if_pos hi] at *
      refine ⟨by omega, fun k hk => ?_⟩
      refine ⟨by omega, by omega, fin _ _ _ (by first | rfl | trivial) ?_⟩
      simp only [VView.addr, MView.addr]; ring
    · simp only [MVOp.run, if_neg hi] at h
      split at h <;> simp only [Option.some_inj, reduceCtorEq] at h
      rename_i hc
      subst h
      simp only [MView.diag3, MVOp.len, MVOp.sel, if_neg hi] at *
      refine ⟨by omega, fun k hk => ?_⟩
      refine ⟨by omega, by omega, fin _ _ _ (by first | rfl | trivial) ?_⟩
      simp only [VView.addr, MView.addr]; ring
  | sub i j is js s =>
    simp only [MVOp.run] at h
    split at h <;> simp only [Option.some_inj, reduceCtorEq] at h
    rename_i hc
    subst h
    simp only [MView.subVector, MVOp.len, MVOp.sel] at *
    refine ⟨by omega, fun k hk => ?_⟩
    obtain ⟨_, hin⟩ := (matHasSubVector_iff M i j is js s (by omega)).mp hc
    obtain ⟨a, b⟩ := hin k (by omega)
    refine ⟨a, b, fin _ _ _ (by first | rfl | trivial) ?_⟩
    simp only [VView.addr, MView.addr]; ring

example : ∃ v, (MVOp.diagOff (-3)).run (MView.ofStor 0 5 4 false) = some v ∧ v.size = 2 := by decide

/-! ### C17: linear views -/

/-- The cached linear size stays consistent through every accepted view call. -/
theorem lsok_run (o : MOp) (M V : MView) (hM : M.LSOK) (h : o.run M = some V) : V.LSOK := by
  cases o with
  | sub4 => simp only [MOp.run] at h; split at h <;> simp at h; subst h; exact Or.inr (Or.inl rfl)
  | sub6 =>
    simp only [MOp.run, MView.subMatrix6] at h
    split at h
    · split at h <;> simp at h
      subst h; exact Or.inr (Or.inl rfl)
    · simp at h
  | colPair => simp only [MOp.run] at h; split at h <;> simp at h; subst h; exact Or.inr (Or.inl rfl)
  | rowPair => simp only [MOp.run] at h; split at h <;> simp at h; subst h; exact Or.inr (Or.inl rfl)
  | colRange =>
    simp only [MOp.run] at h; split at h <;> simp at h; subst h
    simp only [MView.LSOK, MView.colRange]
    split
    · exact Or.inl rfl
    · exact Or.inr (Or.inl rfl)
  | rowRange =>
    simp only [MOp.run] at h; split at h <;> simp at h; subst h
    simp only [MView.LSOK, MView.rowRange]
    split
    · exact Or.inl rfl
    · exact Or.inr (Or.inl rfl)
  | transpose =>
    simp only [MOp.run, Option.some_inj] at h; subst h
    simp only [MView.LSOK, MView.transpose] at *
    rcases hM with h | h | ⟨h, h'⟩
    · exact Or.inl h
    · exact Or.inr (Or.inl h)
    · exact Or.inr (Or.inr ⟨by rw [h, mul_comm], by tauto⟩)
  | conjugate =>
    simp only [MOp.run, Option.some_inj] at h; subst h
    exact hM
  | adjoint =>
    simp only [MOp.run, Option.some_inj] at h; subst h
    simp only [MView.LSOK, MView.adjoint] at *
    rcases hM with h | h | ⟨h, h'⟩
    · exact Or.inl h
    · exact Or.inr (Or.inl h)
    · exact Or.inr (Or.inr ⟨by rw [h, mul_comm], by tauto⟩)

theorem lsok_runAll (os : List MOp) (M V : MView) (hM : M.LSOK) (h : MOp.runAll os M = some V) :
    V.LSOK := by
  induction os generalizing M with
  | nil => simp only [MOp.runAll, Option.some_inj] at h; subst h; exact hM
  | cons o os ih =>
    simp only [MOp.runAll] at h
    cases hr : o.run M with
    | none => simp [hr] at h
    | some U => rw [hr, Option.bind_some] at h; exact ih U (lsok_run o M U hM hr) h

/-- The library's creators produce consistent caches. -/
theorem lsok_ofStor (p : Int) (cs rs : Nat) (rm : Bool) : (MView.ofStor p cs rs rm).LSOK := by
  cases rm <;> simp [MView.LSOK, MView.ofStor]
theorem lsok_ofSteps (p : Int) (cs rs : Nat) (si sj : Int) : (MView.ofSteps p cs rs si sj).LSOK := by
  simp only [MView.LSOK, MView.ofSteps]
  split
  · rename_i h; exact Or.inr (Or.inr ⟨rfl, Or.inl h⟩)
  · split
    · rename_i h; exact Or.inr (Or.inr ⟨rfl, Or.inr h⟩)
    · exact Or.inr (Or.inl rfl)
theorem lsok_ofRowVector (v : VView) : (MView.ofRowVector v).LSOK := by
  simp only [MView.LSOK, MView.ofRowVector]
  split
  · rename_i h; exact Or.inr (Or.inr ⟨by simp, Or.inr ⟨h, by first | rfl | trivial⟩⟩)
  · exact Or.inr (Or.inl rfl)
theorem lsok_ofColVector (v : VView) : (MView.ofColVector v).LSOK := by
  simp only [MView.LSOK, MView.ofColVector]
  split
  · rename_i h; exact Or.inr (Or.inr ⟨by simp, Or.inl ⟨h, by first | rfl | trivial⟩⟩)
  · exact Or.inr (Or.inl rfl)

/-- What `canLinearize()` means for the geometry. -/
theorem canLinearize_geom (M : MView) (hM : M.LSOK) (h : M.canLinearize = true) :
    M.resolve.ls = M.cs * M.rs ∧ ((M.si = 1 ∧ M.sj = M.cs) ∨ (M.sj = 1 ∧ M.si = M.rs)) := by
  simp only [MView.canLinearize, decide_eq_true_eq] at h
  simp only [MView.resolve] at *
  by_cases h1 : M.ls = -1
  · rw [if_pos h1] at *
    by_cases h2 : (M.si = 1 ∧ M.sj = M.cs) ∨ (M.sj = 1 ∧ M.si = M.rs)
    · rw [if_pos h2] at *
      exact ⟨mul_comm _ _, h2⟩
    · rw [if_neg h2] at h; simp at h
  · rw [if_neg h1] at *
    rcases hM with h' | h' | h'
    · exact absurd h' h1
    · omega
    · exact h'

/-- The index of `(i,j)` in a contiguous matrix. -/
def MView.linIdx (M : MView) (i j : Nat) : Nat :=
  if M.si = 1 ∧ M.sj = M.cs then i + j * M.cs else i * M.rs + j

/-- **C17**.  If `canLinearize()` holds, the linear view has exactly one element for every matrix
element: `(i,j) ↦ linIdx i j` is a bijection from the index pairs onto the linear indices, and the
linear view reads exactly the matrix element there. -/
theorem linearView_spec [Star K] (M : MView) (hM : M.LSOK) (h : M.canLinearize = true) :
    M.linearView.size = M.cs * M.rs ∧
    (∀ i j : Nat, i < M.cs → j < M.rs → M.linIdx i j < M.linearView.size ∧
      M.linearView.addr (M.linIdx i j) = M.addr i j ∧
      ∀ m : Mem K, M.linearView.cref m (M.linIdx i j) = M.cref m i j) ∧
    (∀ i j i' j' : Nat, i < M.cs → j < M.rs → i' < M.cs → j' < M.rs →
      M.linIdx i j = M.linIdx i' j' → i = i' ∧ j = j') ∧
    (∀ k : Nat, k < M.linearView.size → ∃ i j : Nat, i < M.cs ∧ j < M.rs ∧ M.linIdx i j = k) := by
  obtain ⟨hl, hg⟩ := canLinearize_geom M hM h
  have hsz : M.linearView.size = M.cs * M.rs := by
    simp only [MView.linearView, hl]
    exact_mod_cast Int.toNat_natCast (M.cs * M.rs)
  have div_lt : ∀ {a b c d : Nat}, a < c → b < d → a + b * c < c * d := by
    intro a b c d h1 h2
    calc a + b * c < c + b * c := by omega
      _ = (b + 1) * c := by ring
      _ ≤ d * c := Nat.mul_le_mul_right _ h2
      _ = c * d := mul_comm _ _
  refine ⟨hsz, ?_, ?_, ?_⟩
  · intro i j hi hj
    have ha : M.linearView.addr (M.linIdx i j) = M.addr i j := by
      simp only [MView.linIdx, MView.linearView, VView.addr, MView.addr]
      split
      · rename_i hc; rw [hc.1, hc.2]; push_cast; ring
      · rename_i hc
        have := hg.resolve_left hc
        rw [this.1, this.2]; push_cast; ring
    refine ⟨?_, ha, ?_⟩
    · rw [hsz]
      simp only [MView.linIdx]
      split
      · exact div_lt hi hj
      · rw [mul_comm M.cs, add_comm]; exact div_lt hj hi
    · intro m
      simp only [VView.cref, MView.cref, ha]; rfl
  · intro i j i' j' hi hj hi' hj' e
    simp only [MView.linIdx] at e
    split at e
    · have h1 : (i + j * M.cs) % M.cs = (i' + j' * M.cs) % M.cs := by rw [e]
      rw [Nat.add_mul_mod_self_right, Nat.add_mul_mod_self_right, Nat.mod_eq_of_lt hi,
        Nat.mod_eq_of_lt hi'] at h1
      subst h1
      refine ⟨rfl, Nat.eq_of_mul_eq_mul_right (by omega : 0 < M.cs) (by omega)⟩
    · have h1 : (i * M.rs + j) % M.rs = (i' * M.rs + j') % M.rs := by rw [e]
      rw [Nat.add_comm, Nat.add_mul_mod_self_right, Nat.add_comm, Nat.add_mul_mod_self_right,
        Nat.mod_eq_of_lt hj, Nat.mod_eq_of_lt hj'] at h1
      subst h1
      refine ⟨Nat.eq_of_mul_eq_mul_right (by omega : 0 < M.rs) (by omega), rfl⟩
  · intro k hk
    rw [hsz] at hk
    have hc : 0 < M.cs := by rcases Nat.eq_zero_or_pos M.cs with h | h; simp [h] at hk; exact h
    have hr : 0 < M.rs := by rcases Nat.eq_zero_or_pos M.rs with h | h; simp [h] at hk; exact h
    simp only [MView.linIdx]
    split
    · refine ⟨k % M.cs, k / M.cs, Nat.mod_lt _ hc, ?_, ?_⟩
      · exact Nat.div_lt_of_lt_mul hk
      · rw [mul_comm]; exact Nat.mod_add_div k M.cs
    · refine ⟨k / M.rs, k % M.rs, ?_, Nat.mod_lt _ hr, ?_⟩
      · rw [mul_comm] at hk; exact Nat.div_lt_of_lt_mul hk
      · rw [mul_comm, add_comm]; exact Nat.mod_add_div k M.rs

/-- Non-vacuity: a column range of a 4x5 column-major matrix is linear, of a row-major one is not;
and a row range of a column-major one is not. -/
example : ((MView.ofStor 0 4 5 false).colRange 1 3).canLinearize = true ∧
    ((MView.ofStor 0 4 5 false).colRange 1 3).linearView = ⟨4, 8, 1, false⟩ ∧
    ((MView.ofStor 0 4 5 true).colRange 1 3).canLinearize = false ∧
    ((MView.ofStor 0 4 5 false).rowRange 1 3).canLinearize = false := by decide

end TMV
