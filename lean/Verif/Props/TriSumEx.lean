import Verif.Props.TriSum2
import Verif.Props.MatArithEx

/-! Properties C120, C121, C122: instances that meet the hypotheses, and the finding of C121 on them. -/
namespace TMV

/-- A second 3×3 matrix, column-major, at address 10 of `exMem`. -/
def exM2 : MView := MView.ofStor 10 3 3 false

theorem exM2_holds : exM2.Holds exMem (fun i j => ⟨i + 3 * j + 11, 0⟩) := by
  intro i j hi hj
  have h1 : i < 3 := hi
  have h2 : j < 3 := hj
  interval_cases i <;> interval_cases j <;> decide

/-- The upper triangle of `m` reads as this. -/
def exP (i j : Nat) : GaussianInt := if i ≤ j then ⟨3 * i + j + 1, 0⟩ else 0
/-- The upper triangle of the second matrix with an implicit diagonal of ones. -/
def exQ (i j : Nat) : GaussianInt := if i < j then ⟨i + 3 * j + 11, 0⟩ else if i = j then 1 else 0

theorem exP_holds : (exM.upperTri false).Holds exMem exP := by
  intro i j hi hj
  have h1 : i < 3 := hi
  have h2 : j < 3 := hj
  interval_cases i <;> interval_cases j <;> decide

theorem exQ_holds : (exM2.upperTri true).Holds exMem exQ := by
  intro i j hi hj
  have h1 : i < 3 := hi
  have h2 : j < 3 := hj
  interval_cases i <;> interval_cases j <;> decide

theorem exM_square : exM.Square 3 := temp_square 0 3 (by decide) true
theorem exM2_square : exM2.Square 3 := temp_square 10 3 (by decide) false

theorem exM2_sep : (exM2.upperTri true).SepM exM := by
  rintro a ⟨i, j, h, e⟩ ⟨i', j', hi, hj, e'⟩
  have h1 := h.1
  have h2 := h.2.2.1
  have h3 : i' < 3 := hi
  have h4 : j' < 3 := hj
  simp [exM, exM2, MView.ofStor, MView.addr, MView.upperTri, TView.addr] at e e'
  omega

theorem exM_wfU : (exM2.upperTri true).WF := by
  have := upper_wf exM2_square
  refine ⟨?_, this.2⟩
  intro i j i' j' h h' e
  have h1 := h.1; have h2 := h.2.2.2.1; have h3 := h.2.2.2.2
  have h1' := h'.1; have h2' := h'.2.2.2.1; have h3' := h'.2.2.2.2
  exact this.1 i j i' j' ((upper_in exM2_square.rs i j).mpr ⟨h1, by omega, h2⟩) ((upper_in exM2_square.rs i' j').mpr ⟨h1', by omega, h2'⟩) e

/-- **C120**: `m.upperTri() = 5*m.upperTri() + 7*m2.unitUpperTri()`. -/
example : ∃ m', TView.addUU Alloc.good 5 (exM.upperTri false) 7 (exM2.upperTri true) (exM.upperTri false) exMem = some m' ∧
    (exM.upperTri false).cref m' 0 2 = some (5 * 3 + 7 * 17) ∧ (exM.upperTri false).cref m' 1 1 = some (5 * 5 + 7 * 1) ∧
    (exM.upperTri false).cref m' 2 0 = some 0 ∧ m' 3 = exMem 3 := by
  obtain ⟨m', e, h, f⟩ := tri_addUU_partial Alloc.good_ok 5 7 (exM.upperTri false) (exM2.upperTri true) (exM.upperTri false) rfl rfl
    (upper_wf exM_square) exM_wfU (upper_wf exM_square) rfl (Or.inr (Or.inl ⟨rfl, rfl, rfl⟩))
    (Or.inl fun a h1 h2 => exM2_sep a h1 (upper_covers exM_square h2)) exMem exMem_bdd exP exQ exP_holds exQ_holds
    (exP_holds.has.live) (fun h => by cases h)
  refine ⟨m', e, (h 0 2 (by decide) (by decide)).trans (by decide), (h 1 1 (by decide) (by decide)).trans (by decide),
    (h 2 0 (by decide) (by decide)).trans (by decide), f 3 ?_⟩
  rintro ⟨i, j, h, e⟩
  have := (upper_in exM_square.rs i j).mp h
  simp [exM, MView.ofStor, MView.upperTri, TView.addr] at e
  omega

/-- **C121**: `m = 5*m2.unitUpperTri() + 7*m`. -/
example : ∃ m', TView.addUM Alloc.good 5 (exM2.upperTri true) 7 exM exM exMem = some m' ∧
    exM.cref m' 0 2 = some (5 * 17 + 7 * 3) ∧ exM.cref m' 2 0 = some (7 * 7) := by
  obtain ⟨m', e, h, -⟩ := tri_addUM_partial Alloc.good_ok 5 7 (exM2.upperTri true) exM exM exM_square exM_wfU rfl rfl
    (lsok_ofStor _ _ _ _) exMem exMem_bdd exQ _ exQ_holds exM_holds exM_holds.live (Or.inl exM2_sep) (Or.inr rfl) (fun h => by cases h)
  exact ⟨m', e, (h 0 2 (by decide) (by decide)).trans (by decide), (h 2 0 (by decide) (by decide)).trans (by decide)⟩

theorem exM2_disj : ∀ a, exM2.Covers a → ¬ exM.Covers a := by
  rintro a ⟨i, j, h, h', e⟩ ⟨i', j', hi, hj, e'⟩
  have h3 : i' < 3 := hi
  have h4 : j' < 3 := hj
  simp [exM, exM2, MView.ofStor, MView.addr] at e e'
  omega

/-- **C121**, finding: `m = m.upperTri() + m2` leaves the old elements of `m` below the diagonal in the sum: the element (2,0) is
`7 + 13` and not 13. -/
theorem tri_addUM_example_violated : ∃ m', TView.addUM Alloc.good 1 (exM.upperTri false) 1 exM2 exM exMem = some m' ∧
    exM.cref m' 0 2 = some (3 + 17) ∧ (exM.upperTri false).cref exMem 2 0 = some 0 ∧ exM2.cref exMem 2 0 = some 13 ∧
    exM.cref m' 2 0 = some 20 := by
  obtain ⟨m', e, h, -⟩ := tri_addUM_alias_violated Alloc.good_ok 1 1 (exM.upperTri false) exM2 exM exM_square (upper_wf exM_square) rfl rfl
    (lsok_ofStor _ _ _ _) exMem exMem_bdd exP _ exP_holds exM2_holds exM_holds.live (Or.inr rfl) (Or.inl exM2_disj) _ exM_holds rfl
    (by decide) (TView.AliasOK.noClash (Or.inr (Or.inl ⟨rfl, rfl, rfl⟩)) rfl (upper_wf exM_square) rfl)
  exact ⟨m', e, (h 0 2 (by decide) (by decide)).trans (by decide), by decide, by decide,
    (h 2 0 (by decide) (by decide)).trans (by decide)⟩

/-- The lower triangle of `m` reads as this. -/
def exL (i j : Nat) : GaussianInt := if j ≤ i then ⟨3 * i + j + 1, 0⟩ else 0

/-- **C122**: `m = 5*m.upperTri() + 7*m.lowerTri()`. -/
example : ∃ m', TView.addUL Alloc.good 5 (exM.upperTri false) 7 (exM.lowerTri false).transpose exM exMem = some m' ∧
    exM.cref m' 0 2 = some (5 * 3) ∧ exM.cref m' 1 1 = some (12 * 5) ∧ exM.cref m' 2 0 = some (7 * 7) := by
  have hL : (exM.lowerTri false).Holds exMem exL := by
    intro i j hi hj
    have h1 : i < 3 := hi
    have h2 : j < 3 := hj
    interval_cases i <;> interval_cases j <;> decide
  have hW : (exM.lowerTri false).WF := by
    refine ⟨fun i j i' j' h h' e => ?_, by decide, by decide⟩
    have h1 := h.1; have h2 := h.2.1; have h3 := h.2.2.1; have h4 := h.2.2.2.1
    have h1' := h'.1; have h2' := h'.2.1; have h3' := h'.2.2.1; have h4' := h'.2.2.2.1
    simp [MView.lowerTri, LView.addr, exM, MView.ofStor] at *
    omega
  obtain ⟨m', e, h, -⟩ := tri_addUL_spec Alloc.good_ok 5 7 (exM.upperTri false) (exM.lowerTri false) exM exM_square rfl
    (upper_wf exM_square) hW exMem exMem_bdd exP exL exP_holds hL exM_holds.live
    (Or.inr ⟨rfl, TView.AliasOK.noClash (Or.inr (Or.inl ⟨rfl, rfl, rfl⟩)) rfl (upper_wf exM_square) rfl⟩) (Or.inr rfl)
  exact ⟨m', e, (h 0 2 (by decide) (by decide)).trans (by decide), (h 1 1 (by decide) (by decide)).trans (by decide),
    (h 2 0 (by decide) (by decide)).trans (by decide)⟩

end TMV
