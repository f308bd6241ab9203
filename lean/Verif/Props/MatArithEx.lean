import Verif.Props.MatVec
import Verif.Props.VecArithEx

/-! Properties C70 and C71: the hypotheses are met by non-trivial, aliased operands. -/
namespace TMV

/-- An allocator that always finds unused memory exists. -/
noncomputable def Alloc.good {K : Type _} [Zero K] : Alloc K :=
  open Classical in ⟨fun m _ => if h : m.Bdd then h.choose else 0, fun _ => 0⟩

theorem Alloc.good_ok {K : Type _} [Zero K] : (Alloc.good : Alloc K).OK := by
  intro m n hb a h1 h2
  simp only [Alloc.good, dif_pos hb] at h1
  exact hb.choose_spec a h1

theorem exMem_bdd : exMem.Bdd := ⟨30, fun a ha => by simp [exMem]; omega⟩

/-- `m` is a 3×3 row-major matrix at address 0, values 1..9. -/
def exM : MView := MView.ofStor 0 3 3 true

theorem exM_holds : exM.Holds exMem (fun i j => ⟨3 * i + j + 1, 0⟩) := by
  intro i j hi hj
  have h1 : i < 3 := hi
  have h2 : j < 3 := hj
  interval_cases i <;> interval_cases j <;> decide

theorem exM_wf : exM.WF := ofStor_wf 0 3 3 true (by decide) (by decide)

/-- `m += 2*m.transpose()`: source and destination are the same memory; the result is computed from the old values. -/
example : ∃ m', MView.addMM Alloc.good 2 exM.transpose exM exMem = some m' ∧
    exM.cref m' 1 2 = some (⟨6, 0⟩ + 2 * ⟨8, 0⟩) ∧ m' 20 = exMem 20 := by
  obtain ⟨m', e, h, f⟩ := mat_addMM_spec Alloc.good_ok 2 exM.transpose exM rfl rfl exMem exMem_bdd _ _ exM_wf
    (lsok_ofStor _ _ _ _).transpose (lsok_ofStor _ _ _ _) exM_holds.transpose exM_holds (Or.inr rfl)
  refine ⟨m', e, h 1 2 (by decide) (by decide), f 20 ?_⟩
  rintro ⟨i, j, hi, hj, h⟩
  have h1 : i < 3 := hi
  have h2 : j < 3 := hj
  simp [exM, MView.ofStor, MView.addr] at h
  omega

/-- `m = 5*m.adjoint() + 7*m.conjugate()`: both operands aliased. -/
example : ∃ m', MView.addMM3 Alloc.good 5 exM.adjoint 7 exM.conjugate exM exMem = some m' ∧
    exM.cref m' 0 2 = some (5 * star ⟨7, 0⟩ + 7 * star ⟨3, 0⟩) := by
  obtain ⟨m', e, h, -⟩ := mat_addMM3_spec Alloc.good_ok 5 exM.adjoint 7 exM.conjugate exM rfl rfl rfl rfl exMem exMem_bdd
    _ _ exM_wf (lsok_ofStor _ _ _ _).transpose (lsok_ofStor 0 3 3 true).conjugate (lsok_ofStor _ _ _ _)
    (MView.Holds.conjugate.mp exM_holds.transpose) (MView.Holds.conjugate.mp exM_holds) exM_holds.live
    (Or.inr rfl) (Or.inr rfl)
  exact ⟨m', e, h 0 2 (by decide) (by decide)⟩

/-- `m = 5*m` and `m = ElemProd(m,m.conjugate())`. -/
example : (∃ m', MView.mulX 5 exM exMem = some m' ∧ exM.cref m' 0 2 = some (5 * ⟨3, 0⟩)) ∧
    ∃ m', MView.elemMul (fun _ => 0) (fun _ => 0) false 1 exM exM.conjugate exM exMem = some m' ∧
      exM.cref m' 0 2 = some (1 * (⟨3, 0⟩ * star ⟨3, 0⟩)) := by
  obtain ⟨m1, e1, h1, -⟩ := mat_mulX_spec 5 exM exMem _ exM_wf (lsok_ofStor _ _ _ _) exM_holds
  obtain ⟨m2, e2, h2, -⟩ := mat_elemMul_spec_partial (fun _ => 0) (fun _ => 0) false 1 exM exM.conjugate exM rfl rfl rfl rfl
    exMem _ _ _ exM_wf (lsok_ofStor _ _ _ _) (lsok_ofStor 0 3 3 true).conjugate (lsok_ofStor _ _ _ _) (Or.inr (by decide))
    exM_holds (MView.Holds.conjugate.mp exM_holds) exM_holds (Or.inr ⟨rfl, rfl, rfl⟩) (Or.inr ⟨rfl, rfl, rfl⟩)
  exact ⟨⟨m1, e1, h1 0 2 (by decide) (by decide)⟩, ⟨m2, e2, h2 0 2 (by decide) (by decide)⟩⟩

/-- `m.row(0) = 2*m*m.row(0)`: the result is the first row of the matrix and the vector at the same time. -/
example : ∃ m', MView.mulMV Alloc.good false 2 exM (exM.row 0) (exM.row 0) exMem = some m' ∧
    (exM.row 0).cref m' 2 = some (2 * (7 * 1 + 8 * 2 + 9 * 3)) := by
  obtain ⟨m', e, h, -⟩ := mulMV_spec Alloc.good_ok false 2 exM (exM.row 0) (exM.row 0) exMem exMem_bdd _ _ _ rfl rfl exM_wf
    (Or.inl (by decide)) exM_holds (exM_holds.row (i := 0) (by decide)) (exM_holds.row (i := 0) (by decide)) (Or.inr rfl)
    (Or.inr (Or.inr ⟨by decide, by decide, by decide⟩))
  refine ⟨m', e, ?_⟩
  have h2 := h 2 (by decide)
  refine h2.trans ?_
  decide +kernel

end TMV
