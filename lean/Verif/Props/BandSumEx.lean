import Verif.Props.BandFull
import Verif.Props.TriSumEx

/-! Properties C123 and C124: instances that meet the hypotheses, and the finding of C124 on one of them. -/
namespace TMV

/-- A packed tridiagonal 3×3 matrix, row-major, at address `p` of `exMem`: it occupies 7 elements. -/
def exT (p : Int) : BView := BView.ofStor p Stor.rm 3 3 1 1
/-- What it reads. -/
def exTV (p : Int) (i j : Nat) : GaussianInt := if (i : Int) - j ≤ 1 ∧ (j : Int) - i ≤ 1 then ⟨p + 2 * i + j + 1, 0⟩ else 0

theorem exT_wf (p : Int) : (exT p).WF := by
  refine ⟨by simp [exT, BView.ofStor], by simp [exT, BView.ofStor], Or.inr (by simp [exT, BView.ofStor]), Or.inr (by simp [exT, BView.ofStor]),
    by simp [exT, BView.ofStor], ?_⟩
  intro i j i' j' h h' e
  simp [exT, BView.ofStor, BView.In, InBand, BView.addr] at h h' e
  omega

theorem exT_lsok (p : Int) : (exT p).LSOK := lsok_bandStor p Stor.rm 3 3 1 1

theorem exT_foot {p a : Int} (h : (exT p).Footprint a) : p ≤ a ∧ a < p + 7 := by
  rcases h with ⟨i, j, h, e⟩ | ⟨_, k, hk, e⟩
  · simp [exT, BView.ofStor, BView.In, InBand, BView.addr] at h e
    omega
  · have : (exT p).linearView.size = 7 := by simp [exT, BView.ofStor, BView.linearView, BView.resolveLs, bandStorageLength]
    simp [exT, BView.ofStor, BView.linearView, VView.addr] at e
    omega

theorem exT_good {p : Int} (h : p = 0 ∨ p = 10) : (exT p).Good exMem := by
  intro a ha
  have := exT_foot ha
  simp [exMem]
  omega

theorem exT0_holds : (exT 0).Holds exMem (exTV 0) := by
  intro i j hi hj
  have h1 : i < 3 := hi
  have h2 : j < 3 := hj
  interval_cases i <;> interval_cases j <;> decide
theorem exT10_holds : (exT 10).Holds exMem (exTV 10) := by
  intro i j hi hj
  have h1 : i < 3 := hi
  have h2 : j < 3 := hj
  interval_cases i <;> interval_cases j <;> decide

theorem exT_sep : (exT 10).Sep (exT 0) := fun a h1 h2 => by
  have := exT_foot h1
  have := exT_foot h2
  omega

/-- **C123**: `b += 5*a` for two packed matrices (the linear branch); the memory beyond the array of `b` does not change. -/
example : ∃ m', BView.addMM Alloc.good 5 (exT 10) (exT 0) exMem = some m' ∧ (exT 0).cref m' 1 2 = some (5 + 5 * 15) ∧
    (exT 0).cref m' 0 2 = some 0 ∧ m' 7 = exMem 7 := by
  obtain ⟨m', e, h, f, -⟩ := band_addMM_spec_partial Alloc.good_ok 5 (A := exT 10) (B := exT 0) rfl rfl (by decide) (by decide) (exT_wf _) (exT_wf _)
    (exT_lsok _) (exT_lsok _) (Or.inl exT_sep) exMem exMem_bdd (exT_good (Or.inr rfl)) (exT_good (Or.inl rfl)) exT10_holds exT0_holds
  exact ⟨m', e, (h 1 2 (by decide) (by decide)).trans (by decide), (h 0 2 (by decide) (by decide)).trans (by decide),
    f 7 fun hf => by have := exT_foot hf; omega⟩

/-- **C123**: `b = 5*Transpose(b) + 7*b`. -/
example : ∃ m', BView.addMM3 Alloc.good 5 (exT 0).transpose 7 (exT 0) (exT 0) exMem = some m' ∧ (exT 0).cref m' 1 2 = some (5 * 6 + 7 * 5) := by
  have hT : (exT 0).transpose.Holds exMem (fun i j => exTV 0 j i) := by
    intro i j hi hj
    rw [(band_transpose (exT 0) exMem i j).2.2]; exact exT0_holds j i hj hi
  have hW : (exT 0).transpose.WF := by
    refine ⟨by decide, by decide, Or.inr (by decide), Or.inr (by decide), by decide, ?_⟩
    intro i j i' j' h h' e
    simp [exT, BView.ofStor, BView.transpose, BView.In, InBand, BView.addr] at h h' e
    omega
  have hf : ∀ a, (exT 0).transpose.Footprint a → 0 ≤ a ∧ a < 7 := by
    rintro a (⟨i, j, h, e⟩ | ⟨_, k, hk, e⟩)
    · simp [exT, BView.ofStor, BView.transpose, BView.In, InBand, BView.addr] at h e
      omega
    · have : (exT 0).transpose.linearView.size = 7 := by decide
      simp [exT, BView.ofStor, BView.transpose, BView.linearView, VView.addr] at e
      omega
  obtain ⟨m', e, h, -⟩ := band_addMM3_spec_partial Alloc.good_ok 5 7 (A := (exT 0).transpose) (B := exT 0) (C := exT 0) rfl rfl (by decide) (by decide)
    rfl rfl (by decide) (by decide) hW (exT_wf _) (exT_wf _) (lsok_band_views _ (exT_lsok 0) (by decide) (by decide)).2.1 (exT_lsok _) (exT_lsok _)
    (Or.inr ⟨rfl, by decide⟩) (Or.inr ⟨rfl, by decide⟩) exMem exMem_bdd (fun a ha => by have := hf a ha; simp [exMem]; omega)
    (exT_good (Or.inl rfl)) (exT_good (Or.inl rfl)) hT exT0_holds
  exact ⟨m', e, (h 1 2 (by decide) (by decide)).trans (by decide)⟩

/-- **C123**: a bidiagonal matrix assigned to the band of a full matrix: the third diagonal becomes 0. -/
example : ∃ m', BView.assignToB Alloc.good (BView.ofMat exM2 0 1) (BView.ofMat exM 1 1) exMem = some m' ∧
    (BView.ofMat exM 1 1).cref m' 1 2 = some 18 ∧ exM.cref m' 1 0 = some 0 ∧ m' 2 = exMem 2 := by
  have hs : (BView.ofMat exM2 0 1).Sep (BView.ofMat exM 1 1) := fun a h1 h2 =>
    exM2_disj a (ofMat_covers ((foot_zero rfl).mp h1)) (ofMat_covers ((foot_zero rfl).mp h2))
  obtain ⟨m', e, h, f, -⟩ := band_assign_spec_partial Alloc.good_ok (A := BView.ofMat exM2 0 1) (B := BView.ofMat exM 1 1) rfl rfl (by decide) (by decide)
    (ofMat_wf (ofStor_wf 10 3 3 false (by decide) (by decide)) (by decide) (by decide) (by decide) (by decide))
    (ofMat_wf exM_wf (by decide) (by decide) (by decide) (by decide)) (Or.inl hs) exMem exMem_bdd (ofMat_holds exM2_holds 0 1)
    (ofMat_good exM_holds.live 1 1).live
  refine ⟨m', e, (h 1 2 (by decide) (by decide)).trans (by decide), ?_, f 2 ?_⟩
  · rw [← band_ofMat exM 1 1 m' 1 0 (by decide)]
    exact (h 1 0 (by decide) (by decide)).trans (by decide)
  · rw [foot_zero rfl]
    rintro ⟨i, j, h, e⟩
    simp [exM, MView.ofStor, BView.ofMat, BView.addr, BView.In, InBand] at h e
    omega

/-- **C124**: `m = 5*t + 7*m` for a packed tridiagonal matrix `t`. -/
theorem exT_sepM : (exT 10).SepM exM := fun a h1 ⟨i, j, hi, hj, e⟩ => by
  have := exT_foot h1
  have h3 : i < 3 := hi
  have h4 : j < 3 := hj
  simp [exM, MView.ofStor, MView.addr] at e
  omega
example : ∃ m', BView.addBM Alloc.good 5 (exT 10) 7 exM exM exMem = some m' ∧ exM.cref m' 1 2 = some (5 * 15 + 7 * 6) ∧
    exM.cref m' 0 2 = some (7 * 3) := by
  obtain ⟨m', e, h, -⟩ := band_addBM_spec_partial Alloc.good_ok 5 7 (A := exT 10) (B := exM) (C := exM) rfl rfl rfl rfl (exT_wf _) exM_wf
    (exT_lsok _) (lsok_ofStor _ _ _ _) (lsok_ofStor _ _ _ _) (Or.inl exT_sepM) (Or.inr rfl) (Or.inl rfl) exMem exMem_bdd
    (exT_good (Or.inr rfl)) exT10_holds exM_holds exM_holds.live
  exact ⟨m', e, (h 1 2 (by decide) (by decide)).trans (by decide), (h 0 2 (by decide) (by decide)).trans (by decide)⟩

/-- **C124**, finding: `m.conjugate() = t + i*m2` gives `t - i*m2`. -/
theorem band_addBM_example_violated : ∃ m', BView.addBM Alloc.good 1 (exT 10) ⟨0, 1⟩ exM exM.conjugate exMem = some m' ∧
    exM.cref exMem 0 2 = some 3 ∧ (exT 10).cref exMem 0 2 = some 0 ∧ exM.conjugate.cref m' 0 2 = some ⟨0, -3⟩ := by
  obtain ⟨m', e, h, -⟩ := band_addBM_conj Alloc.good_ok 1 ⟨0, 1⟩ (A := exT 10) (B := exM) (C := exM.conjugate) rfl rfl rfl rfl (exT_wf _)
    exM_wf.conjugate (exT_lsok _) (lsok_ofStor _ _ _ _) (lsok_ofStor 0 3 3 true).conjugate (Or.inl exT_sepM) (Or.inr rfl) exMem exMem_bdd
    (exT_good (Or.inr rfl)) exT10_holds exM_holds exM_holds.live
  exact ⟨m', e, by decide, by decide, (h 0 2 (by decide) (by decide)).trans (by decide)⟩

end TMV
