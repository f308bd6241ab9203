import Verif.Props.SymSum3
import Verif.Props.TriSumEx

/-! Properties C125, C126: instances that meet the hypotheses, and the finding of C126 on them. -/
namespace TMV

/-- `[[1,i],[5,2]]`, row-major at address 0, and five more numbers. -/
def exMemC : Mem GaussianInt := fun a =>
  if a = 0 then some 1 else if a = 1 then some ⟨0, 1⟩ else if a = 2 then some 5 else if a = 3 then some 2
  else if 4 ≤ a ∧ a < 9 then some 7 else none
def exC : MView := MView.ofStor 0 2 2 true
/-- The Hermitian matrix made of the upper triangle of `exC`: `[[1,i],[-i,2]]`. -/
def exH : SView := SView.ofMat exC true true
/-- The Hermitian matrix made of the lower triangle of `exC`: `[[1,5],[5,2]]`. -/
def exHL : SView := SView.ofMat exC true false
/-- The symmetric matrix made of the upper triangle of `exC`: `[[1,i],[i,2]]`. -/
def exS : SView := SView.ofMat exC false true

def exHv (i j : Nat) : GaussianInt := if i = 0 ∧ j = 0 then 1 else if i = 0 then ⟨0, 1⟩ else if j = 0 then ⟨0, -1⟩ else 2
def exHLv (i j : Nat) : GaussianInt := if i = 0 ∧ j = 0 then 1 else if i = 0 then 5 else if j = 0 then 5 else 2
def exSv (i j : Nat) : GaussianInt := if i = 0 ∧ j = 0 then 1 else if i = 0 then ⟨0, 1⟩ else if j = 0 then ⟨0, 1⟩ else 2

theorem exMemC_bdd : exMemC.Bdd := ⟨9, fun a ha => by
  unfold exMemC
  rw [if_neg (by omega), if_neg (by omega), if_neg (by omega), if_neg (by omega), if_neg (by omega)]⟩

theorem exC_square : exC.Square 2 := temp_square 0 2 (by decide) true
theorem exC_live : exC.Live exMemC := by
  intro i j hi hj
  have h1 : i < 2 := hi
  have h2 : j < 2 := hj
  interval_cases i <;> interval_cases j <;> decide

theorem exH_holds : exH.Holds exMemC exHv := by
  intro i j hi hj
  have h1 : i < 2 := hi
  have h2 : j < 2 := hj
  interval_cases i <;> interval_cases j <;> decide
theorem exHL_holds : exHL.Holds exMemC exHLv := by
  intro i j hi hj
  have h1 : i < 2 := hi
  have h2 : j < 2 := hj
  interval_cases i <;> interval_cases j <;> decide
theorem exS_holds : exS.Holds exMemC exSv := by
  intro i j hi hj
  have h1 : i < 2 := hi
  have h2 : j < 2 := hj
  interval_cases i <;> interval_cases j <;> decide

theorem exC_sym_wf (h u : Bool) : (SView.ofMat exC h u).WF := by
  refine ⟨fun i j i' j' h1 h2 e => ?_, Or.inr ⟨by decide +revert, by decide +revert⟩, by decide +revert⟩
  simp [SView.In, SView.ofMat, exC, MView.ofStor, SView.addr] at h1 h2 e
  omega

theorem exC_herm (u : Bool) : (SView.ofMat exC true u).HermOK exMemC := by
  intro _ k x hk hx
  have h1 : k < 2 := hk
  interval_cases k
  · have : exMemC 0 = some x := hx
    have e : exMemC 0 = some 1 := by decide
    rw [e] at this
    obtain rfl := Option.some_inj.mp this
    decide
  · have : exMemC 3 = some x := hx
    have e : exMemC 3 = some 2 := by decide
    rw [e] at this
    obtain rfl := Option.some_inj.mp this
    decide

theorem exC_inj (h u : Bool) (i j i' j' : Nat) (_ : i < 2) (hj : j < 2) (_ : i' < 2) (hj' : j' < 2)
    (e : (SView.ofMat exC h u).addr i j = (SView.ofMat exC h u).addr i' j') : i = i' ∧ j = j' := by
  simp [SView.ofMat, exC, MView.ofStor, SView.addr] at e
  omega

/-- **C125**: `h = 3*h.transpose() + 2*g` for the Hermitian matrices `h`, `g` made of the upper and the lower triangle of the same array. -/
example : ∃ m', SView.addSS Alloc.good 3 exH.transpose 2 exHL exH exMemC = some m' ∧
    exH.cref m' 0 1 = some ⟨10, -3⟩ ∧ exH.cref m' 1 0 = some ⟨10, 3⟩ ∧ exH.cref m' 1 1 = some 10 ∧ m' 2 = exMemC 2 := by
  obtain ⟨m', e, h, -, -, f⟩ := sym_addSS_spec Alloc.good_ok 3 2 exH.transpose exHL exH rfl rfl rfl rfl (fun _ => by decide) (fun _ => by decide)
    (exC_sym_wf true true).transpose (exC_sym_wf _ _) (exC_sym_wf _ _) (Or.inr ⟨rfl, Or.inr ⟨rfl, rfl⟩, exC_inj true true⟩)
    (Or.inr ⟨rfl, Or.inl ⟨rfl, rfl⟩, exC_inj true true⟩) exMemC exMemC_bdd (exC_herm true).transpose (exC_herm false) _ _ exH_holds.transpose
    exHL_holds exH_holds.live
  refine ⟨m', e, (h 0 1 (by decide) (by decide)).trans (by decide), (h 1 0 (by decide) (by decide)).trans (by decide),
    (h 1 1 (by decide) (by decide)).trans (by decide), f 2 ?_⟩
  rintro ⟨i, j, h, e⟩
  simp [SView.In, exH, SView.ofMat, exC, MView.ofStor, SView.addr] at h e
  omega

/-- **C125**: `h += 3*h.conjugate()`, `h *= 3`, `h += 3` for the Hermitian matrix `h`. -/
example : ∃ m', SView.addMM Alloc.good 3 exH.conjugate exH exMemC = some m' ∧ exH.cref m' 0 1 = some ⟨0, -2⟩ := by
  obtain ⟨m', e, h, -⟩ := sym_addMM_spec Alloc.good_ok 3 exH.conjugate exH rfl rfl (fun _ => by decide) (exC_sym_wf true true) (exC_sym_wf _ _)
    (Or.inr rfl) exMemC exMemC_bdd (exC_herm true) (exC_herm true) _ _ exH_holds.conjugate exH_holds
  exact ⟨m', e, (h 0 1 (by decide) (by decide)).trans (by decide)⟩
example : ∃ m', SView.mulX 3 exH exMemC = some m' ∧ exH.cref m' 1 0 = some ⟨0, -3⟩ := by
  obtain ⟨m', e, h, -⟩ := sym_mulX_spec 3 exH (fun _ => by decide) (exC_sym_wf _ _) exMemC (exC_herm true) _ exH_holds
  exact ⟨m', e, (h 1 0 (by decide) (by decide)).trans (by decide)⟩
example : ∃ m', SView.addX 3 exH exMemC = some m' ∧ exH.cref m' 1 1 = some 5 ∧ exH.cref m' 1 0 = some ⟨0, -1⟩ := by
  obtain ⟨m', e, h, -⟩ := sym_addX_spec 3 exH (fun _ => by decide) (exC_sym_wf _ _) exMemC (exC_herm true) _ exH_holds
  exact ⟨m', e, (h 1 1 (by decide) (by decide)).trans (by decide), (h 1 0 (by decide) (by decide)).trans (by decide)⟩
/-- **C125**: `h = 3*h.adjoint() + 2` and `h = 3*g` for the lower triangle `g`. -/
example : ∃ m', SView.assignSumX 3 exHL 2 exH exMemC = some m' ∧ exH.cref m' 1 1 = some 8 ∧ exH.cref m' 1 0 = some 15 := by
  obtain ⟨m', e, h, -⟩ := sym_assignSumX_spec 3 2 exHL exH rfl rfl (fun _ => by decide) (fun _ => by decide) (exC_sym_wf _ _) (exC_sym_wf _ _)
    (Or.inr ⟨rfl, Or.inl ⟨rfl, rfl⟩, exC_inj true true⟩) exMemC (exC_herm false) _ exHL_holds exH_holds.live
  exact ⟨m', e, (h 1 1 (by decide) (by decide)).trans (by decide), (h 1 0 (by decide) (by decide)).trans (by decide)⟩

/-- **C126**: `c = 3*h + 2*g` for the Hermitian matrices made of the two triangles of `c`. -/
example : ∃ m', SView.addSSM Alloc.good 3 exH 2 exHL exC exMemC = some m' ∧ exC.cref m' 0 1 = some ⟨10, 3⟩ ∧
    exC.cref m' 1 0 = some ⟨10, -3⟩ := by
  obtain ⟨m', e, h, -⟩ := sym_addSSM_partial Alloc.good_ok 3 2 exH exHL exC rfl exC_square (exC_sym_wf _ _) (exC_sym_wf _ _)
    (Or.inr (Or.inr ⟨⟨rfl, rfl, rfl⟩, rfl⟩)) (Or.inr (Or.inl ⟨rfl, rfl, rfl⟩)) exMemC exMemC_bdd (exC_herm true) (exC_herm false) _ _ exH_holds
    exHL_holds exC_live
  exact ⟨m', e, (h 0 1 (by decide) (by decide)).trans (by decide), (h 1 0 (by decide) (by decide)).trans (by decide)⟩

/-- **C126**: `c = i*h + 2*c`, with a factor that is not real. -/
example : ∃ m', SView.addSM Alloc.good ⟨0, 1⟩ exH 2 exC exC exMemC = some m' ∧ exC.cref m' 0 1 = some ⟨-1, 2⟩ ∧ exC.cref m' 1 0 = some 11 := by
  have hC : exC.Holds exMemC (fun i j => if i = 0 ∧ j = 0 then 1 else if i = 0 then ⟨0, 1⟩ else if j = 0 then 5 else 2) := by
    intro i j hi hj
    have h1 : i < 2 := hi
    have h2 : j < 2 := hj
    interval_cases i <;> interval_cases j <;> decide
  obtain ⟨m', e, h, -⟩ := sym_addSM_partial Alloc.good_ok ⟨0, 1⟩ 2 exH exC exC exC_square rfl rfl (lsok_ofStor _ _ _ _) (exC_sym_wf _ _)
    (Or.inr ⟨rfl, rfl⟩) (Or.inr rfl) exMemC exMemC_bdd (exC_herm true) _ _ exH_holds hC exC_live
  exact ⟨m', e, (h 0 1 (by decide) (by decide)).trans (by decide), (h 1 0 (by decide) (by decide)).trans (by decide)⟩

/-- **C126**, finding: `c = 3*h.transpose()` for the Hermitian matrix `h` made of the upper triangle of `c`: the element (1,0) should be
`3*h(0,1) = 3i` and is `-3i`, so `c` is the symmetric `[[3,-3i],[-3i,6]]`. -/
theorem sym_assign_herm_violated : ∃ m', SView.assignMulXToM 3 exH.transpose exC exMemC = some m' ∧
    exH.transpose.cref exMemC 1 0 = some ⟨0, 1⟩ ∧ exC.cref m' 0 1 = some ⟨0, -3⟩ ∧ exC.cref m' 1 0 = some ⟨0, -3⟩ := by
  obtain ⟨m', e, h, -⟩ := sym_assignMulXToM_violated 3 exH.transpose exC exC_square (exC_sym_wf true true).transpose ⟨rfl, rfl, rfl⟩ (by decide)
    exMemC (exC_herm true).transpose _ exH_holds.transpose exC_live
  exact ⟨m', e, by decide, (h 0 1 (by decide) (by decide)).trans (by decide), (h 1 0 (by decide) (by decide)).trans (by decide)⟩

/-- **C126**, finding: `c = 3*s.conjugate()` for the symmetric matrix `s` made of the upper triangle of `c`: the element (1,0) should be
`-3i` and is `3i`. -/
theorem sym_assign_conj_violated : ∃ m', SView.assignMulXToM 3 exS.conjugate exC exMemC = some m' ∧
    exS.conjugate.cref exMemC 1 0 = some ⟨0, -1⟩ ∧ exC.cref m' 0 1 = some ⟨0, -3⟩ ∧ exC.cref m' 1 0 = some ⟨0, 3⟩ := by
  obtain ⟨m', e, h, -⟩ := sym_assignMulXToM_violated 3 exS.conjugate exC exC_square (exC_sym_wf false true) ⟨rfl, rfl, rfl⟩ (by decide) exMemC
    (fun h => by cases h) _ exS_holds.conjugate exC_live
  exact ⟨m', e, by decide, (h 0 1 (by decide) (by decide)).trans (by decide), (h 1 0 (by decide) (by decide)).trans (by decide)⟩

/-- **C126**: `c = 3*h.transpose() + 2` for the Hermitian matrix `h` made of the upper triangle of `c`; this goes another way and is right. -/
example : ∃ m', SView.assignSumXToM (fun z => ⟨z.re, 0⟩) 3 exH.transpose 2 exC exMemC = some m' ∧ exC.cref m' 0 1 = some ⟨0, -3⟩ ∧
    exC.cref m' 1 0 = some ⟨0, 3⟩ ∧ exC.cref m' 1 1 = some 8 := by
  obtain ⟨m', e, h, -⟩ := sym_assignSumXToM_spec (fun z => ⟨z.re, 0⟩) (fun y hy => by
      have := congrArg Zsqrtd.im hy
      rw [Zsqrtd.im_star] at this
      exact Zsqrtd.ext rfl (by show (0:Int) = y.im; omega)) 3 2 exH.transpose exC exC_square
    (exC_sym_wf true true).transpose (Or.inr (Or.inr ⟨rfl, rfl, rfl⟩)) exMemC (exC_herm true).transpose _ exH_holds.transpose exC_live
  exact ⟨m', e, (h 0 1 (by decide) (by decide)).trans (by decide), (h 1 0 (by decide) (by decide)).trans (by decide),
    (h 1 1 (by decide) (by decide)).trans (by decide)⟩

end TMV
