import Verif.Props.MatMat
import Verif.Props.MatArithEx

/-! Property C40: the hypotheses are met by non-trivial, aliased operands and by operands large enough for the blocked algorithm. -/
namespace TMV

/-- Complex numbers with integer parts. -/
def giTy : ElemTy GaussianInt := ⟨fun z => ⟨z.re, 0⟩, fun z => ⟨z.im, 0⟩, ⟨0, 1⟩, 64, fun x => ((x + 3) / 4) * 4⟩

theorem gi_real {z : GaussianInt} (h : star z = z) : z.im = 0 := by
  have := congrArg Zsqrtd.im h
  simp at this
  omega

theorem giTy_parts : giTy.Parts where
  I2 := by decide
  starI := by decide
  reR z := by simp [giTy, Zsqrtd.ext_iff]
  imR z := by simp [giTy, Zsqrtd.ext_iff]
  dec z := by simp [giTy, Zsqrtd.ext_iff]
  re_mk x y hx hy := by simp [giTy, Zsqrtd.ext_iff, gi_real hx, gi_real hy]
  im_mk x y hx hy := by simp [giTy, Zsqrtd.ext_iff, gi_real hx, gi_real hy]

theorem giTy_ok : giTy.OK := ⟨by decide, fun x => by simp only [giTy]; omega⟩

/-- `m = 2*m*m.adjoint()`: source and destination are the same memory. -/
example : ∃ m', MView.mulMM giTy Alloc.good true true true false 2 exM exM.adjoint exM exMem = some m' ∧
    exM.cref m' 1 2 = some (2 * (4 * 7 + 5 * 8 + 6 * 9)) := by
  obtain ⟨m', e, h, -⟩ := mulMM_spec Alloc.good_ok giTy_ok true true true (fun _ => giTy_parts) (fun h => h) (fun h => h) false 2
    exM exM.adjoint exM exMem exMem_bdd _ _ _ rfl rfl rfl (fun h => by cases h) (fun h => by cases h) (fun h => by cases h)
    exM_wf (lsok_ofStor _ _ _ _) (lsok_ofStor _ _ _ _).transpose (lsok_ofStor _ _ _ _) exM_holds
    (MView.Holds.conjugate.mp exM_holds.transpose) exM_holds (Or.inr rfl) (Or.inr rfl)
  refine ⟨m', e, ?_⟩
  refine (h 1 2 (by decide) (by decide)).trans ?_
  decide +kernel

/-- A memory with 4000 elements. -/
def bigMem : Mem GaussianInt := fun a => if 0 ≤ a ∧ a < 4000 then some ⟨a, 1⟩ else none

theorem bigMem_bdd : bigMem.Bdd := ⟨4000, fun a ha => by simp [bigMem]; omega⟩

theorem bigMem_holds (p cs rs : Nat) (rm : Bool) (h : p + cs * rs ≤ 4000) :
    (MView.ofStor p cs rs rm).Holds bigMem (fun i j => ⟨p + (if rm then i * rs + j else i + j * cs), 1⟩) := by
  intro i j hi hj
  have h1 : i < cs := hi
  have h2 : j < rs := hj
  cases rm with
  | false =>
    have : (j + 1) * cs ≤ rs * cs := Nat.mul_le_mul_right _ h2
    have h3 : i + j * cs < cs * rs := by nlinarith
    simp only [MView.cref, MView.addr, MView.ofStor, Mem.read, bigMem, Bool.false_eq_true, if_false, mul_one]
    have : ((p : Int) + i + j * cs) = ((p + (i + j * cs) : Nat) : Int) := by push_cast; ring
    rw [this, if_pos ⟨by omega, by omega⟩]
    simp [cj]
  | true =>
    have : (i + 1) * rs ≤ cs * rs := Nat.mul_le_mul_right _ h1
    have h3 : i * rs + j < cs * rs := by nlinarith
    simp only [MView.cref, MView.addr, MView.ofStor, Mem.read, bigMem, if_true, mul_one]
    have : ((p : Int) + i * rs + j) = ((p + (i * rs + j) : Nat) : Int) := by push_cast; ring
    rw [this, if_pos ⟨by omega, by omega⟩]
    simp [cj]

/-- `C += (1+2i)*A*B.conjugate()` with 20×30 times 30×25: the blocked algorithm runs. -/
example : MView.useSimple 20 25 30 = false ∧
    ∃ m', MView.mulMM giTy Alloc.good true true true true ⟨1, 2⟩ (MView.ofStor 0 20 30 true) (MView.ofStor 1000 30 25 false).conjugate
      (MView.ofStor 3000 20 25 true) bigMem = some m' ∧
    (MView.ofStor 3000 20 25 true).cref m' 19 24 = some (⟨3499, 1⟩ + ⟨1, 2⟩ *
      ∑ l ∈ Finset.range 30, ⟨570 + l, 1⟩ * star (⟨1720 + l, 1⟩ : GaussianInt)) ∧ m' 2999 = some ⟨2999, 1⟩ := by
  refine ⟨by decide, ?_⟩
  obtain ⟨m', e, h, f⟩ := mulMM_spec Alloc.good_ok giTy_ok true true true (fun _ => giTy_parts) (fun h => h) (fun h => h) true ⟨1, 2⟩
    (MView.ofStor 0 20 30 true) (MView.ofStor 1000 30 25 false).conjugate (MView.ofStor 3000 20 25 true) bigMem bigMem_bdd _ _ _ rfl rfl rfl
    (fun h => by cases h) (fun h => by cases h) (fun h => by cases h)
    (ofStor_wf _ _ _ _ (by decide) (by decide)) (lsok_ofStor _ _ _ _) (lsok_ofStor _ _ _ _).conjugate (lsok_ofStor _ _ _ _)
    (bigMem_holds 0 20 30 true (by decide)) (MView.Holds.conjugate.mp (bigMem_holds 1000 30 25 false (by decide)))
    (bigMem_holds 3000 20 25 true (by decide))
    (Or.inl fun x h h' => by have := ofStor_in h; have := ofStor_in h'; omega)
    (Or.inl fun x h h' => by have := ofStor_in (rm := false) (cs := 30) (rs := 25) (t := 1000) h; have := ofStor_in h'; omega)
  refine ⟨m', e, ?_, ?_⟩
  · refine (h 19 24 (by decide) (by decide)).trans ?_
    decide +kernel
  · rw [f 2999 fun h => by have := ofStor_in h; omega]
    decide +kernel

end TMV
