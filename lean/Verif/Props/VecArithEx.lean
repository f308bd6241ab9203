import Verif.Props.VecElem
import Verif.Props.VecDot
import Mathlib.NumberTheory.Zsqrtd.GaussianInt

/-!
Properties C69 and C41: instances that meet the hypotheses, and findings.
-/
namespace TMV

/-- A block of 30 elements with the values 1, 2, ... -/
def exMem : Mem GaussianInt := fun a => if 0 ≤ a ∧ a < 30 then some ⟨a + 1, 0⟩ else none

/-- Finding: source and destination start at the same element, so the library's `SameStorage` test holds, but
the source has the smaller step (`v.subVector(0,6,2) = 2*v.subVector(0,3)`, and the same with `+=`): no
temporary is used and an element is overwritten before it is read: the third element is 8 and not 6 (19 and
not 11). -/
theorem vec_alias_step_violated :
    ∃ (v w : VView), v.sameStorage w = true ∧ v.size = w.size ∧ w.WF ∧
      v.Holds exMem (fun i => ⟨i + 1, 0⟩) ∧ w.Holds exMem (fun i => ⟨2 * i + 1, 0⟩) ∧
      (∃ m', VView.mulXV (2 : GaussianInt) v w exMem = some m' ∧ w.cref m' 2 = some 8) ∧
      (∃ m', VView.addVV (2 : GaussianInt) v w exMem = some m' ∧ w.cref m' 2 = some 19) := by
  refine ⟨⟨0, 3, 1, false⟩, ⟨0, 3, 2, false⟩, rfl, rfl, Or.inl (by decide), ?_, ?_, ?_, ?_⟩
  · intro i hi
    have : i = 0 ∨ i = 1 ∨ i = 2 := by simp at hi; omega
    rcases this with rfl | rfl | rfl <;> decide
  · intro i hi
    have : i = 0 ∨ i = 1 ∨ i = 2 := by simp at hi; omega
    rcases this with rfl | rfl | rfl <;> decide
  · rw [← Option.bind_eq_some_iff, VView.mulXV]
    decide +kernel
  · rw [← Option.bind_eq_some_iff, VView.addVV]
    decide +kernel

/-- Finding: `z = 0*ElemProd(x,y)` leaves `z` unchanged. -/
theorem elemProd_zero_violated :
    ∃ (x y z : VView) (m' : Mem GaussianInt), x.Disjoint z ∧ y.Disjoint z ∧
      VView.elemMulVV 5 (fun k => 100 * k) (fun _ => 0) false (0 : GaussianInt) x y z exMem = some m' ∧
      z.cref m' 0 ≠ some 0 := by
  refine ⟨⟨0, 2, 1, false⟩, ⟨10, 2, 1, false⟩, ⟨20, 2, 1, false⟩, exMem, ?_, ?_, ?_, by decide⟩
  · rintro a ⟨i, hi, rfl⟩ ⟨j, hj, h⟩
    simp [VView.addr] at h hi hj; omega
  · rintro a ⟨i, hi, rfl⟩ ⟨j, hj, h⟩
    simp [VView.addr] at h hi hj; omega
  · simp [VView.elemMulVV]

/-- Finding: `ElemProd` copies an aliased operand only when its step is larger than that of the result, the
direction that needs no copy; with the smaller step it does not: `v.subVector(0,6,2) = ElemProd(v.subVector(0,3),y)`
with `y = (21,22,23)` should give third element 3*23 = 69 and gives 44*23. -/
theorem elemProd_alias_violated :
    ∃ (x y z : VView), x.sameStorage z = true ∧ x.step < z.step ∧ y.Disjoint z ∧
      x.cref exMem 2 = some 3 ∧ y.cref exMem 2 = some 23 ∧
      ∃ m', VView.elemMulVV 5 (fun k => 100 * k + 100) (fun _ => 0) false (1 : GaussianInt) x y z exMem = some m' ∧
      z.cref m' 2 = some (44 * 23) := by
  refine ⟨⟨0, 3, 1, false⟩, ⟨20, 3, 1, false⟩, ⟨0, 3, 2, false⟩, rfl, by decide, ?_, by decide, by decide, ?_⟩
  · rintro a ⟨i, hi, rfl⟩ ⟨j, hj, h⟩
    simp [VView.addr] at h hi hj; omega
  · rw [← Option.bind_eq_some_iff]
    decide +kernel

/-- Finding: with a third vector of step -1 all vectors are reversed before the aliases are looked for, and
the alias is no longer seen: `v.subVector(0,6,2) = ElemProd(v.subVector(0,12,4),y)` where `y` runs backwards; the second element
should be 5*22 = 110. -/
theorem elemProd_reverse_violated :
    ∃ (x y z : VView), x.sameStorage z = true ∧ Strided x z ∧ y.Disjoint z ∧
      x.cref exMem 1 = some 5 ∧ y.cref exMem 1 = some 22 ∧
      ∃ m', VView.elemMulVV 5 (fun k => 100 * k + 100) (fun _ => 0) false (1 : GaussianInt) x y z exMem = some m' ∧
      z.cref m' 1 ≠ some 110 := by
  refine ⟨⟨0, 3, 4, false⟩, ⟨22, 3, -1, false⟩, ⟨0, 3, 2, false⟩, rfl, ⟨rfl, by decide, by decide⟩, ?_, by decide, by decide, ?_⟩
  · rintro a ⟨i, hi, rfl⟩ ⟨j, hj, h⟩
    simp [VView.addr] at h hi hj; omega
  · obtain ⟨m', h⟩ : ∃ m', VView.elemMulVV 5 (fun k => 100 * k + 100) (fun _ => 0) false (1 : GaussianInt) ⟨0, 3, 4, false⟩
      ⟨22, 3, -1, false⟩ ⟨0, 3, 2, false⟩ exMem = some m' := by
      rw [← Option.isSome_iff_exists]; decide +kernel
    refine ⟨m', h, ?_⟩
    have : (VView.elemMulVV 5 (fun k => 100 * k + 100) (fun _ => 0) false (1 : GaussianInt) ⟨0, 3, 4, false⟩
      ⟨22, 3, -1, false⟩ ⟨0, 3, 2, false⟩ exMem).bind (fun m' => (⟨0, 3, 2, false⟩ : VView).cref m' 1) ≠ some 110 := by
      decide +kernel
    rwa [h] at this

/-- Non-trivial instances: a strided reversed conjugated vector added to a disjoint one; a vector and its own conjugate;
a source with the same first element and the larger step. -/
example : SafeOrder ⟨20, 3, -2, true⟩ ⟨0, 3, 3, false⟩ ∧ SafeOrder ⟨0, 3, -2, true⟩ ⟨0, 3, -2, false⟩ ∧
    SafeOrder ⟨0, 3, 2, false⟩ ⟨0, 3, 1, false⟩ := by
  refine ⟨SafeOrder.of_noClash rfl (NoClash.of_disjoint ?_),
    SafeOrder.of_noClash rfl (NoClash.of_same rfl rfl rfl (Or.inl (by decide))),
    SafeOrder.of_step rfl (by decide) (by decide)⟩
  rintro a ⟨i, hi, rfl⟩ ⟨j, hj, h⟩
  simp [VView.addr] at h hi hj; omega

/-- `w = a*u + b*v` with both operands aliased to `w`: the hypotheses of `addVV3_spec_partial` hold. -/
example : AliasOK ⟨0, 3, 1, false⟩ ⟨0, 3, 2, true⟩ ⟨0, 3, 2, false⟩ ∧ AliasOK ⟨0, 3, 2, true⟩ ⟨0, 3, 1, false⟩ ⟨0, 3, 2, false⟩ ∧
    exMem.Fresh 100 3 ∧ (⟨0, 3, 2, true⟩ : VView).Live exMem := by
  refine ⟨Or.inr ⟨rfl, Or.inl rfl⟩, Or.inr ⟨rfl, Or.inl rfl⟩, ?_, ?_⟩
  · intro a h1 h2; simp [exMem]; omega
  · intro i hi
    have : i = 0 ∨ i = 1 ∨ i = 2 := by simp at hi; omega
    rcases this with rfl | rfl | rfl <;> decide

/-- `ElemProd` with one operand equal to the conjugate of the result and the other strided from the same first element: the
hypotheses of `elemMulVV_spec_partial` hold. -/
example : SameOrDisjoint ⟨0, 3, 2, true⟩ ⟨0, 3, 2, false⟩ ∧ Strided ⟨0, 3, 5, false⟩ ⟨0, 3, 2, false⟩ ∧
    VView.elemReverse 2 5 2 = false ∧ (∀ k : Nat, exMem.Fresh (100 * k + 100) 3) ∧
    (∀ j k : Nat, j ≠ k → (100 * j + 100 : Int) + 3 ≤ 100 * k + 100 ∨ (100 * k + 100 : Int) + 3 ≤ 100 * j + 100) := by
  refine ⟨Or.inr ⟨rfl, rfl⟩, ⟨rfl, by decide, by decide⟩, by decide, ?_, fun j k h => by omega⟩
  intro k a h1 h2; simp [exMem]; omega

end TMV
