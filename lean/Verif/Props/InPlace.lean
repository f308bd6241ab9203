import Verif.Model.InPlace
import Verif.Props.LUDiv
import Verif.Props.QRDiv
import Verif.Props.CHDiv
import Verif.Props.LDLDiv

/-! **C78**: `m.divideInPlace()` changes where the decomposition is stored, not what is decomposed. -/
namespace TMV.InPlace
noncomputable section
variable {K : Type} [RCLike K]

/-- **C78**, for matrices that are row or column major (every `Matrix` is): dividing in place decomposes the same matrix. -/
theorem luMake_partial {S : Type} [LinearOrder S] [Zero S] (ab : K → S) (uf : S → Bool) (bs : LU.Blk) (req rm cm : Bool) (N : Nat)
    (A g : Nat → Nat → K) (h : req = true → rm = true ∨ cm = true) :
    letI := Classical.decEq K
    luMake ab uf bs req rm cm N A g = LU.Fac.make ab uf bs rm N A := by
  have e : luStart req rm cm A g = if rm then TriProd.tr A else A := by
    unfold luStart impl
    cases req <;> cases rm <;> cases cm <;> simp_all
  unfold luMake LU.Fac.make
  rw [e]

/-- **C78** for `QRDiv`, of row or column major matrices. -/
theorem qrMake_partial (tiny : ℝ) (nb : Nat) (req rm cm : Bool) (M N : Nat) (A g Z0 : Nat → Nat → K) (beta0 : Nat → K)
    (h : req = true → rm = true ∨ cm = true) :
    qrMake tiny nb req rm cm M N A g Z0 beta0 = QR.QRFac.make tiny nb M N A Z0 beta0 := by
  have e1 : qrStart req rm cm true A g = QR.trM A := by
    unfold qrStart impl
    cases req <;> cases rm <;> cases cm <;> simp_all
  have e2 : qrStart req rm cm false A g = A := by
    unfold qrStart impl
    cases req <;> cases rm <;> cases cm <;> simp_all
  unfold qrMake QR.QRFac.make
  rw [e1, e2]
  by_cases c : M < N
  · simp [c]
  · simp [c]

theorem symStart_eq (req rm cm : Bool) (N : Nat) (A g : Nat → Nat → K) (h : req = true → rm = true ∨ cm = true) :
    symStart req rm cm N A g = fun i j => if j ≤ i ∧ i < N then A i j else g i j := by
  unfold symStart impl
  cases req <;> cases rm <;> cases cm <;> simp_all

/-- **C78** for `HermCHDiv`, of row or column major matrices. -/
theorem chMake_partial (bk : CH.Blks) (o : Tri.Ord) (req rm cm : Bool) (N : Nat) (A g : Nat → Nat → K)
    (h : req = true → rm = true ∨ cm = true) : chMake bk o req rm cm N A g = CH.make bk o N A g := by
  unfold chMake CH.make
  rw [symStart_eq req rm cm N A g h]

/-- **C78** for `SymLDLDiv`, of row or column major matrices. -/
theorem ldlMake_partial (nb nb2 bs : Nat) (o : Tri.Ord) (cm' h : Bool) (req rm cm : Bool) (N : Nat) (A g LD0 : Nat → Nat → K)
    (P0 : Nat → Nat) (hr : req = true → rm = true ∨ cm = true) :
    ldlMake nb nb2 bs o cm' h req rm cm N A g LD0 P0 = LDL.make nb nb2 bs o cm' h N A g LD0 P0 := by
  unfold ldlMake LDL.make
  rw [symStart_eq req rm cm N A g hr]

/-- For a view that is neither row nor column major, e.g. `m.subMatrix(0,4,0,4,2,2)`, the decomposition after `divideInPlace()` does not
depend on the matrix: none of the constructors copies it to the new storage. -/
theorem inPlace_ignores {S : Type} [LinearOrder S] [Zero S] (ab : K → S) (uf : S → Bool) (bs : LU.Blk) (tiny : ℝ) (nb nb2 sz M N : Nat)
    (bk : CH.Blks) (o : Tri.Ord) (c h : Bool) (A A' g Z0 : Nat → Nat → K) (beta0 : Nat → K) (P0 : Nat → Nat) :
    luMake ab uf bs true false false N A g = luMake ab uf bs true false false N A' g ∧
    qrMake tiny nb true false false M N A g Z0 beta0 = qrMake tiny nb true false false M N A' g Z0 beta0 ∧
    chMake bk o true false false N A g = chMake bk o true false false N A' g ∧
    ldlMake nb nb2 sz o c h true false false N A g Z0 P0 = ldlMake nb nb2 sz o c h true false false N A' g Z0 P0 := by
  refine ⟨?_, ?_, ?_, ?_⟩
  · simp [luMake, luStart, impl]
  · simp [qrMake, qrStart, impl]
  · simp [chMake, symStart, impl]
  · simp [ldlMake, symStart, impl]

/-- **C78 violated**: it is not true that after `divideInPlace()` division by a regular matrix view gives the solution. -/
theorem luInPlace_violated (ab : AbsoluteValue K ℝ) (uf : ℝ → Bool) (bs : LU.Blk) (g : Nat → Nat → K) :
    ¬ ∀ A B : Nat → Nat → K, (LU.toM 1 A).det ≠ 0 →
      ∃ F X, luMake ab uf bs true false false 1 A g = some F ∧
        (letI := Classical.decEq K; F.lDiv bs false 1 1 B) = some X ∧ SolM 1 1 A X B := by
  intro hc
  obtain ⟨F, X, e1, e2, hX⟩ := hc (fun _ _ => 1) (fun _ _ => 1) (by simp [LU.toM, Matrix.det_fin_one])
  obtain ⟨F', X', e1', e2', hX'⟩ := hc (fun _ _ => 2) (fun _ _ => 1) (by simp [LU.toM, Matrix.det_fin_one])
  have e : luMake ab uf bs true false false 1 (fun _ _ => 1) g = luMake ab uf bs true false false 1 (fun _ _ => (2 : K)) g := by
    simp [luMake, luStart, impl]
  rw [← e, e1] at e1'
  cases e1'
  rw [e2] at e2'
  cases e2'
  have h1 := hX.1 0 0 (by omega) (by omega)
  have h2 := hX'.1 0 0 (by omega) (by omega)
  simp at h1 h2
  rw [h1] at h2
  norm_num at h2

/-- A row-major matrix meets the hypotheses. -/
example (A g : Nat → Nat → ℝ) : luStart true true false A g = TriProd.tr A := by simp [luStart, impl]

end
end TMV.InPlace
