import Verif.Props.LDLInv
import Mathlib.LinearAlgebra.Matrix.Determinant.Basic
import Mathlib.LinearAlgebra.Matrix.Block

/-! C32: the determinant from the blocks of `D`. -/
namespace TMV.LDL
noncomputable section
variable {K : Type} [RCLike K]

/-- The leading `n × n` part of a matrix. -/
def lead (n : Nat) (M : Nat → Nat → K) : Matrix (Fin n) (Fin n) K := Matrix.of fun i k => M i k

theorem lead_blocks (m n : Nat) (M : Nat → Nat → K) (h1 : ∀ i k, i < m → m ≤ k → k < m + n → M i k = 0) :
    (lead (m+n) M).det = (lead m M).det * (lead n fun i k => M (m+i) (m+k)).det := by
  have e : lead (m+n) M = (Matrix.fromBlocks (lead m M) 0 (Matrix.of fun (i : Fin n) (k : Fin m) => M (m+i) k)
      (lead n fun i k => M (m+i) (m+k))).submatrix finSumFinEquiv.symm finSumFinEquiv.symm := by
    ext i k
    rw [Matrix.submatrix_apply]
    obtain ⟨i, rfl⟩ := finSumFinEquiv.surjective i
    obtain ⟨k, rfl⟩ := finSumFinEquiv.surjective k
    rw [Equiv.symm_apply_apply, Equiv.symm_apply_apply]
    rcases i with i | i <;> rcases k with k | k
    · simp [lead]
    · simp only [lead, finSumFinEquiv_apply_left, finSumFinEquiv_apply_right, Matrix.of_apply, Matrix.fromBlocks_apply₁₂]
      exact h1 _ _ i.isLt (by simp) (by simp)
    · simp [lead]
    · simp [lead]
  rw [e, Matrix.det_submatrix_equiv_self, Matrix.det_fromBlocks_zero₁₂]

theorem det_one (h : Bool) (n : Nat) (d x : Nat → K) (hx : ∀ k, n ≤ k + 1 → x k = 0) :
    (lead (n+1) (pseudoDiag h d x)).det = (lead n (pseudoDiag h d x)).det * d n := by
  rw [lead_blocks n 1]
  · congr 1
    rw [Matrix.det_fin_one]
    simp [lead, pseudoDiag]
  · intro i k hi hk hk'
    simp only [pseudoDiag]
    rw [if_neg (by omega), if_neg (by omega)]
    split_ifs with hc
    · rw [hx i (by omega), cj_zero]
    · rfl

theorem det_two (h : Bool) (n : Nat) (d x : Nat → K) (hx : ∀ k, n ≤ k + 1 → x k = 0) (z : K) :
    (lead (n+2) (pseudoDiag h d (Function.update x n z))).det =
      (lead n (pseudoDiag h d x)).det * (d n * d (n+1) - z * cj h z) := by
  rw [lead_blocks n 2]
  · congr 1
    · congr 1
      ext i k
      simp only [lead, Matrix.of_apply, pseudoDiag]
      rw [Function.update_of_ne (by omega), Function.update_of_ne (by omega)]
    · rw [Matrix.det_fin_two]
      simp [lead, pseudoDiag, show ¬ n = n + 1 + 1 by omega, mul_comm]
  · intro i k hi hk hk'
    simp only [pseudoDiag]
    rw [if_neg (by omega), if_neg (by omega)]
    split_ifs with hc
    · rw [Function.update_of_ne (by omega), hx i (by omega), cj_zero]
    · rfl

theorem lead_congr {n : Nat} {M M' : Nat → Nat → K} (h : ∀ i k, i < n → k < n → M i k = M' i k) : lead n M = lead n M' := by
  ext i k
  exact h i k i.isLt k.isLt

theorem lead_perm (N : Nat) (σ : Equiv.Perm Nat) (hσ : ∀ k, σ k < N ↔ k < N) (H : Nat → Nat → K) :
    (lead N fun i k => H (σ i) (σ k)).det = (lead N H).det := by
  let e : Fin N ≃ Fin N := (Fin.equivSubtype.trans (σ.subtypePerm hσ)).trans Fin.equivSubtype.symm
  have : (lead N fun i k => H (σ i) (σ k)) = (lead N H).submatrix e e := by
    ext i k; rfl
  rw [this, Matrix.det_submatrix_equiv_self]

theorem det_lower (N : Nat) (A : Nat → Nat → K) : (lead N (lowerMat true A)).det = 1 := by
  rw [Matrix.det_of_lowerTriangular]
  · refine Finset.prod_eq_one fun i _ => ?_
    simp [lead, lowerMat]
  · intro i k hik
    have : (i : Nat) < k := hik
    simp only [lead, Matrix.of_apply, lowerMat]
    rw [if_neg (by omega), if_neg (by omega)]

theorem det_lower_cj (h : Bool) (N : Nat) (A : Nat → Nat → K) :
    (Matrix.of fun i k : Fin N => cj h (lowerMat true A k i)).det = 1 := by
  have : (Matrix.of fun i k : Fin N => cj h (lowerMat true A k i)) =
      (lead N (lowerMat true (fun i k => cj h (A i k)))).transpose := by
    ext i k
    simp only [lead, Matrix.of_apply, Matrix.transpose_apply, lowerMat]
    split_ifs <;> simp
  rw [this, Matrix.det_transpose, det_lower]

theorem Inv.det {h : Bool} {N : Nat} {H : Nat → Nat → K} {σ : Equiv.Perm Nat} {A : Nat → Nat → K} {xD : Nat → K}
    {S : Nat → Nat → K} (hI : Inv h N H N σ A xD S) (hσ : ∀ k, σ k < N ↔ k < N) :
    (lead N H).det = (lead N (pseudoDiag h (fun i => A i i) xD)).det := by
  rw [← lead_perm N σ hσ H]
  have : (lead N fun i k => H (σ i) (σ k)) = lead N (lowerMat true A) * lead N (pseudoDiag h (fun i => A i i) xD) *
      (Matrix.of fun i k : Fin N => cj h (lowerMat true A k i)) := by
    ext i k
    simp only [lead, Matrix.mul_apply, Matrix.of_apply]
    rw [hI.prod i k i.isLt k.isLt, if_neg (by omega), add_zero, Finset.sum_comm, Finset.sum_range]
    refine Finset.sum_congr rfl fun q _ => ?_
    rw [Finset.sum_range, Finset.sum_mul]
  rw [this, Matrix.det_mul, Matrix.det_mul, det_lower, det_lower_cj, one_mul, mul_one]

theorem Inv.isLDL {h : Bool} {N : Nat} {H : Nat → Nat → K} {P : Nat → Nat} {A : Nat → Nat → K} {xD : Nat → K}
    {S : Nat → Nat → K} (hI : Inv h N H N (swapProd P N 0) A xD S) (hP : ∀ k, k < N → k ≤ P k ∧ P k < N) : IsLDL h N H A xD P where
  range := hP
  prod i k hi hk := by
    rw [hI.prod i k hi hk, if_neg (by omega), add_zero]
  block k hk hx := ⟨(hI.block k hk hx).1, fun _ => (hI.block k hk hx).2⟩
  real := hI.real

end
end TMV.LDL
