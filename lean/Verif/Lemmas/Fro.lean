import Verif.Spec.Fro
import Verif.Lemmas.Pinv
import Mathlib.Analysis.Matrix.Normed

/-! Lemmas about the Frobenius norm. -/
namespace TMV
open Matrix
variable {K : Type} [RCLike K]

section
attribute [local instance] Matrix.frobeniusNormedAddCommGroup

theorem fro_eq {m n : Type} [Fintype m] [Fintype n] (F : Matrix m n K) : fro F = ‖F‖ := by
  rw [frobenius_norm_def, fro, Real.sqrt_eq_rpow]
  congr 1
  refine Finset.sum_congr rfl fun i _ => Finset.sum_congr rfl fun j _ => ?_
  norm_cast

theorem fro_add {m n : Type} [Fintype m] [Fintype n] (F G : Matrix m n K) : fro (F + G) ≤ fro F + fro G := by
  rw [fro_eq, fro_eq, fro_eq]
  exact norm_add_le F G

end

theorem fro_zero {m n : Type} [Fintype m] [Fintype n] : fro (0 : Matrix m n K) = 0 := by simp [fro]

theorem fro_cols {m n : Type} [Fintype m] [Fintype n] (F : Matrix m n K) : fro F = Real.sqrt (∑ j, norm2sq fun i => F i j) := by
  unfold fro norm2sq
  rw [Finset.sum_comm]

theorem fro_transpose {m n : Type} [Fintype m] [Fintype n] (F : Matrix m n K) : fro Fᵀ = fro F := by
  unfold fro
  rw [Finset.sum_comm]
  rfl

/-- The Frobenius norm is invariant under isometries. -/
theorem fro_iso {m n k : Type} [Fintype m] [Fintype n] [Fintype k] [DecidableEq m] {U : Matrix k m K} (hu : Uᴴ * U = 1) (F : Matrix m n K) :
    fro (U * F) = fro F := by
  rw [fro_cols, fro_cols]
  congr 1
  refine Finset.sum_congr rfl fun j _ => ?_
  rw [← norm2sq_iso hu]
  rfl

theorem fro_iso' {m n k : Type} [Fintype m] [Fintype n] [Fintype k] [DecidableEq n] {V : Matrix n k K} (hv : V * Vᴴ = 1) (F : Matrix m n K) :
    fro (F * V) = fro F := by
  rw [← fro_transpose, transpose_mul, fro_iso, fro_transpose]
  have := congrArg transpose hv
  rw [transpose_mul, transpose_one] at this
  exact this

end TMV
