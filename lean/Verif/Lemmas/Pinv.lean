import Verif.Spec.Pinv

/-! Facts about pseudo-inverses. -/
namespace TMV
open Matrix
variable {K : Type} [RCLike K]

theorem norm2sq_dot {k : Type} [Fintype k] (x : k → K) : ((norm2sq x : ℝ) : K) = star x ⬝ᵥ x := by
  simp only [norm2sq, dotProduct, Pi.star_apply, RCLike.star_def, RCLike.conj_mul, RCLike.ofReal_sum, RCLike.ofReal_pow]

theorem norm2sq_nonneg {k : Type} [Fintype k] (x : k → K) : 0 ≤ norm2sq x := Finset.sum_nonneg fun _ _ => sq_nonneg _

theorem norm2sq_eq_zero {k : Type} [Fintype k] {x : k → K} (h : norm2sq x = 0) : x = 0 := by
  funext i
  have := (Finset.sum_eq_zero_iff_of_nonneg (fun i _ => sq_nonneg ‖x i‖)).mp h i (Finset.mem_univ _)
  simpa using this

theorem norm2sq_add {k : Type} [Fintype k] {x y : k → K} (hxy : star x ⬝ᵥ y = 0) : norm2sq (x + y) = norm2sq x + norm2sq y := by
  apply RCLike.ofReal_injective (K := K)
  have h2 : star y ⬝ᵥ x = 0 := by
    have := congrArg star hxy
    rw [star_zero, ← star_dotProduct] at this
    exact this
  rw [RCLike.ofReal_add, norm2sq_dot, norm2sq_dot, norm2sq_dot, star_add, add_dotProduct, dotProduct_add, dotProduct_add, hxy, h2]
  ring

theorem star_mulVec_dot {m n : Type} [Fintype m] [Fintype n] (A : Matrix m n K) (x : n → K) (y : m → K) :
    star (A *ᵥ x) ⬝ᵥ y = star x ⬝ᵥ (Aᴴ *ᵥ y) := by
  rw [star_mulVec, dotProduct_mulVec]

/-- A pseudo-inverse gives least squares solutions, of all these the one with the least norm. -/
theorem IsPinv.least {m n : Type} [Fintype m] [Fintype n] [DecidableEq m] {A : Matrix m n K} {X : Matrix n m K} (h : IsPinv A X) (b : m → K) :
    (∀ y, norm2sq (A *ᵥ (X *ᵥ b) - b) ≤ norm2sq (A *ᵥ y - b)) ∧
    ∀ y, norm2sq (A *ᵥ y - b) = norm2sq (A *ᵥ (X *ᵥ b) - b) → norm2sq (X *ᵥ b) ≤ norm2sq y := by
  have hr : Aᴴ *ᵥ (A *ᵥ (X *ᵥ b) - b) = 0 := by
    have : Aᴴ * (A * X - 1) = 0 := by
      rw [Matrix.mul_sub, ← h.ax, ← conjTranspose_mul, h.axa, Matrix.mul_one, sub_self]
    have e : A *ᵥ (X *ᵥ b) - b = (A * X - 1) *ᵥ b := by rw [sub_mulVec, one_mulVec, mulVec_mulVec]
    rw [e, mulVec_mulVec, this, zero_mulVec]
  have key : ∀ y, norm2sq (A *ᵥ y - b) = norm2sq (A *ᵥ (X *ᵥ b) - b) + norm2sq (A *ᵥ (y - X *ᵥ b)) := by
    intro y
    rw [← norm2sq_add, mulVec_sub]
    · congr 1; abel
    · have := star_mulVec_dot A (y - X *ᵥ b) (A *ᵥ (X *ᵥ b) - b)
      rw [hr, dotProduct_zero] at this
      have := congrArg star this
      rw [star_zero, ← star_dotProduct] at this
      exact this
  refine ⟨fun y => ?_, fun y hy => ?_⟩
  · rw [key y]
    have := norm2sq_nonneg (A *ᵥ (y - X *ᵥ b))
    linarith
  · have hz := key y
    rw [hy] at hz
    have hz : A *ᵥ (y - X *ᵥ b) = 0 := norm2sq_eq_zero (by linarith)
    have e : X *ᵥ b = (X * A) *ᵥ (X *ᵥ b) := by rw [mulVec_mulVec, h.xax]
    have ho : star (X *ᵥ b) ⬝ᵥ (y - X *ᵥ b) = 0 := by
      rw [e, star_mulVec_dot, h.xa, ← mulVec_mulVec]
      conv_lhs => rw [← e]
      rw [hz, mulVec_zero, dotProduct_zero]
    have := norm2sq_add ho
    rw [add_sub_cancel] at this
    rw [this]
    have := norm2sq_nonneg (y - X *ᵥ b)
    linarith

/-- There is only one pseudo-inverse. -/
theorem IsPinv.unique {m n : Type} [Fintype m] [Fintype n] {A : Matrix m n K} {X Y : Matrix n m K} (h : IsPinv A X) (h' : IsPinv A Y) : X = Y := by
  have e1 : A * X = A * Y := by
    calc A * X = (A * Y * A) * X := by rw [h'.axa]
      _ = (A * Y) * (A * X) := by simp only [Matrix.mul_assoc]
      _ = (A * Y)ᴴ * (A * X)ᴴ := by rw [h.ax, h'.ax]
      _ = ((A * X * A) * Y)ᴴ := by rw [← conjTranspose_mul]; simp only [Matrix.mul_assoc]
      _ = A * Y := by rw [h.axa, h'.ax]
  have e2 : X * A = Y * A := by
    calc X * A = X * (A * Y * A) := by rw [h'.axa]
      _ = (X * A) * (Y * A) := by simp only [Matrix.mul_assoc]
      _ = (X * A)ᴴ * (Y * A)ᴴ := by rw [h.xa, h'.xa]
      _ = (Y * (A * X * A))ᴴ := by rw [← conjTranspose_mul]; simp only [Matrix.mul_assoc]
      _ = Y * A := by rw [h.axa, h'.xa]
  calc X = X * A * X := h.xax.symm
    _ = Y * A * X := by rw [e2]
    _ = Y * (A * X) := Matrix.mul_assoc ..
    _ = Y * A * Y := by rw [e1, Matrix.mul_assoc]
    _ = Y := h'.xax

theorem IsPinv.trans {m n : Type} [Fintype m] [Fintype n] {A : Matrix m n K} {X : Matrix n m K} (h : IsPinv A X) : IsPinv Aᵀ Xᵀ where
  axa := by rw [← transpose_mul, ← transpose_mul, ← Matrix.mul_assoc, h.axa]
  xax := by rw [← transpose_mul, ← transpose_mul, ← Matrix.mul_assoc, h.xax]
  ax := by
    rw [← transpose_mul]
    exact congrArg transpose h.xa
  xa := by
    rw [← transpose_mul]
    exact congrArg transpose h.ax

/-- An inverse is the pseudo-inverse. -/
theorem IsPinv.of_inv {n : Type} [Fintype n] [DecidableEq n] {A X : Matrix n n K} (h : A * X = 1) : IsPinv A X where
  axa := by rw [h, Matrix.one_mul]
  xax := by rw [mul_eq_one_comm.mp h, Matrix.one_mul]
  ax := by rw [h, conjTranspose_one]
  xa := by rw [mul_eq_one_comm.mp h, conjTranspose_one]

/-- The pseudo-inverse from a decomposition with orthonormal factors. -/
theorem pinv_usv {m n : Type} [Fintype m] [Fintype n] [DecidableEq n] {U : Matrix m n K} {V : Matrix n n K} (d : n → ℝ)
    (hu : Uᴴ * U = 1) (hv : V * Vᴴ = 1) :
    IsPinv (U * diagonal (fun i => ((d i : ℝ) : K)) * V) (Vᴴ * diagonal (fun i => (((d i)⁻¹ : ℝ) : K)) * Uᴴ) := by
  have hd : ∀ a b c : n → ℝ, (∀ i, a i * b i * a i = c i) →
      diagonal (fun i => ((a i : ℝ) : K)) * diagonal (fun i => ((b i : ℝ) : K)) * diagonal (fun i => ((a i : ℝ) : K)) =
        diagonal (fun i => ((c i : ℝ) : K)) := by
    intro a b c h
    rw [diagonal_mul_diagonal, diagonal_mul_diagonal]
    congr 1; funext i
    rw [← h i, RCLike.ofReal_mul, RCLike.ofReal_mul]
  have hh : ∀ a : n → ℝ, (diagonal (fun i => ((a i : ℝ) : K)))ᴴ = diagonal (fun i => ((a i : ℝ) : K)) := by
    intro a
    rw [diagonal_conjTranspose]
    congr 1; funext i
    simp
  generalize hD : diagonal (fun i => ((d i : ℝ) : K)) = D
  generalize hD' : diagonal (fun i => (((d i)⁻¹ : ℝ) : K)) = D'
  have dd : D * D' * D = D := by rw [← hD, ← hD']; exact hd _ _ _ fun i => by by_cases h : d i = 0 <;> [simp [h]; field_simp]
  have dd' : D' * D * D' = D' := by rw [← hD, ← hD']; exact hd _ _ _ fun i => by by_cases h : d i = 0 <;> [simp [h]; field_simp]
  have cm : D * D' = D' * D := by
    rw [← hD, ← hD', diagonal_mul_diagonal, diagonal_mul_diagonal]
    congr 1; funext i; exact mul_comm _ _
  have hs : Dᴴ = D := by rw [← hD]; exact hh d
  have hs' : D'ᴴ = D' := by rw [← hD']; exact hh fun i => (d i)⁻¹
  have e1 : U * D * V * (Vᴴ * D' * Uᴴ) = U * (D * D') * Uᴴ := by
    calc _ = U * D * (V * Vᴴ) * D' * Uᴴ := by simp only [Matrix.mul_assoc]
      _ = _ := by rw [hv, Matrix.mul_one, Matrix.mul_assoc U]
  have e2 : Vᴴ * D' * Uᴴ * (U * D * V) = Vᴴ * (D' * D) * V := by
    calc _ = Vᴴ * D' * (Uᴴ * U) * D * V := by simp only [Matrix.mul_assoc]
      _ = _ := by rw [hu, Matrix.mul_one, Matrix.mul_assoc Vᴴ]
  refine ⟨?_, ?_, ?_, ?_⟩
  · rw [e1]
    calc _ = U * (D * D') * (Uᴴ * U) * D * V := by simp only [Matrix.mul_assoc]
      _ = U * (D * D' * D) * V := by rw [hu, Matrix.mul_one, Matrix.mul_assoc U]
      _ = _ := by rw [dd]
  · rw [e2]
    calc _ = Vᴴ * (D' * D) * (V * Vᴴ) * D' * Uᴴ := by simp only [Matrix.mul_assoc]
      _ = Vᴴ * (D' * D * D') * Uᴴ := by rw [hv, Matrix.mul_one, Matrix.mul_assoc Vᴴ]
      _ = _ := by rw [dd']
  · rw [e1, conjTranspose_mul, conjTranspose_mul, conjTranspose_mul, conjTranspose_conjTranspose, hs, hs', ← cm]; simp only [Matrix.mul_assoc]
  · rw [e2, conjTranspose_mul, conjTranspose_mul, conjTranspose_mul, conjTranspose_conjTranspose, hs, hs', cm]; simp only [Matrix.mul_assoc]

theorem norm2sq_iso {m n : Type} [Fintype m] [Fintype n] [DecidableEq n] {U : Matrix m n K} (hu : Uᴴ * U = 1) (x : n → K) :
    norm2sq (U *ᵥ x) = norm2sq x := by
  apply RCLike.ofReal_injective (K := K)
  rw [norm2sq_dot, norm2sq_dot, star_mulVec_dot, mulVec_mulVec, hu, one_mulVec]

/-- The norm of a matrix with a decomposition with orthonormal factors. -/
theorem opNorm_usv {m n : Type} [Fintype m] [Fintype n] [DecidableEq n] {U : Matrix m n K} {V : Matrix n n K} (d : n → ℝ)
    (hu : Uᴴ * U = 1) (hv : V * Vᴴ = 1) (i : n) (hi : ∀ j, |d j| ≤ |d i|) :
    IsOpNorm (U * diagonal (fun i => ((d i : ℝ) : K)) * V) |d i| := by
  have hv' : Vᴴ * V = 1 := mul_eq_one_comm.mp hv
  have hdiag : ∀ y : n → K, norm2sq (diagonal (fun i => ((d i : ℝ) : K)) *ᵥ y) = ∑ j, |d j| ^ 2 * ‖y j‖ ^ 2 := by
    intro y
    unfold norm2sq
    refine Finset.sum_congr rfl fun j _ => ?_
    rw [mulVec_diagonal, norm_mul, RCLike.norm_ofReal, mul_pow]
  refine ⟨abs_nonneg _, fun x => ?_, Vᴴ *ᵥ (Pi.single i 1), ?_, ?_⟩
  · rw [← mulVec_mulVec, ← mulVec_mulVec, norm2sq_iso hu, hdiag, ← norm2sq_iso hv' x]
    unfold norm2sq
    rw [Finset.mul_sum]
    refine Finset.sum_le_sum fun j _ => ?_
    exact mul_le_mul_of_nonneg_right (pow_le_pow_left₀ (abs_nonneg _) (hi j) 2) (sq_nonneg _)
  · rw [norm2sq_iso (by rw [conjTranspose_conjTranspose]; exact hv)]
    unfold norm2sq
    rw [Finset.sum_eq_single i] <;> simp +contextual [Pi.single_apply]
  · rw [mulVec_mulVec, Matrix.mul_assoc, hv, Matrix.mul_one, ← mulVec_mulVec, norm2sq_iso hu, hdiag, Finset.sum_eq_single i] <;>
      simp +contextual [Pi.single_apply]

end TMV
