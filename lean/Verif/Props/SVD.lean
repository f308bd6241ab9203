import Verif.Model.SVD
import Verif.Lemmas.Pinv
import Verif.Props.Diag
import Verif.Props.SymMM

/-! C100, C101: division, inverse, norm, condition from a singular value decomposition. -/
namespace TMV.SVD
noncomputable section
open Classical Matrix
variable {K : Type} [RCLike K]

/-- The singular values of which only the first `k` are kept. -/
def cut (k : Nat) (S : Nat → ℝ) : Nat → ℝ := fun i => if i < k then S i else 0

/-- The matrix `U diag(S) Vt`, all singular values from `k` on replaced by `0`. -/
def usv (M N k : Nat) (U : Nat → Nat → K) (S : Nat → ℝ) (Vt : Nat → Nat → K) : Matrix (Fin M) (Fin N) K :=
  matOf M N U * diagonal (fun i : Fin N => ((cut k S i : ℝ) : K)) * matOf N N Vt

theorem divM_cut (l : Diag.Lay) (g : Nat → K) {k R : Nat} {S : Nat → ℝ} (hS : ∀ i, i < k → S i ≠ 0) (m : Nat → Nat → K) :
    ∃ x, Diag.divM l g k R (dv S) m = some x ∧ ∀ i j, i < k → j < R → x i j = (((S i)⁻¹ : ℝ) : K) * m i j := by
  obtain ⟨h1, h2⟩ := Diag.divM_spec l g k R (dv S) m
  obtain ⟨x, ex⟩ : ∃ x, Diag.divM l g k R (dv S) m = some x := by
    apply Option.ne_none_iff_exists'.mp
    intro hc
    obtain ⟨-, i, hi, h0⟩ := h1.mp hc
    have h0 : ((S i : ℝ) : K) = 0 := h0
    exact hS i hi (RCLike.ofReal_eq_zero.mp h0)
  refine ⟨x, ex, fun i j hi hj => ?_⟩
  have := (h2 x ex).1 i j hi hj
  rw [← this, Finset.sum_eq_single i]
  · have e : Diag.diagMat (dv (K := K) S).el i i = ((S i : ℝ) : K) := if_pos rfl
    rw [e, ← mul_assoc, ← RCLike.ofReal_mul, inv_mul_cancel₀ (hS i hi), RCLike.ofReal_one, one_mul]
  · intro b _ hb
    have e : Diag.diagMat (dv (K := K) S).el i b = 0 := if_neg (fun h => hb h.symm)
    rw [e, zero_mul]
  · intro h; exact absurd (Finset.mem_range.mpr hi) h

/-- If a singular value to be used is zero, the quotient is refused. -/
theorem divM_zero (l : Diag.Lay) (g : Nat → K) {k R : Nat} {S : Nat → ℝ} (m : Nat → Nat → K) :
    Diag.divM l g k R (dv S) m = none ↔ 0 < R ∧ ∃ i < k, S i = 0 := by
  rw [(Diag.divM_spec l g k R (dv S) m).1]
  have e : ∀ i, (dv (K := K) S).el i = ((S i : ℝ) : K) := fun i => rfl
  simp only [e, RCLike.ofReal_eq_zero]

theorem sum_cut {N k : Nat} (hk : k ≤ N) (f : Nat → K) (hf : ∀ i, k ≤ i → i < N → f i = 0) :
    ∑ l ∈ Finset.range k, f l = ∑ l : Fin N, f l := by
  rw [Fin.sum_univ_eq_sum_range (fun i => f i) N]
  refine Finset.sum_subset (fun i hi => Finset.mem_range.mpr (by have := Finset.mem_range.mp hi; omega)) fun i hi h => ?_
  exact hf i (by simpa using h) (Finset.mem_range.mp hi)

/-- The pseudo-inverse as the code computes it. -/
def pin (M N k : Nat) (U : Nat → Nat → K) (S : Nat → ℝ) (Vt : Nat → Nat → K) : Matrix (Fin N) (Fin M) K :=
  (matOf N N Vt)ᴴ * diagonal (fun i : Fin N => (((cut k S i)⁻¹ : ℝ) : K)) * (matOf M N U)ᴴ

theorem pin_isPinv {M N k : Nat} {U : Nat → Nat → K} {S : Nat → ℝ} {Vt : Nat → Nat → K} (hu : (matOf M N U)ᴴ * matOf M N U = 1)
    (hv : matOf N N Vt * (matOf N N Vt)ᴴ = 1) : IsPinv (usv M N k U S Vt) (pin M N k U S Vt) :=
  pinv_usv (fun i : Fin N => cut k S i) hu hv

theorem cut_inv {k : Nat} {S : Nat → ℝ} (i : Nat) : (((cut k S i)⁻¹ : ℝ) : K) = if i < k then (((S i)⁻¹ : ℝ) : K) else 0 := by
  unfold cut
  by_cases h : i < k
  · rw [if_pos h, if_pos h]
  · rw [if_neg h, if_neg h, _root_.inv_zero, RCLike.ofReal_zero]

theorem svLDiv_spec (g : Nat → K) {M N k : Nat} (hk : k ≤ N) (R : Nat) {U : Nat → Nat → K} {S : Nat → ℝ} {Vt : Nat → Nat → K}
    (hS : ∀ i, i < k → S i ≠ 0) (m x : Nat → Nat → K) :
    ∃ X, svLDiv g M N k R U S Vt m x = some X ∧ matOf N R X = pin M N k U S Vt * matOf M R m ∧
      ∀ i j, ¬ (i < N ∧ j < R) → X i j = x i j := by
  unfold svLDiv
  dsimp only
  obtain ⟨y, ey, hy⟩ := divM_cut (R := R) ⟨true, false⟩ g hS (newMul k M R (adj U) m)
  rw [ey, Option.map_some]
  refine ⟨_, rfl, ?_, fun i j hij => if_neg hij⟩
  ext i j
  unfold assignMul
  show (if i.1 < N ∧ j.1 < R then _ else _) = _
  rw [if_pos ⟨i.2, j.2⟩]
  have e1 : ∑ l ∈ Finset.range k, adj Vt i l * y l j = ∑ l ∈ Finset.range k,
      (fun l => star (Vt l i) * ((if l < k then (((S l)⁻¹ : ℝ) : K) else 0) * ∑ p : Fin M, star (U p l) * m p j)) l := by
    refine Finset.sum_congr rfl fun l hl => ?_
    have hl := Finset.mem_range.mp hl
    beta_reduce
    rw [if_pos hl, hy l j hl j.2]
    unfold newMul
    rw [if_pos ⟨hl, j.2⟩, ← Fin.sum_univ_eq_sum_range (fun p => adj U l p * m p j) M]
    rfl
  rw [e1, sum_cut hk _ (fun l hl _ => by beta_reduce; rw [if_neg (by omega), zero_mul, mul_zero])]
  unfold pin
  rw [Matrix.mul_assoc, Matrix.mul_assoc, Matrix.mul_apply]
  refine Finset.sum_congr rfl fun l _ => ?_
  rw [Matrix.diagonal_mul, cut_inv]
  rfl

theorem svRDiv_spec (g : Nat → K) {M N k : Nat} (hk : k ≤ N) (R : Nat) {U : Nat → Nat → K} {S : Nat → ℝ} {Vt : Nat → Nat → K}
    (hS : ∀ i, i < k → S i ≠ 0) (m x : Nat → Nat → K) :
    ∃ X, svRDiv g M N k R U S Vt m x = some X ∧ matOf R M X = matOf R N m * pin M N k U S Vt ∧
      ∀ i j, ¬ (i < R ∧ j < M) → X i j = x i j := by
  unfold svRDiv
  dsimp only
  obtain ⟨y, ey, hy⟩ := divM_cut (R := R) ⟨false, true⟩ g hS (tr (newMul R N k m (adj Vt)))
  rw [ey, Option.map_some]
  refine ⟨_, rfl, ?_, fun i j hij => if_neg hij⟩
  ext i j
  unfold assignMul
  show (if i.1 < R ∧ j.1 < M then _ else _) = _
  rw [if_pos ⟨i.2, j.2⟩]
  have e1 : ∑ l ∈ Finset.range k, tr y i l * adj U l j = ∑ l ∈ Finset.range k,
      (fun l => ((∑ p : Fin N, m i p * star (Vt l p)) * (if l < k then (((S l)⁻¹ : ℝ) : K) else 0)) * star (U j l)) l := by
    refine Finset.sum_congr rfl fun l hl => ?_
    have hl := Finset.mem_range.mp hl
    beta_reduce
    rw [if_pos hl]
    show y l i * _ = _
    rw [hy l i hl i.2, mul_comm ((((S l)⁻¹ : ℝ) : K))]
    show newMul R N k m (adj Vt) i l * _ * _ = _
    unfold newMul
    rw [if_pos ⟨i.2, hl⟩, ← Fin.sum_univ_eq_sum_range (fun p => m i p * adj Vt p l) N]
    rfl
  rw [e1, sum_cut hk _ (fun l hl _ => by beta_reduce; rw [if_neg (by omega), mul_zero, zero_mul])]
  unfold pin
  rw [← Matrix.mul_assoc, ← Matrix.mul_assoc, Matrix.mul_apply]
  refine Finset.sum_congr rfl fun l _ => ?_
  rw [Matrix.mul_diagonal, cut_inv]
  rfl

/-! ### `SVDiv`, `BandSVDiv` -/

/-- The divider holds a singular value decomposition of the `M × N` matrix `A`, or of its transpose if `A` has more columns than rows. -/
def Holds (M N : Nat) (A : Nat → Nat → K) (F : Fac K) : Prop :=
  if F.istrans then M < N ∧ IsSVD N M (tr A) F.U F.S F.Vt else N ≤ M ∧ IsSVD M N A F.U F.S F.Vt

/-- The matrix `A` with all but the first `kmax` singular values replaced by `0`: `getU() * S * getVt()`. -/
def kept (M N : Nat) (F : Fac K) : Matrix (Fin M) (Fin N) K :=
  matOf M (min M N) F.getU * diagonal (fun i : Fin (min M N) => ((cut F.kmax F.S i : ℝ) : K)) * matOf (min M N) N F.getVt

theorem kept_plain {M N : Nat} (h : N ≤ M) {F : Fac K} (ht : F.istrans = false) : kept M N F = usv M N F.kmax F.U F.S F.Vt := by
  have e : min M N = N := min_eq_right h
  unfold kept usv Fac.getU Fac.getVt
  rw [ht]
  simp only [Bool.false_eq_true, if_false]
  rw [e]

theorem kept_trans {M N : Nat} (h : M ≤ N) {F : Fac K} (ht : F.istrans = true) : kept M N F = (usv N M F.kmax F.U F.S F.Vt)ᵀ := by
  have e : min M N = M := min_eq_left h
  unfold kept usv Fac.getU Fac.getVt
  rw [ht]
  simp only [if_true]
  rw [e, transpose_mul, transpose_mul, diagonal_transpose, Matrix.mul_assoc]
  rfl

theorem cut_full {M N : Nat} (U : Nat → Nat → K) (S : Nat → ℝ) (Vt : Nat → Nat → K) {k : Nat} (hk : N ≤ k) :
    usv M N k U S Vt = matOf M N U * diagonal (fun i : Fin N => ((S i : ℝ) : K)) * matOf N N Vt := by
  unfold usv cut
  congr 3
  funext i
  rw [if_pos (by omega)]

/-- **C100**: if no singular value is discarded, the matrix kept is the matrix. -/
theorem kept_full {M N : Nat} {A : Nat → Nat → K} {F : Fac K} (h : Holds M N A F) (hk : ¬ F.isSingular (min M N)) : kept M N F = matOf M N A := by
  unfold Holds at h
  have hk : min M N ≤ F.kmax := Nat.le_of_not_lt hk
  cases ht : F.istrans
  · rw [ht] at h
    simp only [Bool.false_eq_true, if_false] at h
    rw [kept_plain h.1 ht, cut_full _ _ _ (by omega), h.2.prod]
  · rw [ht] at h
    simp only [if_true] at h
    rw [kept_trans h.1.le ht, cut_full _ _ _ (by omega), ← h.2.prod]
    rfl

/-- What the operations need: no singular value that is kept is zero. -/
def Fac.Regular (M N : Nat) (F : Fac K) : Prop := F.kmax ≤ min M N ∧ ∀ i, i < F.kmax → F.S i ≠ 0

section
variable {M N : Nat} {A : Nat → Nat → K} {F : Fac K} (h : Holds M N A F) (hr : F.Regular M N)
include h hr

/-- The pseudo-inverse of the matrix kept, as computed. -/
theorem exists_pinv : ∃ P, IsPinv (kept M N F) P ∧
    (F.istrans = false → N ≤ M ∧ P = pin M N F.kmax F.U F.S F.Vt) ∧ (F.istrans = true → M < N ∧ P = (pin N M F.kmax F.U F.S F.Vt)ᵀ) := by
  unfold Holds at h
  cases ht : F.istrans
  · rw [ht] at h
    simp only [Bool.false_eq_true, if_false] at h
    refine ⟨_, ?_, fun _ => ⟨h.1, rfl⟩, by simp⟩
    rw [kept_plain h.1 ht]
    exact pin_isPinv h.2.uu h.2.vv
  · rw [ht] at h
    simp only [if_true] at h
    refine ⟨_, ?_, by simp, fun _ => ⟨h.1, rfl⟩⟩
    rw [kept_trans h.1.le ht]
    exact (pin_isPinv h.2.uu h.2.vv).trans

/-- **C100**: `x = m/A` (and `m /= A` with `x = m`) is the pseudo-inverse of the matrix kept times `m`, i.e. the least squares solution of least
norm (`IsPinv.least`). -/
theorem lDiv_spec (g : Nat → K) (R : Nat) (m x : Nat → Nat → K) :
    ∃ X, F.lDiv g M N R m x = some X ∧ (∀ P, IsPinv (kept M N F) P → matOf N R X = P * matOf M R m) ∧
      ∀ i j, ¬ (i < N ∧ j < R) → X i j = x i j := by
  obtain ⟨P, hP, h1, h2⟩ := exists_pinv h hr
  unfold Fac.lDiv
  cases ht : F.istrans
  · obtain ⟨hNM, rfl⟩ := h1 ht
    obtain ⟨X, e, x1, x2⟩ := svLDiv_spec (M := M) g (by have := hr.1; omega : F.kmax ≤ N) R (U := F.U) (Vt := F.Vt) hr.2 m x
    refine ⟨X, by simpa using e, fun P' hP' => ?_, x2⟩
    rw [hP'.unique hP, x1]
  · obtain ⟨hNM, rfl⟩ := h2 ht
    obtain ⟨X, e, x1, x2⟩ := svRDiv_spec (M := N) g (by have := hr.1; omega : F.kmax ≤ M) R (U := F.U) (Vt := F.Vt) hr.2 (tr m) (tr x)
    refine ⟨tr X, by simp [e], fun P' hP' => ?_, fun i j hij => x2 j i (by tauto)⟩
    rw [hP'.unique hP]
    have := congrArg transpose x1
    rw [transpose_mul] at this
    exact this

/-- **C100**: `x = m%A` (and `m %= A` with `x = m`) is `m` times the pseudo-inverse of the matrix kept. -/
theorem rDiv_spec (g : Nat → K) (R : Nat) (m x : Nat → Nat → K) :
    ∃ X, F.rDiv g M N R m x = some X ∧ (∀ P, IsPinv (kept M N F) P → matOf R M X = matOf R N m * P) ∧
      ∀ i j, ¬ (i < R ∧ j < M) → X i j = x i j := by
  obtain ⟨P, hP, h1, h2⟩ := exists_pinv h hr
  unfold Fac.rDiv
  cases ht : F.istrans
  · obtain ⟨hNM, rfl⟩ := h1 ht
    obtain ⟨X, e, x1, x2⟩ := svRDiv_spec (M := M) g (by have := hr.1; omega : F.kmax ≤ N) R (U := F.U) (Vt := F.Vt) hr.2 m x
    refine ⟨X, by simpa using e, fun P' hP' => ?_, x2⟩
    rw [hP'.unique hP, x1]
  · obtain ⟨hNM, rfl⟩ := h2 ht
    obtain ⟨X, e, x1, x2⟩ := svLDiv_spec (M := N) g (by have := hr.1; omega : F.kmax ≤ M) R (U := F.U) (Vt := F.Vt) hr.2 (tr m) (tr x)
    refine ⟨tr X, by simp [e], fun P' hP' => ?_, fun i j hij => x2 j i (by tauto)⟩
    rw [hP'.unique hP]
    have := congrArg transpose x1
    rw [transpose_mul] at this
    exact this

/-- **C100**: `inverse()` is the pseudo-inverse of the matrix kept. -/
theorem makeInverse_spec (g : Nat → K) (minv : Nat → Nat → K) :
    ∃ X, F.makeInverse g M N minv = some X ∧ IsPinv (kept M N F) (matOf N M X) ∧ ∀ i j, ¬ (i < N ∧ j < M) → X i j = minv i j := by
  obtain ⟨P, hP, h1, h2⟩ := exists_pinv h hr
  unfold Fac.makeInverse
  cases ht : F.istrans
  · obtain ⟨hNM, rfl⟩ := h1 ht
    obtain ⟨y, ey, hy⟩ := divM_cut (R := M) ⟨false, true⟩ g hr.2 (adj F.U)
    simp only [Bool.false_eq_true, if_false, ey, Option.map_some]
    refine ⟨_, rfl, ?_, fun i j hij => if_neg hij⟩
    refine cast (congrArg _ ?_) hP
    ext i j
    unfold assignMul
    show _ = (if i.1 < N ∧ j.1 < M then _ else _)
    rw [if_pos ⟨i.2, j.2⟩]
    have e1 : ∑ l ∈ Finset.range F.kmax, adj F.Vt i l * y l j = ∑ l ∈ Finset.range F.kmax,
        (fun l => star (F.Vt l i) * (if l < F.kmax then (((F.S l)⁻¹ : ℝ) : K) else 0) * star (F.U j l)) l := by
      refine Finset.sum_congr rfl fun l hl => ?_
      have hl := Finset.mem_range.mp hl
      beta_reduce
      rw [if_pos hl, hy l j hl j.2, mul_assoc]
      rfl
    rw [e1, sum_cut (by have := hr.1; omega : F.kmax ≤ N) _ (fun l hl _ => by beta_reduce; rw [if_neg (by omega), mul_zero, zero_mul])]
    unfold pin
    rw [Matrix.mul_apply]
    refine Finset.sum_congr rfl fun l _ => ?_
    rw [Matrix.mul_diagonal, cut_inv]
    rfl
  · obtain ⟨hNM, rfl⟩ := h2 ht
    obtain ⟨y, ey, hy⟩ := divM_cut (R := M) ⟨false, true⟩ g hr.2 (conj F.Vt)
    simp only [if_true, ey, Option.map_some]
    refine ⟨_, rfl, ?_, fun i j hij => if_neg hij⟩
    refine cast (congrArg _ ?_) hP
    ext i j
    unfold assignMul
    show _ = (if i.1 < N ∧ j.1 < M then _ else _)
    rw [if_pos ⟨i.2, j.2⟩]
    have e1 : ∑ l ∈ Finset.range F.kmax, conj F.U i l * y l j = ∑ l ∈ Finset.range F.kmax,
        (fun l => star (F.Vt l j) * (if l < F.kmax then (((F.S l)⁻¹ : ℝ) : K) else 0) * star (F.U i l)) l := by
      refine Finset.sum_congr rfl fun l hl => ?_
      have hl := Finset.mem_range.mp hl
      beta_reduce
      rw [if_pos hl, hy l j hl j.2]
      show star (F.U i l) * (_ * star (F.Vt l j)) = _
      ring
    rw [e1, sum_cut (by have := hr.1; omega : F.kmax ≤ M) _ (fun l hl _ => by beta_reduce; rw [if_neg (by omega), mul_zero, zero_mul])]
    unfold pin
    rw [transpose_apply, Matrix.mul_apply]
    refine Finset.sum_congr rfl fun l _ => ?_
    rw [Matrix.mul_diagonal, cut_inv]
    rfl

/-- **C100**: `makeInverseATA(ata)`: `P Pᴴ` for a matrix with at least as many rows as columns, `P` the pseudo-inverse of the matrix kept
(`Pᴴ P` for one with fewer rows). -/
theorem makeInverseATA_spec (g : Nat → K) (ata : Nat → Nat → K) :
    ∃ X, F.makeInverseATA g M N ata = some X ∧
      (N ≤ M → (∀ P, IsPinv (kept M N F) P → matOf N N X = P * Pᴴ) ∧ ∀ i j, ¬ (i < N ∧ j < N) → X i j = ata i j) ∧
      (M < N → (∀ P, IsPinv (kept M N F) P → matOf M M X = Pᴴ * P) ∧ ∀ i j, ¬ (i < M ∧ j < M) → X i j = ata i j) := by
  obtain ⟨P, hP, h1, h2⟩ := exists_pinv h hr
  have key : ∀ n m, F.kmax ≤ n → (matOf m n F.U)ᴴ * matOf m n F.U = 1 →
      ∀ y : Nat → Nat → K, (∀ i j, i < F.kmax → j < n → y i j = (((F.S i)⁻¹ : ℝ) : K) * F.Vt i j) →
      ∀ i j : Fin n, (pin m n F.kmax F.U F.S F.Vt * (pin m n F.kmax F.U F.S F.Vt)ᴴ) i j =
        ∑ l ∈ Finset.range F.kmax, star (y l i) * y l j := by
    intro n m hk hu y hy i j
    have e : pin m n F.kmax F.U F.S F.Vt * (pin m n F.kmax F.U F.S F.Vt)ᴴ =
        ((matOf n n F.Vt)ᴴ * diagonal (fun i : Fin n => (((cut F.kmax F.S i)⁻¹ : ℝ) : K))) *
        (diagonal (fun i : Fin n => (((cut F.kmax F.S i)⁻¹ : ℝ) : K)) * matOf n n F.Vt) := by
      unfold pin
      rw [conjTranspose_mul, conjTranspose_mul, conjTranspose_conjTranspose, conjTranspose_conjTranspose, diagonal_conjTranspose]
      have hs : (star fun i : Fin n => (((cut F.kmax F.S i)⁻¹ : ℝ) : K)) = fun i : Fin n => (((cut F.kmax F.S i)⁻¹ : ℝ) : K) := by
        funext i; simp
      rw [hs]
      calc _ = (matOf n n F.Vt)ᴴ * diagonal (fun i : Fin n => (((cut F.kmax F.S i)⁻¹ : ℝ) : K)) * ((matOf m n F.U)ᴴ * matOf m n F.U) * (diagonal (fun i : Fin n => (((cut F.kmax F.S i)⁻¹ : ℝ) : K)) * matOf n n F.Vt) := by
            simp only [Matrix.mul_assoc]
        _ = _ := by rw [hu, Matrix.mul_one]
    rw [e, Matrix.mul_apply]
    have e1 : ∑ l ∈ Finset.range F.kmax, star (y l i) * y l j = ∑ l ∈ Finset.range F.kmax,
        (fun l => (star (F.Vt l i) * (if l < F.kmax then (((F.S l)⁻¹ : ℝ) : K) else 0)) *
          ((if l < F.kmax then (((F.S l)⁻¹ : ℝ) : K) else 0) * F.Vt l j)) l := by
      refine Finset.sum_congr rfl fun l hl => ?_
      have hl := Finset.mem_range.mp hl
      beta_reduce
      rw [if_pos hl, hy l j hl j.2, hy l i hl i.2, star_mul]
      congr 2
      simp
    rw [e1, sum_cut hk _ (fun l hl _ => by rw [if_neg (by omega), mul_zero, zero_mul])]
    refine Finset.sum_congr rfl fun l _ => ?_
    rw [Matrix.mul_diagonal, Matrix.diagonal_mul, cut_inv]
    rfl
  unfold Fac.makeInverseATA
  unfold Holds at h
  cases ht : F.istrans
  · obtain ⟨hNM, rfl⟩ := h1 ht
    rw [ht] at h
    simp only [Bool.false_eq_true, if_false] at h
    obtain ⟨y, ey, hy⟩ := divM_cut (R := N) ⟨false, true⟩ g hr.2 F.Vt
    simp only [Bool.false_eq_true, if_false, ey, Option.map_some]
    refine ⟨_, rfl, fun _ => ⟨fun P' hP' => ?_, fun i j hij => if_neg hij⟩, fun hc => by omega⟩
    rw [hP'.unique hP]
    ext i j
    rw [key N M (by have := hr.1; omega) h.2.uu y hy]
    unfold assignMul
    show (if i.1 < N ∧ j.1 < N then _ else _) = _
    rw [if_pos ⟨i.2, j.2⟩]
    rfl
  · obtain ⟨hNM, rfl⟩ := h2 ht
    rw [ht] at h
    simp only [if_true] at h
    obtain ⟨y, ey, hy⟩ := divM_cut (R := M) ⟨false, true⟩ g hr.2 F.Vt
    simp only [if_true, ey, Option.map_some]
    refine ⟨_, rfl, fun hc => by omega, fun _ => ⟨fun P' hP' => ?_, fun i j hij => if_neg hij⟩⟩
    rw [hP'.unique hP]
    have e : ((pin N M F.kmax F.U F.S F.Vt)ᵀ)ᴴ * (pin N M F.kmax F.U F.S F.Vt)ᵀ =
        (pin N M F.kmax F.U F.S F.Vt * (pin N M F.kmax F.U F.S F.Vt)ᴴ)ᵀ := by
      rw [transpose_mul]
      rfl
    rw [e]
    ext i j
    rw [transpose_apply, key M N (by have := hr.1; omega) h.2.uu y hy]
    unfold assignMul
    show (if i.1 < M ∧ j.1 < M then _ else _) = _
    rw [if_pos ⟨i.2, j.2⟩]
    refine Finset.sum_congr rfl fun l _ => ?_
    show y l i * star (y l j) = _
    rw [mul_comm]

/-- **C100**: for a matrix with `N ≤ M` none of whose singular values is discarded, `makeInverseATA` is the inverse of `AᴴA`. -/
theorem inverseATA_full (g : Nat → K) (ata : Nat → Nat → K) (hNM : N ≤ M) (hs : ¬ F.isSingular (min M N)) :
    ∃ X, F.makeInverseATA g M N ata = some X ∧ matOf N N X * ((matOf M N A)ᴴ * matOf M N A) = 1 ∧
      ∀ i j, ¬ (i < N ∧ j < N) → X i j = ata i j := by
  obtain ⟨P, hP, h1, h2⟩ := exists_pinv h hr
  obtain ⟨X, e, x1, -⟩ := makeInverseATA_spec h hr g ata
  obtain ⟨x1, x2⟩ := x1 hNM
  refine ⟨X, e, ?_, x2⟩
  have hk := kept_full h hs
  rw [x1 P hP]
  have ht : F.istrans = false := by
    unfold Holds at h
    cases ht : F.istrans
    · rfl
    · rw [ht] at h; simp only [if_true] at h; omega
  obtain ⟨-, hp⟩ := h1 ht
  have hPA : P * matOf M N A = 1 := by
    unfold Holds at h
    rw [ht] at h
    simp only [Bool.false_eq_true, if_false] at h
    have hkk : min M N ≤ F.kmax := Nat.le_of_not_lt hs
    rw [h.2.prod, hp]
    unfold pin
    calc _ = (matOf N N F.Vt)ᴴ * (diagonal (fun i : Fin N => (((cut F.kmax F.S i)⁻¹ : ℝ) : K)) * ((matOf M N F.U)ᴴ * matOf M N F.U) *
          diagonal (fun i : Fin N => ((F.S i : ℝ) : K))) * matOf N N F.Vt := by simp only [Matrix.mul_assoc]
      _ = 1 := by
        rw [h.2.uu, Matrix.mul_one, diagonal_mul_diagonal]
        have : (fun i : Fin N => (((cut F.kmax F.S i)⁻¹ : ℝ) : K) * ((F.S i : ℝ) : K)) = fun _ => 1 := by
          funext i
          rw [cut_inv, if_pos (by omega), ← RCLike.ofReal_mul, inv_mul_cancel₀ (hr.2 i (by omega)), RCLike.ofReal_one]
        rw [this, diagonal_one, Matrix.mul_one]
        exact mul_eq_one_comm.mp h.2.vv
  rw [hk] at hP
  have e1 : P * Pᴴ * ((matOf M N A)ᴴ * matOf M N A) = P * (matOf M N A * P)ᴴ * matOf M N A := by
    rw [conjTranspose_mul]; simp only [Matrix.mul_assoc]
  rw [e1, hP.ax, ← Matrix.mul_assoc, hPA, Matrix.one_mul, hPA]

end

/-- **C100**: a division or inversion with a zero singular value among those kept is refused (`SingularDiagMatrix`), and only that. -/
theorem lDiv_raises_iff (g : Nat → K) (M N R : Nat) (F : Fac K) (m x : Nat → Nat → K) :
    F.lDiv g M N R m x = none ↔ 0 < R ∧ ∃ i < F.kmax, F.S i = 0 := by
  unfold Fac.lDiv svRDiv svLDiv
  cases F.istrans <;> simp [divM_zero]

theorem rDiv_raises_iff (g : Nat → K) (M N R : Nat) (F : Fac K) (m x : Nat → Nat → K) :
    F.rDiv g M N R m x = none ↔ 0 < R ∧ ∃ i < F.kmax, F.S i = 0 := by
  unfold Fac.rDiv svRDiv svLDiv
  cases F.istrans <;> simp [divM_zero]

/-! ### `thresh`, `top` -/

theorem threshLoop_spec (S : Nat → ℝ) (t : ℝ) : ∀ n, threshLoop S t n ≤ n ∧ (∀ i, threshLoop S t n ≤ i → i < n → S i ≤ t) ∧
    (0 < threshLoop S t n → t < S (threshLoop S t n - 1)) := by
  intro n
  induction n with
  | zero => exact ⟨le_rfl, fun i _ h => by omega, fun h => by simp [threshLoop] at h⟩
  | succ n ih =>
    unfold threshLoop
    by_cases h : S n ≤ t
    · rw [if_pos h]
      refine ⟨by omega, fun i hi hn => ?_, ih.2.2⟩
      by_cases e : i = n
      · rw [e]; exact h
      · exact ih.2.1 i hi (by omega)
    · rw [if_neg h]
      exact ⟨le_rfl, fun i hi hn => by omega, fun _ => by simpa using h⟩

theorem threshLoop_iff {S : Nat → ℝ} {n : Nat} (hd : ∀ i j, i ≤ j → j < n → S j ≤ S i) (t : ℝ) (i : Nat) (hi : i < n) :
    i < threshLoop S t n ↔ t < S i := by
  obtain ⟨h1, h2, h3⟩ := threshLoop_spec S t n
  constructor
  · intro h
    have := h3 (by omega)
    exact lt_of_lt_of_le this (hd i _ (by omega) (by omega))
  · intro h
    by_contra hc
    exact absurd (h2 i (by omega) hi) (by linarith)

theorem Holds.svd {M N : Nat} {A : Nat → Nat → K} {F : Fac K} (h : Holds M N A F) :
    (∀ i, i < min M N → 0 ≤ F.S i) ∧ ∀ i j, i ≤ j → j < min M N → F.S j ≤ F.S i := by
  unfold Holds at h
  cases ht : F.istrans
  · rw [ht] at h
    simp only [Bool.false_eq_true, if_false] at h
    exact ⟨fun i hi => h.2.nonneg i (by omega), fun i j hij hj => h.2.desc i j hij (by omega)⟩
  · rw [ht] at h
    simp only [if_true] at h
    exact ⟨fun i hi => h.2.nonneg i (by omega), fun i j hij hj => h.2.desc i j hij (by omega)⟩

/-- **C100**: `thresh(toler)` (called by the constructor with the machine epsilon) keeps exactly the singular values greater than `toler` times
the greatest; the others do not change the decomposition; the divider can then be used. -/
theorem thresh_spec {M N : Nat} {A : Nat → Nat → K} {F : Fac K} (h : Holds M N A F) (toler : ℝ) (ht : 0 ≤ toler) :
    Holds M N A (F.thresh (min M N) toler) ∧ (F.thresh (min M N) toler).Regular M N ∧
    (∀ i, i < min M N → (i < (F.thresh (min M N) toler).kmax ↔ F.S 0 * toler < F.S i)) ∧
    ((F.thresh (min M N) toler).isSingular (min M N) ↔ ∃ i < min M N, F.S i ≤ F.S 0 * toler) := by
  obtain ⟨h1, h2⟩ := h.svd
  have key : ∀ i, i < min M N → (i < (F.thresh (min M N) toler).kmax ↔ F.S 0 * toler < F.S i) := by
    intro i hi
    unfold Fac.thresh
    dsimp only
    rw [if_neg (by omega)]
    exact threshLoop_iff h2 _ i hi
  have hk : (F.thresh (min M N) toler).kmax ≤ min M N := by
    unfold Fac.thresh
    dsimp only
    by_cases h0 : min M N = 0
    · rw [if_pos h0]; omega
    · rw [if_neg h0]; exact (threshLoop_spec _ _ _).1
  refine ⟨h, ⟨hk, fun i hi => ?_⟩, key, ?_⟩
  · have := (key i (by omega)).mp hi
    have h0 : 0 ≤ F.S 0 * toler := mul_nonneg (h1 0 (by omega)) ht
    show F.S i ≠ 0
    linarith
  · unfold Fac.isSingular
    constructor
    · intro hs
      refine ⟨_, hs, ?_⟩
      by_contra hc
      have := (key _ hs).mpr (by linarith)
      omega
    · rintro ⟨i, hi, hle⟩
      by_contra hc
      have := (key i hi).mp (by omega)
      linarith

/-- **C100**: `top(n)` keeps the `n` greatest singular values (all, if there are fewer). -/
theorem top_spec {M N : Nat} {A : Nat → Nat → K} {F : Fac K} (h : Holds M N A F) (n : Nat) :
    Holds M N A (F.top (min M N) n) ∧ (F.top (min M N) n).kmax = min n (min M N) ∧
    ((F.top (min M N) n).Regular M N ↔ ∀ i, i < n → i < min M N → F.S i ≠ 0) := by
  have hk : (F.top (min M N) n).kmax = min n (min M N) := by
    unfold Fac.top
    dsimp only
    split_ifs <;> omega
  refine ⟨h, hk, ?_⟩
  unfold Fac.Regular
  rw [hk]
  constructor
  · intro hr i hi hi'
    exact hr.2 i (by omega)
  · intro hr
    exact ⟨by omega, fun i hi => hr i (by omega) (by omega)⟩

theorem IsOpNorm.tr {m n : Type} [Fintype m] [Fintype n] [DecidableEq n] {U : Matrix m n K} {V : Matrix n n K} (d : n → ℝ)
    (hu : Uᴴ * U = 1) (hv : V * Vᴴ = 1) (i : n) (hi : ∀ j, |d j| ≤ |d i|) :
    IsOpNorm (U * diagonal (fun i => ((d i : ℝ) : K)) * V)ᵀ |d i| := by
  have hdiag : ∀ y : n → K, norm2sq (diagonal (fun i => ((d i : ℝ) : K)) *ᵥ y) = ∑ j, |d j| ^ 2 * ‖y j‖ ^ 2 := by
    intro y
    unfold norm2sq
    refine Finset.sum_congr rfl fun j _ => ?_
    rw [mulVec_diagonal, norm_mul, RCLike.norm_ofReal, mul_pow]
  have hv' : (Vᵀ)ᴴ * Vᵀ = 1 := by
    have := congrArg transpose hv
    rw [transpose_mul, transpose_one] at this
    exact this
  have hu' : Uᵀ * (Uᵀ)ᴴ = 1 := by
    have := congrArg transpose hu
    rw [transpose_mul, transpose_one] at this
    exact this
  rw [transpose_mul, transpose_mul, diagonal_transpose]
  -- the rows of `Uᵀ` are orthonormal
  have bess : ∀ x : m → K, norm2sq (Uᵀ *ᵥ x) ≤ norm2sq x := by
    intro x
    have e : norm2sq (((Uᵀ)ᴴ * Uᵀ) *ᵥ x) = norm2sq (Uᵀ *ᵥ x) := by
      rw [← mulVec_mulVec]
      exact norm2sq_iso (by rw [conjTranspose_conjTranspose]; exact hu') _
    have ho : star (((Uᵀ)ᴴ * Uᵀ) *ᵥ x) ⬝ᵥ (x - ((Uᵀ)ᴴ * Uᵀ) *ᵥ x) = 0 := by
      rw [star_mulVec_dot, mulVec_sub, conjTranspose_mul, conjTranspose_conjTranspose, mulVec_mulVec]
      have : (Uᵀ)ᴴ * Uᵀ * ((Uᵀ)ᴴ * Uᵀ) = (Uᵀ)ᴴ * Uᵀ := by
        calc _ = (Uᵀ)ᴴ * (Uᵀ * (Uᵀ)ᴴ) * Uᵀ := by simp only [Matrix.mul_assoc]
          _ = _ := by rw [hu', Matrix.mul_one]
      rw [this, sub_self, dotProduct_zero]
    have := norm2sq_add ho
    rw [add_sub_cancel, e] at this
    have := norm2sq_nonneg (x - ((Uᵀ)ᴴ * Uᵀ) *ᵥ x)
    linarith
  refine ⟨abs_nonneg _, fun x => ?_, (Uᵀ)ᴴ *ᵥ (Pi.single i 1), ?_, ?_⟩
  · rw [← mulVec_mulVec, norm2sq_iso hv', ← mulVec_mulVec, hdiag]
    refine le_trans ?_ (mul_le_mul_of_nonneg_left (bess x) (sq_nonneg _))
    conv_rhs => rw [norm2sq, Finset.mul_sum]
    refine Finset.sum_le_sum fun j _ => ?_
    exact mul_le_mul_of_nonneg_right (pow_le_pow_left₀ (abs_nonneg _) (hi j) 2) (sq_nonneg _)
  · rw [norm2sq_iso (by rw [conjTranspose_conjTranspose]; exact hu')]
    unfold norm2sq
    rw [Finset.sum_eq_single i] <;> simp +contextual [Pi.single_apply]
  · rw [mulVec_mulVec, Matrix.mul_assoc, Matrix.mul_assoc, hu', Matrix.mul_one, ← mulVec_mulVec, norm2sq_iso hv', hdiag,
      Finset.sum_eq_single i] <;> simp +contextual [Pi.single_apply]

/-- **C100**: `norm2()` is the 2-norm of the matrix. -/
theorem norm2_spec {M N : Nat} {A : Nat → Nat → K} {F : Fac K} (h : Holds M N A F) (h0 : 0 < min M N) :
    IsOpNorm (matOf M N A) (F.norm2 (min M N)) := by
  obtain ⟨h1, h2⟩ := h.svd
  have e : F.norm2 (min M N) = |F.S 0| := by
    unfold Fac.norm2
    rw [if_pos h0, abs_of_nonneg (h1 0 h0)]
  rw [e]
  have hle : ∀ j, j < min M N → |F.S j| ≤ |F.S 0| := fun j hj => by
    rw [abs_of_nonneg (h1 0 h0), abs_of_nonneg (h1 j hj)]; exact h2 0 j (by omega) hj
  unfold Holds at h
  cases ht : F.istrans
  · rw [ht] at h
    simp only [Bool.false_eq_true, if_false] at h
    rw [h.2.prod]
    exact opNorm_usv (fun i : Fin N => F.S i) h.2.uu h.2.vv ⟨0, by omega⟩ fun j => hle j (by omega)
  · rw [ht] at h
    simp only [if_true] at h
    have : matOf M N A = (matOf N M (SVD.tr A))ᵀ := rfl
    rw [this, h.2.prod]
    exact IsOpNorm.tr (fun i : Fin M => F.S i) h.2.uu h.2.vv ⟨0, by omega⟩ fun j => hle j (by omega)

/-- **C100**: `condition()` of a matrix whose singular values are all positive is the 2-norm of the matrix times that of its pseudo-inverse (its
inverse, if it is square). -/
theorem condition_spec {M N : Nat} {A : Nat → Nat → K} {F : Fac K} (h : Holds M N A F) (h0 : 0 < min M N)
    (hp : F.S (min M N - 1) ≠ 0) {P : Matrix (Fin N) (Fin M) K} (hP : IsPinv (matOf M N A) P) :
    ∃ a b, IsOpNorm (matOf M N A) a ∧ IsOpNorm P b ∧ F.condition (min M N) = a * b := by
  obtain ⟨h1, h2⟩ := h.svd
  refine ⟨_, (F.S (min M N - 1))⁻¹, norm2_spec h h0, ?_, ?_⟩
  swap
  · unfold Fac.condition Fac.norm2
    rw [if_pos h0, if_pos h0, div_eq_mul_inv]
  have pos : ∀ j, j < min M N → 0 < F.S j := fun j hj =>
    lt_of_lt_of_le (lt_of_le_of_ne (h1 _ (by omega)) (fun e => hp e.symm)) (h2 j (min M N - 1) (by omega) (by omega))
  have hle : ∀ j, j < min M N → |(F.S j)⁻¹| ≤ |(F.S (min M N - 1))⁻¹| := fun j hj => by
    rw [abs_of_pos (inv_pos.mpr (pos j hj)), abs_of_pos (inv_pos.mpr (pos _ (by omega)))]
    exact inv_anti₀ (pos _ (by omega)) (h2 _ _ (by omega) (by omega))
  have e : (F.S (min M N - 1))⁻¹ = |(F.S (min M N - 1))⁻¹| := (abs_of_pos (inv_pos.mpr (pos _ (by omega)))).symm
  rw [e]
  -- the pseudo-inverse has the same form, transposed
  have hconj : ∀ {p q : Nat} (B : Matrix (Fin p) (Fin q) K) (c : ℝ), IsOpNorm B c → IsOpNorm (B.map star) c := by
    intro p q B c ⟨b0, b1, x, bx, bx'⟩
    have es : ∀ {r : Nat} (x : Fin r → K), norm2sq (star x) = norm2sq x := fun x => by simp [norm2sq]
    have em : ∀ x, B.map star *ᵥ x = star (B *ᵥ star x) := by
      intro x
      funext i
      simp only [mulVec, dotProduct, Pi.star_apply, star_sum, star_mul', star_star, Matrix.map_apply]
    refine ⟨b0, fun x => ?_, star x, by rw [es]; exact bx, ?_⟩
    · rw [em, es]
      have := b1 (star x)
      rwa [es] at this
    · rw [em, es, star_star]; exact bx'
  unfold Holds at h
  cases ht : F.istrans
  · rw [ht] at h
    simp only [Bool.false_eq_true, if_false] at h
    have hmin : min M N = N := min_eq_right h.1
    have hp' : P = (((matOf M N F.U) * diagonal (fun i : Fin N => (((F.S i)⁻¹ : ℝ) : K)) * matOf N N F.Vt)ᵀ).map star := by
      have := pinv_usv (fun i : Fin N => F.S i) h.2.uu h.2.vv
      rw [← h.2.prod] at this
      rw [hP.unique this]
      show _ = (_ * _ * _)ᴴ
      rw [conjTranspose_mul, conjTranspose_mul, diagonal_conjTranspose, Matrix.mul_assoc]
      congr 3
      funext i; simp
    rw [hp']
    have hh := IsOpNorm.tr (K := K) (fun i : Fin N => (F.S i)⁻¹) h.2.uu h.2.vv ⟨min M N - 1, by omega⟩ fun j => hle j (by omega)
    exact hconj _ _ hh
  · rw [ht] at h
    simp only [if_true] at h
    have hmin : min M N = M := min_eq_left h.1.le
    have hp' : P = ((matOf N M F.U) * diagonal (fun i : Fin M => (((F.S i)⁻¹ : ℝ) : K)) * matOf M M F.Vt).map star := by
      have := (pinv_usv (fun i : Fin M => F.S i) h.2.uu h.2.vv).trans
      rw [← h.2.prod] at this
      rw [hP.unique (A := matOf M N A) this]
      show _ = (((matOf N M F.U) * diagonal (fun i : Fin M => (((F.S i)⁻¹ : ℝ) : K)) * matOf M M F.Vt)ᴴ)ᵀ
      congr 1
      rw [conjTranspose_mul, conjTranspose_mul, diagonal_conjTranspose, Matrix.mul_assoc]
      congr 3
      funext i; simp
    rw [hp']
    have hh := opNorm_usv (K := K) (fun i : Fin M => (F.S i)⁻¹) h.2.uu h.2.vv ⟨min M N - 1, by omega⟩ fun j => hle j (by omega)
    exact hconj _ _ hh

end
end TMV.SVD
