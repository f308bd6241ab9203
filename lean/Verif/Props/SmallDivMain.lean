import Verif.Props.SmallRect
import Verif.Lemmas.Pinv

/-! C113, C114, C115: inverse, division and `inverseATA` of a `SmallMatrix`. -/
namespace TMV.SmallDiv
set_option linter.unusedSectionVars false
noncomputable section
open Classical Matrix

variable {K : Type} [RCLike K]

/-! ### Inverse -/

/-- **C113** (square): `m.inverse()` throws exactly if the determinant is 0, and otherwise is the inverse; nothing outside the `N*N` elements
of the result is written.  All `N`, all storage orders of `m` and of the result, real and complex. -/
theorem inverse_square (tiny : ℝ) (cplx s s2 : Bool) (N : Nat) (m minv : Nat → K) :
    ((smat s N N m).det = 0 → inverse tiny cplx s s2 N N m minv = none) ∧
    ((smat s N N m).det ≠ 0 → ∃ m', inverse tiny cplx s s2 N N m minv = some m' ∧ smat s2 N N m' = (smat s N N m)⁻¹ ∧
      smat s2 N N m' * smat s N N m = 1 ∧ smat s N N m * smat s2 N N m' = 1 ∧ SameOutside (N*N) m' minv) := by
  have key : ((smat s N N m).det = 0 → inverse tiny cplx s s2 N N m minv = none) ∧
    ((smat s N N m).det ≠ 0 → ∃ m', inverse tiny cplx s s2 N N m minv = some m' ∧ smat s2 N N m' * smat s N N m = 1 ∧ SameOutside (N*N) m' minv) := by
    unfold inverse
    rw [if_neg (lt_irrefl N), if_pos rfl]
    by_cases h1 : N = 1
    · subst h1; rw [if_pos rfl]; exact inv1_rel s s2 m minv
    rw [if_neg h1]
    by_cases h2 : N = 2
    · subst h2; rw [if_pos rfl]; exact inv2_rel s s2 m minv
    rw [if_neg h2]
    by_cases h3 : N = 3
    · subst h3; rw [if_pos rfl]; exact inv3_rel s s2 m minv
    rw [if_neg h3]
    exact luInv_rel cplx s s2 N m minv
  refine ⟨key.1, fun h => ?_⟩
  obtain ⟨m', e, h1, h2⟩ := key.2 h
  exact ⟨m', e, (Matrix.inv_eq_left_inv h1).symm, h1, mul_eq_one_comm.mp h1, h2⟩

/-- **C113** (more rows than columns): a result is the pseudo-inverse and a left inverse; the routine throws for a matrix without full column
rank, and only for one that a change below the underflow threshold makes lose it. -/
theorem inverse_tall {tiny : ℝ} (ht : 0 < tiny) (cplx s s2 : Bool) {M N : Nat} (hMN : N < M) (m minv : Nat → K) :
    (∀ m', inverse tiny cplx s s2 M N m minv = some m' → IsPinv (smat s M N m) (smat s2 N M m') ∧ smat s2 N M m' * smat s M N m = 1 ∧
      SameOutside (M*N) m' minv) ∧
    (inverse tiny cplx s s2 M N m minv = none → NearDef tiny (smat s M N m)) ∧
    (RankDef (smat s M N m) → inverse tiny cplx s s2 M N m minv = none) := by
  have e : inverse tiny cplx s s2 M N m minv = qrInv tiny s2 M N (loc M (copy M N s false m fun _ => 0)) minv := by
    unfold inverse
    rw [if_neg (by omega), if_neg (by omega)]
  rw [e]
  have h := qrInv_rel ht hMN.le s2 (loc M (copy M N s false m fun _ => 0)) minv
  rw [smat_loc] at h
  refine ⟨fun m' e => ?_, h.2.1, h.2.2⟩
  obtain ⟨P, p1, p2, rfl, p4⟩ := h.1 m' e
  exact ⟨p1, p2, by rw [Nat.mul_comm]; exact p4⟩

theorem RectSpec.trans {tiny : ℝ} {M N : Nat} {A : Matrix (Fin M) (Fin N) K} {res : Option (Nat → K)} {good : (Nat → K) → Matrix (Fin M) (Fin N) K → Prop}
    (h : RectSpec tiny Aᵀ res good) :
    (∀ m', res = some m' → ∃ P : Matrix (Fin N) (Fin M) K, IsPinv A P ∧ A * P = 1 ∧ good m' Pᵀ) ∧ (res = none → NearDef tiny Aᵀ) ∧ (RankDef Aᵀ → res = none) := by
  refine ⟨fun m' e => ?_, h.2.1, h.2.2⟩
  obtain ⟨P, p1, p2, p3⟩ := h.1 m' e
  refine ⟨Pᵀ, ?_, ?_, p3⟩
  · have := p1.trans
    rwa [transpose_transpose] at this
  · have := congrArg transpose p2
    rwa [transpose_mul, transpose_transpose, transpose_one] at this

/-- **C113** (fewer rows than columns): a result is the pseudo-inverse and a right inverse; the routine throws for a matrix without full row
rank, and only for one that a change below the underflow threshold makes lose it. -/
theorem inverse_wide {tiny : ℝ} (ht : 0 < tiny) (cplx s s2 : Bool) {M N : Nat} (hMN : M < N) (m minv : Nat → K) :
    (∀ m', inverse tiny cplx s s2 M N m minv = some m' → IsPinv (smat s M N m) (smat s2 N M m') ∧ smat s M N m * smat s2 N M m' = 1 ∧
      SameOutside (M*N) m' minv) ∧
    (inverse tiny cplx s s2 M N m minv = none → NearDef tiny (smat s M N m)ᵀ) ∧
    (RankDef (smat s M N m)ᵀ → inverse tiny cplx s s2 M N m minv = none) := by
  have e : inverse tiny cplx s s2 M N m minv = qrInv tiny (!s2) N M (loc N (copy M N s true m fun _ => 0)) minv := by
    unfold inverse
    rw [if_pos hMN]
  rw [e]
  have h := qrInv_rel ht hMN.le (!s2) (loc N (copy M N s true m fun _ => 0)) minv
  rw [smat_loc_tr] at h
  obtain ⟨h1, h2, h3⟩ := h.trans
  refine ⟨fun m' e => ?_, h2, h3⟩
  obtain ⟨P, p1, p2, p3, p4⟩ := h1 m' e
  have : smat s2 N M m' = P := by
    rw [smat_not s2 N M m'] at p3
    exact transpose_injective p3
  rw [this]
  exact ⟨p1, p2, p4⟩

/-! ### Division -/

/-- **C114** (square, in place): `m2 /= m` (`m2 ← m⁻¹ m2`) throws exactly if the determinant is 0, and otherwise solves the system. -/
theorem lDivEq_spec (cplx s s2 : Bool) (N nc : Nat) (m m2 : Nat → K) :
    ((smat s N N m).det = 0 → lDivEq cplx s s2 N nc m m2 = none) ∧
    ((smat s N N m).det ≠ 0 → ∃ m', lDivEq cplx s s2 N nc m m2 = some m' ∧ smat s N N m * smat s2 N nc m' = smat s2 N nc m2 ∧
      SameOutside (N*nc) m' m2) := by
  have h := luLDivEq_rel cplx s2 N nc (loc N (copy N N s false m fun _ => 0)) (Rel.refl s2 N nc m2)
  rw [smat_loc] at h
  unfold lDivEq
  refine ⟨h.1, fun h0 => ?_⟩
  obtain ⟨m', X, e, h1, h2⟩ := h.2 h0
  exact ⟨m', e, by rw [h1.smat]; exact h2, h1.2⟩

/-- **C114** (square, in place): `m2 %= m` (`m2 ← m2 m⁻¹`). -/
theorem rDivEq_spec (cplx s s2 : Bool) (N nr : Nat) (m m2 : Nat → K) :
    ((smat s N N m).det = 0 → rDivEq cplx s s2 N nr m m2 = none) ∧
    ((smat s N N m).det ≠ 0 → ∃ m', rDivEq cplx s s2 N nr m m2 = some m' ∧ smat s2 nr N m' * smat s N N m = smat s2 nr N m2 ∧
      SameOutside (nr*N) m' m2) := by
  have h := luLDivEq_rel cplx (!s2) N nr (loc N (copy N N s true m fun _ => 0)) (Rel.refl (!s2) N nr m2)
  rw [smat_loc_tr, det_transpose] at h
  unfold rDivEq
  refine ⟨h.1, fun h0 => ?_⟩
  obtain ⟨m', X, e, h1, h2⟩ := h.2 h0
  refine ⟨m', e, ?_, by rw [Nat.mul_comm]; exact h1.2⟩
  rw [← h1.smat, ← smat_idx, smat_not, smat_not, ← transpose_mul] at h2
  exact transpose_injective h2

theorem smat_copy (M N : Nat) (s1 s2 : Bool) (m1 m2 : Nat → K) : smat s2 M N (copy M N s1 s2 m1 m2) = smat s1 M N m1 :=
  (copy_rel M N s1 s2 m1 m2).smat

/-- **C114** (square): `m2 = m1/m`. -/
theorem lDiv_square (tiny : ℝ) (cplx s s1 s2 : Bool) (N nc : Nat) (m m1 m2 : Nat → K) :
    ((smat s N N m).det = 0 → lDiv tiny cplx s s1 s2 N N nc m m1 m2 = none) ∧
    ((smat s N N m).det ≠ 0 → ∃ m', lDiv tiny cplx s s1 s2 N N nc m m1 m2 = some m' ∧ smat s N N m * smat s2 N nc m' = smat s1 N nc m1 ∧
      SameOutside (N*nc) m' m2) := by
  unfold lDiv
  rw [if_neg (lt_irrefl N), if_pos rfl]
  have h := lDivEq_spec cplx s s2 N nc m (copy N nc s1 s2 m1 m2)
  rw [smat_copy] at h
  refine ⟨h.1, fun h0 => ?_⟩
  obtain ⟨m', e, h1, h2⟩ := h.2 h0
  exact ⟨m', e, h1, fun k hk => (h2 k hk).trans ((copy_rel N nc s1 s2 m1 m2).2 k hk)⟩

/-- **C114** (square): `m2 = m1 % m`, i.e. `m1 m⁻¹`. -/
theorem rDiv_square (tiny : ℝ) (cplx s s1 s2 : Bool) (N nr : Nat) (m m1 m2 : Nat → K) :
    ((smat s N N m).det = 0 → rDiv tiny cplx s s1 s2 N N nr m m1 m2 = none) ∧
    ((smat s N N m).det ≠ 0 → ∃ m', rDiv tiny cplx s s1 s2 N N nr m m1 m2 = some m' ∧ smat s2 nr N m' * smat s N N m = smat s1 nr N m1 ∧
      SameOutside (nr*N) m' m2) := by
  unfold rDiv
  rw [if_neg (lt_irrefl N), if_pos rfl]
  have h := rDivEq_spec cplx s s2 N nr m (copy nr N s1 s2 m1 m2)
  rw [smat_copy] at h
  refine ⟨h.1, fun h0 => ?_⟩
  obtain ⟨m', e, h1, h2⟩ := h.2 h0
  exact ⟨m', e, h1, fun k hk => (h2 k hk).trans ((copy_rel nr N s1 s2 m1 m2).2 k hk)⟩

/-- **C114** (more rows than columns): `m1/m` is `P m1` with the pseudo-inverse `P` of `m`, i.e. the least squares solution. -/
theorem lDiv_tall {tiny : ℝ} (ht : 0 < tiny) (cplx s s1 s2 : Bool) {M N : Nat} (hMN : N < M) (nc : Nat) (m m1 m2 : Nat → K) :
    (∀ m', lDiv tiny cplx s s1 s2 M N nc m m1 m2 = some m' → ∃ P, IsPinv (smat s M N m) P ∧ P * smat s M N m = 1 ∧
      smat s2 N nc m' = P * smat s1 M nc m1 ∧ SameOutside (N*nc) m' m2) ∧
    (lDiv tiny cplx s s1 s2 M N nc m m1 m2 = none → NearDef tiny (smat s M N m)) ∧
    (RankDef (smat s M N m) → lDiv tiny cplx s s1 s2 M N nc m m1 m2 = none) := by
  have e : lDiv tiny cplx s s1 s2 M N nc m m1 m2 = qrLDiv tiny s1 s2 M N nc (loc M (copy M N s false m fun _ => 0)) m1 m2 := by
    unfold lDiv
    rw [if_neg (by omega), if_neg (by omega)]
  rw [e]
  have h := qrLDiv_rel ht hMN.le s1 s2 nc (loc M (copy M N s false m fun _ => 0)) m1 m2
  rwa [smat_loc] at h

/-- **C114** (more rows than columns): `m1 % m` is `m1 P` with the pseudo-inverse `P` of `m`. -/
theorem rDiv_tall {tiny : ℝ} (ht : 0 < tiny) (cplx s s1 s2 : Bool) {M N : Nat} (hMN : N < M) (nr : Nat) (m m1 m2 : Nat → K) :
    (∀ m', rDiv tiny cplx s s1 s2 M N nr m m1 m2 = some m' → ∃ P, IsPinv (smat s M N m) P ∧ P * smat s M N m = 1 ∧
      smat s2 nr M m' = smat s1 nr N m1 * P ∧ SameOutside (nr*M) m' m2) ∧
    (rDiv tiny cplx s s1 s2 M N nr m m1 m2 = none → NearDef tiny (smat s M N m)) ∧
    (RankDef (smat s M N m) → rDiv tiny cplx s s1 s2 M N nr m m1 m2 = none) := by
  have e : rDiv tiny cplx s s1 s2 M N nr m m1 m2 = qrRDiv tiny s1 s2 M N nr (loc M (copy M N s false m fun _ => 0)) m1 m2 := by
    unfold rDiv
    rw [if_neg (by omega), if_neg (by omega)]
  rw [e]
  have h := qrRDiv_rel ht hMN.le s1 s2 nr (loc M (copy M N s false m fun _ => 0)) m1 m2
  rwa [smat_loc] at h

/-- **C114** (fewer rows than columns): `m1/m` is `P m1` with the pseudo-inverse `P` of `m`, the solution of least norm. -/
theorem lDiv_wide {tiny : ℝ} (ht : 0 < tiny) (cplx s s1 s2 : Bool) {M N : Nat} (hMN : M < N) (nc : Nat) (m m1 m2 : Nat → K) :
    (∀ m', lDiv tiny cplx s s1 s2 M N nc m m1 m2 = some m' → ∃ P, IsPinv (smat s M N m) P ∧ smat s M N m * P = 1 ∧
      smat s2 N nc m' = P * smat s1 M nc m1 ∧ SameOutside (N*nc) m' m2) ∧
    (lDiv tiny cplx s s1 s2 M N nc m m1 m2 = none → NearDef tiny (smat s M N m)ᵀ) ∧
    (RankDef (smat s M N m)ᵀ → lDiv tiny cplx s s1 s2 M N nc m m1 m2 = none) := by
  have e : lDiv tiny cplx s s1 s2 M N nc m m1 m2 = qrRDiv tiny (!s1) (!s2) N M nc (loc N (copy M N s true m fun _ => 0)) m1 m2 := by
    unfold lDiv
    rw [if_pos hMN]
  rw [e]
  have h := qrRDiv_rel ht hMN.le (!s1) (!s2) nc (loc N (copy M N s true m fun _ => 0)) m1 m2
  rw [smat_loc_tr] at h
  obtain ⟨h1, h2, h3⟩ := h.trans
  refine ⟨fun m' e => ?_, h2, h3⟩
  obtain ⟨P, p1, p2, p3, p4⟩ := h1 m' e
  refine ⟨P, p1, p2, ?_, by rw [Nat.mul_comm]; exact p4⟩
  rw [smat_not s2 N nc m', smat_not s1 M nc m1, ← transpose_mul] at p3
  exact transpose_injective p3

/-- **C114** (fewer rows than columns): `m1 % m` is `m1 P` with the pseudo-inverse `P` of `m`. -/
theorem rDiv_wide {tiny : ℝ} (ht : 0 < tiny) (cplx s s1 s2 : Bool) {M N : Nat} (hMN : M < N) (nr : Nat) (m m1 m2 : Nat → K) :
    (∀ m', rDiv tiny cplx s s1 s2 M N nr m m1 m2 = some m' → ∃ P, IsPinv (smat s M N m) P ∧ smat s M N m * P = 1 ∧
      smat s2 nr M m' = smat s1 nr N m1 * P ∧ SameOutside (nr*M) m' m2) ∧
    (rDiv tiny cplx s s1 s2 M N nr m m1 m2 = none → NearDef tiny (smat s M N m)ᵀ) ∧
    (RankDef (smat s M N m)ᵀ → rDiv tiny cplx s s1 s2 M N nr m m1 m2 = none) := by
  have e : rDiv tiny cplx s s1 s2 M N nr m m1 m2 = qrLDiv tiny (!s1) (!s2) N M nr (loc N (copy M N s true m fun _ => 0)) m1 m2 := by
    unfold rDiv
    rw [if_pos hMN]
  rw [e]
  have h := qrLDiv_rel ht hMN.le (!s1) (!s2) nr (loc N (copy M N s true m fun _ => 0)) m1 m2
  rw [smat_loc_tr] at h
  obtain ⟨h1, h2, h3⟩ := h.trans
  refine ⟨fun m' e => ?_, h2, h3⟩
  obtain ⟨P, p1, p2, p3, p4⟩ := h1 m' e
  refine ⟨P, p1, p2, ?_, by rw [Nat.mul_comm]; exact p4⟩
  rw [smat_not s2 nr M m', smat_not s1 nr N m1, ← transpose_mul] at p3
  exact transpose_injective p3

/-! ### Vectors -/

theorem svec_col (M : Nat) (v : Nat → K) (A : Matrix (Fin N) (Fin M) K) (i : Fin N) (j : Fin 1) : (A * smat false M 1 v) i j = (A *ᵥ svec M v) i := by
  rw [Matrix.mul_apply]
  refine Finset.sum_congr rfl fun k _ => ?_
  simp [smat, svec]

theorem svec_row (M : Nat) (v : Nat → K) (A : Matrix (Fin M) (Fin N) K) (i : Fin 1) (j : Fin N) : (smat true 1 M v * A) i j = (svec M v ᵥ* A) j := by
  rw [Matrix.mul_apply]
  refine Finset.sum_congr rfl fun k _ => ?_
  simp [smat, svec]

theorem smat_col (N : Nat) (v : Nat → K) (i : Fin N) (j : Fin 1) : smat false N 1 v i j = svec N v i := by simp [smat, svec]

theorem smat_row (N : Nat) (v : Nat → K) (i : Fin 1) (j : Fin N) : smat true 1 N v i j = svec N v j := by simp [smat, svec]

/-- **C114** (vectors, square): `v1/m` and `v1 % m`. -/
theorem divV_square (tiny : ℝ) (cplx s : Bool) (N : Nat) (m v1 v2 : Nat → K) :
    ((smat s N N m).det = 0 → lDivV tiny cplx s N N m v1 v2 = none ∧ rDivV tiny cplx s N N m v1 v2 = none) ∧
    ((smat s N N m).det ≠ 0 → (∃ x, lDivV tiny cplx s N N m v1 v2 = some x ∧ smat s N N m *ᵥ svec N x = svec N v1 ∧ SameOutside N x v2) ∧
      ∃ x, rDivV tiny cplx s N N m v1 v2 = some x ∧ svec N x ᵥ* smat s N N m = svec N v1 ∧ SameOutside N x v2) := by
  have h1 := lDiv_square tiny cplx s false false N 1 m v1 v2
  have h2 := rDiv_square tiny cplx s true true N 1 m v1 v2
  refine ⟨fun h0 => ⟨h1.1 h0, h2.1 h0⟩, fun h0 => ⟨?_, ?_⟩⟩
  · obtain ⟨x, e, e1, e2⟩ := h1.2 h0
    refine ⟨x, e, ?_, fun k hk => e2 k (by omega)⟩
    funext i
    rw [← svec_col N x _ i 0, e1, smat_col]
  · obtain ⟨x, e, e1, e2⟩ := h2.2 h0
    refine ⟨x, e, ?_, fun k hk => e2 k (by omega)⟩
    funext i
    rw [← svec_row N x _ 0 i, e1, smat_row]

/-- **C114** (vectors, in place): `v /= m` and `v %= m`. -/
theorem divEqV_spec (cplx s : Bool) (N : Nat) (m v2 : Nat → K) :
    ((smat s N N m).det = 0 → lDivEqV cplx s N m v2 = none ∧ rDivEqV cplx s N m v2 = none) ∧
    ((smat s N N m).det ≠ 0 → (∃ x, lDivEqV cplx s N m v2 = some x ∧ smat s N N m *ᵥ svec N x = svec N v2 ∧ SameOutside N x v2) ∧
      ∃ x, rDivEqV cplx s N m v2 = some x ∧ svec N x ᵥ* smat s N N m = svec N v2 ∧ SameOutside N x v2) := by
  have h1 := lDivEq_spec cplx s false N 1 m v2
  have h2 := rDivEq_spec cplx s true N 1 m v2
  refine ⟨fun h0 => ⟨h1.1 h0, h2.1 h0⟩, fun h0 => ⟨?_, ?_⟩⟩
  · obtain ⟨x, e, e1, e2⟩ := h1.2 h0
    refine ⟨x, e, ?_, fun k hk => e2 k (by omega)⟩
    funext i
    rw [← svec_col N x _ i 0, e1, smat_col]
  · obtain ⟨x, e, e1, e2⟩ := h2.2 h0
    refine ⟨x, e, ?_, fun k hk => e2 k (by omega)⟩
    funext i
    rw [← svec_row N x _ 0 i, e1, smat_row]

/-- **C114** (vectors, rectangular): `v1/m` is `P v1` and `v1 % m` is `v1 P` with the pseudo-inverse `P`. -/
theorem divV_rect {tiny : ℝ} (ht : 0 < tiny) (cplx s : Bool) {M N : Nat} (hMN : M ≠ N) (m v1 v2 : Nat → K) :
    (∀ x, lDivV tiny cplx s M N m v1 v2 = some x → ∃ P, IsPinv (smat s M N m) P ∧ svec N x = P *ᵥ svec M v1 ∧ SameOutside N x v2) ∧
    (∀ x, rDivV tiny cplx s M N m v1 v2 = some x → ∃ P, IsPinv (smat s M N m) P ∧ svec M x = svec N v1 ᵥ* P ∧ SameOutside M x v2) := by
  constructor
  · intro x e
    have : ∃ P, IsPinv (smat s M N m) P ∧ smat false N 1 x = P * smat false M 1 v1 ∧ SameOutside (N*1) x v2 := by
      rcases Nat.lt_or_gt_of_ne hMN with h | h
      · obtain ⟨P, p1, _, p2⟩ := (lDiv_wide ht cplx s false false h 1 m v1 v2).1 x e
        exact ⟨P, p1, p2⟩
      · obtain ⟨P, p1, _, p2⟩ := (lDiv_tall ht cplx s false false h 1 m v1 v2).1 x e
        exact ⟨P, p1, p2⟩
    obtain ⟨P, p1, p2, p3⟩ := this
    refine ⟨P, p1, ?_, fun k hk => p3 k (by omega)⟩
    funext i
    rw [← svec_col M v1 P i 0, ← p2, smat_col]
  · intro x e
    have : ∃ P, IsPinv (smat s M N m) P ∧ smat true 1 M x = smat true 1 N v1 * P ∧ SameOutside (1*M) x v2 := by
      rcases Nat.lt_or_gt_of_ne hMN with h | h
      · obtain ⟨P, p1, _, p2⟩ := (rDiv_wide ht cplx s true true h 1 m v1 v2).1 x e
        exact ⟨P, p1, p2⟩
      · obtain ⟨P, p1, _, p2⟩ := (rDiv_tall ht cplx s true true h 1 m v1 v2).1 x e
        exact ⟨P, p1, p2⟩
    obtain ⟨P, p1, p2, p3⟩ := this
    refine ⟨P, p1, ?_, fun k hk => p3 k (by omega)⟩
    funext i
    rw [← svec_row N v1 P 0 i, ← p2, smat_row]

/-! ### InverseATA -/

/-- Storing `W Wᴴ`. -/
theorem wwh_rel {s2 : Bool} {N : Nat} (W : Nat → Nat → K) {m0 m : Nat → K} (h : Rel s2 N N m0 m fun _ _ => 0) :
    Rel s2 N N m0 (up (fun j m => up (fun k m => up (fun i m => (flat s2 N N).set m i j ((flat s2 N N).get m i j + W i k * star (W j k))) (k+1) 0 m) (N-j) j m) N 0 m)
      fun i j => ∑ k ∈ Finset.range N, upperMat false W i k * star (upperMat false W j k) := by
  have hin : ∀ j k (s : Nat → K) (A : Nat → Nat → K), j < N → k < N → Rel s2 N N m0 s A →
      Rel s2 N N m0 (up (fun i m => (flat s2 N N).set m i j ((flat s2 N N).get m i j + W i k * star (W j k))) (k+1) 0 s)
        fun a b => if b = j ∧ a ≤ k then A a j + W a k * star (W j k) else A a b := by
    intro j k s A hj hk hs
    have := up_inv (fun i m => (flat s2 N N).set m i j ((flat s2 N N).get m i j + W i k * star (W j k)))
      (fun i s => Rel s2 N N m0 s fun a b => if b = j ∧ a < i then A a j + W a k * star (W j k) else A a b) (k+1) 0 s
      (hs.congr fun a b _ _ => by rw [if_neg (by omega)]) (by
        intro i s _ hi hs
        refine (hs.set (i := i) (j := j) (by omega) hj (congrArg (· + W i k * star (W j k)) (hs.get (by omega) hj))).congr ?_
        intro a b _ _
        simp only [elem, setE]
        by_cases h1 : a = i ∧ b = j
        · obtain ⟨rfl, rfl⟩ := h1
          rw [if_pos ⟨rfl, rfl⟩, if_neg (fun h => lt_irrefl _ h.2), if_pos ⟨rfl, by omega⟩]
        · rw [if_neg h1]
          by_cases h2 : b = j ∧ a < i
          · rw [if_pos h2, if_pos ⟨h2.1, by omega⟩]
          · rw [if_neg h2, if_neg (by omega)])
    refine this.congr fun a b _ _ => ?_
    by_cases h1 : b = j ∧ a ≤ k
    · rw [if_pos h1, if_pos (by omega)]
    · rw [if_neg h1, if_neg (by omega)]
  have hcol : ∀ j (s : Nat → K) (A : Nat → Nat → K), j < N → (∀ a, A a j = 0) → Rel s2 N N m0 s A →
      Rel s2 N N m0 (up (fun k m => up (fun i m => (flat s2 N N).set m i j ((flat s2 N N).get m i j + W i k * star (W j k))) (k+1) 0 m) (N-j) j s)
        fun a b => if b = j then ∑ k ∈ Finset.range N, upperMat false W a k * star (upperMat false W j k) else A a b := by
    intro j s A hj hz hs
    have := up_inv (fun k m => up (fun i m => (flat s2 N N).set m i j ((flat s2 N N).get m i j + W i k * star (W j k))) (k+1) 0 m)
      (fun k s => Rel s2 N N m0 s fun a b => if b = j then ∑ l ∈ Finset.range k, upperMat false W a l * star (upperMat false W j l) else A a b) (N-j) j s
      (hs.congr fun a b _ _ => by
        by_cases hb : b = j
        · rw [if_pos hb, hb, hz a, Finset.sum_eq_zero]
          intro l hl
          have := Finset.mem_range.mp hl
          have e : upperMat false W j l = 0 := by unfold upperMat; rw [if_neg (by omega), if_neg (by omega)]
          rw [e, star_zero, mul_zero]
        · rw [if_neg hb]) (by
        intro k s h1 h2 hs
        refine (hin j k s _ hj (by omega) hs).congr ?_
        intro a b _ _
        rw [Finset.sum_range_succ]
        have e1 : upperMat false W j k = W j k := by
          unfold upperMat
          by_cases h : j < k
          · rw [if_pos h]
          · have : j = k := by omega
            subst this; simp
        have e2 : upperMat false W a k = if a ≤ k then W a k else 0 := by
          unfold upperMat
          by_cases ha : a < k
          · rw [if_pos ha, if_pos (by omega)]
          · by_cases ha2 : a = k
            · subst ha2; simp
            · rw [if_neg ha, if_neg ha2, if_neg (by omega)]
        rw [e1, e2]
        by_cases hb : b = j
        · subst hb
          by_cases ha : a ≤ k
          · rw [if_pos ⟨rfl, ha⟩, if_pos rfl, if_pos rfl, if_pos ha]
          · rw [if_neg (by omega), if_pos rfl, if_pos rfl, if_neg ha, zero_mul, add_zero]
        · rw [if_neg (by omega), if_neg hb, if_neg hb])
    rw [show j+(N-j) = N by omega] at this
    exact this
  have := up_inv (fun j m => up (fun k m => up (fun i m => (flat s2 N N).set m i j ((flat s2 N N).get m i j + W i k * star (W j k))) (k+1) 0 m) (N-j) j m)
    (fun j s => Rel s2 N N m0 s fun a b => if b < j then ∑ k ∈ Finset.range N, upperMat false W a k * star (upperMat false W b k) else 0) N 0 m
    (h.congr fun a b _ _ => by rw [if_neg (by omega)]) (by
      intro j s _ hj hs
      refine (hcol j s _ (by omega) (fun a => by rw [if_neg (by omega)]) hs).congr ?_
      intro a b _ _
      by_cases hb : b = j
      · rw [if_pos hb, if_pos (by omega), hb]
      · rw [if_neg hb]
        by_cases hb2 : b < j
        · rw [if_pos hb2, if_pos (by omega)]
        · rw [if_neg hb2, if_neg (by omega)])
  exact this.congr fun a b _ hb => by rw [if_pos (by omega)]

theorem qrATA_rel {tiny : ℝ} (ht : 0 < tiny) {M N : Nat} (hNM : N ≤ M) (s2 : Bool) (A : Nat → Nat → K) (ata : Nat → K) :
    RectSpec tiny (matOf M N A) (qrATA tiny s2 M N A ata) fun m' P => smat s2 N N m' = P * Pᴴ ∧ SameOutside (N*N) m' ata := by
  refine rectSpec_of ?_
  unfold qrATA
  dsimp only
  rcases qr_cases ht hNM A with ⟨i, hi, h0, hn⟩ | ⟨hd, hf⟩
  · refine .inl ⟨?_, hn⟩
    rw [invertU_none N _ hi h0]; rfl
  · refine .inr ?_
    obtain ⟨W, eW, hW, fW⟩ := invertU_spec N _ hd
    rw [eW, Option.map_some]
    refine ⟨_, _, rfl, (pinvQR_spec hf hd).1, (pinvQR_spec hf hd).2, ?_⟩
    have h1 := wwh_rel W (zeroAll_rel s2 N N ata)
    refine ⟨?_, h1.2⟩
    rw [h1.smat]
    have h4 : matOf N N (upperMat false W) = (rMat N (doQRD tiny M N A).1)⁻¹ := (Matrix.inv_eq_left_inv (matOf_one hW)).symm
    have h5 : matOf N N (fun i j => ∑ k ∈ Finset.range N, upperMat false W i k * star (upperMat false W j k)) =
        matOf N N (upperMat false W) * (matOf N N (upperMat false W))ᴴ := by
      ext i j
      rw [Matrix.mul_apply]
      refine Eq.trans (Finset.sum_range _) ?_
      rfl
    rw [h5, h4]
    unfold pinvQR
    rw [conjTranspose_mul, conjTranspose_conjTranspose, Matrix.mul_assoc, ← Matrix.mul_assoc (q1 M N _ _)ᴴ, q1_ortho hf, Matrix.one_mul]

/-- **C115** (at least as many rows as columns): `makeInverseATA` gives `(mᴴ m)⁻¹`. -/
theorem inverseATA_tall_partial {tiny : ℝ} (ht : 0 < tiny) (s s2 : Bool) {M N : Nat} (hNM : N ≤ M) (m ata : Nat → K) :
    (∀ m', inverseATA tiny s s2 M N m ata = some m' → smat s2 N N m' * ((smat s M N m)ᴴ * smat s M N m) = 1 ∧ SameOutside (N*N) m' ata) ∧
    (inverseATA tiny s s2 M N m ata = none → NearDef tiny (smat s M N m)) ∧
    (RankDef (smat s M N m) → inverseATA tiny s s2 M N m ata = none) := by
  have e : inverseATA tiny s s2 M N m ata = qrATA tiny s2 M N (loc M (copy M N s false m fun _ => 0)) ata := by
    unfold inverseATA
    rw [if_neg (by omega)]
  rw [e]
  have h := qrATA_rel ht hNM s2 (loc M (copy M N s false m fun _ => 0)) ata
  rw [smat_loc] at h
  refine ⟨fun m' e => ?_, h.2.1, h.2.2⟩
  obtain ⟨P, p1, p2, p3, p4⟩ := h.1 m' e
  refine ⟨?_, p4⟩
  rw [p3, Matrix.mul_assoc, ← Matrix.mul_assoc Pᴴ, ← conjTranspose_mul, p1.ax, ← Matrix.mul_assoc, ← Matrix.mul_assoc, p2, Matrix.one_mul, p2]

/-- **C115 violated** (fewer rows than columns): whatever `makeInverseATA(ata)` of an `M`×`N` matrix with `M < N` computes, it writes only the first
`M*M` of the `N*N` elements of its result. -/
theorem inverseATA_wide_violated {tiny : ℝ} (ht : 0 < tiny) (s s2 : Bool) {M N : Nat} (hMN : M < N) (m ata : Nat → K) :
    ∀ m', inverseATA tiny s s2 M N m ata = some m' → SameOutside (M*M) m' ata := by
  have e : inverseATA tiny s s2 M N m ata = qrATA tiny s2 N M (loc N (copy M N s true m fun _ => 0)) ata := by
    unfold inverseATA
    rw [if_pos hMN]
  rw [e]
  intro m' e'
  obtain ⟨P, _, _, _, p4⟩ := (qrATA_rel ht hMN.le s2 (loc N (copy M N s true m fun _ => 0)) ata).1 m' e'
  exact p4

/-! ### Concrete cases -/

/-- Elements of the 4×4 matrix with rows (0,1,0,0), (1,0,0,0), (2,0,0,1), (0,-2,1,0): the decomposition interchanges rows. -/
def ex4 : Nat → ℝ := fun k => if k = 1 ∨ k = 4 ∨ k = 11 ∨ k = 14 then 1 else if k = 8 then 2 else if k = 13 then -2 else 0

theorem ex4_sq : smat true 4 4 ex4 * smat true 4 4 ex4 = 1 := by
  ext i j
  fin_cases i <;> fin_cases j <;> simp [smat, Matrix.mul_apply, Fin.sum_univ_four, ex4]

theorem ex4_det : (smat true 4 4 ex4).det ≠ 0 := by
  have := congrArg Matrix.det ex4_sq
  rw [det_mul, det_one] at this
  intro h
  rw [h] at this
  simp at this

/-- The hypotheses of the square theorems are met by `ex4`; its inverse, in either storage order, is itself. -/
example (s2 : Bool) (minv : Nat → ℝ) : ∃ m', inverse 1 false true s2 4 4 ex4 minv = some m' ∧ smat s2 4 4 m' = smat true 4 4 ex4 := by
  obtain ⟨m', e, h, _⟩ := (inverse_square 1 false true s2 4 ex4 minv).2 ex4_det
  exact ⟨m', e, h.trans (Matrix.inv_eq_left_inv ex4_sq)⟩

/-- A 4×4 matrix that is refused: two equal rows. -/
example (minv : Nat → ℝ) : inverse 1 false true true 4 4 (fun k => ((k % 4 : ℕ) : ℝ)) minv = none := by
  refine (inverse_square 1 false true true 4 _ minv).1 ?_
  refine Matrix.det_zero_of_row_eq (i := 0) (j := 1) (by decide) ?_
  funext j
  fin_cases j <;> simp [smat]

theorem ones_not_near {n : Nat} : ¬ NearDef (1/10) (smat false (n+1) 1 fun _ => (1 : ℝ)) := by
  rintro ⟨E, hE, x, hx, hx0⟩
  have hx1 : x 0 ≠ 0 := by
    intro h
    refine hx ?_
    funext j
    rw [Subsingleton.elim j 0, h]; rfl
  have hEi : ∀ i, E i 0 = -1 := by
    intro i
    have := congrFun hx0 i
    simp only [Matrix.mulVec, dotProduct, Finset.univ_unique, Finset.sum_singleton, Fin.default_eq_zero, Matrix.add_apply, smat, Matrix.of_apply, Pi.zero_apply, mul_eq_zero, hx1,
      or_false] at this
    linarith
  have := hE 0
  simp only [hEi] at this
  norm_num at this
  have h2 : (0:ℝ) ≤ n := Nat.cast_nonneg n
  linarith

/-- The column (1,1,1): a result is returned, and it is the pseudo-inverse. -/
example (minv : Nat → ℝ) : ∃ m', inverse (1/10) false false false 3 1 (fun _ => 1) minv = some m' ∧
    IsPinv (smat false 3 1 fun _ => (1 : ℝ)) (smat false 1 3 m') := by
  have h := inverse_tall (K := ℝ) (tiny := 1/10) (by norm_num) false false false (M := 3) (N := 1) (by omega) (fun _ => 1) minv
  cases e : inverse (1/10) false false false 3 1 (fun _ => (1:ℝ)) minv with
  | none => exact absurd (h.2.1 e) ones_not_near
  | some m' => exact ⟨m', rfl, (h.1 m' e).1⟩

/-- The column (1,1,1) divided by itself. -/
example (m2 : Nat → ℝ) : ∃ m', lDiv (1/10) false false false false 3 1 1 (fun _ => 1) (fun _ => 1) m2 = some m' ∧ smat false 1 1 m' = 1 := by
  have h := lDiv_tall (K := ℝ) (tiny := 1/10) (by norm_num) false false false false (M := 3) (N := 1) (by omega) 1 (fun _ => 1) (fun _ => 1) m2
  cases e : lDiv (1/10) false false false false 3 1 1 (fun _ => (1:ℝ)) (fun _ => 1) m2 with
  | none => exact absurd (h.2.1 e) ones_not_near
  | some m' =>
    obtain ⟨P, _, p2, p3, _⟩ := h.1 m' e
    exact ⟨m', rfl, p3.trans p2⟩

/-- **C115 violated**, a concrete case: for the row (1,1,1) the routine returns normally and has left 8 of the 9 elements of the result as they were. -/
theorem inverseATA_row_violated (ata : Nat → ℝ) : ∃ m', inverseATA (1/10) true false 1 3 (fun _ => 1) ata = some m' ∧ ∀ k, 1 ≤ k → m' k = ata k := by
  have e0 : inverseATA (1/10) true false 1 3 (fun _ => (1:ℝ)) ata = qrATA (1/10) false 3 1 (loc 3 (copy 1 3 true true (fun _ => 1) fun _ => 0)) ata := by
    unfold inverseATA
    rw [if_pos (by omega)]
  have h := qrATA_rel (K := ℝ) (tiny := 1/10) (by norm_num) (M := 3) (N := 1) (by omega) false (loc 3 (copy 1 3 true true (fun _ => 1) fun _ => 0)) ata
  have e1 : matOf 3 1 (loc 3 (copy 1 3 true true (fun _ => (1:ℝ)) fun _ => 0)) = smat false 3 1 fun _ => (1 : ℝ) := by
    rw [smat_loc_tr]; rfl
  rw [e1] at h
  cases e : inverseATA (1/10) true false 1 3 (fun _ => (1:ℝ)) ata with
  | none => rw [e0] at e; exact absurd (h.2.1 e) ones_not_near
  | some m' =>
    exact ⟨m', rfl, fun k hk => inverseATA_wide_violated (by norm_num) true false (by omega) (fun _ => 1) ata m' e k (by omega)⟩

end
end TMV.SmallDiv
