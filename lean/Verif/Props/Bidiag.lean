import Verif.Props.BidiagRun
import Verif.Props.QRDiv

/-! Reduction to bidiagonal form (C102). -/
namespace TMV.Bidiag
noncomputable section
open Classical Matrix TMV.QR
variable {K : Type} [RCLike K]

theorem bidiagonalize_done {tiny : ℝ} (ht : 0 < tiny) {nb M n : Nat} (hnb : 0 < nb) (hM : n < M) (Z W : Nat → Nat → K) (s : St K) :
    Done tiny M n s.A s.det (bidiagonalize tiny nb M (n+1) Z W s) := by
  unfold bidiagonalize
  rw [if_pos (by omega)]
  split
  · exact block_spec ht hnb hM Z W s
  · exact nonBlock_spec ht hM s

section
variable {M n qb : Nat} (hqb : 0 < qb) {V : Nat → Nat → K} {β : Nat → K} (hv : ∀ k, k < n → Valid M V k (β k))
  (hbz : ∀ k, k < n → β k = 0 → ∀ p, k < p → p < M → V p k = 0) (hM : n ≤ M) (Z : Nat → Nat → K)
include hqb hbz hM

theorem getQ_eq (i : Fin M) (k : Fin n) : matOf M n (getQ qb M n β Z V) i k = Qm M V β n i (Fin.castLE hM k) :=
  getQ_col hqb hM V β hbz Z k.2 i.2

include hv in
/-- The columns of `Q` are orthonormal. -/
theorem getQ_orth : (matOf M n (getQ qb M n β Z V))ᴴ * matOf M n (getQ qb M n β Z V) = 1 := by
  have h := Qm_unit hv
  ext k l
  have := congrFun (congrFun h (Fin.castLE hM k)) (Fin.castLE hM l)
  rw [Matrix.mul_apply, Matrix.one_apply] at this ⊢
  simp only [conjTranspose_apply] at this ⊢
  simp only [getQ_eq hqb hbz hM Z]
  rw [this]
  simp only [Fin.ext_iff, Fin.val_castLE]

theorem getQ_mul {N : Nat} (X : Nat → Nat → K) (hX : ∀ q p, n ≤ q → q < M → p < N → X q p = 0) :
    Qm M V β n * matOf M N X = matOf M n (getQ qb M n β Z V) * matOf n N X := by
  ext i p
  rw [Qm_mul, hsA_apply V β _ (fun q h1 h2 => hX q p h1 h2 p.2) i i.2, Matrix.mul_apply,
    ← Fin.sum_univ_eq_sum_range (fun k => hsA M V β 0 n (ev k) i * X k p) n]
  refine Finset.sum_congr rfl fun k _ => ?_
  rw [getQ_eq hqb hbz hM Z]
  rfl

end

theorem Qm_det {M n : Nat} (hn : n ≤ M) {V : Nat → Nat → K} {β : Nat → K} (hv : ∀ k, k < n → Valid M V k (β k)) :
    (Qm M V β n).det = ∏ k ∈ Finset.range n, dfac (β k) :=
  toM_hsA_det M V β n hn fun j _ h => hv j (by omega)

/-- `Vt` is the transpose of `[[1,0],[0,Q']]`. -/
theorem makeVt_eq {n qb : Nat} (hqb : 0 < qb) {vb : Nat → K} (Z A Vt0 : Nat → Nat → K)
    (hbz : ∀ k, k < n → vb k = 0 → ∀ p, k < p → p < n → rowT A p k = 0) :
    matOf (n+1) (n+1) (makeVt qb (n+1) vb Z A Vt0) = (emb (Qm n (rowT A) vb n))ᵀ := by
  set V1 : Nat → Nat → K := fun a k => if 0 = 0 ∧ 1 ≤ k+1 ∧ k+1 < n+1 ∧ a+1 < n+1 then A (k+1-1) (a+1) else
    if k+1 = 0 ∧ a+1 < n+1 then (if a+1 = 0 then 1 else 0) else Vt0 (k+1) (a+1) with hV1
  have hV : ∀ a k, a < n → k < n → V1 a k = rowT A a k := by
    intro a k ha hk
    rw [hV1]
    beta_reduce
    rw [if_pos (by omega)]
    rfl
  have hb1 : ∀ k, k < n → vb k = 0 → ∀ p, k < p → p < n → V1 p k = 0 := fun k hk h0 p h1 h2 => by
    rw [hV p k h2 hk]; exact hbz k hk h0 p h1 h2
  have hq : Qm n V1 vb n = Qm n (rowT A) vb n := Qm_congr (fun p k h1 h2 h3 => hV p k h3 h1) fun _ _ => rfl
  rw [← hq]
  ext i p
  rw [transpose_apply]
  show makeVt qb (n+1) vb Z A Vt0 i p = _
  unfold makeVt
  rw [Nat.add_sub_cancel]
  dsimp only
  refine Fin.cases ?_ (fun i => ?_) i <;> refine Fin.cases ?_ (fun p => ?_) p
  · simp [emb]
  · simp [emb]
  · simp [emb]
  · rw [if_pos (by simp)]
    have e1 : emb (Qm n V1 vb n) p.succ i.succ = Qm n V1 vb n p i := by simp [emb]
    rw [e1]
    refine Eq.trans ?_ (show getQ qb n n vb Z V1 p i = Qm n V1 vb n p i from getQ_eq hqb hb1 le_rfl Z p i)
    show getQ qb n n vb Z _ (p.1+1-1) (i.1+1-1) = getQ qb n n vb Z V1 p i
    rw [Nat.add_sub_cancel, Nat.add_sub_cancel]
    congr 1
    funext a k
    rw [hV1]
    dsimp only
    rw [if_neg (by omega)]
    simp

/-- **C102**: for an `M × N` matrix with `M ≥ N > 0`, `Bidiagonalize` leaves a packed form from which `SV_Decompose` makes `U` with orthonormal
columns and a unitary `Vt` such that `A = U B Vt`, `B` upper bidiagonal with the real diagonal `D` and superdiagonal `E`.  In the exact arithmetic
of the model this holds up to elements below the underflow threshold, and exactly if no element of `D` or `E` is zero; and if `A` is square,
`signdet` has been multiplied by `det U · det Vt`. -/
theorem bidiagonalize_spec {tiny : ℝ} (ht : 0 < tiny) {nb qb M N : Nat} (hnb : 0 < nb) (hqb : 0 < qb) (hN : 0 < N) (hM : N ≤ M)
    (Z W Zu Zv Vt0 : Nat → Nat → K) (s t : St K) (hs : bidiagonalize tiny nb M N Z W s = t) (U Vt : Nat → Nat → K)
    (hU : getQ qb M N t.ub Zu t.A = U) (hVt : makeVt qb N t.vb Zv t.A Vt0 = Vt) :
    (matOf M N U)ᴴ * matOf M N U = 1 ∧ (matOf N N Vt)ᴴ * matOf N N Vt = 1 ∧
    (∃ F : Matrix (Fin M) (Fin N) K, fro F ≤ 2 * N * Real.sqrt M * tiny ∧
      ((∀ k, k < N → t.D k ≠ 0) → (∀ k, k + 1 < N → t.E k ≠ 0) → F = 0) ∧
      matOf M N s.A + F = matOf M N U * bidiag N t.D t.E * matOf N N Vt) ∧
    (M = N → t.det = s.det * ((matOf N N U).det * (matOf N N Vt).det)) := by
  obtain ⟨n, rfl⟩ : ∃ n, N = n+1 := ⟨N-1, by omega⟩
  have h := bidiagonalize_done ht hnb (M := M) (n := n) (by omega) Z W s
  rw [hs] at h
  have hu1 := getQ_orth hqb h.inv.valid h.inv.bz hM Zu
  have hVt' := makeVt_eq hqb Zv t.A Vt0 h.inv.bz'
  rw [hU] at hu1
  rw [hVt] at hVt'
  have hq' := Qm_unit h.inv.valid'
  have hunit : (emb (Qm n (rowT t.A) t.vb n))ᴴ * emb (Qm n (rowT t.A) t.vb n) = 1 := by rw [emb_adj, emb_mul, hq', emb_one]
  refine ⟨hu1, ?_, ?_, ?_⟩
  · have h1 : emb (Qm n (rowT t.A) t.vb n) * (emb (Qm n (rowT t.A) t.vb n))ᴴ = 1 := mul_eq_one_comm.mp hunit
    have h2 := congrArg transpose h1
    rw [transpose_mul, transpose_one] at h2
    rw [hVt']
    exact h2
  · obtain ⟨F, f1, f2, f3⟩ := h.inv.ex
    refine ⟨F, f1.trans ?_, fun a b => f2 (fun k hk => by simpa using a k hk) (fun k hk => by simpa using b k (by omega)), ?_⟩
    · have h1 : Real.sqrt n ≤ Real.sqrt M := Real.sqrt_le_sqrt (by exact_mod_cast (by omega : n ≤ M))
      have h2 : (n : ℝ) * Real.sqrt n ≤ n * Real.sqrt M := mul_le_mul_of_nonneg_left h1 (Nat.cast_nonneg n)
      have h3 : 0 ≤ Real.sqrt M := Real.sqrt_nonneg _
      refine mul_le_mul_of_nonneg_right ?_ ht.le
      push_cast
      nlinarith
    · rw [f3, getQ_mul hqb h.inv.bz hM Zu, hU, hVt']
      · rfl
      · intro q p h1 h2 h3
        exact bi_zero (by omega) (by omega)
  · rintro rfl
    have e1 : (matOf (n+1) (n+1) U).det = ∏ k ∈ Finset.range (n+1), dfac (t.ub k) := by
      rw [← Qm_det le_rfl h.inv.valid, ← hU]
      congr 1
      ext i k
      exact getQ_eq hqb h.inv.bz le_rfl Zu i k
    rw [e1, hVt', det_transpose, emb_det, Qm_det le_rfl h.inv.valid', h.det]

/-- The hypotheses are met by a 100 by 70 matrix and the block sizes of the code: the blocked loop is the one taken. -/
example (Z W Zu Zv Vt0 A : Nat → Nat → ℂ) (b : Nat → ℂ) : ∃ t : St ℂ,
    bidiagonalize (1/1000) 16 100 70 Z W ⟨A, b, b, fun _ => 0, fun _ => 0, 1⟩ = t ∧
    t = block (1/1000) 16 100 70 Z W ⟨A, b, b, fun _ => 0, fun _ => 0, 1⟩ ∧
    ∃ F : Matrix (Fin 100) (Fin 70) ℂ, fro F ≤ 2 * (70 : ℕ) * Real.sqrt (100 : ℕ) * (1/1000) ∧
      matOf 100 70 A + F = matOf 100 70 (getQ 64 100 70 t.ub Zu t.A) * bidiag 70 t.D t.E * matOf 70 70 (makeVt 64 70 t.vb Zv t.A Vt0) := by
  refine ⟨_, rfl, by rw [bidiagonalize, if_pos (by omega), if_pos (by omega)], ?_⟩
  obtain ⟨-, -, ⟨F, f1, -, f3⟩, -⟩ := bidiagonalize_spec (tiny := 1/1000) (by norm_num) (nb := 16) (qb := 64) (M := 100) (N := 70) (by omega) (by omega)
    (by omega) (by omega) Z W Zu Zv Vt0 ⟨A, b, b, fun _ => 0, fun _ => 0, 1⟩ _ rfl _ _ rfl rfl
  exact ⟨F, f1, f3⟩

end
end TMV.Bidiag
