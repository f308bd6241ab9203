import Verif.Props.TridiagRun
import Verif.Spec.EVal

/-! Reduction to tridiagonal form (C107). -/
namespace TMV.Tridiag
noncomputable section
open Classical Matrix TMV.QR
open Bidiag (Qm Hm emb emb_mul emb_one emb_adj emb_det Qm_unit Qm_zero Qm_succ Qm_congr Qm_det getQ_eq)
variable {K : Type} [RCLike K]
variable {h : Bool} {tiny : ℝ} {n : Nat}

theorem nonLap_done (ht : 0 < tiny) {nb : Nat} (hnb : 0 < nb) (Z : Nat → Nat → K) (s : St K) (hs : h = true → ∀ k, k < n+1 → RCLike.im (s.A k k) = 0) :
    Done h tiny n (symFull h s.A) s.det (nonLap h tiny nb (n+1) Z s) := by
  unfold nonLap
  split
  · exact block_spec ht hnb Z s hs
  · exact nonBlock_spec ht s hs

/-- The columns moved to the right. -/
theorem shift_cols (N : Nat) : ∀ (m : Nat) (U : Nat → Nat → K) (i p : Nat), m < N →
    down (fun j (U : Nat → Nat → K) => fun i p => if p = j + 1 ∧ j + 1 ≤ i ∧ i < N then U i j else U i p) m U i p =
      if 1 ≤ p ∧ p ≤ m ∧ p ≤ i ∧ i < N then U i (p-1) else U i p := by
  intro m
  induction m with
  | zero => intro U i p _; rw [down, if_neg (by omega)]
  | succ m ih =>
    intro U i p hm
    rw [down, ih _ i p (by omega)]
    by_cases h1 : 1 ≤ p ∧ p ≤ m ∧ p ≤ i ∧ i < N
    · rw [if_pos h1, if_neg (by omega), if_pos (by omega)]
    · rw [if_neg h1]
      by_cases h2 : p = m + 1 ∧ m + 1 ≤ i ∧ i < N
      · rw [if_pos h2, if_pos (by omega), h2.1, Nat.add_sub_cancel]
      · rw [if_neg h2, if_neg (by omega)]

/-- `U` is `[[1,0],[0,Q]]`. -/
theorem makeU_eq {qb : Nat} (hqb : 0 < qb) {b : Nat → K} (Z A : Nat → Nat → K)
    (hbz : ∀ k, k < n → b k = 0 → ∀ p, k < p → p < n → rowS A p k = 0) :
    matOf (n+1) (n+1) (makeU qb (n+1) b Z A) = emb (Qm n (rowS A) b n) := by
  set U1 : Nat → Nat → K := fun i p => if i = 0 ∧ 1 ≤ p ∧ p < n+1 then 0 else if p = 0 ∧ i < n+1 then (if i = 0 then 1 else 0) else
    if 1 ≤ p ∧ p ≤ n ∧ p ≤ i ∧ i < n+1 then A i (p-1) else A i p with hU1
  have hmk : makeU qb (n+1) b Z A = fun i p => if 1 ≤ i ∧ 1 ≤ p ∧ i < n+1 ∧ p < n+1 then getQ qb n n b Z (fun a k => U1 (a+1) (k+1)) (i-1) (p-1) else U1 i p := by
    unfold makeU
    rw [Nat.add_sub_cancel]
    simp only [shift_cols (n+1) n A _ _ (by omega)]
    rfl
  set V1 : Nat → Nat → K := fun a k => U1 (a+1) (k+1) with hV1
  have hV : ∀ a k, k < a → a < n → V1 a k = rowS A a k := by
    intro a k h1 h2
    simp only [hV1, hU1]
    rw [if_neg (by omega), if_neg (by omega), if_pos (by omega), rowS, Nat.add_sub_cancel]
  have hb1 : ∀ k, k < n → b k = 0 → ∀ p, k < p → p < n → V1 p k = 0 := fun k hk h0 p h1 h2 => by
    rw [hV p k h1 h2]; exact hbz k hk h0 p h1 h2
  have hq : Qm n V1 b n = Qm n (rowS A) b n := Qm_congr (fun p k h1 h2 h3 => hV p k h2 h3) fun _ _ => rfl
  rw [← hq, hmk]
  ext i p
  show (if 1 ≤ i.1 ∧ 1 ≤ p.1 ∧ i.1 < n+1 ∧ p.1 < n+1 then getQ qb n n b Z V1 (i.1-1) (p.1-1) else U1 i p) = _
  refine Fin.cases ?_ (fun i => ?_) i <;> refine Fin.cases ?_ (fun p => ?_) p
  · simp [emb, hU1]
  · simp [emb, hU1]
  · simp [emb, hU1]
  · rw [if_pos (by simp)]
    have e1 : emb (Qm n V1 b n) i.succ p.succ = Qm n V1 b n i p := by simp [emb]
    rw [e1]
    exact getQ_eq hqb hb1 le_rfl Z i p

theorem ad_eq (h : Bool) {N : Nat} (U : Matrix (Fin N) (Fin N) K) : ad h U = adjOrT h U := by
  cases h
  · rw [ad_false]; rfl
  · rw [ad_true]; rfl

/-- **C107**: for an `N × N` symmetric or Hermitian matrix `A`, `Tridiagonalize` leaves a packed form from which a unitary `U` is made such that
`A = U T U†` (`U Tᵣ Uᵀ` for a symmetric matrix), `T` tridiagonal with the diagonal `D` and the real off-diagonal `E`; `D` is real for a Hermitian matrix.  In the exact
arithmetic of the model this holds up to elements below the underflow threshold, and exactly if no element of `E` is zero.  `signdet` is multiplied by `(det U)²`
for a symmetric matrix and left alone for a Hermitian one. -/
theorem tridiagonalize_spec (ht : 0 < tiny) {nb qb N : Nat} (hnb : 0 < nb) (hqb : 0 < qb) (hN : 0 < N)
    (Z Zu : Nat → Nat → K) (s t : St K) (hs : h = true → ∀ k, k < N → RCLike.im (s.A k k) = 0) (hst : tridiagonalize h tiny nb N Z s = t)
    (U : Nat → Nat → K) (hU : makeU qb N t.b Zu t.A = U) :
    (matOf N N U)ᴴ * matOf N N U = 1 ∧ (h = true → ∀ k, k < N → RCLike.im (t.D k) = 0) ∧
    (∃ F : Matrix (Fin N) (Fin N) K, fro F ≤ 2 * N * Real.sqrt N * tiny ∧ ((∀ k, k + 1 < N → t.E k ≠ 0) → F = 0) ∧
      matOf N N (symFull h s.A) + F = matOf N N U * tridiagK N t.D t.E * adjOrT h (matOf N N U)) ∧
    t.det = if h then s.det else s.det * (matOf N N U).det ^ 2 := by
  obtain ⟨n, rfl⟩ : ∃ n, N = n+1 := ⟨N-1, by omega⟩
  have hI := nonLap_done ht hnb Z { s with det := if h then 0 else 1 } hs
  set r := nonLap h tiny nb (n+1) Z { s with det := if h then 0 else 1 } with hr
  have hst' : t = { r with det := if h then s.det else s.det * r.det } := by
    rw [← hst, tridiagonalize, if_pos hN]
  have hA : t.A = r.A := by rw [hst']
  have hb : t.b = r.b := by rw [hst']
  have hD : t.D = r.D := by rw [hst']
  have hE : t.E = r.E := by rw [hst']
  have hdet : t.det = if h then s.det else s.det * r.det := by rw [hst']
  rw [hA, hb] at hU
  have hUe := makeU_eq hqb Zu r.A hI.inv.bz
  rw [hU] at hUe
  refine ⟨?_, ?_, ?_, ?_⟩
  · rw [hUe, emb_adj, emb_mul, Qm_unit hI.inv.valid, emb_one]
  · intro hh k hk
    have := hI.inv.sym k k hk hk
    rw [tri, if_pos rfl, hh] at this
    rw [hD]
    exact RCLike.conj_eq_iff_im.mp this.symm
  · obtain ⟨F, f1, f2, f3⟩ := hI.inv.ex
    refine ⟨F, f1.trans ?_, fun a => f2 fun k hk => by simpa [← hE] using a k (by omega), ?_⟩
    · have h1 : Real.sqrt n ≤ Real.sqrt ((n+1 : ℕ) : ℝ) := Real.sqrt_le_sqrt (by push_cast; linarith)
      have h2 : (n : ℝ) * Real.sqrt n ≤ n * Real.sqrt ((n+1 : ℕ) : ℝ) := mul_le_mul_of_nonneg_left h1 (Nat.cast_nonneg n)
      have h3 : 0 ≤ Real.sqrt ((n+1 : ℕ) : ℝ) := Real.sqrt_nonneg _
      refine mul_le_mul_of_nonneg_right ?_ ht.le
      have h4 : ((n+1 : ℕ) : ℝ) = n + 1 := by push_cast; ring
      generalize Real.sqrt ((n+1 : ℕ) : ℝ) = q at *
      rw [h4]
      nlinarith
    · rw [hUe, ← ad_eq, hD, hE]
      exact f3
  · rw [hdet]
    split
    · rfl
    · rw [hUe, emb_det, Qm_det le_rfl hI.inv.valid]
      have := hI.det
      simp only [if_neg ‹¬ h = true›, one_mul] at this
      rw [this]
      ring

/-- The hypotheses are met by a complex Hermitian 200 by 200 matrix and the block sizes of the code: the blocked loop is the one taken. -/
example (Z Zu : Nat → Nat → ℂ) (B : Nat → Nat → ℂ) (b D : Nat → ℂ) : ∃ t : St ℂ,
    tridiagonalize true (1/1000) 64 200 Z ⟨fun i j => if i = j then 1 else B i j, b, D, fun _ => 0, 0⟩ = t ∧
    t.A = (block true (1/1000) 64 200 Z ⟨fun i j => if i = j then 1 else B i j, b, D, fun _ => 0, 0⟩).A ∧
    ∃ F : Matrix (Fin 200) (Fin 200) ℂ, fro F ≤ 2 * (200 : ℕ) * Real.sqrt (200 : ℕ) * (1/1000) ∧
      matOf 200 200 (symFull true fun i j => if i = j then 1 else B i j) + F =
        matOf 200 200 (makeU 64 200 t.b Zu t.A) * tridiagK 200 t.D t.E * (matOf 200 200 (makeU 64 200 t.b Zu t.A))ᴴ := by
  refine ⟨_, rfl, by simp only [tridiagonalize, nonLap]; norm_num, ?_⟩
  obtain ⟨-, -, ⟨F, f1, -, f3⟩, -⟩ := tridiagonalize_spec (h := true) (tiny := 1/1000) (by norm_num) (nb := 64) (qb := 64) (N := 200) (by omega) (by omega)
    (by omega) Z Zu ⟨fun i j => if i = j then 1 else B i j, b, D, fun _ => 0, 0⟩ _ (fun _ k _ => by simp) rfl _ rfl
  exact ⟨F, f1, f3⟩

end
end TMV.Tridiag
