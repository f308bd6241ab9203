import Verif.Props.SmallSq
import Verif.Props.SmallQR

/-! The rectangular (QR) branches of inverse and division of a `SmallMatrix` (lemmas for C113-C115). -/
namespace TMV.SmallDiv
set_option linter.unusedSectionVars false
noncomputable section
open Classical Matrix

variable {K : Type} [RCLike K]

/-- The upper triangular factor. -/
def rMat (N : Nat) (V : Nat → Nat → K) : Matrix (Fin N) (Fin N) K := matOf N N (upperMat false V)

theorem qr_good {tiny : ℝ} (ht : 0 < tiny) {M N : Nat} (hNM : N ≤ M) (A : Nat → Nat → K) (hd : ∀ i, i < N → (doQRD tiny M N A).1 i i ≠ 0) :
    QR.Fact M N (doQRD tiny M N A).1 (doQRD tiny M N A).2 A := by
  obtain ⟨E, hE, hf⟩ := (doQRD_spec tiny ht M N hNM A).fact hNM
  refine ⟨hf.le, hf.valid, fun c hc p hp => ?_⟩
  have := hf.col c hc p hp
  simp only [hE.2 c hc (hd c hc), add_zero] at this
  exact this

theorem qr_bad {tiny : ℝ} (ht : 0 < tiny) {M N : Nat} (hNM : N ≤ M) (A : Nat → Nat → K) {i : Nat} (hi : i < N) (h0 : (doQRD tiny M N A).1 i i = 0) :
    NearDef tiny (matOf M N A) := by
  obtain ⟨E, hE, hf⟩ := (doQRD_spec tiny ht M N hNM A).fact hNM
  refine ⟨matOf M N E, fun c => ?_, ?_⟩
  · have := hE.1 c c.2
    rw [Finset.sum_range] at this
    exact this
  · have hdet : (rMat N (doQRD tiny M N A).1).det = 0 := by
      unfold rMat
      rw [Matrix.det_of_isUpperTriangular]
      · refine Finset.prod_eq_zero (Finset.mem_univ (⟨i, hi⟩ : Fin N)) ?_
        change upperMat false _ i i = 0
        simp [upperMat, h0]
      · intro i j hij
        change upperMat false _ i j = 0
        have : j.val < i.val := hij
        simp [upperMat, show ¬ i.val < j.val by omega, show ¬ i.val = j.val by omega]
    obtain ⟨x, hx, hx0⟩ := Matrix.exists_mulVec_eq_zero_iff.mpr hdet
    refine ⟨x, hx, ?_⟩
    have h1 : matOf M N A + matOf M N E = matOf M N fun p c => A p c + E p c := rfl
    rw [h1, ← q1_mul_r hf, ← Matrix.mulVec_mulVec]
    have : matOf N N (upperMat false (doQRD tiny M N A).1) *ᵥ x = 0 := hx0
    rw [this, Matrix.mulVec_zero]

section
variable {M N : Nat} {V : Nat → Nat → K} {β : Nat → K} {B : Nat → Nat → K}

/-- `R⁻¹ Q₁ᴴ`. -/
def pinvQR (M N : Nat) (V : Nat → Nat → K) (β : Nat → K) : Matrix (Fin N) (Fin M) K := (rMat N V)⁻¹ * (q1 M N V β)ᴴ

theorem rMat_inv (h : QR.Fact M N V β B) (hd : ∀ i, i < N → V i i ≠ 0) : (rMat N V)⁻¹ * rMat N V = 1 :=
  Matrix.nonsing_inv_mul _ (r_det hd)

theorem pinvQR_spec (h : QR.Fact M N V β B) (hd : ∀ i, i < N → V i i ≠ 0) :
    IsPinv (matOf M N B) (pinvQR M N V β) ∧ pinvQR M N V β * matOf M N B = 1 := qr_pinv h (rMat_inv h hd)

/-- The first `N` rows of `Qᴴ m`. -/
theorem qLDivEq_mat (hNM : N ≤ M) (nc : Nat) (m : Nat → Nat → K) :
    matOf N nc (qLDivEq elem M N nc V β m) = (q1 M N V β)ᴴ * matOf M nc m := by
  ext a c
  rw [Matrix.mul_apply]
  change qLDivEq elem M N nc V β m a c = _
  rw [qLDivEq_spec M N nc hNM, if_pos c.2, QR.hs_apply V β _ a (by have := a.2; omega), Finset.sum_range]
  rfl

/-- `[Y 0] Qᴴ`. -/
theorem qRDivEq_mat (hNM : N ≤ M) (nr : Nat) (m : Nat → Nat → K) (hz : ∀ a q, a < nr → N ≤ q → q < M → m a q = 0) :
    matOf nr M (qRDivEq elem M N nr V β m) = matOf nr N m * (q1 M N V β)ᴴ := by
  ext a p
  rw [Matrix.mul_apply]
  change qRDivEq elem M N nr V β m a p = _
  rw [qRDivEq_spec M N nr hNM, if_pos a.2, QR.hsA_apply V β _ (fun q h1 h2 => by rw [hz a q a.2 h1 h2, star_zero]) p p.2, star_sum, Finset.sum_range]
  refine Finset.sum_congr rfl fun k _ => ?_
  rw [star_mul', star_star, mul_comm]
  rfl

end

theorem q1_congr {M N : Nat} {V V' : Nat → Nat → K} {β : Nat → K} (h : ∀ p j, j < N → j < p → p < M → V p j = V' p j) : q1 M N V β = q1 M N V' β := by
  unfold q1
  rw [QR.hsA_congr N (fun p j _ h2 h3 h4 => h p j (by omega) h3 h4) (fun _ _ _ => rfl)]

/-- What is known in the end about an attempt to use the pseudo-inverse of `A`. -/
def RectSpec (tiny : ℝ) {M N : Nat} (A : Matrix (Fin M) (Fin N) K) (res : Option (Nat → K)) (good : (Nat → K) → Matrix (Fin N) (Fin M) K → Prop) : Prop :=
  (∀ m', res = some m' → ∃ P, IsPinv A P ∧ P * A = 1 ∧ good m' P) ∧ (res = none → NearDef tiny A) ∧ (RankDef A → res = none)

theorem rectSpec_of {tiny : ℝ} {M N : Nat} {A : Matrix (Fin M) (Fin N) K} {res : Option (Nat → K)} {good : (Nat → K) → Matrix (Fin N) (Fin M) K → Prop}
    (h : (res = none ∧ NearDef tiny A) ∨ ∃ m' P, res = some m' ∧ IsPinv A P ∧ P * A = 1 ∧ good m' P) : RectSpec tiny A res good := by
  rcases h with ⟨h1, h2⟩ | ⟨m', P, h1, h2, h3, h4⟩
  · exact ⟨fun m' e => by rw [h1] at e; simp at e, fun _ => h2, fun _ => h1⟩
  · refine ⟨fun m'' e => ?_, fun e => by rw [h1] at e; simp at e, fun ⟨x, hx, hx0⟩ => ?_⟩
    · rw [h1] at e
      obtain rfl := Option.some.inj e
      exact ⟨P, h2, h3, h4⟩
    · exact absurd (by rw [← Matrix.one_mulVec x, ← h3, ← Matrix.mulVec_mulVec, hx0, Matrix.mulVec_zero]) hx

section
variable {tiny : ℝ} (ht : 0 < tiny) {M N : Nat} (hNM : N ≤ M)
include ht hNM

theorem qr_cases (A : Nat → Nat → K) : (∃ i, i < N ∧ (doQRD tiny M N A).1 i i = 0 ∧ NearDef tiny (matOf M N A)) ∨
    ((∀ i, i < N → (doQRD tiny M N A).1 i i ≠ 0) ∧ QR.Fact M N (doQRD tiny M N A).1 (doQRD tiny M N A).2 A) := by
  by_cases hd : ∀ i, i < N → (doQRD tiny M N A).1 i i ≠ 0
  · exact .inr ⟨hd, qr_good ht hNM A hd⟩
  · push Not at hd
    obtain ⟨i, hi, h0⟩ := hd
    exact .inl ⟨i, hi, h0, qr_bad ht hNM A hi h0⟩

theorem qrInv_rel (s2 : Bool) (A : Nat → Nat → K) (minv : Nat → K) :
    RectSpec tiny (matOf M N A) (qrInv tiny s2 M N A minv) fun m' P => smat s2 N M m' = P ∧ SameOutside (N*M) m' minv := by
  refine rectSpec_of ?_
  unfold qrInv
  dsimp only
  rcases qr_cases ht hNM A with ⟨i, hi, h0, hn⟩ | ⟨hd, hf⟩
  · refine .inl ⟨?_, hn⟩
    rw [invertU_none N _ hi h0]; rfl
  · refine .inr ?_
    obtain ⟨W, eW, hW, fW⟩ := invertU_spec N _ hd
    rw [eW, Option.map_some]
    refine ⟨_, _, rfl, (pinvQR_spec hf hd).1, (pinvQR_spec hf hd).2, ?_⟩
    have hz := zeroAll_rel s2 N M minv
    rw [show N*M = M*N from Nat.mul_comm _ _] at hz
    have h1 : Rel s2 N M minv (up (fun j m => up (fun i m => (flat s2 N M).set m i j (W i j)) (j+1) 0 m) N 0 (zeroAll (M*N) minv))
        fun a b => if a ≤ b ∧ b < N then W a b else 0 := by
      have := up_inv (fun j m => up (fun i m => (flat s2 N M).set m i j (W i j)) (j+1) 0 m)
        (fun j s => Rel s2 N M minv s fun a b => if a ≤ b ∧ b < j then W a b else 0) N 0 (zeroAll (M*N) minv) (hz.congr fun a b _ _ => by rw [if_neg (by omega)]) (by
          intro j s _ hj hs
          have := up_inv (fun i m => (flat s2 N M).set m i j (W i j))
            (fun i s => Rel s2 N M minv s fun a b => if (a ≤ b ∧ b < j) ∨ (b = j ∧ a < i) then W a b else 0) (j+1) 0 s
            (hs.congr fun a b _ _ => by
              by_cases h : a ≤ b ∧ b < j
              · rw [if_pos h, if_pos (by omega)]
              · rw [if_neg h, if_neg (by omega)]) (by
              intro i s _ hi hs
              refine (hs.set (i := i) (j := j) (by omega) (by omega) rfl).congr ?_
              intro a b _ _
              simp only [elem, setE]
              by_cases h : a = i ∧ b = j
              · rw [if_pos h, if_pos (by omega), h.1, h.2]
              · rw [if_neg h]
                by_cases h2 : a ≤ b ∧ b < j ∨ b = j ∧ a < i
                · rw [if_pos h2, if_pos (by omega)]
                · rw [if_neg h2, if_neg (by omega)])
          refine this.congr fun a b _ _ => ?_
          by_cases h : a ≤ b ∧ b < j + 1
          · rw [if_pos h, if_pos (by omega)]
          · rw [if_neg h, if_neg (by omega)])
      exact this.congr fun a b _ _ => by rw [Nat.zero_add]
    have h2 := qRDivEq_rel hNM W (doQRD tiny M N A).2 h1
    refine ⟨?_, h2.2⟩
    rw [h2.smat, qRDivEq_mat hNM N _ (fun a q _ h3 _ => by rw [if_neg (by omega)]), q1_congr (V' := (doQRD tiny M N A).1) (fun p j h3 h4 h5 => fW p j (by omega))]
    have h3 : matOf N N (fun a b => if a ≤ b ∧ b < N then W a b else 0) = matOf N N (upperMat false W) := matOf_congr fun a b ha hb => by
      unfold upperMat
      by_cases h : a ≤ b
      · rw [if_pos ⟨h, hb⟩]
        by_cases h4 : a < b
        · rw [if_pos h4]
        · have : a = b := by omega
          subst this; simp
      · rw [if_neg (by omega), if_neg (by omega), if_neg (by omega)]
    have h4 : matOf N N (upperMat false W) = (rMat N (doQRD tiny M N A).1)⁻¹ := (Matrix.inv_eq_left_inv (matOf_one hW)).symm
    rw [h3, h4]; rfl

theorem qrLDiv_rel (s1 s2 : Bool) (nc : Nat) (A : Nat → Nat → K) (m1 m2 : Nat → K) :
    RectSpec tiny (matOf M N A) (qrLDiv tiny s1 s2 M N nc A m1 m2) fun m' P => smat s2 N nc m' = P * smat s1 M nc m1 ∧ SameOutside (N*nc) m' m2 := by
  refine rectSpec_of ?_
  unfold qrLDiv
  dsimp only
  rcases qr_cases ht hNM A with ⟨i, hi, h0, hn⟩ | ⟨hd, hf⟩
  · exact .inl ⟨lDivEqU_none _ _ _ _ _ hi h0, hn⟩
  · refine .inr ?_
    have h1 := qLDivEq_rel hNM (doQRD tiny M N A).1 (doQRD tiny M N A).2 (copy_rel M nc s1 true m1 fun _ => 0)
    have h2 := copy_rel N nc true s2 (qLDivEq (flat true M nc) M N nc (doQRD tiny M N A).1 (doQRD tiny M N A).2 (copy M nc s1 true m1 fun _ => 0)) m2
    have h3 := h2.congr (B := qLDivEq elem M N nc (doQRD tiny M N A).1 (doQRD tiny M N A).2 fun i j => m1 (idx s1 M nc i j)) fun i j hi hj => h1.1 i j (by omega) hj
    have h4 := lDivEqU_rel (doQRD tiny M N A).1 h3
    obtain ⟨X, eX, sX⟩ := lDivEqU_spec N nc (doQRD tiny M N A).1 (qLDivEq elem M N nc (doQRD tiny M N A).1 (doQRD tiny M N A).2 fun i j => m1 (idx s1 M nc i j)) hd
    rw [eX] at h4
    obtain ⟨m', e', h'⟩ := h4.some_right
    refine ⟨m', _, e', (pinvQR_spec hf hd).1, (pinvQR_spec hf hd).2, ?_, h'.2⟩
    have hU : rMat N (doQRD tiny M N A).1 * matOf N nc X = _ := matOf_mul sX.1
    rw [qLDivEq_mat hNM] at hU
    rw [h'.smat, ← Matrix.one_mul (matOf N nc X), ← rMat_inv hf hd, Matrix.mul_assoc, hU, ← Matrix.mul_assoc]
    rfl

theorem qrRDiv_rel (s1 s2 : Bool) (nr : Nat) (A : Nat → Nat → K) (m1 m2 : Nat → K) :
    RectSpec tiny (matOf M N A) (qrRDiv tiny s1 s2 M N nr A m1 m2) fun m' P => smat s2 nr M m' = smat s1 nr N m1 * P ∧ SameOutside (nr*M) m' m2 := by
  refine rectSpec_of ?_
  unfold qrRDiv
  dsimp only
  rcases qr_cases ht hNM A with ⟨i, hi, h0, hn⟩ | ⟨hd, hf⟩
  · refine .inl ⟨?_, hn⟩
    rw [rDivEqU_none _ _ _ _ _ hi h0]; rfl
  · refine .inr ?_
    have hz := zeroAll_rel s2 nr M m2
    have h1 : Rel s2 nr M m2 (if s2 = false then copy nr N s1 s2 m1 (zeroAll (nr*M) m2)
        else up (fun i m => up (fun j m => (flat s2 nr M).set m i j ((flat s1 nr N).get m1 i j)) N 0 m) nr 0 (zeroAll (nr*M) m2))
        fun i j => if j < N then m1 (idx s1 nr N i j) else 0 := by
      cases s2
      · rw [if_pos rfl]
        have hc := copy_rel nr N s1 false m1 (zeroAll (nr*M) m2)
        refine ⟨fun i j hi hj => ?_, fun k hk => ?_⟩
        · dsimp only
          by_cases h : j < N
          · rw [if_pos h]; exact hc.1 i j hi h
          · rw [if_neg h]
            have : nr * N ≤ idx false nr M i j := by
              simp only [idx, Bool.false_eq_true, if_false]
              nlinarith
            rw [hc.2 _ this]; exact hz.1 i j hi hj
        · have : nr * N ≤ k := le_trans (Nat.mul_le_mul_left nr hNM) hk
          rw [hc.2 k this, hz.2 k hk]
      · rw [if_neg (by simp)]
        refine (store_rel le_rfl hNM (fun i j => (flat s1 nr N).get m1 i j) hz).congr fun i j hi hj => ?_
        by_cases h : j < N
        · rw [if_pos ⟨hi, h⟩, if_pos h]; rfl
        · rw [if_neg (by omega), if_neg h]
    have h2 := rDivEqU_rel hNM (doQRD tiny M N A).1 h1
    obtain ⟨X, eX, sX⟩ := rDivEqU_spec N nr (doQRD tiny M N A).1 (fun i j => if j < N then m1 (idx s1 nr N i j) else 0) hd
    rw [eX] at h2
    obtain ⟨m', e', h'⟩ := h2.some_right
    rw [e', Option.map_some]
    have h3 := qRDivEq_rel hNM (doQRD tiny M N A).1 (doQRD tiny M N A).2 h'
    refine ⟨_, _, rfl, (pinvQR_spec hf hd).1, (pinvQR_spec hf hd).2, ?_, h3.2⟩
    rw [h3.smat, qRDivEq_mat hNM nr _ (fun a q _ h4 _ => by rw [sX.2 a q (by omega)]; exact if_neg (by omega))]
    have hU : matOf nr N X * rMat N (doQRD tiny M N A).1 = _ := matOf_mul sX.1
    have hB : matOf nr N (fun i j => if j < N then m1 (idx s1 nr N i j) else 0) = smat s1 nr N m1 := by
      rw [smat_idx]; exact matOf_congr fun i j _ hj => if_pos hj
    rw [hB] at hU
    unfold pinvQR
    rw [← Matrix.mul_assoc, ← hU, Matrix.mul_assoc (matOf nr N X), mul_eq_one_comm.mp (rMat_inv hf hd), Matrix.mul_one]

end

end
end TMV.SmallDiv
