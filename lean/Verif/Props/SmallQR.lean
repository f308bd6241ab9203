import Verif.Props.SmallElem
import Verif.Lemmas.Pinv

/-! `DoQRD`, `Q_LDivEq`, `Q_RDivEq` (lemmas for C112-C114). -/
namespace TMV.SmallDiv
noncomputable section
open Classical Matrix

variable {K : Type} [RCLike K]

theorem up_sum (f : Nat → K) (n lo : Nat) (t : K) : up (fun i t => t + f i) n lo t = t + ∑ i ∈ Finset.Ico lo (lo+n), f i := by
  have := up_inv (fun i t => t + f i) (fun i s => s = t + ∑ k ∈ Finset.Ico lo i, f k) n lo t (by simp) (by
    intro i s h1 h2 hs
    rw [hs, Finset.sum_Ico_succ_top h1]; ring)
  exact this

/-- One column of a reflection is what `QR.lmult` does to it. -/
theorem hlCol_eq (M j : Nat) (hj : j < M) (Q : Nat → Nat → K) (b : K) (k : Nat) (m : Nat → Nat → K) :
    hlCol elem M j Q b k m = fun a c => if c = k then QR.H M Q j b (fun p => m p k) a else m a c := by
  have hb : ∀ a, QR.H M Q j b (fun p => m p k) a = if a = j then m j k - ((∑ p ∈ Finset.Ico (j+1) M, star (Q p j) * m p k) + m j k) * b
      else if j < a ∧ a < M then m a k - Q a j * (((∑ p ∈ Finset.Ico (j+1) M, star (Q p j) * m p k) + m j k) * b) else m a k := by
    intro a
    have h1 := QR.lmult_eq M j k (k+1) Q b m hj a k
    rw [if_pos (by omega)] at h1
    rw [← h1, QR.lmult, if_neg (by omega)]
    by_cases hb : b = 0
    · rw [if_neg (by simpa using hb), hb]
      split_ifs with h2 h3 <;> simp [*]
    · rw [if_pos hb]
      dsimp only
      rw [if_pos (by omega)]
      by_cases h2 : a = j
      · rw [if_pos h2, if_pos h2, h2]
      · rw [if_neg h2, if_neg h2]
  unfold hlCol
  simp only [elem]
  rw [up_sum, zero_add, show j+1+(M-(j+1)) = M by omega]
  obtain ⟨t, ht⟩ : ∃ t, ((∑ p ∈ Finset.Ico (j+1) M, star (Q p j) * m p k) + m j k) * b = t := ⟨_, rfl⟩
  simp only [ht] at hb ⊢
  rw [up_key (fun a _ => a)]
  · funext a c
    simp only [hb, setE]
    grind
  · intro i A h1 h2 hA a b
    have e1 := hA i k (by omega)
    have e3 := hA a b
    simp only [setE] at e1 e3 ⊢
    grind

theorem H_colcongr {M j : Nat} {V V' : Nat → Nat → K} (h : ∀ p, V p j = V' p j) (b : K) (x : Nat → K) : QR.H M V j b x = QR.H M V' j b x := by
  have : QR.hv M V j = QR.hv M V' j := by
    funext p
    simp only [QR.hv, h]
  unfold QR.H
  rw [this]

/-- The update of the other columns in `DoQRD` (the reflector sits in the same matrix). -/
theorem qrd_cols (M N j : Nat) (hj : j < M) (hN : j < N) (b : K) (Q : Nat → Nat → K) :
    up (fun k Q => hlCol elem M j Q b k Q) (N-(j+1)) (j+1) Q =
    fun a c => if j+1 ≤ c ∧ c < N then QR.H M Q j b (fun p => Q p c) a else Q a c := by
  simp only [hlCol_eq M j hj]
  rw [up_key (fun _ c => c)]
  · funext a c
    rw [show j+1+(N-(j+1)) = N by omega]
    by_cases h : j+1 ≤ c ∧ c < N
    · rw [if_pos h, if_pos h, if_pos rfl]
    · rw [if_neg h, if_neg h]
  · intro i A h1 h2 hA a c
    by_cases hc : c = i
    · subst hc
      rw [if_pos rfl, if_pos rfl, if_pos rfl, H_colcongr (V := A) (V' := Q) (fun p => hA p j (by omega))]
      rw [show (fun p => A p c) = fun p => Q p c from funext fun p => hA p c (by omega)]
    · rw [if_neg hc, if_neg hc]

theorem doQRD_step (tiny : ℝ) (M N j : Nat) (hj : j < M) (hN : j < N) (A : Nat → Nat → K) (β : Nat → K) :
    (let r := QR.reflectCol tiny M j A 0
    let Q := r.1
    let beta := Function.update β j r.2.1
    (if beta j ≠ 0 ∧ j < N-1 then up (fun k Q => hlCol elem M j Q (beta j) k Q) (N-(j+1)) (j+1) Q else Q, beta)) =
    ((QR.reflectMat tiny M N j A 0).1, Function.update β j (QR.reflectMat tiny M N j A 0).2.1) := by
  unfold QR.reflectMat
  generalize QR.reflectCol tiny M j A 0 = r
  obtain ⟨Q, b, d⟩ := r
  dsimp only
  rw [Function.update_self, Prod.mk.injEq]
  refine ⟨?_, rfl⟩
  by_cases hb : b ≠ 0
  · rw [if_pos hb]
    have hl : QR.lmult M j (j+1) N Q b Q = fun a c => if j+1 ≤ c ∧ c < N then QR.H M Q j b (fun p => Q p c) a else Q a c := by
      funext a c; rw [QR.lmult_eq _ _ _ _ _ _ _ hj]
    rw [hl]
    by_cases hjN : j < N-1
    · rw [if_pos ⟨hb, hjN⟩, qrd_cols M N j hj hN]
    · rw [if_neg (by tauto)]
      funext a c
      rw [if_neg (by omega)]
  · rw [if_neg (by tauto), if_neg hb]

theorem doQRD_spec (tiny : ℝ) (ht : 0 < tiny) (M N : Nat) (hNM : N ≤ M) (A : Nat → Nat → K) :
    QR.QRSpec tiny M 0 N N A (doQRD tiny M N A).1 (doQRD tiny M N A).2 := by
  unfold doQRD
  have := up_inv (fun j (s : (Nat → Nat → K) × (Nat → K)) =>
    let r := QR.reflectCol tiny M j s.1 0
    let Q := r.1
    let beta := Function.update s.2 j r.2.1
    (if beta j ≠ 0 ∧ j < N-1 then up (fun k Q => hlCol elem M j Q (beta j) k Q) (N-(j+1)) (j+1) Q else Q, beta))
    (fun j s => QR.QRSpec tiny M 0 j N A s.1 s.2) N 0 (A, fun _ => 0) (QR.QRSpec.zero _ _ _ _ _ _) (by
      intro j s _ hj hs
      rw [doQRD_step tiny M N j (by omega) (by omega)]
      dsimp only
      have h1 := (QR.reflectMat_spec tiny ht M N j (by omega) (by omega) s.1 0
        (Function.update s.2 j (QR.reflectMat tiny M N j s.1 0).2.1) (Function.update_self _ _ _)).1
      have h0 : QR.QRSpec tiny M 0 j N A s.1 (Function.update s.2 j (QR.reflectMat tiny M N j s.1 0).2.1) :=
        hs.congr fun i _ hi => by rw [Function.update_of_ne (by omega)]
      rw [show j = 0 + j by omega] at h1
      simp only [Nat.zero_add] at h1
      have := h0.comp (m := 1) (by simpa using h1) (by omega)
      simpa using this)
  rw [Nat.zero_add] at this
  exact this

theorem qLDivEq_spec (M N nc : Nat) (hNM : N ≤ M) (Q : Nat → Nat → K) (β : Nat → K) (m : Nat → Nat → K) (a c : Nat) :
    qLDivEq elem M N nc Q β m a c = if c < nc then QR.hs M Q β 0 N (fun p => m p c) a else m a c := by
  unfold qLDivEq
  have := up_inv (fun j m => if β j ≠ 0 then up (fun k m => hlCol elem M j Q (β j) k m) nc 0 m else m)
    (fun j A => ∀ a c, A a c = if c < nc then QR.hs M Q β 0 j (fun p => m p c) a else m a c) N 0 m
    (by intro a c; simp [QR.hs]) (by
      intro j A _ hj hA a c
      have hstep : (if β j ≠ 0 then up (fun k m => hlCol elem M j Q (β j) k m) nc 0 A else A) a c =
          if c < nc then QR.H M Q j (β j) (fun p => A p c) a else A a c := by
        by_cases hb : β j ≠ 0
        · rw [if_pos hb]
          simp only [hlCol_eq M j (by omega)]
          rw [up_key (fun _ c => c)]
          · dsimp only
            by_cases hc : c < nc
            · rw [if_pos (by omega), if_pos hc, if_pos rfl]
            · rw [if_neg (by omega), if_neg hc]
          · intro i B h1 h2 hB a c
            by_cases hc : c = i
            · subst hc
              rw [if_pos rfl, if_pos rfl, if_pos rfl]
              rw [show (fun p => B p c) = fun p => A p c from funext fun p => hB p c (by omega)]
            · rw [if_neg hc, if_neg hc]
        · rw [if_neg hb]
          rw [not_not] at hb
          rw [hb]; simp [QR.H]
      rw [hstep]
      by_cases hc : c < nc
      · rw [if_pos hc, if_pos hc, QR.hs, Nat.zero_add]
        congr 1
        funext p
        rw [hA, if_pos hc]
      · rw [if_neg hc, if_neg hc, hA, if_neg hc])
  rw [Nat.zero_add] at this
  exact this a c

theorem hrRow_eq (M j : Nat) (Q : Nat → Nat → K) (b : K) (k : Nat) (m : Nat → Nat → K) :
    hrRow elem M j Q b k m = QR.trM (hlCol elem M j (QR.conjM Q) b k (QR.trM m)) := by
  unfold hrRow hlCol
  simp only [elem, QR.conjM, star_star, QR.trM]
  have h : ∀ (t : K) (n lo : Nat) (A B : Nat → Nat → K), (∀ a c, A a c = B c a) → ∀ a c,
      up (fun i m => setE m k i (m k i - star (Q i j) * t)) n lo A a c =
      up (fun i m => setE m i k (m i k - star (Q i j) * t)) n lo B c a := by
    intro t n
    induction n with
    | zero => intro lo A B h a c; exact h a c
    | succ n ih =>
      intro lo A B h a c
      rw [up, up]
      refine ih _ _ _ (fun a c => ?_) a c
      simp only [setE, h]
      grind
  funext a c
  refine h _ _ _ _ _ (fun a c => ?_) a c
  simp only [setE, QR.trM]
  grind

theorem qRDivEq_eq (M nr : Nat) (Q : Nat → Nat → K) (β : Nat → K) : ∀ (N : Nat) (_ : N ≤ M) (m : Nat → Nat → K),
    qRDivEq elem M N nr Q β m = QR.qRDivLoop M nr Q β N m := by
  intro N
  induction N with
  | zero => intro _ m; rfl
  | succ n ih =>
    intro hn m
    rw [qRDivEq, down, QR.qRDivLoop, ← ih (by omega), qRDivEq]
    congr 1
    by_cases hb : β n ≠ 0
    · rw [if_pos hb, if_pos hb]
      simp only [hrRow_eq, hlCol_eq M n (show n < M by omega)]
      rw [up_key (fun a _ => a)]
      · funext a c
        refine Eq.trans ?_ (QR.lmult_eq M n 0 nr (QR.conjM Q) (β n) (QR.trM m) (show n < M by omega) c a).symm
        by_cases ha : a < nr
        · rw [if_pos (by omega), if_pos (by omega)]
          simp only [QR.trM]
          rw [if_pos trivial]
        · rw [if_neg (by omega), if_neg (by omega)]; rfl
      · intro i B h1 h2 hB a c
        simp only [QR.trM]
        by_cases ha : a = i
        · subst ha
          rw [if_pos rfl, if_pos rfl, if_pos rfl]
          rw [show (fun p => B a p) = fun p => m a p from funext fun p => hB a p (by omega)]
        · rw [if_neg ha, if_neg ha]
    · rw [if_neg hb, if_neg hb]

theorem qRDivEq_spec (M N nr : Nat) (hNM : N ≤ M) (Q : Nat → Nat → K) (β : Nat → K) (m : Nat → Nat → K) (a p : Nat) :
    qRDivEq elem M N nr Q β m a p = if a < nr then star (QR.hsA M Q β 0 N (fun q => star (m a q)) p) else m a p := by
  rw [qRDivEq_eq M nr Q β N hNM, QR.qRDivLoop_spec M nr Q β N hNM]

/-! ### Matrix form -/

/-- The first `N` columns of the unitary factor. -/
def q1 (M N : Nat) (V : Nat → Nat → K) (β : Nat → K) : Matrix (Fin M) (Fin N) K := matOf M N fun p k => QR.hsA M V β 0 N (QR.ev k) p

section
variable {M N : Nat} {V : Nat → Nat → K} {β : Nat → K} {B : Nat → Nat → K} (h : QR.Fact M N V β B)
include h

theorem q1_ortho : (q1 M N V β)ᴴ * q1 M N V β = 1 := by
  ext i j
  rw [Matrix.mul_apply, Matrix.one_apply]
  have := QR.hsA_unitary N h.valid (QR.ev i.val) (QR.ev j.val)
  rw [QR.ip_ev _ (lt_of_lt_of_le i.2 h.le)] at this
  have e : ∑ p : Fin M, (q1 M N V β)ᴴ i p * q1 M N V β p j = QR.ip M (QR.hsA M V β 0 N (QR.ev i.val)) (QR.hsA M V β 0 N (QR.ev j.val)) := by
    rw [QR.ip, Finset.sum_range]; rfl
  rw [e, this]
  simp only [QR.ev, Fin.ext_iff]

theorem q1_mul_r : q1 M N V β * matOf N N (upperMat false V) = matOf M N B := by
  ext p c
  rw [Matrix.mul_apply]
  have h1 := QR.hsA_hs N h.valid (fun q => B q c)
  have h2 := QR.hsA_apply (N := N) V β (QR.hs M V β 0 N (fun q => B q c)) (fun q h3 h4 => by
    rw [h.col c c.2 q h4]
    have := c.2
    simp [upperMat, show ¬ q < c.val by omega, show ¬ q = c.val by omega]) p p.2
  rw [h1] at h2
  refine Eq.trans ?_ h2.symm
  rw [Finset.sum_range]
  refine Finset.sum_congr rfl fun k _ => ?_
  rw [h.col c c.2 k (lt_of_lt_of_le k.2 h.le)]
  rfl

omit h in
theorem r_det (hd : ∀ i, i < N → V i i ≠ 0) : IsUnit (matOf N N (upperMat false V)).det := by
  rw [Matrix.det_of_isUpperTriangular, isUnit_iff_ne_zero, Finset.prod_ne_zero_iff]
  · intro i _
    change upperMat false V i i ≠ 0
    simp [upperMat, hd i i.2]
  · intro i j hij
    change upperMat false V i j = 0
    have : j.val < i.val := hij
    simp [upperMat, show ¬ i.val < j.val by omega, show ¬ i.val = j.val by omega]

/-- `R⁻¹ Qᴴ` is the pseudo-inverse. -/
theorem qr_pinv {W : Matrix (Fin N) (Fin N) K} (hW : W * matOf N N (upperMat false V) = 1) :
    IsPinv (matOf M N B) (W * (q1 M N V β)ᴴ) ∧ W * (q1 M N V β)ᴴ * matOf M N B = 1 := by
  have hW' := mul_eq_one_comm.mp hW
  have hx : W * (q1 M N V β)ᴴ * matOf M N B = 1 := by
    rw [← q1_mul_r h, Matrix.mul_assoc, ← Matrix.mul_assoc _ (q1 M N V β), q1_ortho h, Matrix.one_mul, hW]
  have ha : matOf M N B * (W * (q1 M N V β)ᴴ) = q1 M N V β * (q1 M N V β)ᴴ := by
    rw [← q1_mul_r h, Matrix.mul_assoc, ← Matrix.mul_assoc _ W, hW', Matrix.one_mul]
  refine ⟨⟨?_, ?_, ?_, ?_⟩, hx⟩
  · rw [Matrix.mul_assoc, hx, Matrix.mul_one]
  · rw [hx, Matrix.one_mul]
  · rw [ha, conjTranspose_mul, conjTranspose_conjTranspose]
  · rw [hx, conjTranspose_one]

end

end
end TMV.SmallDiv
