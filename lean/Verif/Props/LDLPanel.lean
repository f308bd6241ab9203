import Verif.Props.LDLNB2

/-! C32: the blocked algorithm. -/
namespace TMV.LDL
noncomputable section
open Classical
open Tri (Ord sub paste)
variable {K : Type} [RCLike K]

/-- What remains, when the columns `j1 … j-1` of a panel have not yet been subtracted from the rest. -/
def panelS (h : Bool) (j1 j : Nat) (A LD : Nat → Nat → K) : Nat → Nat → K :=
  fun i k => symFull h A i k - ∑ q ∈ Finset.range (j - j1), A i (j1+q) * cj h (LD k q)

theorem panel1_spec {h : Bool} {N : Nat} {H A0 : Nat → Nat → K} {j1 j : Nat} {s s1 : St K} {S LD : Nat → Nat → K}
    (hG : Good h N H A0 j s S) (hj1 : j1 ≤ j) (p : Nat) (hj : j ≤ p) (hp : p < N)
    (hA : ∀ i q, i < N → q < j → q ≤ i → s1.A i q = s.A (Equiv.swap j p i) q)
    (hLD : ∀ a, j ≤ a → a < N → LD a (j-j1) = S (Equiv.swap j p a) p)
    (hS : ∀ i k, j + 1 ≤ i → j + 1 ≤ k → i < N → k < N → S (Equiv.swap j p i) (Equiv.swap j p k) = panelS h j1 j s1.A LD i k)
    (hx : s1.xD = s.xD) (hP : s1.P = Function.update s.P j p) (hl : s1.logdet = s.logdet) (hs : s1.signdet = s.signdet)
    (hdiag : h = true → ∀ k, k < N → RCLike.im (s1.A k k) = 0)
    (hframe : ∀ a b, ¬ (b ≤ a ∧ a < N) → s1.A a b = s.A a b)
    (hpiv : S p p = 0 → ∀ i, j < i → i < N → S (Equiv.swap j p i) p = 0) :
    let s' := panel1 h N j1 j s1 LD
    Good h N H A0 (j+1) s' (panelS h j1 (j+1) s'.A LD) := by
  intro s'
  have hjN : j < N := by omega
  have hpr : cj h (S p p) = S p p := (hG.inv.sym p p hj hj hp hp).symm
  have hLj : LD j (j-j1) = S p p := by rw [hLD j le_rfl hjN, Equiv.swap_apply_left]
  have hre : reH h (LD j (j-j1)) = S p p := by rw [hLj]; exact reH_real (real_of_cj hpr.symm)
  have hre2 : reH h (S p p) = S p p := reH_real (real_of_cj hpr.symm)
  have hif : (if j = j ∧ j ≤ j ∧ j < N then LD j (j-j1) else s1.A j j) = LD j (j-j1) := if_pos ⟨rfl, le_rfl, hjN⟩
  generalize hM : setE (fun a b => if b = j ∧ j ≤ a ∧ a < N then LD a (j-j1) else s1.A a b) j j (S p p) = M
  have m1 : ∀ a b, b ≠ j → M a b = s1.A a b := fun a b hb => by
    rw [← hM, setE, if_neg (by tauto), if_neg (by tauto)]
  have mjj : M j j = S p p := by rw [← hM, setE, if_pos ⟨rfl, rfl⟩]
  have mcol : ∀ i, j < i → i < N → M i j = S (Equiv.swap j p i) p := fun i h1 h2 => by
    rw [← hM, setE, if_neg (by omega), if_pos ⟨rfl, by omega, h2⟩, hLD i (by omega) h2]
  have mout : ∀ a, ¬ (j ≤ a ∧ a < N) → M a j = s1.A a j := fun a hc => by
    rw [← hM, setE, if_neg (by omega), if_neg (by tauto)]
  have g : s'.A = if S p p ≠ 0 then (fun a b => if b = j ∧ j < a ∧ a < N then M a b / S p p else M a b) else M := by
    show (panel1 h N j1 j s1 LD).A = _
    unfold panel1
    dsimp only
    by_cases c2 : S p p ≠ 0
    · rw [if_pos c2]
      refine (if_pos ?_).trans ?_
      · rw [hif, hre, hM, mjj, hre2]; exact c2
      · rw [hif, hre, hM, mjj, hre2]
    · rw [if_neg c2]
      refine (if_neg ?_).trans ?_
      · rw [hif, hre, hM, mjj, hre2]; exact c2
      · rw [hif, hre, hM]
  have e1 : ∀ a b, b ≠ j → s'.A a b = s1.A a b := fun a b hb => by
    rw [g]
    by_cases h0 : S p p ≠ 0
    · rw [if_pos h0]; rw [if_neg (by tauto), m1 a b hb]
    · rw [if_neg h0, m1 a b hb]
  have ejj : s'.A j j = S p p := by
    rw [g]
    by_cases h0 : S p p ≠ 0
    · rw [if_pos h0]; rw [if_neg (by omega), mjj]
    · rw [if_neg h0, mjj]
  have ecol : ∀ i, j < i → i < N → s'.A i j * S p p = S (Equiv.swap j p i) p := fun i h1 h2 => by
    rw [g]
    by_cases h0 : S p p ≠ 0
    · rw [if_pos h0]; rw [if_pos ⟨rfl, h1, h2⟩, mcol i h1 h2, div_mul_cancel₀ _ h0]
    · rw [if_neg h0, mcol i h1 h2, hpiv (not_not.mp h0) i h1 h2, zero_mul]
  have eout : ∀ a, ¬ (j ≤ a ∧ a < N) → s'.A a j = s1.A a j := fun a hc => by
    rw [g]
    by_cases h0 : S p p ≠ 0
    · rw [if_pos h0]; rw [if_neg (by omega), mout a hc]
    · rw [if_neg h0, mout a hc]
  refine hG.one p hj hp ?_ ejj ecol ?_ ?_ ?_ ?_ ?_ ?_
  · intro i q h1 h2 h3
    rw [e1 i q (by omega), hA i q h1 h2 h3]
  · intro i k h1 h2 h3 h4
    rw [hS i k h1 h2 h3 h4]
    unfold panelS
    rw [show j + 1 - j1 = j - j1 + 1 by omega, Finset.sum_range_succ, show j1 + (j - j1) = j by omega]
    have a1 : symFull h s'.A i k = symFull h s1.A i k := by
      simp only [symFull]
      rw [e1 i k (by omega), e1 k i (by omega)]
    have a2 : ∑ q ∈ Finset.range (j-j1), s'.A i (j1+q) * cj h (LD k q) = ∑ q ∈ Finset.range (j-j1), s1.A i (j1+q) * cj h (LD k q) := by
      refine Finset.sum_congr rfl fun q hq => ?_
      have : q < j - j1 := by simpa using hq
      rw [e1 i (j1+q) (by omega)]
    rw [a1, a2, hLD k (by omega) h4, ← ecol i (by omega) h3, ← ecol k (by omega) h4, cj_mul, hpr]
    ring
  · exact hx
  · exact hP
  · show ((panel1 h N j1 j s1 LD).logdet, (panel1 h N j1 j s1 LD).signdet) = _
    unfold panel1
    dsimp only
    rw [hif, hre, hM, mjj, hre2, hl, hs]
  · intro hh k hk
    by_cases hkj : k = j
    · subst hkj; rw [ejj]; exact real_of_cj hpr.symm hh
    · rw [e1 k k hkj]; exact hdiag hh k hk
  · intro a b hc
    by_cases hb : b = j
    · subst hb
      rw [eout a (by omega), hframe a b hc]
    · rw [e1 a b hb, hframe a b hc]

theorem panel2_spec {h : Bool} {N : Nat} {H A0 : Nat → Nat → K} {j1 j : Nat} {s s1 : St K} {S LD : Nat → Nat → K}
    (hG : Good h N H A0 j s S) (hj1 : j1 ≤ j) (p : Nat) (hj : j + 1 ≤ p) (hp : p < N)
    (hA : ∀ i q, i < N → q < j → q ≤ i → s1.A i q = s.A (Equiv.swap (j+1) p i) q)
    (hLD0 : ∀ a, j ≤ a → a < N → LD a (j-j1) = S (Equiv.swap (j+1) p a) j)
    (hLD1 : ∀ a, j ≤ a → a < N → LD a (j-j1+1) = S (Equiv.swap (j+1) p a) p)
    (hS : ∀ i k, j + 2 ≤ i → j + 2 ≤ k → i < N → k < N →
      S (Equiv.swap (j+1) p i) (Equiv.swap (j+1) p k) = panelS h j1 j s1.A LD i k)
    (hx : s1.xD = s.xD) (hP : s1.P = Function.update (Function.update s.P j j) (j+1) p)
    (hl : s1.logdet = s.logdet) (hs : s1.signdet = s.signdet)
    (hdiag : h = true → ∀ k, k < N → RCLike.im (s1.A k k) = 0)
    (hframe : ∀ a b, ¬ (b ≤ a ∧ a < N) → s1.A a b = s.A a b)
    (hpiv : ‖S j j‖ * ‖S p p‖ < ‖S p j‖ * ‖S p j‖) :
    let s' := panel2 h N j1 j s1 LD
    Good h N H A0 (j+2) s' (panelS h j1 (j+2) s'.A LD) := by
  intro s'
  have hpr : cj h (S p p) = S p p := (hG.inv.sym p p (by omega) (by omega) hp hp).symm
  have hjr : cj h (S j j) = S j j := (hG.inv.sym j j le_rfl le_rfl (by omega) (by omega)).symm
  have τj : Equiv.swap (j+1) p j = j := Equiv.swap_apply_of_ne_of_ne (by omega) (by omega)
  have rx := real_of_cj hjr.symm
  have ry := real_of_cj hpr.symm
  have hxx : reH h (LD j (j-j1)) = S j j := by rw [hLD0 j le_rfl (by omega), τj]; exact reH_real rx
  have hzz : LD (j+1) (j-j1) = S p j := by rw [hLD0 (j+1) (by omega) (by omega), Equiv.swap_apply_left]
  have hyy : reH h (LD (j+1) (j-j1+1)) = S p p := by
    rw [hLD1 (j+1) (by omega) (by omega), Equiv.swap_apply_left]; exact reH_real ry
  obtain ⟨hz0, hd0⟩ := two_det (h := h) hpiv
  have hinv := invert2_spec rx ry hz0
  generalize hd : S j j * S p p - S p j * cj h (S p j) = d at *
  have hdr : cj h d = d := by
    rw [← hd, cj_sub, cj_mul, cj_mul, cj_inv, cj_real rx, cj_real ry]; ring
  have sol : ∀ a, _ := fun a => two_solve (h := h) (a := LD a (j-j1)) (b := LD a (j-j1+1)) hd hd0 hdr
  have g : s'.A = fun a b =>
      if b = j ∧ j + 2 ≤ a ∧ a < N then LD a (j-j1) * (S p p / d) + LD a (j-j1+1) * (S p j / (-d))
      else if b = j + 1 ∧ j + 2 ≤ a ∧ a < N then LD a (j-j1) * cj h (S p j / (-d)) + LD a (j-j1+1) * (S j j / d)
      else setE (setE (setE s1.A j j (S j j)) (j+1) (j+1) (S p p)) (j+1) j 0 a b := by
    show (panel2 h N j1 j s1 LD).A = _
    unfold panel2
    dsimp only
    rw [hxx, hyy, hzz, hinv]
  have g0 : ∀ a, j + 2 ≤ a → a < N → s'.A a j = LD a (j-j1) * (S p p / d) + LD a (j-j1+1) * (S p j / (-d)) := fun a h1 h2 => by
    rw [g]; dsimp only; rw [if_pos ⟨rfl, h1, h2⟩]
  have g1 : ∀ a, j + 2 ≤ a → a < N → s'.A a (j+1) = LD a (j-j1) * cj h (S p j / (-d)) + LD a (j-j1+1) * (S j j / d) :=
    fun a h1 h2 => by
      rw [g]; dsimp only; rw [if_neg (by omega), if_pos ⟨rfl, h1, h2⟩]
  have gne : ∀ a b, b ≠ j → b ≠ j + 1 → s'.A a b = s1.A a b := fun a b h1 h2 => by
    rw [g]; dsimp only [setE]
    rw [if_neg (by tauto), if_neg (by tauto), if_neg (by tauto), if_neg (by tauto), if_neg (by tauto)]
  have gout : ∀ a b, ¬ (b ≤ a ∧ a < N) → s'.A a b = s1.A a b := fun a b hc => by
    rw [g]; dsimp only [setE]
    rw [if_neg (by omega), if_neg (by omega), if_neg (by omega), if_neg (by omega), if_neg (by omega)]
  have gjj : s'.A j j = S j j := by
    rw [g]; dsimp only [setE]
    rw [if_neg (by omega), if_neg (by omega), if_neg (by omega), if_neg (by omega), if_pos ⟨rfl, rfl⟩]
  have gzz : s'.A (j+1) j = 0 := by
    rw [g]; dsimp only [setE]
    rw [if_neg (by omega), if_neg (by omega), if_pos ⟨rfl, rfl⟩]
  have gyy : s'.A (j+1) (j+1) = S p p := by
    rw [g]; dsimp only [setE]
    rw [if_neg (by omega), if_neg (by omega), if_neg (by omega), if_pos ⟨rfl, rfl⟩]
  have l0 : ∀ i, j + 2 ≤ i → i < N → s'.A i j * S j j + s'.A i (j+1) * S p j = LD i (j-j1) := fun i h1 h2 => by
    rw [g0 i h1 h2, g1 i h1 h2]; exact (sol i).1
  have l1 : ∀ i, j + 2 ≤ i → i < N → s'.A i j * cj h (S p j) + s'.A i (j+1) * S p p = LD i (j-j1+1) := fun i h1 h2 => by
    rw [g0 i h1 h2, g1 i h1 h2]; exact (sol i).2
  refine hG.two p hj hp ?_ gjj gyy gzz ?_ ?_ ?_ ?_ hP ?_ ?_ ?_
  · intro i q h1 h2 h3
    rw [gne i q (by omega) (by omega), hA i q h1 h2 h3]
  · intro i h1 h2
    rw [l0 i h1 h2, hLD0 i (by omega) h2]
  · intro i h1 h2
    rw [l1 i h1 h2, hLD1 i (by omega) h2]
  · intro i k h1 h2 h3 h4
    rw [hS i k h1 h2 h3 h4, ← hLD0 i (by omega) h3, ← hLD1 i (by omega) h3, ← l0 i h1 h3, ← l1 i h1 h3,
      ← two_comm hjr hpr, l0 k h2 h4, l1 k h2 h4]
    unfold panelS
    rw [show j + 2 - j1 = j - j1 + 1 + 1 by omega, Finset.sum_range_succ, Finset.sum_range_succ, show j1 + (j - j1) = j by omega,
      show j1 + (j - j1 + 1) = j + 1 by omega]
    have a1 : symFull h s'.A i k = symFull h s1.A i k := by
      simp only [symFull]
      rw [gne i k (by omega) (by omega), gne k i (by omega) (by omega)]
    have a2 : ∑ q ∈ Finset.range (j-j1), s'.A i (j1+q) * cj h (LD k q) = ∑ q ∈ Finset.range (j-j1), s1.A i (j1+q) * cj h (LD k q) := by
      refine Finset.sum_congr rfl fun q hq => ?_
      have : q < j - j1 := by simpa using hq
      rw [gne i (j1+q) (by omega) (by omega)]
    rw [a1, a2]
    ring
  · show (panel2 h N j1 j s1 LD).xD = _
    unfold panel2
    dsimp only
    rw [hzz, hx]
  · show ((panel2 h N j1 j s1 LD).logdet, (panel2 h N j1 j s1 LD).signdet) = _
    unfold panel2
    dsimp only
    rw [hxx, hyy, hzz, hinv, hl, hs, hd]
  · intro hh k hk
    by_cases hkj : k = j
    · subst hkj; rw [gjj]; exact rx hh
    · by_cases hk1 : k = j + 1
      · subst hk1; rw [gyy]; exact ry hh
      · rw [gne k k hkj hk1]; exact hdiag hh k hk
  · intro a b hc
    rw [gout a b hc, hframe a b hc]

end
end TMV.LDL
