import Verif.Props.LDLNB

/-! C32: a 2×2 step and the loop of the algorithm without blocks. -/
namespace TMV.LDL
noncomputable section
open Classical
open Tri (Ord sub paste)
variable {K : Type} [RCLike K]

theorem step2_spec (cm : Bool) {h : Bool} {N : Nat} {H A0 : Nat → Nat → K} {j : Nat} {s : St K}
    (hG : Good h N H A0 j s (symFull h s.A)) (p : Nat) (hj : j + 1 ≤ p) (hp : p < N)
    (hpiv : ‖symFull h s.A j j‖ * ‖symFull h s.A p p‖ < ‖symFull h s.A p j‖ * ‖symFull h s.A p j‖) :
    let s' := step2 cm h N j { s with A := swapRC h N (j+1) p s.A, P := Function.update (Function.update s.P j j) (j+1) p }
    Good h N H A0 (j+2) s' (symFull h s'.A) := by
  intro s'
  have hdiag := swapRC_diag (h := h) hj hp hG.diag
  generalize hB : swapRC h N (j+1) p s.A = B at *
  have τfix : ∀ a, a < j + 1 → Equiv.swap (j+1) p a = a := fun a ha => Equiv.swap_apply_of_ne_of_ne (by omega) (by omega)
  have τge : ∀ i, j + 1 ≤ i → j + 1 ≤ Equiv.swap (j+1) p i := fun i hi => by rw [Equiv.swap_apply_def]; split_ifs <;> omega
  have hBl : ∀ i q, q < j + 1 → B i q = s.A (Equiv.swap (j+1) p i) q := fun i q hq => by
    rw [← hB]; exact swapRC_left h N (j+1) p s.A hj i q hq
  have hBlow : ∀ i k, j + 1 ≤ k → k ≤ i → i < N → B i k = symFull h s.A (Equiv.swap (j+1) p i) (Equiv.swap (j+1) p k) :=
    fun i k h1 h2 h3 => by rw [← hB]; exact swapRC_low h N (j+1) p s.A hj i k h1 h2 h3
  have hBout : ∀ i q, ¬ (q ≤ i ∧ i < N) → B i q = s.A i q := fun i q hc => by
    rw [← hB]; exact swapRC_out h N (j+1) p s.A hj hp i q hc
  have hBj : ∀ i, j + 1 ≤ i → i < N → B i j = symFull h s.A (Equiv.swap (j+1) p i) j := fun i h1 h2 => by
    rw [hBl i j (by omega), symFull, if_pos (by have := τge i h1; omega)]
  have hBj1 : ∀ i, j + 1 ≤ i → i < N → B i (j+1) = symFull h s.A (Equiv.swap (j+1) p i) p := fun i h1 h2 => by
    rw [hBlow i (j+1) le_rfl h1 h2, Equiv.swap_apply_left]
  have hx : B j j = symFull h s.A j j := by
    rw [hBl j j (by omega), τfix j (by omega)]; simp [symFull]
  have hz : B (j+1) j = symFull h s.A p j := by rw [hBj (j+1) le_rfl (by omega), Equiv.swap_apply_left]
  have hy : B (j+1) (j+1) = symFull h s.A p p := by rw [hBj1 (j+1) le_rfl (by omega), Equiv.swap_apply_left]
  have rx : h = true → RCLike.im (symFull h s.A j j) = 0 := fun hh => by rw [← hx]; exact hdiag hh j (by omega)
  have ry : h = true → RCLike.im (symFull h s.A p p) = 0 := fun hh => by rw [← hy]; exact hdiag hh (j+1) (by omega)
  generalize hS : symFull h s.A = S at *
  obtain ⟨hz0, hd0⟩ := two_det (h := h) hpiv
  have hinv := invert2_spec rx ry hz0
  generalize hd : S j j * S p p - S p j * cj h (S p j) = d at *
  have hdr : cj h d = d := by
    rw [← hd, cj_sub, cj_mul, cj_mul, cj_inv, cj_real rx, cj_real ry]; ring
  -- the matrix with the element next to the diagonal cleared
  generalize hC : setE B (j+1) j 0 = C
  have hCne : ∀ a b, ¬ (a = j + 1 ∧ b = j) → C a b = B a b := fun a b hc => by rw [← hC, setE, if_neg hc]
  have hC0 : C (j+1) j = 0 := by rw [← hC, setE, if_pos ⟨rfl, rfl⟩]
  -- the matrix after the loop
  let A1 : Nat → Nat → K := if cm then step2cm h N j (S p p / d) (S j j / d) (S p j / (-d)) C
    else step2rm h N j (S p p / d) (S j j / d) (S p j / (-d)) C
  have hs' : s'.A = if h then (fun a b => if a = b ∧ j + 2 ≤ a ∧ a < N then ((RCLike.re (A1 a a) : ℝ) : K) else A1 a b) else A1 := by
    show (step2 cm h N j _).A = _
    unfold step2
    dsimp only
    rw [hB, hx, hy, hz, hinv, hC]
  let L0 : Nat → K := fun a => B a j * (S p p / d) + B a (j+1) * (S p j / (-d))
  let L1 : Nat → K := fun a => B a j * cj h (S p j / (-d)) + B a (j+1) * (S j j / d)
  have sol : ∀ a, L0 a * S j j + L1 a * S p j = B a j ∧ L0 a * cj h (S p j) + L1 a * S p p = B a (j+1) := fun a =>
    two_solve hd hd0 hdr
  have f1 : ∀ a b, ¬ (j + 2 ≤ a ∧ a < N) → A1 a b = C a b := by
    intro a b hc
    cases cm
    · show step2rm h N j _ _ _ C a b = _
      rw [step2rm_spec _ _ _ _ _ _ _ _ _ (by omega), if_neg hc]
    · show step2cm h N j _ _ _ C a b = _
      rw [step2cm_spec _ _ _ _ _ _ _ _ _ (by omega), if_neg hc]
  have f2 : ∀ a, j + 2 ≤ a → a < N → A1 a j = L0 a := by
    intro a h1 h2
    have e1 := hCne a j (by omega)
    have e2 := hCne a (j+1) (by omega)
    cases cm
    · show step2rm h N j _ _ _ C a j = _
      rw [step2rm_spec _ _ _ _ _ _ _ _ _ (by omega), if_pos ⟨h1, h2⟩, if_pos rfl, e1, e2]
    · show step2cm h N j _ _ _ C a j = _
      rw [step2cm_spec _ _ _ _ _ _ _ _ _ (by omega), if_pos ⟨h1, h2⟩, if_pos rfl, e1, e2]
  have f3 : ∀ a, j + 2 ≤ a → a < N → A1 a (j+1) = L1 a := by
    intro a h1 h2
    have e1 := hCne a j (by omega)
    have e2 := hCne a (j+1) (by omega)
    cases cm
    · show step2rm h N j _ _ _ C a (j+1) = _
      rw [step2rm_spec _ _ _ _ _ _ _ _ _ (by omega), if_pos ⟨h1, h2⟩, if_neg (by omega), if_pos rfl, e1, e2]
    · show step2cm h N j _ _ _ C a (j+1) = _
      rw [step2cm_spec _ _ _ _ _ _ _ _ _ (by omega), if_pos ⟨h1, h2⟩, if_neg (by omega), if_pos rfl, e1, e2]
  have f4 : ∀ a b, j + 2 ≤ a → a < N → j + 2 ≤ b → b ≤ a → A1 a b = B a b - (B a j * cj h (L0 b) + B a (j+1) * cj h (L1 b)) := by
    intro a b h1 h2 h3 h4
    have e1 := fun c (hc : j + 2 ≤ c) => hCne c j (by omega)
    have e2 := fun c (hc : j + 2 ≤ c) => hCne c (j+1) (by omega)
    cases cm
    · show step2rm h N j _ _ _ C a b = _
      rw [step2rm_spec _ _ _ _ _ _ _ _ _ (by omega), if_pos ⟨h1, h2⟩, if_neg (by omega), if_neg (by omega), if_pos ⟨h3, h4⟩,
        e1 a h1, e2 a h1, e1 b h3, e2 b h3, hCne a b (by omega)]
      show B a b - L0 a * cj h (B b j) - L1 a * cj h (B b (j+1)) = _
      rw [sub_sub, ← (sol b).1, ← (sol b).2, two_comm (cj_real rx) (cj_real ry), (sol a).1, (sol a).2]
    · show step2cm h N j _ _ _ C a b = _
      rw [step2cm_spec _ _ _ _ _ _ _ _ _ (by omega), if_pos ⟨h1, h2⟩, if_neg (by omega), if_neg (by omega), if_pos ⟨h3, h4⟩,
        e1 a h1, e2 a h1, e1 b h3, e2 b h3, hCne a b (by omega), sub_sub]
  have f5 : ∀ a b, j + 2 ≤ a → a < N → (b < j ∨ a < b) → A1 a b = B a b := by
    intro a b h1 h2 h3
    cases cm
    · show step2rm h N j _ _ _ C a b = _
      rw [step2rm_spec _ _ _ _ _ _ _ _ _ (by omega), if_pos ⟨h1, h2⟩, if_neg (by omega), if_neg (by omega), if_neg (by omega),
        hCne a b (by omega)]
    · show step2cm h N j _ _ _ C a b = _
      rw [step2cm_spec _ _ _ _ _ _ _ _ _ (by omega), if_pos ⟨h1, h2⟩, if_neg (by omega), if_neg (by omega), if_neg (by omega),
        hCne a b (by omega)]
  -- taking the real part of the diagonal changes nothing
  have hs2 : s'.A = A1 := by
    rw [hs']
    by_cases hh : h = true
    · rw [if_pos hh]
      funext a b
      by_cases hc : a = b ∧ j + 2 ≤ a ∧ a < N
      · rw [if_pos hc]
        obtain ⟨rfl, h1, h2⟩ := hc
        refine SymRK.re_of_real (real_of_cj (h := h) ?_ hh)
        rw [f4 a a h1 h2 h1 le_rfl, cj_sub, cj_real fun _ => hdiag hh a h2]
        congr 1
        rw [← (sol a).1, ← (sol a).2]
        simp only [cj_add, cj_mul, cj_inv, cj_real rx, cj_real ry]
        ring
      · rw [if_neg hc]
    · rw [if_neg hh]
  have f0 : ∀ a b, b < j → A1 a b = B a b := fun a b hb => by
    by_cases hc : j + 2 ≤ a ∧ a < N
    · exact f5 a b hc.1 hc.2 (Or.inl hb)
    · rw [f1 a b hc, hCne a b (by omega)]
  refine hG.two' p hj hp ?_ ?_ ?_ ?_ ?_ ?_ ?_ ?_ rfl ?_ ?_
  · intro i q _ hq _
    rw [hs2, f0 i q hq, hBl i q (by omega)]
  · rw [hs2, f1 j j (by omega), hCne j j (by omega), hx]
  · rw [hs2, f1 _ _ (by omega), hCne _ _ (by omega), hy]
  · rw [hs2, f1 _ _ (by omega), hC0]
  · intro i h1 h2
    rw [hs2, f2 i h1 h2, f3 i h1 h2, (sol i).1, hBj i (by omega) h2]
  · intro i h1 h2
    rw [hs2, f2 i h1 h2, f3 i h1 h2, (sol i).2, hBj1 i (by omega) h2]
  · intro i k h1 h2 h3
    rw [hs2, f4 i k (by omega) h3 h1 h2, f2 k h1 (by omega), f3 k h1 (by omega), hBlow i k (by omega) h2 h3, hBj i (by omega) h3,
      hBj1 i (by omega) h3]
  · show (step2 cm h N j _).xD = _
    unfold step2
    dsimp only
    rw [hB, hz]
  · show ((step2 cm h N j _).logdet, (step2 cm h N j _).signdet) = _
    unfold step2
    dsimp only
    rw [hB, hx, hy, hz, hinv, hd]
  · intro a b hc
    rw [hs2]
    by_cases hc2 : j + 2 ≤ a ∧ a < N
    · rw [f5 a b hc2.1 hc2.2 (by omega), hBout a b hc]
    · rw [f1 a b hc2, hCne a b (by omega), hBout a b hc]

theorem nonBlock_spec (o : Ord) (cm : Bool) {h : Bool} {N : Nat} {H A0 : Nat → Nat → K} : ∀ (fuel j : Nat) (s : St K),
    N + 1 ≤ fuel + j → Good h N H A0 j s (symFull h s.A) → Good h N H A0 N (nonBlock o cm h N fuel j s) (fun _ _ => 0) := by
  intro fuel
  induction fuel with
  | zero => intro j s hf hG; exact absurd hG.le (by omega)
  | succ fuel ih =>
    intro j s hf hG
    unfold nonBlock
    by_cases hjN : j < N
    · rw [if_pos hjN]
      by_cases hlast : j = N - 1
      · rw [if_pos hlast]
        dsimp only
        refine ih _ _ (by omega) (step1_spec o hG j le_rfl hjN fun _ i h1 h2 => by omega)
      · rw [if_neg hlast]
        have hc := choose_spec (h := h) (N := N) (j := j) (c := fun i => s.A i j)
          (col := fun p i => if i ≤ p then s.A p i else s.A i p) (S := symFull h s.A) hjN
          (fun i h1 h2 => by simp [symFull, h1])
          (fun p i h1 h2 h3 h4 => by
            simp only [symFull]
            by_cases hip : i ≤ p
            · rw [if_pos hip, if_pos hip]
            · rw [if_neg hip, if_neg hip, norm_cj])
          (fun hh p h1 h2 => by simpa [symFull] using hG.diag hh p h2)
          (fun p h1 h2 => by simp [symFull])
        revert hc
        generalize choose h N j (fun i => s.A i j) (fun p i => if i ≤ p then s.A p i else s.A i p) = piv
        cases piv with
        | one p =>
          rintro ⟨h1, h2, h3⟩
          refine ih _ _ (by omega) (step1_spec o hG p h1 h2 fun hz i h4 h5 => ?_)
          obtain ⟨rfl, hall⟩ := h3 hz
          rw [Equiv.swap_self]
          exact hall i (by omega) h5
        | two p =>
          rintro ⟨h1, h2, h3⟩
          exact ih _ _ (by omega) (step2_spec cm hG p h1 h2 h3)
    · rw [if_neg hjN]
      have : j = N := by have := hG.le; omega
      subst this
      exact hG.congr fun i k h1 _ h3 _ => by omega

end
end TMV.LDL
