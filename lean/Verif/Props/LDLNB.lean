import Verif.Props.LDLGood

/-! C32: the algorithm without blocks. -/
namespace TMV.LDL
noncomputable section
open Classical
open Tri (Ord sub paste)
open SymRK (rank1 RealDiag Updated)
variable {K : Type} [RCLike K]

theorem swapRC_diag {h : Bool} {N a b : Nat} {A : Nat → Nat → K} (hab : a ≤ b) (hb : b < N)
    (hd : h = true → ∀ k, k < N → RCLike.im (A k k) = 0) :
    h = true → ∀ k, k < N → RCLike.im (swapRC h N a b A k k) = 0 := by
  intro hh k hk
  have hlt : Equiv.swap a b k < N := Equiv.swap_lt (by omega) hb hk
  by_cases hka : k < a
  · rw [swapRC_left h N a b A hab k k hka]
    have := Equiv.swap_apply_of_ne_of_ne (a := a) (b := b) (x := k) (by omega) (by omega)
    rw [this]
    exact hd hh k hk
  · rw [swapRC_low h N a b A hab k k (by omega) le_rfl hk]
    simp only [symFull, le_refl, if_true]
    exact hd hh _ hlt

theorem step1_spec (o : Ord) {h : Bool} {N : Nat} {H A0 : Nat → Nat → K} {j : Nat} {s : St K}
    (hG : Good h N H A0 j s (symFull h s.A)) (p : Nat) (hj : j ≤ p) (hp : p < N)
    (hpiv : symFull h s.A p p = 0 → ∀ i, j < i → i < N → symFull h s.A (Equiv.swap j p i) p = 0) :
    let s' := step1 o h N j { s with A := swapRC h N j p s.A, P := Function.update s.P j p }
    Good h N H A0 (j+1) s' (symFull h s'.A) := by
  intro s'
  have hjN : j < N := by omega
  have hdiag := swapRC_diag (h := h) hj hp hG.diag
  generalize hB : swapRC h N j p s.A = B at *
  have hBl : ∀ i q, q < j → B i q = s.A (Equiv.swap j p i) q := fun i q hq => by rw [← hB]; exact swapRC_left h N j p s.A hj i q hq
  have hBlow : ∀ i k, j ≤ k → k ≤ i → i < N → B i k = symFull h s.A (Equiv.swap j p i) (Equiv.swap j p k) := fun i k h1 h2 h3 => by
    rw [← hB]; exact swapRC_low h N j p s.A hj i k h1 h2 h3
  have hBout : ∀ i q, ¬ (q ≤ i ∧ i < N) → B i q = s.A i q := fun i q hc => by rw [← hB]; exact swapRC_out h N j p s.A hj hp i q hc
  have hBj : ∀ i, j ≤ i → i < N → B i j = symFull h s.A (Equiv.swap j p i) p := fun i h1 h2 => by
    rw [hBlow i j le_rfl h1 h2, Equiv.swap_apply_left]
  have hBjj : B j j = symFull h s.A p p := by rw [hBj j le_rfl hjN, Equiv.swap_apply_left]
  have hre : reH h (B j j) = symFull h s.A p p := by rw [reH_real fun hh => hdiag hh j hjN, hBjj]
  generalize hd : symFull h s.A p p = d at *
  have hdim : h = true → RCLike.im d = 0 := fun hh => by rw [← hBjj]; exact hdiag hh j hjN
  have key : (∀ a b, b < j → s'.A a b = B a b) ∧ s'.A j j = d ∧ (∀ i, j < i → i < N → s'.A i j * d = B i j) ∧
      (∀ i k, j + 1 ≤ k → k ≤ i → i < N → s'.A i k = B i k - B i j * cj h (s'.A k j)) ∧
      (∀ a b, ¬ (b ≤ a ∧ a < N) → s'.A a b = B a b) := by
    by_cases hd0 : d ≠ 0
    · have hs' : s'.A = paste (fun a b => if b = j ∧ j < a ∧ a < N then B a b / d else B a b) (j+1) (j+1) (N-(j+1)) (N-(j+1))
          (rank1 o false h true (N-(j+1)) (-d) (fun i => if j = j ∧ j < j+1+i ∧ j+1+i < N then B (j+1+i) j / d else B (j+1+i) j)
            (sub (fun a b => if b = j ∧ j < a ∧ a < N then B a b / d else B a b) (j+1) (j+1))) := by
        show (step1 o h N j _).A = _
        unfold step1
        dsimp only
        rw [hB, hre, if_pos hd0]
      have hu := SymRK.rank1_spec o false h true (N-(j+1)) (-d)
        (fun i => if j = j ∧ j < j+1+i ∧ j+1+i < N then B (j+1+i) j / d else B (j+1+i) j)
        (sub (fun a b => if b = j ∧ j < a ∧ a < N then B a b / d else B a b) (j+1) (j+1)) (by simp) (fun hh => ⟨by
          rw [map_neg, hdim hh, neg_zero], fun _ i hi => by
          dsimp only [sub]
          rw [if_neg (by omega)]
          exact hdiag hh _ (by omega)⟩)
      have hcol : ∀ i, j < i → i < N → s'.A i j = B i j / d := by
        intro i h1 h2
        rw [hs']
        dsimp only [paste]
        rw [if_neg (by omega), if_pos ⟨rfl, h1, h2⟩]
      refine ⟨fun a b hb => ?_, ?_, fun i h1 h2 => ?_, fun i k h1 h2 h3 => ?_, fun a b hc => ?_⟩
      · rw [hs']
        dsimp only [paste]
        rw [if_neg (by omega), if_neg (by omega)]
      · rw [hs']
        dsimp only [paste]
        rw [if_neg (by omega), if_neg (by omega), hBjj]
      · rw [hcol i h1 h2, div_mul_cancel₀ _ hd0]
      · rw [hcol k (by omega) (by omega), hs']
        dsimp only [paste]
        rw [if_pos (by omega), hu]
        rw [if_pos (by omega), if_pos rfl]
        dsimp only [sub]
        rw [show j + 1 + (i - (j+1)) = i by omega, show j + 1 + (k - (j+1)) = k by omega]
        rw [if_neg (by omega), if_pos (by omega), if_pos (by omega)]
        simp only [cj, Bool.false_eq_true, if_false]
        field_simp
        ring
      · rw [hs']
        dsimp only [paste]
        by_cases hin : j + 1 ≤ a ∧ a < j + 1 + (N - (j+1)) ∧ j + 1 ≤ b ∧ b < j + 1 + (N - (j+1))
        · rw [if_pos hin, hu, if_neg (by omega)]
          dsimp only [sub]
          rw [show j + 1 + (a - (j+1)) = a by omega, show j + 1 + (b - (j+1)) = b by omega, if_neg (by omega)]
        · rw [if_neg hin, if_neg (by omega)]
    · have hs' : s'.A = B := by
        show (step1 o h N j _).A = _
        unfold step1
        dsimp only
        rw [hB, hre, if_neg hd0]
      rw [hs']
      have hd0' : d = 0 := not_not.mp hd0
      have hz : ∀ i, j < i → i < N → B i j = 0 := fun i h1 h2 => by rw [hBj i (by omega) h2]; exact hpiv hd0' i h1 h2
      refine ⟨fun a b hb => rfl, hBjj, fun i h1 h2 => ?_, fun i k h1 h2 h3 => ?_, fun a b hc => rfl⟩
      · rw [hz i h1 h2, zero_mul]
      · rw [hz i (by omega) h3, zero_mul, sub_zero]
  obtain ⟨k1, k2, k3, k4, k5⟩ := key
  refine hG.one' p hj hp ?_ ?_ ?_ ?_ rfl rfl ?_ ?_
  · intro i q _ hq _
    rw [k1 i q hq, hBl i q hq]
  · rw [k2, hd]
  · intro i h1 h2
    rw [hd, k3 i h1 h2, hBj i (by omega) h2]
  · intro i k h1 h2 h3
    rw [k4 i k h1 h2 h3, hBlow i k (by omega) h2 h3, hBj i (by omega) h3]
  · show ((step1 o h N j _).logdet, (step1 o h N j _).signdet) = _
    unfold step1
    dsimp only
    rw [hB, hre, hd]
  · intro a b hc
    rw [k5 a b hc, hBout a b hc]

theorem step2cm_spec (h : Bool) (N j : Nat) (x y z : K) (B : Nat → Nat → K) (a b : Nat) (hj : j + 2 ≤ N) :
    step2cm h N j x y z B a b =
      if j + 2 ≤ a ∧ a < N then
        (if b = j then B a j * x + B a (j+1) * z
         else if b = j + 1 then B a j * cj h z + B a (j+1) * y
         else if j + 2 ≤ b ∧ b ≤ a then
           B a b - B a j * cj h (B b j * x + B b (j+1) * z) - B a (j+1) * cj h (B b j * cj h z + B b (j+1) * y)
         else B a b)
      else B a b := by
  have := up_inv (fun q (A : Nat → Nat → K) =>
    let L0 := A q j * x + A q (j+1) * z
    let L1 := A q j * cj h z + A q (j+1) * y
    let A : Nat → Nat → K := fun a b => if b = q ∧ q ≤ a ∧ a < N then A a b - A a j * cj h L0 else A a b
    let A : Nat → Nat → K := fun a b => if b = q ∧ q ≤ a ∧ a < N then A a b - A a (j+1) * cj h L1 else A a b
    setE (setE A q j L0) q (j+1) L1)
    (fun q A => ∀ a b, A a b =
      if j + 2 ≤ a ∧ a < N then
        (if b = j then (if a < q then B a j * x + B a (j+1) * z else B a b)
         else if b = j + 1 then (if a < q then B a j * cj h z + B a (j+1) * y else B a b)
         else if j + 2 ≤ b ∧ b ≤ a ∧ b < q then
           B a b - B a j * cj h (B b j * x + B b (j+1) * z) - B a (j+1) * cj h (B b j * cj h z + B b (j+1) * y)
         else B a b)
      else B a b) (N-(j+2)) (j+2) B ?_ ?_
  · have := this a b
    unfold step2cm
    rw [this]
    by_cases c1 : j + 2 ≤ a ∧ a < N
    · rw [if_pos c1, if_pos c1]
      by_cases c2 : b = j
      · rw [if_pos c2, if_pos c2, if_pos (by omega)]
      · rw [if_neg c2, if_neg c2]
        by_cases c3 : b = j + 1
        · rw [if_pos c3, if_pos c3, if_pos (by omega)]
        · rw [if_neg c3, if_neg c3]
          by_cases c4 : j + 2 ≤ b ∧ b ≤ a
          · rw [if_pos c4, if_pos (by omega)]
          · rw [if_neg c4, if_neg (by omega)]
    · rw [if_neg c1, if_neg c1]
  · intro a b
    split_ifs <;> first | rfl | omega
  · intro q A h1 h2 hA a b
    dsimp only [setE]
    have e0 : ∀ a, q ≤ a → a < N → A a j = B a j := fun a h3 h4 => by
      rw [hA a j, if_pos (by omega), if_pos rfl, if_neg (by omega)]
    have e1 : ∀ a, q ≤ a → a < N → A a (j+1) = B a (j+1) := fun a h3 h4 => by
      rw [hA a (j+1), if_pos (by omega), if_neg (by omega), if_pos rfl, if_neg (by omega)]
    have eq : ∀ a, q ≤ a → a < N → A a q = B a q := fun a h3 h4 => by
      rw [hA a q, if_pos (by omega), if_neg (by omega), if_neg (by omega), if_neg (by omega)]
    rw [e0 q le_rfl (by omega), e1 q le_rfl (by omega)]
    by_cases c1 : j + 2 ≤ a ∧ a < N
    · rw [if_pos c1]
      by_cases c2 : b = j
      · subst c2
        rw [if_neg (by omega), if_pos rfl]
        by_cases c5 : a = q
        · subst c5
          rw [if_pos ⟨rfl, rfl⟩, if_pos (by omega)]
        · rw [if_neg (by omega), if_neg (by omega), if_neg (by omega), hA a b, if_pos c1, if_pos rfl]
          by_cases c6 : a < q
          · rw [if_pos c6, if_pos (by omega)]
          · rw [if_neg c6, if_neg (by omega)]
      · rw [if_neg c2]
        by_cases c3 : b = j + 1
        · subst c3
          rw [if_pos rfl]
          by_cases c5 : a = q
          · subst c5
            rw [if_pos ⟨rfl, rfl⟩, if_pos (by omega)]
          · rw [if_neg (by omega), if_neg (by omega), if_neg (by omega), if_neg (by omega), hA a (j+1), if_pos c1, if_neg (by omega), if_pos rfl]
            by_cases c6 : a < q
            · rw [if_pos c6, if_pos (by omega)]
            · rw [if_neg c6, if_neg (by omega)]
        · rw [if_neg (by omega), if_neg (by omega), if_neg c3]
          by_cases c4 : b = q ∧ q ≤ a ∧ a < N
          · rw [if_pos c4, if_pos c4, if_neg (by omega), if_pos (show j + 2 ≤ b ∧ b ≤ a ∧ b < q + 1 by omega)]
            obtain ⟨rfl, c5, c6⟩ := c4
            rw [eq a c5 c6, e0 a c5 c6, e1 a c5 c6]
          · rw [if_neg c4, if_neg c4, hA a b, if_pos c1, if_neg c2, if_neg c3]
            by_cases c5 : j + 2 ≤ b ∧ b ≤ a ∧ b < q
            · rw [if_pos c5, if_pos (by omega)]
            · rw [if_neg c5, if_neg (by omega)]
    · rw [if_neg c1, if_neg (by omega), if_neg (by omega), if_neg (by omega), if_neg (by omega), hA a b, if_neg c1]

theorem step2rm_spec (h : Bool) (N j : Nat) (x y z : K) (B : Nat → Nat → K) (a b : Nat) (hj : j + 2 ≤ N) :
    step2rm h N j x y z B a b =
      if j + 2 ≤ a ∧ a < N then
        (if b = j then B a j * x + B a (j+1) * z
         else if b = j + 1 then B a j * cj h z + B a (j+1) * y
         else if j + 2 ≤ b ∧ b ≤ a then
           B a b - (B a j * x + B a (j+1) * z) * cj h (B b j) - (B a j * cj h z + B a (j+1) * y) * cj h (B b (j+1))
         else B a b)
      else B a b := by
  have := down_inv (fun t (A : Nat → Nat → K) =>
    let p := j + 2 + t
    let L0 := A p j * x + A p (j+1) * z
    let L1 := A p j * cj h z + A p (j+1) * y
    let A : Nat → Nat → K := fun a b => if a = p ∧ j + 2 ≤ b ∧ b ≤ p then A a b - L0 * cj h (A b j) else A a b
    let A : Nat → Nat → K := fun a b => if a = p ∧ j + 2 ≤ b ∧ b ≤ p then A a b - L1 * cj h (A b (j+1)) else A a b
    setE (setE A p j L0) p (j+1) L1)
    (fun t A => ∀ a b, A a b =
      if j + 2 + t ≤ a ∧ a < N then
        (if b = j then B a j * x + B a (j+1) * z
         else if b = j + 1 then B a j * cj h z + B a (j+1) * y
         else if j + 2 ≤ b ∧ b ≤ a then
           B a b - (B a j * x + B a (j+1) * z) * cj h (B b j) - (B a j * cj h z + B a (j+1) * y) * cj h (B b (j+1))
         else B a b)
      else B a b) (N-(j+2)) B ?_ ?_
  · exact this a b
  · intro a b
    rw [if_neg (by omega)]
  · intro t A h1 hA a b
    dsimp only [setE]
    have e : ∀ a b, a ≤ j + 2 + t → A a b = B a b := fun a b h3 => by
      rw [hA a b, if_neg (by omega)]
    rw [e (j+2+t) j le_rfl, e (j+2+t) (j+1) le_rfl]
    by_cases c1 : a = j + 2 + t
    · subst c1
      have c0 : j + 2 + t ≤ j + 2 + t ∧ j + 2 + t < N := by omega
      rw [if_pos c0]
      by_cases c2 : b = j
      · subst c2
        rw [if_neg (by omega), if_pos ⟨rfl, rfl⟩, if_pos rfl]
      · rw [if_neg c2]
        by_cases c3 : b = j + 1
        · subst c3
          rw [if_pos ⟨rfl, rfl⟩, if_pos rfl]
        · rw [if_neg (by omega), if_neg (by omega), if_neg c3]
          by_cases c4 : j + 2 ≤ b ∧ b ≤ j + 2 + t
          · rw [if_pos ⟨rfl, c4⟩, if_pos ⟨rfl, c4⟩, if_pos c4, if_neg (by omega), e _ b le_rfl, e b j c4.2, e b (j+1) c4.2]
          · rw [if_neg (by omega), if_neg (by omega), if_neg c4, e _ b le_rfl]
    · rw [if_neg (by omega), if_neg (by omega), if_neg (by omega), if_neg (by omega), hA a b]
      by_cases c2 : j + 2 + (t+1) ≤ a ∧ a < N
      · have c3 : j + 2 + t ≤ a ∧ a < N := by omega
        rw [if_pos c2, if_pos c3]
      · have c3 : ¬ (j + 2 + t ≤ a ∧ a < N) := by omega
        rw [if_neg c2, if_neg c3]

end
end TMV.LDL
