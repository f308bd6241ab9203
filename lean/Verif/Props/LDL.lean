import Verif.Props.LDLPanel

/-! C32: the Bunch-Kaufman decomposition. -/
namespace TMV.LDL
noncomputable section
open Classical
open Tri (Ord sub paste)
variable {K : Type} [RCLike K]

theorem panelSwap_spec (h : Bool) (N j r p : Nat) (A : Nat → Nat → K) (hjr : j ≤ r) (hrp : r < p) (hp : p < N) :
    (∀ i q, q < j → panelSwap h N j r p A i q = A (Equiv.swap r p i) q) ∧
    (∀ i k, r + 1 ≤ i → r + 1 ≤ k → i < N → k < N →
      symFull h (panelSwap h N j r p A) i k = symFull h A (Equiv.swap r p i) (Equiv.swap r p k)) ∧
    (∀ i q, ¬ (q ≤ i ∧ i < N) → panelSwap h N j r p A i q = A i q) ∧
    (∀ k, j ≤ k → panelSwap h N j r p A k k = if k = p then A r r else A k k) := by
  have eval : ∀ a b, j ≤ b → panelSwap h N j r p A a b =
      if b = p ∧ p + 1 ≤ a ∧ a < N then A a r else if a = p ∧ r + 1 ≤ b ∧ b < p then cj h (A b r)
      else if a = p ∧ b = p then A r r else A a b := by
    intro a b hb
    dsimp only [panelSwap, LU.swapRows]
    rw [if_neg (by omega)]
    by_cases c1 : b = p ∧ p + 1 ≤ a ∧ a < N
    · rw [if_pos c1, if_pos c1, if_neg (by omega), if_neg (by omega)]
    · rw [if_neg c1, if_neg c1]
      by_cases c2 : a = p ∧ r + 1 ≤ b ∧ b < p
      · rw [if_pos c2, if_pos c2, if_neg (by omega)]
      · rw [if_neg c2, if_neg c2]
  have low : ∀ i k, r + 1 ≤ k → k ≤ i → i < N → panelSwap h N j r p A i k = symFull h A (Equiv.swap r p i) (Equiv.swap r p k) := by
    intro i k h1 h2 h3
    rw [eval i k (by omega)]
    have τne : ∀ x, r + 1 ≤ x → x ≠ p → Equiv.swap r p x = x := fun x hx hx' =>
      Equiv.swap_apply_of_ne_of_ne (by omega) hx'
    by_cases ckp : k = p
    · subst ckp
      rw [Equiv.swap_apply_right]
      by_cases cik : i = k
      · subst cik
        rw [Equiv.swap_apply_right, if_neg (by omega), if_neg (by omega), if_pos ⟨rfl, rfl⟩, symFull, if_pos le_rfl]
      · rw [τne i (by omega) cik, if_pos ⟨rfl, by omega, h3⟩, symFull, if_pos (by omega)]
    · rw [τne k h1 ckp, if_neg (by omega)]
      by_cases cip : i = p
      · subst cip
        rw [Equiv.swap_apply_right, if_pos ⟨rfl, h1, by omega⟩, symFull, if_neg (by omega)]
      · rw [τne i (by omega) cip, if_neg (by omega), if_neg (by omega), symFull, if_pos h2]
  refine ⟨fun i q hq => ?_, fun i k h1 h2 h3 h4 => ?_, fun i q hc => ?_, fun k hk => ?_⟩
  · dsimp only [panelSwap, LU.swapRows]
    rw [if_pos hq, Equiv.swap_apply_def]
    have e : ∀ x, (if q = p ∧ p + 1 ≤ x ∧ x < N then
        (if x = p ∧ r + 1 ≤ r ∧ r < p then cj h (if r = p ∧ r = p then A r r else A r r) else if x = p ∧ r = p then A r r else A x r)
        else if x = p ∧ r + 1 ≤ q ∧ q < p then cj h (if q = p ∧ r = p then A r r else A q r)
        else if x = p ∧ q = p then A r r else A x q) = A x q := by
      intro x
      rw [if_neg (by omega), if_neg (by omega), if_neg (by omega)]
    rw [e, e, e]
    by_cases c1 : i = r
    · rw [if_pos c1, if_pos c1]
    · rw [if_neg c1, if_neg c1]
      by_cases c2 : i = p
      · rw [if_pos c2, if_pos c2]
      · rw [if_neg c2, if_neg c2]
  · by_cases hki : k ≤ i
    · rw [symFull, if_pos hki, low i k h2 hki h3]
    · rw [symFull, if_neg hki, low k i h1 (by omega) h4, symFull_cj]
      intro hc
      exact hki ((Equiv.swap r p).injective hc).le
  · by_cases hq : q < j
    · dsimp only [panelSwap, LU.swapRows]
      rw [if_pos hq]
      have c1 : i ≠ r := by omega
      have c2 : i ≠ p := by omega
      rw [if_neg c1, if_neg c2, if_neg (by omega), if_neg (by omega), if_neg (by omega)]
    · rw [eval i q (by omega), if_neg (by omega), if_neg (by omega), if_neg (by omega)]
  · rw [eval k k hk, if_neg (by omega), if_neg (by omega)]
    by_cases c : k = p
    · rw [if_pos ⟨c, c⟩, if_pos c]
    · rw [if_neg (by tauto), if_neg c]

theorem panelSwap_diag {h : Bool} {N j r p : Nat} {A : Nat → Nat → K} (hjr : j ≤ r) (hrp : r < p) (hp : p < N)
    (hd : h = true → ∀ k, k < N → RCLike.im (A k k) = 0) : h = true → ∀ k, k < N → RCLike.im (panelSwap h N j r p A k k) = 0 := by
  intro hh k hk
  obtain ⟨s1, _, _, s4⟩ := panelSwap_spec h N j r p A hjr hrp hp
  by_cases hkj : j ≤ k
  · rw [s4 k hkj]
    split_ifs
    · exact hd hh r (by omega)
    · exact hd hh k hk
  · rw [s1 k k (by omega), Equiv.swap_apply_of_ne_of_ne (by omega) (by omega)]
    exact hd hh k hk

theorem panelS_swap {h : Bool} {N j1 j r p : Nat} {A LD LD' : Nat → Nat → K} (hj1 : j1 ≤ j) (hjr : j ≤ r) (hrp : r < p) (hp : p < N)
    (hLD : ∀ k q, j ≤ k → k < N → q < j - j1 → LD' k q = LD (Equiv.swap r p k) q) (i k : Nat) (h1 : r + 1 ≤ i) (h2 : r + 1 ≤ k)
    (h3 : i < N) (h4 : k < N) :
    panelS h j1 j A LD (Equiv.swap r p i) (Equiv.swap r p k) = panelS h j1 j (panelSwap h N j r p A) LD' i k := by
  obtain ⟨s1, s2, _, _⟩ := panelSwap_spec h N j r p A hjr hrp hp
  unfold panelS
  rw [s2 i k h1 h2 h3 h4]
  congr 1
  refine Finset.sum_congr rfl fun q hq => ?_
  have hq' : q < j - j1 := by simpa using hq
  rw [s1 i (j1+q) (by omega), hLD k q (by omega) h4 hq']

theorem panel_spec {h : Bool} {N : Nat} {H A0 : Nat → Nat → K} {j1 j2 : Nat} (hj2 : j2 < N) : ∀ (fuel j : Nat) (s : St K)
    (LD : Nat → Nat → K), j2 + 1 ≤ fuel + j → j1 ≤ j → Good h N H A0 j s (panelS h j1 j s.A LD) →
    let r := panel h N j1 j2 fuel j s LD
    j2 ≤ r.2.2 ∧ Good h N H A0 r.2.2 r.1 (panelS h j1 r.2.2 r.1.A r.2.1) := by
  intro fuel
  induction fuel with
  | zero => intro j s LD hf _ hG r; exact ⟨by show j2 ≤ j; omega, hG⟩
  | succ fuel ih =>
    intro j s LD hf hj1 hG
    unfold panel
    by_cases hjlt : j < j2
    swap
    · rw [if_neg hjlt]; exact ⟨by show j2 ≤ j; omega, hG⟩
    rw [if_pos hjlt]
    dsimp only
    have hjN : j < N := by omega
    generalize hLD1 : panelCol h N j1 j j 0 s.A LD = LD1
    have a1 : ∀ a q, q < j - j1 → LD1 a q = LD a q := fun a q hq => by
      rw [← hLD1]; dsimp only [panelCol]; rw [if_neg (by omega)]
    have hS1 : panelS h j1 j s.A LD1 = panelS h j1 j s.A LD := by
      funext i k
      unfold panelS
      congr 1
      exact Finset.sum_congr rfl fun q hq => by rw [a1 k q (by simpa using hq)]
    have a2 : ∀ a, j ≤ a → a < N → LD1 a (j-j1) = panelS h j1 j s.A LD a j := fun a h1 h2 => by
      rw [← hLD1]; dsimp only [panelCol]; rw [if_pos ⟨by omega, h1, h2⟩]; rfl
    rw [← hS1] at hG a2
    clear hS1 a1 hLD1
    generalize hS : panelS h j1 j s.A LD1 = S at *
    have a3 : ∀ p a, j ≤ a → a < N → panelCol h N j1 j p 1 s.A LD1 a (j-j1+1) = S a p := fun p a h1 h2 => by
      rw [← hS]; dsimp only [panelCol]; rw [if_pos ⟨by omega, h1, h2⟩]; rfl
    have a4 : ∀ p a b, b ≠ j - j1 + 1 → panelCol h N j1 j p 1 s.A LD1 a b = LD1 a b := fun p a b h1 => by
      dsimp only [panelCol]; rw [if_neg (by tauto)]
    have hc := choose_spec (h := h) (N := N) (j := j) (c := fun i => LD1 i (j-j1))
      (col := fun p i => panelCol h N j1 j p 1 s.A LD1 i (j-j1+1)) (S := S) hjN (fun i h1 h2 => a2 i h1 h2)
      (fun p i h1 h2 h3 h4 => by rw [a3 p i h3 h4, hG.inv.sym i p h3 h1 h4 h2, norm_cj])
      (fun hh p h1 h2 => real_of_cj (hG.inv.sym p p h1 h1 h2 h2) hh) (fun p h1 h2 => a3 p p h1 h2)
    revert hc
    generalize choose h N j (fun i => LD1 i (j-j1)) (fun p i => panelCol h N j1 j p 1 s.A LD1 i (j-j1+1)) = piv
    cases piv with
    | one p =>
      rintro ⟨h1, h2, h3⟩
      dsimp only
      by_cases hpj : p = j
      · subst hpj
        rw [if_pos rfl]
        refine ih _ _ _ (by omega) (by omega) ?_
        refine panel1_spec (s := s) hG hj1 p le_rfl h2 (fun i q _ _ _ => ?_) (fun a h4 h5 => ?_) (fun i k h4 h5 h6 h7 => ?_) rfl rfl rfl rfl hG.diag
          (fun _ _ _ => rfl) (fun hz i h4 h5 => ?_)
        · simp
        · rw [a2 a h4 h5]; simp
        · dsimp only; rw [hS]; simp
        · have := (h3 hz).2 i (by omega) h5
          simpa using this
      · rw [if_neg hpj]
        have hjp : j < p := by omega
        obtain ⟨s1, s2, s3, s4⟩ := panelSwap_spec h N j j p s.A le_rfl hjp h2
        refine ih _ _ _ (by omega) (by omega) ?_
        refine panel1_spec (s := s) hG hj1 p h1 h2 (fun i q _ h5 _ => s1 i q h5) (fun a h4 h5 => ?_) (fun i k h4 h5 h6 h7 => ?_) rfl rfl rfl rfl
          (panelSwap_diag le_rfl hjp h2 hG.diag) (fun a b hc => s3 a b hc) (fun hz => absurd (h3 hz).1 hpj)
        · rw [LU.swapRows_eq _ _ _ _ _ _ (by omega)]
          have t1 : j ≤ Equiv.swap j p a := by rw [Equiv.swap_apply_def]; split_ifs <;> omega
          have t2 : Equiv.swap j p a < N := Equiv.swap_lt hjN h2 h5
          rw [if_pos ⟨rfl, t1, t2⟩, a3 p _ t1 t2]
        · rw [← hS]
          refine panelS_swap hj1 le_rfl hjp h2 (fun k q h8 h9 h10 => ?_) i k h4 h5 h6 h7
          rw [LU.swapRows_eq _ _ _ _ _ _ (by omega), if_neg (by omega), a4 p _ q (by omega)]
    | two p =>
      rintro ⟨h1, h2, h3⟩
      dsimp only
      by_cases hpj : p = j + 1
      · subst hpj
        rw [if_pos rfl]
        refine ih _ _ _ (by omega) (by omega) ?_
        refine panel2_spec (s := s) hG hj1 (j+1) le_rfl h2 (fun i q _ _ _ => ?_) (fun a h4 h5 => ?_) (fun a h4 h5 => ?_) (fun i k h4 h5 h6 h7 => ?_)
          rfl rfl rfl rfl hG.diag (fun _ _ _ => rfl) h3
        · simp
        · rw [a4 _ _ _ (by omega), a2 a h4 h5]; simp
        · rw [a3 _ a h4 h5]; simp
        · have : panelS h j1 j s.A (panelCol h N j1 j (j+1) 1 s.A LD1) = S := by
            rw [← hS]
            funext i k
            unfold panelS
            congr 1
            exact Finset.sum_congr rfl fun q hq => by
              have : q < j - j1 := by simpa using hq
              rw [a4 _ _ _ (by omega)]
          dsimp only; rw [this]; simp
      · rw [if_neg hpj]
        have hjp : j + 1 < p := by omega
        obtain ⟨s1, s2, s3, s4⟩ := panelSwap_spec h N j (j+1) p s.A (by omega) hjp h2
        have τ : ∀ a, j ≤ a → a < N → j ≤ Equiv.swap (j+1) p a ∧ Equiv.swap (j+1) p a < N := fun a h4 h5 =>
          ⟨by rw [Equiv.swap_apply_def]; split_ifs <;> omega, Equiv.swap_lt (by omega) h2 h5⟩
        refine ih _ _ _ (by omega) (by omega) ?_
        refine panel2_spec (s := s) hG hj1 p h1 h2 (fun i q _ h5 _ => s1 i q h5) (fun a h4 h5 => ?_) (fun a h4 h5 => ?_)
          (fun i k h4 h5 h6 h7 => ?_) rfl rfl rfl rfl
          (panelSwap_diag (by omega) hjp h2 hG.diag) (fun a b hc => s3 a b hc) h3
        · rw [LU.swapRows_eq _ _ _ _ _ _ (by omega), a4 _ _ _ (by omega), a2 _ (τ a h4 h5).1 (τ a h4 h5).2]
        · rw [LU.swapRows_eq _ _ _ _ _ _ (by omega), a3 _ _ (τ a h4 h5).1 (τ a h4 h5).2]
        · rw [← hS]
          refine panelS_swap hj1 (by omega) hjp h2 (fun k q h8 h9 h10 => ?_) i k h4 h5 h6 h7
          rw [LU.swapRows_eq _ _ _ _ _ _ (by omega), a4 p _ q (by omega)]

theorem block_spec (nb nb2 bs : Nat) (hnb : 0 < nb) (hnb2 : 0 < nb2) (hbs : 0 < bs) (o : Ord) (cm : Bool) {h : Bool} {N : Nat}
    {H A0 : Nat → Nat → K} : ∀ (fuel j1 : Nat) (s : St K) (LD : Nat → Nat → K), N + 1 ≤ fuel + j1 →
    Good h N H A0 j1 s (symFull h s.A) → Good h N H A0 N (block nb nb2 bs o cm h N fuel j1 s LD) (fun _ _ => 0) := by
  intro fuel
  induction fuel with
  | zero => intro j1 s LD hf hG; exact absurd hG.le (by omega)
  | succ fuel ih =>
    intro j1 s LD hf hG
    unfold block
    by_cases hj : j1 < N
    swap
    · rw [if_neg hj]
      have : j1 = N := by have := hG.le; omega
      subst this
      exact hG.congr fun i k h1 _ h3 _ => by omega
    rw [if_pos hj]
    dsimp only
    by_cases hj2 : min (j1 + bs) N < N
    swap
    · rw [if_neg hj2]
      exact nonBlock_spec o cm _ _ _ (by omega) hG
    rw [if_pos hj2]
    obtain ⟨p1, p2⟩ := panel_spec (h := h) (H := H) (A0 := A0) hj2 (N+1) j1 s LD (by omega) le_rfl
      (hG.congr fun i k _ _ _ _ => by simp [panelS])
    generalize panel h N j1 (min (j1+bs) N) (N+1) j1 s LD = r at *
    obtain ⟨s, LD', j2⟩ := r
    dsimp only at *
    have hle := p2.le
    have hrd : h = true → ∀ i, j2 ≤ i → i < N → RCLike.im (panelS h j1 j2 s.A LD' i i) = 0 := fun hh i h1 h2 =>
      real_of_cj (p2.inv.sym i i h1 h1 h2 h2) hh
    have hu := SymRK.symMul_spec_partial nb nb2 hnb hnb2 (o == .rm) h true (N-j2) (j2-j1) (-1 : K)
      (fun i l => s.A (j2+i) (j1+l)) (fun l i => cj h (LD' (j2+i) l)) (sub s.A j2 j2) (by simp) (fun hh => ⟨fun i hi => by
        have e1 := hrd hh (j2+i) (by omega) (by omega)
        have e2 := p2.diag hh (j2+i) (by omega)
        unfold panelS at e1
        rw [map_sub, symFull, if_pos le_rfl, e2, zero_sub] at e1
        rw [neg_one_mul, map_neg]
        exact e1, fun _ i hi => p2.diag hh (j2+i) (by omega)⟩)
    generalize SymRK.symMul nb nb2 (o == .rm) h true (N-j2) (j2-j1) (-1 : K)
      (fun i l => s.A (j2+i) (j1+l)) (fun l i => cj h (LD' (j2+i) l)) (sub s.A j2 j2) = B at *
    have ein : ∀ i k, j2 ≤ k → k ≤ i → i < N → paste s.A j2 j2 (N-j2) (N-j2) B i k = panelS h j1 j2 s.A LD' i k := by
      intro i k h1 h2 h3
      dsimp only [paste]
      rw [if_pos (by omega), hu, if_pos (by omega), if_pos rfl]
      dsimp only [sub, panelS]
      rw [show j2 + (i - j2) = i by omega, show j2 + (k - j2) = k by omega, symFull, if_pos h2]
      ring
    have eout : ∀ i k, ¬ (j2 ≤ k ∧ k ≤ i ∧ i < N) → paste s.A j2 j2 (N-j2) (N-j2) B i k = s.A i k := by
      intro i k hc
      dsimp only [paste]
      by_cases hin : j2 ≤ i ∧ i < j2 + (N - j2) ∧ j2 ≤ k ∧ k < j2 + (N - j2)
      · rw [if_pos hin, hu, if_neg (by omega)]
        dsimp only [sub]
        rw [show j2 + (i - j2) = i by omega, show j2 + (k - j2) = k by omega]
      · rw [if_neg hin]
    refine ih j2 _ _ (by omega) ⟨hle, ?_, p2.range, ?_, fun hh k hk => ?_, fun a b hc => ?_⟩
    · refine p2.inv.congr hle (fun i q h1 h2 h3 => eout i q (by omega)) fun i k h1 h2 h3 h4 => ?_
      simp only [symFull]
      split_ifs with hki
      · exact ein i k h2 hki h3
      · rw [ein k i h1 (by omega) h4, ← p2.inv.sym i k h1 h2 h3 h4]
    · have : lead j2 (pseudoDiag h (fun i => paste s.A j2 j2 (N-j2) (N-j2) B i i) s.xD) =
          lead j2 (pseudoDiag h (fun i => s.A i i) s.xD) := by
        refine lead_congr fun i k hi hk => ?_
        simp only [pseudoDiag]
        rw [eout i i (by omega)]
      show DetRel h (lead j2 (pseudoDiag h (fun i => paste s.A j2 j2 (N-j2) (N-j2) B i i) s.xD)).det _
      rw [this]
      exact p2.det
    · show RCLike.im (paste s.A j2 j2 (N-j2) (N-j2) B k k) = 0
      by_cases hkj : j2 ≤ k
      · rw [ein k k hkj le_rfl hk]; exact hrd hh k hkj hk
      · rw [eout k k (by omega)]; exact p2.diag hh k hk
    · show paste s.A j2 j2 (N-j2) (N-j2) B a b = _
      rw [eout a b (by omega)]
      exact p2.frame a b hc

theorem good_init (h : Bool) (N : Nat) (A : Nat → Nat → K) (P : Nat → Nat) (hr : h = true → ∀ k, k < N → RCLike.im (A k k) = 0) :
    Good h N (symFull h A) A 0 (⟨A, fun _ => 0, P, 0, 1⟩ : St K) (symFull h A) where
  le := Nat.zero_le _
  inv := ⟨fun i k _ _ => by simp [swapProd], fun k hk => by omega, fun _ _ => rfl, fun _ k hk => by omega, fun i k _ _ hi _ => by
    by_cases hik : i = k
    · subst hik
      rw [symFull, if_pos le_rfl]
      exact (cj_real fun hh => hr hh i hi).symm
    · exact (symFull_cj h A k i (Ne.symm hik)).symm⟩
  range k hk := by omega
  det := ⟨fun hc => by simp [lead] at hc, fun _ => by simp [lead], fun _ => by simp [lead]⟩
  diag := hr
  frame _ _ _ := rfl

theorem decompose_good (nb nb2 bs : Nat) (hnb : 0 < nb) (hnb2 : 0 < nb2) (hbs : 0 < bs) (o : Ord) (cm h : Bool) (N : Nat)
    (A LD0 : Nat → Nat → K) (P : Nat → Nat) (hr : h = true → ∀ k, k < N → RCLike.im (A k k) = 0) :
    Good h N (symFull h A) A N (decompose nb nb2 bs o cm h N A LD0 P) (fun _ _ => 0) := by
  unfold decompose
  dsimp only
  split
  · exact block_spec nb nb2 bs hnb hnb2 hbs o cm _ _ _ _ (by omega) (good_init h N A P hr)
  · exact nonBlock_spec o cm _ _ _ (by omega) (good_init h N A P hr)

/-- **C32** `LDL_Decompose` of any symmetric or Hermitian matrix: `P L D L† P^T` is the matrix, `D` consists of 1×1 and 2×2 blocks;
nothing but the stored triangle changes. -/
theorem decompose_spec (nb nb2 bs : Nat) (hnb : 0 < nb) (hnb2 : 0 < nb2) (hbs : 0 < bs) (o : Ord) (cm h : Bool) (N : Nat)
    (A LD0 : Nat → Nat → K) (P : Nat → Nat) (hr : h = true → ∀ k, k < N → RCLike.im (A k k) = 0) :
    let s := decompose nb nb2 bs o cm h N A LD0 P
    IsLDL h N (symFull h A) s.A s.xD s.P ∧ (∀ a b, ¬ (b ≤ a ∧ a < N) → s.A a b = A a b) := by
  have hG := decompose_good nb nb2 bs hnb hnb2 hbs o cm h N A LD0 P hr
  exact ⟨hG.inv.isLDL hG.range, hG.frame⟩

theorem swapProd_lt (P : Nat → Nat) (N : Nat) (hP : ∀ k, k < N → k ≤ P k ∧ P k < N) (k : Nat) : swapProd P N 0 k < N ↔ k < N := by
  have key : ∀ n i, i + n = N → ∀ k, swapProd P n i k < N ↔ k < N := by
    intro n
    induction n with
    | zero => intro i _ k; simp [swapProd]
    | succ n ih =>
      intro i hi k
      simp only [swapProd, Equiv.Perm.mul_apply]
      rw [← ih (i+1) (by omega) k]
      generalize swapProd P n (i+1) k = x
      have := hP i (by omega)
      rw [Equiv.swap_apply_def]
      split_ifs <;> omega
  exact key N 0 (by omega) k

/-- **C32** The determinant: `signdet * exp(logdet)` is the determinant if that is not 0, else `signdet` is 0; `signdet` has absolute
value 1. -/
theorem decompose_det (nb nb2 bs : Nat) (hnb : 0 < nb) (hnb2 : 0 < nb2) (hbs : 0 < bs) (o : Ord) (cm h : Bool) (N : Nat)
    (A LD0 : Nat → Nat → K) (P : Nat → Nat) (hr : h = true → ∀ k, k < N → RCLike.im (A k k) = 0) :
    let s := decompose nb nb2 bs o cm h N A LD0 P
    let δ := (Matrix.of fun i j : Fin N => symFull h A i j).det
    (δ = 0 → s.signdet = 0) ∧ (δ ≠ 0 → s.signdet * ((Real.exp s.logdet : ℝ) : K) = δ ∧ ‖s.signdet‖ = 1) := by
  intro s δ
  have hG := decompose_good nb nb2 bs hnb hnb2 hbs o cm h N A LD0 P hr
  have hd : δ = (lead N (pseudoDiag h (fun i => s.A i i) s.xD)).det := hG.inv.det (swapProd_lt s.P N hG.range)
  rw [hd]
  exact ⟨hG.det.1, hG.det.2.1⟩

/-- The hypothesis can be met: a complex Hermitian matrix, in blocks of 48 columns. -/
example (N : Nat) (LD0 : Nat → Nat → ℂ) (P : Nat → Nat) :
    let s := decompose 64 32 48 .cm true true N (fun i j : Nat => if i = j then 0 else ((i : ℂ) + j * Complex.I)) LD0 P
    IsLDL true N (symFull true fun i j : Nat => if i = j then 0 else ((i : ℂ) + j * Complex.I)) s.A s.xD s.P :=
  (decompose_spec 64 32 48 (by decide) (by decide) (by decide) .cm true true N _ LD0 P fun _ k _ => by simp).1

end
end TMV.LDL
