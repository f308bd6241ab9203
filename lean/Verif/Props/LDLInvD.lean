import Verif.Props.LDLInverse

/-! C76: the inverse of symmetric and Hermitian matrices, end. -/
namespace TMV.LDL
noncomputable section
open Classical
open Tri (Ord sub paste)
open SymRK (Updated RealDiag)
variable {K : Type} [RCLike K]

/-- Determinant of the 2×2 block at `a`. -/
def blkDet (h : Bool) (D x : Nat → K) (a : Nat) : K := D a * D (a+1) - x a * cj h (x a)

/-- The diagonal of the inverse, for the blocks from `i` on. -/
def dInv (h : Bool) (N i : Nat) (D x : Nat → K) (a : Nat) : K :=
  if a + 1 < N ∧ x a ≠ 0 then D (a+1) / blkDet h D x a
  else if i < a ∧ x (a-1) ≠ 0 then D (a-1) / blkDet h D x (a-1) else 1 / D a

/-- The subdiagonal of the inverse, from `i` on. -/
def xInv (h : Bool) (N i : Nat) (D x : Nat → K) (a : Nat) : K :=
  if i ≤ a ∧ a + 1 < N ∧ x a ≠ 0 then x a / -blkDet h D x a else x a

theorem invertDiag_aux (h : Bool) (N : Nat) : ∀ (fuel i : Nat) (S : Nat → Nat → K) (x : Nat → K), N ≤ fuel + i →
    (∀ k, i ≤ k → k + 2 < N → x k ≠ 0 → x (k+1) = 0) → (h = true → ∀ k, i ≤ k → k < N → RCLike.im (S k k) = 0) →
    (∀ a b, (invertDiag h N fuel i (S, x)).1 a b =
      if a = b ∧ i ≤ a ∧ a < N then dInv h N i (fun k => S k k) x a else S a b) ∧
    (∀ a, (invertDiag h N fuel i (S, x)).2 a = xInv h N i (fun k => S k k) x a) := by
  intro fuel
  induction fuel with
  | zero =>
    intro i S x hf _ _
    refine ⟨fun a b => ?_, fun a => ?_⟩
    · rw [if_neg (by omega)]; rfl
    · unfold xInv; rw [if_neg (by omega)]; rfl
  | succ fuel ih =>
    intro i S x hf hb hS
    unfold invertDiag
    by_cases hiN : i < N
    swap
    · rw [if_neg hiN]
      refine ⟨fun a b => ?_, fun a => ?_⟩
      · rw [if_neg (by omega)]
      · unfold xInv; rw [if_neg (by omega)]
    rw [if_pos hiN]
    dsimp only
    by_cases c1 : i = N - 1 ∨ x i = 0
    · rw [if_pos c1, reH_real (fun hh => hS hh i le_rfl hiN)]
      have hs : ∀ k, k ≠ i → setE S i i (1 / S i i) k k = S k k := fun k hk => by simp only [setE]; rw [if_neg (by omega)]
      obtain ⟨s1, s2⟩ := ih (i+1) (setE S i i (1 / S i i)) x (by omega) (fun k hk => hb k (by omega))
        (fun hh k hk hkN => by rw [hs k (by omega)]; exact hS hh k (by omega) hkN)
      have hx : ¬ (i + 1 < N ∧ x i ≠ 0) := by
        rintro ⟨e1, e2⟩
        rcases c1 with c1 | c1
        · omega
        · exact e2 c1
      have hbd : ∀ a, i < a → blkDet h (fun k => setE S i i (1 / S i i) k k) x a = blkDet h (fun k => S k k) x a := fun a ha => by
        unfold blkDet; simp only; rw [hs a (by omega), hs (a+1) (by omega)]
      refine ⟨fun a b => ?_, fun a => ?_⟩
      · rw [s1 a b]
        by_cases ca : a = b ∧ i ≤ a ∧ a < N
        swap
        · rw [if_neg ca, if_neg (by omega)]
          simp only [setE]; rw [if_neg (by omega)]
        rw [if_pos ca]
        by_cases hai : a = i
        · subst hai
          rw [if_neg (by omega), ← ca.1]
          unfold dInv
          rw [if_neg hx, if_neg (by omega)]
          simp only [setE, and_self, if_true]
        · rw [if_pos (by omega)]
          unfold dInv
          by_cases d1 : a + 1 < N ∧ x a ≠ 0
          · rw [if_pos d1, if_pos d1, hbd a (by omega)]; dsimp only; rw [hs (a+1) (by omega)]
          · rw [if_neg d1, if_neg d1]
            by_cases d2 : i + 1 < a ∧ x (a-1) ≠ 0
            · rw [if_pos d2, if_pos ⟨by omega, d2.2⟩, hbd (a-1) (by omega)]; dsimp only; rw [hs (a-1) (by omega)]
            · rw [if_neg d2]
              have d3 : ¬ (i < a ∧ x (a-1) ≠ 0) := by
                rintro ⟨e1, e2⟩
                by_cases e3 : i + 1 < a
                · exact d2 ⟨e3, e2⟩
                · have : a - 1 = i := by omega
                  rw [this] at e2
                  exact hx ⟨by omega, e2⟩
              rw [if_neg d3]; dsimp only; rw [hs a hai]
      · rw [s2 a]
        unfold xInv
        by_cases hai : a = i
        · subst hai
          rw [if_neg (by omega), if_neg (fun e => hx e.2)]
        · by_cases d1 : i ≤ a ∧ a + 1 < N ∧ x a ≠ 0
          · rw [if_pos d1, if_pos ⟨by omega, d1.2⟩, hbd a (by omega)]
          · rw [if_neg d1, if_neg (fun e => d1 ⟨by omega, e.2⟩)]
    · rw [if_neg c1]
      push Not at c1
      have hi1 : i + 1 < N := by omega
      have hb' : i + 2 < N → x (i+1) = 0 := fun h2 => hb i le_rfl h2 c1.2
      rw [invert2_spec (fun hh => hS hh i le_rfl hiN) (fun hh => hS hh (i+1) (by omega) hi1) c1.2]
      dsimp only
      have hδ : S i i * S (i+1) (i+1) - x i * cj h (x i) = blkDet h (fun k => S k k) x i := rfl
      rw [hδ]
      generalize hS' : setE (setE S i i (S (i+1) (i+1) / blkDet h (fun k => S k k) x i)) (i+1) (i+1)
        (S i i / blkDet h (fun k => S k k) x i) = S'
      have e0 : S' i i = S (i+1) (i+1) / blkDet h (fun k => S k k) x i := by
        rw [← hS']; simp only [setE]; rw [if_neg (by omega), if_pos (by simp)]
      have e1 : S' (i+1) (i+1) = S i i / blkDet h (fun k => S k k) x i := by
        rw [← hS']; simp only [setE]; rw [if_pos (by simp)]
      have e2 : ∀ a b, ¬ (a = b ∧ (a = i ∨ a = i + 1)) → S' a b = S a b := fun a b hab => by
        rw [← hS']; simp only [setE]; rw [if_neg (by omega), if_neg (by omega)]
      have ex : ∀ a, a ≠ i → Function.update x i (x i / -blkDet h (fun k => S k k) x i) a = x a := fun a ha =>
        Function.update_of_ne ha _ _
      obtain ⟨s1, s2⟩ := ih (i+2) S' (Function.update x i (x i / -blkDet h (fun k => S k k) x i)) (by omega)
        (fun k hk hkN hx => by rw [ex k (by omega)] at hx; rw [ex (k+1) (by omega)]; exact hb k (by omega) hkN hx)
        (fun hh k hk hkN => by rw [e2 k k (by omega)]; exact hS hh k (by omega) hkN)
      have hbd : ∀ a, i + 2 ≤ a → blkDet h (fun k => S' k k) (Function.update x i (x i / -blkDet h (fun k => S k k) x i)) a =
          blkDet h (fun k => S k k) x a := fun a ha => by
        have := ex a (by omega)
        show S' a a * S' (a+1) (a+1) - _ * cj h _ = S a a * S (a+1) (a+1) - x a * cj h (x a)
        rw [e2 a a (by omega), e2 (a+1) (a+1) (by omega), this]
      refine ⟨fun a b => ?_, fun a => ?_⟩
      · rw [s1 a b]
        by_cases ca : a = b ∧ i ≤ a ∧ a < N
        swap
        · rw [if_neg ca, if_neg (by omega), e2 a b (by omega)]
        rw [if_pos ca]
        by_cases hai : a = i
        · subst hai
          rw [if_neg (by omega), ← ca.1, e0]
          unfold dInv
          rw [if_pos ⟨hi1, c1.2⟩]
        · by_cases hai1 : a = i + 1
          · subst hai1
            have hx : ¬ (i + 1 + 1 < N ∧ x (i+1) ≠ 0) := fun e => e.2 (hb' e.1)
            rw [if_neg (by omega), ← ca.1, e1]
            unfold dInv
            rw [if_neg hx, if_pos ⟨by omega, c1.2⟩]
            rfl
          · rw [if_pos (by omega)]
            unfold dInv
            rw [ex a hai, ex (a-1) (by omega)]
            by_cases d1 : a + 1 < N ∧ x a ≠ 0
            · rw [if_pos d1, if_pos d1, hbd a (by omega)]; dsimp only; rw [e2 (a+1) (a+1) (by omega)]
            · rw [if_neg d1, if_neg d1]
              by_cases d2 : i + 2 < a ∧ x (a-1) ≠ 0
              · rw [if_pos d2, if_pos ⟨by omega, d2.2⟩, hbd (a-1) (by omega)]; dsimp only; rw [e2 (a-1) (a-1) (by omega)]
              · rw [if_neg d2]
                have d3 : ¬ (i < a ∧ x (a-1) ≠ 0) := by
                  rintro ⟨f1, f2⟩
                  by_cases f3 : i + 2 < a
                  · exact d2 ⟨f3, f2⟩
                  · have : a - 1 = i + 1 := by omega
                    rw [this] at f2
                    exact f2 (hb' (by omega))
                rw [if_neg d3]; dsimp only; rw [e2 a a (by omega)]
      · rw [s2 a]
        unfold xInv
        by_cases hai : a = i
        · subst hai
          rw [if_neg (by omega), if_pos ⟨le_rfl, hi1, c1.2⟩, Function.update_self]
        · rw [ex a hai]
          by_cases d1 : i ≤ a ∧ a + 1 < N ∧ x a ≠ 0
          · rw [if_pos d1]
            have : i + 2 ≤ a := by
              by_contra hc
              have : a = i + 1 := by omega
              subst this
              exact d1.2.2 (hb' d1.2.1)
            rw [if_pos ⟨this, d1.2⟩, hbd a this]
          · rw [if_neg d1, if_neg (fun e => d1 ⟨by omega, e.2⟩)]

/-- The inverted blocks are the inverse of the block-diagonal matrix. -/
theorem pseudo_inv (h : Bool) (N : Nat) (D x : Nat → K) (hb : Blocks N x) (hr : Regular h N D x)
    (hD : h = true → ∀ k, k < N → RCLike.im (D k) = 0) (f : Nat → K) (k : Nat) (hk : k < N) :
    ∑ l ∈ Finset.range N, pseudoDiag h (dInv h N 0 D x) (xInv h N 0 D x) k l * (∑ c ∈ Finset.range N, pseudoDiag h D x l c * f c) = f k := by
  rw [pseudo_sum h N (dInv h N 0 D x) (xInv h N 0 D x) (fun l => ∑ c ∈ Finset.range N, pseudoDiag h D x l c * f c) k hk]
  have hcd : ∀ a, a + 1 < N → cj h (blkDet h D x a) = blkDet h D x a := fun a ha => by
    unfold blkDet
    rw [cj_sub, cj_mul, cj_mul, cj_inv, cj_real (fun hh => hD hh a (by omega)), cj_real (fun hh => hD hh (a+1) ha)]; ring
  have hprev : k + 1 < N → x k ≠ 0 → 0 < k → x (k-1) = 0 := by
    intro h1 h2 h3
    by_contra hc
    have := hb (k-1) (by omega) hc
    rw [show k - 1 + 1 = k by omega] at this
    exact h2 this
  by_cases cA : k + 1 < N ∧ x k ≠ 0
  · have hδ : blkDet h D x k ≠ 0 := by
      refine (hr k hk ?_).2 cA.1 cA.2
      by_cases h0 : k = 0
      · exact Or.inl h0
      · exact Or.inr (hprev cA.1 cA.2 (by omega))
    have t1 : (if 0 < k then xInv h N 0 D x (k-1) * ∑ c ∈ Finset.range N, pseudoDiag h D x (k-1) c * f c else 0) = 0 := by
      by_cases h0 : 0 < k
      · have : xInv h N 0 D x (k-1) = 0 := by
          unfold xInv; rw [hprev cA.1 cA.2 h0]; simp
        rw [if_pos h0, this, zero_mul]
      · rw [if_neg h0]
    have t2 : ∑ c ∈ Finset.range N, pseudoDiag h D x k c * f c = D k * f k + cj h (x k) * f (k+1) := by
      rw [pseudo_sum h N D x f k hk, if_pos cA.1]
      by_cases h0 : 0 < k
      · rw [if_pos h0, hprev cA.1 cA.2 h0]; ring
      · rw [if_neg h0]; ring
    have t3 : ∑ c ∈ Finset.range N, pseudoDiag h D x (k+1) c * f c = x k * f k + D (k+1) * f (k+1) := by
      rw [pseudo_sum h N D x f (k+1) cA.1, if_pos (by omega), Nat.add_sub_cancel]
      by_cases h0 : k + 1 + 1 < N
      · rw [if_pos h0, hb k h0 cA.2]; simp
      · rw [if_neg h0]; ring
    have t4 : xInv h N 0 D x k = x k / -blkDet h D x k := by unfold xInv; rw [if_pos ⟨by omega, cA⟩]
    have t5 : dInv h N 0 D x k = D (k+1) / blkDet h D x k := by unfold dInv; rw [if_pos cA]
    rw [t1, t2, t3, t4, t5, if_pos cA.1, cj_div, cj_neg, hcd k cA.1, zero_add]
    generalize hg : blkDet h D x k = δ at *
    have : D k * D (k+1) - x k * cj h (x k) = δ := hg
    field_simp
    rw [← this]; ring
  · by_cases cB : 0 < k ∧ x (k-1) ≠ 0
    · have hk1 : k - 1 + 1 = k := by omega
      have hxk : k + 1 < N → x k = 0 := fun h1 => by
        by_contra hc; exact cA ⟨h1, hc⟩
      have hpp : 0 < k - 1 → x (k-1-1) = 0 := by
        intro h0
        by_contra hc
        have := hb (k-1-1) (by omega) hc
        rw [show k - 1 - 1 + 1 = k - 1 by omega] at this
        exact cB.2 this
      have hδ : blkDet h D x (k-1) ≠ 0 := by
        refine (hr (k-1) (by omega) ?_).2 (by omega) cB.2
        by_cases h0 : k - 1 = 0
        · exact Or.inl h0
        · exact Or.inr (hpp (by omega))
      have t1 : (if k + 1 < N then cj h (xInv h N 0 D x k) * ∑ c ∈ Finset.range N, pseudoDiag h D x (k+1) c * f c else 0) = 0 := by
        by_cases h0 : k + 1 < N
        · have : xInv h N 0 D x k = 0 := by
            unfold xInv; rw [hxk h0]; simp
          rw [if_pos h0, this]; simp
        · rw [if_neg h0]
      have t2 : ∑ c ∈ Finset.range N, pseudoDiag h D x k c * f c = x (k-1) * f (k-1) + D k * f k := by
        rw [pseudo_sum h N D x f k hk, if_pos cB.1]
        by_cases h0 : k + 1 < N
        · rw [if_pos h0, hxk h0]; simp
        · rw [if_neg h0]; ring
      have t3 : ∑ c ∈ Finset.range N, pseudoDiag h D x (k-1) c * f c = D (k-1) * f (k-1) + cj h (x (k-1)) * f k := by
        rw [pseudo_sum h N D x f (k-1) (by omega), hk1, if_pos hk]
        by_cases h0 : 0 < k - 1
        · rw [if_pos h0, hpp h0]; ring
        · rw [if_neg h0]; ring
      have t4 : xInv h N 0 D x (k-1) = x (k-1) / -blkDet h D x (k-1) := by
        unfold xInv; rw [if_pos ⟨by omega, by omega, cB.2⟩]
      have t5 : dInv h N 0 D x k = D (k-1) / blkDet h D x (k-1) := by unfold dInv; rw [if_neg cA, if_pos cB]
      rw [t1, t2, t3, t4, t5, if_pos cB.1, add_zero]
      generalize hg : blkDet h D x (k-1) = δ at *
      have : D (k-1) * D k - x (k-1) * cj h (x (k-1)) = δ := by rw [← hg]; unfold blkDet; rw [hk1]
      field_simp
      rw [← this]; ring
    · have hp0 : k = 0 ∨ x (k-1) = 0 := by
        by_cases h0 : k = 0
        · exact Or.inl h0
        · right; by_contra hc; exact cB ⟨by omega, hc⟩
      have hn0 : k = N - 1 ∨ x k = 0 := by
        by_cases h0 : k = N - 1
        · exact Or.inl h0
        · right; by_contra hc; exact cA ⟨by omega, hc⟩
      have hd : D k ≠ 0 := (hr k hk hp0).1 hn0
      have t1 : (if 0 < k then xInv h N 0 D x (k-1) * ∑ c ∈ Finset.range N, pseudoDiag h D x (k-1) c * f c else 0) = 0 := by
        by_cases h0 : 0 < k
        · have : xInv h N 0 D x (k-1) = 0 := by
            unfold xInv; rw [hp0.resolve_left (by omega)]; simp
          rw [if_pos h0, this, zero_mul]
        · rw [if_neg h0]
      have t1' : (if k + 1 < N then cj h (xInv h N 0 D x k) * ∑ c ∈ Finset.range N, pseudoDiag h D x (k+1) c * f c else 0) = 0 := by
        by_cases h0 : k + 1 < N
        · have : xInv h N 0 D x k = 0 := by
            unfold xInv; rw [hn0.resolve_left (by omega)]; simp
          rw [if_pos h0, this]; simp
        · rw [if_neg h0]
      have t2 : ∑ c ∈ Finset.range N, pseudoDiag h D x k c * f c = D k * f k := by
        rw [pseudo_sum h N D x f k hk]
        have a1 : (if 0 < k then x (k-1) * f (k-1) else 0) = 0 := by
          by_cases h0 : 0 < k
          · rw [if_pos h0, hp0.resolve_left (by omega), zero_mul]
          · rw [if_neg h0]
        have a2 : (if k + 1 < N then cj h (x k) * f (k+1) else 0) = 0 := by
          by_cases h0 : k + 1 < N
          · rw [if_pos h0, hn0.resolve_left (by omega)]; simp
          · rw [if_neg h0]
        rw [a1, a2]; ring
      have t5 : dInv h N 0 D x k = 1 / D k := by unfold dInv; rw [if_neg cA, if_neg cB]
      rw [t1, t1', t2, t5]
      field_simp
      ring

end
end TMV.LDL
