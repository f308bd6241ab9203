import Verif.Model.BandBB
import Verif.Spec.BandBand
import Verif.Props.BandMM

set_option linter.unusedSectionVars false

/-! Products of two band matrices (C94). -/
namespace TMV.BandBB
open BandMV BandMM
open BandTri (sum_range_mono)
set_option maxHeartbeats 1000000
variable {K : Type _} [Field K] [StarRing K] [DecidableEq K]

/-- One row of the product. -/
theorem row_step (add : Bool) (α : K) (M N X alo ahi blo bhi clo chi : Nat) (A B : BArg K) (crm : Bool) (g : Nat → K)
    (h1 : alo < M) (h2 : ahi < X) (h3 : blo < X) (h4 : bhi < N) (hMX : M ≤ X + alo) (hclo : clo = min (M-1) (alo+blo))
    (hchi : chi = min (N-1) (ahi+bhi)) (i : Nat) (hi : i < M) (hj : i - clo < N) (C : Nat → Nat → K) (r c : Nat)
    (m1 m2 j1 j2 snl snh : Nat) (hm1 : m1 = i - alo) (hm2 : m2 = min X (i+ahi+1)) (hj1 : j1 = i - clo)
    (hj2 : j2 = min N (i+chi+1)) (hsnl : snl = min (blo + j1 - m1) (m2 - m1 - 1)) (hsnh : snh = min (bhi + m1 - j1) (j2 - j1 - 1)) :
    (if r = i ∧ j1 ≤ c then multMV add α (j2-j1) (m2-m1) snh snl B.cm B.rm B.conj (fun _ r c => B.mem (m1+c) (j1+r))
      ⟨fun t => A.mem i (m1+t), A.rm, A.conj⟩ false false crm false g (fun t => C i (j1+t)) (c-j1) else C r c) =
    if r = i ∧ c < N ∧ r ≤ c + clo ∧ c ≤ r + chi then (if add then C r c else 0) +
      α * ∑ k ∈ Finset.range X, bandMat alo ahi A.val r k * bandMat blo bhi B.val k c else C r c := by
  by_cases hr : r = i ∧ j1 ≤ c
  · rw [if_pos hr]
    obtain ⟨rfl, hc⟩ := hr
    have := multMV_partial add α (j2-j1) (m2-m1) snh snl (by intro; omega) (by intro; omega) B.cm B.rm B.conj
      (fun _ r c => B.mem (m1+c) (j1+r)) ⟨fun t => A.mem r (m1+t), A.rm, A.conj⟩ false false crm false g (fun t => C r (j1+t))
      (Or.inl fun _ => rfl) (c-j1)
    simp only [yval, cj_f] at this
    rw [this, show j1 + (c - j1) = c by omega]
    by_cases hc2 : c < j2
    · rw [if_pos (show c - j1 < j2 - j1 by omega), if_pos (show r = r ∧ c < N ∧ r ≤ c + clo ∧ c ≤ r + chi by omega)]
      congr 2
      symm
      refine sum_range_mono _ _ m1 (by omega) ?_ ?_
      · intro k hk
        simp only [bandMat, XArg.val, BArg.val]
        rw [if_pos (show r ≤ m1 + k + alo ∧ m1 + k ≤ r + ahi by omega)]
        by_cases hb : m1 + k ≤ c + blo ∧ c ≤ m1 + k + bhi
        · rw [if_pos hb, if_pos (by omega), show j1 + (c - j1) = c by omega, mul_comm]
        · rw [if_neg hb, if_neg (by omega), mul_zero, zero_mul]
      · intro k hk hk'
        simp only [bandMat]
        rw [if_neg (show ¬ (r ≤ k + alo ∧ k ≤ r + ahi) by omega), zero_mul]
    · rw [if_neg (show ¬ c - j1 < j2 - j1 by omega), if_neg (show ¬ (r = r ∧ c < N ∧ r ≤ c + clo ∧ c ≤ r + chi) by omega)]
  · rw [if_neg hr, if_neg (fun h => hr ⟨h.1, by have := h.1; have := h.2.2.1; rw [hj1]; clear * - this h; omega⟩)]

/-- The next values of the loop variables of `RowMultMM`. -/
theorem next_n {M alo blo clo i k n : Nat} (hclo : clo = min (M-1) (alo+blo)) (hi : i + 1 < M) (hn : n = alo - i) (hk : k = clo - i) :
    (if k = 0 then n else if n = 0 then n else n-1) = alo - (i+1) := by subst hn hk hclo; split_ifs <;> omega
theorem next_m {M alo blo clo i k n m1 : Nat} (hclo : clo = min (M-1) (alo+blo)) (hi : i + 1 < M) (hn : n = alo - i) (hk : k = clo - i)
    (hm1 : m1 = i - alo) : (if k = 0 then m1+1 else if n = 0 then m1+1 else m1) = i + 1 - alo := by
  subst hn hk hclo hm1; split_ifs <;> omega
theorem next_l {M X alo ahi blo clo i k n m1 m2 j1 snl : Nat} (h3 : blo < X) (hclo : clo = min (M-1) (alo+blo)) (hi : i + 1 < M)
    (hMX : M ≤ X + alo)
    (hn : n = alo - i) (hk : k = clo - i) (hm1 : m1 = i - alo) (hj1 : j1 = i - clo) (hm2 : m2 = min X (i+ahi+1))
    (hsnl : snl = min (blo + j1 - m1) (m2 - m1 - 1)) :
    (if k = 0 then snl else if n = 0 then (if m2 > blo then snl-1 else snl) else (if snl < blo then snl+1 else snl)) =
          min (blo + (i+1-clo) - (i+1-alo)) (min X (i+1+ahi+1) - (i+1-alo) - 1) := by
  by_cases e1 : k = 0
  · have a1 : clo = alo + blo := by omega
    have a2 : snl = 0 := by clear hm2; subst hsnl hm1 hj1; omega
    rw [if_pos e1, a2]
    clear hsnl hm2
    subst hm1 hj1
    omega
  · rw [if_neg e1]
    have a1 : j1 = 0 := by omega
    have a2 : i + 1 - clo = 0 := by omega
    rw [a2]
    subst a1
    by_cases e2 : n = 0
    · rw [if_pos e2]
      have a3 : i - alo ≤ blo := by omega
      clear hclo hk hj1 a2
      by_cases e3 : m2 > blo
      · rw [if_pos e3]; subst hsnl hm1; omega
      · rw [if_neg e3]; subst hsnl hm1; omega
    · rw [if_neg e2]
      have a3 : m1 = 0 := by omega
      have a4 : i + 1 - alo = 0 := by omega
      rw [a4]
      clear hclo hk hj1 a2
      subst a3
      split <;> omega
theorem next_h1 {M N alo ahi blo bhi clo chi i k n m1 j1 j2 snh : Nat} (h4 : bhi < N) (hclo : clo = min (M-1) (alo+blo)) (hi : i + 1 < M)
    (hchi : chi = min (N-1) (ahi+bhi)) (hn : n = alo - i) (hk : k = clo - i) (hm1 : m1 = i - alo) (hj1 : j1 = i - clo)
    (hj2 : j2 = min N (i+chi+1)) (hsnh : snh = min (bhi + m1 - j1) (j2 - j1 - 1)) (hjN : j2 < N) :
    (if k = 0 then snh else if n = 0 then snh+1 else snh) =
            min (bhi + (i+1-alo) - (i+1-clo)) (min N (i+1+chi+1) - (i+1-clo) - 1) := by
  have a0 : chi = ahi + bhi := by omega
  have a1 : snh = bhi + m1 - j1 := by omega
  have a2 : min (bhi + (i+1-alo) - (i+1-clo)) (min N (i+1+chi+1) - (i+1-clo) - 1) = bhi + (i+1-alo) - (i+1-clo) := by omega
  rw [a2]
  clear a2 a0 hsnh
  subst a1 hm1 hj1
  have a3 : i < clo ∨ clo = alo + blo := by omega
  clear hclo
  split_ifs <;> omega
theorem next_h2 {M N alo ahi blo bhi clo chi i k n m1 j1 j2 snh : Nat} (h4 : bhi < N) (hclo : clo = min (M-1) (alo+blo)) (hi : i + 1 < M)
    (hchi : chi = min (N-1) (ahi+bhi)) (hn : n = alo - i) (hk : k = clo - i) (hm1 : m1 = i - alo) (hj1 : j1 = i - clo)
    (hj2 : j2 = min N (i+chi+1)) (hsnh : snh = min (bhi + m1 - j1) (j2 - j1 - 1)) (hjN : ¬ j2 < N) (hjc : i + 1 - clo < N) :
    (if i + 1 - alo ≥ N - bhi then (if k = 0 then snh else if n = 0 then snh+1 else snh) - 1 else
              (if k = 0 then snh else if n = 0 then snh+1 else snh)) =
              min (bhi + (i+1-alo) - (i+1-clo)) (min N (i+1+chi+1) - (i+1-clo) - 1) := by
  have a0 : j2 = N := by omega
  have a2 : min N (i+1+chi+1) = N := by omega
  rw [a2]
  have a3 : i < clo ∨ clo = alo + blo := by omega
  clear hchi hj2 a2 hclo hjN
  subst a0
  by_cases e1 : k = 0
  · rw [if_pos e1]; split <;> omega
  · rw [if_neg e1]
    have a1 : j1 = 0 := by omega
    have a4 : i + 1 - clo = 0 := by omega
    rw [a4]
    subst a1
    by_cases e2 : n = 0
    · rw [if_pos e2]; clear hk a3 e1 hj1 a4; split <;> omega
    · rw [if_neg e2]; clear hk a3 e1 hj1 a4; split <;> omega

theorem rowLoop_spec (add : Bool) (α : K) (M N X alo ahi blo bhi clo chi : Nat) (A B : BArg K) (crm : Bool) (g : Nat → K)
    (h1 : alo < M) (h2 : ahi < X) (h3 : blo < X) (h4 : bhi < N) (hMX : M ≤ X + alo) (hclo : clo = min (M-1) (alo+blo))
    (hchi : chi = min (N-1) (ahi+bhi)) :
    ∀ (rem i n k m1 m2 j1 j2 snl snh : Nat) (C : Nat → Nat → K), i + rem = M → i - clo < N → n = alo - i → k = clo - i →
    m1 = i - alo → m2 = min X (i+ahi+1) → j1 = i - clo → j2 = min N (i+chi+1) →
    snl = min (blo + j1 - m1) (m2 - m1 - 1) → snh = min (bhi + m1 - j1) (j2 - j1 - 1) → ∀ r c,
    rowLoop add α M N X blo (N-bhi) A B crm g rem i n k m1 m2 j1 j2 snl snh C r c =
    if i ≤ r ∧ r < M ∧ c < N ∧ r ≤ c + clo ∧ c ≤ r + chi then (if add then C r c else 0) +
      α * ∑ k ∈ Finset.range X, bandMat alo ahi A.val r k * bandMat blo bhi B.val k c else C r c := by
  intro rem
  induction rem with
  | zero =>
    intro i n k m1 m2 j1 j2 snl snh C hi _ _ _ _ _ _ _ _ _ r c
    rw [if_neg (by omega)]; rfl
  | succ rem ih =>
    intro i n k m1 m2 j1 j2 snl snh C hi hj hn hk hm1 hm2 hj1 hj2 hsnl hsnh r c
    simp only [rowLoop]
    generalize hZ : (fun r c => if r = i ∧ j1 ≤ c then multMV add α (j2-j1) (m2-m1) snh snl B.cm B.rm B.conj
      (fun _ r c => B.mem (m1+c) (j1+r)) ⟨fun t => A.mem i (m1+t), A.rm, A.conj⟩ false false crm false g (fun t => C i (j1+t)) (c-j1)
      else C r c) = Z
    have hy : ∀ r c, Z r c = if r = i ∧ c < N ∧ r ≤ c + clo ∧ c ≤ r + chi then (if add then C r c else 0) +
        α * ∑ k ∈ Finset.range X, bandMat alo ahi A.val r k * bandMat blo bhi B.val k c else C r c := by
      intro r c
      rw [← hZ]
      exact row_step add α M N X alo ahi blo bhi clo chi A B crm g h1 h2 h3 h4 hMX hclo hchi i (by omega) hj C r c m1 m2 j1 j2 snl snh
        hm1 hm2 hj1 hj2 hsnl hsnh
    clear hZ
    have fin : ∀ (R : K), R = (if i + 1 ≤ r ∧ r < M ∧ c < N ∧ r ≤ c + clo ∧ c ≤ r + chi then (if add then Z r c else 0) +
        α * ∑ k ∈ Finset.range X, bandMat alo ahi A.val r k * bandMat blo bhi B.val k c else Z r c) →
        R = if i ≤ r ∧ r < M ∧ c < N ∧ r ≤ c + clo ∧ c ≤ r + chi then (if add then C r c else 0) +
        α * ∑ k ∈ Finset.range X, bandMat alo ahi A.val r k * bandMat blo bhi B.val k c else C r c := by
      intro R hR
      rw [hR]
      by_cases e1 : r = i ∧ c < N ∧ r ≤ c + clo ∧ c ≤ r + chi
      · rw [if_neg (show ¬ (i + 1 ≤ r ∧ r < M ∧ c < N ∧ r ≤ c + clo ∧ c ≤ r + chi) by omega),
          if_pos (show i ≤ r ∧ r < M ∧ c < N ∧ r ≤ c + clo ∧ c ≤ r + chi by omega), hy, if_pos e1]
      · by_cases e2 : i + 1 ≤ r ∧ r < M ∧ c < N ∧ r ≤ c + clo ∧ c ≤ r + chi
        · rw [if_pos e2, if_pos (show i ≤ r ∧ r < M ∧ c < N ∧ r ≤ c + clo ∧ c ≤ r + chi by omega), hy, if_neg e1]
        · rw [if_neg e2, if_neg (show ¬ (i ≤ r ∧ r < M ∧ c < N ∧ r ≤ c + clo ∧ c ≤ r + chi) by omega), hy, if_neg e1]
    apply fin
    rcases Nat.eq_zero_or_pos rem with h0 | h0
    · subst h0
      have e : ∀ n k a b d e f h, rowLoop add α M N X blo (N-bhi) A B crm g 0 (i+1) n k a b d e f h Z = Z := fun _ _ _ _ _ _ _ _ => rfl
      simp only [e]
      have hz : ¬ (add = false ∧ i + 1 < M) := by omega
      rw [if_neg (show ¬ (i + 1 ≤ r ∧ r < M ∧ c < N ∧ r ≤ c + clo ∧ c ≤ r + chi) by omega)]
      simp only [if_neg hz]
      split_ifs <;> rfl
    · have hi1 : i + 1 < M := by omega
      have ek : (if k = 0 then k else k-1) = clo - (i+1) := by clear * - hk; split_ifs <;> omega
      have ej : (if k = 0 then j1+1 else j1) = i + 1 - clo := by clear * - hk hj1; split_ifs <;> omega
      have em2 : m2 < X → m2 + 1 = min X (i+1+ahi+1) := by clear * - hm2; omega
      have em3 : ¬ m2 < X → m2 = min X (i+1+ahi+1) := by clear * - hm2; omega
      have ej2 : j2 < N → j2 + 1 = min N (i+1+chi+1) := by clear * - hj2; omega
      have ej3 : ¬ j2 < N → j2 = min N (i+1+chi+1) := by clear * - hj2; omega
      have ejN : j2 < N → i + 1 - clo < N := by clear * - hj2; omega
      have hmX' : ¬ (i + 1 - alo = X) := by clear * - hi1 hMX h2; omega
      have hir : i + 1 + rem = M := by clear * - hi; omega
      rw [next_n hclo hi1 hn hk, ek, next_m hclo hi1 hn hk hm1, ej, next_l h3 hclo hi1 hMX hn hk hm1 hj1 hm2 hsnl]
      by_cases hjN : j2 < N
      · rw [if_pos hjN]
        rw [next_h1 h4 hclo hi1 hchi hn hk hm1 hj1 hj2 hsnh hjN]
        by_cases hmX : m2 < X
        · rw [if_pos hmX]
          exact ih _ _ _ _ _ _ _ _ _ Z hir (ejN hjN) rfl rfl rfl (em2 hmX) rfl (ej2 hjN) (by rw [em2 hmX]) (by rw [ej2 hjN]) r c
        · rw [if_neg hmX, if_neg hmX']
          exact ih _ _ _ _ _ _ _ _ _ Z hir (ejN hjN) rfl rfl rfl (em3 hmX) rfl (ej2 hjN) (by rw [em3 hmX]) (by rw [ej2 hjN]) r c
      · rw [if_neg hjN]
        by_cases hjc : i + 1 - clo = N
        · rw [if_pos hjc, if_neg (show ¬ (i + 1 ≤ r ∧ r < M ∧ c < N ∧ r ≤ c + clo ∧ c ≤ r + chi) by omega)]
        · rw [if_neg hjc]
          have hjc' : i + 1 - clo < N := by clear * - hj hjc; omega
          rw [next_h2 h4 hclo hi1 hchi hn hk hm1 hj1 hj2 hsnh hjN hjc']
          by_cases hmX : m2 < X
          · rw [if_pos hmX]
            exact ih _ _ _ _ _ _ _ _ _ Z hir hjc' rfl rfl rfl (em2 hmX) rfl (ej3 hjN) (by rw [em2 hmX]) (by rw [ej3 hjN]) r c
          · rw [if_neg hmX, if_neg hmX']
            exact ih _ _ _ _ _ _ _ _ _ Z hir hjc' rfl rfl rfl (em3 hmX) rfl (ej3 hjN) (by rw [em3 hmX]) (by rw [ej3 hjN]) r c

theorem rowMM_spec (add : Bool) (α : K) (M N X alo ahi blo bhi clo chi : Nat) (A B : BArg K) (crm : Bool) (g : Nat → K)
    (h1 : alo < M) (h2 : ahi < X) (h3 : blo < X) (h4 : bhi < N) (hMX : M ≤ X + alo) (hclo : clo = min (M-1) (alo+blo))
    (hchi : chi = min (N-1) (ahi+bhi)) (C : Nat → Nat → K) :
    MulAddBR add α M X N clo chi (bandMat alo ahi A.val) (bandMat blo bhi B.val) C
      (rowMM add α M N X alo ahi blo bhi clo chi A B crm g C) := by
  intro r c
  have := rowLoop_spec add α M N X alo ahi blo bhi clo chi A B crm g h1 h2 h3 h4 hMX hclo hchi M 0 alo clo 0 (ahi+1) 0 (chi+1)
    (min ahi blo) bhi C (by omega) (by omega) (by omega) (by omega) (by omega) (by omega) (by omega) (by omega) (by omega) (by omega) r c
  simp only [Nat.zero_le, true_and] at this
  exact this

theorem opLoop_spec (α : K) (M N alo ahi blo bhi : Nat) (A B : Nat → Nat → K) :
    ∀ (rem j k i1 i2 n m1 m2 : Nat) (C : Nat → Nat → K), j - ahi < M → j - blo < N → k = ahi - j → i1 = j - ahi →
    i2 = min M (j+alo+1) → n = blo - j → m1 = j - blo → m2 = min N (j+bhi+1) → ∀ r c,
    opLoop α M N A B rem j k i1 i2 n m1 m2 C r c =
      if r < M ∧ c < N then C r c + α * ∑ t ∈ Finset.range rem, bandMat alo ahi A r (j+t) * bandMat blo bhi B (j+t) c else C r c := by
  intro rem
  induction rem with
  | zero => intro j k i1 i2 n m1 m2 C _ _ _ _ _ _ _ _ r c; simp [opLoop]
  | succ rem ih =>
    intro j k i1 i2 n m1 m2 C ha hb hk hi1 hi2 hn hm1 hm2 r c
    simp only [opLoop]
    generalize hZ : (fun r c => if i1 ≤ r ∧ r < i2 ∧ m1 ≤ c ∧ c < m2 then C r c + α * A r j * B j c else C r c) = Z
    have hy : ∀ r c, Z r c = if r < M ∧ c < N then C r c + α * (bandMat alo ahi A r j * bandMat blo bhi B j c) else C r c := by
      intro r c
      rw [← hZ]
      simp only [bandMat]
      by_cases e1 : r < M ∧ c < N
      · rw [if_pos e1]
        by_cases e2 : r ≤ j + alo ∧ j ≤ r + ahi
        · by_cases e3 : j ≤ c + blo ∧ c ≤ j + bhi
          · rw [if_pos e2, if_pos e3, if_pos (by omega), mul_assoc]
          · rw [if_pos e2, if_neg e3, if_neg (by omega)]; simp
        · rw [if_neg e2, if_neg (show ¬ (i1 ≤ r ∧ r < i2 ∧ m1 ≤ c ∧ c < m2) by omega)]; simp
      · rw [if_neg e1, if_neg (by omega)]
    clear hZ
    have ek : (if k > 0 then k-1 else k) = ahi - (j+1) := by split <;> omega
    have ei : (if k > 0 then i1 else i1+1) = j + 1 - ahi := by split <;> omega
    have en : (if n > 0 then n-1 else n) = blo - (j+1) := by split <;> omega
    have em : (if n > 0 then m1 else m1+1) = j + 1 - blo := by split <;> omega
    rw [ek, ei, en, em]
    have fin : ∀ (R : K), R = (if r < M ∧ c < N then Z r c +
        α * ∑ t ∈ Finset.range rem, bandMat alo ahi A r (j+1+t) * bandMat blo bhi B (j+1+t) c else Z r c) →
        R = if r < M ∧ c < N then C r c +
        α * ∑ t ∈ Finset.range (rem+1), bandMat alo ahi A r (j+t) * bandMat blo bhi B (j+t) c else C r c := by
      intro R hR
      rw [hR]
      by_cases e1 : r < M ∧ c < N
      · rw [if_pos e1, if_pos e1, hy, if_pos e1, Finset.sum_range_succ', Nat.add_zero, add_assoc, ← mul_add]
        congr 2
        rw [add_comm]
        congr 1
        exact Finset.sum_congr rfl fun t _ => by rw [show j + 1 + t = j + (t+1) by omega]
      · rw [if_neg e1, if_neg e1, hy, if_neg e1]
    apply fin
    have stop : (j + 1 - ahi = M ∨ j + 1 - blo = N) → Z r c = (if r < M ∧ c < N then Z r c +
        α * ∑ t ∈ Finset.range rem, bandMat alo ahi A r (j+1+t) * bandMat blo bhi B (j+1+t) c else Z r c) := by
      intro h
      by_cases e1 : r < M ∧ c < N
      · rw [if_pos e1, Finset.sum_eq_zero, mul_zero, add_zero]
        intro t _
        simp only [bandMat]
        rcases h with h | h
        · rw [if_neg (show ¬ (r ≤ j + 1 + t + alo ∧ j + 1 + t ≤ r + ahi) by omega), zero_mul]
        · rw [if_neg (show ¬ (j + 1 + t ≤ c + blo ∧ c ≤ j + 1 + t + bhi) by omega), mul_zero]
      · rw [if_neg e1]
    by_cases hiM : i2 < M
    · rw [if_pos hiM]
      by_cases hmN : m2 < N
      · rw [if_pos hmN]
        exact ih _ _ _ _ _ _ _ Z (by omega) (by omega) rfl rfl (by omega) rfl rfl (by omega) r c
      · rw [if_neg hmN]
        by_cases hc : j + 1 - blo = N
        · rw [if_pos hc]; exact stop (Or.inr hc)
        · rw [if_neg hc]
          exact ih _ _ _ _ _ _ _ Z (by omega) (by omega) rfl rfl (by omega) rfl rfl (by omega) r c
    · rw [if_neg hiM]
      by_cases hd : j + 1 - ahi = M
      · rw [if_pos hd]; exact stop (Or.inl hd)
      · rw [if_neg hd]
        by_cases hmN : m2 < N
        · rw [if_pos hmN]
          exact ih _ _ _ _ _ _ _ Z (by omega) (by omega) rfl rfl (by omega) rfl rfl (by omega) r c
        · rw [if_neg hmN]
          by_cases hc : j + 1 - blo = N
          · rw [if_pos hc]; exact stop (Or.inr hc)
          · rw [if_neg hc]
            exact ih _ _ _ _ _ _ _ Z (by omega) (by omega) rfl rfl (by omega) rfl rfl (by omega) r c

/-- Outside the band that `C` needs, the product is zero. -/
theorem prod_zero (M X N alo ahi blo bhi clo chi : Nat) (hclo : min (M-1) (alo+blo) ≤ clo) (hchi : min (N-1) (ahi+bhi) ≤ chi)
    (A B : Nat → Nat → K) (r c : Nat) (hr : r < M) (hc : c < N) (h : ¬ (r ≤ c + clo ∧ c ≤ r + chi)) :
    ∑ k ∈ Finset.range X, bandMat alo ahi A r k * bandMat blo bhi B k c = 0 := by
  apply Finset.sum_eq_zero
  intro k _
  simp only [bandMat]
  by_cases e2 : r ≤ k + alo ∧ k ≤ r + ahi
  · rw [if_neg (show ¬ (k ≤ c + blo ∧ c ≤ k + bhi) by omega), mul_zero]
  · rw [if_neg e2, zero_mul]

theorem addZB (add : Bool) (M N clo chi r c : Nat) (C : Nat → Nat → K) :
    (if add = true then C else zeroB M N clo chi C) r c =
      if r < M ∧ c < N ∧ r ≤ c + clo ∧ c ≤ r + chi then (if add then C r c else 0) else C r c := by
  cases add <;> simp [zeroB]

/-- From "added over the whole rectangle" to the band. -/
theorem add_band (s : K) (M X N alo ahi blo bhi clo chi : Nat) (hclo : min (M-1) (alo+blo) ≤ clo) (hchi : min (N-1) (ahi+bhi) ≤ chi)
    (A B : Nat → Nat → K) (r c : Nat) (x : K) :
    (if r < M ∧ c < N then x + s * ∑ k ∈ Finset.range X, bandMat alo ahi A r k * bandMat blo bhi B k c else x) =
    if r < M ∧ c < N ∧ r ≤ c + clo ∧ c ≤ r + chi then x + s * ∑ k ∈ Finset.range X, bandMat alo ahi A r k * bandMat blo bhi B k c
    else x := by
  by_cases h : r < M ∧ c < N ∧ r ≤ c + clo ∧ c ≤ r + chi
  · rw [if_pos h, if_pos ⟨h.1, h.2.1⟩]
  · rw [if_neg h]
    by_cases h2 : r < M ∧ c < N
    · rw [if_pos h2, prod_zero M X N alo ahi blo bhi clo chi hclo hchi A B r c h2.1 h2.2 (by omega), mul_zero, add_zero]
    · rw [if_neg h2]

theorem opMM_spec (add : Bool) (α : K) (M N X alo ahi blo bhi clo chi : Nat) (h1 : alo < M) (h4 : bhi < N)
    (hclo : min (M-1) (alo+blo) ≤ clo) (hchi : min (N-1) (ahi+bhi) ≤ chi) (A B C : Nat → Nat → K) :
    MulAddBR add α M X N clo chi (bandMat alo ahi A) (bandMat blo bhi B) C (opMM add α M N X alo ahi blo bhi clo chi A B C) := by
  intro r c
  have := opLoop_spec α M N alo ahi blo bhi A B X 0 ahi 0 (alo+1) blo 0 (bhi+1) (if add = true then C else zeroB M N clo chi C)
    (by omega) (by omega) (by omega) (by omega) (by omega) (by omega) (by omega) (by omega) r c
  simp only [Nat.zero_add] at this
  refine this.trans ?_
  rw [add_band α M X N alo ahi blo bhi clo chi hclo hchi, addZB]
  split <;> rfl

/-! ### Along diagonals -/

/-- The values of the loop variables of `DoDiagMultMM`: they describe the rows `lo ≤ i < hi` for which `(i,i+kA)`, `(i+kA,i+kC)`
and `(i,i+kC)` are elements of `A`, `B` and `C`. -/
def stOf (M N X kA kC : Int) : DSt :=
  let lo := max (max 0 (-kA)) (-kC)
  let hi := min (min M (X-kA)) (N-kC)
  ⟨lo - max 0 (-kA), lo + kA - max 0 (-(kC-kA)), lo - max 0 (-kC), hi - max 0 (-kA), hi + kA - max 0 (-(kC-kA)), hi - max 0 (-kC),
    hi - lo, hi + kC⟩

theorem dInit_spec (M N X kA kB1 kC : Int) (h : kB1 ≤ 0) (hC : kC = kA + kB1) : dInit M N X kA kB1 kC = stOf M N X kA kC := by
  subst hC
  simp only [dInit, stOf, DSt.mk.injEq]
  by_cases hc : kA + kB1 < 0
  · simp only [if_pos hc]
    by_cases ha : kA < 0
    · simp only [if_pos ha]; omega
    · simp only [if_neg ha]; omega
  · have ha : ¬ kA < 0 := by omega
    simp only [if_neg hc, if_neg ha]; omega

theorem dUpd_spec (M N X kA kB kC : Int) (hC : kC = kA + kB) : dUpd N kA kB kC (stOf M N X kA kC) = stOf M N X kA (kC+1) := by
  obtain rfl : kB = kC - kA := by omega
  unfold dUpd
  by_cases hc : kC < 0
  · rw [if_pos hc]
    by_cases hb : kC - kA ≥ 0
    · rw [if_pos hb]
      dsimp only [stOf]
      split <;> simp only [DSt.mk.injEq] <;> omega
    · rw [if_neg hb]
      dsimp only [stOf]
      split <;> simp only [DSt.mk.injEq] <;> omega
  · rw [if_neg hc]
    by_cases hb : kC - kA < 0
    · rw [if_pos hb]
      dsimp only [stOf]
      split <;> simp only [DSt.mk.injEq] <;> omega
    · rw [if_neg hb]
      have e : ∀ x : DSt, (if kA < 0 then x else x) = x := fun x => by split <;> rfl
      rw [e]
      by_cases hj : (stOf M N X kA kC).j2C = N
      · rw [if_pos hj]
        simp only [stOf, DSt.mk.injEq] at hj ⊢
        omega
      · rw [if_neg hj]
        simp only [stOf, DSt.mk.injEq] at hj ⊢
        omega

theorem dElem_spec (s : K) (M N X : Nat) (A B : Nat → Nat → K) (kA kB kC : Int) (hC : kC = kA + kB) (C : Nat → Nat → K) (r c : Nat) :
    dElem s A B kA kB kC (stOf M N X kA kC) C r c =
      if (c : Int) - r = kC ∧ r < M ∧ c < N ∧ 0 ≤ (r : Int) + kA ∧ (r : Int) + kA < X then
        C r c + s * (A r ((r : Int) + kA).toNat * B ((r : Int) + kA).toNat c) else C r c := by
  obtain rfl : kB = kC - kA := by omega
  have hc : ((c : Int) - r = kC ∧ (stOf M N X kA kC).m1C ≤ (r : Int) - max 0 (-kC) ∧ (r : Int) - max 0 (-kC) < (stOf M N X kA kC).m2C) ↔
      ((c : Int) - r = kC ∧ r < M ∧ c < N ∧ 0 ≤ (r : Int) + kA ∧ (r : Int) + kA < X) := by
    simp only [stOf]; omega
  simp only [dElem]
  by_cases h : (c : Int) - r = kC ∧ r < M ∧ c < N ∧ 0 ≤ (r : Int) + kA ∧ (r : Int) + kA < X
  · rw [if_pos h, if_pos (hc.mpr h)]
    simp only [stOf, dRow, dCol]
    congr 3 <;> congr 1 <;> omega
  · rw [if_neg h, if_neg (fun h' => h (hc.mp h'))]

theorem dInner_spec (s : K) (M N X : Nat) (chi kA : Int) (A B : Nat → Nat → K) : ∀ (rem : Nat) (kB kC : Int) (C : Nat → Nat → K),
    kC = kA + kB → ∀ r c, dInner s N chi kA A B rem kB kC (stOf M N X kA kC) C r c =
      if (kC ≤ (c : Int) - r ∧ (c : Int) - r < kC + rem ∧ (c : Int) - r ≤ chi) ∧ r < M ∧ c < N ∧ 0 ≤ (r : Int) + kA ∧ (r : Int) + kA < X then
        C r c + s * (A r ((r : Int) + kA).toNat * B ((r : Int) + kA).toNat c) else C r c := by
  intro rem
  induction rem with
  | zero => intro kB kC C _ r c; rw [if_neg (by omega)]; rfl
  | succ rem ih =>
    intro kB kC C hC r c
    simp only [dInner]
    by_cases h : kC > chi
    · rw [if_pos h, if_neg (by omega)]
    · rw [if_neg h, dUpd_spec _ _ _ _ _ _ hC, ih _ _ _ (by omega), dElem_spec s M N X A B kA kB kC hC]
      by_cases e1 : (c : Int) - r = kC ∧ r < M ∧ c < N ∧ 0 ≤ (r : Int) + kA ∧ (r : Int) + kA < X
      · rw [if_pos e1, if_neg (by omega), if_pos (by omega)]
      · rw [if_neg e1]
        by_cases e2 : (kC + 1 ≤ (c : Int) - r ∧ (c : Int) - r < kC + 1 + rem ∧ (c : Int) - r ≤ chi) ∧ r < M ∧ c < N ∧ 0 ≤ (r : Int) + kA ∧
            (r : Int) + kA < X
        · rw [if_pos e2, if_pos (by omega)]
        · rw [if_neg e2, if_neg (by omega)]

theorem dOuter_spec (s : K) (M N X alo ahi blo bhi clo chi : Nat) (h1 : alo < M) (hclo : min (M-1) (alo+blo) ≤ clo)
    (hchi : min (N-1) (ahi+bhi) ≤ chi) (A B : Nat → Nat → K) (t : Nat) (ht : t < alo + ahi + 1) (C : Nat → Nat → K) (r c : Nat) :
    dOuter s M N X blo bhi clo chi A B ((t : Int) - alo) C r c =
      if r < M ∧ c < N ∧ alo ≤ r + t ∧ r + t - alo < X then C r c + s * (A r (r+t-alo) * bandMat blo bhi B (r+t-alo) c)
      else C r c := by
  simp only [dOuter]
  generalize hk : (if (t : Int) - alo - blo < -(clo : Int) then -(clo : Int) else (t : Int) - alo - blo) = kC
  generalize hb : (if (t : Int) - alo - blo < -(clo : Int) then -(clo : Int) - ((t : Int) - alo) else -(blo : Int)) = kB1
  have e1 : kC = (t : Int) - alo + kB1 := by rw [← hk, ← hb]; split <;> omega
  have e2 : kB1 ≤ 0 := by rw [← hb]; split <;> omega
  have e3 : kB1 = -(blo : Int) ∨ (-(blo : Int) ≤ kB1 ∧ kC = -(clo : Int) ∧ (clo : Int) < alo + blo) := by
    rw [← hb, ← hk]; split <;> omega
  clear hk hb
  rw [dInit_spec _ _ _ _ _ _ e2 e1, dInner_spec s M N X _ _ A B _ _ _ C e1]
  by_cases h : r < M ∧ c < N ∧ alo ≤ r + t ∧ r + t - alo < X
  · rw [if_pos h]
    have e4 : ((r : Int) + ((t : Int) - alo)).toNat = r + t - alo := by omega
    rw [e4]
    simp only [bandMat]
    by_cases h2 : r + t - alo ≤ c + blo ∧ c ≤ r + t - alo + bhi
    · rw [if_pos h2, if_pos ?_]
      refine ⟨⟨?_, ?_, ?_⟩, ?_⟩
      · rcases e3 with e3 | e3 <;> omega
      · omega
      · omega
      · omega
    · rw [if_neg h2, mul_zero, mul_zero, add_zero, if_neg]
      rintro ⟨⟨a1, a2, a3⟩, a4⟩
      rcases e3 with e3 | e3 <;> omega
  · rw [if_neg h, if_neg (by omega)]

theorem sum_step (f : Nat → K) (X r alo t : Nat) :
    ∑ k ∈ Finset.range X, (if k + alo < r + (t+1) then f k else 0) =
      ∑ k ∈ Finset.range X, (if k + alo < r + t then f k else 0) + if alo ≤ r + t ∧ r + t - alo < X then f (r+t-alo) else 0 := by
  have e : ∀ k, (if k + alo < r + (t+1) then f k else 0) =
      (if k + alo < r + t then f k else 0) + (if k = r + t - alo then (if alo ≤ r + t then f k else 0) else 0) := by
    intro k
    by_cases h1 : k + alo < r + t
    · rw [if_pos h1, if_pos (by omega), if_neg (by omega), add_zero]
    · by_cases h2 : k + alo = r + t
      · rw [if_pos (show k + alo < r + (t+1) by omega), if_neg h1, if_pos (show k = r + t - alo by omega), if_pos (by omega), zero_add]
      · rw [if_neg (by omega), if_neg h1, zero_add]
        by_cases h3 : k = r + t - alo
        · rw [if_pos h3, if_neg (by omega)]
        · rw [if_neg h3]
  rw [Finset.sum_congr rfl fun k _ => e k, Finset.sum_add_distrib]
  congr 1
  rw [Finset.sum_ite_eq']
  by_cases h : r + t - alo < X
  · rw [if_pos (Finset.mem_range.mpr h)]
    by_cases h2 : alo ≤ r + t
    · rw [if_pos h2, if_pos ⟨h2, h⟩]
    · rw [if_neg h2, if_neg (fun h => h2 h.1)]
  · rw [if_neg (fun h' => h (Finset.mem_range.mp h')), if_neg (fun h' => h h'.2)]

theorem doDiag_spec (s : K) (M N X alo ahi blo bhi clo chi : Nat) (h1 : alo < M) (hclo : min (M-1) (alo+blo) ≤ clo)
    (hchi : min (N-1) (ahi+bhi) ≤ chi) (A B C : Nat → Nat → K) (r c : Nat) :
    doDiag s M N X alo ahi blo bhi clo chi A B C r c =
      if r < M ∧ c < N then C r c + s * ∑ k ∈ Finset.range X, bandMat alo ahi A r k * bandMat blo bhi B k c else C r c := by
  have := up_inv (fun t (C : Nat → Nat → K) => dOuter s M N X blo bhi clo chi A B ((t : Int) - alo) C)
    (fun t Z => ∀ r c, Z r c = if r < M ∧ c < N then C r c + s * ∑ k ∈ Finset.range X, (if k + alo < r + t then
      bandMat alo ahi A r k * bandMat blo bhi B k c else 0) else C r c) (alo+ahi+1) 0 C (by
      intro r c
      by_cases h : r < M ∧ c < N
      · rw [if_pos h, Finset.sum_eq_zero, mul_zero, add_zero]
        intro k _
        by_cases h2 : k + alo < r + 0
        · rw [if_pos h2]; simp only [bandMat]; rw [if_neg (by omega), zero_mul]
        · rw [if_neg h2]
      · rw [if_neg h]) (by
      intro t Z _ h2 hZ r c
      rw [dOuter_spec s M N X alo ahi blo bhi clo chi h1 hclo hchi A B t (by omega), hZ]
      by_cases h : r < M ∧ c < N
      · rw [if_pos h, if_pos h, sum_step]
        by_cases h3 : alo ≤ r + t ∧ r + t - alo < X
        · rw [if_pos h3, if_pos ⟨h.1, h.2, h3⟩, mul_add, add_assoc]
          congr 4
          simp only [bandMat]
          rw [if_pos (by omega)]
        · rw [if_neg h3, if_neg (fun h' => h3 h'.2.2), add_zero]
      · rw [if_neg h, if_neg h, if_neg (fun h' => h ⟨h'.1, h'.2.1⟩)])
  refine (this r c).trans ?_
  by_cases h : r < M ∧ c < N
  · rw [if_pos h, if_pos h]
    congr 2
    refine Finset.sum_congr rfl fun k _ => ?_
    by_cases h2 : k + alo < r + (0 + (alo + ahi + 1))
    · rw [if_pos h2]
    · rw [if_neg h2]; simp only [bandMat]; rw [if_neg (by omega), zero_mul]
  · rw [if_neg h, if_neg h]

theorem diagMM_spec (add : Bool) (α : K) (M N X alo ahi blo bhi clo chi : Nat) (h1 : alo < M) (hclo : min (M-1) (alo+blo) ≤ clo)
    (hchi : min (N-1) (ahi+bhi) ≤ chi) (A B C : Nat → Nat → K) (hα : add = false ∨ α = 1 ∨ α = -1) :
    MulAddBR add α M X N clo chi (bandMat alo ahi A) (bandMat blo bhi B) C (diagMM add α M N X alo ahi blo bhi clo chi A B C) := by
  intro r c
  unfold diagMM
  have hz : ∀ s (C : Nat → Nat → K), doDiag s M N X alo ahi blo bhi clo chi A B C r c =
      if r < M ∧ c < N ∧ r ≤ c + clo ∧ c ≤ r + chi then C r c + s * ∑ k ∈ Finset.range X, bandMat alo ahi A r k * bandMat blo bhi B k c
      else C r c := fun s C => by
    rw [doDiag_spec s M N X alo ahi blo bhi clo chi h1 hclo hchi, add_band s M X N alo ahi blo bhi clo chi hclo hchi]
  cases add with
  | false =>
    rw [if_pos rfl]
    have e : doDiag 1 M N X alo ahi blo bhi clo chi A B (zeroB M N clo chi C) r c =
        if r < M ∧ c < N ∧ r ≤ c + clo ∧ c ≤ r + chi then ∑ k ∈ Finset.range X, bandMat alo ahi A r k * bandMat blo bhi B k c
        else C r c := by
      rw [hz]
      simp only [zeroB]
      split
      · rw [zero_add, one_mul]
      · rfl
    by_cases ha : α = 1
    · rw [if_pos ha, e, ha]; split <;> simp
    · rw [if_neg ha]
      simp only [scaleB]
      rw [e]
      split <;> simp
  | true =>
    simp only [Bool.true_eq_false, if_false, if_true]
    by_cases ha : α = 1
    · rw [if_pos ha, hz, ha]
    · rw [if_neg ha, hz]
      have : α = -1 := by simpa [ha] using hα
      rw [this]

/-! ### The driver -/

theorem putB_spec {add : Bool} {α : K} {M X N clo chi : Nat} {T B G C Z : Nat → Nat → K}
    (h : MulAddBR false 1 M X N clo chi T B G Z) : MulAddBR add α M X N clo chi T B C (putB add α M N clo chi Z C) := by
  intro r c
  simp only [putB]
  by_cases e : r < M ∧ c < N ∧ r ≤ c + clo ∧ c ≤ r + chi
  · rw [if_pos e, if_pos e, h, if_pos e]
    cases add <;> simp
  · rw [if_neg e, if_neg e]

theorem bandMat_swap (lo hi : Nat) (A : BArg K) (i j : Nat) : bandMat lo hi (BArg.tr A).val i j = bandMat hi lo A.val j i := by
  simp only [bandMat, BArg.tr, BArg.val, and_comm]

theorem rowT_spec (add : Bool) (α : K) (M N X alo ahi blo bhi clo chi : Nat) (A B : BArg K) (ccm : Bool) (g : Nat → K)
    (h1 : alo < M) (h2 : ahi < X) (h3 : blo < X) (h4 : bhi < N) (hNX : N ≤ X + bhi) (hclo : clo = min (M-1) (alo+blo))
    (hchi : chi = min (N-1) (ahi+bhi)) (C : Nat → Nat → K) :
    MulAddBR add α M X N clo chi (bandMat alo ahi A.val) (bandMat blo bhi B.val) C
      (rowT add α M N X alo ahi blo bhi clo chi A B ccm g C) := by
  intro r c
  have := rowMM_spec add α N M X bhi blo ahi alo chi clo (BArg.tr B) (BArg.tr A) ccm g h4 h3 h2 h1 hNX (by omega) (by omega)
    (fun i j => C j i) c r
  simp only [bandMat_swap] at this
  refine this.trans ?_
  by_cases e : r < M ∧ c < N ∧ r ≤ c + clo ∧ c ≤ r + chi
  · rw [if_pos e, if_pos (by omega)]
    congr 2
    exact Finset.sum_congr rfl fun k _ => mul_comm _ _
  · rw [if_neg e, if_neg (by omega)]

theorem doMM_spec (add : Bool) (α : K) (M X N alo ahi blo bhi clo chi : Nat) (A B : BArg K) (adm bdm crm ccm cdm : Bool) (g : Nat → K)
    (h1 : alo < M) (h2 : ahi < X) (h3 : blo < X) (h4 : bhi < N) (hMX : M ≤ X + alo) (hNX : N ≤ X + bhi)
    (hclo : clo = min (M-1) (alo+blo)) (hchi : chi = min (N-1) (ahi+bhi)) (G C : Nat → Nat → K) :
    MulAddBR add α M X N clo chi (bandMat alo ahi A.val) (bandMat blo bhi B.val) C
      (doMM add α M X X N alo ahi blo bhi clo chi A B adm bdm crm ccm cdm g G C) := by
  unfold doMM
  have r1 := rowMM_spec add α M N X alo ahi blo bhi clo chi A B crm g h1 h2 h3 h4 hMX hclo hchi C
  have r2 := rowT_spec add α M N X alo ahi blo bhi clo chi A B ccm g h1 h2 h3 h4 hNX hclo hchi C
  have r3 := opMM_spec add α M N X alo ahi blo bhi clo chi h1 h4 (by omega) (by omega) A.val B.val C
  by_cases c1 : A.rm = true ∧ crm = true
  · rw [if_pos c1]; exact r1
  rw [if_neg c1]
  by_cases c2 : A.cm = true ∧ B.rm = true
  · rw [if_pos c2]; exact r3
  rw [if_neg c2]
  by_cases c3 : B.cm = true ∧ ccm = true
  · rw [if_pos c3]; exact r2
  rw [if_neg c3]
  by_cases c4 : add = false ∨ α = 1 ∨ α = -1
  · rw [if_pos c4]
    exact diagMM_spec add α M N X alo ahi blo bhi clo chi h1 (by omega) (by omega) A.val B.val C c4
  rw [if_neg c4]
  by_cases c5 : adm = true ∧ bdm = true ∧ cdm = true
  · rw [if_pos c5]
    exact putB_spec (diagMM_spec false 1 M N X alo ahi blo bhi clo chi h1 (by omega) (by omega) A.val B.val G (Or.inl rfl))
  rw [if_neg c5]
  by_cases c6 : A.rm = true ∨ crm = true
  · rw [if_pos c6]; exact r1
  rw [if_neg c6]
  by_cases c7 : A.cm = true ∨ B.rm = true
  · rw [if_pos c7]; exact r3
  rw [if_neg c7]
  exact r2

theorem tempMM_spec (add : Bool) (α : K) (M X N alo ahi blo bhi clo chi : Nat) (A B : BArg K) (adm bdm crm ccm : Bool) (g : Nat → K)
    (h1 : alo < M) (h2 : ahi < X) (h3 : blo < X) (h4 : bhi < N) (hMX : M ≤ X + alo) (hNX : N ≤ X + bhi)
    (hclo : clo = min (M-1) (alo+blo)) (hchi : chi = min (N-1) (ahi+bhi)) (G C : Nat → Nat → K) :
    MulAddBR add α M X N clo chi (bandMat alo ahi A.val) (bandMat blo bhi B.val) C
      (tempMM add α M X X N alo ahi blo bhi clo chi A B adm bdm crm ccm g G C) := by
  unfold tempMM
  have d := fun a b c => doMM_spec false 1 M X N alo ahi blo bhi clo chi A B adm bdm a b c g h1 h2 h3 h4 hMX hNX hclo hchi G G
  split
  · exact putB_spec (d _ _ _)
  · split
    · exact putB_spec (d _ _ _)
    · exact putB_spec (d _ _ _)

theorem mulAddBR_star {add : Bool} {α : K} {M X N clo chi alo ahi blo bhi : Nat} {A B : BArg K} {C Z : Nat → Nat → K}
    (h : MulAddBR add (star α) M X N clo chi (bandMat alo ahi A.cjg.val) (bandMat blo bhi B.cjg.val) C Z) :
    MulAddBR add α M X N clo chi (bandMat alo ahi A.val) (bandMat blo bhi B.val) (mval true C) (mval true Z) := by
  intro i j
  have hb : ∀ lo hi (A : BArg K) i j, bandMat lo hi A.cjg.val i j = star (bandMat lo hi A.val i j) := by
    intro lo hi A i j
    simp only [bandMat, BArg.val, BArg.cjg, cj_not]
    split <;> simp
  simp only [mval, cj, if_true]
  rw [h i j]
  split
  · rw [star_add, star_mul', star_sum, star_star]
    congr 1
    · cases add <;> simp
    · congr 1
      refine Finset.sum_congr rfl fun k _ => ?_
      rw [hb, hb, star_mul', star_star, star_star]
  · rfl

theorem mval_zero (cc : Bool) (p : Nat → Nat → Prop) [∀ r c, Decidable (p r c)] (C : Nat → Nat → K) (r c : Nat) :
    mval cc (fun r c => if p r c then 0 else C r c) r c = if p r c then 0 else mval cc C r c := by
  simp only [mval]
  split
  · exact cj_z cc
  · rfl

theorem multMM_spec (add : Bool) (adm bdm crm ccm cdm ss : Bool) (g : Nat → K) (G : Nat → Nat → K) :
    ∀ (fuel : Nat) (α : K) (M X N alo ahi blo bhi clo chi : Nat) (A B : BArg K) (cc : Bool) (C : Nat → Nat → K),
    M + 2*X + N + clo + chi + (if cc then 1 else 0) < fuel → (0 < M → alo < M) → (0 < X → ahi < X) → (0 < X → blo < X) → (0 < N → bhi < N) →
    min (M-1) (alo+blo) ≤ clo → min (N-1) (ahi+bhi) ≤ chi → (blo = 0 ∨ X ≤ N + blo) →
    MulAddBR add α M X N clo chi (bandMat alo ahi A.val) (bandMat blo bhi B.val) (mval cc C)
      (mval cc (multMM add adm bdm crm ccm cdm ss g G fuel α M X X N alo ahi blo bhi clo chi A B cc C)) := by
  intro fuel
  induction fuel with
  | zero => intro α M X N alo ahi blo bhi clo chi A B cc C h; omega
  | succ f ih =>
    intro α M X N alo ahi blo bhi clo chi A B cc C hf h1 h2 h3 h4 hclo hchi hb
    simp only [multMM]
    by_cases h0 : M > 0 ∧ N > 0
    swap
    · rw [if_neg h0]
      intro i j
      rw [if_neg (by omega)]
    rw [if_pos h0]
    replace h1 := h1 h0.1
    replace h4 := h4 h0.2
    by_cases hz : X = 0 ∨ α = 0
    · rw [if_pos hz]
      intro i j
      have e : mval cc (if add = true then C else zeroB M N clo chi C) i j =
          if i < M ∧ j < N ∧ i ≤ j + clo ∧ j ≤ i + chi then (if add then mval cc C i j else 0) else mval cc C i j := by
        cases add with
        | true => simp
        | false =>
          simp only [Bool.false_eq_true, if_false]
          exact mval_zero cc (fun i j => i < M ∧ j < N ∧ i ≤ j + clo ∧ j ≤ i + chi) C i j
      rw [e]
      split
      · rcases hz with rfl | rfl <;> simp
      · rfl
    rw [if_neg hz]
    push Not at hz
    replace h2 := h2 (by omega)
    replace h3 := h3 (by omega)
    by_cases c1 : X > M + ahi
    · rw [if_pos c1]
      have hs := ih α M (M+ahi) N alo ahi (min blo (M+ahi-1)) bhi clo chi A B cc C (by omega) (fun _ => h1) (fun _ => by omega)
        (fun _ => by omega) (fun _ => h4) (by clear * - hclo; omega) hchi (by clear hf hclo hchi; omega)
      intro i j
      rw [hs i j]
      split
      · congr 2
        symm
        refine sum_range_mono _ _ 0 (by omega) ?_ ?_
        · intro k hk
          rw [Nat.zero_add]
          simp only [bandMat]
          congr 1
          by_cases e : k ≤ j + blo ∧ j ≤ k + bhi
          · rw [if_pos e, if_pos (by omega)]
          · rw [if_neg e, if_neg (by omega)]
        · intro k hk hk'
          simp only [bandMat]
          rw [if_neg (show ¬ (i ≤ k + alo ∧ k ≤ i + ahi) by omega), zero_mul]
      · rfl
    rw [if_neg c1]
    by_cases c2 : M > X + alo
    · rw [if_pos c2]
      have hs := ih α (X+alo) X N alo ahi blo bhi (min clo (X+alo-1)) chi A B cc C (by omega) (fun _ => by omega) (fun _ => h2)
        (fun _ => h3) (fun _ => h4) (by clear * - hclo c2; omega) hchi hb
      have hzr : ∀ i j, X + alo ≤ i → ∑ k ∈ Finset.range X, bandMat alo ahi A.val i k * bandMat blo bhi B.val k j = 0 := by
        intro i j hi
        apply Finset.sum_eq_zero
        intro k hk
        have := Finset.mem_range.mp hk
        simp only [bandMat]
        rw [if_neg (show ¬ (i ≤ k + alo ∧ k ≤ i + ahi) by omega), zero_mul]
      intro i j
      have hs := hs i j
      cases add with
      | true =>
        simp only [if_true] at hs ⊢
        rw [hs]
        by_cases e1 : i < X + alo ∧ j < N ∧ i ≤ j + min clo (X+alo-1) ∧ j ≤ i + chi
        · rw [if_pos e1, if_pos (by omega)]
        · rw [if_neg e1]
          by_cases e2 : i < M ∧ j < N ∧ i ≤ j + clo ∧ j ≤ i + chi
          · rw [if_pos e2, hzr i j (by omega), mul_zero, add_zero]
          · rw [if_neg e2]
      | false =>
        simp only [Bool.false_eq_true, if_false] at hs ⊢
        refine (mval_zero cc (fun r c => X + alo ≤ r ∧ r < M ∧ c < N ∧ r ≤ c + clo ∧ c ≤ r + chi) _ i j).trans ?_
        by_cases e1 : i < X + alo ∧ j < N ∧ i ≤ j + min clo (X+alo-1) ∧ j ≤ i + chi
        · rw [if_pos e1] at hs
          rw [if_neg (by omega), if_pos (by omega), hs]
        · rw [if_neg e1] at hs
          by_cases e2 : i < M ∧ j < N ∧ i ≤ j + clo ∧ j ≤ i + chi
          · rw [if_pos (by omega), if_pos e2, hzr i j (by omega), mul_zero, add_zero]
          · rw [if_neg (fun h => e2 h.2), if_neg e2, hs]
    rw [if_neg c2]
    by_cases c3 : X > N + blo
    · rw [if_pos c3]
      obtain rfl : blo = 0 := by omega
      have hs := ih α M N N alo (min ahi (N-1)) 0 bhi clo chi A B cc C (by omega) (fun _ => h1) (fun _ => by omega)
        (fun _ => by omega) (fun _ => h4) hclo (by clear * - hchi; omega) (Or.inl rfl)
      intro i j
      rw [Nat.add_zero, hs i j]
      split
      · congr 2
        symm
        refine sum_range_mono _ _ 0 (by omega) ?_ ?_
        · intro k hk
          rw [Nat.zero_add]
          simp only [bandMat]
          congr 1
          by_cases e : i ≤ k + alo ∧ k ≤ i + ahi
          · rw [if_pos e, if_pos (by omega)]
          · rw [if_neg e, if_neg (by omega)]
        · intro k hk hk'
          simp only [bandMat]
          rw [if_neg (show ¬ (k ≤ j + 0 ∧ j ≤ k + bhi) by omega), mul_zero]
      · rfl
    rw [if_neg c3]
    by_cases c4 : N > X + bhi
    · rw [if_pos c4]
      have hs := ih α M X (X+bhi) alo ahi blo bhi clo (min chi (X+bhi-1)) A B cc C (by omega) (fun _ => h1) (fun _ => h2)
        (fun _ => h3) (fun _ => by omega) hclo (by clear * - hchi c4; omega) (by omega)
      have hzr : ∀ i j, X + bhi ≤ j → ∑ k ∈ Finset.range X, bandMat alo ahi A.val i k * bandMat blo bhi B.val k j = 0 := by
        intro i j hi
        apply Finset.sum_eq_zero
        intro k hk
        have := Finset.mem_range.mp hk
        simp only [bandMat]
        rw [if_neg (show ¬ (k ≤ j + blo ∧ j ≤ k + bhi) by omega), mul_zero]
      intro i j
      have hs := hs i j
      cases add with
      | true =>
        simp only [if_true] at hs ⊢
        rw [hs]
        by_cases e1 : i < M ∧ j < X + bhi ∧ i ≤ j + clo ∧ j ≤ i + min chi (X+bhi-1)
        · rw [if_pos e1, if_pos (by omega)]
        · rw [if_neg e1]
          by_cases e2 : i < M ∧ j < N ∧ i ≤ j + clo ∧ j ≤ i + chi
          · rw [if_pos e2, hzr i j (by omega), mul_zero, add_zero]
          · rw [if_neg e2]
      | false =>
        simp only [Bool.false_eq_true, if_false] at hs ⊢
        refine (mval_zero cc (fun r c => r < M ∧ X + bhi ≤ c ∧ c < N ∧ r ≤ c + clo ∧ c ≤ r + chi) _ i j).trans ?_
        by_cases e1 : i < M ∧ j < X + bhi ∧ i ≤ j + clo ∧ j ≤ i + min chi (X+bhi-1)
        · rw [if_pos e1] at hs
          rw [if_neg (by omega), if_pos (by omega), hs]
        · rw [if_neg e1] at hs
          by_cases e2 : i < M ∧ j < N ∧ i ≤ j + clo ∧ j ≤ i + chi
          · rw [if_pos (by omega), if_pos e2, hzr i j (by omega), mul_zero, add_zero]
          · rw [if_neg (fun h => e2 ⟨h.1, h.2.2⟩), if_neg e2, hs]
    rw [if_neg c4]
    by_cases c5 : chi > min (N-1) (ahi+bhi) ∨ clo > min (M-1) (alo+blo)
    · rw [if_pos c5]
      have hs := ih α M X N alo ahi blo bhi (min (M-1) (alo+blo)) (min (N-1) (ahi+bhi)) A B cc C (by omega) (fun _ => h1) (fun _ => h2)
        (fun _ => h3) (fun _ => h4) (le_refl _) (le_refl _) hb
      intro i j
      have hs := hs i j
      have pz := prod_zero M X N alo ahi blo bhi _ _ (le_refl _) (le_refl _) A.val B.val i j
      generalize min (M-1) (alo+blo) = nlo at *
      generalize min (N-1) (ahi+bhi) = nhi at *
      cases add with
      | true =>
        simp only [if_true] at hs ⊢
        rw [hs]
        by_cases e1 : i < M ∧ j < N ∧ i ≤ j + nlo ∧ j ≤ i + nhi
        · rw [if_pos e1, if_pos (by omega)]
        · rw [if_neg e1]
          by_cases e2 : i < M ∧ j < N ∧ i ≤ j + clo ∧ j ≤ i + chi
          · rw [if_pos e2, pz e2.1 e2.2.1 (by omega), mul_zero, add_zero]
          · rw [if_neg e2]
      | false =>
        simp only [Bool.false_eq_true, if_false] at hs ⊢
        refine (mval_zero cc (fun r c => r < M ∧ c < N ∧ ((c + nlo < r ∧ r ≤ c + clo) ∨ (r + nhi < c ∧ c ≤ r + chi))) _ i j).trans ?_
        by_cases e1 : i < M ∧ j < N ∧ i ≤ j + nlo ∧ j ≤ i + nhi
        · rw [if_pos e1] at hs
          rw [if_neg (by omega), if_pos (by omega), hs]
        · rw [if_neg e1] at hs
          by_cases e2 : i < M ∧ j < N ∧ i ≤ j + clo ∧ j ≤ i + chi
          · rw [if_pos (by omega), if_pos e2, pz e2.1 e2.2.1 (by omega), mul_zero, add_zero]
          · rw [if_neg (by omega), if_neg e2, hs]
    rw [if_neg c5]
    cases cc with
    | true =>
      simp only [if_true] at hf ⊢
      refine mulAddBR_star ?_
      have := ih (star α) M X N alo ahi blo bhi clo chi A.cjg B.cjg false C (by simp only [Bool.false_eq_true, if_false]; omega)
        (fun _ => h1) (fun _ => h2) (fun _ => h3) (fun _ => h4) hclo hchi hb
      exact this
    | false =>
      simp only [Bool.false_eq_true, if_false]
      have e1 : clo = min (M-1) (alo+blo) := by omega
      have e2 : chi = min (N-1) (ahi+bhi) := by omega
      cases ss with
      | true =>
        simp only [if_true]
        exact tempMM_spec add α M X N alo ahi blo bhi clo chi A B adm bdm crm ccm g h1 h2 h3 h4 (by omega) (by omega) e1 e2 G C
      | false =>
        simp only [Bool.false_eq_true, if_false]
        exact doMM_spec add α M X N alo ahi blo bhi clo chi A B adm bdm crm ccm cdm g h1 h2 h3 h4 (by omega) (by omega) e1 e2 G C

/-- **C94.** `C (+)= alpha*A*B` for band matrices `A` (`M`×`X`) and `B` (`X`×`N`) of any storage and conjugation, `C` being a band
matrix wide enough for the product: every element of the band of `C` gets exactly the element of the product of the band
parts, nothing else is written; `A` or `B` may share memory with `C` (`ss`).  Proved unless `B` has subdiagonals and more than
`N + blo` rows. -/
theorem multBB_partial (add : Bool) (α : K) (M X N alo ahi blo bhi clo chi : Nat) (hAl : 0 < M → alo < M) (hAh : 0 < X → ahi < X)
    (hBl : 0 < X → blo < X) (hBh : 0 < N → bhi < N) (hCl : min (M-1) (alo+blo) ≤ clo) (hCh : min (N-1) (ahi+bhi) ≤ chi)
    (hB : blo = 0 ∨ X ≤ N + blo) (A B : BArg K) (adm bdm crm ccm cdm cc ss : Bool) (g : Nat → K) (G C : Nat → Nat → K) :
    MulAddBR add α M X N clo chi (bandMat alo ahi A.val) (bandMat blo bhi B.val) (mval cc C)
      (mval cc (multBB add α M X N alo ahi blo bhi clo chi A B adm bdm crm ccm cdm cc ss g G C)) :=
  multMM_spec add adm bdm crm ccm cdm ss g G _ α M X N alo ahi blo bhi clo chi A B cc C (by split <;> omega) hAl hAh hBl hBh hCl hCh hB

/-- The elements of the product that `C` has no place for are zero. -/
theorem multBB_outside (M X N alo ahi blo bhi clo chi : Nat) (hCl : min (M-1) (alo+blo) ≤ clo) (hCh : min (N-1) (ahi+bhi) ≤ chi)
    (A B : Nat → Nat → K) (i j : Nat) (hi : i < M) (hj : j < N) (h : ¬ (i ≤ j + clo ∧ j ≤ i + chi)) :
    ∑ k ∈ Finset.range X, bandMat alo ahi A i k * bandMat blo bhi B k j = 0 :=
  prod_zero M X N alo ahi blo bhi clo chi hCl hCh A B i j hi hj h

/-- A case: 4×5 times 5×4, two different bands, diagonal-major operands (`DiagMultMM`) and row-major ones (`RowMultMM`). -/
theorem multBB_example :
    let A : Nat → Nat → ℚ := fun i j => i + 2*j + 1
    let B : Nat → Nat → ℚ := fun i j => 2*i - j + 1
    let R := fun rm : Bool => multBB false 2 4 5 4 1 1 2 0 3 1 ⟨A, rm, false, false⟩ ⟨B, rm, false, false⟩ (!rm) (!rm) rm false (!rm) false false
      (fun _ => 0) (fun _ _ => 0) (fun _ _ => 7)
    (R true 2 0 = 100 ∧ R false 2 0 = 100) ∧ R true 3 3 = R false 3 3 ∧ R true 0 3 = 7 := by
  refine ⟨⟨?_, ?_⟩, ?_, ?_⟩ <;> decide +kernel

/-- **C94 is violated** for `B` with a subdiagonal and more than `N + blo` rows: `A` full 3×3, `B` 3×1 with one subdiagonal, all
elements 1: `C(0,0)` should be 2 and is 1, since line 528 of TMV_MultBB.cpp cuts the columns of `A` to `BB.rowsize()` instead of
`BB.colsize()`. -/
theorem multBB_violated :
    let R := multBB false 1 3 3 1 2 2 1 0 2 0 ⟨fun _ _ => (1:ℚ), true, false, false⟩ ⟨fun _ _ => 1, true, false, false⟩ false false true
      false false false false (fun _ => 0) (fun _ _ => 0) (fun _ _ => 0)
    R 0 0 = 1 ∧ ∑ k ∈ Finset.range 3, bandMat 2 2 (fun _ _ => (1:ℚ)) 0 k * bandMat 1 0 (fun _ _ => (1:ℚ)) k 0 = 2 := by
  refine ⟨?_, ?_⟩ <;> decide +kernel

end TMV.BandBB
