import Verif.Props.QRPDivMain

/-! C87 (finding): the loose block algorithm decomposes a column that it has swapped in without looking at its norm. -/
namespace TMV.QR
noncomputable section
open Classical TMV.Tri

/-- Columns `2 e₀, e₀, ..., e₀, e₁` (columns `0, 1..n-1, n`). -/
def badA (n : Nat) : Nat → Nat → ℝ := fun p c =>
  if c = 0 then (if p = 0 then 2 else 0) else if c < n then (if p = 0 then 1 else 0) else if c = n ∧ p = 1 then 1 else 0

theorem badA_00 (n : Nat) : badA n 0 0 = 2 := rfl
theorem badA_low {n : Nat} (hn : 0 < n) {p c : Nat} (hp : 1 ≤ p) (h : c < n ∨ 2 ≤ p) : badA n p c = 0 := by
  unfold badA
  by_cases h1 : c = 0
  · rw [if_pos h1, if_neg (by omega)]
  · rw [if_neg h1]
    by_cases h2 : c < n
    · rw [if_pos h2, if_neg (by omega)]
    · rw [if_neg h2, if_neg (by omega)]
theorem badA_0 {n c : Nat} (h1 : 1 ≤ c) (h2 : c < n) : badA n 0 c = 1 := by
  unfold badA
  rw [if_neg (by omega), if_pos h2, if_pos rfl]
theorem badA_1n {n : Nat} (hn : 1 ≤ n) : badA n 1 n = 1 := by
  unfold badA
  rw [if_neg (by omega), if_neg (by omega), if_pos ⟨rfl, rfl⟩]
theorem badA_0n {n : Nat} (hn : 1 ≤ n) : badA n 0 n = 0 := by
  unfold badA
  rw [if_neg (by omega), if_neg (by omega), if_neg (by omega)]
theorem badA_abs (n p c : Nat) : abs2 (badA n p c) ≤ 2 := by
  unfold badA abs2
  split_ifs <;> simp <;> norm_num
theorem badA_mid {n c c' : Nat} (h1 : 1 ≤ c) (h2 : c < n) (h3 : 1 ≤ c') (h4 : c' < n) (p : Nat) : badA n p c = badA n p c' := by
  unfold badA
  simp (disch := omega) only [if_neg, if_pos]

theorem badA_swap {n j k : Nat} (hj : 1 ≤ j) (hjn : j < n) (hk : 1 ≤ k) (hkn : k < n) : swapC (badA n) j k = badA n := by
  funext p c
  unfold swapC
  rcases swap_cases j k c with h | h | h
  · rw [h.2, h.1]; exact badA_mid hk hkn hj hjn p
  · rw [h.2.2, h.2.1]; exact badA_mid hj hjn hk hkn p
  · rw [h.2.2]

theorem maxAbs2_le {x : Nat → ℝ} {B : ℝ} (hB : 0 ≤ B) : ∀ n, (∀ i, i < n → abs2 (x i) ≤ B) → maxAbs2 x n ≤ B
  | 0, _ => hB
  | n+1, h => max_le (maxAbs2_le hB n fun i hi => h i (by omega)) (h n (by omega))

theorem maxAbs2M_le {A : Nat → Nat → ℝ} {B : ℝ} (hB : 0 ≤ B) (M : Nat) : ∀ n, (∀ p c, abs2 (A p c) ≤ B) → maxAbs2M M A n ≤ B
  | 0, _ => hB
  | n+1, h => max_le (maxAbs2M_le hB M n h) (maxAbs2_le hB M fun i _ => h i n)

theorem maxAbs2M_ge {A : Nat → Nat → ℝ} {M p c : Nat} (hp : p < M) : ∀ n, c < n → ‖A p c‖ ≤ maxAbs2M M A n
  | 0, h => absurd h (by omega)
  | n+1, h => by
    by_cases hc : c = n
    · subst hc
      exact (maxAbs2_ge (fun p => A p c) M p hp).trans (le_max_right _ _)
    · exact (maxAbs2M_ge hp n (by omega)).trans (le_max_left _ _)

theorem badA_scale {n : Nat} : qrpScale (n+1) (n+1) (badA n) = 1/2 := by
  have h : maxAbs2M (n+1) (badA n) (n+1) = 2 := by
    refine le_antisymm (maxAbs2M_le (by norm_num) _ _ (badA_abs n)) ?_
    have := maxAbs2M_ge (A := badA n) (M := n+1) (p := 0) (c := 0) (by omega) (n+1) (by omega)
    rw [badA_00] at this
    norm_num at this
    exact this
  unfold qrpScale
  rw [h, if_neg (by norm_num)]

theorem badA_cn (n k a b : Nat) : cnorm (1/2) (badA n) k a b = ∑ p ∈ Finset.Ico a b, badA n p k ^ 2 / 4 := by
  unfold cnorm
  refine Finset.sum_congr rfl fun p _ => ?_
  rw [RCLike.normSq_eq_def']
  simp only [RCLike.ofReal_real_eq_id, id, Real.norm_eq_abs, sq_abs]
  ring

theorem sum_single {a b q : Nat} (h1 : a ≤ q) (h2 : q < b) (f : Nat → ℝ) (h : ∀ p, p ≠ q → f p = 0) : ∑ p ∈ Finset.Ico a b, f p = f q :=
  Finset.sum_eq_single q (fun p _ hp => h p hp) fun hn => absurd (Finset.mem_Ico.mpr ⟨h1, h2⟩) hn

theorem badA_cn0 {n : Nat} (hn : 3 ≤ n) : cnorm (1/2) (badA n) 0 0 (n+1) = 1 := by
  rw [badA_cn, sum_single (q := 0) le_rfl (by omega), badA_00]
  · norm_num
  · intro p hp; rw [badA_low (by omega) (by omega) (Or.inl (by omega))]; norm_num

theorem badA_cnk {n k : Nat} (hn : 3 ≤ n) (h1 : 1 ≤ k) (h2 : k ≤ n) : cnorm (1/2) (badA n) k 0 (n+1) = 1/4 := by
  rw [badA_cn]
  by_cases hk : k = n
  · rw [hk, sum_single (q := 1) (by omega) (by omega), badA_1n (by omega)]
    · norm_num
    · intro p hp
      by_cases h0 : p = 0
      · rw [h0, badA_0n (by omega)]; norm_num
      · rw [badA_low (by omega) (by omega) (Or.inr (by omega))]; norm_num
  · rw [sum_single (q := 0) le_rfl (by omega), badA_0 h1 (by omega)]
    · norm_num
    · intro p hp; rw [badA_low (by omega) (by omega) (Or.inl (by omega))]; norm_num

/-- A column with zeros below the diagonal is left alone. -/
theorem reflectMat_flat {tiny : ℝ} (ht : 0 < tiny) {M N j : Nat} {A : Nat → Nat → ℝ} (det : ℝ) (h : ∀ p, j < p → A p j = 0) (hd : A j j = 0 ∨ tiny ≤ |A j j|) :
    reflectMat tiny M N j A det = (A, 0, det) := by
  have hm : ∀ n, maxAbs2 (fun i => A (j+1+i) j) n = 0 := by
    intro n
    induction n with
    | zero => rfl
    | succ n ih => rw [maxAbs2, ih, h (j+1+n) (by omega)]; simp [abs2]
  have hr : ∃ r : Refl ℝ, r = reflect tiny (M-(j+1)) (A j j) (fun i => A (j+1+i) j) det ∧ r.x0 = A j j ∧ (∀ i, r.x i = 0) ∧ r.beta = 0 ∧ r.det = det := by
    refine ⟨_, rfl, ?_⟩
    have hx : ∀ i, (fun i => A (j+1+i) j) i = 0 := fun i => h _ (by omega)
    have hx' : (fun i => if i < M-(j+1) then (0:ℝ) else A (j+1+i) j) = fun _ => 0 := by
      funext i; rw [h (j+1+i) (by omega)]; simp
    unfold reflect
    dsimp only
    rw [hm, hx']
    rcases hd with h0 | h0
    · rw [h0]
      simp [ht]
    · have hpos : 0 < |A j j| := ht.trans_le h0
      have : (if ‖A j j‖ > 0 then ‖A j j‖ else 0) = |A j j| := by rw [if_pos (by simpa using hpos)]; rfl
      rw [this, abs_abs, if_neg (not_lt.mpr h0), if_pos]
      · exact ⟨rfl, fun _ => rfl, rfl, rfl⟩
      · refine ⟨Finset.sum_eq_zero fun i _ => ?_, by simp⟩
        rw [h (j+1+i) (by omega)]; simp
  obtain ⟨r, hr, r1, r2, r3, r4⟩ := hr
  unfold reflectMat reflectCol
  dsimp only
  rw [← hr, r3, r4]
  simp only [ne_eq, not_true, if_false]
  congr 1
  funext a b
  rw [r1]
  split_ifs with h1 h2
  · rw [h1.1, h1.2]
  · rw [r2, h2.1, h _ h2.2.1]
  · rfl

section
variable {n : Nat} {tiny : ℝ}

/-- Inside the first block, `j` columns done. -/
structure BadInv (n j : Nat) (st : PSt ℝ) (Z : Nat → Nat → ℝ) : Prop where
  A : st.A = badA n
  cn : ∀ k, 1 ≤ k → k < n → st.cn k = 0
  cnn : st.cn n = 1/4
  P : ∀ k, j ≤ k → k < n → st.P k = k
  beta : ∀ k, k < j → st.beta k = 0
  Z : ∀ k l, k ≤ l → l < j → Z k l = 0
  det : st.det = 1

theorem augment_zero (M j1 j : Nat) (V Z : Nat → Nat → ℝ) : augment M j1 j V Z 0 = fun k l => if l = j ∧ j1 ≤ k ∧ k ≤ j then 0 else Z k l := by
  unfold augment
  rw [if_pos rfl]

theorem lStep_bad (ht : 0 < tiny) {j j2 : Nat} (hj : 1 ≤ j) (hjn : j < n) (hj2 : j2 ≤ n) {st : PSt ℝ} {Z : Nat → Nat → ℝ} (h : BadInv n j st Z) :
    BadInv n (j+1) (lStep tiny (1/2) (n+1) n 0 j j2 st Z).1 (lStep tiny (1/2) (n+1) n 0 j j2 st Z).2 := by
  have hr := reflectMat_flat (M := n+1) (N := n) (j := j) (A := badA n) ht st.det (fun p hp => badA_low (by omega) (by omega) (Or.inl hjn))
    (Or.inl (badA_low (by omega) hj (Or.inl hjn)))
  unfold lStep
  rw [h.A, hr]
  dsimp only
  rw [star_zero, augment_zero]
  refine ⟨rfl, ?_, ?_, fun k h1 h2 => h.P k (by omega) h2, ?_, ?_, h.det⟩
  · intro k h1 h2
    dsimp only
    rw [h.cn k h1 h2, badA_low (by omega) hj (Or.inl h2)]
    simp
  · show (if j < n ∧ n < j2 then _ else st.cn n) = _
    rw [if_neg (by omega), h.cnn]
  · intro k hk
    show (if k = j then (0:ℝ) else st.beta k) = 0
    by_cases hkj : k = j
    · rw [if_pos hkj]
    · rw [if_neg hkj]; exact h.beta k (by omega)
  · intro k l hkl hl
    show (if l = j ∧ 0 ≤ k ∧ k ≤ j then (0:ℝ) else Z k l) = 0
    by_cases hlj : l = j
    · rw [if_pos ⟨hlj, by omega, by omega⟩]
    · rw [if_neg (by omega)]; exact h.Z k l hkl (by omega)

theorem swapOut_bad {j j2 : Nat} (hj : 1 ≤ j) (hj2 : j < j2) (hn : j2 < n) {st : PSt ℝ} {Z : Nat → Nat → ℝ} (h : BadInv n j st Z) :
    ∃ q, swapOut j j2 st = q ∧ q.A = badA n ∧ (∀ k, 1 ≤ k → k < n → q.cn k = 0) ∧ q.cn n = 1/4 ∧ (∀ k, j < k → k < n → q.P k = k) ∧
      q.beta = st.beta ∧ q.det = st.det := by
  have e : swapOut j j2 st = { st with A := swapC st.A j j2, cn := swapV st.cn j j2, P := setP st.P j j2 } := by
    unfold swapOut
    dsimp only
    rw [h.P j2 (by omega) (by omega), h.P j le_rfl (by omega), if_neg (by omega), if_neg (by omega)]
  refine ⟨_, e, ?_, ?_, ?_, ?_, rfl, rfl⟩
  · show swapC st.A j j2 = _
    rw [h.A, badA_swap hj (by omega) (by omega) hn]
  · intro k h1 h2
    show st.cn (Equiv.swap j j2 k) = 0
    refine h.cn _ ?_ ?_ <;> rcases swap_cases j j2 k with h | h | h <;> omega
  · show st.cn (Equiv.swap j j2 n) = _
    rw [Equiv.swap_apply_of_ne_of_ne (by omega) (by omega), h.cnn]
  · intro k h1 h2
    show (if k = j then _ else st.P k) = k
    rw [if_neg (by omega)]
    exact h.P k (by omega) h2

theorem lInner_bad (ht : 0 < tiny) {rt : ℝ} (hrt : 0 < rt) : ∀ (f j j2 : Nat) (st : PSt ℝ) (Z : Nat → Nat → ℝ), 1 ≤ j → j ≤ j2 → j2 ≤ j + f → j2 ≤ n →
    BadInv n j st Z → ∃ j2' st' Z', lInner tiny (1/2) rt (n+1) n 0 f j j2 st Z = (j2', st', Z') ∧ j ≤ j2' ∧ j2' ≤ j2 ∧ (j + 1 < j2 → j < j2') ∧ BadInv n j2' st' Z' := by
  intro f
  induction f with
  | zero => intro j j2 st Z h1 h2 h3 h4 h; exact ⟨j2, st, Z, rfl, h2, le_rfl, fun _ => by omega, by rw [show j2 = j by omega]; exact h⟩
  | succ f ih =>
    intro j j2 st Z h1 h2 h3 h4 h
    rw [lInner]
    by_cases hlt : j < j2
    · rw [if_pos hlt, if_pos (by rw [h.cn j h1 (by omega)]; exact hrt)]
      dsimp only
      by_cases he : j = j2 - 1
      · rw [if_pos he]
        exact ⟨_, _, _, rfl, by omega, by omega, fun _ => by omega, by rw [← he]; exact h⟩
      · rw [if_neg he]
        obtain ⟨q, hq, q1, q2, q3, q4, q5, q6⟩ := swapOut_bad h1 (show j < j2-1 by omega) (by omega) h
        rw [hq]
        have hs : BadInv n (j+1) (lStep tiny (1/2) (n+1) n 0 j (j2-1) q Z).1 (lStep tiny (1/2) (n+1) n 0 j (j2-1) q Z).2 := by
          -- the interchange recorded in `P[j]` is not looked at any more
          obtain ⟨q', hq'⟩ : ∃ q' : PSt ℝ, q' = { q with P := fun k => if k = j then j else q.P k } := ⟨_, rfl⟩
          have hi : BadInv n j q' Z := by
            rw [hq']
            refine ⟨q1, q2, q3, fun k h5 h6 => ?_, fun k hk => by show q.beta k = 0; rw [q5]; exact h.beta k hk, h.Z, by show q.det = 1; rw [q6]; exact h.det⟩
            show (if k = j then j else q.P k) = k
            by_cases hk : k = j
            · rw [if_pos hk, hk]
            · rw [if_neg hk]; exact q4 k (by omega) h6
          have := lStep_bad ht h1 (show j < n by omega) (show j2 - 1 ≤ n by omega) hi
          rw [hq'] at this
          exact ⟨this.A, this.cn, this.cnn, fun k h5 h6 => q4 k (by omega) h6, this.beta, this.Z, this.det⟩
        obtain ⟨j2', st', Z', e1, e2, e3, e4, e5⟩ := ih (j+1) (j2-1) _ _ (by omega) (by omega) (by omega) (by omega) hs
        exact ⟨j2', st', Z', e1, by omega, by omega, fun _ => by omega, e5⟩
    · rw [if_neg hlt]
      exact ⟨j2, st, Z, rfl, h2, le_rfl, fun _ => by omega, by rw [show j2 = j by omega]; exact h⟩

theorem moveLowLoop_id {rt : ℝ} : ∀ (f i j2 j3 : Nat) (st : PSt ℝ), (∀ k, i ≤ k → k < j2 → ¬ st.cn k < rt) → j2 ≤ i + f →
    ∃ P, moveLowLoop rt f i j2 j3 st = (j2, j3, { st with P := P }) ∧ (∀ k, P k = if i ≤ k ∧ k < j2 then k else st.P k)
  | 0, i, j2, j3, st, _, hf => ⟨st.P, rfl, fun k => by rw [if_neg (by omega)]⟩
  | f+1, i, j2, j3, st, h, hf => by
    rw [moveLowLoop]
    by_cases hi : i < j2
    · rw [if_pos hi, if_neg (h i le_rfl hi)]
      obtain ⟨P, e1, e2⟩ := moveLowLoop_id f (i+1) j2 j3 { st with P := setP st.P i i } (fun k h1 h2 => h k (by omega) h2) (by omega)
      refine ⟨P, e1, fun k => ?_⟩
      rw [e2 k]
      show (if i+1 ≤ k ∧ k < j2 then k else if k = i then i else st.P k) = _
      by_cases h1 : i+1 ≤ k ∧ k < j2
      · rw [if_pos h1, if_pos (by omega)]
      · rw [if_neg h1]
        by_cases h2 : k = i
        · rw [if_pos h2, if_pos (by omega), h2]
        · rw [if_neg h2, if_neg (by omega)]
    · rw [if_neg hi]
      exact ⟨st.P, rfl, fun k => by rw [if_neg (by omega)]⟩

theorem putBack_id {j2 : Nat} : ∀ (f j : Nat) (st : PSt ℝ), (∀ k, j ≤ k → k < j+f → st.P k = k) → putBack j2 f j st = st
  | 0, _, _, _ => rfl
  | f+1, j, st, h => by
    rw [putBack, h j le_rfl (by omega), swapC_self, swapV_self]
    rw [show (if j > j2 then ({ A := st.A, beta := st.beta, P := st.P, cn := st.cn, det := st.det } : PSt ℝ) else st) = st by split_ifs <;> rfl]
    exact putBack_id f (j+1) st fun k h1 h2 => h k (by omega) (by omega)

theorem blockLDiv_zero {M b c0 c1 : Nat} {V Z m : Nat → Nat → ℝ} (h : ∀ k l, k ≤ l → l < b → Z k l = 0) : blockLDiv M 0 b c0 c1 V Z m = m := by
  unfold blockLDiv subYW
  have hW : ∀ k, k ∈ Finset.Ico 0 b → ∀ c, ∑ l ∈ Finset.Ico 0 (k+1), star (Z l k) * ytm M 0 b V m l c = 0 := by
    intro k hk c
    rw [Finset.mem_Ico] at hk
    refine Finset.sum_eq_zero fun l hl => ?_
    rw [Finset.mem_Ico] at hl
    rw [h l k (by omega) hk.2, star_zero, zero_mul]
  funext p c
  have e1 : ∑ k ∈ Finset.Ico 0 b, ul V p k * ∑ l ∈ Finset.Ico 0 (k+1), star (Z l k) * ytm M 0 b V m l c = 0 :=
    Finset.sum_eq_zero fun k hk => by rw [hW k hk, mul_zero]
  have e2 : ∑ k ∈ Finset.Ico 0 b, V p k * ∑ l ∈ Finset.Ico 0 (k+1), star (Z l k) * ytm M 0 b V m l c = 0 :=
    Finset.sum_eq_zero fun k hk => by rw [hW k hk, mul_zero]
  rw [e1, e2, sub_zero]
  split_ifs <;> rfl

/-- The first block. -/
theorem lBlock_bad (ht : 0 < tiny) (ht1 : tiny ≤ 2) (hn : 3 ≤ n) {rt : ℝ} (hrt : 0 < rt) (hrt4 : rt ≤ 1/4) (Z0 : Nat → Nat → ℝ) (st : PSt ℝ)
    (hA : st.A = badA n) (hc0 : st.cn 0 = 1) (hcn : ∀ k, 1 ≤ k → k ≤ n → st.cn k = 1/4) (hP0 : st.P 0 = 0) (hd : st.det = 1) :
    ∃ j2 q, lBlock tiny (1/2) rt n (n+1) (n+1) 0 1 (n+1) st Z0 = (j2, n+1, q) ∧ 2 ≤ j2 ∧ j2 ≤ n ∧ q.A = badA n ∧ (∀ k, 1 ≤ k → k ≤ n → q.cn k = 0) ∧
      (∀ k, k < j2 → q.beta k = 0) ∧ q.det = 1 := by
  have hsd : scanDown st.cn rt 1 n = n := by
    obtain ⟨n, rfl⟩ : ∃ m, n = m+1 := ⟨n-1, by omega⟩
    rw [scanDown, if_neg (by rw [hcn _ (by omega) le_rfl]; intro h; linarith [h.2])]
  obtain ⟨P, p1, p2⟩ := moveLowLoop_id (rt := rt) (n-1) 1 n n st (fun k h1 h2 => by rw [hcn k h1 (by omega)]; linarith) (by omega)
  have hml : moveLow rt 1 (min (n+1) (0+n)) (n+1) st = (n, n+1, { st with P := P }) := by
    unfold moveLow
    dsimp only
    rw [show n + 1 - 1 = n by omega, hsd, if_neg (by omega), show min (n+1) (0+n) = n by omega, if_neg (by omega), p1]
  unfold lBlock
  dsimp only
  rw [hml]
  dsimp only
  -- the first column
  have hr := reflectMat_flat (M := n+1) (N := n) (j := 0) (A := badA n) ht (1:ℝ) (fun p hp => badA_low (by omega) (by omega) (Or.inl (by omega)))
    (Or.inr (by rw [badA_00, abs_of_pos (by norm_num)]; exact ht1))
  have hs : BadInv n 1 (lStep tiny (1/2) (n+1) n 0 0 n { st with P := P } Z0).1 (lStep tiny (1/2) (n+1) n 0 0 n { st with P := P } Z0).2 := by
    unfold lStep
    dsimp only
    rw [hA, hd, hr]
    dsimp only
    rw [star_zero, augment_zero]
    refine ⟨rfl, ?_, ?_, ?_, ?_, ?_, rfl⟩
    · intro k h1 h2
      dsimp only
      rw [if_pos (by omega), hcn k h1 (by omega), badA_0 h1 h2, RCLike.normSq_eq_def']
      simp only [RCLike.ofReal_real_eq_id, id, Real.norm_eq_abs, sq_abs]
      norm_num
    · show (if 0 < n ∧ n < n then _ else st.cn n) = _
      rw [if_neg (by omega), hcn n (by omega) le_rfl]
    · intro k h1 h2
      show P k = k
      rw [p2, if_pos ⟨h1, h2⟩]
    · intro k hk
      exact if_pos (by omega)
    · intro k l hkl hl
      exact if_pos (by omega)
  obtain ⟨f, hf⟩ : ∃ f, n - 0 = f + 1 := ⟨n-1, by omega⟩
  obtain ⟨j2, q, Z, e1, e2, e3, e4, e5⟩ := lInner_bad ht hrt f 1 n _ _ le_rfl (by omega) (by omega) le_rfl hs
  rw [hf, lInner, if_pos (by omega), if_neg (show ¬ st.cn 0 < rt by rw [hc0]; linarith)]
  dsimp only
  rw [e1]
  dsimp only
  have hj2 := e4 (by omega)
  obtain ⟨u, hu⟩ : ∃ u, u = lUpdate (1/2) (n+1) (n+1) 0 j2 n q Z := ⟨_, rfl⟩
  obtain ⟨cn', hcn'⟩ : ∃ cn' : Nat → ℝ, cn' = fun k => if n ≤ k ∧ k < n+1 then
      (if n+1-j2 > j2-0 then q.cn k - cnorm (1/2) (badA n) k 0 j2 else cnorm (1/2) (badA n) k j2 (n+1)) else q.cn k := ⟨_, rfl⟩
  have hu' : u = { q with cn := cn' } := by
    rw [hu]
    unfold lUpdate
    rw [if_pos (by omega), e5.A, blockLDiv_zero e5.Z]
    dsimp only
    rw [hcn', ← e5.A]
  rw [← hu, putBack_id]
  · refine ⟨j2, u, rfl, hj2, e3, by rw [hu']; exact e5.A, ?_, by rw [hu']; exact e5.beta, by rw [hu']; exact e5.det⟩
    intro k h1 h2
    rw [hu', hcn']
    dsimp only
    by_cases hk : k = n
    · rw [if_pos (by omega), hk, e5.cnn]
      split_ifs
      · rw [badA_cn, sum_single (q := 1) (by omega) (by omega), badA_1n (by omega)]
        · norm_num
        · intro p hp
          by_cases h0 : p = 0
          · rw [h0, badA_0n (by omega)]; norm_num
          · rw [badA_low (by omega) (by omega) (Or.inr (by omega))]; norm_num
      · rw [badA_cn]
        refine Finset.sum_eq_zero fun p hp => ?_
        rw [Finset.mem_Ico] at hp
        rw [badA_low (by omega) (by omega) (Or.inr (by omega))]; norm_num
    · rw [if_neg (by omega)]
      exact e5.cn k h1 (by omega)
  · intro k h1 h2
    rw [hu']
    exact e5.P k h1 (by omega)

/-- The whole decomposition leaves the matrix as it was. -/
theorem qrp_bad (ht : 0 < tiny) (ht1 : tiny ≤ 2) (hn : 3 ≤ n) {eps sqe : ℝ} (heps : 0 < eps) (he : (n+1) ^ 2 * eps ^ 2 ≤ 1/4) (hsq : 0 < sqe) (hsq4 : (n+1) * sqe ≤ 1/4)
    (Z0 : Nat → Nat → ℝ) (beta0 : Nat → ℝ) (P0 : Nat → Nat) (fuel : Nat) (hfu : 5 ≤ fuel) :
    ∃ r, qrp tiny eps sqe false n (n+1) (n+1) (badA n) Z0 beta0 P0 1 fuel = some r ∧ r.A = badA n ∧ ∀ k, k ≤ n → r.beta k = 0 := by
  obtain ⟨f, rfl⟩ : ∃ f, fuel = f+5 := ⟨fuel-5, by omega⟩
  unfold qrp
  rw [if_pos (by omega), if_pos (by omega), if_neg (by simp)]
  unfold looseQRP
  dsimp only
  obtain ⟨st, hst⟩ : ∃ st, st = qrpInit (n+1) (n+1) (badA n) beta0 P0 1 := ⟨_, rfl⟩
  have hA : st.A = badA n := by rw [hst]; rfl
  have hdet : st.det = 1 := by rw [hst]; rfl
  have hcn : ∀ k, k ≤ n → st.cn k = cnorm (1/2) (badA n) k 0 (n+1) := by
    intro k hk
    rw [hst, ← badA_scale (n := n)]
    exact if_pos ⟨Nat.zero_le _, by omega⟩
  have hc0 : st.cn 0 = 1 := by rw [hcn 0 (by omega), badA_cn0 hn]
  have hck : ∀ k, 1 ≤ k → k ≤ n → st.cn k = 1/4 := fun k h1 h2 => by rw [hcn k h2, badA_cnk hn h1 h2]
  rw [← hst, badA_scale]
  obtain ⟨th, hth⟩ : ∃ th, th = qrpThresh eps (n+1) st.cn := ⟨_, rfl⟩
  rw [← hth]
  have hsum : ∑ k ∈ Finset.range (n+1), st.cn k = 1 + n * (1/4) := by
    rw [Finset.sum_range_succ', hc0, Finset.sum_congr rfl (g := fun _ => (1/4 : ℝ)) fun k hk => hck (k+1) (by omega) (by have := Finset.mem_range.mp hk; omega)]
    simp; ring
  have hn0 : (0:ℝ) ≤ n := Nat.cast_nonneg n
  have hth0 : 0 < th := by
    rw [hth]; unfold qrpThresh; rw [hsum]; push_cast; positivity
  have hth4 : th ≤ 1/4 := by
    refine le_trans ?_ he
    rw [hth]; unfold qrpThresh; rw [hsum]; push_cast
    have : (1 + (n:ℝ) * (1/4)) ≤ n + 1 := by linarith
    calc ((n:ℝ)+1) * eps ^ 2 * (1 + n * (1/4)) ≤ (n+1) * eps ^ 2 * (n+1) := mul_le_mul_of_nonneg_left this (by positivity)
      _ = _ := by ring
  have am : argMax st.cn 0 (n+1-0) = 0 := by
    have := argMax_spec st.cn 0 (n+1-0) (by omega)
    by_contra hne
    have h1 := this.2.2 0 le_rfl (by omega)
    rw [hc0, hck _ (by omega) (by omega)] at h1
    norm_num at h1
  obtain ⟨rt, hrt⟩ : ∃ rt, rt = if ((n+1 : Nat) : ℝ) * sqe * 1 < th then th else ((n+1 : Nat) : ℝ) * sqe * 1 := ⟨_, rfl⟩
  have hrt0 : 0 < rt := by rw [hrt]; split_ifs; exacts [hth0, by positivity]
  have hrt4 : rt ≤ 1/4 := by
    rw [hrt]
    split_ifs
    · exact hth4
    · push_cast; linarith
  obtain ⟨j2, q, b1, b2, b3, b4, b5, b6, b7⟩ := lBlock_bad ht ht1 hn hrt0 hrt4 Z0 { st with P := setP st.P 0 0 } hA hc0 hck (by simp [setP]) hdet
  have hb2 : lBlock tiny (1/2) rt n (n+1) (n+1) j2 j2 (n+1) q Z0 = (j2, j2, q) := by
    have m1 : moveLow rt j2 (min (n+1) (j2+n)) (n+1) q = (j2, j2, q) := by
      unfold moveLow
      dsimp only
      rw [scanDown_all q.cn rt j2 (n+1-1) (by omega) fun k _ h => by rw [b5 k (by omega) (by omega)]; exact hrt0, if_pos rfl,
        if_pos (by rw [b5 j2 (by omega) b3]; exact hrt0)]
    unfold lBlock
    dsimp only
    rw [m1]
    dsimp only
    rw [show lInner tiny (1/2) rt (n+1) j2 j2 (j2-j2) j2 j2 q Z0 = (j2, q, Z0) by rw [Nat.sub_self]; rfl]
    dsimp only
    rw [show lUpdate (1/2) (n+1) (n+1) j2 j2 j2 q Z0 = q from if_neg (by omega), Nat.sub_self]
    rfl
  have hw : lWhile tiny (1/2) rt n (n+1) (n+1) Z0 (f+4) 0 1 (n+1) { st with P := setP st.P 0 0 } = some (j2, j2, q) := by
    rw [lWhile, if_pos (by omega), b1]
    dsimp only
    rw [lWhile, if_pos (by omega), hb2]
    dsimp only
    rw [lWhile, if_neg (by omega)]
  obtain ⟨q2, hq2⟩ : ∃ q2, q2 = recalc (1/2) (n+1) (n+1) j2 j2 q := ⟨_, rfl⟩
  have hq2c : ∀ k, j2 ≤ k → k ≤ n → q2.cn k = 0 := by
    intro k h1 h2
    rw [hq2]
    show (if j2 ≤ k ∧ k < n+1 then cnorm (1/2) q.A k j2 (n+1) else _) = 0
    rw [if_pos (by omega), b4, badA_cn]
    refine Finset.sum_eq_zero fun p hp => ?_
    rw [Finset.mem_Ico] at hp
    rw [badA_low (by omega) (by omega) (Or.inr (by omega))]; norm_num
  have ho : lOuter tiny sqe (1/2) th n (n+1) (n+1) Z0 (f+5) 0 st = some (zeroRest (n+1) (n+1) j2 q2) := by
    rw [lOuter, if_pos (by omega)]
    dsimp only
    rw [am, hc0, if_neg (show ¬ (1:ℝ) < th by linarith), ← hrt, if_neg (show ¬ ((0:Nat) ≠ 0) by simp), hw]
    dsimp only
    rw [if_pos (by omega), ← hq2, lOuter, if_pos (by omega)]
    dsimp only
    rw [if_pos]
    have := argMax_spec q2.cn j2 (n+1-j2) (by omega)
    rw [hq2c _ this.1 (by omega)]
    exact hth0
  rw [ho]
  refine ⟨_, rfl, ?_, ?_⟩
  · have e : ∀ b : Bool, (zeroRest (n+1) (n+1) j2 q2).A = badA n := by
      intro _
      funext p c
      show (if j2 ≤ p ∧ p < n+1 ∧ j2 ≤ c ∧ c < n+1 then 0 else q2.A p c) = _
      rw [hq2]
      show (if j2 ≤ p ∧ p < n+1 ∧ j2 ≤ c ∧ c < n+1 then 0 else q.A p c) = _
      rw [b4]
      by_cases h : j2 ≤ p ∧ p < n+1 ∧ j2 ≤ c ∧ c < n+1
      · rw [if_pos h, badA_low (by omega) (by omega) (Or.inr (by omega))]
      · rw [if_neg h]
    beta_reduce
    split_ifs <;> exact e true
  · intro k hk
    have e : (zeroRest (n+1) (n+1) j2 q2).beta k = 0 := by
      show (if j2 ≤ k ∧ k < n+1 then 0 else q2.beta k) = 0
      by_cases h : j2 ≤ k
      · rw [if_pos (by omega)]
      · rw [if_neg (by omega), hq2]; exact b6 k (by omega)
    beta_reduce
    split_ifs <;> exact e

/-- **C87** (finding): with loose pivoting, the matrix with columns `2 e₀, e₀, ..., e₀, e₁` (`n` the block size, 3 or more) is taken to have
rank 1: the divider of `A` "solves" `A x = e₁` by `x = 0`, although the last column of `A` is `e₁`, so that `x = e_n` is a solution.
Reason: a column of the block whose norm has become small is exchanged for another column of the block, and that one is
decomposed without a look at its norm (TMV_QRPDecompose.cpp:571-623), so `R` gets a zero on the diagonal in the middle. -/
theorem qrpDiv_loose_defect (ht : 0 < tiny) (ht1 : tiny ≤ 2) (hn : 3 ≤ n) {eps sqe : ℝ} (heps : 0 < eps) (he : (n+1) ^ 2 * eps ^ 2 ≤ 1/4) (hsq : 0 < sqe)
    (hsq4 : (n+1) * sqe ≤ 1/4) (gar Z0 : Nat → Nat → ℝ) (beta0 : Nat → ℝ) (P0 : Nat → Nat) (fuel : Nat) (hfu : 5 ≤ fuel) :
    (∀ p, p < n+1 → ∑ l ∈ Finset.range (n+1), badA n p l * (if l = n then 1 else 0) = if p = 1 then 1 else 0) ∧
    ∃ F, QRPFac.make ⟨n, tiny, eps, sqe, false⟩ ⟨false, false, gar⟩ (n+1) (n+1) (badA n) Z0 beta0 P0 fuel = some F ∧ F.N1 = 1 ∧
      ∀ nb tb tb2, 0 < nb → 0 < tb → 0 < tb2 → ∀ brm Z1 x, ∃ X,
        F.lDiv nb tb tb2 brm (n+1) (n+1) 1 Z1 (fun p _ => if p = 1 then 1 else 0) x = some X ∧ ∀ a, a < n+1 → X a 0 = 0 := by
  constructor
  · intro p hp
    rw [Finset.sum_eq_single n]
    · rw [if_pos rfl, mul_one]
      by_cases h1 : p = 1
      · rw [if_pos h1, h1, badA_1n (by omega)]
      · rw [if_neg h1]
        by_cases h0 : p = 0
        · rw [h0, badA_0n (by omega)]
        · exact badA_low (by omega) (by omega) (Or.inr (by omega))
    · intro l _ hl
      rw [if_neg hl, mul_zero]
    · intro h; exact absurd (Finset.mem_range.mpr (by omega)) h
  obtain ⟨r, hr, rA, rb⟩ := qrp_bad ht ht1 hn heps he hsq hsq4 Z0 beta0 P0 fuel hfu
  obtain ⟨hP, -⟩ := qrp_packed ht le_rfl (show 0 < n by omega) (fun _ _ => by push_cast; linarith) (badA n) Z0 beta0 P0 1 fuel r hr
  have hP' : ∀ i, i < n+1 → r.P i < n+1 := fun i hi => (hP i hi).2
  have hN1 : lastNZ (fun i => badA n i i) (n+1) = 1 := by
    have : ∀ m, lastNZ (fun i => badA n i i) (m+1) = 1 := by
      intro m
      induction m with
      | zero => rw [lastNZ, if_neg (by rw [badA_00]; norm_num)]
      | succ m ih =>
        rw [lastNZ, if_pos (badA_low (by omega) (by omega) ?_)]
        · exact ih
        · by_cases h : m = 0
          · left; omega
          · right; omega
    exact this n
  refine ⟨⟨false, r.A, r.beta, r.P, r.det, lastNZ (fun i => r.A i i) (n+1)⟩, ?_, by rw [rA]; exact hN1, ?_⟩
  · unfold QRPFac.make
    rw [if_neg (by omega)]
    show Option.map _ (qrp tiny eps sqe false n (n+1) (n+1) (badA n) Z0 beta0 P0 1 fuel) = _
    rw [hr]
    rfl
  intro nb tb tb2 hnb htb htb2 brm Z1 x
  show ∃ X, qrpLDiv nb tb tb2 .cm brm (n+1) (n+1) 1 (lastNZ (fun i => r.A i i) (n+1)) r.A r.beta r.P Z1 (fun p _ => if p = 1 then 1 else 0) x = some X ∧ _
  rw [rA, hN1]
  obtain ⟨Y, hY⟩ : ∃ Y : Nat → Nat → ℝ, Y = fun a b => if 1 ≤ a ∧ a < n+1 ∧ b < 1 then 0 else
    pqLDiv nb (n+1) (n+1) 1 (badA n) r.beta Z1 (fun p _ => if p = 1 then 1 else 0) x a b := ⟨_, rfl⟩
  have hq : qrLDiv nb tb tb2 .cm brm (n+1) (n+1) 1 1 (badA n) r.beta Z1 (fun p _ => if p = 1 then 1 else 0) x = upperM tb tb2 .cm brm false 1 1 (badA n) Y := by
    rw [hY]; rfl
  have hY0 : Y 0 0 = 0 := by
    rw [hY]
    dsimp only
    rw [if_neg (by omega)]
    unfold pqLDiv
    rw [if_pos rfl, qLDivEq_spec nb (n+1) (n+1) 1 hnb le_rfl, if_pos (by omega), hs_beta0 (n+1) fun j _ h => rb j (by omega)]
    simp [paste]
  obtain ⟨X, hX⟩ := Option.isSome_iff_exists.mp (upperM_isSome tb tb2 htb htb2 .cm brm false 1 1 (badA n) Y fun i hi => by
    rw [show i = 0 by omega]; show badA n 0 0 ≠ 0; rw [badA_00]; norm_num)
  obtain ⟨s1, s2⟩ := upperM_sound tb tb2 htb htb2 .cm brm false 1 1 (badA n) Y X hX
  have hX0 : ∀ a, a < n+1 → X a 0 = 0 := by
    intro a ha
    by_cases h0 : a = 0
    · have := s1 0 0 (by omega) (by omega)
      rw [hY0, Finset.sum_range_one] at this
      simp only [upperMat, lt_irrefl, if_false, if_true, badA_00] at this
      rw [h0]
      simpa using this
    · rw [s2 a 0 (by omega), hY]
      exact if_pos (by omega)
  refine ⟨LU.reversePermuteRows 1 r.P (n+1) 0 X, by rw [qrpLDiv, hq, hX]; rfl, fun a ha => ?_⟩
  rw [reversePermuteRows_swaps 1 (n+1) X (by omega)]
  exact hX0 _ (swapsPerm_symm_lt hP' ha)

/-- Double precision, block size 32, a 33×33 matrix: the conditions hold. -/
example : ∃ F, QRPFac.make ⟨32, (2:ℝ)⁻¹ ^ 1022, (2:ℝ)⁻¹ ^ 52, (2:ℝ)⁻¹ ^ 26, false⟩ ⟨false, false, fun _ _ => 0⟩ 33 33 (badA 32) (fun _ _ => 0) (fun _ => 0) (fun _ => 0) 5 = some F ∧
    F.N1 = 1 := by
  obtain ⟨-, F, h1, h2, -⟩ := qrpDiv_loose_defect (n := 32) (tiny := (2:ℝ)⁻¹ ^ 1022) (eps := (2:ℝ)⁻¹ ^ 52) (sqe := (2:ℝ)⁻¹ ^ 26) (by positivity)
    (le_trans (pow_le_one₀ (by positivity) (by norm_num)) (by norm_num)) (by norm_num) (by positivity) (by norm_num) (by positivity) (by norm_num)
    (fun _ _ => 0) (fun _ _ => 0) (fun _ => 0) (fun _ => 0) 5 le_rfl
  exact ⟨F, h1, h2⟩

/-- The same matrix with strict pivoting satisfies the hypotheses of `qrpDiv_tall`, `qrpDiv_graded`: a solution is found. -/
example : ∃ F, QRPFac.make ⟨32, 1/10^9, (2:ℝ)⁻¹ ^ 23, (2:ℝ)⁻¹ ^ 12, true⟩ ⟨false, false, fun _ _ => 0⟩ 33 33 (badA 32) (fun _ _ => 0) (fun _ => 0) (fun _ => 0) 69 = some F ∧
    Graded F.N1 33 F.QRx := by
  have h : (qrp (1/10^9) ((2:ℝ)⁻¹ ^ 23) ((2:ℝ)⁻¹ ^ 12) true 32 33 33 (badA 32) (fun _ _ => 0) (fun _ => 0) (fun _ => 0) 1 69).isSome :=
    qrp_ends (by norm_num) le_rfl (by norm_num) (by norm_num) (fun h => by simp at h) _ _ _ _ _ _ le_rfl
  obtain ⟨r, hr⟩ := Option.isSome_iff_exists.mp h
  have hF : QRPFac.make ⟨32, 1/10^9, (2:ℝ)⁻¹ ^ 23, (2:ℝ)⁻¹ ^ 12, true⟩ ⟨false, false, fun _ _ => 0⟩ 33 33 (badA 32) (fun _ _ => 0) (fun _ => 0) (fun _ => 0) 69 =
      some ⟨false, r.A, r.beta, r.P, r.det, lastNZ (fun i => r.A i i) 33⟩ := by
    unfold QRPFac.make
    rw [if_neg (by norm_num)]
    show Option.map _ (qrp (1/10^9) ((2:ℝ)⁻¹ ^ 23) ((2:ℝ)⁻¹ ^ 12) true 32 33 33 (badA 32) (fun _ _ => 0) (fun _ => 0) (fun _ => 0) 1 69) = _
    rw [hr]
    rfl
  refine ⟨_, hF, ?_⟩
  refine qrpDiv_graded (g := ⟨32, 1/10^9, (2:ℝ)⁻¹ ^ 23, (2:ℝ)⁻¹ ^ 12, true⟩) (by norm_num) (fun h => by simp at h) (Or.inl rfl) (fun h => by simp at h) (badA 32) _ _ _ _ _ ?_ hF
  have : (4:ℝ) ≤ ∑ c ∈ Finset.range 33, ∑ p ∈ Finset.range 33, ‖badA 32 p c‖ ^ 2 := by
    refine le_trans ?_ (Finset.single_le_sum (f := fun c => ∑ p ∈ Finset.range 33, ‖badA 32 p c‖ ^ 2) (fun _ _ => Finset.sum_nonneg fun _ _ => sq_nonneg _) (Finset.mem_range.mpr (show 0 < 33 by norm_num)))
    refine le_trans ?_ (Finset.single_le_sum (f := fun p => ‖badA 32 p 0‖ ^ 2) (fun _ _ => sq_nonneg _) (Finset.mem_range.mpr (show 0 < 33 by norm_num)))
    rw [badA_00]
    norm_num
  norm_num at this ⊢
  linarith

end

end
end TMV.QR
