import Verif.Props.QRPPerm

/-! QR decomposition with column pivoting (C86): `LooseBlockQRPDecompose`. -/
namespace TMV.QR
noncomputable section
open Classical

variable {K : Type} [RCLike K]
variable {tiny T s rt : ℝ} {M N : Nat} {A0 : Nat → Nat → K} {det0 : K} {j : Nat} {st : PSt K}

theorem swapC_self (A : Nat → Nat → K) (i : Nat) : swapC A i i = A := by funext p c; simp [swapC]
theorem swapV_self (f : Nat → ℝ) (i : Nat) : swapV f i i = f := by funext c; simp [swapV]

/-- `j` columns are decomposed, the first `m` interchanges of `P` have been made. -/
structure LInv (T : ℝ) (M N : Nat) (A0 : Nat → Nat → K) (det0 : K) (j m : Nat) (st : PSt K) : Prop where
  jm : j ≤ m
  mN : m ≤ N
  spec : QRSpec T M 0 j N (fun p c => A0 p (swapsPerm st.P m c)) st.A st.beta
  pok : ∀ i, i < m → i ≤ st.P i ∧ st.P i < N
  dok : st.det = det0 * ∏ i ∈ Finset.range j, dfac (st.beta i)

theorem LInv.swap {m : Nat} (h : LInv T M N A0 det0 j m st) {k : Nat} (h1 : m ≤ k) (h2 : k < N) (cn : Nat → ℝ) :
    LInv T M N A0 det0 j (m+1) { st with A := swapC st.A m k, cn := cn, P := setP st.P m k } := by
  have hjm := h.jm
  refine ⟨by omega, by omega, ?_, ?_, h.dok⟩
  · have e : swapsPerm (setP st.P m k) (m+1) = swapsPerm st.P m * Equiv.swap m k := by
      rw [swapsPerm, swapsPerm_congr (P := setP st.P m k) (P' := st.P) m fun i hi => if_neg (by omega)]
      simp [setP]
    show QRSpec T M 0 j N (fun p c => A0 p (swapsPerm (setP st.P m k) (m+1) c)) (swapC st.A m k) st.beta
    rw [e]
    refine h.spec.perm (Equiv.swap m k) (fun c hc => swap_lt (by omega) (by omega)) (fun c h3 h4 => ?_) fun c h3 => ?_
    · rcases swap_cases m k c with h | h | h <;> omega
    · rcases swap_cases m k c with h | h | h <;> omega
  · intro i hi
    show i ≤ setP st.P m k i ∧ setP st.P m k i < N
    unfold setP
    by_cases him : i = m
    · rw [if_pos him]; omega
    · rw [if_neg him]; exact h.pok i (by omega)

theorem LInv.keep {m : Nat} (h : LInv T M N A0 det0 j m st) (h2 : m < N) :
    LInv T M N A0 det0 j (m+1) { st with P := setP st.P m m } := by
  have := h.swap (le_refl m) h2 st.cn
  rwa [swapC_self] at this

/-! ### `moveLowColsToEnd` -/

theorem scanDown_spec (cn : Nat → ℝ) (rt : ℝ) (j1 : Nat) : ∀ j3, scanDown cn rt j1 j3 ≤ j3 ∧ (j1 ≤ j3 → j1 ≤ scanDown cn rt j1 j3) ∧
    (j3 < j1 → scanDown cn rt j1 j3 = j3) ∧ (j1 < scanDown cn rt j1 j3 → ¬ cn (scanDown cn rt j1 j3) < rt)
  | 0 => ⟨le_rfl, fun h => h, fun _ => rfl, fun h => absurd h (Nat.not_lt_zero _)⟩
  | j3+1 => by
    obtain ⟨h1, h2, h3, h4⟩ := scanDown_spec cn rt j1 j3
    rw [scanDown]
    by_cases hc : j3+1 > j1 ∧ cn (j3+1) < rt
    · rw [if_pos hc]
      exact ⟨by omega, fun _ => h2 (by omega), fun h => by omega, h4⟩
    · rw [if_neg hc]
      exact ⟨le_rfl, fun h => h, fun _ => rfl, fun h h' => hc ⟨h, h'⟩⟩

theorem scanDown2_spec (cn : Nat → ℝ) (rt : ℝ) (i : Nat) (hi : ¬ cn i < rt) : ∀ j3, i < j3 →
    i ≤ scanDown2 cn rt j3 ∧ scanDown2 cn rt j3 < j3 ∧ ¬ cn (scanDown2 cn rt j3) < rt
  | 0, h => by omega
  | j3+1, h => by
    rw [scanDown2]
    by_cases hc : cn j3 < rt
    · rw [if_pos hc]
      have : i ≠ j3 := fun he => hi (by rw [he]; exact hc)
      obtain ⟨h1, h2, h3⟩ := scanDown2_spec cn rt i hi j3 (by omega)
      exact ⟨h1, by omega, h3⟩
    · rw [if_neg hc]
      exact ⟨by omega, by omega, hc⟩

theorem moveLowLoop_spec (j1 j1x : Nat) : ∀ (n i j2 j3 : Nat) (st : PSt K), LInv T M N A0 det0 j1 i st → j1x ≤ i → i ≤ j2 → j2 ≤ i + n →
    j2 ≤ j3+1 → j3 < N → (i < j2 → ¬ st.cn j3 < rt) →
    (∀ k, j1x ≤ k → k < i → st.P k = k ∨ (j3 < st.P k ∧ st.P k < N)) →
    (∀ k l, j1x ≤ k → k < i → j1x ≤ l → l < i → k ≠ l → j3 < st.P k → st.P k ≠ st.P l) →
    (j1x < i → ¬ st.cn j1x < rt) → ∀ r, moveLowLoop rt n i j2 j3 st = r →
    LInv T M N A0 det0 j1 r.1 r.2.2 ∧ i ≤ r.1 ∧ (i < j2 → i < r.1) ∧ r.1 ≤ r.2.1 + 1 ∧ r.2.1 ≤ j3 ∧
    (∀ k, j1x ≤ k → k < r.1 → r.2.2.P k = k ∨ (r.2.1 < r.2.2.P k ∧ r.2.2.P k < N)) ∧
    (∀ k l, j1x ≤ k → k < r.1 → j1x ≤ l → l < r.1 → k ≠ l → r.2.1 < r.2.2.P k → r.2.2.P k ≠ r.2.2.P l) ∧
    (∀ k, k < j1x → r.2.2.cn k = st.cn k) ∧ (j1x < r.1 → ¬ r.2.2.cn j1x < rt) := by
  intro n
  induction n with
  | zero =>
    intro i j2 j3 st h h1 h2 h3 h4 h5 h6 h7 h8 h9 r hr
    obtain rfl : i = j2 := by omega
    rw [moveLowLoop] at hr
    subst hr
    exact ⟨h, le_rfl, fun h => h, h4, le_rfl, h7, h8, fun _ _ => rfl, h9⟩
  | succ n ih =>
    intro i j2 j3 st h h1 h2 h3 h4 h5 h6 h7 h8 h9 r hr
    rw [moveLowLoop] at hr
    by_cases hi : i < j2
    · rw [if_pos hi] at hr
      have hg := h6 hi
      by_cases hc : st.cn i < rt
      · rw [if_pos hc] at hr
        have hne : i ≠ j3 := fun he => hg (by rw [← he]; exact hc)
        have hij : i < j3 := by omega
        have hci : ¬ swapV st.cn i j3 i < rt := by rw [swapV, Equiv.swap_apply_left]; exact hg
        obtain ⟨d1, d2, d3⟩ := scanDown2_spec (swapV st.cn i j3) rt i hci j3 hij
        obtain ⟨j3', hj3'⟩ : ∃ j3', j3' = scanDown2 (swapV st.cn i j3) rt j3 := ⟨_, rfl⟩
        dsimp only at hr
        rw [← hj3'] at hr d1 d2 d3
        obtain ⟨j2', hj2'⟩ : ∃ j2', j2' = if j3' < j2 then j3'+1 else j2 := ⟨_, rfl⟩
        rw [← hj2'] at hr
        have b1 : i + 1 ≤ j2' := by rw [hj2']; split_ifs <;> omega
        have b2 : j2' ≤ j2 := by rw [hj2']; split_ifs <;> omega
        have b3 : j2' ≤ j3' + 1 := by rw [hj2']; split_ifs <;> omega
        have hPi : setP st.P i j3 i = j3 := if_pos rfl
        have hPk : ∀ k, k < i → setP st.P i j3 k = st.P k := fun k hk => if_neg (by omega)
        have hk7 : ∀ k, j1x ≤ k → k < i+1 → setP st.P i j3 k = k ∨ (j3' < setP st.P i j3 k ∧ setP st.P i j3 k < N) := by
          intro k k1 k2
          by_cases hk : k = i
          · rw [hk, hPi]; right; omega
          · rw [hPk k (by omega)]
            have := h7 k k1 (by omega)
            omega
        have hk8 : ∀ k l, j1x ≤ k → k < i+1 → j1x ≤ l → l < i+1 → k ≠ l → j3' < setP st.P i j3 k → setP st.P i j3 k ≠ setP st.P i j3 l := by
          intro k l k1 k2 l1 l2 hkl
          by_cases hk : k = i
          · rw [hk, hPi, hPk l (by omega)]
            have := h7 l l1 (by omega)
            omega
          · rw [hPk k (by omega)]
            have hk7' := h7 k k1 (by omega)
            by_cases hl : l = i
            · rw [hl, hPi]
              omega
            · rw [hPk l (by omega)]
              intro _
              by_cases hb : j3 < st.P k
              · exact h8 k l k1 (by omega) l1 (by omega) hkl hb
              · have := h7 l l1 (by omega)
                omega
        have hk9 : j1x < i+1 → ¬ swapV st.cn i j3 j1x < rt := by
          intro _
          by_cases hx : j1x = i
          · rw [hx]; exact hci
          · rw [swapV, swap_lt (by omega) (by omega)]
            exact h9 (by omega)
        obtain ⟨q1, q2, q3, q4, q5, q6, q7, q8, q9⟩ := ih (i+1) j2' j3' _ (h.swap hij.le h5 (swapV st.cn i j3)) (by omega) b1 (by omega) b3 (by omega)
          (fun _ => d3) hk7 hk8 hk9 r hr
        refine ⟨q1, by omega, fun _ => by omega, q4, by omega, q6, q7, fun k hk => ?_, q9⟩
        rw [q8 k hk]
        show swapV st.cn i j3 k = _
        rw [swapV, swap_lt (by omega) (by omega)]
      · rw [if_neg hc] at hr
        have hPi : setP st.P i i i = i := if_pos rfl
        have hPk : ∀ k, k < i → setP st.P i i k = st.P k := fun k hk => if_neg (by omega)
        have hk7 : ∀ k, j1x ≤ k → k < i+1 → setP st.P i i k = k ∨ (j3 < setP st.P i i k ∧ setP st.P i i k < N) := by
          intro k k1 k2
          by_cases hk : k = i
          · rw [hk, hPi]; left; rfl
          · rw [hPk k (by omega)]; exact h7 k k1 (by omega)
        have hk8 : ∀ k l, j1x ≤ k → k < i+1 → j1x ≤ l → l < i+1 → k ≠ l → j3 < setP st.P i i k → setP st.P i i k ≠ setP st.P i i l := by
          intro k l k1 k2 l1 l2 hkl
          by_cases hk : k = i
          · rw [hk, hPi]; omega
          · rw [hPk k (by omega)]
            by_cases hl : l = i
            · rw [hl, hPi]; omega
            · rw [hPk l (by omega)]
              exact h8 k l k1 (by omega) l1 (by omega) hkl
        have hk9 : j1x < i+1 → ¬ st.cn j1x < rt := by
          intro _
          by_cases hx : j1x = i
          · rw [hx]; exact hc
          · exact h9 (by omega)
        obtain ⟨q1, q2, q3, q4, q5, q6, q7, q8, q9⟩ := ih (i+1) j2 j3 _ (h.keep (by omega)) (by omega) hi (by omega) h4 h5
          (fun _ => hg) hk7 hk8 hk9 r hr
        exact ⟨q1, by omega, fun _ => by omega, q4, by omega, q6, q7, q8, q9⟩
    · rw [if_neg hi] at hr
      obtain rfl : i = j2 := by omega
      subst hr
      exact ⟨h, le_rfl, fun h => h, h4, le_rfl, h7, h8, fun _ _ => rfl, h9⟩

theorem moveLow_spec {j1 j1x j2 j3 : Nat} (h : LInv T M N A0 det0 j1 j1x st) (h1 : j1x ≤ j2) (h2 : j2 ≤ j3) (h3 : j3 ≤ N) (h0 : 0 < j3) :
    ∀ r, moveLow rt j1x j2 j3 st = r →
    LInv T M N A0 det0 j1 r.1 r.2.2 ∧ j1x ≤ r.1 ∧ r.1 ≤ r.2.1 ∧ r.2.1 ≤ j3 ∧ Ent r.1 N j1x r.2.2.P ∧
    (∀ k, k < j1x → r.2.2.cn k = st.cn k) ∧ (j1x < r.1 → ¬ r.2.2.cn j1x < rt) ∧ (j1x < j2 → r.1 = j1x → r.2.1 = j1x) := by
  intro r hr
  unfold moveLow at hr
  obtain ⟨d1, d2, d3, d4⟩ := scanDown_spec st.cn rt j1x (j3-1)
  obtain ⟨q, hq⟩ : ∃ q, q = scanDown st.cn rt j1x (j3-1) := ⟨_, rfl⟩
  dsimp only at hr
  rw [← hq] at hr d1 d2 d3 d4
  by_cases hqj : q = j1x
  · rw [if_pos hqj] at hr
    by_cases hc : st.cn j1x < rt
    · rw [if_pos hc] at hr
      subst hr
      dsimp only
      exact ⟨h, le_rfl, by omega, by omega, ⟨fun k a b => by omega, fun k l a b => by omega⟩, fun _ _ => rfl, fun h => by omega, fun _ _ => hqj⟩
    · rw [if_neg hc] at hr
      subst hr
      dsimp only
      refine ⟨h.keep (by omega), by omega, le_rfl, by omega, ⟨fun k a b => ?_, fun k l a b a' b' => by omega⟩, fun _ _ => rfl, fun _ => hc, fun _ h => by omega⟩
      left
      rw [show k = j1x by omega]
      exact if_pos rfl
  · rw [if_neg hqj] at hr
    obtain ⟨j2', hj2'⟩ : ∃ j2', j2' = if q < j2 then q+1 else j2 := ⟨_, rfl⟩
    rw [← hj2'] at hr
    have b2 : j2' ≤ j2 := by rw [hj2']; split_ifs <;> omega
    have b3 : j2' ≤ q + 1 := by rw [hj2']; split_ifs <;> omega
    have b1 : j1x ≤ j2' := by rw [hj2']; split_ifs <;> omega
    have b4 : j1x < j2 → j1x < j2' := by rw [hj2']; split_ifs <;> omega
    obtain ⟨w, hw⟩ : ∃ w, w = moveLowLoop rt (j2'-j1x) j1x j2' q st := ⟨_, rfl⟩
    obtain ⟨q1, q2, q3, q4, q5, q6, q7, q8, q9⟩ := moveLowLoop_spec j1 j1x _ _ _ _ _ h le_rfl b1 (by omega) b3 (by omega)
      (fun hlt => d4 (by omega)) (fun k a b => by omega) (fun k l a b => by omega) (fun h => absurd h (lt_irrefl _)) w hw.symm
    have hr' : r = (w.1, w.2.1+1, w.2.2) := by rw [← hr, hw]
    subst hr'
    dsimp only
    refine ⟨q1, q2, q4, by omega, ⟨fun k a b => ?_, fun k l a b c d e f => ?_⟩, q8, q9, fun h1 h2 => ?_⟩
    · rcases q6 k a b with h | h
      · exact Or.inl h
      · exact Or.inr ⟨by omega, h.2⟩
    · rcases q6 k a b with h | h
      · omega
      · exact q7 k l a b c d e h.1
    · have := q3 (b4 h1)
      omega

/-! ### Inside a block -/

/-- Inside a block: columns `[0,j)` are decomposed; `V0` is the matrix at the start of the block with the interchanges made;
the columns from `o` on are still as in `V0`. -/
structure BInv (T : ℝ) (M N : Nat) (A0 : Nat → Nat → K) (det0 : K) (o j1 j : Nat) (V0 : Nat → Nat → K) (st : PSt K) (Z : Nat → Nat → K) : Prop where
  s1 : QRSpec T M 0 j1 N (fun p c => A0 p (swapsPerm st.P o c)) V0 st.beta
  s2 : QRSpec T M j1 (j-j1) o V0 st.A st.beta
  zok : ZOK M st.A st.beta Z j1 j
  pok : ∀ i, i < o → i ≤ st.P i ∧ st.P i < N
  dok : st.det = det0 * ∏ i ∈ Finset.range j, dfac (st.beta i)

theorem ip_hv_lt {M q j : Nat} (V : Nat → Nat → K) (hq : q < j) (hj : j < M) :
    ip M (hv M V q) (hv M V j) = (∑ p ∈ Finset.Ico (j+1) M, star (V p q) * V p j) + star (V j q) := by
  rw [← ip_star, ip_hv M j V j le_rfl (by omega), Finset.sum_eq_sum_Ico_succ_bot hj, star_add, add_comm, star_sum]
  congr 1
  · refine Finset.sum_congr rfl fun p hp => ?_
    rw [Finset.mem_Ico] at hp
    rw [star_mul', star_star, hv_eq_ul hp.2, ul, ul, if_neg (by omega), if_neg (by omega), if_neg (by omega), if_neg (by omega)]
    ring
  · rw [star_mul', star_star, hv_eq_ul hj, ul, ul, if_neg (by omega), if_pos rfl, if_neg (by omega), if_neg (by omega), one_mul]

theorem augment_zok {j1 j : Nat} {V Z : Nat → Nat → K} {β : Nat → K} (hj1 : j1 ≤ j) (hj : j < M) (h : ZOK M V β Z j1 j) :
    ZOK M V β (augment M j1 j V Z (star (β j))) j1 (j+1) := by
  have hlo : ∀ k l, l ≠ j → augment M j1 j V Z (star (β j)) k l = Z k l := by
    intro k l hl
    unfold augment setE
    split_ifs <;> simp [hl]
  have hd : augment M j1 j V Z (star (β j)) j j = star (β j) := by
    unfold augment setE
    split_ifs with h1 h2
    · rw [h1]; exact if_pos ⟨rfl, hj1, le_rfl⟩
    · simp
    · simp
  have hoff : ∀ k, j1 ≤ k → k < j → augment M j1 j V Z (star (β j)) k j =
      -(∑ q ∈ Finset.Ico k j, Z k q * ip M (hv M V q) (hv M V j)) * star (β j) := by
    intro k h1 h2
    have e : ∑ q ∈ Finset.Ico k j, Z k q * ip M (hv M V q) (hv M V j) =
        ∑ q ∈ Finset.Ico k j, Z k q * ((∑ p ∈ Finset.Ico (j+1) M, star (V p q) * V p j) + star (V j q)) :=
      Finset.sum_congr rfl fun q hq => by rw [Finset.mem_Ico] at hq; rw [ip_hv_lt V hq.2 hj]
    rw [e]
    unfold augment
    by_cases hb : star (β j) = 0
    · rw [if_pos hb, hb, mul_zero]
      exact if_pos ⟨rfl, h1, h2.le⟩
    · rw [if_neg hb, if_neg (by omega)]
      show (if j = j ∧ j1 ≤ k ∧ k < j then _ else _) = _
      rw [if_pos ⟨rfl, h1, h2⟩]
      ring
  refine ZOK.join (c := j) hj1 (by omega) (h.congr hj1 (fun _ _ _ _ _ _ => rfl) (fun k l _ _ h3 => (hlo k l (by omega)).symm) fun _ _ _ => rfl)
    (ZOK.one M V β _ j hd) ?_
  intro k l h1 h2 h3 h4
  obtain rfl : l = j := by omega
  rw [Nat.Ico_succ_singleton, Finset.sum_singleton, hd, hoff k h1 h2]
  congr 2
  exact Finset.sum_congr rfl fun q hq => by rw [Finset.mem_Ico] at hq; rw [hlo k q (by omega)]

theorem BInv.step (ht : 0 < tiny) (htT : tiny ≤ T) {o j1 : Nat} {V0 Z : Nat → Nat → K} (h : BInv T M N A0 det0 o j1 j V0 st Z) (hj1 : j1 ≤ j)
    (hjo : j < o) (hoM : o ≤ M) (j2 : Nat) :
    BInv T M N A0 det0 o j1 (j+1) V0 (lStep tiny s M o j1 j j2 st Z).1 (lStep tiny s M o j1 j j2 st Z).2 ∧
    (lStep tiny s M o j1 j j2 st Z).1.P = st.P := by
  obtain ⟨β', hβ'⟩ : ∃ β' : Nat → K, β' = fun c => if c = j then (reflectMat tiny M o j st.A st.det).2.1 else st.beta c := ⟨_, rfl⟩
  have hβj : β' j = (reflectMat tiny M o j st.A st.det).2.1 := by rw [hβ']; simp
  have hβlt : ∀ i, i < j → β' i = st.beta i := fun i hi => by rw [hβ']; exact if_neg (by omega)
  obtain ⟨hr, hdet⟩ := reflectMat_spec tiny ht M o j (by omega) (by omega) st.A st.det β' hβj
  have hz : ZOK M (reflectMat tiny M o j st.A st.det).1 β' Z j1 j :=
    h.zok.congr hj1 (fun p q _ h2 _ _ => (hr.frame p q (by omega)).symm) (fun _ _ _ _ _ => rfl) fun q _ h2 => (hβlt q h2).symm
  refine ⟨⟨?_, ?_, ?_, h.pok, ?_⟩, rfl⟩
  · show QRSpec T M 0 j1 N (fun p c => A0 p (swapsPerm st.P o c)) V0 (fun c => if c = j then (reflectMat tiny M o j st.A st.det).2.1 else st.beta c)
    rw [← hβ']
    exact h.s1.congr fun i _ hi => (hβlt i (by omega)).symm
  · show QRSpec T M j1 (j+1-j1) o V0 (reflectMat tiny M o j st.A st.det).1 (fun c => if c = j then (reflectMat tiny M o j st.A st.det).2.1 else st.beta c)
    rw [← hβ', show j + 1 - j1 = (j - j1) + 1 by omega]
    refine (h.s2.congr fun i _ hi => (hβlt i (by omega)).symm).comp ?_ (by omega)
    rw [show j1 + (j - j1) = j by omega]
    exact hr.mono ht.le htT
  · show ZOK M (reflectMat tiny M o j st.A st.det).1 (fun c => if c = j then (reflectMat tiny M o j st.A st.det).2.1 else st.beta c)
      (augment M j1 j (reflectMat tiny M o j st.A st.det).1 Z (star (reflectMat tiny M o j st.A st.det).2.1)) j1 (j+1)
    rw [← hβ', ← hβj]
    exact augment_zok hj1 (by omega) hz
  · show (reflectMat tiny M o j st.A st.det).2.2 = det0 * ∏ i ∈ Finset.range (j+1), dfac (if i = j then (reflectMat tiny M o j st.A st.det).2.1 else st.beta i)
    rw [hdet, Finset.prod_range_succ, if_pos rfl, ← hβj, Finset.prod_congr rfl (g := fun i => dfac (st.beta i)) fun i hi => by
      rw [if_neg (by rw [Finset.mem_range] at hi; omega)], ← mul_assoc, ← h.dok]

theorem swapOut_eq {j j2 : Nat} (hne : j ≠ j2) (st : PSt K) : swapOut j j2 st =
    { st with A := fun p c => st.A p (swapOutπ j j2 st.P c), cn := fun c => st.cn (swapOutπ j j2 st.P c), P := swapOutP j j2 st.P } := by
  unfold swapOut swapOutπ swapOutP
  dsimp only
  by_cases h1 : st.P j2 > j2
  · by_cases h2 : st.P j > j2
    · rw [if_pos h1, if_pos h2, if_pos h1, if_pos h2, if_pos ⟨h1, h2⟩]
      have e1 : setP (setP st.P j (st.P j2)) j2 (st.P j) j = st.P j2 := by simp [setP, hne]
      have e2 : setP (setP st.P j (st.P j2)) j2 (st.P j) j2 = st.P j := by simp [setP]
      rw [e1, e2]
      rfl
    · rw [if_pos h1, if_neg h2, if_pos h1, if_neg h2, if_neg (by tauto)]
      rfl
  · have h3 : ¬ (st.P j2 > j2 ∧ st.P j > j2) := fun h => h1 h.1
    rw [if_neg h1, if_neg h1, if_neg h3]
    rfl

theorem swapOutπ_range {o N j j2 : Nat} {P : Nat → Nat} (h : Ent o N j P) (hj : j < j2) (hj2 : j2 < o) (hoN : o ≤ N) (c : Nat) :
    (c < j → swapOutπ j j2 P c = c) ∧ (j ≤ c → c < o → j ≤ swapOutπ j j2 P c ∧ swapOutπ j j2 P c < o) ∧
    (o ≤ c → c < N → o ≤ swapOutπ j j2 P c ∧ swapOutπ j j2 P c < N) ∧ (N ≤ c → swapOutπ j j2 P c = c) := by
  have rj := h.rng j le_rfl (by omega)
  have rk := h.rng j2 (by omega) hj2
  have e := swap_cases j j2 c
  unfold swapOutπ
  split_ifs with hc
  · rw [Equiv.Perm.mul_apply]
    rcases swap_cases (P j2) (P j) c with ⟨a, b⟩ | ⟨-, a, b⟩ | ⟨a, b, d⟩
    · rw [b, Equiv.swap_apply_of_ne_of_ne (by omega) (by omega)]; omega
    · rw [b, Equiv.swap_apply_of_ne_of_ne (by omega) (by omega)]; omega
    · rw [d]; omega
  · omega

theorem BInv.out {o j1 j2 : Nat} {V0 Z : Nat → Nat → K} (h : BInv T M N A0 det0 o j1 j V0 st Z) (hj1 : j1 ≤ j) (hj : j < j2) (hj2 : j2 < o)
    (hoN : o ≤ N) (he : Ent o N j st.P) :
    (∃ V0', BInv T M N A0 det0 o j1 j V0' (swapOut j j2 st) Z) ∧ Ent o N (j+1) (swapOut j j2 st).P := by
  rw [swapOut_eq (by omega)]
  obtain ⟨p1, p2, p3, p4⟩ := swapOut_perm he hj hj2
  have hπ := swapOutπ_range he hj hj2 hoN
  refine ⟨⟨fun p c => V0 p (swapOutπ j j2 st.P c), ?_, ?_, ?_, ?_, h.dok⟩, p2⟩
  · show QRSpec T M 0 j1 N (fun p c => A0 p (swapsPerm (swapOutP j j2 st.P) o c)) _ st.beta
    rw [p1]
    refine h.s1.perm (swapOutπ j j2 st.P) (fun c hc => (hπ c).1 (by omega)) (fun c h1 h2 => ?_) fun c h1 => ?_
    · have := hπ c
      by_cases c1 : c < j
      · rw [this.1 c1]; omega
      · by_cases c2 : c < o
        · have := this.2.1 (by omega) c2; omega
        · have := this.2.2.1 (by omega) h2; omega
    · rw [(hπ c).2.2.2 h1]; exact h1
  · refine h.s2.perm (swapOutπ j j2 st.P) (fun c hc => (hπ c).1 (by omega)) (fun c h1 h2 => ?_) fun c h1 => ?_
    · have := (hπ c).2.1 (by omega) h2; omega
    · by_cases c2 : c < N
      · exact ((hπ c).2.2.1 h1 c2).1
      · rw [(hπ c).2.2.2 (by omega)]; exact h1
  · refine h.zok.congr hj1 (fun p q _ h2 _ _ => ?_) (fun _ _ _ _ _ => rfl) fun _ _ _ => rfl
    show _ = st.A p (swapOutπ j j2 st.P q)
    rw [(hπ q).1 h2]
  · intro i hi
    by_cases hij : i < j
    · show i ≤ swapOutP j j2 st.P i ∧ swapOutP j j2 st.P i < N
      rw [p3 i hij]
      exact h.pok i hi
    · exact p4 hoN i (by omega) hi

theorem lInner_spec (ht : 0 < tiny) (htT : tiny ≤ T) {o j1 : Nat} (hoN : o ≤ N) (hoM : o ≤ M) :
    ∀ (n j j2 : Nat) (st : PSt K) (V0 Z : Nat → Nat → K), BInv T M N A0 det0 o j1 j V0 st Z → j1 ≤ j → j ≤ j2 → j2 ≤ o → j2 ≤ j + n →
      Ent o N (max j (j1+1)) st.P → (j = j1 → j < j2 → ¬ st.cn j < rt) → ∀ r, lInner tiny s rt M o j1 n j j2 st Z = r →
      (∃ V0', BInv T M N A0 det0 o j1 r.1 V0' r.2.1 r.2.2) ∧ j ≤ r.1 ∧ r.1 ≤ j2 ∧ (j1 = j → j < j2 → j < r.1) ∧ Ent o N (max r.1 (j1+1)) r.2.1.P := by
  intro n
  induction n with
  | zero =>
    intro j j2 st V0 Z h h1 h2 h3 h4 he hc r hr
    rw [lInner] at hr
    obtain rfl : j = j2 := by omega
    subst hr
    exact ⟨⟨V0, h⟩, le_rfl, le_rfl, fun _ h => h, he⟩
  | succ n ih =>
    intro j j2 st V0 Z h h1 h2 h3 h4 he hc r hr
    rw [lInner] at hr
    by_cases hj : j < j2
    · rw [if_pos hj] at hr
      by_cases hlow : st.cn j < rt
      · rw [if_pos hlow] at hr
        have hjj : j1 < j := by
          by_contra hcon
          exact hc (by omega) hj hlow
        dsimp only at hr
        by_cases hb : j = j2 - 1
        · rw [if_pos hb] at hr
          subst hr
          dsimp only
          rw [← hb]
          exact ⟨⟨V0, h⟩, le_rfl, by omega, fun h => by omega, he⟩
        · rw [if_neg hb] at hr
          obtain ⟨⟨V0', ho⟩, he'⟩ := h.out (j2 := j2-1) h1 (by omega) (by omega) hoN (by rwa [max_eq_left (by omega)] at he)
          obtain ⟨hs, hP⟩ := ho.step (s := s) ht htT h1 (by omega) hoM (j2-1)
          obtain ⟨i1, i2, i3, -, i5⟩ := ih _ _ _ _ _ hs (by omega) (by omega) (by omega) (by omega)
            (by rw [hP, max_eq_left (by omega)]; exact he') (fun h => by omega) r hr
          exact ⟨i1, by omega, by omega, fun h => by omega, i5⟩
      · rw [if_neg hlow] at hr
        obtain ⟨hs, hP⟩ := h.step (s := s) ht htT h1 (by omega) hoM j2
        obtain ⟨i1, i2, i3, -, i5⟩ := ih _ _ _ _ _ hs (by omega) (by omega) (by omega) (by omega)
            (by rw [hP]; exact he.weaken (by omega)) (fun h => by omega) r hr
        exact ⟨i1, by omega, by omega, fun _ _ => by omega, i5⟩
    · rw [if_neg hj] at hr
      obtain rfl : j = j2 := by omega
      subst hr
      exact ⟨⟨V0, h⟩, le_rfl, le_rfl, fun _ h => h, he⟩

theorem putBack_eq (j2 : Nat) : ∀ (n j : Nat) (st : PSt K), (∀ k, j ≤ k → k < j+n → st.P k > j2 ∨ st.P k = k) →
    (putBack j2 n j st).A = (fun p c => st.A p (tailP st.P j n c)) ∧ (putBack j2 n j st).P = st.P ∧
    (putBack j2 n j st).beta = st.beta ∧ (putBack j2 n j st).det = st.det := by
  intro n
  induction n with
  | zero => intro j st _; exact ⟨rfl, rfl, rfl, rfl⟩
  | succ n ih =>
    intro j st h
    obtain ⟨st1, hst1⟩ : ∃ st1 : PSt K, st1 = if st.P j > j2 then { st with A := swapC st.A j (st.P j), cn := swapV st.cn j (st.P j) } else st := ⟨_, rfl⟩
    have hP : st1.P = st.P := by rw [hst1]; split_ifs <;> rfl
    have hb : st1.beta = st.beta := by rw [hst1]; split_ifs <;> rfl
    have hd : st1.det = st.det := by rw [hst1]; split_ifs <;> rfl
    have hA : st1.A = swapC st.A j (st.P j) := by
      rw [hst1]
      split_ifs with hc
      · rfl
      · have := (h j le_rfl (by omega)).resolve_left hc
        rw [this, swapC_self]
    obtain ⟨i1, i2, i3, i4⟩ := ih (j+1) st1 fun k h1 h2 => by rw [hP]; exact h k (by omega) (by omega)
    rw [putBack, ← hst1]
    refine ⟨?_, by rw [i2, hP], by rw [i3, hb], by rw [i4, hd]⟩
    rw [i1, hA, hP, tailP_front]
    rfl

theorem lBlock_spec (ht : 0 < tiny) (htT : tiny ≤ T) (hNM : N ≤ M) {nb : Nat} (hnb : 0 < nb) {j1 j1x j3 : Nat} (h : LInv T M N A0 det0 j1 j1x st)
    (h1 : j1x ≤ j1 + 1) (h2 : j1 < j3) (h3 : j3 ≤ N) (hc : j1x = j1 + 1 → ¬ st.cn j1 < rt) (Z0 : Nat → Nat → K) :
    ∀ r, lBlock tiny s rt nb M N j1 j1x j3 st Z0 = r →
      LInv T M N A0 det0 r.1 r.1 r.2.2 ∧ j1 ≤ r.1 ∧ r.1 ≤ r.2.1 ∧ r.2.1 ≤ j3 ∧ (j1 < r.1 ∨ r.2.1 = j1) ∧ (j1x = j1 + 1 → j1 < r.1) := by
  intro r hr
  have hjm := h.jm
  obtain ⟨q, hq⟩ : ∃ q, q = moveLow rt j1x (min j3 (j1+nb)) j3 st := ⟨_, rfl⟩
  obtain ⟨m1, m2, m3, m4, m5, m6, m7, m8⟩ := moveLow_spec h (by omega) (min_le_left _ _) h3 (by omega) q hq.symm
  obtain ⟨w, hw⟩ : ∃ w, w = lInner tiny s rt M q.1 j1 (q.1-j1) j1 q.1 q.2.2 Z0 := ⟨_, rfl⟩
  have hr' : r = (w.1, q.2.1, putBack w.1 (q.1-w.1) w.1 (lUpdate s M N j1 w.1 q.1 w.2.1 w.2.2)) := by
    rw [← hr, hw, hq]; rfl
  have hqN : q.1 ≤ N := m1.mN
  -- start of the block
  have hb0 : BInv T M N A0 det0 q.1 j1 j1 q.2.2.A q.2.2 Z0 := by
    refine ⟨m1.spec, ?_, ?_, m1.pok, m1.dok⟩
    · rw [Nat.sub_self]; exact QRSpec.zero _ _ _ _ _ _
    · intro x
      rw [Nat.sub_self]
      funext i
      simp [blk, hsA]
  have hlow : j1 = j1 → j1 < q.1 → ¬ q.2.2.cn j1 < rt := by
    intro _ hlt
    by_cases hx : j1x = j1
    · rw [hx] at m7; exact m7 hlt
    · rw [m6 j1 (by omega)]; exact hc (by omega)
  obtain ⟨⟨V0, hB⟩, i2, i3, i4, i5⟩ := lInner_spec (s := s) ht htT hqN (by omega) _ _ _ _ _ _ hb0 le_rfl m1.jm le_rfl (by omega)
    (m5.weaken (by omega)) hlow w hw.symm
  have hprog : j1 < q.1 → j1 < w.1 := fun h => i4 rfl h
  have hent : Ent q.1 N w.1 w.2.1.P := by
    by_cases hlt : j1 < q.1
    · have := hprog hlt
      rwa [max_eq_left (by omega)] at i5
    · exact ⟨fun k a b => by omega, fun k l a b => by omega⟩
  -- the update
  obtain ⟨U, hU⟩ : ∃ U, U = lUpdate s M N j1 w.1 q.1 w.2.1 w.2.2 := ⟨_, rfl⟩
  rw [← hU] at hr'
  have hUP : U.P = w.2.1.P := by rw [hU]; unfold lUpdate; split_ifs <;> rfl
  have hUb : U.beta = w.2.1.beta := by rw [hU]; unfold lUpdate; split_ifs <;> rfl
  have hUd : U.det = w.2.1.det := by rw [hU]; unfold lUpdate; split_ifs <;> rfl
  have hUs : QRSpec T M 0 w.1 N (fun p c => A0 p (swapsPerm U.P q.1 c)) U.A U.beta := by
    rw [hUP, hUb]
    by_cases hlt : j1 < w.1
    · have e : U.A = blockLDiv M j1 w.1 q.1 N w.2.1.A w.2.2 w.2.1.A := by rw [hU]; unfold lUpdate; rw [if_pos hlt]
      have hx := hB.s2.extendTo (A2 := U.A) (e' := N) (by omega) hqN fun p c => by
        rw [e, blockLDiv_eq _ _ _ _ _ _ _ _ (by omega), hB.zok.blkA]
      have := hB.s1.comp (m := w.1 - j1) (by rw [Nat.zero_add]; exact hx) (by omega)
      rwa [show j1 + (w.1 - j1) = w.1 by omega] at this
    · have hwj : w.1 = j1 := by omega
      have e : U.A = w.2.1.A := by rw [hU]; unfold lUpdate; rw [if_neg hlt]
      have e2 : w.2.1.A = V0 := by
        have hs2 := hB.s2
        rw [hwj, Nat.sub_self] at hs2
        funext p c
        by_cases hcc : j1 ≤ c ∧ c < q.1
        · exact congrFun (hs2.trail c hcc.1 hcc.2) p
        · exact hs2.frame p c (by omega)
      rw [e, e2, hwj]
      exact hB.s1
  -- putting back
  have hpk : ∀ k, w.1 ≤ k → k < w.1 + (q.1 - w.1) → U.P k > w.1 ∨ U.P k = k := by
    intro k a b
    rw [hUP]
    have := hent.rng k a (by omega)
    omega
  obtain ⟨b1, b2, b3, b4⟩ := putBack_eq w.1 (q.1-w.1) w.1 U hpk
  obtain ⟨t1, t2, t3⟩ := tail_range (P := U.P) (a := w.1) (N := N) (q.1-w.1) (by omega) fun k a b => by
    rw [hUP]
    have := hent.rng k a (by omega)
    omega
  have hsw : swapsPerm U.P q.1 * tailP U.P w.1 (q.1-w.1) = swapsPerm U.P w.1 := by
    have e1 := swapsPerm_tail U.P w.1 (q.1-w.1)
    rw [show w.1 + (q.1-w.1) = q.1 by omega] at e1
    rw [e1, mul_assoc, tail_sq (o := q.1) (N := N) (by rw [hUP]; exact hent) _ (by omega), mul_one]
  subst hr'
  dsimp only
  refine ⟨⟨le_rfl, by omega, ?_, ?_, ?_⟩, i2, by omega, m4, ?_, fun hx => hprog (by omega)⟩
  · rw [b1, b2, b3, ← hsw]
    exact hUs.perm _ (fun c hc => t1 c (by omega)) (fun c hc1 hc2 => by have := t2 c (by omega) hc2; omega) fun c hc => by rw [t3 c hc]; exact hc
  · intro i hi
    rw [b2, hUP]
    exact hB.pok i (by omega)
  · rw [b3, b4, hUd, hUb]
    exact hB.dok
  · by_cases hlt : j1 < q.1
    · exact Or.inl (hprog hlt)
    · right
      have := m8 (by omega) (by omega)
      omega

theorem lWhile_spec (ht : 0 < tiny) (htT : tiny ≤ T) (hNM : N ≤ M) {nb : Nat} (hnb : 0 < nb) (Z0 : Nat → Nat → K) :
    ∀ (f j1 j1x j3 : Nat) (st : PSt K), LInv T M N A0 det0 j1 j1x st → j1x ≤ j1 + 1 → j1 ≤ j3 → j3 ≤ N → (j1 = j3 → j1x = j1) →
      (j1x = j1 + 1 → ¬ st.cn j1 < rt) →
      (j3 - j1 + 1 ≤ f → (lWhile tiny s rt nb M N Z0 f j1 j1x j3 st).isSome) ∧
      ∀ r, lWhile tiny s rt nb M N Z0 f j1 j1x j3 st = some r →
        LInv T M N A0 det0 r.1 r.1 r.2.2 ∧ r.1 = r.2.1 ∧ j1 ≤ r.1 ∧ (j1x = j1 + 1 → j1 < r.1) := by
  intro f
  induction f with
  | zero => intro j1 j1x j3 st _ _ _ _ _ _; exact ⟨fun h => by omega, fun r hr => by cases hr⟩
  | succ f ih =>
    intro j1 j1x j3 st h h1 h2 h3 h4 hc
    rw [lWhile]
    by_cases hlt : j1 < j3
    · rw [if_pos hlt]
      obtain ⟨q, hq⟩ : ∃ q, q = lBlock tiny s rt nb M N j1 j1x j3 st Z0 := ⟨_, rfl⟩
      obtain ⟨b1, b2, b3, b4, b5, b6⟩ := lBlock_spec ht htT hNM hnb h h1 hlt h3 hc Z0 q hq.symm
      rw [← hq]
      obtain ⟨i1, i2⟩ := ih q.1 q.1 q.2.1 q.2.2 b1 (by omega) b3 (by omega) (fun _ => rfl) (fun h => by omega)
      refine ⟨fun hf => i1 (by omega), fun r hr => ?_⟩
      obtain ⟨r1, r2, r3, -⟩ := i2 r hr
      refine ⟨r1, r2, by omega, fun hx => ?_⟩
      have := b6 hx
      omega
    · rw [if_neg hlt]
      refine ⟨fun _ => rfl, fun r hr => ?_⟩
      cases hr
      have hx := h4 (by omega)
      subst hx
      exact ⟨h, by dsimp only; omega, le_rfl, fun h => by omega⟩

theorem psign_sq (P : Nat → Nat) (n : Nat) : (psign P n : K) * psign P n = 1 := by
  unfold psign
  rw [← Finset.prod_mul_distrib]
  exact Finset.prod_eq_one fun i _ => by split_ifs <;> simp

theorem PInv.toL (h : PInv tiny T s false M N A0 det0 j { st with det := st.det * psign st.P j }) (hj : j ≤ N) : LInv T M N A0 det0 j j st := by
  refine ⟨le_rfl, hj, h.spec, h.pok, ?_⟩
  have e := h.dok
  have e' : st.det * psign st.P j = det0 * psign st.P j * ∏ i ∈ Finset.range j, dfac (st.beta i) := e
  have e2 := congrArg (· * (psign st.P j : K)) e'
  simp only [mul_assoc, psign_sq, mul_one] at e2
  rw [e2, mul_comm (∏ i ∈ Finset.range j, dfac (st.beta i)), ← mul_assoc (psign st.P j), psign_sq, one_mul]

theorem lOuter_spec (ht : 0 < tiny) (htT : tiny ≤ T) (hs0 : 0 < s) (hNM : N ≤ M) {th sqe : ℝ} (hth : th ≤ s ^ 2 * (M * T ^ 2)) (hth0 : 0 ≤ th) {nb : Nat} (hnb : 0 < nb)
    (hsq : N * sqe ≤ 1) (Z0 : Nat → Nat → K) :
    ∀ (f j : Nat) (st : PSt K), j ≤ N → PInv tiny T s false M N A0 det0 j { st with det := st.det * psign st.P j } →
      (N - j + 3 ≤ f → (lOuter tiny sqe s th nb M N Z0 f j st).isSome) ∧
      ∀ r, lOuter tiny sqe s th nb M N Z0 f j st = some r → PInv tiny T s false M N A0 det0 N { r with det := r.det * psign r.P N } := by
  intro f
  induction f with
  | zero => intro j st _ _; exact ⟨fun h => by omega, fun r hr => by cases hr⟩
  | succ f ih =>
    intro j st hjN h
    rw [lOuter]
    by_cases hj : j < N
    · rw [if_pos hj]
      have am := argMax_spec st.cn j (N-j) (by omega)
      rw [show j + (N-j) = N by omega] at am
      obtain ⟨jp, hjp⟩ : ∃ jp, jp = argMax st.cn j (N-j) := ⟨_, rfl⟩
      rw [← hjp] at am ⊢
      dsimp only
      by_cases hmx : st.cn jp < th
      · rw [if_pos hmx]
        refine ⟨fun _ => rfl, fun r hr => ?_⟩
        cases hr
        have hz := h.zero hs0 hNM hjN hth fun k h5 h6 => (am.2.2 k h5 h6).trans_lt hmx
        have e : (psign (zeroRest M N j st).P N : K) = psign st.P j := by
          have hN : N = j + (N - j) := by omega
          unfold psign
          rw [hN, ← Finset.prod_range_mul_prod_Ico _ (show j ≤ j + (N-j) by omega), ← hN]
          rw [Finset.prod_eq_one (s := Finset.Ico j N) fun i hi => ?_, mul_one]
          · refine Finset.prod_congr rfl fun i hi => ?_
            rw [show (zeroRest M N j st).P i = st.P i from if_neg (by rw [Finset.mem_range] at hi; omega)]
          · rw [show (zeroRest M N j st).P i = i from if_pos (Finset.mem_Ico.mp hi), if_pos rfl]
        show PInv tiny T s false M N A0 det0 N { zeroRest M N j st with det := (zeroRest M N j st).det * psign (zeroRest M N j st).P N }
        rw [e]
        exact hz
      · rw [if_neg hmx]
        obtain ⟨st1, hst1⟩ : ∃ st1 : PSt K, st1 = if jp ≠ j then { st with A := swapC st.A j jp, cn := swapV st.cn j jp, P := setP st.P j jp }
          else { st with P := setP st.P j j } := ⟨_, rfl⟩
        obtain ⟨rt, hrt⟩ : ∃ rt, rt = if N * sqe * st.cn jp < th then th else N * sqe * st.cn jp := ⟨_, rfl⟩
        rw [← hst1, ← hrt]
        have hL := (h.toL hjN)
        have hst1' : st1 = { st with A := swapC st.A j jp, cn := swapV st.cn j jp, P := setP st.P j jp } := by
          rw [hst1]
          split_ifs with hc
          · rfl
          · have : jp = j := not_not.mp hc
            rw [this, swapC_self, swapV_self]
        have hL1 : LInv T M N A0 det0 j (j+1) st1 := by
          rw [hst1']; exact hL.swap am.1 am.2.1 _
        have hlow : ¬ st1.cn j < rt := by
          have e : st1.cn j = st.cn jp := by rw [hst1']; show swapV st.cn j jp j = _; rw [swapV, Equiv.swap_apply_left]
          rw [e, hrt]
          split_ifs
          · exact hmx
          · have h0 : 0 ≤ st.cn jp := hth0.trans (not_lt.mp hmx)
            nlinarith
        obtain ⟨w1, w2⟩ := lWhile_spec (s := s) ht htT hNM hnb Z0 f j (j+1) N st1 hL1 le_rfl hjN le_rfl (fun h => by omega) (fun _ => hlow)
        have key : ∀ r, lWhile tiny s rt nb M N Z0 f j (j+1) N st1 = some r → r.1 ≤ N ∧
            PInv tiny T s false M N A0 det0 r.1 { (if r.2.1 < N then recalc s M N r.2.1 r.2.1 r.2.2 else r.2.2) with
              det := (if r.2.1 < N then recalc s M N r.2.1 r.2.1 r.2.2 else r.2.2).det * psign (if r.2.1 < N then recalc s M N r.2.1 r.2.1 r.2.2 else r.2.2).P r.1 } := by
          intro r hr
          obtain ⟨r1, r2, r3, -⟩ := w2 r hr
          refine ⟨r1.mN, ?_⟩
          rw [← r2]
          have hr1N := r1.mN
          have hdok : r.2.2.det * psign r.2.2.P r.1 = det0 * psign r.2.2.P r.1 * ∏ i ∈ Finset.range r.1, dfac (r.2.2.beta i) := by
            rw [r1.dok]; ring
          split_ifs with hlt
          · refine ⟨r1.spec, r1.pok, fun k k1 k2 => ?_, hdok, fun h => by cases h⟩
            show (if r.1 ≤ k ∧ k < N then cnorm s r.2.2.A k r.1 M else r.2.2.cn k) = _
            rw [if_pos ⟨k1, k2⟩, cnorm_eq]
            rfl
          · exact ⟨r1.spec, r1.pok, fun k k1 k2 => by omega, hdok, fun h => by cases h⟩
        constructor
        · intro hf
          have hsome := w1 (by omega)
          obtain ⟨r, hr⟩ := Option.isSome_iff_exists.mp hsome
          rw [hr]
          obtain ⟨k1, k2⟩ := key r hr
          obtain ⟨-, -, -, w5⟩ := w2 r hr
          have := w5 rfl
          exact (ih r.1 _ k1 k2).1 (by omega)
        · intro r hr
          rcases hw : lWhile tiny s rt nb M N Z0 f j (j+1) N st1 with _ | q
          · rw [hw] at hr; cases hr
          · rw [hw] at hr
            obtain ⟨k1, k2⟩ := key q hw
            exact (ih q.1 _ k1 k2).2 r hr
    · rw [if_neg hj]
      refine ⟨fun _ => rfl, fun r hr => ?_⟩
      cases hr
      have : j = N := by omega
      subst this
      exact h

end
end TMV.QR
