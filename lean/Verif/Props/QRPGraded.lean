import Verif.Props.QRPDiv

/-! C87: with strict pivoting, or without blocks, the triangle has no zero on the diagonal before the first zero row. -/
namespace TMV.QR
noncomputable section
open Classical TMV.Tri

variable {K : Type} [RCLike K]
variable {tiny T s : ℝ} {strict : Bool} {M N : Nat} {A0 : Nat → Nat → K} {det0 : K} {j : Nat} {st : PSt K}

/-- After `j` columns. -/
def GrTo (N j : Nat) (A : Nat → Nat → K) : Prop := (∀ i, i < j → A i i ≠ 0) ∨ (j = N ∧ ∃ r, Graded r N A)

theorem GrTo.nz {A : Nat → Nat → K} (h : GrTo N j A) (hj : j < N) : ∀ i, i < j → A i i ≠ 0 := by
  rcases h with h | h
  · exact h
  · omega

theorem GrTo.graded {A : Nat → Nat → K} (h : GrTo N N A) : ∃ r, Graded r N A := by
  rcases h with h | h
  · exact ⟨N, le_rfl, h, fun i c h1 h2 h3 => by omega⟩
  · exact h.2

theorem nz_step (ht : 0 < tiny) (hs0 : 0 < s) (hNM : N ≤ M) (hj : j < N) (h : PInv tiny T s strict M N A0 det0 j st) {jp : Nat} (h1 : j ≤ jp)
    (h2 : jp < N) {th : ℝ} (hth : s ^ 2 * (M * tiny ^ 2) < th) (hc : th ≤ st.cn jp) (hnz : ∀ i, i < j → st.A i i ≠ 0) :
    ∀ i, i < j+1 → (nbStep tiny s M N j (pivot j jp st)).A i i ≠ 0 := by
  rw [pivot_eq]
  obtain ⟨B, hB⟩ : ∃ B, B = swapC st.A j jp := ⟨_, rfl⟩
  obtain ⟨d, hd⟩ : ∃ d, d = if jp = j then st.det else -st.det := ⟨_, rfl⟩
  rw [← hB, ← hd]
  show ∀ i, i < j+1 → (reflectMat tiny M N j B d).1 i i ≠ 0
  obtain ⟨hr, -⟩ := reflectMat_spec tiny ht M N j (by omega) (by omega) B d (fun _ => (reflectMat tiny M N j B d).2.1) rfl
  obtain ⟨-, -, n3⟩ := hr.norm1 (by omega)
  intro i hi
  by_cases hij : i = j
  · rw [hij]
    intro h0
    rw [h0, map_zero, max_eq_right (by positivity)] at n3
    have e : tl M j B j = tl M j st.A jp := by
      rw [hB]; unfold tl swapC
      simp only [Equiv.swap_apply_left]
    rw [h.cok jp h1 h2] at hc
    rw [e] at n3
    have : s ^ 2 * tl M j st.A jp ≤ s ^ 2 * (M * tiny ^ 2) := mul_le_mul_of_nonneg_left n3 (sq_nonneg _)
    linarith
  · rw [hr.frame i i (by omega), hB, swapC, swap_lt (by omega) (by omega)]
    exact hnz i (by omega)

theorem nz_zero (hNM : N ≤ M) (hj : j ≤ N) (hnz : ∀ i, i < j → st.A i i ≠ 0) : GrTo N N (zeroRest M N j st).A := by
  right
  refine ⟨rfl, j, hj, fun i hi => ?_, fun i c h1 h2 h3 => ?_⟩
  · show (if j ≤ i ∧ i < M ∧ j ≤ i ∧ i < N then 0 else st.A i i) ≠ 0
    rw [if_neg (by omega)]
    exact hnz i hi
  · exact if_pos ⟨h1, by omega, by omega, h3⟩

theorem nbLoop_gr (ht : 0 < tiny) (htT : tiny ≤ T) (hs0 : 0 < s) (hNM : N ≤ M) {th sqe : ℝ} (hthl : s ^ 2 * (M * tiny ^ 2) < th) :
    ∀ (n j : Nat) (rt : ℝ) (st : PSt K), n + j = N → PInv tiny T s strict M N A0 det0 j st → (∀ i, i < j → st.A i i ≠ 0) →
      (strict = false → 0 < j → th ≤ rt) → (strict = false → j = 0 → th ≤ 4 * sqe * st.cn (argMax st.cn j (N-j))) →
      GrTo N N (nbLoop tiny sqe s th strict M N n j rt st).A := by
  intro n
  induction n with
  | zero => intro j rt st hn h hnz _ _; rw [Nat.zero_add] at hn; subst hn; exact Or.inl hnz
  | succ n ih =>
    intro j rt st hn h hnz hrt h0
    have am := argMax_spec st.cn j (N-j) (by omega)
    have am2 := argMax_spec (QR.recalc s M N j j st).cn j (N-j) (by omega)
    rw [show j + (N-j) = N by omega] at am am2
    have go : ∀ (st : PSt K) (jp : Nat) (rt : ℝ), PInv tiny T s strict M N A0 det0 j st → (∀ i, i < j → st.A i i ≠ 0) →
        j ≤ jp → jp < N → (strict = true → ∀ k, j ≤ k → k < N → st.cn k ≤ st.cn jp) → th ≤ st.cn jp → (strict = false → th ≤ rt) →
        GrTo N N (nbLoop tiny sqe s th strict M N n (j+1) rt (nbStep tiny s M N j (pivot j jp st))).A := by
      intro st jp rt h hnz h1 h2 h3 h4 h5
      exact ih _ _ _ (by omega) (h.step ht htT hs0 hNM (by omega) h1 h2 h3) (nz_step ht hs0 hNM (by omega) h h1 h2 hthl h4 hnz) (fun hs _ => h5 hs) fun _ h => by omega
    have hcl : ∀ x : ℝ, th ≤ if x < th then th else x := fun x => by split_ifs with h <;> linarith
    unfold nbLoop
    by_cases hc : strict = true ∨ j = 0 ∨ st.cn j < rt
    · rw [if_pos hc]
      dsimp only
      by_cases hr : st.cn (argMax st.cn j (N-j)) < if j = 0 then 4 * sqe * st.cn (argMax st.cn j (N-j)) else rt
      · rw [if_pos hr]
        by_cases h3 : (QR.recalc s M N j j st).cn (argMax (QR.recalc s M N j j st).cn j (N-j)) < th
        · rw [if_pos h3]
          exact nz_zero hNM (by omega) hnz
        · rw [if_neg h3]
          exact go (QR.recalc s M N j j st) _ _ h.recalc hnz am2.1 am2.2.1 (fun _ => am2.2.2) (not_lt.mp h3) fun _ => hcl _
      · rw [if_neg hr]
        by_cases h3 : st.cn (argMax st.cn j (N-j)) < th
        · rw [if_pos h3]
          exact nz_zero hNM (by omega) hnz
        · rw [if_neg h3]
          refine go st _ _ h hnz am.1 am.2.1 (fun _ => am.2.2) (not_lt.mp h3) fun hs => ?_
          by_cases hj0 : j = 0
          · rw [if_pos hj0]
            exact h0 hs hj0
          · rw [if_neg hj0]
            exact hrt hs (by omega)
    · rw [if_neg hc]
      have e : ({ st with P := setP st.P j j } : PSt K) = pivot j j st := by
        unfold pivot
        rw [if_neg (by simp)]
      rw [e]
      push Not at hc
      have hsf : strict = false := by simpa using hc.1
      exact go st j rt h hnz le_rfl (by omega) (fun hst => absurd hst hc.1) ((hrt hsf (by omega)).trans hc.2.2) fun hs => hrt hs (by omega)

theorem sbInner_gr (ht : 0 < tiny) (htT : tiny ≤ T) (hs0 : 0 < s) (hNM : N ≤ M) {th sqe : ℝ} (hthl : s ^ 2 * (M * tiny ^ 2) < th) (j1 : Nat) :
    ∀ (n j : Nat) (rt : ℝ) (st : PSt K) (Y : Nat → Nat → K), n + j ≤ N → j1 ≤ j →
      PInv tiny T s strict M N A0 det0 j { st with A := vW M N j1 j st.A Y } → (∀ i, i < j → vW M N j1 j st.A Y i i ≠ 0) →
      ∀ r, sbInner tiny sqe s th M N j1 n j rt st Y = r → GrTo N r.1 (vW M N j1 r.1 r.2.2.1.A r.2.2.2) := by
  intro n
  induction n with
  | zero => intro j rt st Y hn h1 h hnz r hr; subst hr; exact Or.inl hnz
  | succ n ih =>
    intro j rt st Y hn h1 h hnz r hr
    have am := argMax_spec st.cn j (N-j) (by omega)
    rw [show j + (N-j) = N by omega] at am
    unfold sbInner at hr
    dsimp only at hr
    obtain ⟨rt', hrt'⟩ : ∃ rt', rt' = if rt = 0 then 4 * sqe * st.cn (argMax st.cn j (N-j)) else rt := ⟨_, rfl⟩
    rw [← hrt'] at hr
    by_cases hr1 : st.cn (argMax st.cn j (N-j)) < rt'
    · rw [if_pos hr1] at hr
      by_cases hjj : j = j1
      · rw [if_pos hjj] at hr
        subst hr
        exact Or.inl hnz
      · rw [if_neg hjj] at hr
        subst hr
        exact Or.inl hnz
    · rw [if_neg hr1] at hr
      by_cases hr2 : st.cn (argMax st.cn j (N-j)) < th
      · rw [if_pos hr2] at hr
        by_cases hjj : j = j1
        · rw [if_pos hjj] at hr
          subst hr
          dsimp only
          subst hjj
          rw [vW_self] at hnz
          rw [vW_N]
          exact nz_zero hNM (by omega) hnz
        · rw [if_neg hjj] at hr
          subst hr
          exact Or.inl hnz
      · rw [if_neg hr2] at hr
        have hs1 := h.step ht htT hs0 hNM (by omega) am.1 am.2.1 fun _ => am.2.2
        have hn1 := nz_step ht hs0 hNM (by omega) h am.1 am.2.1 hthl (not_lt.mp hr2) hnz
        rw [← pivot_vW am.1 am.2.1] at hs1 hn1
        have e := sbStep_eq (tiny := tiny) (s := s) (st := pivot j (argMax st.cn j (N-j)) st) hNM h1 (show j < N by omega)
          (fun k c => if j1 ≤ k ∧ k < j then swapC Y j (argMax st.cn j (N-j)) k c else Y k c)
        rw [← e] at hs1 hn1
        exact ih _ _ _ _ (by omega) (by omega) hs1 hn1 r hr

theorem sbOuter_gr (ht : 0 < tiny) (htT : tiny ≤ T) (hs0 : 0 < s) (hNM : N ≤ M) {th sqe : ℝ} (hth : th ≤ s ^ 2 * (M * T ^ 2))
    (hthl : s ^ 2 * (M * tiny ^ 2) < th) (nb : Nat) :
    ∀ (f j : Nat) (rt : ℝ) (st : PSt K) (Y : Nat → Nat → K), j ≤ N → PInv tiny T s strict M N A0 det0 j st → GrTo N j st.A →
      ∀ r, sbOuter tiny sqe s th nb M N f j rt st Y = some r → GrTo N N r.A := by
  intro f
  induction f with
  | zero => intro j rt st Y _ h _ r hr; cases hr
  | succ f ih =>
    intro j rt st Y hjN h hg r hr
    unfold sbOuter at hr
    by_cases hj : j < N
    · rw [if_pos hj] at hr
      obtain ⟨q, hq⟩ : ∃ q, q = sbInner tiny sqe s th M N j (min N (j+nb) - j) j rt st Y := ⟨_, rfl⟩
      have h' : PInv tiny T s strict M N A0 det0 j { st with A := vW M N j j st.A Y } := by rw [vW_self]; exact h
      obtain ⟨i1, i2, i3⟩ := sbInner_spec ht htT hs0 hNM hth j _ _ rt st Y (by omega) le_rfl h' q hq.symm
      have i4 := sbInner_gr ht htT hs0 hNM hthl j _ _ rt st Y (by omega) le_rfl h' (by rw [vW_self]; exact hg.nz hj) q hq.symm
      rw [← hq] at hr
      exact ih _ _ _ _ i2 i3 i4 r hr
    · rw [if_neg hj] at hr
      rw [show N = j by omega] at hg ⊢
      cases hr
      exact hg

/-- **C87**: if `strict`, or if the matrix has no more columns than a block, every diagonal element of `R` is different from zero up to some
column `r`, and below row `r` all of `R` is zero.  (The matrix must not be so small that rounding of its elements matters more than
the threshold.) -/
theorem qrp_graded (ht : 0 < tiny) (hNM : N ≤ M) {eps sqe : ℝ} {nb : Nat} (hb : strict = true ∨ N ≤ nb)
    (heps : strict = false → (N * eps) ^ 2 ≤ 4 * sqe) (A Z0 : Nat → Nat → K)
    (hA : M * tiny ^ 2 < N * eps ^ 2 * ∑ c ∈ Finset.range N, ∑ p ∈ Finset.range M, ‖A p c‖ ^ 2)
    (beta0 : Nat → K) (P0 : Nat → Nat) (det : K) (fuel : Nat)
    (r : PSt K) (hr : qrp tiny eps sqe strict nb M N A Z0 beta0 P0 det fuel = some r) : ∃ k, Graded k N r.A := by
  have hs0 := qrpScale_pos M N A
  obtain ⟨T, htT, hT⟩ := qrpTol_T ht eps hNM A
  obtain ⟨th, hthe⟩ : ∃ th, th = qrpThresh eps N (qrpInit M N A beta0 P0 det).cn := ⟨_, rfl⟩
  have hth : th ≤ qrpScale M N A ^ 2 * (M * T ^ 2) := by
    rw [hthe, qrpThresh_eq, hT]
    exact mul_le_mul_of_nonneg_left (le_max_right _ _) (sq_nonneg _)
  have hthl : qrpScale M N A ^ 2 * (M * tiny ^ 2) < th := by
    rw [hthe, qrpThresh_eq]
    exact mul_lt_mul_of_pos_left hA (by positivity)
  have h0 : ∀ b, PInv tiny T (qrpScale M N A) b M N A det 0 (qrpInit M N A beta0 P0 det) := fun b => qrpInit_inv tiny T b A beta0 P0 det
  have hN : 0 < N := by
    rcases Nat.eq_zero_or_pos N with rfl | h
    · simp at hA
      have : (0:ℝ) ≤ M * tiny ^ 2 := by positivity
      linarith
    · exact h
  unfold qrp at hr
  rw [if_pos hN] at hr
  refine GrTo.graded ?_
  by_cases hb' : N > nb
  · rw [if_pos hb', if_pos (hb.resolve_right (by omega))] at hr
    unfold strictQRP at hr
    dsimp only at hr
    rw [← hthe] at hr
    exact sbOuter_gr ht htT hs0 hNM hth hthl nb _ _ _ _ _ (Nat.zero_le _) (h0 true) (Or.inl fun i hi => by omega) r hr
  · rw [if_neg hb'] at hr
    cases hr
    unfold nonBlockQRP
    dsimp only
    rw [← hthe]
    refine nbLoop_gr (A0 := A) (det0 := det) ht htT hs0 hNM hthl N 0 0 _ rfl (h0 strict) (fun i hi => by omega) (fun _ h => by omega) ?_
    intro hsf _
    have am := argMax_spec (qrpInit M N A beta0 P0 det).cn 0 (N-0) (by omega)
    obtain ⟨c, hc⟩ : ∃ c, c = (qrpInit M N A beta0 P0 det).cn (argMax (qrpInit M N A beta0 P0 det).cn 0 (N-0)) := ⟨_, rfl⟩
    rw [← hc] at am ⊢
    have hcn : ∀ k, k < N → (qrpInit M N A beta0 P0 det).cn k = qrpScale M N A ^ 2 * ∑ p ∈ Finset.range M, ‖A p k‖ ^ 2 := by
      intro k hk
      rw [(h0 strict).cok k (Nat.zero_le _) hk, ← tl_zero]
      rfl
    have hsum : qrpScale M N A ^ 2 * ∑ c ∈ Finset.range N, ∑ p ∈ Finset.range M, ‖A p c‖ ^ 2 ≤ N * c := by
      rw [Finset.mul_sum]
      calc _ ≤ ∑ k ∈ Finset.range N, c := Finset.sum_le_sum fun k hk => by rw [← hcn k (Finset.mem_range.mp hk)]; exact am.2.2 k (Nat.zero_le _) (by have := Finset.mem_range.mp hk; omega)
        _ = N * c := by simp
    rw [hthe, qrpThresh_eq]
    have h1 := heps hsf
    have h2 : 0 ≤ c := by
      have := am.2.2 0 le_rfl (by omega)
      rw [hcn 0 hN] at this
      exact le_trans (mul_nonneg (sq_nonneg _) (Finset.sum_nonneg fun _ _ => sq_nonneg _)) this
    calc qrpScale M N A ^ 2 * (N * eps ^ 2 * ∑ c ∈ Finset.range N, ∑ p ∈ Finset.range M, ‖A p c‖ ^ 2)
        = N * eps ^ 2 * (qrpScale M N A ^ 2 * ∑ c ∈ Finset.range N, ∑ p ∈ Finset.range M, ‖A p c‖ ^ 2) := by ring
      _ ≤ N * eps ^ 2 * (N * c) := mul_le_mul_of_nonneg_left hsum (by positivity)
      _ = (N * eps) ^ 2 * c := by ring
      _ ≤ 4 * sqe * c := mul_le_mul_of_nonneg_right h1 h2

end
end TMV.QR
