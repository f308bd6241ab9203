import Verif.Props.QRP

/-! QR decomposition with column pivoting (C86): `StrictBlockQRPDecompose`. -/
namespace TMV.QR
noncomputable section
open Classical

variable {K : Type} [RCLike K]
variable {tiny T s : ℝ} {strict : Bool} {M N : Nat} {A0 : Nat → Nat → K} {det0 : K} {j : Nat} {st : PSt K}

/-- The matrix that the stored `A` and `ZYtA` stand for: `A - Y*ZYtA` in the part not decomposed yet. -/
def vW (M N j1 j : Nat) (A Y : Nat → Nat → K) : Nat → Nat → K := fun p c =>
  if j ≤ p ∧ p < M ∧ j ≤ c ∧ c < N then A p c - ∑ k ∈ Finset.Ico j1 j, A p k * Y k c else A p c

theorem vW_self (M N j : Nat) (A Y : Nat → Nat → K) : vW M N j j A Y = A := by
  funext p c
  unfold vW
  simp

theorem vW_N (M N j1 : Nat) (A Y : Nat → Nat → K) : vW M N j1 N A Y = A := by
  funext p c
  unfold vW
  rw [if_neg (by omega)]

theorem pivot_vW {j1 jp : Nat} (h1 : j ≤ jp) (h2 : jp < N) (Y : Nat → Nat → K) :
    ({ pivot j jp st with A := vW M N j1 j (pivot j jp st).A (fun k c => if j1 ≤ k ∧ k < j then swapC Y j jp k c else Y k c) } : PSt K) =
      pivot j jp { st with A := vW M N j1 j st.A Y } := by
  rw [pivot_eq, pivot_eq]
  dsimp only
  congr 1
  funext p c
  show vW M N j1 j (swapC st.A j jp) _ p c = vW M N j1 j st.A Y p (Equiv.swap j jp c)
  unfold vW
  have hc : (j ≤ c ∧ c < N) ↔ (j ≤ Equiv.swap j jp c ∧ Equiv.swap j jp c < N) := by
    rcases swap_cases j jp c with h | h | h <;> omega
  by_cases h : j ≤ p ∧ p < M ∧ j ≤ c ∧ c < N
  · rw [if_pos h, if_pos ⟨h.1, h.2.1, hc.mp h.2.2⟩]
    unfold swapC
    congr 1
    refine Finset.sum_congr rfl fun k hk => ?_
    rw [Finset.mem_Ico] at hk
    dsimp only
    rw [if_pos hk, swap_lt hk.2 (by omega)]
  · rw [if_neg h, if_neg (by rw [← hc]; exact h)]
    rfl

/-- A reflection of the column only depends on the column. -/
theorem reflectCol_congr (tiny : ℝ) (M j : Nat) (A B : Nat → Nat → K) (det : K) (h : ∀ p, A p j = B p j) :
    (reflectCol tiny M j A det).2 = (reflectCol tiny M j B det).2 ∧
    ∀ p c, (reflectCol tiny M j A det).1 p c = if c = j then (reflectCol tiny M j B det).1 p j else A p c := by
  unfold reflectCol
  simp only [h]
  refine ⟨trivial, fun p c => ?_⟩
  by_cases hc : c = j
  · rw [if_pos hc]
    subst hc
    simp only [true_and, h]
  · rw [if_neg (by tauto), if_neg (by tauto), if_neg hc]

theorem sbStep_eq (hNM : N ≤ M) {j1 : Nat} (h1 : j1 ≤ j) (hj : j < N) (Y : Nat → Nat → K) :
    ({ (sbStep tiny s M N j1 j st Y).1 with
       A := vW M N j1 (j+1) (sbStep tiny s M N j1 j st Y).1.A (sbStep tiny s M N j1 j st Y).2 } : PSt K) =
      nbStep tiny s M N j { st with A := vW M N j1 j st.A Y } := by
  obtain ⟨A, hA⟩ : ∃ A, A = st.A := ⟨_, rfl⟩
  obtain ⟨B, hB⟩ : ∃ B, B = vW M N j1 j A Y := ⟨_, rfl⟩
  obtain ⟨A1, hA1⟩ : ∃ A1 : Nat → Nat → K, A1 = fun p c => if c = j ∧ j ≤ p ∧ p < M then A p c - ∑ k ∈ Finset.Ico j1 j, A p k * Y k j else A p c :=
    ⟨_, rfl⟩
  have hcol : ∀ p, A1 p j = B p j := by
    intro p
    rw [hA1, hB]
    unfold vW
    dsimp only
    by_cases hp : j ≤ p ∧ p < M
    · rw [if_pos ⟨rfl, hp⟩, if_pos ⟨hp.1, hp.2, le_rfl, hj⟩]
    · rw [if_neg (by tauto), if_neg (by tauto)]
  obtain ⟨R, hR⟩ : ∃ R, R = reflectCol tiny M j B st.det := ⟨_, rfl⟩
  obtain ⟨c1, c2⟩ := reflectCol_congr tiny M j A1 B st.det hcol
  have c3 := (reflectCol_congr tiny M j B B st.det fun _ => rfl).2
  rw [← hR] at c1 c2 c3
  have hA1' : ∀ p c, c ≠ j → A1 p c = A p c := fun p c hc => by rw [hA1]; exact if_neg (by tauto)
  obtain ⟨A2, hA2⟩ : ∃ A2, A2 = (reflectCol tiny M j A1 st.det).1 := ⟨_, rfl⟩
  rw [← hA2] at c2
  have hA2' : ∀ p c, c ≠ j → A2 p c = A p c := fun p c hc => by rw [c2, if_neg hc, hA1' p c hc]
  have hA2j : ∀ p, A2 p j = R.1 p j := fun p => by rw [c2, if_pos rfl]
  have hBlt : ∀ p c, c < j ∨ N ≤ c ∨ p < j ∨ M ≤ p → B p c = A p c := fun p c h => by rw [hB]; exact if_neg (by omega)
  have hBin : ∀ p c, j ≤ p → p < M → j ≤ c → c < N → B p c = A p c - ∑ k ∈ Finset.Ico j1 j, A p k * Y k c :=
    fun p c h2 h3 h4 h5 => by rw [hB]; exact if_pos ⟨h2, h3, h4, h5⟩
  -- the new row of ZYtA
  obtain ⟨Y', hY'⟩ : ∃ Y' : Nat → Nat → K, Y' = if R.2.1 ≠ 0 then
      fun k c => if k = j ∧ j1 ≤ c ∧ c < N then
        ((if j < c then (∑ p ∈ Finset.Ico (j+1) M, star (A2 p j) * A2 p c) + A2 j c else 0) -
          ∑ l ∈ Finset.Ico j1 j, ((∑ p ∈ Finset.Ico (j+1) M, star (A2 p j) * A2 p l) + A2 j l) * Y l c) * R.2.1 else Y k c
    else fun k c => if k = j ∧ j1 ≤ c ∧ c < N then 0 else Y k c := ⟨_, rfl⟩
  have hYlt : ∀ k c, k ≠ j → Y' k c = Y k c := by
    intro k c hk
    rw [hY']
    by_cases hb : R.2.1 ≠ 0
    · rw [if_pos hb]; exact if_neg (by tauto)
    · rw [if_neg hb]; exact if_neg (by tauto)
  have hYj : ∀ c, j < c → c < N → Y' j c = ((∑ p ∈ Finset.Ico (j+1) M, star (R.1 p j) * B p c) + B j c) * R.2.1 := by
    intro c h2 h3
    rw [hY']
    by_cases hb : R.2.1 ≠ 0
    · rw [if_pos hb]
      rw [if_pos ⟨rfl, by omega, h3⟩, if_pos h2]
      congr 1
      rw [hBin j c le_rfl (by omega) h2.le h3]
      have e1 : ∑ p ∈ Finset.Ico (j+1) M, star (R.1 p j) * B p c =
          (∑ p ∈ Finset.Ico (j+1) M, star (A2 p j) * A2 p c) -
            ∑ l ∈ Finset.Ico j1 j, (∑ p ∈ Finset.Ico (j+1) M, star (A2 p j) * A2 p l) * Y l c := by
        simp only [Finset.sum_mul]
        rw [Finset.sum_comm, ← Finset.sum_sub_distrib]
        refine Finset.sum_congr rfl fun p hp => ?_
        rw [Finset.mem_Ico] at hp
        rw [hBin p c (by omega) hp.2 h2.le h3, hA2j, hA2' p c (by omega), mul_sub, Finset.mul_sum]
        congr 1
        refine Finset.sum_congr rfl fun k hk => ?_
        rw [Finset.mem_Ico] at hk
        rw [hA2' p k (by omega)]; ring
      rw [e1]
      simp only [add_mul, Finset.sum_add_distrib]
      rw [hA2' j c (by omega)]
      have e2 : ∑ l ∈ Finset.Ico j1 j, A2 j l * Y l c = ∑ l ∈ Finset.Ico j1 j, A j l * Y l c :=
        Finset.sum_congr rfl fun l hl => by rw [Finset.mem_Ico] at hl; rw [hA2' j l (by omega)]
      rw [e2]; ring
    · rw [if_neg hb]
      rw [if_pos ⟨rfl, by omega, h3⟩, not_not.mp hb, mul_zero]
  obtain ⟨A3, hA3⟩ : ∃ A3 : Nat → Nat → K, A3 = fun p c => if p = j ∧ j < c ∧ c < N then A2 p c - (∑ k ∈ Finset.Ico j1 j, A2 j k * Y' k c) - Y' j c else A2 p c :=
    ⟨_, rfl⟩
  -- the step
  have hstep : sbStep tiny s M N j1 j st Y = ({ st with
     A := A3, det := R.2.2
     beta := fun c => if c = j then R.2.1 else st.beta c
     cn := fun k => if j < k ∧ k < N then st.cn k - RCLike.normSq (A3 j k * (s : K)) else st.cn k }, Y') := by
    have hA3' : A3 = fun p c => if p = j ∧ j < c ∧ c < N then (reflectCol tiny M j A1 st.det).1 p c - (∑ k ∈ Finset.Ico j1 j, (reflectCol tiny M j A1 st.det).1 j k * Y' k c) - Y' j c else (reflectCol tiny M j A1 st.det).1 p c := by
      rw [hA3, hA2]
    rw [hA3', hY', hA2, ← c1, hA1, hA]
    rfl
  -- the virtual matrix
  have hvW : vW M N j1 (j+1) A3 Y' = (reflectMat tiny M N j B st.det).1 := by
    have hrm : (reflectMat tiny M N j B st.det).1 = if R.2.1 ≠ 0 then lmult M j (j+1) N R.1 R.2.1 R.1 else R.1 := by
      rw [hR]; rfl
    rw [hrm]
    have hRc : ∀ p c, c ≠ j → R.1 p c = B p c := fun p c hc => by rw [c3, if_neg hc]
    have hrhs : ∀ p c, (if R.2.1 ≠ 0 then lmult M j (j+1) N R.1 R.2.1 R.1 else R.1) p c =
        if j < c ∧ c < N then (if p = j then B p c - Y' j c else if j < p ∧ p < M then B p c - R.1 p j * Y' j c else B p c) else R.1 p c := by
      intro p c
      by_cases hc : j < c ∧ c < N
      · rw [if_pos hc]
        by_cases hb : R.2.1 ≠ 0
        · rw [if_pos hb]
          unfold lmult
          rw [if_neg (by omega), if_pos hb]
          dsimp only
          rw [if_pos ⟨by omega, hc.2⟩, hYj c hc.1 hc.2]
          simp only [hRc _ c (show c ≠ j by omega)]
        · rw [if_neg hb, hYj c hc.1 hc.2, not_not.mp hb, hRc p c (by omega)]
          split_ifs <;> simp
      · rw [if_neg hc]
        by_cases hb : R.2.1 ≠ 0
        · rw [if_pos hb]
          unfold lmult
          by_cases h0 : N - (j+1) = 0
          · rw [if_pos h0]
          · rw [if_neg h0, if_pos hb]
            dsimp only
            rw [if_neg (by omega)]
        · rw [if_neg hb]
    funext p c
    rw [hrhs]
    by_cases hc : j < c ∧ c < N
    · rw [if_pos hc]
      by_cases hpj : p = j
      · rw [if_pos hpj, hpj]
        unfold vW
        rw [if_neg (by omega), hA3]
        dsimp only
        rw [if_pos ⟨rfl, hc⟩, hA2' j c (by omega), hBin j c le_rfl (by omega) hc.1.le hc.2]
        congr 2
        refine Finset.sum_congr rfl fun k hk => ?_
        rw [Finset.mem_Ico] at hk
        rw [hA2' j k (by omega), hYlt k c (by omega)]
      · rw [if_neg hpj]
        have hA3p : ∀ k, A3 p k = A2 p k := fun k => by rw [hA3]; exact if_neg (by tauto)
        by_cases hp : j < p ∧ p < M
        · rw [if_pos hp]
          unfold vW
          rw [if_pos ⟨by omega, hp.2, by omega, hc.2⟩, Finset.sum_Ico_succ_top h1, hA3p, hA3p, hA2j, hA2' p c (by omega),
            hBin p c (by omega) hp.2 hc.1.le hc.2, ← sub_sub]
          congr 2
          refine Finset.sum_congr rfl fun k hk => ?_
          rw [Finset.mem_Ico] at hk
          rw [hA3p, hA2' p k (by omega), hYlt k c (by omega)]
        · rw [if_neg hp, hBlt p c (by omega)]
          unfold vW
          rw [if_neg (by omega), hA3p, hA2' p c (by omega)]
    · rw [if_neg hc]
      unfold vW
      rw [if_neg (by omega), hA3]
      dsimp only
      rw [if_neg (by omega)]
      by_cases hcj : c = j
      · rw [hcj, hA2j]
      · rw [hA2' p c hcj, hRc p c hcj, hBlt p c (by omega)]
  rw [hstep]
  dsimp only
  rw [hvW]
  have hd : (reflectMat tiny M N j B st.det).2 = R.2 := by rw [hR]; rfl
  have hrow : ∀ k, j < k → k < N → A3 j k = (reflectMat tiny M N j B st.det).1 j k := fun k h2 h3 => by
    rw [← hvW]
    unfold vW
    rw [if_neg (by omega)]
  have hnb : nbStep tiny s M N j { st with A := vW M N j1 j st.A Y } = { st with
      A := (reflectMat tiny M N j B st.det).1, det := (reflectMat tiny M N j B st.det).2.2
      beta := fun c => if c = j then (reflectMat tiny M N j B st.det).2.1 else st.beta c
      cn := fun k => if j < k ∧ k < N then st.cn k - RCLike.normSq ((reflectMat tiny M N j B st.det).1 j k * (s : K)) else st.cn k } := by
    rw [hB, hA]; rfl
  rw [hnb, hd]
  congr 1
  funext k
  by_cases hk : j < k ∧ k < N
  · rw [if_pos hk, if_pos hk, hrow k hk.1 hk.2]
  · rw [if_neg hk, if_neg hk]

theorem sbInner_spec (ht : 0 < tiny) (htT : tiny ≤ T) (hs0 : 0 < s) (hNM : N ≤ M) {th sqe : ℝ} (hth : th ≤ s ^ 2 * (M * T ^ 2)) (j1 : Nat) :
    ∀ (n j : Nat) (rt : ℝ) (st : PSt K) (Y : Nat → Nat → K), n + j ≤ N → j1 ≤ j →
      PInv tiny T s strict M N A0 det0 j { st with A := vW M N j1 j st.A Y } →
      ∀ r, sbInner tiny sqe s th M N j1 n j rt st Y = r →
        j ≤ r.1 ∧ r.1 ≤ N ∧ PInv tiny T s strict M N A0 det0 r.1 { r.2.2.1 with A := vW M N j1 r.1 r.2.2.1.A r.2.2.2 } := by
  intro n
  induction n with
  | zero => intro j rt st Y hn h1 h r hr; subst hr; exact ⟨le_rfl, by rw [sbInner]; omega, h⟩
  | succ n ih =>
    intro j rt st Y hn h1 h r hr
    have am := argMax_spec st.cn j (N-j) (by omega)
    rw [show j + (N-j) = N by omega] at am
    unfold sbInner at hr
    dsimp only at hr
    obtain ⟨rt', hrt'⟩ : ∃ rt', rt' = if rt = 0 then 4 * sqe * st.cn (argMax st.cn j (N-j)) else rt := ⟨_, rfl⟩
    rw [← hrt'] at hr
    by_cases hr1 : st.cn (argMax st.cn j (N-j)) < rt'
    · rw [if_pos hr1] at hr
      by_cases hjj : j = j1
      · rw [if_pos hjj] at hr
        subst hr
        dsimp only
        refine ⟨le_rfl, by omega, ?_⟩
        subst hjj
        rw [vW_self] at h ⊢
        exact h.recalc
      · rw [if_neg hjj] at hr
        subst hr
        exact ⟨le_rfl, by dsimp only; omega, h⟩
    · rw [if_neg hr1] at hr
      by_cases hr2 : st.cn (argMax st.cn j (N-j)) < th
      · rw [if_pos hr2] at hr
        by_cases hjj : j = j1
        · rw [if_pos hjj] at hr
          subst hr
          dsimp only
          refine ⟨by omega, le_rfl, ?_⟩
          subst hjj
          rw [vW_self] at h
          rw [vW_N]
          exact h.zero hs0 hNM (by omega) hth fun k h5 h6 => (am.2.2 k h5 h6).trans_lt hr2
        · rw [if_neg hjj] at hr
          subst hr
          exact ⟨le_rfl, by dsimp only; omega, h⟩
      · rw [if_neg hr2] at hr
        have hs1 := h.step ht htT hs0 hNM (by omega) am.1 am.2.1 fun _ => am.2.2
        rw [← pivot_vW am.1 am.2.1] at hs1
        have e := sbStep_eq (tiny := tiny) (s := s) (st := pivot j (argMax st.cn j (N-j)) st) hNM h1 (show j < N by omega)
          (fun k c => if j1 ≤ k ∧ k < j then swapC Y j (argMax st.cn j (N-j)) k c else Y k c)
        rw [← e] at hs1
        obtain ⟨i1, i2, i3⟩ := ih _ _ _ _ (by omega) (by omega) hs1 r hr
        exact ⟨by omega, i2, i3⟩

/-- A block makes progress, or has the norms recalculated, in which case the next one makes progress. -/
theorem sbInner_progress {th sqe : ℝ} (hsq : 4 * sqe ≤ 1) (hcn : ∀ k, j ≤ k → k < N → 0 ≤ st.cn k) (n : Nat) (hn : n + 1 + j ≤ N)
    (htT : 0 < tiny) (htT' : tiny ≤ T) (hs0 : 0 < s) (hNM : N ≤ M) (hth : th ≤ s ^ 2 * (M * T ^ 2))
    (h : PInv tiny T s strict M N A0 det0 j st) (rt : ℝ) (Y : Nat → Nat → K) (r) (hr : sbInner tiny sqe s th M N j (n+1) j rt st Y = r) :
    (rt = 0 → j < r.1) ∧ (j < r.1 ∨ r.2.1 = 0) := by
  have am := argMax_spec st.cn j (N-j) (by omega)
  rw [show j + (N-j) = N by omega] at am
  unfold sbInner at hr
  dsimp only at hr
  obtain ⟨rt', hrt'⟩ : ∃ rt', rt' = if rt = 0 then 4 * sqe * st.cn (argMax st.cn j (N-j)) else rt := ⟨_, rfl⟩
  rw [← hrt'] at hr
  by_cases hr1 : st.cn (argMax st.cn j (N-j)) < rt'
  · rw [if_pos hr1, if_pos rfl] at hr
    subst hr
    refine ⟨fun h0 => ?_, Or.inr rfl⟩
    rw [if_pos h0] at hrt'
    have := hcn _ am.1 am.2.1
    nlinarith
  · rw [if_neg hr1] at hr
    by_cases hr2 : st.cn (argMax st.cn j (N-j)) < th
    · rw [if_pos hr2, if_pos rfl] at hr
      subst hr
      dsimp only
      exact ⟨fun _ => by omega, Or.inl (by omega)⟩
    · rw [if_neg hr2] at hr
      have hs1 := h.step htT htT' hs0 hNM (by omega) am.1 am.2.1 fun _ => am.2.2
      have h' : PInv tiny T s strict M N A0 det0 j { st with A := vW M N j j st.A Y } := by rw [vW_self]; exact h
      have hs1 := h'.step htT htT' hs0 hNM (by omega) am.1 am.2.1 fun _ => am.2.2
      rw [← pivot_vW am.1 am.2.1] at hs1
      have e := sbStep_eq (tiny := tiny) (s := s) (st := pivot j (argMax st.cn j (N-j)) st) hNM (le_refl j) (show j < N by omega)
        (fun k c => if j ≤ k ∧ k < j then swapC Y j (argMax st.cn j (N-j)) k c else Y k c)
      rw [← e] at hs1
      obtain ⟨i1, -, -⟩ := sbInner_spec htT htT' hs0 hNM (sqe := sqe) hth j _ _ _ _ _ (by omega) (by omega) hs1 r hr
      exact ⟨fun _ => by omega, Or.inl (by omega)⟩

theorem sbOuter_spec (ht : 0 < tiny) (htT : tiny ≤ T) (hs0 : 0 < s) (hNM : N ≤ M) {th sqe : ℝ} (hth : th ≤ s ^ 2 * (M * T ^ 2)) (nb : Nat) :
    ∀ (f j : Nat) (rt : ℝ) (st : PSt K) (Y : Nat → Nat → K), j ≤ N → PInv tiny T s strict M N A0 det0 j st →
      ∀ r, sbOuter tiny sqe s th nb M N f j rt st Y = some r → PInv tiny T s strict M N A0 det0 N r := by
  intro f
  induction f with
  | zero => intro j rt st Y _ h r hr; cases hr
  | succ f ih =>
    intro j rt st Y hjN h r hr
    unfold sbOuter at hr
    by_cases hj : j < N
    · rw [if_pos hj] at hr
      obtain ⟨q, hq⟩ : ∃ q, q = sbInner tiny sqe s th M N j (min N (j+nb) - j) j rt st Y := ⟨_, rfl⟩
      have h' : PInv tiny T s strict M N A0 det0 j { st with A := vW M N j j st.A Y } := by rw [vW_self]; exact h
      obtain ⟨i1, i2, i3⟩ := sbInner_spec ht htT hs0 hNM hth j _ _ rt st Y (by omega) le_rfl h' q hq.symm
      rw [← hq] at hr
      exact ih _ _ _ _ i2 i3 r hr
    · rw [if_neg hj] at hr
      rw [show N = j by omega] at h ⊢
      cases hr
      exact h

theorem sbOuter_some (ht : 0 < tiny) (htT : tiny ≤ T) (hs0 : 0 < s) (hNM : N ≤ M) {th sqe : ℝ} (hth : th ≤ s ^ 2 * (M * T ^ 2)) {nb : Nat}
    (hnb : 0 < nb) (hsq : 4 * sqe ≤ 1) :
    ∀ (f j : Nat) (rt : ℝ) (st : PSt K) (Y : Nat → Nat → K), j ≤ N → PInv tiny T s strict M N A0 det0 j st →
      2 * (N - j) + (if rt = 0 then 1 else 2) ≤ f → (sbOuter tiny sqe s th nb M N f j rt st Y).isSome := by
  intro f
  induction f with
  | zero => intro j rt st Y _ h hf; split_ifs at hf <;> omega
  | succ f ih =>
    intro j rt st Y hjN h hf
    unfold sbOuter
    by_cases hj : j < N
    · rw [if_pos hj]
      obtain ⟨q, hq⟩ : ∃ q, q = sbInner tiny sqe s th M N j (min N (j+nb) - j) j rt st Y := ⟨_, rfl⟩
      have h' : PInv tiny T s strict M N A0 det0 j { st with A := vW M N j j st.A Y } := by rw [vW_self]; exact h
      obtain ⟨i1, i2, i3⟩ := sbInner_spec ht htT hs0 hNM hth j _ _ rt st Y (by omega) le_rfl h' q hq.symm
      have hcn : ∀ k, j ≤ k → k < N → 0 ≤ st.cn k := fun k h1 h2 => by
        rw [h.cok k h1 h2]; exact mul_nonneg (sq_nonneg _) (tl_nonneg _ _ _ _)
      obtain ⟨m, hm⟩ : ∃ m, min N (j+nb) - j = m + 1 := ⟨min N (j+nb) - j - 1, by omega⟩
      have pr := sbInner_progress hsq hcn m (by omega) ht htT hs0 hNM hth h rt Y q (by rw [← hm]; exact hq.symm)
      rw [← hq]
      refine ih _ _ _ _ i2 i3 ?_
      by_cases hrt : rt = 0
      · rw [if_pos hrt] at hf
        have := pr.1 hrt
        split_ifs <;> omega
      · rw [if_neg hrt] at hf
        rcases pr.2 with h1 | h1
        · split_ifs <;> omega
        · rw [if_pos h1]; omega
    · rw [if_neg hj]; rfl

end
end TMV.QR
