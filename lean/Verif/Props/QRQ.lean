import Verif.Props.QR

/-! C34: QR decomposition with the explicit Q; the packed Q. -/
namespace TMV.QR
noncomputable section
open Classical

variable {K : Type} [RCLike K]

/-! ### Forming Q -/

theorem hsA_succ_left (M : Nat) (V : Nat → Nat → K) (β : Nat → K) (i n : Nat) (x : Nat → K) :
    hsA M V β i (n+1) x = H M V i (star (β i)) (hsA M V β (i+1) n x) := by
  rw [Nat.add_comm n 1, hsA_concat]; rfl

/-- Invariant of the unpacking loops: columns from `i` on are final (`Hᵢᴴ ... H_{N-1}ᴴ e_c`), the columns before are still packed. -/
structure Unp (M N i : Nat) (V : Nat → Nat → K) (β : Nat → K) (Q0 Q : Nat → Nat → K) : Prop where
  done : ∀ c, i ≤ c → c < N → ∀ p, p < M → Q p c = hsA M V β i (N-i) (ev c) p
  bz : ∀ j, j < N → β j = 0 → ∀ p, j < p → p < M → V p j = 0
  todo : ∀ c, c < i → ∀ p, p < M → Q p c = if p ≤ c then 0 else V p c
  frame : ∀ p c, M ≤ p ∨ N ≤ c → Q p c = Q0 p c

theorem ev_zero {c p : Nat} (h : p ≠ c) : (ev c : Nat → K) p = 0 := by simp [ev, h]

theorem hsA_ev_fix {M : Nat} {V : Nat → Nat → K} {β : Nat → K} {a n c : Nat} (h : c < a) : hsA M V β a n (ev c) = ev c :=
  hsA_fix n fun p h1 _ => ev_zero (by omega)

theorem unpackCol_inv {M N i : Nat} {V : Nat → Nat → K} {β : Nat → K} {Q0 Q : Nat → Nat → K} (hNM : N ≤ M) (hi : i < N)
    (h : Unp M N (i+1) V β Q0 Q) : Unp M N i V β Q0 (unpackCol M N i (β i) Q) := by
  have hVQ : ∀ p, i < p → p < M → Q p i = V p i := fun p h1 h2 => by rw [h.todo i (by omega) p h2, if_neg (by omega)]
  have hH : ∀ b, H M Q i b = H M V i b := fun b => H_congr fun p h1 h2 => hVQ p h1 h2
  have hni : N - i = (N - (i+1)) + 1 := by omega
  obtain ⟨Q1, hQ1⟩ : ∃ Q1, Q1 = lmult M i (i+1) N Q (star (β i)) Q := ⟨_, rfl⟩
  have q1 : ∀ p c, Q1 p c = if i+1 ≤ c ∧ c < N then H M V i (star (β i)) (fun p => Q p c) p else Q p c := by
    intro p c; rw [hQ1, lmult_eq _ _ _ _ _ _ _ (by omega), hH]
  have q2 : ∀ p c, unpackCol M N i (β i) Q p c = if c = i ∧ i ≤ p ∧ p < M then H M V i (star (β i)) (ev i) p else Q1 p c := by
    intro p c
    unfold unpackCol
    rw [← hQ1]
    have hev : ∀ p, H M V i (star (β i)) (ev i) p = ev i p - hv M V i p * star (β i) := by
      intro p
      rw [H, ip_ev' _ (show i < M by omega), hv_eq_ul (show i < M by omega)]
      simp [ul]
    have hQ1i : ∀ p, Q1 p i = Q p i := fun p => by rw [q1, if_neg (by omega)]
    by_cases hb : β i = 0
    · rw [if_pos hb]
      by_cases hc : c = i ∧ i ≤ p ∧ p < M
      · rw [if_pos hc, hev, hb, star_zero, mul_zero, sub_zero]
        obtain ⟨rfl, h1, h2⟩ := hc
        by_cases hp : p = c
        · rw [hp, setE_eq]; simp [ev]
        · rw [setE_ne (by omega), ev_zero hp, hQ1i, h.todo c (by omega) p h2, if_neg (by omega), h.bz c hi hb p (by omega) h2]
      · rw [if_neg hc, setE_ne (by omega)]
    · rw [if_neg hb]
      by_cases hc : c = i ∧ i ≤ p ∧ p < M
      · rw [if_pos hc, hev]
        obtain ⟨rfl, h1, h2⟩ := hc
        by_cases hp : p = c
        · rw [if_pos ⟨rfl, hp⟩, hp, hv_eq_ul (by omega)]; simp [ev, ul]
        · rw [if_neg (by omega), if_pos ⟨rfl, by omega, h2⟩, hQ1i, hVQ p (by omega) h2, ev_zero hp, hv_eq_ul h2, ul,
            if_neg (by omega), if_neg hp]
          ring
      · rw [if_neg hc, if_neg (by omega), if_neg (by omega)]
  refine ⟨?_, h.bz, ?_, ?_⟩
  · intro c h1 h2 p hp
    rw [hni, hsA_succ_left, q2]
    by_cases hc : c = i
    · subst hc
      rw [hsA_ev_fix (by omega)]
      by_cases hpi : c ≤ p
      · rw [if_pos ⟨rfl, hpi, hp⟩]
      · rw [if_neg (by omega), q1, if_neg (by omega), h.todo c (by omega) p hp, if_pos (by omega), H_out (by omega),
          ev_zero (by omega)]
    · rw [if_neg (by omega), q1, if_pos (by omega)]
      exact H_ext (h.done c (by omega) h2) p hp
  · intro c hc p hp
    rw [q2, if_neg (by omega), q1, if_neg (by omega), h.todo c (by omega) p hp]
  · intro p c hpc
    rw [q2]
    by_cases hc : c = i ∧ i ≤ p ∧ p < M
    · omega
    · rw [if_neg hc, q1]
      by_cases hc2 : i+1 ≤ c ∧ c < N
      · rw [if_pos hc2, H_out (by omega), h.frame p c hpc]
      · rw [if_neg hc2, h.frame p c hpc]

theorem unpackLoop_inv {M N : Nat} {V : Nat → Nat → K} {β : Nat → K} {Q0 : Nat → Nat → K} (hNM : N ≤ M) :
    ∀ i (Q : Nat → Nat → K), i ≤ N → Unp M N i V β Q0 Q → Unp M N 0 V β Q0 (unpackLoop M N β i Q)
  | 0, _, _, h => h
  | i+1, Q, hi, h => unpackLoop_inv hNM i _ (by omega) (unpackCol_inv hNM (by omega) h)

theorem blockUnpack_inv {M N a b : Nat} {V : Nat → Nat → K} {β : Nat → K} {Q0 Q Z : Nat → Nat → K} (hNM : N ≤ M) (hab : a ≤ b)
    (hb : b ≤ N) (h : Unp M N b V β Q0 Q) (hz : ZOK M Q β Z a b) : Unp M N a V β Q0 (blockUnpack M N a b Z Q) := by
  have hVQ : ∀ p j, j < b → j < p → p < M → Q p j = V p j := fun p j h0 h1 h2 => by
    rw [h.todo j h0 p h2, if_neg (by omega)]
  have hzV : ZOK M V β Z a b := hz.congr hab (fun p j _ h2 h3 h4 => hVQ p j h2 h3 h4) (fun _ _ _ _ _ => rfl) fun _ _ _ => rfl
  obtain ⟨Q1, hQ1⟩ : ∃ Q1, Q1 = blockLMult M a b b N Q Z Q := ⟨_, rfl⟩
  have q1 : ∀ p c, Q1 p c = if b ≤ c ∧ c < N then hsA M V β a (b-a) (fun p => Q p c) p else Q p c := by
    intro p c
    rw [hQ1, blockLMult_eq _ _ _ _ _ _ _ _ (by omega), hz, hsA_congr (V' := V) (β' := β) (b-a)]
    · intro p j h1 h2 h3 h4; exact hVQ p j (by omega) h3 h4
    · intro _ _ _; rfl
  have hul : ∀ p k, k < b → p < M → ul Q1 p k = hv M V k p := by
    intro p k hk hp
    rw [hv_eq_ul hp, ul, ul]
    by_cases h1 : p < k
    · rw [if_pos h1, if_pos h1]
    · rw [if_neg h1, if_neg h1]
      by_cases h2 : p = k
      · rw [if_pos h2, if_pos h2]
      · rw [if_neg h2, if_neg h2, q1, if_neg (by omega), hVQ p k hk (by omega) hp]
  -- a column of the block
  have hcol : ∀ l, a ≤ l → l < b → ∀ p, hsA M V β a (b-a) (ev l) p = ev l p +
      ∑ k ∈ Finset.Ico a (l+1), hv M V k p * -∑ q ∈ Finset.Ico k (l+1), Z k q * star (hv M V q l) := by
    intro l h1 h2 p
    rw [← hzV, blk, sub_eq_add_neg, ← Finset.sum_neg_distrib,
      ← Finset.sum_Ico_consecutive _ (show a ≤ l+1 by omega) (show l+1 ≤ b by omega)]
    congr 1
    rw [Finset.sum_eq_zero (s := Finset.Ico (l+1) b), add_zero]
    · refine Finset.sum_congr rfl fun k hk => ?_
      rw [Finset.mem_Ico] at hk
      rw [mul_neg, ← Finset.sum_Ico_consecutive _ (show k ≤ l+1 by omega) (show l+1 ≤ b by omega)]
      rw [Finset.sum_eq_zero (s := Finset.Ico (l+1) b), add_zero]
      · congr 2
        exact Finset.sum_congr rfl fun q _ => by rw [ip_ev' _ (show l < M by omega)]
      · intro q hq
        rw [Finset.mem_Ico] at hq
        rw [ip_ev' _ (show l < M by omega), hv_out (by omega), star_zero, mul_zero]
    · intro k hk
      rw [Finset.mem_Ico] at hk
      rw [Finset.sum_eq_zero, mul_zero, neg_zero]
      intro q hq
      rw [Finset.mem_Ico] at hq
      rw [ip_ev' _ (show l < M by omega), hv_out (by omega), star_zero, mul_zero]
  have q2 : ∀ p c, blockUnpack M N a b Z Q p c = if a ≤ c ∧ c < b ∧ a ≤ p ∧ p < M then hsA M V β a (b-a) (ev c) p else Q1 p c := by
    intro p l
    unfold blockUnpack
    rw [← hQ1]
    dsimp only
    by_cases hl : a ≤ l ∧ l < b
    · rw [if_pos hl]
      have htemp : ∀ k ∈ Finset.Ico a (l+1), -∑ q ∈ Finset.Ico k (l+1), Z k q * star (ul Q1 l q)
          = -∑ q ∈ Finset.Ico k (l+1), Z k q * star (hv M V q l) := by
        intro k _
        congr 1
        refine Finset.sum_congr rfl fun q hq => ?_
        rw [Finset.mem_Ico] at hq
        rw [hul l q (by omega) (by omega)]
      by_cases h1 : b ≤ p ∧ p < M
      · rw [if_pos h1, if_pos (by omega), hcol l hl.1 hl.2, ev_zero (by omega), zero_add]
        refine Finset.sum_congr rfl fun k hk => ?_
        rw [htemp k hk]
        rw [Finset.mem_Ico] at hk
        rw [← hul p k (by omega) h1.2, ul, if_neg (by omega), if_neg (by omega)]
      · rw [if_neg h1]
        by_cases h2 : a ≤ p ∧ p < b
        · rw [if_pos h2, if_pos (show a ≤ l ∧ l < b ∧ a ≤ p ∧ p < M by omega), hcol l hl.1 hl.2, add_comm]
          congr 1
          refine Finset.sum_congr rfl fun k hk => ?_
          rw [htemp k hk]
          rw [Finset.mem_Ico] at hk
          rw [← hul p k (by omega) (by omega)]
        · rw [if_neg h2, if_neg (by omega)]
    · rw [if_neg hl, if_neg (by omega)]
  have hna : N - a = (b - a) + (N - b) := by omega
  have hba : a + (b - a) = b := by omega
  refine ⟨?_, h.bz, ?_, ?_⟩
  · intro c h1 h2 p hp
    rw [q2, hna, hsA_concat, hba]
    by_cases hc : c < b
    · rw [hsA_ev_fix hc]
      by_cases hpa : a ≤ p
      · rw [if_pos ⟨h1, hc, hpa, hp⟩]
      · rw [if_neg (by omega), q1, if_neg (by omega), h.todo c hc p hp, if_pos (by omega), hsA_out _ (by omega), ev_zero (by omega)]
    · rw [if_neg (by omega), q1, if_pos (by omega)]
      exact hsA_ext _ (h.done c (by omega) h2) p hp
  · intro c hc p hp
    rw [q2, if_neg (by omega), q1, if_neg (by omega), h.todo c (by omega) p hp]
  · intro p c hpc
    rw [q2, if_neg (by omega), q1]
    by_cases hc2 : b ≤ c ∧ c < N
    · rw [if_pos hc2, hsA_out _ (by omega), h.frame p c hpc]
    · rw [if_neg hc2, h.frame p c hpc]

theorem blockUnpackLoop_inv {nb M N : Nat} (hnb : 0 < nb) {V : Nat → Nat → K} {β : Nat → K} {Q0 : Nat → Nat → K} (hNM : N ≤ M)
    (n : Nat) : ∀ j2 (Z Q : Nat → Nat → K), j2 ≤ n → j2 ≤ N → Unp M N j2 V β Q0 Q →
      Unp M N 0 V β Q0 (blockUnpackLoop nb M N β j2 Z Q) := by
  induction n with
  | zero =>
    intro j2 Z Q hn hj h
    obtain rfl : j2 = 0 := by omega
    unfold blockUnpackLoop
    rw [dif_neg (by omega)]
    exact h
  | succ n ih =>
    intro j2 Z Q hn hj h
    unfold blockUnpackLoop
    by_cases h0 : j2 > 0
    · rw [dif_pos ⟨h0, hnb⟩]
      dsimp only
      obtain ⟨j1, hj1⟩ : ∃ j1, j1 = if j2 > nb then j2 - nb else 0 := ⟨_, rfl⟩
      rw [← hj1]
      have hlt : j1 < j2 := by rw [hj1]; split <;> omega
      have hz := (makeZ_spec M Q β (j2-j1) j1 Z (by omega) (by omega)).1
      rw [show j1 + (j2-j1) = j2 by omega] at hz
      exact ih j1 _ _ (by omega) (by omega) (blockUnpack_inv hNM (by omega) hj h hz)
    · obtain rfl : j2 = 0 := by omega
      rw [dif_neg (by omega)]
      exact h

theorem getQ_spec {nb M N : Nat} (hnb : 0 < nb) (hNM : N ≤ M) (V : Nat → Nat → K) (β : Nat → K) (Z0 : Nat → Nat → K)
    (hbz : ∀ j, j < N → β j = 0 → ∀ p, j < p → p < M → V p j = 0) :
    Unp M N 0 V β V (getQ nb M N β Z0 V) := by
  have h : Unp M N N V β V (zeroUpper N V) := by
    refine ⟨fun c _ _ => by omega, hbz, ?_, ?_⟩
    · intro c hc p hp
      unfold zeroUpper
      by_cases h : p ≤ c
      · rw [if_pos ⟨h, hc⟩, if_pos h]
      · rw [if_neg (by omega), if_neg h]
    · intro p c hpc
      unfold zeroUpper
      rw [if_neg (by omega)]
  unfold getQ
  split
  · exact blockUnpackLoop_inv hnb hNM N N _ _ le_rfl le_rfl h
  · exact unpackLoop_inv hNM N _ le_rfl h

/-! ### C34 -/

/-- The packed decomposition in terms of `Q` and `R`: column `c` of `A` (plus a perturbation below the underflow threshold, present
only if `R c c = 0`) is `Σ_k R k c · Q e_k`. -/
theorem QRSpec.col {tiny : ℝ} {M N : Nat} (hNM : N ≤ M) {A A' : Nat → Nat → K} {β : Nat → K} (h : QRSpec tiny M 0 N N A A' β) (c : Nat)
    (hc : c < N) : ∃ ε : Nat → K, nsq M ε ≤ M * tiny ^ 2 ∧ (A' c c ≠ 0 → ε = fun _ => 0) ∧
      (∀ p, p < M → A p c + ε p = ∑ k ∈ Finset.range N, hsA M A' β 0 N (ev k) p * (if k ≤ c then A' k c else 0)) := by
  obtain ⟨ε, _, e2, e3, e4⟩ := h.cols c (by omega) (by omega)
  refine ⟨ε, e2, e3, ?_⟩
  intro p hp
  rw [Nat.sub_zero] at e4
  have hN : N = (c+1) + (N-(c+1)) := by omega
  have h1 : hs M A' β 0 N (fun p => A p c + ε p) = fun p => if c < p ∧ p < M then 0 else A' p c := by
    conv_lhs => rw [hN]
    rw [hs_concat, e4, hs_fix]
    intro q h2 h3
    rw [if_pos (by omega)]
  have h2 := congrFun (congrArg (hsA M A' β 0 N) h1) p
  rw [hsA_hs N (fun j h3 h4 => h.valid j h3 h4)] at h2
  rw [h2]
  have h3 : ∀ q, q < M → (if c < q ∧ q < M then 0 else A' q c) =
      ∑ k ∈ Finset.range N, ev k q * (if k ≤ c then A' k c else 0) := by
    intro q hq
    by_cases hqN : q < N
    · rw [Finset.sum_eq_single q]
      · simp only [ev, if_true, one_mul]
        by_cases hqc : c < q
        · rw [if_pos ⟨hqc, hq⟩, if_neg (by omega)]
        · rw [if_neg (by omega), if_pos (by omega)]
      · intro k _ hk; rw [ev_zero (Ne.symm hk), zero_mul]
      · intro hn; exact absurd (Finset.mem_range.mpr hqN) hn
    · rw [if_pos ⟨by omega, hq⟩, Finset.sum_eq_zero]
      intro k hk
      rw [Finset.mem_range] at hk
      rw [ev_zero (by omega), zero_mul]
  rw [hsA_ext N h3 p hp, hsA_sum]
  simp only [hsA_smul]

/-- **C34**: `QR_Decompose(Q,R,det)` of an `M`×`N` matrix, `M ≥ N`, for every block size: `Q` has orthonormal columns, `R` is upper
triangular, and `Q R = A + E`, where column `c` of `E` is zero unless `R c c = 0`, and then has norm at most `√M · tiny`
(columns below the underflow threshold are treated as zero).  Nothing outside the matrix is changed. -/
theorem qr_decompose (tiny : ℝ) (ht : 0 < tiny) (nb M N : Nat) (hnb : 0 < nb) (hNM : N ≤ M) (A Z0 Z1 : Nat → Nat → K)
    (beta0 : Nat → K) (det : K) : ∃ Q R : Nat → Nat → K, ∃ d : K, unpacked tiny nb M N A Z0 Z1 beta0 det = (Q, R, d) ∧
    (∀ k l, k < N → l < N → ∑ p ∈ Finset.range M, star (Q p k) * Q p l = if k = l then 1 else 0) ∧
    (∀ i j, j < i → R i j = 0) ∧
    (∃ E : Nat → Nat → K, (∀ i c, i < M → c < N → A i c + E i c = ∑ k ∈ Finset.range N, Q i k * R k c) ∧
      (∀ c, c < N → R c c ≠ 0 → ∀ i, i < M → E i c = 0) ∧
      ∀ c, c < N → ∑ i ∈ Finset.range M, ‖E i c‖ ^ 2 ≤ M * tiny ^ 2) ∧
    (∀ p c, M ≤ p ∨ N ≤ c → Q p c = A p c) := by
  obtain ⟨h, _⟩ := decompose_spec tiny ht nb M N hnb hNM A Z0 beta0 det
  unfold unpacked
  dsimp only
  obtain ⟨r, hr⟩ : ∃ r, r = decompose tiny nb M N A Z0 beta0 det := ⟨_, rfl⟩
  rw [← hr] at h ⊢
  have hQ := getQ_spec hnb hNM r.1.A r.2 Z1 (fun j hj hb => h.bz j (by omega) (by omega) hb)
  refine ⟨_, _, _, rfl, ?_, ?_, ?_, ?_⟩
  · intro k l hk hl
    have h1 : ∀ c, c < N → ∀ p, p < M → getQ nb M N r.2 Z1 r.1.A p c = hsA M r.1.A r.2 0 N (ev c) p :=
      fun c hc p hp => by rw [hQ.done c (by omega) hc p hp, Nat.sub_zero]
    have h2 := hsA_unitary N (fun j h3 h4 => h.valid j h3 h4) (ev k) (ev l)
    rw [ip_ev _ (show k < M by omega)] at h2
    rw [show (if k = l then (1:K) else 0) = ev l k from rfl, ← h2]
    refine Finset.sum_congr rfl fun p hp => ?_
    rw [Finset.mem_range] at hp
    rw [h1 k hk p hp, h1 l hl p hp]
  · intro i j hij
    rw [if_neg (by omega)]
  · have hc : ∀ c, ∃ ε : Nat → K, c < N → (nsq M ε ≤ M * tiny ^ 2 ∧ (r.1.A c c ≠ 0 → ε = fun _ => 0) ∧
        (∀ p, p < M → A p c + ε p = ∑ k ∈ Finset.range N, hsA M r.1.A r.2 0 N (ev k) p * (if k ≤ c then r.1.A k c else 0))) := by
      intro c
      by_cases hc : c < N
      · obtain ⟨ε, e⟩ := h.col hNM c hc
        exact ⟨ε, fun _ => e⟩
      · exact ⟨fun _ => 0, fun h => absurd h hc⟩
    choose ε hε using hc
    refine ⟨fun i c => ε c i, ?_, ?_, ?_⟩
    · intro i c hi hc
      rw [(hε c hc).2.2 i hi]
      refine Finset.sum_congr rfl fun k hk => ?_
      rw [Finset.mem_range] at hk
      rw [hQ.done k (by omega) hk i hi, Nat.sub_zero]
    · intro c hc hR i hi
      rw [if_pos (le_refl c)] at hR
      show ε c i = 0
      rw [(hε c hc).2.1 hR]
    · intro c hc
      have := (hε c hc).1
      unfold nsq at this
      simpa only [RCLike.normSq_eq_def'] using this
  · intro p c hpc
    rw [hQ.frame p c hpc, h.frame p c (by omega)]

/-! ### The packed Q as an operator -/

theorem qLDivLoop_spec (M nc : Nat) (V : Nat → Nat → K) (β : Nat → K) (n j : Nat) (hj : j + n ≤ M) (m : Nat → Nat → K) (p c : Nat) :
    qLDivLoop M nc V β n j m p c = if c < nc then hs M V β j n (fun p => m p c) p else m p c := by
  induction n generalizing j m with
  | zero => simp [qLDivLoop, hs]
  | succ n ih =>
    rw [qLDivLoop, ih (j+1) (by omega)]
    have hl : ∀ p c, (if β j ≠ 0 then lmult M j 0 nc V (β j) m else m) p c
        = if c < nc then H M V j (β j) (fun p => m p c) p else m p c := by
      intro p c
      by_cases hb : β j ≠ 0
      · rw [if_pos hb, lmult_eq _ _ _ _ _ _ _ (by omega)]
        simp
      · rw [if_neg hb]
        simp only [not_not] at hb
        rw [hb]; simp [H]
    by_cases hc : c < nc
    · rw [if_pos hc, if_pos hc, Nat.add_comm n 1, hs_concat]
      have : (fun p => (if β j ≠ 0 then lmult M j 0 nc V (β j) m else m) p c) = hs M V β j 1 (fun p => m p c) := by
        funext p
        rw [hl, if_pos hc]; rfl
      rw [this]
    · rw [if_neg hc, if_neg hc, hl, if_neg hc]

theorem qLDivBlock_spec (nb M N nc : Nat) (hnb : 0 < nb) (hNM : N ≤ M) (V : Nat → Nat → K) (β : Nat → K) (n : Nat) :
    ∀ j1 (Z m : Nat → Nat → K), N - j1 ≤ n → j1 ≤ N → ∀ p c,
    qLDivBlock nb M N nc V β j1 Z m p c = if c < nc then hs M V β j1 (N-j1) (fun p => m p c) p else m p c := by
  induction n with
  | zero =>
    intro j1 Z m hn hj p c
    obtain rfl : j1 = N := by omega
    unfold qLDivBlock
    rw [dif_neg (by omega), Nat.sub_self]
    simp [hs]
  | succ n ih =>
    intro j1 Z m hn hj p c
    unfold qLDivBlock
    by_cases hlt : j1 < N
    · rw [dif_pos ⟨hlt, hnb⟩]
      obtain ⟨j2, hj2⟩ : ∃ j2, j2 = min N (j1+nb) := ⟨_, rfl⟩
      rw [← hj2]
      have hz := (makeZ_spec M V β (j2-j1) j1 Z (by omega) (by omega)).1
      rw [show j1 + (j2-j1) = j2 by omega] at hz
      rw [ih j2 _ _ (by omega) (by omega)]
      have hb : ∀ p c, blockLDiv M j1 j2 0 nc V (makeZ M V β j1 (j2-j1) Z) m p c
          = if c < nc then hs M V β j1 (j2-j1) (fun p => m p c) p else m p c := by
        intro p c
        rw [blockLDiv_eq _ _ _ _ _ _ _ _ (by omega), hz.blkA]
        simp
      by_cases hc : c < nc
      · rw [if_pos hc, if_pos hc, show N - j1 = (j2-j1) + (N-j2) by omega, hs_concat, show j1 + (j2-j1) = j2 by omega]
        congr 1
        funext p
        rw [hb, if_pos hc]
      · rw [if_neg hc, if_neg hc, hb, if_neg hc]
    · obtain rfl : j1 = N := by omega
      rw [dif_neg (by omega), Nat.sub_self]
      simp [hs]

theorem qLDivEq_spec (nb M N nc : Nat) (hnb : 0 < nb) (hNM : N ≤ M) (V : Nat → Nat → K) (β : Nat → K) (Z0 m : Nat → Nat → K) (p c : Nat) :
    qLDivEq nb M N nc V β Z0 m p c = if c < nc then hs M V β 0 N (fun p => m p c) p else m p c := by
  unfold qLDivEq
  split
  · rw [qLDivBlock_spec nb M N nc hnb hNM V β N 0 Z0 m (by omega) (by omega), Nat.sub_zero]
  · rw [qLDivLoop_spec M nc V β N 0 (by omega)]

/-- `NonBlockQRDecompose`, the reference implementation, satisfies the same specification. -/
theorem nonBlock_spec (tiny : ℝ) (ht : 0 < tiny) (M N : Nat) (hNM : N ≤ M) (A0 : Nat → Nat → K) (det0 : K) :
    ∀ n j (A : Nat → Nat → K) (β : Nat → K) (det : K), j + n = N → QRSpec tiny M 0 j N A0 A β →
      det = det0 * ∏ k ∈ Finset.range j, dfac (β k) →
      QRSpec tiny M 0 N N A0 (nonBlock tiny M N n j A β det).1 (nonBlock tiny M N n j A β det).2.1 ∧
      (nonBlock tiny M N n j A β det).2.2 = det0 * ∏ k ∈ Finset.range N, dfac ((nonBlock tiny M N n j A β det).2.1 k)
  | 0, j, A, β, det, hj, h, hd => by
    obtain rfl : j = N := by omega
    exact ⟨h, hd⟩
  | n+1, j, A, β, det, hj, h, hd => by
    rw [nonBlock]
    obtain ⟨β2, hβ2⟩ : ∃ β2 : Nat → K, β2 = fun k => if k = j then (reflectMat tiny M N j A det).2.1 else β k := ⟨_, rfl⟩
    have hb : β2 j = (reflectMat tiny M N j A det).2.1 := by rw [hβ2]; simp
    have hb0 : ∀ k, k < j → β k = β2 k := by intro k hk; rw [hβ2]; simp only; rw [if_neg (by omega)]
    obtain ⟨r1, r2⟩ := reflectMat_spec tiny ht M N j (by omega) (by omega) A det β2 hb
    have := nonBlock_spec tiny ht M N hNM A0 det0 n (j+1) (reflectMat tiny M N j A det).1 β2 (reflectMat tiny M N j A det).2.2
      (by omega) ((h.congr (β' := β2) fun k _ hk => hb0 k (by omega)).comp (by rw [Nat.zero_add]; exact r1) (by omega)) ?_
    · rw [hβ2] at this
      exact this
    · rw [r2, hd, Finset.prod_range_succ, mul_assoc]
      congr 2
      exact Finset.prod_congr rfl fun k hk => by rw [hb0 k (Finset.mem_range.mp hk)]

end
end TMV.QR
