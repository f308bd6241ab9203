import Verif.Props.QROps

/-! QR decomposition: the packed form (lemmas for C34). -/
namespace TMV.QR
noncomputable section
open Classical

variable {K : Type} [RCLike K]

/-- Sum of squares of the first `M` elements. -/
def nsq (M : Nat) (x : Nat → K) : ℝ := ∑ p ∈ Finset.range M, RCLike.normSq (x p)

theorem nsq_ip (M : Nat) (x : Nat → K) : ((nsq M x : ℝ) : K) = ip M x x := by
  unfold nsq ip
  rw [RCLike.ofReal_sum]
  exact Finset.sum_congr rfl fun p _ => by rw [star_mul_eq]

theorem nsq_eq_of_ip {M : Nat} {x y : Nat → K} (h : ip M x x = ip M y y) : nsq M x = nsq M y := by
  rw [← nsq_ip, ← nsq_ip] at h
  exact_mod_cast h

/-- Result of decomposing columns `[a,a+n)` of `A` below row `a`, with the columns `[a+n,e)` updated. -/
structure QRSpec (tiny : ℝ) (M a n e : Nat) (A A' : Nat → Nat → K) (β : Nat → K) : Prop where
  valid : ∀ j, a ≤ j → j < a+n → Valid M A' j (β j)
  frame : ∀ p c, p < a ∨ M ≤ p ∨ c < a ∨ e ≤ c → A' p c = A p c
  cols : ∀ c, a ≤ c → c < a+n → ∃ ε : Nat → K, (∀ p, p < a ∨ M ≤ p → ε p = 0) ∧ nsq M ε ≤ M * tiny ^ 2 ∧
    (A' c c ≠ 0 → ε = fun _ => 0) ∧
    hs M A' β a (c+1-a) (fun p => A p c + ε p) = fun p => if c < p ∧ p < M then 0 else A' p c
  bz : ∀ j, a ≤ j → j < a+n → β j = 0 → ∀ p, j < p → p < M → A' p j = 0
  trail : ∀ c, a+n ≤ c → c < e → (fun p => A' p c) = hs M A' β a n (fun p => A p c)

theorem QRSpec.zero (tiny : ℝ) (M a e : Nat) (A : Nat → Nat → K) (β : Nat → K) : QRSpec tiny M a 0 e A A β where
  valid := by intro j h1 h2; omega
  frame := fun _ _ _ => rfl
  cols := by intro c h1 h2; omega
  bz := by intro j h1 h2; omega
  trail := fun _ _ _ => rfl

theorem QRSpec.congr {tiny : ℝ} {M a n e : Nat} {A A' : Nat → Nat → K} {β β' : Nat → K} (h : QRSpec tiny M a n e A A' β)
    (hb : ∀ j, a ≤ j → j < a+n → β j = β' j) : QRSpec tiny M a n e A A' β' where
  valid := fun j h1 h2 => by rw [← hb j h1 h2]; exact h.valid j h1 h2
  frame := h.frame
  cols := fun c h1 h2 => by
    rw [← hs_congr (V := A') (β := β) (c+1-a) (fun _ _ _ _ _ _ => rfl) (fun j h3 h4 => hb j h3 (by omega))]
    exact h.cols c h1 h2
  bz := fun j h1 h2 h3 => h.bz j h1 h2 (by rw [hb j h1 h2]; exact h3)
  trail := fun c h1 h2 => by
    rw [← hs_congr (V := A') (β := β) n (fun _ _ _ _ _ _ => rfl) hb]
    exact h.trail c h1 h2

/-- Apply the reflectors to further columns. -/
theorem QRSpec.extend {tiny : ℝ} {M a n e : Nat} {A A' A2 : Nat → Nat → K} {β : Nat → K}
    (h : QRSpec tiny M a n (a+n) A A' β) (hne : a + n ≤ e)
    (h2 : ∀ p c, A2 p c = if a+n ≤ c ∧ c < e then hs M A' β a n (fun p => A' p c) p else A' p c) :
    QRSpec tiny M a n e A A2 β := by
  have hlo : ∀ p c, ¬ (a+n ≤ c ∧ c < e) → A2 p c = A' p c := fun p c hc => by rw [h2, if_neg hc]
  have hsc : ∀ k, k ≤ n → hs M A2 β a k = hs M A' β a k := fun k hk =>
    hs_congr k (fun p j _ h3 _ _ => hlo p j (by omega)) (fun _ _ _ => rfl)
  refine ⟨?_, ?_, ?_, fun j h3 h4 h5 p h6 h7 => by rw [hlo p j (by omega)]; exact h.bz j h3 h4 h5 p h6 h7, ?_⟩
  · intro j h3 h4
    exact (h.valid j h3 h4).congr fun p _ _ => (hlo p j (by omega)).symm
  · intro p c hpc
    by_cases hc : a+n ≤ c ∧ c < e
    · rw [h2, if_pos hc, hs_out _ (by omega), h.frame p c (by omega)]
    · rw [hlo p c hc, h.frame p c (by omega)]
  · intro c h3 h4
    obtain ⟨ε, e1, e2, e3, e4⟩ := h.cols c h3 h4
    refine ⟨ε, e1, e2, ?_, ?_⟩
    · rw [hlo c c (by omega)]; exact e3
    · rw [hsc _ (by omega), e4]
      funext p
      rw [hlo p c (by omega)]
  · intro c h3 h4
    rw [hsc n le_rfl]
    funext p
    rw [h2, if_pos ⟨h3, h4⟩]
    congr 1
    funext q
    exact h.frame q c (by omega)

/-- Decompose `[a,a+n)`, then `[a+n,a+n+m)`. -/
theorem QRSpec.comp {tiny : ℝ} {M a n m e : Nat} {A A1 A2 : Nat → Nat → K} {β : Nat → K}
    (h1 : QRSpec tiny M a n e A A1 β) (h2 : QRSpec tiny M (a+n) m e A1 A2 β) (hme : a+n+m ≤ e) :
    QRSpec tiny M a (n+m) e A A2 β := by
  have hlo : ∀ p c, c < a+n → A2 p c = A1 p c := fun p c hc => h2.frame p c (by omega)
  have hsc : ∀ k, k ≤ n → hs M A2 β a k = hs M A1 β a k := fun k hk =>
    hs_congr k (fun p j _ h3 _ _ => hlo p j (by omega)) (fun _ _ _ => rfl)
  have hval : ∀ j, a ≤ j → j < a+(n+m) → Valid M A2 j (β j) := by
    intro j h3 h4
    by_cases hj : j < a+n
    · exact (h1.valid j h3 hj).congr fun p _ _ => (hlo p j hj).symm
    · exact h2.valid j (by omega) (by omega)
  refine ⟨hval, ?_, ?_, ?_, ?_⟩
  · intro p c hpc
    rw [h2.frame p c (by omega), h1.frame p c hpc]
  · intro c h3 h4
    by_cases hc : c < a+n
    · obtain ⟨ε, e1, e2, e3, e4⟩ := h1.cols c h3 hc
      refine ⟨ε, e1, e2, ?_, ?_⟩
      · rw [hlo c c hc]; exact e3
      · rw [hsc _ (by omega), e4]
        funext p
        rw [hlo p c hc]
    · obtain ⟨ε, e1, e2, e3, e4⟩ := h2.cols c (by omega) (by omega)
      have hv1 : ∀ j, a ≤ j → j < a+n → Valid M A2 j (β j) := fun j h5 h6 => hval j h5 (by omega)
      refine ⟨hsA M A2 β a n ε, ?_, ?_, ?_, ?_⟩
      · intro p hp
        rw [hsA_out _ hp, e1 p (by omega)]
      · rwa [nsq_eq_of_ip (hsA_unitary n hv1 ε ε)]
      · intro h
        rw [e3 h, hsA_zero]
      · have hcn : c + 1 - a = n + (c + 1 - (a+n)) := by omega
        rw [hcn, hs_concat, hs_add, hs_hsA n hv1, hsc n le_rfl]
        have := h1.trail c (by omega) (by omega)
        rw [← this, e4]
  · intro j h3 h4 h5 p h6 h7
    by_cases hj : j < a+n
    · rw [hlo p j hj]; exact h1.bz j h3 hj h5 p h6 h7
    · exact h2.bz j (by omega) (by omega) h5 p h6 h7
  · intro c h3 h4
    rw [hs_concat, hsc n le_rfl, ← h1.trail c (by omega) h4]
    exact h2.trail c (by omega) h4

/-! ### One column -/

theorem ip_hv_succ (M j : Nat) (V : Nat → Nat → K) (hj : j < M) (x : Nat → K) :
    ip M (hv M V j) x = x j + ∑ i ∈ Finset.range (M-(j+1)), star (V (j+1+i) j) * x (j+1+i) := by
  rw [ip_hv M j V j le_rfl hj.le, Finset.sum_eq_sum_Ico_succ_bot hj, Finset.sum_Ico_eq_sum_range]
  congr 1
  · simp [ul]
  · refine Finset.sum_congr rfl fun i _ => ?_
    rw [ul, if_neg (by omega), if_neg (by omega)]

theorem nsq_le {M : Nat} {tiny : ℝ} (ht : 0 < tiny) {x : Nat → K} (h : ∀ p, p < M → ‖x p‖ ≤ tiny) : nsq M x ≤ M * tiny ^ 2 := by
  unfold nsq
  have : ∑ p ∈ Finset.range M, RCLike.normSq (x p) ≤ ∑ p ∈ Finset.range M, tiny ^ 2 := by
    refine Finset.sum_le_sum fun p hp => ?_
    rw [RCLike.normSq_eq_def']
    exact pow_le_pow_left₀ (norm_nonneg _) (h p (Finset.mem_range.mp hp)) 2
  simpa using this

theorem nsq_zero (M : Nat) : nsq M (fun _ => (0 : K)) = 0 := by simp [nsq]

theorem reflectCol_spec (tiny : ℝ) (ht : 0 < tiny) (M j : Nat) (hj : j < M) (A : Nat → Nat → K) (det : K) (β : Nat → K)
    (hβ : β j = (reflectCol tiny M j A det).2.1) :
    QRSpec tiny M j 1 (j+1) A (reflectCol tiny M j A det).1 β ∧ (reflectCol tiny M j A det).2.2 = det * dfac (β j) := by
  rw [hβ]
  obtain ⟨hout, h⟩ := reflect_cases tiny ht (M-(j+1)) (A j j) (fun i => A (j+1+i) j) det
  dsimp only [reflectCol] at *
  generalize reflect tiny (M-(j+1)) (A j j) (fun i => A (j+1+i) j) det = r at *
  obtain ⟨A', hA'⟩ : ∃ A' : Nat → Nat → K, A' = fun a b => if b = j ∧ a = j then r.x0 else if b = j ∧ j < a ∧ a < M then
      r.x (a-(j+1)) else A a b := ⟨_, rfl⟩
  rw [← hA']
  have hjj : A' j j = r.x0 := by rw [hA']; simp
  have hi : ∀ i, i < M-(j+1) → A' (j+1+i) j = r.x i := by
    intro i hi
    rw [hA']
    simp only
    rw [if_neg (by omega), if_pos ⟨trivial, by omega, by omega⟩]
    congr 1
    exact Nat.add_sub_cancel_left ..
  have hfr : ∀ p c, ¬ (c = j ∧ j ≤ p ∧ p < M) → A' p c = A p c := by
    intro p c h
    rw [hA']
    simp only
    rw [if_neg (by omega), if_neg (by omega)]
  have hone : ∀ x, hs M A' β j 1 x = H M A' j r.beta x := by intro x; rw [hs, hs, Nat.add_zero, hβ]
  have hsum : ∀ x : Nat → K, ip M (hv M A' j) x = x j + ∑ i ∈ Finset.range (M-(j+1)), star (r.x i) * x (j+1+i) := by
    intro x
    rw [ip_hv_succ M j A' hj]
    congr 1
    exact Finset.sum_congr rfl fun i h => by rw [hi i (Finset.mem_range.mp h)]
  have hself : ip M (hv M A' j) (hv M A' j) = 1 + ∑ i ∈ Finset.range (M-(j+1)), star (r.x i) * r.x i := by
    rw [hsum]
    congr 1
    · rw [hv_eq_ul hj]; simp [ul]
    · refine Finset.sum_congr rfl fun i h => ?_
      rw [Finset.mem_range] at h
      rw [hv_eq_ul (by omega), ul, if_neg (by omega), if_neg (by omega), hi i h]
  -- the two properties of the reflector give the whole specification
  have fin : Valid M A' j r.beta → (r.beta = 0 → ∀ i, i < M-(j+1) → r.x i = 0) → (∃ ε : Nat → K, (∀ p, p < j ∨ M ≤ p → ε p = 0) ∧ nsq M ε ≤ M * tiny ^ 2 ∧
      (A' j j ≠ 0 → ε = fun _ => 0) ∧
      H M A' j r.beta (fun p => A p j + ε p) = fun p => if j < p ∧ p < M then 0 else A' p j) →
      QRSpec tiny M j 1 (j+1) A A' β := by
    intro hv1 hbz hc
    refine ⟨?_, ?_, ?_, ?_, ?_⟩
    · intro j' h1 h2
      obtain rfl : j' = j := by omega
      rw [hβ]; exact hv1
    · intro p c hpc
      exact hfr p c (by omega)
    · intro c h1 h2
      obtain rfl : c = j := by omega
      have : c + 1 - c = 1 := by omega
      rw [this]
      simp only [hone]
      exact hc
    · intro j' h1 h2 h3 p h4 h5
      obtain rfl : j' = j := by omega
      have := hi (p-(j'+1)) (by omega)
      rw [show j'+1+(p-(j'+1)) = p by omega] at this
      rw [this]
      exact hbz (by rw [← hβ]; exact h3) _ (by omega)
    · intro c h1 h2; omega
  rcases h with ⟨hb, hd, hz, hc⟩ | ⟨hb, hd, y, hy, hy2, hne, _, _, hvv, h1, h2⟩
  · refine ⟨fin (by rw [hb]; unfold Valid; simp) (fun _ => hz) ?_, by rw [hd, hb]; simp [dfac]⟩
    have hH : ∀ x, H M A' j r.beta x = x := by intro x; funext i; rw [hb]; simp [H]
    rcases hc with ⟨ha, _, hx⟩ | ⟨ha, hb', hx⟩
    · refine ⟨fun _ => 0, fun _ _ => rfl, by rw [nsq_zero]; positivity, fun _ => rfl, ?_⟩
      rw [hH]
      funext p
      by_cases hp : j < p ∧ p < M
      · rw [if_pos hp]
        have := hx (p-(j+1)) (by omega)
        rw [show j+1+(p-(j+1)) = p by omega] at this
        rw [this, add_zero]
      · rw [if_neg hp, add_zero]
        by_cases hpj : p = j
        · rw [hpj, hjj, ha]
        · rw [hfr p j (by omega)]
    · refine ⟨fun p => if j ≤ p ∧ p < M then -A p j else 0, fun p hp => by simp only; rw [if_neg (by omega)], ?_,
        fun h => absurd (hjj.trans ha) h, ?_⟩
      · apply nsq_le ht
        intro p hp
        by_cases hp' : j ≤ p ∧ p < M
        · rw [if_pos hp', norm_neg]
          by_cases hpj : p = j
          · rw [hpj]; exact hb'.le
          · have := hx (p-(j+1)) (by omega)
            rw [show j+1+(p-(j+1)) = p by omega] at this
            exact this.le
        · rw [if_neg hp', norm_zero]; exact ht.le
      · rw [hH]
        funext p
        show A p j + (if j ≤ p ∧ p < M then -A p j else 0) = _
        by_cases hp : j < p ∧ p < M
        · rw [if_pos hp, if_pos (by omega)]; ring
        · rw [if_neg hp]
          by_cases hpj : p = j
          · rw [if_pos (by omega), hpj, hjj, ha]; ring
          · rw [if_neg (by omega), hfr p j (by omega), add_zero]
  · refine ⟨fin ?_ (fun h => absurd h hb) ⟨fun _ => 0, fun _ _ => rfl, by rw [nsq_zero]; positivity, fun _ => rfl, ?_⟩, hd⟩
    · unfold Valid; rw [hself]; exact h1
    · simp only [add_zero]
      funext p
      rw [H, hsum, h2]
      have hvne : A j j - (y : K) ≠ 0 := sub_ne_zero.mpr hne
      by_cases hp : j < p ∧ p < M
      · rw [if_pos hp, hv_eq_ul hp.2, ul, if_neg (by omega), if_neg (by omega)]
        have e1 := hi (p-(j+1)) (by omega)
        have e2 := hvv (p-(j+1)) (by omega)
        rw [show j+1+(p-(j+1)) = p by omega] at e1 e2
        rw [e1, e2]
        field_simp
        ring
      · rw [if_neg hp]
        by_cases hpj : p = j
        · rw [hpj, hv_eq_ul hj, hjj, hy]; simp [ul]
        · rw [hv_out (by omega), hfr p j (by omega)]; ring

theorem reflectMat_spec (tiny : ℝ) (ht : 0 < tiny) (M N j : Nat) (hj : j < M) (hN : j+1 ≤ N) (A : Nat → Nat → K) (det : K) (β : Nat → K)
    (hβ : β j = (reflectMat tiny M N j A det).2.1) :
    QRSpec tiny M j 1 N A (reflectMat tiny M N j A det).1 β ∧ (reflectMat tiny M N j A det).2.2 = det * dfac (β j) := by
  have h := reflectCol_spec tiny ht M j hj A det β hβ
  refine ⟨h.1.extend hN ?_, h.2⟩
  intro p c
  have hone : ∀ V x, hs M V β j 1 x = H M V j (β j) x := fun _ _ => rfl
  rw [hone, hβ]
  change (if (reflectCol tiny M j A det).2.1 ≠ 0 then lmult M j (j+1) N (reflectCol tiny M j A det).1
    (reflectCol tiny M j A det).2.1 (reflectCol tiny M j A det).1 else (reflectCol tiny M j A det).1) p c = _
  change _ = if j+1 ≤ c ∧ c < N then H M (reflectCol tiny M j A det).1 j (reflectCol tiny M j A det).2.1 _ p else _
  by_cases hb : (reflectCol tiny M j A det).2.1 ≠ 0
  · rw [if_pos hb, lmult_eq _ _ _ _ _ _ _ hj]
  · rw [if_neg hb]
    simp only [not_not] at hb
    rw [hb]
    simp [H]

/-! ### Recursive decomposition -/

theorem recQR_spec (tiny : ℝ) (ht : 0 < tiny) (M N : Nat) : ∀ (a : Nat) (mz : Bool) (s : St K), a + N ≤ M →
    QRSpec tiny M a N (a+N) s.A (recQR tiny M a N mz s).A (fun j => star ((recQR tiny M a N mz s).Z j j)) ∧
    (recQR tiny M a N mz s).det = s.det * ∏ j ∈ Finset.Ico a (a+N), dfac (star ((recQR tiny M a N mz s).Z j j)) ∧
    (mz = true → ZOK M (recQR tiny M a N mz s).A (fun j => star ((recQR tiny M a N mz s).Z j j))
      (recQR tiny M a N mz s).Z a (a+N)) ∧
    ∀ k l, ¬ (a ≤ k ∧ k < a+N ∧ a ≤ l ∧ l < a+N) → (recQR tiny M a N mz s).Z k l = s.Z k l := by
  induction N using Nat.strong_induction_on with
  | _ N ih =>
    intro a mz s haM
    unfold recQR
    by_cases h0 : N = 0
    · subst h0
      rw [dif_pos rfl]
      refine ⟨QRSpec.zero _ _ _ _ _ _, by simp, fun _ x => ?_, fun _ _ _ => rfl⟩
      funext i
      simp [blk, hsA]
    rw [dif_neg h0]
    by_cases h1 : N = 1
    · subst h1
      rw [dif_pos rfl]
      have h := reflectCol_spec tiny ht M a (by omega) s.A s.det
        (fun j => star (setE s.Z a a (star (reflectCol tiny M a s.A s.det).2.1) j j)) (by rw [setE_eq, star_star])
      refine ⟨h.1, ?_, fun _ => ZOK.one _ _ _ _ _ ?_, fun k l hkl => setE_ne (by omega)⟩
      · rw [Nat.Ico_succ_singleton, Finset.prod_singleton]; exact h.2
      · simp only [star_star]
    rw [dif_neg h1]
    by_cases h2 : N = 2
    · subst h2
      rw [dif_pos rfl]
      obtain ⟨r0, hr0⟩ : ∃ r0, r0 = reflectMat tiny M (a+2) a s.A s.det := ⟨_, rfl⟩
      obtain ⟨r1, hr1⟩ : ∃ r1, r1 = reflectCol tiny M (a+1) r0.1 r0.2.2 := ⟨_, rfl⟩
      dsimp only
      rw [← hr0, ← hr1]
      obtain ⟨Z', hZ'⟩ : ∃ Z' : Nat → Nat → K, Z' = if mz = true then setE (setE (setE s.Z a a (star r0.2.1)) (a+1) (a+1) (star r1.2.1)) a (a+1)
          (-star (r0.2.1 * r1.2.1) * ((∑ p ∈ Finset.Ico (a+2) M, star (r1.1 p a) * r1.1 p (a+1)) + star (r1.1 (a+1) a)))
        else setE (setE s.Z a a (star r0.2.1)) (a+1) (a+1) (star r1.2.1) := ⟨_, rfl⟩
      rw [← hZ']
      have z0 : Z' a a = star r0.2.1 := by
        rw [hZ']; split
        · rw [setE_ne (by omega), setE_ne (by omega), setE_eq]
        · rw [setE_ne (by omega), setE_eq]
      have z1 : Z' (a+1) (a+1) = star r1.2.1 := by
        rw [hZ']; split
        · rw [setE_ne (by omega), setE_eq]
        · rw [setE_eq]
      have q0 := reflectMat_spec tiny ht M (a+2) a (by omega) (by omega) s.A s.det (fun j => star (Z' j j))
        (by rw [z0, star_star, hr0])
      have q1 := reflectCol_spec tiny ht M (a+1) (by omega) r0.1 r0.2.2 (fun j => star (Z' j j))
        (by rw [z1, star_star, hr1])
      rw [← hr0] at q0
      rw [← hr1] at q1
      refine ⟨QRSpec.comp q0.1 q1.1 (by omega), ?_, ?_, ?_⟩
      · rw [q1.2, q0.2, Finset.prod_Ico_succ_top (by omega), Nat.Ico_succ_singleton, Finset.prod_singleton, mul_assoc]
      · intro hmz
        refine ZOK.two haM (by simp) (by simp) ?_
        simp only [star_star, z0, z1]
        rw [hZ', if_pos hmz, setE_eq, star_mul']
        ring
      · intro k l hkl
        rw [hZ']; split
        · rw [setE_ne (by omega), setE_ne (by omega), setE_ne (by omega)]
        · rw [setE_ne (by omega), setE_ne (by omega)]
    rw [dif_neg h2]
    dsimp only
    obtain ⟨j1, hj1⟩ : ∃ j1, j1 = (N+1)/2 := ⟨_, rfl⟩
    rw [← hj1]
    obtain ⟨s1, hs1⟩ : ∃ s1, s1 = recQR tiny M a j1 true s := ⟨_, rfl⟩
    rw [← hs1]
    obtain ⟨a1, a2, a3, a4⟩ := ih j1 (by omega) a true s (by omega)
    rw [← hs1] at a1 a2 a3 a4
    have a3 := a3 rfl
    obtain ⟨A2, hA2⟩ : ∃ A2, A2 = blockLDiv M a (a+j1) (a+j1) (a+N) s1.A s1.Z s1.A := ⟨_, rfl⟩
    rw [← hA2]
    obtain ⟨s3, hs3⟩ : ∃ s3, s3 = recQR tiny M (a+j1) (N-j1) mz ⟨A2, s1.Z, s1.det⟩ := ⟨_, rfl⟩
    rw [← hs3]
    obtain ⟨b1, b2, b3, b4⟩ := ih (N-j1) (by omega) (a+j1) mz ⟨A2, s1.Z, s1.det⟩ (by omega)
    rw [← hs3] at b1 b2 b3 b4
    have e : a + j1 + (N - j1) = a + N := by omega
    rw [e] at b1 b2 b3 b4
    simp only at b1 b2 b4
    -- the state after the block update
    have c1 : QRSpec tiny M a j1 (a+N) s.A A2 (fun j => star (s1.Z j j)) := by
      refine a1.extend (by omega) ?_
      intro p c
      have hz := a3.blkA
      rw [show a + j1 - a = j1 by omega] at hz
      rw [hA2, blockLDiv_eq _ _ _ _ _ _ _ _ (by omega), hz]
    have hZd : ∀ j, a ≤ j → j < a+j1 → star (s1.Z j j) = star (s3.Z j j) := fun j _ _ => by rw [b4 j j (by omega)]
    have d1 : QRSpec tiny M a N (a+N) s.A s3.A (fun j => star (s3.Z j j)) := by
      have := QRSpec.comp (c1.congr (β' := fun j => star (s3.Z j j)) hZd) b1 (by omega)
      rwa [show j1 + (N-j1) = N by omega] at this
    have d2 : s3.det = s.det * ∏ j ∈ Finset.Ico a (a+N), dfac (star (s3.Z j j)) := by
      rw [b2, a2, ← Finset.prod_Ico_consecutive _ (show a ≤ a+j1 by omega) (show a+j1 ≤ a+N by omega), mul_assoc]
      congr 2
      refine Finset.prod_congr rfl fun j hj => ?_
      rw [Finset.mem_Ico] at hj
      rw [hZd j hj.1 hj.2]
    cases mz with
    | false =>
      simp only [if_false, Bool.false_eq_true]
      refine ⟨d1, d2, fun h => absurd h (by simp), fun k l hkl => ?_⟩
      rw [b4 k l (by omega), a4 k l (by omega)]
    | true =>
      simp only [if_true]
      have hzd : ∀ j, z3 M a (a+j1) (a+N) s3.A s3.Z j j = s3.Z j j := fun j => z3_out _ _ _ _ _ _ _ _ (by omega)
      simp only [hzd]
      refine ⟨d1, d2, fun _ => ZOK.z3 (by omega) (by omega) haM ?_ (b3 rfl), fun k l hkl => ?_⟩
      · refine a3.congr (by omega) ?_ (fun k l h3 h4 h5 => (b4 k l (by omega)).symm) (fun j h3 h4 => hZd j h3 h4)
        intro p j h3 h4 h5 h6
        rw [b1.frame p j (by omega), hA2, blockLDiv_eq _ _ _ _ _ _ _ _ (by omega), if_neg (by omega)]
      · rw [z3_out _ _ _ _ _ _ _ _ (by omega), b4 k l (by omega), a4 k l (by omega)]

theorem blockQRLoop_spec (tiny : ℝ) (ht : 0 < tiny) (nb M N : Nat) (hnb : 0 < nb) (hNM : N ≤ M) (n : Nat) :
    ∀ (j1 : Nat) (s : St K) (β : Nat → K), N - j1 ≤ n → j1 ≤ N →
    (∀ A0 det0, QRSpec tiny M 0 j1 N A0 s.A β → s.det = det0 * ∏ j ∈ Finset.range j1, dfac (β j) →
      QRSpec tiny M 0 N N A0 (blockQRLoop tiny nb M N j1 s β).1.A (blockQRLoop tiny nb M N j1 s β).2 ∧
      (blockQRLoop tiny nb M N j1 s β).1.det =
        det0 * ∏ j ∈ Finset.range N, dfac ((blockQRLoop tiny nb M N j1 s β).2 j)) := by
  induction n with
  | zero =>
    intro j1 s β hn hj A0 det0 h hd
    obtain rfl : j1 = N := by omega
    unfold blockQRLoop
    rw [dif_neg (by omega)]
    exact ⟨h, hd⟩
  | succ n ih =>
    intro j1 s β hn hj A0 det0 h hd
    unfold blockQRLoop
    by_cases hjN : j1 < N
    · rw [dif_pos ⟨hjN, hnb⟩]
      dsimp only
      obtain ⟨j2, hj2⟩ : ∃ j2, j2 = min N (j1+nb) := ⟨_, rfl⟩
      rw [← hj2]
      obtain ⟨s1, hs1⟩ : ∃ s1, s1 = recQR tiny M j1 (j2-j1) (decide (j2 < N)) s := ⟨_, rfl⟩
      rw [← hs1]
      obtain ⟨a1, a2, a3, a4⟩ := recQR_spec tiny ht M (j2-j1) j1 (decide (j2 < N)) s (by omega)
      rw [← hs1] at a1 a2 a3 a4
      have e : j1 + (j2 - j1) = j2 := by omega
      rw [e] at a1 a2 a3 a4
      obtain ⟨β2, hβ2⟩ : ∃ β2 : Nat → K, β2 = fun j => if j1 ≤ j ∧ j < j2 then star (s1.Z j j) else β j := ⟨_, rfl⟩
      rw [← hβ2]
      have hb1 : ∀ j, j1 ≤ j → j < j2 → star (s1.Z j j) = β2 j := by
        intro j h1 h2; rw [hβ2]; simp only; rw [if_pos ⟨h1, h2⟩]
      have hb0 : ∀ j, j < j1 → β j = β2 j := by
        intro j h1; rw [hβ2]; simp only; rw [if_neg (by omega)]
      obtain ⟨s2, hs2⟩ : ∃ s2 : St K, s2 = if j2 < N then ⟨blockLDiv M j1 j2 j2 N s1.A s1.Z s1.A, s1.Z, s1.det⟩ else s1 := ⟨_, rfl⟩
      rw [← hs2]
      have hdet : s2.det = s1.det := by rw [hs2]; split <;> rfl
      have c1 : QRSpec tiny M j1 (j2-j1) N s.A s2.A β2 := by
        refine QRSpec.congr ?_ (fun j h1 h2 => hb1 j h1 (by omega))
        by_cases hlt : j2 < N
        · rw [hs2, if_pos hlt]
          have hz := (a3 (by simpa using hlt)).blkA
          refine QRSpec.extend (A' := s1.A) (by rw [e]; exact a1) (by omega) ?_
          intro p c
          simp only
          rw [blockLDiv_eq _ _ _ _ _ _ _ _ (by omega), hz, e]
        · rw [hs2, if_neg hlt]
          have hj2N : j2 = N := by omega
          rw [← hj2N]
          exact a1
      have h' : QRSpec tiny M 0 j1 N A0 s.A β2 := h.congr fun j _ h2 => hb0 j (by omega)
      have h2 : QRSpec tiny M 0 j2 N A0 s2.A β2 := by
        have := QRSpec.comp h' (by rw [Nat.zero_add]; exact c1) (by omega)
        rwa [e] at this
      refine ih j2 s2 β2 (by omega) (by omega) A0 det0 h2 ?_
      rw [hdet, a2, hd, Finset.range_eq_Ico, Finset.range_eq_Ico, ← Finset.prod_Ico_consecutive _ (Nat.zero_le j1) (show j1 ≤ j2 by omega), mul_assoc]
      congr 2
      · refine Finset.prod_congr rfl fun j hj => ?_
        rw [Finset.mem_Ico] at hj
        rw [hb0 j hj.2]
      · refine Finset.prod_congr rfl fun j hj => ?_
        rw [Finset.mem_Ico] at hj
        rw [hb1 j hj.1 hj.2]
    · obtain rfl : j1 = N := by omega
      rw [dif_neg (by omega)]
      exact ⟨h, hd⟩

/-- The packed decomposition: all block sizes. -/
theorem decompose_spec (tiny : ℝ) (ht : 0 < tiny) (nb M N : Nat) (hnb : 0 < nb) (hNM : N ≤ M) (A Z0 : Nat → Nat → K)
    (beta0 : Nat → K) (det : K) :
    QRSpec tiny M 0 N N A (decompose tiny nb M N A Z0 beta0 det).1.A (decompose tiny nb M N A Z0 beta0 det).2 ∧
    (decompose tiny nb M N A Z0 beta0 det).1.det =
      det * ∏ j ∈ Finset.range N, dfac ((decompose tiny nb M N A Z0 beta0 det).2 j) := by
  unfold decompose
  by_cases hN : N > 0
  · rw [if_pos hN]
    by_cases hb : N > nb
    · rw [if_pos hb]
      exact blockQRLoop_spec tiny ht nb M N hnb hNM N 0 ⟨A, Z0, det⟩ beta0 (by omega) (by omega) A det
        (QRSpec.zero _ _ _ _ _ _) (by simp)
    · rw [if_neg hb]
      dsimp only
      obtain ⟨a1, a2, _, _⟩ := recQR_spec tiny ht M N 0 false ⟨A, Z0, det⟩ (by omega)
      simp only [Nat.zero_add] at a1 a2
      refine ⟨a1.congr fun j _ h => by rw [if_pos (by omega)], ?_⟩
      rw [a2, Finset.range_eq_Ico]
      congr 1
      refine Finset.prod_congr rfl fun j hj => ?_
      rw [Finset.mem_Ico] at hj
      rw [if_pos hj.2]
  · rw [if_neg hN]
    obtain rfl : N = 0 := by omega
    exact ⟨QRSpec.zero _ _ _ _ _ _, by simp⟩

end
end TMV.QR
