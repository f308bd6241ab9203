import Verif.Props.QRUpd

/-! **C85** Downdating a QR decomposition. -/
namespace TMV.QR
noncomputable section
open Classical

variable {K : Type} [RCLike K]

theorem unReflect_facts (n : Nat) (y : K) (x : Nat → K) (hy : RCLike.im y = 0) :
    (unReflect n y x = none → RCLike.normSq y < nsq n x) ∧
    ∀ u, unReflect n y x = some u →
      u.beta * star u.beta * (1 + ∑ i ∈ Finset.range n, star (u.x i) * u.x i) = u.beta + star u.beta ∧
      u.beta * (u.y + ∑ i ∈ Finset.range n, star (u.x i) * x i) = u.y - y ∧
      (∀ i, i < n → u.x i * (u.y - y) = x i) ∧ RCLike.im u.y = 0 ∧
      (nsq n x < RCLike.normSq y → u.y ≠ 0 ∧ 1 - u.beta ≠ 0) := by
  obtain ⟨r, rfl⟩ : ∃ r : ℝ, y = (r : K) := ⟨RCLike.re y, by
    conv_lhs => rw [← RCLike.re_add_im y]
    rw [hy]; simp⟩
  have hyy : RCLike.normSq (r : K) = r ^ 2 := by simp [RCLike.normSq_apply, sq]
  rw [hyy]
  unfold unReflect
  dsimp only
  rw [show ∑ i ∈ Finset.range n, RCLike.normSq (x i) = nsq n x from rfl]
  obtain ⟨q, hq⟩ : ∃ q, q = nsq n x := ⟨_, rfl⟩
  rw [← hq]
  have hq0 : 0 ≤ q := hq ▸ Finset.sum_nonneg fun i _ => RCLike.normSq_nonneg _
  by_cases h0 : q = 0
  · rw [if_pos h0]
    refine ⟨fun h => (by cases h), fun u hu => ?_⟩
    obtain rfl := Option.some.inj hu
    have hx : ∀ i, i < n → x i = 0 := fun i hi => nsq_eq_zero (hq.symm.trans h0) i hi
    refine ⟨by simp, by simp, fun i hi => by simp [hx i hi], by simp, fun h => ⟨?_, by simp⟩⟩
    intro hr
    dsimp only at hr
    have : r = 0 := by exact_mod_cast hr
    rw [this, h0] at h
    simp at h
  · rw [if_neg h0]
    simp only [RCLike.ofReal_re]
    have hqp : 0 < q := lt_of_le_of_ne hq0 (Ne.symm h0)
    by_cases h1 : r ^ 2 - q < 0
    · rw [if_pos h1]
      exact ⟨fun _ => (by linarith), fun u hu => (by cases hu)⟩
    · rw [if_neg h1]
      refine ⟨fun h => (by cases h), fun u hu => ?_⟩
      obtain rfl := Option.some.inj hu
      obtain ⟨d, hd⟩ : ∃ d, d = (if r > 0 then -Real.sqrt (r ^ 2 - q) else Real.sqrt (r ^ 2 - q)) := ⟨_, rfl⟩
      rw [← hd]
      have hsq : Real.sqrt (r ^ 2 - q) ^ 2 = r ^ 2 - q := Real.sq_sqrt (by linarith)
      have hd2 : d ^ 2 = r ^ 2 - q := by
        rw [hd]; split
        · rw [neg_sq, hsq]
        · exact hsq
      have hr0 : r ≠ 0 := by rintro rfl; nlinarith
      have hsgn : r * d ≤ 0 := by
        rw [hd]; split
        · have := Real.sqrt_nonneg (r ^ 2 - q); nlinarith
        · have := Real.sqrt_nonneg (r ^ 2 - q); nlinarith
      have hr2 : 0 < r ^ 2 := by positivity
      have hden : r ^ 2 - r * d ≠ 0 := by nlinarith
      have hdr : d - r ≠ 0 := by intro h; apply hden; have : d = r := by linarith
                                 rw [this]; ring
      have hdenK : ((r ^ 2 : ℝ) : K) - (r : K) * (d : K) ≠ 0 := by exact_mod_cast hden
      have hdrK : (d : K) - (r : K) ≠ 0 := by exact_mod_cast hdr
      have hbeta : ((RCLike.normSq ((d : K) - (r : K)) : ℝ) : K) / (((r ^ 2 : ℝ) : K) - (r : K) * (d : K)) = (((d - r) ^ 2 / (r ^ 2 - r * d) : ℝ) : K) := by
        have : RCLike.normSq ((d : K) - (r : K)) = (d - r) ^ 2 := by
          rw [← RCLike.ofReal_sub, RCLike.normSq_apply]; simp [sq]
        rw [this]; push_cast; rfl
      rw [hbeta]
      obtain ⟨b, hb⟩ : ∃ b, b = (d - r) ^ 2 / (r ^ 2 - r * d) := ⟨_, rfl⟩
      rw [← hb]
      have hbr : b = -(d - r) / r := by
        rw [hb, div_eq_div_iff hden hr0]; ring
      have hs1 : ∑ i ∈ Finset.range n, star (if i < n then x i / ((d : K) - (r : K)) else x i) * x i = ((q / (d - r) : ℝ) : K) := by
        have e : ∀ i ∈ Finset.range n, star (if i < n then x i / ((d : K) - (r : K)) else x i) * x i = ((RCLike.normSq (x i) / (d - r) : ℝ) : K) := by
          intro i hi
          rw [if_pos (Finset.mem_range.mp hi)]
          have h3 : star ((d : K) - (r : K)) = (d : K) - (r : K) := by simp
          rw [star_div₀, h3, div_mul_eq_mul_div, star_mul_eq]
          push_cast; rfl
        rw [Finset.sum_congr rfl e, ← RCLike.ofReal_sum, ← Finset.sum_div, hq]; rfl
      have hs2 : ∑ i ∈ Finset.range n, star (if i < n then x i / ((d : K) - (r : K)) else x i) * (if i < n then x i / ((d : K) - (r : K)) else x i) = ((q / (d - r) ^ 2 : ℝ) : K) := by
        have e : ∀ i ∈ Finset.range n, star (if i < n then x i / ((d : K) - (r : K)) else x i) * (if i < n then x i / ((d : K) - (r : K)) else x i) =
            (star (if i < n then x i / ((d : K) - (r : K)) else x i) * x i) * (((d - r)⁻¹ : ℝ) : K) := by
          intro i hi
          rw [if_pos (Finset.mem_range.mp hi)]
          push_cast
          ring
        rw [Finset.sum_congr rfl e, ← Finset.sum_mul, hs1, ← RCLike.ofReal_mul]
        congr 1
        field_simp
      refine ⟨?_, ?_, ?_, ?_, ?_⟩ <;> dsimp only
      · rw [hs2]
        have : star (b : K) = (b : K) := by simp
        rw [this]
        have key : b * b * (1 + q / (d - r) ^ 2) = b + b := by
          have : q = (d - r) * (-(d + r)) := by linarith
          rw [hbr, this]
          field_simp
          ring
        exact_mod_cast congrArg (fun t : ℝ => (t : K)) key
      · rw [hs1]
        have key : b * (d + q / (d - r)) = d - r := by
          have : q = (d - r) * (-(d + r)) := by linarith
          rw [hbr, this]
          field_simp
          ring
        exact_mod_cast congrArg (fun t : ℝ => (t : K)) key
      · intro i hi
        simp only [if_pos hi]
        field_simp
      · simp
      · intro h
        have hd0 : d ≠ 0 := by rintro rfl; nlinarith
        refine ⟨by exact_mod_cast hd0, ?_⟩
        have : 1 - b = d / r := by
          rw [hbr]
          field_simp
          ring
        have h2 : (1 : ℝ) - b ≠ 0 := by rw [this]; exact div_ne_zero hd0 hr0
        exact_mod_cast h2

/-! ### One column -/

theorem ip_hv_stk (L M j : Nat) (hj : j < L) (R A : Nat → Nat → K) (x : Nat → K) :
    ip (L+M) (hv (L+M) (stk L R A) j) x = x j + ∑ i ∈ Finset.range M, star (A i j) * x (L+i) := by
  rw [ip_hv (L+M) j _ j le_rfl (by omega), Finset.sum_eq_sum_Ico_succ_bot (by omega)]
  congr 1
  · simp [ul]
  · rw [sum_stk L M (j+1) (by omega) _ (fun p h1 h2 => by rw [ul_stk _ _ h2, if_neg (by omega)]; simp)]
    refine Finset.sum_congr rfl fun i _ => ?_
    rw [ul, if_neg (by omega), if_neg (by omega), stk_A]

theorem hv_stk_row {L M j p : Nat} (R A : Nat → Nat → K) (hp : p < L) (hpj : p ≠ j) : hv (L+M) (stk L R A) j p = 0 := by
  rw [hv_eq_ul (by omega), ul_stk _ _ hp, if_neg hpj]

/-- A vector with zeros where the reflectors live is not changed. -/
theorem hs_fix' {M : Nat} {V : Nat → Nat → K} {β : Nat → K} {a : Nat} (n : Nat) {d : Nat → K}
    (h : ∀ j, a ≤ j → j < a+n → ∀ p, p < M → hv M V j p = 0 ∨ d p = 0) : hs M V β a n d = d := by
  induction n with
  | zero => rfl
  | succ n ih =>
    rw [hs, ih (fun j h1 h2 => h j h1 (by omega))]
    funext p
    have : ip M (hv M V (a+n)) d = 0 := by
      apply Finset.sum_eq_zero
      intro p hp
      rcases h (a+n) (by omega) (by omega) p (Finset.mem_range.mp hp) with e | e <;> rw [e] <;> simp
    rw [H, this]; ring

/-- Result of downdating the columns `[a,a+n)` from `s` to `s'`, with the columns `[a+n,e)` brought along: the reflectors take the new
`R` on top of the old `A` to the old `R` on top of the new `A`. -/
structure DSpec (L M a n e : Nat) (s s' : US K) (β : Nat → K) : Prop where
  valid : ∀ j, a ≤ j → j < a+n → Valid (L+M) (stk L s'.R s'.A) j (β j)
  frameR : ∀ p c, ¬ (a ≤ p ∧ p < a+n ∧ p ≤ c ∧ c < e) → s'.R p c = s.R p c
  frameA : ∀ p c, ¬ (p < M ∧ a ≤ c ∧ c < e) → s'.A p c = s.A p c
  cols : ∀ c, a ≤ c → c < a+n → hs (L+M) (stk L s'.R s'.A) β a (c+1-a) (fun p => stk L s'.R s.A p c) =
    fun p => if c < p ∧ p < L+M then 0 else stk L s.R s.A p c
  trail : ∀ c, a+n ≤ c → c < e → hs (L+M) (stk L s'.R s'.A) β a n (fun p => stk L s'.R s.A p c) = fun p => stk L s.R s'.A p c

/-- `hs` looks at the stacked matrix only through `A`. -/
theorem hs_stk_congr {L M a : Nat} {R R' A A' : Nat → Nat → K} {β β' : Nat → K} (n : Nat) (_han : a + n ≤ L)
    (hA : ∀ p c, a ≤ c → c < a+n → p < M → A p c = A' p c) (hb : ∀ j, a ≤ j → j < a+n → β j = β' j) :
    hs (L+M) (stk L R A) β a n = hs (L+M) (stk L R' A') β' a n := by
  refine hs_congr n ?_ hb
  intro p j h1 h2 h3 h4
  by_cases hp : p < L
  · rw [stk_low _ _ hp (by omega), stk_low _ _ hp (by omega)]
  · obtain ⟨q, rfl⟩ : ∃ q, p = L + q := ⟨p - L, by omega⟩
    rw [stk_A, stk_A]
    exact hA q j (by omega) (by omega) (by omega)

theorem DSpec.congr {L M a n e : Nat} {s s' : US K} {β β' : Nat → K} (han : a + n ≤ L) (h : DSpec L M a n e s s' β)
    (hb : ∀ j, a ≤ j → j < a+n → β j = β' j) : DSpec L M a n e s s' β' where
  valid := fun j h1 h2 => by rw [← hb j h1 h2]; exact h.valid j h1 h2
  frameR := h.frameR
  frameA := h.frameA
  cols := fun c h1 h2 => by
    rw [← h.cols c h1 h2]
    exact congrFun (hs_stk_congr (c+1-a) (by omega) (fun _ _ _ _ _ => rfl) (fun j h3 h4 => (hb j h3 (by omega)).symm)) _
  trail := fun c h1 h2 => by
    rw [← h.trail c h1 h2]
    exact congrFun (hs_stk_congr n han (fun _ _ _ _ _ => rfl) (fun j h3 h4 => (hb j h3 h4).symm)) _

theorem DSpec.zero (L M a e : Nat) (s : US K) (β : Nat → K) : DSpec L M a 0 e s s β where
  valid := by intro j h1 h2; omega
  frameR := fun _ _ _ => rfl
  frameA := fun _ _ _ => rfl
  cols := by intro c h1 h2; omega
  trail := fun _ _ _ => rfl

theorem valid_stk {L M j : Nat} (hj : j < L) {R A : Nat → Nat → K} {b : K}
    (h : b * star b * (1 + ∑ i ∈ Finset.range M, star (A i j) * A i j) = b + star b) : Valid (L+M) (stk L R A) j b := by
  unfold Valid
  rw [ip_hv_stk L M j hj]
  rw [hv_eq_ul (show j < L+M by omega), ul_stk _ _ hj, if_pos rfl, ← h]
  congr 2
  refine Finset.sum_congr rfl fun i hi => ?_
  rw [Finset.mem_range] at hi
  rw [hv_eq_ul (show L+i < L+M by omega), ul, if_neg (by omega), if_neg (by omega), stk_A]

theorem dnCol_spec (L M j : Nat) (hj : j < L) (s : US K) (hy : RCLike.im (s.R j j) = 0) :
    (∀ er, dnCol M j s = .error er → RCLike.normSq (s.R j j) < nsq M (fun i => s.A i j)) ∧
    ∀ s' b, dnCol M j s = .ok (s', b) →
      (∀ β : Nat → K, β j = b → DSpec L M j 1 (j+1) s s' β) ∧ s'.Z = s.Z ∧ RCLike.im (s'.R j j) = 0 ∧
      (nsq M (fun i => s.A i j) < RCLike.normSq (s.R j j) → s'.R j j ≠ 0 ∧ 1 - b ≠ 0) := by
  obtain ⟨f1, f2⟩ := unReflect_facts M (s.R j j) (fun i => s.A i j) hy
  unfold dnCol
  cases hu : unReflect M (s.R j j) (fun i => s.A i j) with
  | none => exact ⟨fun er _ => f1 hu, fun s' b h => by cases h⟩
  | some u =>
    refine ⟨fun er h => (by cases h), fun s' b h => ?_⟩
    obtain ⟨g1, g2, g3, g4, g5⟩ := f2 u hu
    have h' := Except.ok.inj h
    obtain ⟨rfl, rfl⟩ : _ ∧ _ := ⟨congrArg Prod.fst h', congrArg Prod.snd h'⟩
    dsimp only
    have hRj : setE s.R j j u.y j j = u.y := setE_eq
    refine ⟨fun β hb => ?_, rfl, by rw [hRj]; exact g4, fun hlt => by rw [hRj]; exact g5 hlt⟩
    have hA : ∀ i, i < M → (if j = j ∧ i < M then u.x i else s.A i j) = u.x i := fun i hi => if_pos ⟨rfl, hi⟩
    have hv1 : Valid (L+M) (stk L (setE s.R j j u.y) (fun p c => if c = j ∧ p < M then u.x p else s.A p c)) j u.beta := by
      apply valid_stk hj
      rw [← g1]
      congr 2
      refine Finset.sum_congr rfl fun i hi => ?_
      rw [hA i (Finset.mem_range.mp hi)]
    refine ⟨?_, ?_, ?_, ?_, ?_⟩
    · intro j' h1 h2
      obtain rfl : j' = j := by omega
      rw [hb]
      exact hv1
    · intro p c hpc
      exact setE_ne (by omega)
    · intro p c hpc
      exact if_neg (by omega)
    · intro c h1 h2
      obtain rfl : c = j := by omega
      rw [show c + 1 - c = 1 by omega]
      funext p
      rw [hs, hs, Nat.add_zero, hb, H, ip_hv_stk L M c hj]
      have e1 : stk L (setE s.R c c u.y) s.A c c = u.y := by rw [stk_up _ _ hj le_rfl, setE_eq]
      have e2 : ∑ i ∈ Finset.range M, star (if c = c ∧ i < M then u.x i else s.A i c) * stk L (setE s.R c c u.y) s.A (L+i) c =
          ∑ i ∈ Finset.range M, star (u.x i) * s.A i c :=
        Finset.sum_congr rfl fun i hi => by rw [hA i (Finset.mem_range.mp hi), stk_A]
      dsimp only
      rw [e1, e2, g2]
      by_cases hpM : p < L + M
      · by_cases hpL : p < L
        · by_cases hpc : p = c
          · subst hpc
            rw [hv_eq_ul (by omega), ul_stk _ _ hpL, if_pos rfl, if_neg (by omega), stk_up _ _ hpL le_rfl, stk_up _ _ hpL le_rfl, setE_eq]
            ring
          · rw [hv_stk_row _ _ hpL hpc, zero_mul, sub_zero]
            by_cases hlt : c < p
            · rw [if_pos ⟨hlt, hpM⟩, stk_low _ _ hpL hlt]
            · rw [if_neg (by omega), stk_up _ _ hpL (by omega), stk_up _ _ hpL (by omega), setE_ne (by omega)]
        · obtain ⟨i, rfl⟩ : ∃ i, p = L + i := ⟨p - L, by omega⟩
          rw [if_pos (by omega), hv_eq_ul hpM, ul, if_neg (by omega), if_neg (by omega), stk_A, stk_A, hA i (by omega), g3 i (by omega), sub_self]
      · rw [hv_out (by omega), zero_mul, sub_zero, if_neg (by omega)]
        unfold stk
        rw [if_neg (by omega), if_neg (by omega)]
    · intro c h1 h2; omega

/-- Bring further columns along. -/
theorem DSpec.extend {L M a n e : Nat} {s s1 s2 : US K} {β : Nat → K} (han : a + n ≤ L) (hne : a+n ≤ e)
    (h : DSpec L M a n (a+n) s s1 β)
    (hR : ∀ p c, ¬ (a ≤ p ∧ p < a+n ∧ a+n ≤ c ∧ c < e) → s2.R p c = s1.R p c)
    (hA : ∀ p c, ¬ (p < M ∧ a+n ≤ c ∧ c < e) → s2.A p c = s1.A p c)
    (ht : ∀ c, a+n ≤ c → c < e → hs (L+M) (stk L s1.R s1.A) β a n (fun p => stk L s2.R s1.A p c) = fun p => stk L s1.R s2.A p c) :
    DSpec L M a n e s s2 β := by
  have hsc : ∀ k, k ≤ n → hs (L+M) (stk L s2.R s2.A) β a k = hs (L+M) (stk L s1.R s1.A) β a k := fun k hk =>
    hs_stk_congr k (by omega) (fun p c h1 h2 h3 => hA p c (by omega)) (fun _ _ _ => rfl)
  refine ⟨?_, ?_, ?_, ?_, ?_⟩
  · intro j h1 h2
    refine (h.valid j h1 h2).congr fun p h3 h4 => ?_
    by_cases hp : p < L
    · rw [stk_low _ _ hp (by omega), stk_low _ _ hp (by omega)]
    · obtain ⟨q, rfl⟩ : ∃ q, p = L + q := ⟨p - L, by omega⟩
      rw [stk_A, stk_A, hA q j (by omega)]
  · intro p c hpc
    by_cases hc : a+n ≤ c
    · rw [hR p c (by omega), h.frameR p c (by omega)]
    · rw [hR p c (by omega), h.frameR p c (by omega)]
  · intro p c hpc
    rw [hA p c (by omega), h.frameA p c (by omega)]
  · intro c h1 h2
    rw [hsc _ (by omega), ← h.cols c h1 h2]
    congr 1
    funext p
    unfold stk
    rw [hR p c (by omega)]
  · intro c h1 h2
    rw [hsc _ le_rfl]
    have e1 : (fun p => stk L s2.R s.A p c) = fun p => stk L s2.R s1.A p c := by
      funext p
      unfold stk
      rw [h.frameA (p-L) c (by omega)]
    have e2 : (fun p => stk L s.R s2.A p c) = fun p => stk L s1.R s2.A p c := by
      funext p
      unfold stk
      rw [h.frameR p c (by omega)]
    rw [e1, e2]
    exact ht c h1 h2

/-- Downdate `[a,a+n)`, then `[a+n,a+n+m)`. -/
theorem DSpec.comp {L M a n m e : Nat} {s s1 s2 : US K} {β : Nat → K} (hL : a + n + m ≤ L) (hme : a+n+m ≤ e)
    (h1 : DSpec L M a n e s s1 β) (h2 : DSpec L M (a+n) m e s1 s2 β) : DSpec L M a (n+m) e s s2 β := by
  have hsc : ∀ k, k ≤ n → hs (L+M) (stk L s2.R s2.A) β a k = hs (L+M) (stk L s1.R s1.A) β a k := fun k hk =>
    hs_stk_congr k (by omega) (fun p c h3 h4 h5 => h2.frameA p c (by omega)) (fun _ _ _ => rfl)
  -- a change of the rows `[a+n,a+n+m)` passes through the first reflectors
  have fix1 : ∀ d : Nat → K, (∀ p, d p ≠ 0 → a+n ≤ p ∧ p < L) → hs (L+M) (stk L s1.R s1.A) β a n d = d := by
    intro d hd
    refine hs_fix' n fun j h3 h4 p hp => ?_
    by_cases h5 : d p = 0
    · exact Or.inr h5
    · exact Or.inl (hv_stk_row _ _ (hd p h5).2 (by have := hd p h5; omega))
  have fix2 : ∀ (k : Nat) (d : Nat → K), (∀ p, d p ≠ 0 → p < a+n) → hs (L+M) (stk L s2.R s2.A) β (a+n) k d = d := by
    intro k d hd
    refine hs_fix k fun p h3 h4 => ?_
    by_contra h5
    have := hd p h5
    omega
  -- the first reflectors on the columns from `a+n` on
  have first : ∀ c, a+n ≤ c → c < e → hs (L+M) (stk L s2.R s2.A) β a n (fun p => stk L s2.R s.A p c) =
      fun p => (fun p => stk L s2.R s1.A p c) p + (fun p => if p < a+n then stk L s.R s.A p c - stk L s1.R s.A p c else 0) p := by
    intro c h3 h4
    rw [hsc n le_rfl]
    have e1 : (fun p => stk L s2.R s.A p c) = fun p => (fun p => stk L s1.R s.A p c) p +
        (fun p => if a+n ≤ p ∧ p < L then stk L s2.R s.A p c - stk L s1.R s.A p c else 0) p := by
      funext p
      dsimp only
      by_cases hp : a+n ≤ p ∧ p < L
      · rw [if_pos hp]; ring
      · rw [if_neg hp, add_zero]
        unfold stk
        rw [h2.frameR p c (by omega)]
    rw [e1, hs_add, h1.trail c h3 h4, fix1 _ (fun p hp => by by_contra h; exact hp (if_neg h))]
    funext p
    dsimp only
    by_cases hpL : p < L
    · by_cases hp : a + n ≤ p
      · rw [if_pos ⟨hp, hpL⟩, if_neg (by omega)]
        unfold stk
        simp only [if_pos hpL]
        rw [h1.frameR p c (by omega)]
        ring
      · rw [if_neg (by omega), if_pos (by omega)]
        unfold stk
        simp only [if_pos hpL]
        rw [h2.frameR p c (by omega)]
        ring
    · rw [if_neg (by omega), if_neg (by omega)]
      unfold stk
      simp only [if_neg hpL]
  refine ⟨?_, ?_, ?_, ?_, ?_⟩
  · intro j h3 h4
    by_cases hj : j < a+n
    · refine (h1.valid j h3 hj).congr fun p h5 h6 => ?_
      by_cases hp : p < L
      · rw [stk_low _ _ hp (by omega), stk_low _ _ hp (by omega)]
      · obtain ⟨q, rfl⟩ : ∃ q, p = L + q := ⟨p - L, by omega⟩
        rw [stk_A, stk_A, h2.frameA q j (by omega)]
    · exact h2.valid j (by omega) (by omega)
  · intro p c hpc
    rw [h2.frameR p c (by omega), h1.frameR p c (by omega)]
  · intro p c hpc
    rw [h2.frameA p c (by omega), h1.frameA p c (by omega)]
  · intro c h3 h4
    by_cases hc : c < a+n
    · rw [hsc _ (by omega), ← h1.cols c h3 hc]
      congr 1
      funext p
      unfold stk
      rw [h2.frameR p c (by omega)]
    · have hcn : c + 1 - a = n + (c + 1 - (a+n)) := by omega
      rw [hcn, hs_concat, first c (by omega) (by omega), hs_add, h2.cols c (by omega) (by omega),
        fix2 _ _ (fun p hp => by by_contra h; exact hp (if_neg h))]
      funext p
      dsimp only
      by_cases hp : p < a + n
      · rw [if_neg (by omega), if_pos hp, if_neg (by omega)]
        unfold stk
        simp only [if_pos (show p < L by omega)]
        ring
      · rw [if_neg hp, add_zero]
        by_cases hp2 : c < p ∧ p < L + M
        · rw [if_pos hp2, if_pos hp2]
        · rw [if_neg hp2, if_neg hp2]
          unfold stk
          rw [h1.frameR p c (by omega)]
          by_cases hpL : p < L
          · rw [if_pos hpL, if_pos hpL]
          · rw [if_neg hpL, if_neg hpL, h1.frameA (p-L) c (by omega)]
  · intro c h3 h4
    rw [hs_concat, first c (by omega) (by omega), hs_add, h2.trail c (by omega) (by omega),
        fix2 _ _ (fun p hp => by by_contra h; exact hp (if_neg h))]
    funext p
    dsimp only
    by_cases hp : p < a + n
    · rw [if_pos hp]
      unfold stk
      simp only [if_pos (show p < L by omega)]
      ring
    · rw [if_neg hp, add_zero]
      unfold stk
      rw [h1.frameR p c (by omega)]

/-! ### The blocks -/

theorem dnBlock_spec (g : DnCfg) (h1 : 0 < g.tb) (h2 : 0 < g.tb2) (L M a b e : Nat) (hab : a ≤ b) (hb : b ≤ L) (s : US K) (β : Nat → K)
    (hz : ZOK (L+M) (stk L s.R s.A) β s.Z a b) :
    ((∀ k, a ≤ k → k < b → 1 - star (s.Z k k) ≠ 0) → ∃ s2, dnBlock g M a b e s = .ok s2) ∧
    ∀ s2, dnBlock g M a b e s = .ok s2 → s2.Z = s.Z ∧
      (∀ p c, ¬ (a ≤ p ∧ p < b ∧ b ≤ c ∧ c < e) → s2.R p c = s.R p c) ∧
      (∀ p c, ¬ (p < M ∧ b ≤ c ∧ c < e) → s2.A p c = s.A p c) ∧
      ∀ c, b ≤ c → c < e → hs (L+M) (stk L s.R s.A) β a (b-a) (fun p => stk L s2.R s.A p c) = fun p => stk L s.R s2.A p c := by
  obtain ⟨W1, hW1⟩ : ∃ W1 : Nat → Nat → K, W1 = fun k c => ∑ p ∈ Finset.range M, star (s.A p k) * s.A p c := ⟨_, rfl⟩
  obtain ⟨W2, hW2⟩ : ∃ W2 : Nat → Nat → K, W2 = fun k c => ∑ l ∈ Finset.Ico a (k+1), star (s.Z l k) * W1 l c := ⟨_, rfl⟩
  unfold dnBlock
  dsimp only
  have hW1' : ∀ l c, ∑ p ∈ Finset.range M, star (s.A p l) * s.A p c = W1 l c := fun l c => by rw [hW1]
  have hW2' : ∀ k c, ∑ l ∈ Finset.Ico a (k+1), star (s.Z l k) * W1 l c = W2 k c := fun k c => by rw [hW2]
  simp only [hW1', hW2']
  obtain ⟨Im, hIm⟩ : ∃ Im : Nat → Nat → K, Im = fun k l => (if k = l then 1 else 0) - star (s.Z (a+l) (a+k)) := ⟨_, rfl⟩
  rw [← hIm]
  constructor
  · intro hd
    have := Tri.lowerM_isSome g.tb g.tb2 h1 h2 g.o g.brm false (b-a) (e-b) Im (fun k c => s.R (a+k) (b+c) + W2 (a+k) (b+c)) (by
      intro i hi
      rw [hIm]
      simp only [dg, Bool.false_eq_true, if_false, if_true]
      exact hd (a+i) (by omega) (by omega))
    obtain ⟨X, hX⟩ := Option.isSome_iff_exists.mp this
    rw [hX]
    exact ⟨_, rfl⟩
  · intro s2 hs2
    cases hX : Tri.lowerM g.tb g.tb2 g.o g.brm false (b-a) (e-b) Im (fun k c => s.R (a+k) (b+c) + W2 (a+k) (b+c)) with
    | none => rw [hX] at hs2; cases hs2
    | some X =>
      rw [hX] at hs2
      obtain rfl := (Except.ok.inj hs2).symm
      have hsol := (Tri.lowerM_sound g.tb g.tb2 h1 h2 g.o g.brm false (b-a) (e-b) Im _ X hX).1
      dsimp only
      refine ⟨rfl, fun p c hpc => if_neg hpc, fun p c hpc => if_neg hpc, ?_⟩
      obtain ⟨R', hR'⟩ : ∃ R' : Nat → Nat → K, R' = fun k c => if a ≤ k ∧ k < b ∧ b ≤ c ∧ c < e then X (k-a) (c-b) else s.R k c := ⟨_, rfl⟩
      have hR1 : ∀ k c, (if a ≤ k ∧ k < b ∧ b ≤ c ∧ c < e then X (k-a) (c-b) else s.R k c) = R' k c := fun k c => by rw [hR']
      simp only [hR1]
      have key : ∀ k c, a ≤ k → k < b → b ≤ c → c < e →
          R' k c - ∑ l ∈ Finset.Ico a (k+1), star (s.Z l k) * (W1 l c + R' l c) = s.R k c := by
        intro k c k1 k2 c1 c2
        have h := hsol (k-a) (c-b) (by omega) (by omega)
        have ea : a + (k-a) = k := by omega
        have eb : b + (c-b) = c := by omega
        dsimp only at h; rw [ea, eb] at h
        have e1 : ∑ r ∈ Finset.range (b-a), lowerMat false Im (k-a) r * X r (c-b) =
            R' k c - ∑ l ∈ Finset.Ico a (k+1), star (s.Z l k) * R' l c := by
          have e2 : ∀ r ∈ Finset.range (b-a), lowerMat false Im (k-a) r * X r (c-b) =
              (if r = k-a then R' k c else 0) - (if r < k+1-a then star (s.Z (a+r) k) * R' (a+r) c else 0) := by
            intro r hr
            rw [Finset.mem_range] at hr
            have hRr : R' (a+r) c = X r (c-b) := by
              rw [hR']; dsimp only; rw [if_pos (by omega), Nat.add_sub_cancel_left]
            unfold lowerMat
            rw [hIm]
            dsimp only
            rw [ea, hRr]
            by_cases hlt : r < k-a
            · rw [if_pos hlt, if_neg (show ¬ k-a = r by omega), if_neg (show ¬ r = k-a by omega), if_pos (by omega)]; ring
            · rw [if_neg hlt]
              by_cases heq : k-a = r
              · rw [if_pos heq, if_pos heq.symm, if_pos (show r < k+1-a by omega)]
                simp only [Bool.false_eq_true, if_false, if_true]
                have hk : k = a + r := by omega
                subst hk
                rw [hRr]; ring
              · rw [if_neg heq, if_neg (Ne.symm heq), if_neg (by omega)]; ring
          rw [Finset.sum_congr rfl e2, Finset.sum_sub_distrib, Finset.sum_ite_eq' (Finset.range (b-a)) (k-a), if_pos (Finset.mem_range.mpr (by omega))]
          congr 1
          rw [Finset.sum_Ico_eq_sum_range, ← Finset.sum_filter]
          refine Finset.sum_congr ?_ fun _ _ => rfl
          ext r
          simp only [Finset.mem_filter, Finset.mem_range]
          omega
        rw [e1] at h
        have e3 : ∑ l ∈ Finset.Ico a (k+1), star (s.Z l k) * (W1 l c + R' l c) = W2 k c + ∑ l ∈ Finset.Ico a (k+1), star (s.Z l k) * R' l c := by
          rw [hW2]
          dsimp only
          rw [← Finset.sum_add_distrib]
          exact Finset.sum_congr rfl fun _ _ => mul_add _ _ _
        rw [e3]
        linear_combination h
      intro c c1 c2
      have hup := updBlock_stk L M a b e hb (⟨R', s.A, s.Z⟩ : US K)
      have hz' : ZOK (L+M) (stk L R' s.A) β s.Z a b := by
        refine hz.congr hab ?_ (fun _ _ _ _ _ => rfl) (fun _ _ _ => rfl)
        intro p j h3 h4 h5 h6
        by_cases hp : p < L
        · rw [stk_low _ _ hp h5, stk_low _ _ hp h5]
        · unfold stk
          rw [if_neg hp, if_neg hp]
      rw [hs_stk_congr (R' := R') (A' := s.A) (β' := β) (b-a) (by omega) (fun _ _ _ _ _ => rfl) (fun _ _ _ => rfl), ← hz'.blkA]
      funext p
      have h5 := congrFun (congrFun hup p) c
      rw [blockLDiv_eq _ _ _ _ _ _ _ _ (by omega), if_pos ⟨c1, c2⟩] at h5
      dsimp only at h5
      rw [← h5]
      unfold updBlock
      dsimp only
      simp only [hW1']
      by_cases hp : p < L
      · by_cases hpc : p ≤ c
        · rw [stk_up _ _ hp hpc, stk_up _ _ hp hpc]
          by_cases hpa : a ≤ p ∧ p < b
          · rw [if_pos ⟨hpa.1, hpa.2, c1, c2⟩, ← key p c hpa.1 hpa.2 c1 c2]
          · rw [if_neg (by omega), hR']
            dsimp only
            rw [if_neg (by omega)]
        · rw [stk_low _ _ hp (by omega), stk_low _ _ hp (by omega)]
      · obtain ⟨q, rfl⟩ : ∃ q, p = L + q := ⟨p - L, by omega⟩
        rw [stk_A, stk_A]
        by_cases hq : q < M
        · rw [if_pos ⟨hq, c1, c2⟩, if_pos ⟨hq, c1, c2⟩]
          congr 1
          refine Finset.sum_congr rfl fun k hk => ?_
          congr 1
          rw [hW2]
          dsimp only
          rw [← Finset.sum_add_distrib]
          exact Finset.sum_congr rfl fun _ _ => mul_add _ _ _
        · rw [if_neg (by omega), if_neg (by omega)]

theorem dnTwo_spec (L M a : Nat) (ha : a + 2 ≤ L) (b0 : K) (s : US K) (β : Nat → K) (hb : β a = b0) :
    (1 - b0 ≠ 0 → ∃ s1, dnTwo M a b0 s = .ok s1) ∧
    ∀ s1, dnTwo M a b0 s = .ok s1 → s1.Z = s.Z ∧
      (∀ p c, ¬ (a ≤ p ∧ p < a+1 ∧ a+1 ≤ c ∧ c < a+2) → s1.R p c = s.R p c) ∧
      (∀ p c, ¬ (p < M ∧ a+1 ≤ c ∧ c < a+2) → s1.A p c = s.A p c) ∧
      ∀ c, a+1 ≤ c → c < a+2 → hs (L+M) (stk L s.R s.A) β a 1 (fun p => stk L s1.R s.A p c) = fun p => stk L s.R s1.A p c := by
  unfold dnTwo
  by_cases h0 : b0 ≠ 0
  · rw [if_pos h0]
    by_cases h1 : 1 - b0 = 0
    · rw [if_pos h1]
      exact ⟨fun h => absurd h1 h, fun s1 h => (by cases h)⟩
    · rw [if_neg h1]
      dsimp only
      refine ⟨fun _ => ⟨_, rfl⟩, fun s1 h => ?_⟩
      obtain rfl := (Except.ok.inj h).symm
      dsimp only
      obtain ⟨v, hv'⟩ : ∃ v, v = ∑ p ∈ Finset.range M, star (s.A p a) * s.A p (a+1) := ⟨_, rfl⟩
      rw [← hv']
      obtain ⟨r, hr⟩ : ∃ r, r = (s.R a (a+1) + b0 * v) / (1 - b0) := ⟨_, rfl⟩
      rw [← hr]
      have hr2 : r * (1 - b0) = s.R a (a+1) + b0 * v := by rw [hr]; field_simp
      refine ⟨rfl, fun p c hpc => setE_ne (by omega), fun p c hpc => if_neg (by omega), ?_⟩
      intro c c1 c2
      obtain rfl : c = a+1 := by omega
      funext p
      rw [hs, hs, Nat.add_zero, hb, H, ip_hv_stk L M a (by omega)]
      have e1 : stk L (setE s.R a (a+1) r) s.A a (a+1) = r := by rw [stk_up _ _ (by omega) (by omega), setE_eq]
      have e2 : ∑ i ∈ Finset.range M, star (s.A i a) * stk L (setE s.R a (a+1) r) s.A (L+i) (a+1) = v := by
        rw [hv']; exact Finset.sum_congr rfl fun i _ => by rw [stk_A]
      rw [e1, e2]
      by_cases hpM : p < L + M
      · by_cases hpL : p < L
        · by_cases hpa : p = a
          · subst hpa
            rw [hv_eq_ul (by omega), ul_stk _ _ hpL, if_pos rfl, stk_up _ _ hpL (by omega), stk_up _ _ hpL (by omega), setE_eq]
            linear_combination hr2
          · rw [hv_stk_row _ _ hpL hpa, zero_mul, sub_zero]
            unfold stk
            rw [if_pos hpL, if_pos hpL, setE_ne (by omega)]
        · obtain ⟨i, rfl⟩ : ∃ i, p = L + i := ⟨p - L, by omega⟩
          rw [hv_eq_ul hpM, ul, if_neg (by omega), if_neg (by omega), stk_A, stk_A, stk_A, if_pos ⟨rfl, by omega⟩]
          ring
      · rw [hv_out (by omega), zero_mul, sub_zero]
        unfold stk
        rw [if_neg (by omega), if_neg (by omega)]
        exact (if_neg (by omega)).symm
  · rw [if_neg h0]
    have h0 : b0 = 0 := not_not.mp h0
    refine ⟨fun _ => ⟨_, rfl⟩, fun s1 h => ?_⟩
    obtain rfl := (Except.ok.inj h).symm
    refine ⟨rfl, fun _ _ _ => rfl, fun _ _ _ => rfl, fun c _ _ => ?_⟩
    funext p
    rw [hs, hs, Nat.add_zero, hb, H, h0]; ring

/-! ### Norms -/

theorem H_lin (M : Nat) (V : Nat → Nat → K) (j : Nat) (b : K) (S : Finset Nat) (z : Nat → K) (u : Nat → Nat → K) :
    H M V j b (fun p => ∑ c ∈ S, z c * u c p) = fun p => ∑ c ∈ S, z c * H M V j b (u c) p := by
  funext p
  simp only [H]
  rw [ip_sum M _ S (fun c p => z c * u c p)]
  simp only [ip_smul_left]
  rw [Finset.mul_sum, Finset.mul_sum, ← Finset.sum_sub_distrib]
  exact Finset.sum_congr rfl fun c _ => by ring

theorem hs_lin (M : Nat) (V : Nat → Nat → K) (β : Nat → K) (a n : Nat) (S : Finset Nat) (z : Nat → K) (u : Nat → Nat → K) :
    hs M V β a n (fun p => ∑ c ∈ S, z c * u c p) = fun p => ∑ c ∈ S, z c * hs M V β a n (u c) p := by
  induction n with
  | zero => rfl
  | succ n ih => rw [hs, ih, H_lin]; rfl

theorem hs_nsq {M : Nat} {V : Nat → Nat → K} {β : Nat → K} {a : Nat} (n : Nat)
    (h : ∀ j, a ≤ j → j < a+n → Valid M V j (β j)) (x : Nat → K) : nsq M (hs M V β a n x) = nsq M x := by
  exact nsq_eq_of_ip (hs_unitary n h x x)

/-- All columns at once. -/
theorem DSpec.full {L M a n e : Nat} {s s' : US K} {β : Nat → K} (h : DSpec L M a n e s s' β) (c : Nat) (hac : a ≤ c) (hce : c < e) :
    hs (L+M) (stk L s'.R s'.A) β a n (fun p => stk L s'.R s.A p c) =
      fun p => if c < a+n then (if c < p ∧ p < L+M then 0 else stk L s.R s.A p c) else stk L s.R s'.A p c := by
  by_cases hc : c < a+n
  · have e1 : n = (c+1-a) + (a+n-(c+1)) := by omega
    conv_lhs => rw [e1, hs_concat, h.cols c hac hc]
    rw [hs_fix _ (fun p h1 h2 => if_pos (by omega))]
    funext p
    rw [if_pos hc]
  · rw [h.trail c (by omega) hce]
    funext p
    rw [if_neg hc]

theorem sum_three (f g : Nat → ℝ) (a e L : Nat) (hae : a ≤ e) (heL : e ≤ L) (h : ∀ k, k < L → ¬ (a ≤ k ∧ k < e) → f k = g k) :
    ∑ k ∈ Finset.range L, f k - ∑ k ∈ Finset.Ico a e, f k = ∑ k ∈ Finset.range L, g k - ∑ k ∈ Finset.Ico a e, g k := by
  have e1 : ∀ f : Nat → ℝ, ∑ k ∈ Finset.range L, f k = ∑ k ∈ Finset.Ico 0 a, f k + ∑ k ∈ Finset.Ico a e, f k + ∑ k ∈ Finset.Ico e L, f k := by
    intro f
    rw [Finset.range_eq_Ico, Finset.sum_Ico_consecutive f (by omega) hae, Finset.sum_Ico_consecutive f (by omega) heL]
  rw [e1 f, e1 g]
  have e2 : ∑ k ∈ Finset.Ico 0 a, f k = ∑ k ∈ Finset.Ico 0 a, g k := Finset.sum_congr rfl fun k hk => by
    rw [Finset.mem_Ico] at hk; exact h k (by omega) (by omega)
  have e3 : ∑ k ∈ Finset.Ico e L, f k = ∑ k ∈ Finset.Ico e L, g k := Finset.sum_congr rfl fun k hk => by
    rw [Finset.mem_Ico] at hk; exact h k (by omega) (by omega)
  rw [e2, e3]; ring

theorem DSpec.norm {L M a n e : Nat} {s s' : US K} {β : Nat → K} (hne : a + n ≤ e) (heL : e ≤ L) (h : DSpec L M a n e s s' β) (z : Nat → K) :
    ∑ k ∈ Finset.Ico a e, RCLike.normSq (∑ c ∈ Finset.Ico k e, s'.R k c * z c) + ∑ p ∈ Finset.range M, RCLike.normSq (∑ c ∈ Finset.Ico a e, s.A p c * z c) =
    ∑ k ∈ Finset.Ico a e, RCLike.normSq (∑ c ∈ Finset.Ico k e, s.R k c * z c) + ∑ p ∈ Finset.range M, RCLike.normSq (∑ c ∈ Finset.Ico (a+n) e, s'.A p c * z c) := by
  have key := hs_nsq n h.valid (fun p => ∑ c ∈ Finset.Ico a e, z c * stk L s'.R s.A p c)
  rw [hs_lin (L+M) _ β a n (Finset.Ico a e) z (fun c p => stk L s'.R s.A p c)] at key
  unfold nsq at key
  rw [Finset.sum_range_add, Finset.sum_range_add] at key
  -- the triangular part
  have tri : ∀ (R A : Nat → Nat → K) k, a ≤ k → k < e → ∑ c ∈ Finset.Ico a e, z c * stk L R A k c = ∑ c ∈ Finset.Ico k e, R k c * z c := by
    intro R A k h1 h2
    rw [← Finset.sum_Ico_consecutive _ h1 (by omega : k ≤ e), Finset.sum_eq_zero, zero_add]
    · refine Finset.sum_congr rfl fun c hc => ?_
      rw [Finset.mem_Ico] at hc
      rw [stk_up _ _ (by omega) hc.1, mul_comm]
    · intro c hc
      rw [Finset.mem_Ico] at hc
      rw [stk_low _ _ (by omega) hc.2, mul_zero]
  have hvR : ∀ k, k < L → ∑ c ∈ Finset.Ico a e, z c * hs (L+M) (stk L s'.R s'.A) β a n (fun p => stk L s'.R s.A p c) k =
      ∑ c ∈ Finset.Ico a e, z c * stk L s.R s.A k c := by
    intro k hk
    refine Finset.sum_congr rfl fun c hc => ?_
    rw [Finset.mem_Ico] at hc
    rw [h.full c hc.1 hc.2]
    dsimp only
    congr 1
    by_cases h1 : c < a + n
    · rw [if_pos h1]
      by_cases h2 : c < k
      · rw [if_pos ⟨h2, by omega⟩, stk_low _ _ hk h2]
      · rw [if_neg (by omega)]
    · rw [if_neg h1]
      unfold stk
      rw [if_pos hk, if_pos hk]
  have hvA : ∀ p, p < M → ∑ c ∈ Finset.Ico a e, z c * hs (L+M) (stk L s'.R s'.A) β a n (fun p => stk L s'.R s.A p c) (L+p) =
      ∑ c ∈ Finset.Ico (a+n) e, s'.A p c * z c := by
    intro p hp
    rw [← Finset.sum_Ico_consecutive _ (by omega : a ≤ a+n) hne, Finset.sum_eq_zero, zero_add]
    · refine Finset.sum_congr rfl fun c hc => ?_
      rw [Finset.mem_Ico] at hc
      rw [h.full c (by omega) hc.2]
      dsimp only
      rw [if_neg (by omega), stk_A, mul_comm]
    · intro c hc
      rw [Finset.mem_Ico] at hc
      rw [h.full c hc.1 (by omega)]
      dsimp only
      rw [if_pos hc.2, if_pos (by omega), mul_zero]
  have k1 : ∑ p ∈ Finset.range M, RCLike.normSq (∑ c ∈ Finset.Ico a e, z c * hs (L+M) (stk L s'.R s'.A) β a n (fun p => stk L s'.R s.A p c) (L+p)) =
      ∑ p ∈ Finset.range M, RCLike.normSq (∑ c ∈ Finset.Ico (a+n) e, s'.A p c * z c) :=
    Finset.sum_congr rfl fun p hp => by rw [hvA p (Finset.mem_range.mp hp)]
  have k2 : ∑ p ∈ Finset.range M, RCLike.normSq (∑ c ∈ Finset.Ico a e, z c * stk L s'.R s.A (L+p) c) =
      ∑ p ∈ Finset.range M, RCLike.normSq (∑ c ∈ Finset.Ico a e, s.A p c * z c) :=
    Finset.sum_congr rfl fun p hp => by
      congr 1
      exact Finset.sum_congr rfl fun c _ => by rw [stk_A, mul_comm]
  rw [k1, k2] at key
  have k3 := sum_three (fun k => RCLike.normSq (∑ c ∈ Finset.Ico a e, z c * stk L s'.R s.A k c))
    (fun k => RCLike.normSq (∑ c ∈ Finset.Ico a e, z c * hs (L+M) (stk L s'.R s'.A) β a n (fun p => stk L s'.R s.A p c) k)) a e L (by omega) heL (by
      intro k hk hk2
      rw [hvR k hk]
      congr 1
      refine Finset.sum_congr rfl fun c hc => ?_
      unfold stk
      rw [h.frameR k c (by omega)])
  have k4 : ∑ k ∈ Finset.Ico a e, RCLike.normSq (∑ c ∈ Finset.Ico a e, z c * stk L s'.R s.A k c) =
      ∑ k ∈ Finset.Ico a e, RCLike.normSq (∑ c ∈ Finset.Ico k e, s'.R k c * z c) :=
    Finset.sum_congr rfl fun k hk => by rw [Finset.mem_Ico] at hk; rw [tri _ _ k hk.1 hk.2]
  have k5 : ∑ k ∈ Finset.Ico a e, RCLike.normSq (∑ c ∈ Finset.Ico a e, z c * hs (L+M) (stk L s'.R s'.A) β a n (fun p => stk L s'.R s.A p c) k) =
      ∑ k ∈ Finset.Ico a e, RCLike.normSq (∑ c ∈ Finset.Ico k e, s.R k c * z c) :=
    Finset.sum_congr rfl fun k hk => by rw [Finset.mem_Ico] at hk; rw [hvR k (by omega), tri _ _ k hk.1 hk.2]
  rw [k4, k5] at k3
  linarith

/-! ### Positive definiteness -/

/-- `‖A z‖ < ‖R z‖` for every `z ≠ 0` with elements in `[a,a+n)`, where of `R` the rows and columns `[a,a+n)` are used. -/
def PD (M a n : Nat) (s : US K) : Prop :=
  ∀ z : Nat → K, (∃ i, a ≤ i ∧ i < a+n ∧ z i ≠ 0) →
    ∑ p ∈ Finset.range M, RCLike.normSq (∑ c ∈ Finset.Ico a (a+n), s.A p c * z c) <
    ∑ k ∈ Finset.Ico a (a+n), RCLike.normSq (∑ c ∈ Finset.Ico k (a+n), s.R k c * z c)

theorem PD.left {M a n m : Nat} {s : US K} (h : PD M a (n+m) s) : PD M a n s := by
  intro z ⟨i, i1, i2, i3⟩
  have := h (fun c => if c < a+n then z c else 0) ⟨i, i1, by omega, by rw [if_pos i2]; exact i3⟩
  have e1 : ∀ (f : Nat → K) k, a ≤ k → k ≤ a+n → ∑ c ∈ Finset.Ico k (a+(n+m)), f c * (if c < a+n then z c else 0) = ∑ c ∈ Finset.Ico k (a+n), f c * z c := by
    intro f k h1 h2
    rw [← Finset.sum_Ico_consecutive _ h2 (by omega : a+n ≤ a+(n+m))]
    rw [Finset.sum_eq_zero (s := Finset.Ico (a+n) (a+(n+m))), add_zero]
    · exact Finset.sum_congr rfl fun c hc => by rw [Finset.mem_Ico] at hc; rw [if_pos hc.2]
    · intro c hc; rw [Finset.mem_Ico] at hc; rw [if_neg (by omega), mul_zero]
  rw [← Finset.sum_Ico_consecutive _ (by omega : a ≤ a+n) (by omega : a+n ≤ a+(n+m))] at this
  rw [Finset.sum_eq_zero (s := Finset.Ico (a+n) (a+(n+m))), add_zero] at this
  · have e2 : ∑ p ∈ Finset.range M, RCLike.normSq (∑ c ∈ Finset.Ico a (a+(n+m)), s.A p c * (if c < a+n then z c else 0)) =
        ∑ p ∈ Finset.range M, RCLike.normSq (∑ c ∈ Finset.Ico a (a+n), s.A p c * z c) :=
      Finset.sum_congr rfl fun p _ => by rw [e1 (s.A p) a le_rfl (by omega)]
    have e3 : ∑ k ∈ Finset.Ico a (a+n), RCLike.normSq (∑ c ∈ Finset.Ico k (a+(n+m)), s.R k c * (if c < a+n then z c else 0)) =
        ∑ k ∈ Finset.Ico a (a+n), RCLike.normSq (∑ c ∈ Finset.Ico k (a+n), s.R k c * z c) :=
      Finset.sum_congr rfl fun k hk => by rw [Finset.mem_Ico] at hk; rw [e1 (s.R k) k hk.1 (by omega)]
    rwa [e2, e3] at this
  · intro k hk
    rw [Finset.mem_Ico] at hk
    rw [Finset.sum_eq_zero, map_zero]
    intro c hc
    rw [Finset.mem_Ico] at hc
    rw [if_neg (by omega), mul_zero]

theorem PD.one {M a : Nat} {s : US K} (h : PD M a 1 s) : nsq M (fun i => s.A i a) < RCLike.normSq (s.R a a) := by
  have := h (fun _ => 1) ⟨a, le_rfl, by omega, one_ne_zero⟩
  simpa [nsq, Nat.Ico_succ_singleton] using this

theorem exists_upper (R : Nat → Nat → K) (w : Nat → K) (n : Nat) : ∀ a, (∀ j, a ≤ j → j < a+n → R j j ≠ 0) →
    ∃ z : Nat → K, ∀ k, a ≤ k → k < a+n → ∑ c ∈ Finset.Ico k (a+n), R k c * z c = w k := by
  induction n with
  | zero => intro a _; exact ⟨fun _ => 0, fun k h1 h2 => by omega⟩
  | succ n ih =>
    intro a hd
    obtain ⟨z, hz⟩ := ih (a+1) (fun j h1 h2 => hd j (by omega) (by omega))
    have e : a + (n+1) = a+1+n := by omega
    refine ⟨fun c => if c = a then (w a - ∑ c ∈ Finset.Ico (a+1) (a+1+n), R a c * z c) / R a a else z c, fun k h1 h2 => ?_⟩
    rw [e]
    have e2 : ∀ (k : Nat) (f : Nat → K), a < k → ∑ c ∈ Finset.Ico k (a+1+n), f c * (if c = a then (w a - ∑ c ∈ Finset.Ico (a+1) (a+1+n), R a c * z c) / R a a else z c) =
        ∑ c ∈ Finset.Ico k (a+1+n), f c * z c := by
      intro k f hk
      refine Finset.sum_congr rfl fun c hc => ?_
      rw [Finset.mem_Ico] at hc
      rw [if_neg (by omega)]
    by_cases hk : k = a
    · subst hk
      rw [Finset.sum_eq_sum_Ico_succ_bot (by omega), e2 (k+1) (R k) (by omega)]
      dsimp only
      rw [if_pos rfl]
      have := hd k le_rfl (by omega)
      field_simp
      ring
    · rw [e2 k (R k) (by omega)]
      exact hz k (by omega) (by omega)

/-- What is left to do stays positive definite. -/
theorem PD.step {L M a n m : Nat} {s s' : US K} {β : Nat → K} (hL : a + n + m ≤ L) (h : DSpec L M a n (a+n+m) s s' β)
    (hd : ∀ j, a ≤ j → j < a+n → s'.R j j ≠ 0) (hpd : PD M a (n+m) s) : PD M (a+n) m s' := by
  intro z2 ⟨i, i1, i2, i3⟩
  obtain ⟨z1, hz1⟩ := exists_upper s'.R (fun k => -∑ c ∈ Finset.Ico (a+n) (a+n+m), s'.R k c * z2 c) n a hd
  obtain ⟨z, hz⟩ : ∃ z : Nat → K, z = fun c => if c < a+n then z1 c else z2 c := ⟨_, rfl⟩
  have hlt := hpd z ⟨i, by omega, by omega, by rw [hz]; dsimp only; rw [if_neg (by omega)]; exact i3⟩
  have hn := h.norm (by omega) hL z
  rw [← Nat.add_assoc] at hlt
  have hi : ∀ (f : Nat → K) k, a+n ≤ k → ∑ c ∈ Finset.Ico k (a+n+m), f c * z c = ∑ c ∈ Finset.Ico k (a+n+m), f c * z2 c := by
    intro f k hk
    refine Finset.sum_congr rfl fun c hc => ?_
    rw [Finset.mem_Ico] at hc
    rw [hz]; dsimp only; rw [if_neg (by omega)]
  have h0 : ∀ k, a ≤ k → k < a+n → ∑ c ∈ Finset.Ico k (a+n+m), s'.R k c * z c = 0 := by
    intro k k1 k2
    rw [← Finset.sum_Ico_consecutive _ (by omega : k ≤ a+n) (by omega : a+n ≤ a+n+m), hi (s'.R k) (a+n) le_rfl]
    have : ∑ c ∈ Finset.Ico k (a+n), s'.R k c * z c = ∑ c ∈ Finset.Ico k (a+n), s'.R k c * z1 c := by
      refine Finset.sum_congr rfl fun c hc => ?_
      rw [Finset.mem_Ico] at hc
      rw [hz]; dsimp only; rw [if_pos (by omega)]
    rw [this, hz1 k k1 k2]
    ring
  rw [← Finset.sum_Ico_consecutive (fun k => RCLike.normSq (∑ c ∈ Finset.Ico k (a+n+m), s'.R k c * z c)) (by omega : a ≤ a+n) (by omega : a+n ≤ a+n+m)] at hn
  rw [Finset.sum_eq_zero (s := Finset.Ico a (a+n)), zero_add] at hn
  · have e1 : ∑ k ∈ Finset.Ico (a+n) (a+n+m), RCLike.normSq (∑ c ∈ Finset.Ico k (a+n+m), s'.R k c * z c) =
        ∑ k ∈ Finset.Ico (a+n) (a+n+m), RCLike.normSq (∑ c ∈ Finset.Ico k (a+n+m), s'.R k c * z2 c) :=
      Finset.sum_congr rfl fun k hk => by rw [Finset.mem_Ico] at hk; rw [hi _ k hk.1]
    have e2 : ∑ p ∈ Finset.range M, RCLike.normSq (∑ c ∈ Finset.Ico (a+n) (a+n+m), s'.A p c * z c) =
        ∑ p ∈ Finset.range M, RCLike.normSq (∑ c ∈ Finset.Ico (a+n) (a+n+m), s'.A p c * z2 c) :=
      Finset.sum_congr rfl fun p _ => by rw [hi _ _ le_rfl]
    rw [e1, e2] at hn
    linarith
  · intro k hk
    rw [Finset.mem_Ico] at hk
    rw [h0 k hk.1 hk.2, map_zero]

/-! ### The recursive function -/

theorem bind_ok {α β : Type} {x : Except DnErr α} {f : α → Except DnErr β} {r : β} (h : x.bind f = .ok r) :
    ∃ y, x = .ok y ∧ f y = .ok r := by
  cases x with
  | error e => cases h
  | ok y => exact ⟨y, rfl, h⟩

theorem DSpec.im {L M a n e : Nat} {s s' : US K} {β : Nat → K} (h : DSpec L M a n e s s' β) {j : Nat} (hj : ¬ (a ≤ j ∧ j < a+n))
    (h0 : RCLike.im (s.R j j) = 0) : RCLike.im (s'.R j j) = 0 := by
  rw [h.frameR j j (by omega)]; exact h0

/-- Only the diagonal of `Z` and the other fields count. -/
theorem DSpec.ofEq {L M a n e : Nat} {s s' t' : US K} {β : Nat → K} (h : DSpec L M a n e s s' β) (hR : t'.R = s'.R) (hA : t'.A = s'.A) :
    DSpec L M a n e s t' β where
  valid := by rw [hR, hA]; exact h.valid
  frameR := by rw [hR]; exact h.frameR
  frameA := by rw [hA]; exact h.frameA
  cols := by rw [hR, hA]; exact h.cols
  trail := by rw [hR, hA]; exact h.trail

theorem DSpec.ofEq' {L M a n e : Nat} {s t s' : US K} {β : Nat → K} (h : DSpec L M a n e s s' β) (hR : t.R = s.R) (hA : t.A = s.A) :
    DSpec L M a n e t s' β where
  valid := h.valid
  frameR := by rw [hR]; exact h.frameR
  frameA := by rw [hA]; exact h.frameA
  cols := by rw [hR, hA]; exact h.cols
  trail := by rw [hR, hA]; exact h.trail

theorem PD.ofEq {M a n : Nat} {s t : US K} (h : PD M a n s) (hR : t.R = s.R) (hA : t.A = s.A) : PD M a n t := by
  intro z hz
  rw [hR, hA]
  exact h z hz

/-- What one call of the recursive function guarantees. -/
structure RecDn (L M a n : Nat) (mz : Bool) (s s' : US K) : Prop where
  spec : DSpec L M a n (a+n) s s' (fun j => star (s'.Z j j))
  zok : mz = true → ZOK (L+M) (stk L s'.R s'.A) (fun j => star (s'.Z j j)) s'.Z a (a+n)
  frameZ : ∀ k l, ¬ (a ≤ k ∧ k < a+n ∧ a ≤ l ∧ l < a+n) → s'.Z k l = s.Z k l
  real : ∀ j, a ≤ j → j < a+n → RCLike.im (s'.R j j) = 0
  pos : PD M a n s → ∀ j, a ≤ j → j < a+n → s'.R j j ≠ 0 ∧ 1 - star (s'.Z j j) ≠ 0

theorem recDn_two (g : DnCfg) (L M a : Nat) (mz : Bool) (s : US K) (haL : a + 2 ≤ L) (hr : ∀ j, a ≤ j → j < a+2 → RCLike.im (s.R j j) = 0) :
    (PD M a 2 s → ∃ s', recDn g M a 2 mz s = .ok s') ∧ ∀ s', recDn g M a 2 mz s = .ok s' → RecDn L M a 2 mz s s' := by
  have hrec : recDn g M a 2 mz s = (dnCol M a s).bind fun r0 =>
      (dnTwo M a r0.2 ⟨r0.1.R, r0.1.A, setE r0.1.Z a a (star r0.2)⟩).bind fun s1 =>
      (dnCol M (a+1) s1).bind fun r1 =>
      let s2 : US K := ⟨r1.1.R, r1.1.A, setE r1.1.Z (a+1) (a+1) (star r1.2)⟩
      .ok (if mz then ⟨s2.R, s2.A, setE s2.Z a (a+1) (-star (r0.2 * r1.2) * ∑ p ∈ Finset.range M, star (s2.A p a) * s2.A p (a+1))⟩ else s2) := by
    unfold recDn
    rfl
  rw [hrec]
  obtain ⟨c0e, c0⟩ := dnCol_spec L M a (by omega) s (hr a le_rfl (by omega))
  -- after the first column
  have mid : ∀ r0 b0, dnCol M a s = .ok (r0, b0) → ∀ s1, dnTwo M a b0 ⟨r0.R, r0.A, setE r0.Z a a (star b0)⟩ = .ok s1 →
      (∀ β : Nat → K, β a = b0 → DSpec L M a 1 (a+2) s s1 β) ∧ s1.Z = setE s.Z a a (star b0) ∧ RCLike.im (s1.R a a) = 0 ∧
      RCLike.im (s1.R (a+1) (a+1)) = 0 ∧ (PD M a 2 s → s1.R a a ≠ 0 ∧ 1 - b0 ≠ 0 ∧ PD M (a+1) 1 s1) := by
    intro r0 b0 h0 s1 h1
    obtain ⟨d1, d2, d3, d4⟩ := c0 r0 b0 h0
    have ext : ∀ β : Nat → K, β a = b0 → DSpec L M a 1 (a+2) s s1 β := by
      intro β hb
      obtain ⟨-, t⟩ := dnTwo_spec L M a haL b0 ⟨r0.R, r0.A, setE r0.Z a a (star b0)⟩ β hb
      obtain ⟨-, t2, t3, t4⟩ := t s1 h1
      exact DSpec.extend (s1 := r0) (by omega) (by omega) (d1 β hb) t2 t3 t4
    obtain ⟨-, t⟩ := dnTwo_spec L M a haL b0 ⟨r0.R, r0.A, setE r0.Z a a (star b0)⟩ (fun _ => b0) rfl
    obtain ⟨t1, t2, -, -⟩ := t s1 h1
    have hRa : s1.R a a = r0.R a a := t2 a a (by omega)
    refine ⟨ext, by rw [t1, ← d2], by rw [hRa]; exact d3, (ext (fun _ => b0) rfl).im (by omega) (hr (a+1) (by omega) (by omega)), fun hpd => ?_⟩
    have hpos := d4 (hpd.left (n := 1) (m := 1)).one
    refine ⟨by rw [hRa]; exact hpos.1, hpos.2, ?_⟩
    refine PD.step (L := L) (n := 1) (m := 1) (by omega) (ext (fun _ => b0) rfl) (fun j h1 h2 => ?_) hpd
    obtain rfl : j = a := by omega
    rw [hRa]; exact hpos.1
  constructor
  · intro hpd
    cases h0 : dnCol M a s with
    | error er => exact absurd (hpd.left (n := 1) (m := 1)).one (not_lt.mpr (c0e er h0).le)
    | ok r0 =>
      obtain ⟨r0, b0⟩ := r0
      simp only [Except.bind]
      have hpos := (c0 r0 b0 h0).2.2.2 (hpd.left (n := 1) (m := 1)).one
      obtain ⟨s1, h1⟩ := (dnTwo_spec L M a haL b0 ⟨r0.R, r0.A, setE r0.Z a a (star b0)⟩ (fun _ => b0) rfl).1 hpos.2
      rw [h1]
      obtain ⟨-, -, -, m4, m5⟩ := mid r0 b0 h0 s1 h1
      cases h2 : dnCol M (a+1) s1 with
      | error er => exact absurd (m5 hpd).2.2.one (not_lt.mpr ((dnCol_spec L M (a+1) (by omega) s1 m4).1 er h2).le)
      | ok r1 => simp only; rw [h2]; exact ⟨_, rfl⟩
  · intro s' hs'
    obtain ⟨⟨r0, b0⟩, h0, hs'⟩ := bind_ok hs'
    obtain ⟨s1, h1, hs'⟩ := bind_ok hs'
    obtain ⟨⟨r1, b1⟩, h2, hs'⟩ := bind_ok hs'
    have hs' := (Except.ok.inj hs').symm
    dsimp only at h1 hs'
    obtain ⟨m1, m2, m3, m4, m5⟩ := mid r0 b0 h0 s1 h1
    obtain ⟨n1, n2, n3, n4⟩ := (dnCol_spec L M (a+1) (by omega) s1 m4).2 r1 b1 h2
    have hR : s'.R = r1.R := by rw [hs']; split <;> rfl
    have hA : s'.A = r1.A := by rw [hs']; split <;> rfl
    have z0 : s'.Z a a = star b0 := by
      rw [hs']; split <;> dsimp only
      · rw [setE_ne (by omega), setE_ne (by omega), n2, m2, setE_eq]
      · rw [setE_ne (by omega), n2, m2, setE_eq]
    have z1 : s'.Z (a+1) (a+1) = star b1 := by
      rw [hs']; split <;> dsimp only
      · rw [setE_ne (by omega), setE_eq]
      · rw [setE_eq]
    have hRa : s'.R a a = s1.R a a := by rw [hR]; exact (n1 (fun _ => b1) rfl).frameR a a (by omega)
    refine ⟨?_, ?_, ?_, ?_, ?_⟩
    · exact ((m1 (fun j => star (s'.Z j j)) (by rw [z0, star_star])).comp (n := 1) (m := 1) (by omega) (by omega)
        (n1 _ (by rw [z1, star_star]))).ofEq hR hA
    · intro hmz
      refine ZOK.two (by omega) (by simp) (by simp) ?_
      simp only [star_star, z0, z1]
      rw [stk_low _ _ (show a+1 < L by omega) (show a < a+1 by omega), star_zero, add_zero,
        sum_stk L M (a+2) (by omega) _ (fun p h1 h2 => by rw [stk_low _ _ h2 (show a < p by omega)]; simp)]
      simp only [stk_A]
      rw [hs', if_pos hmz]
      simp only [setE_eq]
      rw [star_mul']
      ring
    · intro k l hkl
      rw [hs']; split <;> dsimp only
      · rw [setE_ne (by omega), setE_ne (by omega), n2, m2, setE_ne (by omega)]
      · rw [setE_ne (by omega), n2, m2, setE_ne (by omega)]
    · intro j h3 h4
      rcases (show j = a ∨ j = a+1 by omega) with rfl | rfl
      · rw [hRa]; exact m3
      · rw [hR]; exact n3
    · intro hpd j h3 h4
      obtain ⟨m6, m7, m8⟩ := m5 hpd
      rcases (show j = a ∨ j = a+1 by omega) with rfl | rfl
      · rw [hRa, z0, star_star]; exact ⟨m6, m7⟩
      · rw [hR, z1, star_star]; exact n4 m8.one

theorem recDn_spec (g : DnCfg) (g1 : 0 < g.tb) (g2 : 0 < g.tb2) (L M n : Nat) : ∀ (a : Nat) (mz : Bool) (s : US K), a + n ≤ L →
    (∀ j, a ≤ j → j < a+n → RCLike.im (s.R j j) = 0) →
    (PD M a n s → ∃ s', recDn g M a n mz s = .ok s') ∧ ∀ s', recDn g M a n mz s = .ok s' → RecDn L M a n mz s s' := by
  induction n using Nat.strong_induction_on with
  | _ N ih =>
    intro a mz s haL hr
    by_cases h2 : N = 2
    · subst h2; exact recDn_two g L M a mz s haL hr
    unfold recDn
    by_cases h0 : N = 0
    · subst h0
      rw [dif_pos rfl]
      refine ⟨fun _ => ⟨_, rfl⟩, fun s' h => ?_⟩
      obtain rfl := Except.ok.inj h
      refine ⟨DSpec.zero _ _ _ _ _ _, fun _ x => ?_, fun _ _ _ => rfl, fun j _ _ => by omega, fun _ j _ _ => by omega⟩
      funext i
      simp [blk, hsA]
    rw [dif_neg h0]
    by_cases h1 : N = 1
    · subst h1
      rw [dif_pos rfl]
      obtain ⟨c0e, c0⟩ := dnCol_spec L M a (by omega) s (hr a le_rfl (by omega))
      constructor
      · intro hpd
        cases h0 : dnCol M a s with
        | error er => exact absurd hpd.one (not_lt.mpr (c0e er h0).le)
        | ok r0 => exact ⟨_, rfl⟩
      · intro s' h
        obtain ⟨⟨r, b⟩, e1, h⟩ := bind_ok h
        have hs' := (Except.ok.inj h).symm
        dsimp only at hs'
        obtain ⟨d1, d2, d3, d4⟩ := c0 r b e1
        have hR : s'.R = r.R := by rw [hs']
        have hA : s'.A = r.A := by rw [hs']
        have hZ : s'.Z a a = star b := by rw [hs']; exact setE_eq
        refine ⟨(d1 _ (by rw [hZ, star_star])).ofEq hR hA, fun _ => ZOK.one _ _ _ _ _ (by simp only [star_star]), fun k l hkl => ?_, fun j h1 h2 => ?_, fun hpd j h1 h2 => ?_⟩
        · rw [hs']; dsimp only; rw [setE_ne (by omega), d2]
        · obtain rfl : j = a := by omega
          rw [hR]; exact d3
        · obtain rfl : j = a := by omega
          rw [hR, hZ, star_star]; exact d4 hpd.one
    rw [dif_neg h1, dif_neg h2]
    dsimp only
    obtain ⟨j1, hj1⟩ : ∃ j1, j1 = N/2 := ⟨_, rfl⟩
    rw [← hj1]
    obtain ⟨n2, hn2⟩ : ∃ n2, n2 = N - j1 := ⟨_, rfl⟩
    rw [← hn2]
    obtain rfl : N = j1 + n2 := by omega
    rw [← Nat.add_assoc]
    obtain ⟨i1, i2⟩ := ih j1 (by omega) a true s (by omega) (fun j h3 h4 => hr j h3 (by omega))
    -- after the block step
    have mid : ∀ s1, RecDn L M a j1 true s s1 → ∀ s2, dnBlock g M a (a+j1) (a+j1+n2) s1 = .ok s2 →
        DSpec L M a j1 (a+j1+n2) s s2 (fun j => star (s1.Z j j)) ∧ s2.Z = s1.Z ∧ (∀ j, a ≤ j → j < a+j1 → s2.R j j = s1.R j j) ∧
        (∀ j, a+j1 ≤ j → j < a+j1+n2 → RCLike.im (s2.R j j) = 0) ∧ (PD M a (j1+n2) s → PD M (a+j1) n2 s2) := by
      intro s1 h s2 hb
      obtain ⟨b1, b2, b3, b4⟩ := (dnBlock_spec g g1 g2 L M a (a+j1) (a+j1+n2) (by omega) (by omega) s1 _ (h.zok rfl)).2 s2 hb
      rw [Nat.add_sub_cancel_left] at b4
      have hd : DSpec L M a j1 (a+j1+n2) s s2 (fun j => star (s1.Z j j)) := h.spec.extend (by omega) (by omega) b2 b3 b4
      refine ⟨hd, b1, fun j h3 h4 => b2 j j (by omega), fun j h3 h4 => hd.im (by omega) (hr j (by omega) (by omega)), fun hpd => ?_⟩
      refine PD.step (by omega) hd (fun j h3 h4 => ?_) hpd
      rw [b2 j j (by omega)]
      exact (h.pos hpd.left j h3 h4).1
    constructor
    · intro hpd
      obtain ⟨s1, e1⟩ := i1 hpd.left
      have q1 := i2 s1 e1
      obtain ⟨s2, e2⟩ := (dnBlock_spec g g1 g2 L M a (a+j1) (a+j1+n2) (by omega) (by omega) s1 _ (q1.zok rfl)).1
        (fun k h3 h4 => (q1.pos hpd.left k h3 h4).2)
      obtain ⟨-, -, -, m4, m5⟩ := mid s1 q1 s2 e2
      obtain ⟨s3, e3⟩ := (ih n2 (by omega) (a+j1) mz s2 (by omega) m4).1 (m5 hpd)
      rw [e1]
      simp only [Except.bind]
      rw [e2]
      simp only
      rw [e3]
      exact ⟨_, rfl⟩
    · intro s' hs'
      obtain ⟨s1, e1, hs'⟩ := bind_ok hs'
      obtain ⟨s2, e2, hs'⟩ := bind_ok hs'
      obtain ⟨s3, e3, hs'⟩ := bind_ok hs'
      have hs' := (Except.ok.inj hs').symm
      have q1 := i2 s1 e1
      obtain ⟨m1, m2, m3, m4, m5⟩ := mid s1 q1 s2 e2
      have q3 := (ih n2 (by omega) (a+j1) mz s2 (by omega) m4).2 s3 e3
      have hR : s'.R = s3.R := by rw [hs']; split <;> rfl
      have hA : s'.A = s3.A := by rw [hs']; split <;> rfl
      have hzd : ∀ j, s'.Z j j = s3.Z j j := by
        intro j
        rw [hs']; split
        · dsimp only
          rw [updZ3_stk L M a (a+j1) (a+j1+n2) (by omega)]
          exact z3_out _ _ _ _ _ _ _ _ (by omega)
        · rfl
      have hZd : ∀ j, a ≤ j → j < a+j1 → star (s1.Z j j) = star (s3.Z j j) := fun j _ _ => by rw [q3.frameZ j j (by omega), m2]
      have d1 : DSpec L M a (j1+n2) (a+j1+n2) s s3 (fun j => star (s3.Z j j)) :=
        (m1.congr (by omega) hZd).comp (by omega) (by omega) q3.spec
      refine ⟨?_, ?_, ?_, ?_, ?_⟩
      · simp only [hzd]
        rw [← Nat.add_assoc]
        exact d1.ofEq hR hA
      · intro hmz
        subst hmz
        simp only [if_true] at hs'
        simp only [hzd]
        rw [hR, hA, ← Nat.add_assoc]
        have hZ : s'.Z = z3 (L+M) a (a+j1) (a+j1+n2) (stk L s3.R s3.A) s3.Z := by
          rw [hs']; exact updZ3_stk L M a (a+j1) (a+j1+n2) (by omega) s3
        rw [hZ]
        refine ZOK.z3 (by omega) (by omega) (by omega) ?_ (q3.zok rfl)
        refine (q1.zok rfl).congr (by omega) ?_ (fun k l h3 h4 h5 => by rw [q3.frameZ k l (by omega), m2]) hZd
        intro p j h3 h4 h5 h6
        by_cases hp : p < L
        · rw [stk_low _ _ hp h5, stk_low _ _ hp h5]
        · obtain ⟨q, rfl⟩ : ∃ q, p = L + q := ⟨p - L, by omega⟩
          rw [stk_A, stk_A, q3.spec.frameA q j (by omega)]
          exact ((dnBlock_spec g g1 g2 L M a (a+j1) (a+j1+n2) (by omega) (by omega) s1 _ (q1.zok rfl)).2 s2 e2).2.2.1 q j (by omega) |>.symm
      · intro k l hkl
        have : s'.Z k l = s3.Z k l := by
          rw [hs']; split
          · dsimp only
            rw [updZ3_stk L M a (a+j1) (a+j1+n2) (by omega)]
            exact z3_out _ _ _ _ _ _ _ _ (by omega)
          · rfl
        rw [this, q3.frameZ k l (by omega), m2, q1.frameZ k l (by omega)]
      · intro j h3 h4
        rw [hR]
        by_cases hj : j < a+j1
        · rw [q3.spec.frameR j j (by omega), m3 j h3 hj]; exact q1.real j h3 hj
        · exact q3.real j (by omega) (by omega)
      · intro hpd j h3 h4
        rw [hR, hzd]
        by_cases hj : j < a+j1
        · rw [q3.spec.frameR j j (by omega), m3 j h3 hj, q3.frameZ j j (by omega), m2]
          exact q1.pos hpd.left j h3 hj
        · exact q3.pos (m5 hpd) j (by omega) (by omega)

/-! ### The blocked loop -/

theorem blockDn_spec (g : DnCfg) (g1 : 0 < g.tb) (g2 : 0 < g.tb2) (nb M N : Nat) (hnb : 0 < nb) (n : Nat) :
    ∀ (j1 : Nat) (s : US K), N - j1 ≤ n → j1 ≤ N → (∀ j, j1 ≤ j → j < N → RCLike.im (s.R j j) = 0) →
      (PD M j1 (N-j1) s → ∃ s', blockDn g nb M N j1 s = .ok s') ∧
      ∀ s', blockDn g nb M N j1 s = .ok s' → (∃ β, DSpec N M j1 (N-j1) N s s' β) ∧ (∀ j, j1 ≤ j → j < N → RCLike.im (s'.R j j) = 0) ∧
        (PD M j1 (N-j1) s → ∀ j, j1 ≤ j → j < N → s'.R j j ≠ 0) := by
  induction n with
  | zero =>
    intro j1 s hn hj hr
    obtain rfl : j1 = N := by omega
    unfold blockDn
    rw [dif_neg (by omega)]
    refine ⟨fun _ => ⟨_, rfl⟩, fun s' h => ?_⟩
    obtain rfl := Except.ok.inj h
    rw [Nat.sub_self]
    exact ⟨⟨fun _ => 0, DSpec.zero _ _ _ _ _ _⟩, hr, fun _ j _ _ => by omega⟩
  | succ n ih =>
    intro j1 s hn hj hr
    unfold blockDn
    by_cases hjN : j1 < N
    · rw [dif_pos ⟨hjN, hnb⟩]
      dsimp only
      obtain ⟨k, hk⟩ : ∃ k, k = min N (j1+nb) - j1 := ⟨_, rfl⟩
      obtain ⟨j2, hj2⟩ : ∃ j2, j2 = min N (j1+nb) := ⟨_, rfl⟩
      rw [← hk, ← hj2]
      obtain rfl : j2 = j1 + k := by omega
      obtain ⟨m, hm⟩ : ∃ m, N - j1 = k + m := ⟨N - (j1+k), by omega⟩
      have hm2 : N - (j1+k) = m := by omega
      have hN : N = j1 + k + m := by omega
      obtain ⟨i1, i2⟩ := recDn_spec g g1 g2 N M k j1 (decide (j1+k < N)) s (by omega) (fun j h3 h4 => hr j h3 (by omega))
      have mid : ∀ s1, RecDn N M j1 k (decide (j1+k < N)) s s1 → ∀ s2, (if j1+k < N then dnBlock g M j1 (j1+k) N s1 else .ok s1) = .ok s2 →
          DSpec N M j1 k N s s2 (fun j => star (s1.Z j j)) ∧ (∀ j, j1 ≤ j → j < j1+k → s2.R j j = s1.R j j) ∧
          (∀ j, j1+k ≤ j → j < N → RCLike.im (s2.R j j) = 0) ∧ (PD M j1 (k+m) s → PD M (j1+k) m s2) := by
        intro s1 h s2 hb
        have hd : DSpec N M j1 k N s s2 (fun j => star (s1.Z j j)) ∧ ∀ j, j1 ≤ j → j < j1+k → s2.R j j = s1.R j j := by
          by_cases hlt : j1+k < N
          · rw [if_pos hlt] at hb
            obtain ⟨b1, b2, b3, b4⟩ := (dnBlock_spec g g1 g2 N M j1 (j1+k) N (by omega) (by omega) s1 _ (h.zok (by simpa using hlt))).2 s2 hb
            rw [Nat.add_sub_cancel_left] at b4
            exact ⟨h.spec.extend (by omega) (by omega) b2 b3 b4, fun j h3 h4 => b2 j j (by omega)⟩
          · rw [if_neg hlt] at hb
            obtain rfl := Except.ok.inj hb
            have := h.spec
            rw [show j1+k = N by omega] at this
            exact ⟨this, fun _ _ _ => rfl⟩
        refine ⟨hd.1, hd.2, fun j h3 h4 => hd.1.im (by omega) (hr j (by omega) h4), fun hpd => ?_⟩
        refine PD.step (L := N) (n := k) (m := m) (s := s) (by omega) (by rw [← hN]; exact hd.1) (fun j h3 h4 => ?_) hpd
        rw [hd.2 j h3 h4]
        exact (h.pos hpd.left j h3 h4).1
      rw [hm]
      constructor
      · intro hpd
        obtain ⟨s1, e1⟩ := i1 hpd.left
        have q1 := i2 s1 e1
        obtain ⟨s2, e2⟩ : ∃ s2, (if j1+k < N then dnBlock g M j1 (j1+k) N s1 else .ok s1) = .ok s2 := by
          by_cases hlt : j1+k < N
          · rw [if_pos hlt]
            exact (dnBlock_spec g g1 g2 N M j1 (j1+k) N (by omega) (by omega) s1 _ (q1.zok (by simpa using hlt))).1
              (fun i h3 h4 => (q1.pos hpd.left i h3 h4).2)
          · rw [if_neg hlt]; exact ⟨_, rfl⟩
        obtain ⟨-, -, m3, m4⟩ := mid s1 q1 s2 e2
        obtain ⟨s3, e3⟩ := (ih (j1+k) s2 (by omega) (by omega) m3).1 (by rw [hm2]; exact m4 hpd)
        rw [e1]
        simp only [Except.bind]
        rw [e2]
        simp only
        exact ⟨s3, e3⟩
      · intro s' hs'
        obtain ⟨s1, e1, hs'⟩ := bind_ok hs'
        obtain ⟨s2, e2, hs'⟩ := bind_ok hs'
        have q1 := i2 s1 e1
        obtain ⟨m1, m2, m3, m4⟩ := mid s1 q1 s2 e2
        obtain ⟨⟨β, p1⟩, p2, p3⟩ := (ih (j1+k) s2 (by omega) (by omega) m3).2 s' hs'
        rw [hm2] at p1 p3
        refine ⟨⟨fun j => if j < j1+k then star (s1.Z j j) else β j, ?_⟩, ?_, ?_⟩
        · exact (m1.congr (by omega) (fun j h3 h4 => (if_pos h4).symm)).comp (by omega) (by omega)
            (p1.congr (by omega) (fun j h3 h4 => (if_neg (by omega)).symm))
        · intro j h3 h4
          by_cases hj : j < j1+k
          · rw [p1.frameR j j (by omega), m2 j h3 hj]; exact q1.real j h3 hj
          · exact p2 j (by omega) h4
        · intro hpd j h3 h4
          by_cases hj : j < j1+k
          · rw [p1.frameR j j (by omega), m2 j h3 hj]; exact (q1.pos hpd.left j h3 hj).1
          · exact p3 (m4 hpd) j (by omega) h4
    · obtain rfl : j1 = N := by omega
      rw [dif_neg (by omega)]
      refine ⟨fun _ => ⟨_, rfl⟩, fun s' h => ?_⟩
      obtain rfl := Except.ok.inj h
      rw [Nat.sub_self]
      exact ⟨⟨fun _ => 0, DSpec.zero _ _ _ _ _ _⟩, hr, fun _ j _ _ => by omega⟩

theorem downdate_spec (g : DnCfg) (g1 : 0 < g.tb) (g2 : 0 < g.tb2) (nb M N : Nat) (hnb : 0 < nb) (R A Z0 : Nat → Nat → K)
    (hr : ∀ j, j < N → RCLike.im (R j j) = 0) :
    (PD M 0 N ⟨R, A, Z0⟩ → ∃ s', downdate g nb M N R A Z0 = .ok s') ∧
    ∀ s', downdate g nb M N R A Z0 = .ok s' → (∃ β, DSpec N M 0 N N ⟨R, A, Z0⟩ s' β) ∧ (∀ j, j < N → RCLike.im (s'.R j j) = 0) ∧
      (PD M 0 N ⟨R, A, Z0⟩ → ∀ j, j < N → s'.R j j ≠ 0) := by
  unfold downdate
  by_cases hN : N > 0
  · rw [if_pos hN]
    by_cases hb : N > nb
    · rw [if_pos hb]
      obtain ⟨b1, b2⟩ := blockDn_spec g g1 g2 nb M N hnb N 0 ⟨R, A, Z0⟩ (by omega) (by omega) (fun j _ h => hr j h)
      rw [Nat.sub_zero] at b1 b2
      refine ⟨b1, fun s' h => ?_⟩
      obtain ⟨c1, c2, c3⟩ := b2 s' h
      exact ⟨c1, fun j hj => c2 j (by omega) hj, fun hp j hj => c3 hp j (by omega) hj⟩
    · rw [if_neg hb]
      obtain ⟨b1, b2⟩ := recDn_spec g g1 g2 N M N 0 false ⟨R, A, Z0⟩ (by omega) (fun j _ h => hr j (by omega))
      refine ⟨b1, fun s' h => ?_⟩
      have q := b2 s' h
      refine ⟨⟨fun j => star (s'.Z j j), ?_⟩, fun j hj => q.real j (by omega) (by omega), fun hp j hj => (q.pos hp j (by omega) (by omega)).1⟩
      have := q.spec
      rw [Nat.zero_add] at this
      exact this
  · rw [if_neg hN]
    obtain rfl : N = 0 := by omega
    refine ⟨fun _ => ⟨_, rfl⟩, fun s' h => ?_⟩
    obtain rfl := Except.ok.inj h
    exact ⟨⟨fun _ => 0, DSpec.zero _ _ _ _ _ _⟩, fun j hj => by omega, fun _ j hj => by omega⟩

/-- **C85** `QR_Downdate(R,A)`, every block size: if it returns, the new triangle satisfies `R'ᴴR' = RᴴR - AᴴA`, so it is the triangle of a QR
decomposition of the matrix from which `A`'s rows were removed. -/
theorem qrDowndate_gram (g : DnCfg) (g1 : 0 < g.tb) (g2 : 0 < g.tb2) (nb M N : Nat) (hnb : 0 < nb) (R A Z0 : Nat → Nat → K)
    (hr : ∀ j, j < N → RCLike.im (R j j) = 0) (s' : US K) (h : downdate g nb M N R A Z0 = .ok s') (c d : Nat) (hc : c < N) (hdN : d < N) :
    ∑ k ∈ Finset.range N, star (if k ≤ c then s'.R k c else 0) * (if k ≤ d then s'.R k d else 0) =
      (∑ k ∈ Finset.range N, star (if k ≤ c then R k c else 0) * (if k ≤ d then R k d else 0)) -
      ∑ p ∈ Finset.range M, star (A p c) * A p d := by
  obtain ⟨⟨β, q⟩, -, -⟩ := (downdate_spec g g1 g2 nb M N hnb R A Z0 hr).2 s' h
  have hu := hs_unitary N q.valid (fun p => stk N s'.R A p c) (fun p => stk N s'.R A p d)
  have hf := fun c hc => q.full c (Nat.zero_le _) hc
  dsimp only at hf
  rw [hf c hc, hf d hdN] at hu
  unfold ip at hu
  rw [Finset.sum_range_add, Finset.sum_range_add] at hu
  have e1 : ∀ c, c < N → ∀ p, p < N → (if c < 0+N then (if c < p ∧ p < N+M then 0 else stk N R A p c) else stk N R s'.A p c) = if p ≤ c then R p c else 0 := by
    intro c hc p hp
    rw [if_pos (by omega)]
    by_cases hpc : p ≤ c
    · rw [if_neg (by omega), if_pos hpc, stk_up _ _ hp hpc]
    · rw [if_pos (by omega), if_neg hpc]
  have e2 : ∑ x ∈ Finset.range N, star (if c < 0+N then (if c < x ∧ x < N+M then 0 else stk N R A x c) else stk N R s'.A x c) *
      (if d < 0+N then (if d < x ∧ x < N+M then 0 else stk N R A x d) else stk N R s'.A x d) =
      ∑ k ∈ Finset.range N, star (if k ≤ c then R k c else 0) * (if k ≤ d then R k d else 0) :=
    Finset.sum_congr rfl fun p hp => by rw [Finset.mem_range] at hp; rw [e1 c hc p hp, e1 d hdN p hp]
  have e3 : ∑ x ∈ Finset.range M, star (if c < 0+N then (if c < N+x ∧ N+x < N+M then 0 else stk N R A (N+x) c) else stk N R s'.A (N+x) c) *
      (if d < 0+N then (if d < N+x ∧ N+x < N+M then 0 else stk N R A (N+x) d) else stk N R s'.A (N+x) d) = 0 :=
    Finset.sum_eq_zero fun p hp => by
      rw [Finset.mem_range] at hp
      rw [if_pos (by omega), if_pos (by omega), star_zero, zero_mul]
  have e4 : ∑ x ∈ Finset.range N, star (stk N s'.R A x c) * stk N s'.R A x d =
      ∑ k ∈ Finset.range N, star (if k ≤ c then s'.R k c else 0) * (if k ≤ d then s'.R k d else 0) :=
    Finset.sum_congr rfl fun p hp => by rw [Finset.mem_range] at hp; rw [stk, stk, if_pos hp, if_pos hp]
  have e5 : ∑ x ∈ Finset.range M, star (stk N s'.R A (N+x) c) * stk N s'.R A (N+x) d = ∑ p ∈ Finset.range M, star (A p c) * A p d :=
    Finset.sum_congr rfl fun p _ => by rw [stk_A, stk_A]
  rw [e2, e3, e4, e5, add_zero] at hu
  rw [hu]; ring

/-- **C85** (success): if `‖A z‖ < ‖R z‖` for every `z ≠ 0`, that is `RᴴR - AᴴA` is positive definite, the downdate returns, and the new
diagonal has no zeros. -/
theorem qrDowndate_ok (g : DnCfg) (g1 : 0 < g.tb) (g2 : 0 < g.tb2) (nb M N : Nat) (hnb : 0 < nb) (R A Z0 : Nat → Nat → K)
    (hr : ∀ j, j < N → RCLike.im (R j j) = 0)
    (hpd : ∀ z : Nat → K, (∃ i, i < N ∧ z i ≠ 0) → ∑ p ∈ Finset.range M, ‖∑ c ∈ Finset.range N, A p c * z c‖ ^ 2 <
      ∑ k ∈ Finset.range N, ‖∑ c ∈ Finset.range N, (if k ≤ c then R k c else 0) * z c‖ ^ 2) :
    ∃ s', downdate g nb M N R A Z0 = .ok s' ∧ ∀ j, j < N → s'.R j j ≠ 0 ∧ RCLike.im (s'.R j j) = 0 := by
  have hp : PD M 0 N ⟨R, A, Z0⟩ := by
    intro z ⟨i, _, i2, i3⟩
    have := hpd z ⟨i, by omega, i3⟩
    simp only [← RCLike.normSq_eq_def'] at this
    rw [Nat.zero_add]
    have e1 : ∑ k ∈ Finset.range N, RCLike.normSq (∑ c ∈ Finset.range N, (if k ≤ c then R k c else 0) * z c) =
        ∑ k ∈ Finset.Ico 0 N, RCLike.normSq (∑ c ∈ Finset.Ico k N, R k c * z c) := by
      rw [← Finset.range_eq_Ico]
      refine Finset.sum_congr rfl fun k hk => ?_
      rw [Finset.mem_range] at hk
      congr 1
      rw [Finset.range_eq_Ico, ← Finset.sum_Ico_consecutive _ (Nat.zero_le k) (by omega : k ≤ N), Finset.sum_eq_zero, zero_add]
      · exact Finset.sum_congr rfl fun c hc => by rw [Finset.mem_Ico] at hc; rw [if_pos hc.1]
      · intro c hc; rw [Finset.mem_Ico] at hc; rw [if_neg (by omega), zero_mul]
    rw [e1] at this
    rw [← Finset.range_eq_Ico] at this ⊢
    exact this
  obtain ⟨d1, d2⟩ := downdate_spec g g1 g2 nb M N hnb R A Z0 hr
  obtain ⟨s', h⟩ := d1 hp
  exact ⟨s', h, fun j hj => ⟨(d2 s' h).2.2 hp j hj, (d2 s' h).2.1 j hj⟩⟩

/-- **C85** (failure): if `‖A z‖ > ‖R z‖` for some `z`, so that no triangle `R'` can exist, the downdate does not return a result. -/
theorem qrDowndate_fails (g : DnCfg) (g1 : 0 < g.tb) (g2 : 0 < g.tb2) (nb M N : Nat) (hnb : 0 < nb) (R A Z0 : Nat → Nat → K)
    (hr : ∀ j, j < N → RCLike.im (R j j) = 0) (z : Nat → K)
    (hz : ∑ k ∈ Finset.range N, ‖∑ c ∈ Finset.range N, (if k ≤ c then R k c else 0) * z c‖ ^ 2 <
      ∑ p ∈ Finset.range M, ‖∑ c ∈ Finset.range N, A p c * z c‖ ^ 2) :
    ∀ s', downdate g nb M N R A Z0 ≠ .ok s' := by
  intro s' h
  have hg := qrDowndate_gram g g1 g2 nb M N hnb R A Z0 hr s' h
  have ex : ∀ (n : Nat) (F : Nat → Nat → K), ((∑ k ∈ Finset.range n, ‖∑ c ∈ Finset.range N, F k c * z c‖ ^ 2 : ℝ) : K) =
      ∑ c ∈ Finset.range N, ∑ d ∈ Finset.range N, star (z c) * z d * ∑ k ∈ Finset.range n, star (F k c) * F k d := by
    intro n F
    rw [RCLike.ofReal_sum]
    have e1 : ∀ k, ((‖∑ c ∈ Finset.range N, F k c * z c‖ ^ 2 : ℝ) : K) =
        ∑ c ∈ Finset.range N, ∑ d ∈ Finset.range N, star (z c) * z d * (star (F k c) * F k d) := by
      intro k
      rw [← RCLike.normSq_eq_def', ← star_mul_eq, star_sum, Finset.sum_mul_sum]
      refine Finset.sum_congr rfl fun c _ => Finset.sum_congr rfl fun d _ => ?_
      rw [star_mul']; ring
    simp only [e1]
    rw [Finset.sum_comm]
    refine Finset.sum_congr rfl fun c _ => ?_
    rw [Finset.sum_comm]
    refine Finset.sum_congr rfl fun d _ => ?_
    rw [Finset.mul_sum]
  have key : ((∑ k ∈ Finset.range N, ‖∑ c ∈ Finset.range N, (if k ≤ c then s'.R k c else 0) * z c‖ ^ 2 : ℝ) : K) =
      ((∑ k ∈ Finset.range N, ‖∑ c ∈ Finset.range N, (if k ≤ c then R k c else 0) * z c‖ ^ 2 : ℝ) : K) -
      ((∑ p ∈ Finset.range M, ‖∑ c ∈ Finset.range N, A p c * z c‖ ^ 2 : ℝ) : K) := by
    rw [ex N (fun k c => if k ≤ c then s'.R k c else 0), ex N (fun k c => if k ≤ c then R k c else 0), ex M A, ← Finset.sum_sub_distrib]
    refine Finset.sum_congr rfl fun c hc => ?_
    rw [← Finset.sum_sub_distrib]
    refine Finset.sum_congr rfl fun d hd => ?_
    rw [hg c d (Finset.mem_range.mp hc) (Finset.mem_range.mp hd)]; ring
  rw [← RCLike.ofReal_sub] at key
  have key2 : (∑ k ∈ Finset.range N, ‖∑ c ∈ Finset.range N, (if k ≤ c then s'.R k c else 0) * z c‖ ^ 2 : ℝ) =
      (∑ k ∈ Finset.range N, ‖∑ c ∈ Finset.range N, (if k ≤ c then R k c else 0) * z c‖ ^ 2) -
      ∑ p ∈ Finset.range M, ‖∑ c ∈ Finset.range N, A p c * z c‖ ^ 2 := by exact_mod_cast key
  have : 0 ≤ ∑ k ∈ Finset.range N, ‖∑ c ∈ Finset.range N, (if k ≤ c then s'.R k c else 0) * z c‖ ^ 2 :=
    Finset.sum_nonneg fun _ _ => sq_nonneg _
  linarith

/-- **C85** (frame): only the upper triangle of `R` and the elements of `A` are written. -/
theorem qrDowndate_frame (g : DnCfg) (g1 : 0 < g.tb) (g2 : 0 < g.tb2) (nb M N : Nat) (hnb : 0 < nb) (R A Z0 : Nat → Nat → K)
    (hr : ∀ j, j < N → RCLike.im (R j j) = 0) (s' : US K) (h : downdate g nb M N R A Z0 = .ok s') :
    (∀ k c, ¬ (k ≤ c ∧ c < N) → s'.R k c = R k c) ∧ ∀ p c, ¬ (p < M ∧ c < N) → s'.A p c = A p c := by
  obtain ⟨⟨β, q⟩, -, -⟩ := (downdate_spec g g1 g2 nb M N hnb R A Z0 hr).2 s' h
  exact ⟨fun k c hk => q.frameR k c (by omega), fun p c hp => q.frameA p c (by omega)⟩

/-- **C85** (where the code is wrong): `R` the 2×2 identity and `A = (1 0)`.  Removing the row leaves the rows `(0 1)`, with triangle
`diag(0,1)`, but the function divides zero by zero (`1-b0`, TMV_QRDowndate.cpp:189) and goes on. -/
theorem qrDowndate_violated (g : DnCfg) :
    downdate g 64 1 2 (fun i j => if i = j then (1:ℝ) else 0) (fun _ j => if j = 0 then 1 else 0) (fun _ _ => 0) = .error .divZero ∧
    ∃ R' : Nat → Nat → ℝ, ∀ c d, c < 2 → d < 2 →
      ∑ k ∈ Finset.range 2, (if k ≤ c then R' k c else 0) * (if k ≤ d then R' k d else 0) =
      ∑ k ∈ Finset.range 2, (if k ≤ c then (if k = c then 1 else 0) else 0) * (if k ≤ d then (if k = d then 1 else 0) else 0) -
        ∑ _p ∈ Finset.range 1, (if c = 0 then 1 else 0) * (if d = 0 then 1 else 0) := by
  constructor
  · have hu : unReflect 1 (1:ℝ) (fun _ => 1) = some ⟨0, fun i => if i < 1 then 1/(0-1) else 1, 1⟩ := by
      unfold unReflect
      simp [RCLike.normSq]
    unfold downdate
    rw [if_pos (by omega), if_neg (by omega)]
    unfold recDn
    rw [dif_neg (by omega), dif_neg (by omega), dif_pos rfl]
    have hc : dnCol 1 0 (⟨fun i j => if i = j then (1:ℝ) else 0, fun _ j => if j = 0 then 1 else 0, fun _ _ => 0⟩ : US ℝ) =
        .ok (⟨setE (fun i j => if i = j then (1:ℝ) else 0) 0 0 0, fun p c => if c = 0 ∧ p < 1 then (if p < 1 then 1/(0-1) else 1) else (if c = 0 then 1 else 0), fun _ _ => 0⟩, 1) := by
      unfold dnCol
      simp only [if_true, hu]
    rw [hc]
    simp only [Except.bind]
    unfold dnTwo
    simp
  · refine ⟨fun i j => if i = 1 ∧ j = 1 then 1 else 0, fun c d hc hd => ?_⟩
    rcases (show c = 0 ∨ c = 1 by omega) with rfl | rfl <;> rcases (show d = 0 ∨ d = 1 by omega) with rfl | rfl <;>
      simp [Finset.sum_range_succ]

/-- The hypothesis of `qrDowndate_ok` is met: `R = (2)`, `A = (1)`. -/
example : ∀ z : Nat → ℝ, (∃ i, i < 1 ∧ z i ≠ 0) → ∑ p ∈ Finset.range 1, ‖∑ c ∈ Finset.range 1, (1:ℝ) * z c‖ ^ 2 <
    ∑ k ∈ Finset.range 1, ‖∑ c ∈ Finset.range 1, (if k ≤ c then (2:ℝ) else 0) * z c‖ ^ 2 := by
  rintro z ⟨i, hi, hz⟩
  obtain rfl : i = 0 := by omega
  have := sq_pos_of_ne_zero hz
  simp
  nlinarith

end
end TMV.QR
