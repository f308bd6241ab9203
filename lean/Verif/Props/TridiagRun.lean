import Verif.Props.TridiagStep

/-! The loops of `NonBlockTridiagonalize` and `BlockTridiagonalize` (for C107). -/
namespace TMV.Tridiag
noncomputable section
open Classical Matrix TMV.QR
open Bidiag (Qm Hm emb emb_mul emb_one emb_adj emb_det Qm_unit Qm_zero Qm_succ Qm_congr Rc reflectCol_rc H_tail up_succ)
open LDL (cj_add cj_sub cj_mul cj_neg cj_one cj_zero cj_inv norm_cj cj_sum)
variable {K : Type} [RCLike K]
variable {h : Bool} {tiny : ℝ} {n j : Nat}

theorem cj_real (h : Bool) {x : K} (hx : x = ((RCLike.re x : ℝ) : K)) : cj h x = x := by
  cases h
  · simp [cj]
  · rw [hx]; simp [cj]

theorem cj_star (h : Bool) (x : K) : cj h (star x) = if h then x else star x := by cases h <;> simp [cj]

theorem sym_kappaI {lo N : Nat} {v : Nat → K} {S : Nat → Nat → K} (hS : ∀ i p, lo ≤ i → i < N → lo ≤ p → p < N → S i p = cj h (S p i)) :
    cj h (∑ r ∈ Finset.Ico lo N, star (v r) * ∑ q ∈ Finset.Ico lo N, S r q * cj h (star (v q))) =
      ∑ r ∈ Finset.Ico lo N, star (v r) * ∑ q ∈ Finset.Ico lo N, S r q * cj h (star (v q)) := by
  rw [cj_sum]
  simp only [cj_mul, cj_sum, cj_inv, Finset.mul_sum]
  rw [Finset.sum_comm]
  refine Finset.sum_congr rfl fun r hr => Finset.sum_congr rfl fun q hq => ?_
  rw [Finset.mem_Ico] at hr hq
  rw [← hS r q (by omega) (by omega) (by omega) (by omega)]
  ring

theorem lrI_sym {lo N : Nat} {b : K} {v : Nat → K} {S : Nat → Nat → K} (hS : ∀ i p, lo ≤ i → i < N → lo ≤ p → p < N → S i p = cj h (S p i))
    {i p : Nat} (hi : lo ≤ i) (hi' : i < N) (hp : lo ≤ p) (hp' : p < N) : lrI h lo N b v S i p = cj h (lrI h lo N b v S p i) := by
  have hk := sym_kappaI (v := v) hS
  simp only [lrI, cj_add, cj_sub, cj_mul, cj_inv] at hk ⊢
  rw [hk, ← hS i p hi hi' hp hp']
  ring

theorem symFull_sym (A : Nat → Nat → K) (i p : Nat) (hd : cj h (A i i) = A i i) : symFull h A i p = cj h (symFull h A p i) := by
  unfold symFull
  rcases Nat.lt_trichotomy i p with u | u | u
  · rw [if_neg (by omega), if_pos (by omega)]
  · subst u; rw [if_pos le_rfl, hd]
  · rw [if_pos (by omega), if_neg (by omega), cj_inv]

theorem symFull_congr {A B : Nat → Nat → K} {i p : Nat} (h1 : p ≤ i → A i p = B i p) (h2 : i ≤ p → A p i = B p i) : symFull h A i p = symFull h B i p := by
  unfold symFull
  split
  · exact h1 ‹_›
  · rw [h2 (by omega)]

theorem unrowS_zero (A T : Nat → Nat → K) (k : Nat) : unrowS A T 0 k = A 0 k := by rw [unrowS, if_pos rfl]
theorem unrowS_succ (A T : Nat → Nat → K) (i k : Nat) : unrowS A T (i+1) k = T i k := by rw [unrowS, if_neg (by omega), Nat.add_sub_cancel]
theorem rowS_unrowS (A T : Nat → Nat → K) : rowS (unrowS A T) = T := by funext i k; rw [rowS, unrowS_succ]

/-- The Householder vector as it is stored. -/
theorem vf_eq {V : Nat → Nat → K} {q : Nat} (h1 : j < q) (h2 : q < n+1) : vf n V j q = if q = j+1 then 1 else V (q-1) j := by
  rw [vf, if_neg (by omega), hv, if_neg (by omega), if_pos (by omega)]
  by_cases hq : q = j+1
  · rw [if_pos hq, if_pos (by omega)]
  · rw [if_neg hq, if_neg (by omega)]

theorem H_congr {V W : Nat → Nat → K} (hv' : ∀ p, j < p → p < n → V p j = W p j) (b : K) (x : Nat → K) (i : Nat) : H n V j b x i = H n W j b x i := by
  have : hv n V j = hv n W j := by
    funext p
    simp only [hv]
    split
    · rfl
    · split
      · split
        · rfl
        · exact hv' p (by omega) ‹_›
      · rfl
  rw [H, H, this]

theorem lrMult_eq {b : K} (hb : b ≠ 0) {A : Nat → Nat → K} (hj : j < n) (hS : ∀ i p, j < i → i < n+1 → j < p → p < n+1 → symFull h A i p = cj h (symFull h A p i))
    {i p : Nat} (h1 : j < p) (h2 : p ≤ i) (h3 : i < n+1) :
    lrMult h (n+1) j b A i p = lrI h (j+1) (n+1) b (vf n (rowS A) j) (symFull h A) i p := by
  have hvv : ∀ q, q ∈ Finset.Ico (j+1) (n+1) → vf n (rowS A) j q = if q = j+1 then 1 else A q j := fun q hq => by
    rw [Finset.mem_Ico] at hq
    rw [vf_eq (by omega) (by omega), rowS, show q - 1 + 1 = q by omega]
  have hm : ∀ i, ∑ q ∈ Finset.Ico (j+1) (n+1), symFull h A i q * (if h then (if q = j+1 then 1 else A q j) else star (if q = j+1 then 1 else A q j)) =
      ∑ q ∈ Finset.Ico (j+1) (n+1), symFull h A i q * cj h (star (vf n (rowS A) j q)) := fun i => by
    refine Finset.sum_congr rfl fun q hq => ?_
    rw [cj_star, hvv q hq]
  have hk := sym_kappaI (h := h) (lo := j+1) (N := n+1) (v := vf n (rowS A) j) (S := symFull h A) (fun i p a b c d => hS i p a b c d)
  have hκ : ∑ r ∈ Finset.Ico (j+1) (n+1), star (if r = j+1 then (1:K) else A r j) * ∑ q ∈ Finset.Ico (j+1) (n+1), symFull h A r q * cj h (star (vf n (rowS A) j q)) =
      ∑ r ∈ Finset.Ico (j+1) (n+1), star (vf n (rowS A) j r) * ∑ q ∈ Finset.Ico (j+1) (n+1), symFull h A r q * cj h (star (vf n (rowS A) j q)) := by
    refine Finset.sum_congr rfl fun r hr => ?_
    rw [hvv r hr]
  unfold lrMult
  rw [if_pos ⟨by omega, hb⟩]
  simp only
  rw [if_pos ⟨h1, h2, h3⟩]
  simp only [hm]
  rw [hκ, lrI]
  have hi := hvv i (Finset.mem_Ico.mpr ⟨by omega, h3⟩)
  have hp := hvv p (Finset.mem_Ico.mpr ⟨by omega, by omega⟩)
  rw [← hi, ← hp]
  generalize (∑ r ∈ Finset.Ico (j+1) (n+1), star (vf n (rowS A) j r) * ∑ q ∈ Finset.Ico (j+1) (n+1), symFull h A r q * cj h (star (vf n (rowS A) j q))) = κ at hk ⊢
  have hw : (if h then ((RCLike.re (((RCLike.normSq b : ℝ) : K) * κ) : ℝ) : K) else b * b * κ) = b * cj h b * κ := by
    cases h
    · simp [cj]
    · simp only [cj, if_true] at hk ⊢
      rw [RCLike.re_ofReal_mul, RCLike.ofReal_mul, ← RCLike.conj_eq_iff_re.mp hk]
      have := RCLike.mul_conj b
      rw [RCLike.star_def]
      rw [show b * (starRingEnd K) b = ((RCLike.normSq b : ℝ) : K) by rw [RCLike.normSq_eq_def']; push_cast; exact this]
      simp
  rw [hw, show symFull h A i p = A i p by rw [symFull, if_pos h2], cj_neg]
  ring

/-- The state before pass `j` of `NonBlockTridiagonalize`. -/
structure NI (h : Bool) (tiny : ℝ) (n j : Nat) (A0 : Nat → Nat → K) (det0 : K) (s : St K) : Prop where
  inv : Inv h tiny n j A0 (Ck j (symFull h s.A) (fun k => s.A k k) (fun k => s.A (k+1) k)) (rowS s.A) s.b (fun k => s.A (k+1) k)
  re : ∀ k, k < j → s.A (k+1) k = ((RCLike.re (s.A (k+1) k) : ℝ) : K)
  det : s.det = det0 * ∏ k ∈ Finset.range j, dfac (s.b k)

theorem nbStep_spec (ht : 0 < tiny) (hjn : j < n) {A0 : Nat → Nat → K} {det0 : K} {s : St K}
    (hI : NI h tiny n j A0 det0 s) : NI h tiny n (j+1) A0 det0 (nbStep h tiny (n+1) j s) := by
  obtain ⟨r1, f1, d1⟩ := reflectCol_rc tiny ht n j hjn (rowS s.A) s.det
  unfold nbStep
  rw [Nat.add_sub_cancel]
  rcases hR : reflectCol tiny n j (rowS s.A) s.det with ⟨T, b, det1⟩
  rw [hR] at r1 f1 d1
  simp only at r1 f1 d1 ⊢
  set A1 := unrowS s.A T with hA1
  set A2 := (if b ≠ 0 then lrMult h (n+1) j b A1 else A1) with hA2
  have l1 : ∀ i p, ¬ (p = j ∧ j < i ∧ i < n+1) → A1 i p = s.A i p := by
    intro i p hc
    rw [hA1]
    rcases i with _ | i
    · rw [unrowS_zero]
    · rw [unrowS_succ, f1 i p (by omega), rowS]
  have l2 : ∀ i p, ¬ (j < p ∧ p ≤ i ∧ i < n+1) → A2 i p = A1 i p := by
    intro i p hc
    rw [hA2]
    split
    · unfold lrMult
      split
      · simp only
        rw [if_neg hc]
      · rfl
    · rfl
  have lT : ∀ p, A2 (p+1) j = T p j := fun p => by rw [l2 _ _ (by omega), hA1, unrowS_succ]
  have lo : ∀ i p, p < j ∨ i ≤ j → A2 i p = s.A i p := fun i p hh => by rw [l2 i p (by omega), l1 i p (by omega)]
  have hsym : ∀ i p, j < i → i < n+1 → j < p → p < n+1 → symFull h s.A i p = cj h (symFull h s.A p i) := by
    intro i p h1 h2 h3 h4
    have := hI.inv.sym i p h2 h4
    rwa [Ck_pos (by omega), Ck_pos (by omega)] at this
  have hf1 : ∀ i p, j < i → j < p → symFull h A1 i p = symFull h s.A i p := fun i p h1 h2 =>
    symFull_congr (fun _ => l1 i p (by omega)) (fun _ => l1 p i (by omega))
  have i0 : Inv h tiny n j A0 (Ck j (symFull h s.A) (fun k => A2 k k) (fun k => A2 (k+1) k)) (rowS A2) (fun k => if k = j then b else s.b k) (fun k => A2 (k+1) k) := by
    refine hI.inv.congr ?_ ?_ ?_ ?_
    · intro i p hi hp
      by_cases hc : j ≤ i ∧ j ≤ p
      · rw [Ck_pos hc, Ck_pos hc]
      · rw [Ck_neg hc, Ck_neg hc]
        unfold tri
        split
        · exact (lo i i (by omega)).symm
        · split
          · exact (lo (i+1) i (by omega)).symm
          · split
            · exact (lo (p+1) p (by omega)).symm
            · rfl
    · intro p k h1 _ _; exact (lo (p+1) k (Or.inl h1)).symm
    · intro k hk; rw [if_neg (by omega)]
    · intro k hk; exact (lo (k+1) k (Or.inl hk)).symm
  obtain ⟨ε, a1, a2, a3, a4⟩ := r1.ex
  have hVT : ∀ p, rowS A2 p j = T p j := fun p => by rw [rowS, lT]
  have hX : ∀ i p, j < i → i < n+1 → j < p → p < n+1 → symFull h A2 i p = lrI h (j+1) (n+1) b (vf n (rowS A2) j) (symFull h s.A) i p := by
    have hvf : vf n (rowS A1) j = vf n (rowS A2) j := by
      funext q
      have : ∀ r, rowS A1 r j = rowS A2 r j := fun r => by rw [rowS, rowS, l2 _ _ (by omega)]
      simp only [vf, hv, this]
    have hlr : ∀ i p, j < i → i < n+1 → j < p → p < n+1 → lrI h (j+1) (n+1) b (vf n (rowS A1) j) (symFull h A1) i p = lrI h (j+1) (n+1) b (vf n (rowS A2) j) (symFull h s.A) i p := by
      intro i p h1 h2 h3 h4
      have hs : ∀ i, j < i → ∑ q ∈ Finset.Ico (j+1) (n+1), symFull h A1 i q * cj h (star (vf n (rowS A2) j q)) =
          ∑ q ∈ Finset.Ico (j+1) (n+1), symFull h s.A i q * cj h (star (vf n (rowS A2) j q)) := fun i hi => by
        refine Finset.sum_congr rfl fun q hq => ?_
        rw [Finset.mem_Ico] at hq
        rw [hf1 i q hi (by omega)]
      have hs2 : ∑ r ∈ Finset.Ico (j+1) (n+1), star (vf n (rowS A2) j r) * ∑ q ∈ Finset.Ico (j+1) (n+1), symFull h A1 r q * cj h (star (vf n (rowS A2) j q)) =
          ∑ r ∈ Finset.Ico (j+1) (n+1), star (vf n (rowS A2) j r) * ∑ q ∈ Finset.Ico (j+1) (n+1), symFull h s.A r q * cj h (star (vf n (rowS A2) j q)) := by
        refine Finset.sum_congr rfl fun q hq => ?_
        rw [Finset.mem_Ico] at hq
        rw [hs q (by omega)]
      rw [lrI, lrI, hvf, hs i h1, hs p h3, hs2, hf1 i p h1 h3]
    have main : ∀ i p, j < i → i < n+1 → j < p → p ≤ i → A2 i p = lrI h (j+1) (n+1) b (vf n (rowS A2) j) (symFull h s.A) i p := by
      intro i p h1 h2 h3 h4
      by_cases hb : b = 0
      · have : A2 = A1 := by rw [hA2, if_neg (by simpa using hb)]
        rw [this, lrI, hb, l1 i p (by omega), symFull, if_pos h4]
        simp
      · have : A2 = lrMult h (n+1) j b A1 := by rw [hA2, if_pos hb]
        rw [← hlr i p h1 h2 h3 (by omega), ← lrMult_eq hb hjn _ h3 h4 h2, ← this]
        intro i p h1 h2 h3 h4
        rw [hf1 i p h1 h3, hf1 p i h3 h1]
        exact hsym i p h1 h2 h3 h4
    intro i p h1 h2 h3 h4
    rw [symFull]
    split
    · exact main i p h1 h2 h3 ‹_›
    · rw [main p i h3 h4 h1 (by omega), ← lrI_sym (fun i p a b c d => hsym i p a b c d) h1 h2 h3 h4]
  have e1 : A2 (j+1) j = T j j := lT j
  have i1 := step_both i0 ht hjn (by rw [if_pos rfl]; exact r1.valid.congr fun p _ _ => (hVT p).symm)
    (fun h0 p h1 h2 => by rw [if_pos rfl] at h0; rw [hVT]; exact r1.bz h0 p h1 h2) ε a1 a2
    (fun h0 => a3 (by rw [← e1]; exact h0))
    (by rw [lo j j (Or.inr le_rfl), symFull, if_pos le_rfl])
    (by rw [e1]; exact cj_real h r1.re)
    (fun p h1 h2 => by
      simp only
      rw [if_pos trivial, H_congr (fun p _ _ => hVT p), e1, ← a4 p h1 h2]
      refine H_tail (fun q h1 h2 => ?_) h1 h2
      rw [symFull, if_pos (by omega), rowS])
    (X1 := symFull h A2) (fun i p h1 h2 h3 h4 => by simp only; rw [if_pos trivial]; exact hX i p h1 h2 h3 h4)
  refine ⟨i1, ?_, ?_⟩
  · intro k hk
    simp only
    by_cases hkj : k = j
    · subst hkj
      rw [e1]; exact r1.re
    · rw [lo (k+1) k (Or.inl (by omega))]
      exact hI.re k (by omega)
  · simp only
    rw [d1, hI.det, Finset.prod_range_succ, if_pos rfl]
    have e1 : ∏ k ∈ Finset.range j, dfac (if k = j then b else s.b k) = ∏ k ∈ Finset.range j, dfac (s.b k) :=
      Finset.prod_congr rfl fun k hk => by rw [Finset.mem_range] at hk; rw [if_neg (by omega)]
    rw [e1]
    ring

/-- The state when all is done. -/
structure Done (h : Bool) (tiny : ℝ) (n : Nat) (A0 : Nat → Nat → K) (det0 : K) (s : St K) : Prop where
  inv : Inv h tiny n n A0 (tri s.D fun k => ((s.E k : ℝ) : K)) (rowS s.A) s.b (fun k => ((s.E k : ℝ) : K))
  det : s.det = (if h then det0 * ∏ k ∈ Finset.range n, dfac (s.b k) else (det0 * ∏ k ∈ Finset.range n, dfac (s.b k)) * (det0 * ∏ k ∈ Finset.range n, dfac (s.b k)))

theorem re_of_cj {h : Bool} {x : K} (hx : cj h x = x) : (if h then ((RCLike.re x : ℝ) : K) else x) = x := by
  cases h
  · rfl
  · simp only [cj, if_true] at hx ⊢
    exact RCLike.conj_eq_iff_re.mp hx

/-- The last row. -/
theorem done_of {A0 X A : Nat → Nat → K} {β e : Nat → K} {d D : Nat → K} {E : Nat → ℝ}
    (hI : Inv h tiny n n A0 (Ck n X d e) (rowS A) β e) (hX : X n n = A n n) (hd : ∀ k, k < n → d k = A k k) (he : ∀ k, k < n → e k = ((E k : ℝ) : K)) :
    Inv h tiny n n A0 (tri (getD h (n+1) A D) fun k => ((E k : ℝ) : K)) (rowS A) β (fun k => ((E k : ℝ) : K)) := by
  have hr : ∀ k, k < n+1 → cj h (A k k) = A k k := by
    intro k hk
    have := hI.sym k k hk hk
    by_cases hkn : k = n
    · subst hkn
      rw [Ck_pos ⟨le_rfl, le_rfl⟩, hX] at this
      exact this.symm
    · rw [Ck_neg (by omega), tri, if_pos rfl, hd k (by omega)] at this
      exact this.symm
  have hD : ∀ k, k < n+1 → getD h (n+1) A D k = A k k := fun k hk => by rw [getD, if_pos hk, re_of_cj (hr k hk)]
  refine hI.congr ?_ (fun _ _ _ _ _ => rfl) (fun _ _ => rfl) he
  intro i p hi hp
  by_cases hc : n ≤ i ∧ n ≤ p
  · obtain rfl : i = n := by omega
    obtain rfl : p = i := by omega
    rw [Ck_pos hc, tri, if_pos rfl, hD _ hi, hX]
  · rw [Ck_neg hc, tri, tri]
    by_cases h1 : i = p
    · rw [if_pos h1, if_pos h1, hD i hi, hd i (by omega)]
    · rw [if_neg h1, if_neg h1]
      by_cases h2 : i + 1 = p
      · rw [if_pos h2, if_pos h2, he i (by omega)]
      · rw [if_neg h2, if_neg h2]
        by_cases h3 : p + 1 = i
        · rw [if_pos h3, if_pos h3, he p (by omega)]
        · rw [if_neg h3, if_neg h3]

theorem nonBlock_spec (ht : 0 < tiny) (s : St K) (hs : h = true → ∀ k, k < n+1 → RCLike.im (s.A k k) = 0) :
    Done h tiny n (symFull h s.A) s.det (nonBlock h tiny (n+1) s) := by
  have hr : ∀ k, k < n+1 → cj h (s.A k k) = s.A k k := fun k hk => by
    cases h
    · rfl
    · exact RCLike.conj_eq_iff_im.mpr (hs rfl k hk)
  have hI := up_succ (nbStep h tiny (n+1)) (fun j t => NI h tiny n j (symFull h s.A) s.det t) n 0 s
    ⟨(Inv.zero (symFull h s.A) (rowS s.A) s.b (fun k => s.A (k+1) k) (fun i p hi hp => symFull_sym s.A i p (hr i hi))).congr
      (fun i p _ _ => by rw [Ck_pos (by omega)]) (fun _ _ h => by omega) (fun _ h => by omega) (fun _ h => by omega), fun k h => by omega, by simp⟩
    (fun j t _ h2 h => nbStep_spec ht (by omega) h)
  rw [Nat.zero_add] at hI
  unfold nonBlock
  rw [Nat.add_sub_cancel]
  set t := up (nbStep h tiny (n+1)) n 0 s with ht'
  refine ⟨done_of hI.inv (by rw [symFull, if_pos le_rfl]) (fun _ _ => rfl) (fun k hk => ?_), ?_⟩
  · simp only
    rw [if_pos hk, symFull, if_neg (by omega)]
    have := hI.re k hk
    cases h
    · exact this
    · simp only [cj, if_true]
      rw [this]; simp
  · simp only
    rw [hI.det]

/-! ### Blocks -/

/-- `A - Y Z† - Z Y†` for the `r` columns of `Y` that are in `A` from `j1` on. -/
def vir (h : Bool) (j1 r : Nat) (A Z : Nat → Nat → K) (i p : Nat) : K :=
  symFull h A i p - (∑ k ∈ Finset.range r, A i (j1+k) * cj h (Z p k)) - ∑ k ∈ Finset.range r, Z i k * cj h (A p (j1+k))

theorem vir_congr {j1 r : Nat} {A Z A' Z' : Nat → Nat → K} {i p : Nat} (h0 : symFull h A i p = symFull h A' i p)
    (h1 : ∀ k, k < r → A i (j1+k) = A' i (j1+k)) (h2 : ∀ k, k < r → Z p k = Z' p k) (h3 : ∀ k, k < r → Z i k = Z' i k) (h4 : ∀ k, k < r → A p (j1+k) = A' p (j1+k)) :
    vir h j1 r A Z i p = vir h j1 r A' Z' i p := by
  unfold vir
  rw [h0]
  congr 1
  · congr 1
    refine Finset.sum_congr rfl fun k hk => ?_
    rw [Finset.mem_range] at hk
    rw [h1 k hk, h2 k hk]
  · refine Finset.sum_congr rfl fun k hk => ?_
    rw [Finset.mem_range] at hk
    rw [h3 k hk, h4 k hk]

theorem sum_vir (S : Finset Nat) (c : Nat → K) (j1 r : Nat) (A Z : Nat → Nat → K) (i : Nat) :
    ∑ p ∈ S, vir h j1 r A Z i p * c p = (∑ p ∈ S, symFull h A i p * c p)
      - (∑ k ∈ Finset.range r, A i (j1+k) * ∑ p ∈ S, cj h (Z p k) * c p)
      - ∑ k ∈ Finset.range r, Z i k * ∑ p ∈ S, cj h (A p (j1+k)) * c p := by
  unfold vir
  simp only [sub_mul, Finset.sum_sub_distrib, Finset.mul_sum, Finset.sum_mul]
  rw [Finset.sum_comm (s := S) (t := Finset.range r), Finset.sum_comm (s := S) (t := Finset.range r)]
  simp only [mul_assoc]

/-- The state before pass `j` of `BlockTridiagonalize` in a block that begins at `j1`. -/
structure BI (h : Bool) (tiny : ℝ) (n j1 j : Nat) (A0 : Nat → Nat → K) (det0 : K) (s : BSt K) : Prop where
  inv : Inv h tiny n j A0 (Ck j (vir h j1 (j-j1) s.A s.Z) (fun k => s.A k k) (fun k => ((s.E k : ℝ) : K))) (rowS s.A) s.b (fun k => ((s.E k : ℝ) : K))
  det : s.det = det0 * ∏ k ∈ Finset.range j, dfac (s.b k)

theorem bStep_spec (ht : 0 < tiny) {j1 : Nat} (hj1 : j1 ≤ j) (hjn : j < n) {A0 : Nat → Nat → K} {det0 : K} {s : BSt K}
    (hI : BI h tiny n j1 j A0 det0 s) : BI h tiny n j1 (j+1) A0 det0 (bStep h tiny (n+1) j1 j s) := by
  set r := j - j1 with hr
  set X := vir h j1 r s.A s.Z with hX
  set A1 := bCol h (n+1) j1 j s.A s.Z with hA1
  obtain ⟨r1, f1, d1⟩ := reflectCol_rc tiny ht n j hjn (rowS A1) s.det
  rcases hR : reflectCol tiny n j (rowS A1) s.det with ⟨T, b, det1⟩
  rw [hR] at r1 f1 d1
  simp only at r1 f1 d1
  set A3 := setOne (j+1) j (unrowS A1 T) with hA3
  set Z' := bZ h (n+1) j1 j b A3 s.Z with hZ'
  have hstep : bStep h tiny (n+1) j1 j s =
      { A := A3, b := fun k => if k = j then b else s.b k, D := s.D, E := fun k => if k = j then RCLike.re (T j j) else s.E k, det := det1, Z := Z' } := by
    unfold bStep
    rw [Nat.add_sub_cancel]
    simp only [← hA1, hR]
    rw [unrowS_succ]
  rw [hstep]
  have c1 : ∀ i, j ≤ i → i < n+1 → A1 i j = X i j := by
    intro i h1 h2
    rw [hA1, bCol, if_pos ⟨rfl, h1, h2⟩, hX, vir, symFull, if_pos h1]
  have c2 : ∀ i p, ¬ (p = j ∧ j ≤ i ∧ i < n+1) → A1 i p = s.A i p := fun i p hc => by rw [hA1, bCol, if_neg hc]
  have l1 : ∀ i p, ¬ (p = j ∧ j ≤ i ∧ i < n+1) → A3 i p = s.A i p := by
    intro i p hc
    rw [hA3, setOne, if_neg (by omega)]
    rcases i with _ | i
    · rw [unrowS_zero, c2 _ _ hc]
    · rw [unrowS_succ, f1 i p (by omega), rowS, c2 _ _ hc]
  have ljj : A3 j j = X j j := by
    rw [hA3, setOne, if_neg (by omega)]
    rcases hj : j with _ | i
    · rw [unrowS_zero, ← hj, c1 j le_rfl (by omega)]
    · rw [unrowS_succ, f1 i _ (by omega), rowS, ← hj, c1 j le_rfl (by omega)]
  have lT : ∀ p, j < p → A3 (p+1) j = T p j := fun p hp => by rw [hA3, setOne, if_neg (by omega), unrowS_succ]
  have l11 : A3 (j+1) j = 1 := by rw [hA3, setOne, if_pos ⟨rfl, rfl⟩]
  have hsym : ∀ i p, j < i → i < n+1 → j < p → p < n+1 → X i p = cj h (X p i) := by
    intro i p h1 h2 h3 h4
    have := hI.inv.sym i p h2 h4
    rwa [Ck_pos (by omega), Ck_pos (by omega)] at this
  have i0 : Inv h tiny n j A0 (Ck j X (fun k => A3 k k) (fun k => (((if k = j then RCLike.re (T j j) else s.E k) : ℝ) : K))) (rowS A3)
      (fun k => if k = j then b else s.b k) (fun k => (((if k = j then RCLike.re (T j j) else s.E k) : ℝ) : K)) := by
    refine hI.inv.congr ?_ ?_ ?_ ?_
    · intro i p hi hp
      by_cases hc : j ≤ i ∧ j ≤ p
      · rw [Ck_pos hc, Ck_pos hc]
      · rw [Ck_neg hc, Ck_neg hc]
        unfold tri
        by_cases u1 : i = p
        · rw [if_pos u1, if_pos u1]; exact (l1 i i (by omega)).symm
        · rw [if_neg u1, if_neg u1]
          by_cases u2 : i + 1 = p
          · rw [if_pos u2, if_pos u2]
            show ((s.E i : ℝ) : K) = (((if i = j then RCLike.re (T j j) else s.E i) : ℝ) : K)
            rw [if_neg (by omega)]
          · rw [if_neg u2, if_neg u2]
            by_cases u3 : p + 1 = i
            · rw [if_pos u3, if_pos u3]
              show ((s.E p : ℝ) : K) = (((if p = j then RCLike.re (T j j) else s.E p) : ℝ) : K)
              rw [if_neg (by omega)]
            · rw [if_neg u3, if_neg u3]
    · intro p k h1 _ _; exact (l1 (p+1) k (by omega)).symm
    · intro k hk; rw [if_neg (by omega)]
    · intro k hk; rw [if_neg (by omega)]
  obtain ⟨ε, a1, a2, a3, a4⟩ := r1.ex
  have hVT : ∀ p, j < p → p < n → rowS A3 p j = T p j := fun p h1 _ => by rw [rowS, lT p h1]
  set v := vf n (rowS A3) j with hv
  have hvA : ∀ q, j < q → q < n+1 → A3 q j = v q := fun q h1 h2 => by
    rw [hv, vf_eq h1 h2]
    by_cases hq : q = j+1
    · rw [if_pos hq, hq, l11]
    · rw [if_neg hq, rowS, show q - 1 + 1 = q by omega]
  have hfull : ∀ i p, j < i → j < p → symFull h A3 i p = symFull h s.A i p := fun i p h1 h2 =>
    symFull_congr (fun _ => l1 i p (by omega)) (fun _ => l1 p i (by omega))
  -- the product with the new vector
  have hz0 : ∀ i, j < i → i < n+1 → bZ0 h (n+1) j1 j b A3 s.Z i = cj h b * ∑ q ∈ Finset.Ico (j+1) (n+1), X i q * cj h (star (v q)) := by
    intro i h1 h2
    have hu : ∀ q, q ∈ Finset.Ico (j+1) (n+1) → (if h then A3 q j else star (A3 q j)) = cj h (star (v q)) := fun q hq => by
      rw [Finset.mem_Ico] at hq
      rw [cj_star, hvA q (by omega) (by omega)]
    have hs : ∀ f : Nat → K, ∑ q ∈ Finset.Ico (j+1) (n+1), f q * (if h then A3 q j else star (A3 q j)) = ∑ q ∈ Finset.Ico (j+1) (n+1), f q * cj h (star (v q)) :=
      fun f => Finset.sum_congr rfl fun q hq => by rw [hu q hq]
    unfold bZ0
    simp only [← hr]
    rw [hX, sum_vir, mul_comm (cj h b), hs]
    congr 2
    · congr 1
      · refine Finset.sum_congr rfl fun q hq => ?_
        rw [Finset.mem_Ico] at hq
        rw [hfull i q h1 (by omega)]
      · refine Finset.sum_congr rfl fun k hk => ?_
        rw [Finset.mem_range] at hk
        rw [l1 i _ (by omega), hs]
    · refine Finset.sum_congr rfl fun k hk => ?_
      rw [Finset.mem_range] at hk
      rw [hs]
      congr 1
      refine Finset.sum_congr rfl fun q hq => ?_
      rw [l1 q _ (by omega)]
  have hk := sym_kappaI (h := h) (lo := j+1) (N := n+1) (v := v) (S := X) (fun i p a b c d => hsym i p a b c d)
  set κ := ∑ r ∈ Finset.Ico (j+1) (n+1), star (v r) * ∑ q ∈ Finset.Ico (j+1) (n+1), X r q * cj h (star (v q)) with hκ
  have hc : (((1/2 : ℝ) : K) * cj h b * ∑ q ∈ Finset.Ico (j+1) (n+1), cj h (bZ0 h (n+1) j1 j b A3 s.Z q) * (if h then A3 q j else star (A3 q j))) =
      ((1/2 : ℝ) : K) * (b * cj h b * κ) := by
    have : ∑ q ∈ Finset.Ico (j+1) (n+1), cj h (bZ0 h (n+1) j1 j b A3 s.Z q) * (if h then A3 q j else star (A3 q j)) = b * cj h κ := by
      rw [hκ, cj_sum, Finset.mul_sum]
      refine Finset.sum_congr rfl fun q hq => ?_
      rw [Finset.mem_Ico] at hq
      rw [hz0 q (by omega) (by omega), ← cj_star, hvA q (by omega) (by omega), cj_mul, cj_mul, cj_inv]
      ring
    rw [this, hk]
    ring
  have hZn : ∀ i, j < i → i < n+1 → Z' i r = cj h b * (∑ q ∈ Finset.Ico (j+1) (n+1), X i q * cj h (star (v q))) - ((1/2 : ℝ) : K) * (b * cj h b * κ) * v i := by
    intro i h1 h2
    rw [hZ', bZ, if_pos ⟨rfl, h1, h2⟩, hc, hz0 i h1 h2, hvA i h1 h2]
  have hZo : ∀ i k, k < r → Z' i k = s.Z i k := fun i k hk => by rw [hZ', bZ, if_neg (by omega)]
  have i1 := step_both i0 ht hjn (by rw [if_pos rfl]; exact r1.valid.congr fun p h1 h2 => (hVT p h1 h2).symm)
    (fun h0 p h1 h2 => by rw [if_pos rfl] at h0; rw [hVT p h1 h2]; exact r1.bz h0 p h1 h2) ε a1 a2
    (fun h0 => a3 (by simp only [if_true] at h0; rw [r1.re]; exact h0))
    (by exact ljj)
    (by exact cj_real h (by rw [RCLike.ofReal_re]))
    (fun p h1 h2 => by
      simp only
      rw [if_pos trivial, if_pos trivial, H_congr hVT, ← r1.re, ← a4 p h1 h2]
      refine H_tail (fun q h1 h2 => ?_) h1 h2
      rw [rowS, c1 (q+1) (by omega) (by omega)])
    (X1 := vir h j1 (j+1-j1) A3 Z') (fun i p h1 h2 h3 h4 => by
      simp only
      rw [if_pos trivial, show j + 1 - j1 = r + 1 by omega, vir, Finset.sum_range_succ, Finset.sum_range_succ, show j1 + r = j by omega, hZn i h1 h2, hZn p h3 h4,
        hvA i h1 h2, hvA p h3 h4, hfull i p h1 h3]
      have e1 : ∑ k ∈ Finset.range r, A3 i (j1+k) * cj h (Z' p k) = ∑ k ∈ Finset.range r, s.A i (j1+k) * cj h (s.Z p k) :=
        Finset.sum_congr rfl fun k hk => by rw [Finset.mem_range] at hk; rw [l1 i _ (by omega), hZo p k hk]
      have e2 : ∑ k ∈ Finset.range r, Z' i k * cj h (A3 p (j1+k)) = ∑ k ∈ Finset.range r, s.Z i k * cj h (s.A p (j1+k)) :=
        Finset.sum_congr rfl fun k hk => by rw [Finset.mem_range] at hk; rw [l1 p _ (by omega), hZo i k hk]
      have e3 : symFull h s.A i p - (∑ k ∈ Finset.range r, s.A i (j1+k) * cj h (s.Z p k)) - ∑ k ∈ Finset.range r, s.Z i k * cj h (s.A p (j1+k)) = X i p := rfl
      rw [e1, e2, lrI, ← hκ]
      simp only [cj_sub, cj_mul, cj_inv, hk]
      rw [cj_real h (x := ((1/2 : ℝ) : K)) (by rw [RCLike.ofReal_re])]
      rw [← e3]
      have e4 : (((1/2 : ℝ) : K)) * 2 = 1 := by push_cast; norm_num
      linear_combination (b * cj h b * κ * v i * cj h (v p)) * e4)
  refine ⟨i1, ?_⟩
  simp only
  rw [d1, hI.det, Finset.prod_range_succ, if_pos rfl]
  have e1 : ∏ k ∈ Finset.range j, dfac (if k = j then b else s.b k) = ∏ k ∈ Finset.range j, dfac (s.b k) :=
    Finset.prod_congr rfl fun k hk => by rw [Finset.mem_range] at hk; rw [if_neg (by omega)]
  rw [e1]
  ring

theorem bTail_spec {j1 j2 : Nat} (hj : j1 ≤ j2) {A0 : Nat → Nat → K} {det0 : K} {s : BSt K}
    (hI : BI h tiny n j1 j2 A0 det0 s) : BI h tiny n j2 j2 A0 det0 (bTail h (n+1) j1 j2 s) := by
  have hA : ∀ i p, ¬ (j2 ≤ p ∧ p ≤ i ∧ i < n+1) → (bTail h (n+1) j1 j2 s).A i p = s.A i p := fun i p hc => by
    simp only [bTail]
    rw [if_neg hc]
  have hB : ∀ i p, j2 ≤ p → p ≤ i → i < n+1 → (bTail h (n+1) j1 j2 s).A i p = vir h j1 (j2-j1) s.A s.Z i p := fun i p h1 h2 h3 => by
    simp only [bTail]
    rw [if_pos ⟨h1, h2, h3⟩, vir, symFull, if_pos h2]
  refine ⟨hI.inv.congr ?_ ?_ (fun _ _ => rfl) (fun _ _ => rfl), hI.det⟩
  · intro i p hi hp
    by_cases hc : j2 ≤ i ∧ j2 ≤ p
    · rw [Ck_pos hc, Ck_pos hc, vir.eq_def h j2, Nat.sub_self]
      simp only [Finset.range_zero, Finset.sum_empty, sub_zero]
      rw [symFull]
      by_cases hpi : p ≤ i
      · rw [if_pos hpi, hB i p hc.2 hpi hi]
      · rw [if_neg hpi, hB p i hc.1 (by omega) hp]
        have := hI.inv.sym i p hi hp
        rwa [Ck_pos hc, Ck_pos hc.symm] at this
    · rw [Ck_neg hc, Ck_neg hc, tri, tri]
      by_cases h1 : i = p
      · rw [if_pos h1, if_pos h1, hA i i (by omega)]
      · rw [if_neg h1, if_neg h1]
        rfl
  · intro p k h1 _ _
    exact (hA (p+1) k (by omega)).symm

theorem bLoop_spec (ht : 0 < tiny) {nb : Nat} (hnb : 0 < nb) {A0 : Nat → Nat → K} {det0 : K} (m : Nat) :
    ∀ (j1 : Nat) (s : BSt K), n - j1 ≤ m → j1 ≤ n → BI h tiny n j1 j1 A0 det0 s → ∃ j2, BI h tiny n j2 n A0 det0 (bLoop h tiny nb (n+1) j1 s) ∧ j2 = n := by
  induction m with
  | zero =>
    intro j1 s h1 h2 h3
    obtain rfl : j1 = n := by omega
    rw [bLoop, dif_neg (by omega)]
    exact ⟨j1, h3, rfl⟩
  | succ m ih =>
    intro j1 s h1 h2 h3
    rw [bLoop]
    by_cases hc : j1 < n
    · rw [dif_pos ⟨by omega, hnb⟩, Nat.add_sub_cancel]
      simp only
      have := up_succ (bStep h tiny (n+1) j1) (fun j t => BI h tiny n j1 j A0 det0 t) (min n (j1+nb) - j1) j1 s h3
        (fun j t a b c => bStep_spec ht a (by omega) c)
      rw [show j1 + (min n (j1+nb) - j1) = min n (j1+nb) by omega] at this
      exact ih _ _ (by omega) (by omega) (bTail_spec (by omega) this)
    · obtain rfl : j1 = n := by omega
      rw [dif_neg (by omega)]
      exact ⟨j1, h3, rfl⟩

theorem block_spec (ht : 0 < tiny) {nb : Nat} (hnb : 0 < nb) (Z : Nat → Nat → K) (s : St K) (hs : h = true → ∀ k, k < n+1 → RCLike.im (s.A k k) = 0) :
    Done h tiny n (symFull h s.A) s.det (block h tiny nb (n+1) Z s) := by
  have hr : ∀ k, k < n+1 → cj h (s.A k k) = s.A k k := fun k hk => by
    cases h
    · rfl
    · exact RCLike.conj_eq_iff_im.mpr (hs rfl k hk)
  obtain ⟨j2, hI, rfl⟩ := bLoop_spec (h := h) ht hnb n 0 { s with Z := Z } (by omega) (by omega) (A0 := symFull h s.A) (det0 := s.det)
    ⟨(Inv.zero (symFull h s.A) (rowS s.A) s.b (fun k => ((s.E k : ℝ) : K)) (fun i p hi hp => symFull_sym s.A i p (hr i hi))).congr
      (fun i p _ _ => by rw [Ck_pos (by omega), vir]; simp) (fun _ _ h => by omega) (fun _ h => by omega) (fun _ h => by omega), by simp⟩
  unfold block
  set t := bLoop h tiny nb (j2+1) 0 { s with Z := Z }
  refine ⟨done_of hI.inv ?_ (fun _ _ => rfl) (fun k hk => rfl), ?_⟩
  · rw [vir, Nat.sub_self, symFull, if_pos le_rfl]
    simp
  · simp only
    rw [hI.det]

end
end TMV.Tridiag
