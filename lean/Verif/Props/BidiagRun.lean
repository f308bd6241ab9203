import Verif.Props.BidiagStep

/-! The loops of `NonBlockBidiagonalize` and `BlockBidiagonalize` (for C102). -/
namespace TMV.Bidiag
noncomputable section
open Classical Matrix TMV.QR
variable {K : Type} [RCLike K]

/-- What `HouseholderReflect` of column `j` does. -/
structure Rc (tiny : ℝ) (M j : Nat) (x : Nat → K) (A' : Nat → Nat → K) (b : K) : Prop where
  valid : Valid M A' j b
  bz : b = 0 → ∀ p, j < p → p < M → A' p j = 0
  re : A' j j = ((RCLike.re (A' j j) : ℝ) : K)
  ex : ∃ ε : Nat → K, (∀ p, p < j → ε p = 0) ∧ nsq M ε ≤ M * tiny ^ 2 ∧ (A' j j ≠ 0 → ε = fun _ => 0) ∧
    ∀ p, j ≤ p → p < M → H M A' j b (fun p => x p + ε p) p = if j < p then 0 else A' j j

theorem reflectCol_rc (tiny : ℝ) (ht : 0 < tiny) (M j : Nat) (hj : j < M) (A : Nat → Nat → K) (det : K) :
    Rc tiny M j (fun p => A p j) (reflectCol tiny M j A det).1 (reflectCol tiny M j A det).2.1 ∧
    (∀ p c, ¬ (c = j ∧ j ≤ p ∧ p < M) → (reflectCol tiny M j A det).1 p c = A p c) ∧
    (reflectCol tiny M j A det).2.2 = det * dfac (reflectCol tiny M j A det).2.1 := by
  obtain ⟨h, hd⟩ := reflectCol_spec tiny ht M j hj A det (fun _ => (reflectCol tiny M j A det).2.1) rfl
  refine ⟨⟨h.valid j le_rfl (by omega), h.bz j le_rfl (by omega), ?_, ?_⟩, ?_, hd⟩
  · have hjj : (reflectCol tiny M j A det).1 j j = (reflect tiny (M-(j+1)) (A j j) (fun i => A (j+1+i) j) det).x0 := by
      simp [reflectCol]
    rw [hjj]
    obtain ⟨_, ⟨_, _, _, ⟨h1, h2, _⟩ | ⟨h1, _, _⟩⟩ | ⟨_, _, y, h1, _⟩⟩ := reflect_cases tiny ht (M-(j+1)) (A j j) (fun i => A (j+1+i) j) det
    · rw [h1]
      exact (RCLike.conj_eq_iff_re.mp (RCLike.conj_eq_iff_im.mpr h2)).symm
    · rw [h1]; simp
    · rw [h1]; simp
  · obtain ⟨ε, e1, e2, e3, e4⟩ := h.cols j le_rfl (by omega)
    refine ⟨ε, fun p hp => e1 p (Or.inl hp), e2, e3, fun p h1 h2 => ?_⟩
    have := congrFun e4 p
    rw [show j+1-j = 1 by omega] at this
    refine (show _ = _ from this).trans ?_
    by_cases hp : j < p
    · rw [if_pos ⟨hp, h2⟩, if_pos hp]
    · rw [if_neg (by omega), if_neg hp, show p = j by omega]
  · intro p c hc
    simp only [reflectCol]
    rw [if_neg (by omega), if_neg (by omega)]

theorem reflectMat_rc (tiny : ℝ) (ht : 0 < tiny) (M N j : Nat) (hj : j < M) (hN : j+1 ≤ N) (A : Nat → Nat → K) (det : K) :
    Rc tiny M j (fun p => A p j) (reflectMat tiny M N j A det).1 (reflectMat tiny M N j A det).2.1 ∧
    (∀ p c, p < j ∨ M ≤ p ∨ c < j ∨ N ≤ c → (reflectMat tiny M N j A det).1 p c = A p c) ∧
    (∀ p c, j < c → c < N → (reflectMat tiny M N j A det).1 p c =
      H M (reflectMat tiny M N j A det).1 j (reflectMat tiny M N j A det).2.1 (fun p => A p c) p) ∧
    (reflectMat tiny M N j A det).2.2 = det * dfac (reflectMat tiny M N j A det).2.1 := by
  obtain ⟨h, hd⟩ := reflectMat_spec tiny ht M N j hj hN A det (fun _ => (reflectMat tiny M N j A det).2.1) rfl
  obtain ⟨⟨v, bz, re, ex⟩, hf, _⟩ := reflectCol_rc tiny ht M j hj A det
  have hcol : ∀ p, (reflectMat tiny M N j A det).1 p j = (reflectCol tiny M j A det).1 p j := by
    intro p
    show (if (reflectCol tiny M j A det).2.1 ≠ 0 then lmult M j (j+1) N (reflectCol tiny M j A det).1
      (reflectCol tiny M j A det).2.1 (reflectCol tiny M j A det).1 else (reflectCol tiny M j A det).1) p j = _
    split
    · unfold lmult
      split
      · rfl
      · dsimp only
        rw [if_neg (by omega)]
    · rfl
  have hb : (reflectMat tiny M N j A det).2.1 = (reflectCol tiny M j A det).2.1 := rfl
  have hH : ∀ b x, H M (reflectMat tiny M N j A det).1 j b x = H M (reflectCol tiny M j A det).1 j b x := by
    intro b x
    have : hv M (reflectMat tiny M N j A det).1 j = hv M (reflectCol tiny M j A det).1 j := by
      funext p; simp only [hv, hcol]
    funext i
    rw [H, H, this]
  refine ⟨⟨h.valid j le_rfl (by omega), h.bz j le_rfl (by omega), by rw [hcol]; exact re, ?_⟩, h.frame, fun p c h1 h2 => congrFun (h.trail c h1 h2) p, hd⟩
  obtain ⟨ε, e1, e2, e3, e4⟩ := ex
  exact ⟨ε, e1, e2, by rw [hcol]; exact e3, fun p h1 h2 => by rw [hH, hb, hcol]; exact e4 p h1 h2⟩

theorem Rc.congr {tiny : ℝ} {M j : Nat} {x y : Nat → K} {A : Nat → Nat → K} {b : K} (h : Rc tiny M j x A b) (hx : ∀ p, j ≤ p → p < M → x p = y p) :
    Rc tiny M j y A b := by
  refine ⟨h.valid, h.bz, h.re, ?_⟩
  obtain ⟨ε, e1, e2, e3, e4⟩ := h.ex
  refine ⟨ε, e1, e2, e3, fun p h1 h2 => ?_⟩
  rw [← e4 p h1 h2]
  exact H_tail (fun q h1 h2 => by rw [hx q h1 h2]) h1 h2

/-- The state before pass `j` of `NonBlockBidiagonalize`. -/
structure NI (tiny : ℝ) (M n j : Nat) (A0 : Nat → Nat → K) (det0 : K) (s : St K) : Prop where
  inv : Inv tiny M n j j A0 (Ck j s.A (fun k => s.A k k) (fun k => s.A k (k+1))) s.A (rowT s.A) s.ub s.vb (fun k => s.A k k) (fun k => s.A k (k+1))
  re : ∀ k, k < j → s.A k k = ((RCLike.re (s.A k k) : ℝ) : K) ∧ s.A k (k+1) = ((RCLike.re (s.A k (k+1)) : ℝ) : K)
  det : s.det = det0 * ((∏ k ∈ Finset.range j, dfac (s.ub k)) * ∏ k ∈ Finset.range j, dfac (s.vb k))

theorem nbStep_spec {tiny : ℝ} (ht : 0 < tiny) {M n j : Nat} (hjn : j < n) (hM : n < M) {A0 : Nat → Nat → K} {det0 : K} {s : St K}
    (h : NI tiny M n j A0 det0 s) : NI tiny M n (j+1) A0 det0 (nbStep tiny M (n+1) j s) := by
  obtain ⟨r1, f1, t1, d1⟩ := reflectMat_rc tiny ht M (n+1) j (by omega) (by omega) s.A s.det
  unfold nbStep
  rcases hR : reflectMat tiny M (n+1) j s.A s.det with ⟨A1, b, det1⟩
  rw [hR] at r1 f1 t1 d1
  simp only at r1 f1 t1 d1 ⊢
  rw [Nat.add_sub_cancel]
  obtain ⟨r2, f2, t2, d2⟩ := reflectMat_rc tiny ht n M j (by omega) (by omega) (rowT A1) det1
  rcases hR2 : reflectMat tiny n M j (rowT A1) det1 with ⟨T, g, det2⟩
  rw [hR2] at r2 f2 t2 d2
  simp only at r2 f2 t2 d2 ⊢
  have u1 : ∀ i p, p ≤ j → unrowT A1 T i p = A1 i p := by
    intro i p hp
    unfold unrowT
    split
    · rfl
    · rw [f2 _ _ (Or.inl (by omega)), rowT, show p - 1 + 1 = p by omega]
  have u2 : ∀ i p, i < j → unrowT A1 T i p = A1 i p := by
    intro i p hp
    unfold unrowT
    split
    · rfl
    · rw [f2 _ _ (Or.inr (Or.inr (Or.inl hp))), rowT, show p - 1 + 1 = p by omega]
  have u3 : ∀ i p, unrowT A1 T i (p+1) = T p i := by
    intro i p; unfold unrowT; rw [if_neg (by omega), Nat.add_sub_cancel]
  have lo : ∀ i p, i < j ∨ p < j → unrowT A1 T i p = s.A i p := by
    rintro i p (hi | hp)
    · rw [u2 i p hi, f1 i p (Or.inl hi)]
    · rw [u1 i p hp.le, f1 i p (Or.inr (Or.inr (Or.inl hp)))]
  obtain ⟨ε1, a1, a2, a3, a4⟩ := r1.ex
  obtain ⟨ε2, b1, b2, b3, b4⟩ := r2.ex
  have hvc : ∀ p k, k ≤ j → A1 p k = unrowT A1 T p k := fun p k hk => (u1 p k hk).symm
  have hvr : ∀ p k, T p k = rowT (unrowT A1 T) p k := fun p k => (u3 k p).symm
  have i0 : Inv tiny M n j j A0 (Ck j s.A (fun k => unrowT A1 T k k) (fun k => unrowT A1 T k (k+1))) (unrowT A1 T) (rowT (unrowT A1 T))
      (fun k => if k = j then b else s.ub k) (fun k => if k = j then g else s.vb k) (fun k => unrowT A1 T k k) (fun k => unrowT A1 T k (k+1)) := by
    refine h.inv.congr ?_ ?_ ?_ ?_ ?_ ?_ ?_
    · intro i p hi hp
      by_cases hc : j ≤ i ∧ j ≤ p
      · rw [Ck_pos hc, Ck_pos hc]
      · rw [Ck_neg hc, Ck_neg hc]
        unfold bi
        split
        · exact (lo i i (by omega)).symm
        · split
          · exact (lo i (i+1) (by omega)).symm
          · rfl
    · intro p k h1 _ _; exact (lo p k (Or.inr h1)).symm
    · intro p k h1 _ _; exact (lo k (p+1) (Or.inl h1)).symm
    · intro k hk; rw [if_neg (by omega)]
    · intro k hk; rw [if_neg (by omega)]
    · intro k hk; exact (lo k k (Or.inl hk)).symm
    · intro k hk; exact (lo k (k+1) (Or.inl hk)).symm
  have hH1 : ∀ b x i, H M (unrowT A1 T) j b x i = H M A1 j b x i := by
    intro b x i
    have : hv M (unrowT A1 T) j = hv M A1 j := by funext p; simp only [hv, u1 p j le_rfl]
    rw [H, H, this]
  have hH2 : ∀ b x i, H n (rowT (unrowT A1 T)) j b x i = H n T j b x i := by
    intro b x i
    have : hv n (rowT (unrowT A1 T)) j = hv n T j := by funext p; simp only [hv, ← hvr]
    rw [H, H, this]
  have i1 := step_col i0 ht (by omega) (by rw [if_pos rfl]; exact r1.valid.congr fun p _ _ => hvc p j le_rfl)
    (fun h0 p h1 h2 => by rw [if_pos rfl] at h0; rw [← hvc p j le_rfl]; exact r1.bz h0 p h1 h2) ε1 a1 a2
    (fun h0 => a3 (by rw [hvc j j le_rfl]; exact h0))
    (fun p h1 h2 => by rw [if_pos rfl, hH1, a4 p h1 h2, hvc j j le_rfl])
    (X1 := A1) (fun i p h1 h2 h3 h4 => by rw [if_pos rfl, hH1, t1 i p h3 h4])
  have i2 := step_row i1 ht (by omega) (by rw [if_pos rfl]; exact r2.valid.congr fun p _ _ => hvr p j)
    (fun h0 p h1 h2 => by rw [if_pos rfl] at h0; rw [← hvr p j]; exact r2.bz h0 p h1 h2) ε2 b1 b2
    (fun h0 => b3 (by rw [← u3]; exact h0))
    (fun p h1 h2 => by rw [if_pos rfl, hH2, u3]; exact b4 p h1 h2)
    (X1 := unrowT A1 T) (fun i p h1 h2 h3 h4 => by rw [if_pos rfl, hH2, u3, t2 p i h1 h2]; rfl)
  refine ⟨i2, ?_, ?_⟩
  · intro k hk
    simp only
    by_cases hkj : k = j
    · subst hkj
      exact ⟨by rw [u1 k k le_rfl]; exact r1.re, by rw [u3]; exact r2.re⟩
    · rw [lo k k (Or.inl (by omega)), lo k (k+1) (Or.inl (by omega))]
      exact h.re k (by omega)
  · simp only
    rw [d2, d1, h.det, Finset.prod_range_succ, Finset.prod_range_succ, if_pos rfl, if_pos rfl]
    have e1 : ∏ k ∈ Finset.range j, dfac (if k = j then b else s.ub k) = ∏ k ∈ Finset.range j, dfac (s.ub k) :=
      Finset.prod_congr rfl fun k hk => by rw [Finset.mem_range] at hk; rw [if_neg (by omega)]
    have e2 : ∏ k ∈ Finset.range j, dfac (if k = j then g else s.vb k) = ∏ k ∈ Finset.range j, dfac (s.vb k) :=
      Finset.prod_congr rfl fun k hk => by rw [Finset.mem_range] at hk; rw [if_neg (by omega)]
    rw [e1, e2]
    ring

theorem up_succ {S : Type} (f : Nat → S → S) (P : Nat → S → Prop) : ∀ (n lo : Nat) (s : S), P lo s → (∀ j s, lo ≤ j → j < lo + n → P j s → P (j+1) (f j s)) →
    P (lo+n) (up f n lo s)
  | 0, _, _, h, _ => h
  | n+1, lo, s, h, hs => by
    have := up_succ f P n (lo+1) (f lo s) (hs lo s le_rfl (by omega) h) fun j s h1 h2 => hs j s (by omega) (by omega)
    rw [show lo + (n+1) = lo + 1 + n by omega]
    exact this

/-- The state when all is done. -/
structure Done (tiny : ℝ) (M n : Nat) (A0 : Nat → Nat → K) (det0 : K) (s : St K) : Prop where
  inv : Inv tiny M n (n+1) n A0 (bi (fun k => ((s.D k : ℝ) : K)) (fun k => ((s.E k : ℝ) : K))) s.A (rowT s.A) s.ub s.vb
    (fun k => ((s.D k : ℝ) : K)) (fun k => ((s.E k : ℝ) : K))
  det : s.det = det0 * ((∏ k ∈ Finset.range (n+1), dfac (s.ub k)) * ∏ k ∈ Finset.range n, dfac (s.vb k))

/-- The last column. -/
theorem last_col {tiny : ℝ} (ht : 0 < tiny) {M n : Nat} (hM : n < M) {A0 : Nat → Nat → K} {det0 : K} {s : St K} (d e : Nat → K)
    (hinv : Inv tiny M n n n A0 (Ck n s.A d e) s.A (rowT s.A) s.ub s.vb d e)
    (hdet : s.det = det0 * ((∏ k ∈ Finset.range n, dfac (s.ub k)) * ∏ k ∈ Finset.range n, dfac (s.vb k))) (D E : Nat → ℝ)
    (hD : ∀ k, k < n → d k = ((D k : ℝ) : K)) (hE : ∀ k, k < n → e k = ((E k : ℝ) : K))
    (hDn : D n = RCLike.re ((reflectCol tiny M n s.A s.det).1 n n)) :
    Done tiny M n A0 det0 ⟨(reflectCol tiny M n s.A s.det).1, fun k => if k = n then (reflectCol tiny M n s.A s.det).2.1 else s.ub k, s.vb,
      D, E, (reflectCol tiny M n s.A s.det).2.2⟩ := by
  obtain ⟨r1, f1, d1⟩ := reflectCol_rc tiny ht M n hM s.A s.det
  rcases hR : reflectCol tiny M n s.A s.det with ⟨A1, b, det1⟩
  rw [hR] at r1 f1 d1 hDn
  simp only at r1 f1 d1 hDn ⊢
  obtain ⟨ε1, a1, a2, a3, a4⟩ := r1.ex
  have hr : A1 n n = ((D n : ℝ) : K) := by rw [hDn]; exact r1.re
  have i0 : Inv tiny M n n n A0 (Ck n s.A (fun k => ((D k : ℝ) : K)) (fun k => ((E k : ℝ) : K))) A1 (rowT A1)
      (fun k => if k = n then b else s.ub k) s.vb (fun k => ((D k : ℝ) : K)) (fun k => ((E k : ℝ) : K)) := by
    refine hinv.congr ?_ ?_ ?_ ?_ ?_ ?_ ?_
    · intro i p hi hp
      by_cases hc : n ≤ i ∧ n ≤ p
      · rw [Ck_pos hc, Ck_pos hc]
      · rw [Ck_neg hc, Ck_neg hc]
        unfold bi
        split
        · rw [hD i (by omega)]
        · split
          · rw [hE i (by omega)]
          · rfl
    · intro p k h1 _ _; exact (f1 p k (by omega)).symm
    · intro p k h1 h2 h3; exact (f1 k (p+1) (by omega)).symm
    · intro k hk; rw [if_neg (by omega)]
    · intro k hk; rfl
    · exact hD
    · exact hE
  have i1 := step_col i0 ht (by omega) (by rw [if_pos rfl]; exact r1.valid)
    (fun h0 p h1 h2 => by rw [if_pos rfl] at h0; exact r1.bz h0 p h1 h2) ε1 a1 a2
    (fun h0 => a3 (by rw [hr]; exact h0))
    (fun p h1 h2 => by rw [if_pos rfl, a4 p h1 h2, hr])
    (X1 := A1) (fun i p h1 h2 h3 h4 => by omega)
  refine ⟨i1.congr (fun i p hi hp => by rw [Cc_neg (by omega)]) (fun _ _ _ _ _ => rfl) (fun _ _ _ _ _ => rfl) (fun _ _ => rfl) (fun _ _ => rfl) (fun _ _ => rfl) (fun _ _ => rfl), ?_⟩
  simp only
  rw [d1, hdet, Finset.prod_range_succ, if_pos rfl]
  have e1 : ∏ k ∈ Finset.range n, dfac (if k = n then b else s.ub k) = ∏ k ∈ Finset.range n, dfac (s.ub k) :=
    Finset.prod_congr rfl fun k hk => by rw [Finset.mem_range] at hk; rw [if_neg (by omega)]
  rw [e1]
  ring

theorem nonBlock_spec {tiny : ℝ} (ht : 0 < tiny) {M n : Nat} (hM : n < M) (s : St K) :
    Done tiny M n s.A s.det (nonBlock tiny M (n+1) s) := by
  have h := up_succ (nbStep tiny M (n+1)) (fun j t => NI tiny M n j s.A s.det t) n 0 s
    ⟨(Inv.zero tiny M n s.A s.A s.A s.ub s.vb s.ub s.vb).congr (fun i p _ _ => by rw [Ck_pos (by omega)]) (fun _ _ h => by omega) (fun _ _ h => by omega)
      (fun _ h => by omega) (fun _ h => by omega) (fun _ h => by omega) (fun _ h => by omega), fun k h => by omega, by simp⟩
    (fun j t _ h2 h => nbStep_spec ht (by omega) hM h)
  rw [Nat.zero_add] at h
  unfold nonBlock
  rw [Nat.add_sub_cancel]
  have hf := (reflectCol_rc tiny ht M n hM (up (nbStep tiny M (n+1)) n 0 s).A (up (nbStep tiny M (n+1)) n 0 s).det).2.1
  refine last_col ht hM (s := up (nbStep tiny M (n+1)) n 0 s) (fun k => (up (nbStep tiny M (n+1)) n 0 s).A k k)
    (fun k => (up (nbStep tiny M (n+1)) n 0 s).A k (k+1)) h.inv h.det
    (fun k => if k < n+1 then RCLike.re ((reflectCol tiny M n (up (nbStep tiny M (n+1)) n 0 s).A (up (nbStep tiny M (n+1)) n 0 s).det).1 k k)
      else (up (nbStep tiny M (n+1)) n 0 s).D k)
    (fun k => if k < n then RCLike.re ((reflectCol tiny M n (up (nbStep tiny M (n+1)) n 0 s).A (up (nbStep tiny M (n+1)) n 0 s).det).1 k (k+1))
      else (up (nbStep tiny M (n+1)) n 0 s).E k) ?_ ?_ ?_
  · intro k hk
    rw [if_pos (by omega), hf k k (by omega)]
    exact (h.re k hk).1
  · intro k hk
    rw [if_pos hk, hf k (k+1) (by omega)]
    exact (h.re k hk).2
  · rw [if_pos (by omega)]

/-! ### Blocks -/

/-- `A - Y Z - W X` for the `r` columns of `Y` and the `c` rows of `X` that are in `A` from `j1` on. -/
def vir (j1 r c : Nat) (A Z W : Nat → Nat → K) (i p : Nat) : K :=
  A i p - (∑ k ∈ Finset.range r, A i (j1+k) * Z k p) - ∑ k ∈ Finset.range c, W i k * A (j1+k) p

/-- The state before pass `j` of `BlockBidiagonalize` in a block that begins at `j1`. -/
structure BI (tiny : ℝ) (M n j1 j : Nat) (A0 : Nat → Nat → K) (det0 : K) (s : BSt K) : Prop where
  inv : Inv tiny M n j j A0 (Ck j (vir j1 (j-j1) (j-j1) s.A s.Z s.W) (fun k => ((s.D k : ℝ) : K)) (fun k => ((s.E k : ℝ) : K))) s.A (rowT s.A) s.ub s.vb
    (fun k => ((s.D k : ℝ) : K)) (fun k => ((s.E k : ℝ) : K))
  det : s.det = det0 * ((∏ k ∈ Finset.range j, dfac (s.ub k)) * ∏ k ∈ Finset.range j, dfac (s.vb k))

theorem ip_hv_one {M j : Nat} {V : Nat → Nat → K} (h1 : V j j = 1) (hj : j ≤ M) (x : Nat → K) :
    ip M (hv M V j) x = ∑ q ∈ Finset.Ico j M, star (V q j) * x q := by
  rw [ip_hv M j V j le_rfl hj]
  refine Finset.sum_congr rfl fun q hq => ?_
  rw [Finset.mem_Ico] at hq
  unfold ul
  rw [if_neg (by omega)]
  split
  · rw [‹q = j›, h1]
  · rfl

theorem H_one {M j : Nat} {V : Nat → Nat → K} (h1 : V j j = 1) (b : K) (x : Nat → K) {i : Nat} (h2 : j ≤ i) (h3 : i < M) :
    H M V j b x i = x i - V i j * ((∑ q ∈ Finset.Ico j M, star (V q j) * x q) * b) := by
  rw [H, ip_hv_one h1 (by omega), hv, if_neg (by omega), if_pos h3, mul_comm b]
  congr 2
  split
  · rw [‹i = j›, h1]
  · rfl

theorem sum_vir (S : Finset Nat) (c : Nat → K) (j1 r q : Nat) (A Z W : Nat → Nat → K) (p : Nat) :
    ∑ i ∈ S, c i * vir j1 r q A Z W i p = (∑ i ∈ S, c i * A i p)
      - (∑ k ∈ Finset.range r, (∑ i ∈ S, c i * A i (j1+k)) * Z k p)
      - ∑ k ∈ Finset.range q, (∑ i ∈ S, c i * W i k) * A (j1+k) p := by
  unfold vir
  simp only [mul_sub, Finset.sum_sub_distrib, Finset.mul_sum, Finset.sum_mul]
  rw [Finset.sum_comm (s := S) (t := Finset.range r), Finset.sum_comm (s := S) (t := Finset.range q)]
  simp only [mul_assoc]

theorem sum_vir' (S : Finset Nat) (c : Nat → K) (j1 r q : Nat) (A Z W : Nat → Nat → K) (i : Nat) :
    ∑ p ∈ S, vir j1 r q A Z W i p * c p = (∑ p ∈ S, A i p * c p)
      - (∑ k ∈ Finset.range r, A i (j1+k) * ∑ p ∈ S, Z k p * c p)
      - ∑ k ∈ Finset.range q, W i k * ∑ p ∈ S, A (j1+k) p * c p := by
  unfold vir
  simp only [sub_mul, Finset.sum_sub_distrib, Finset.mul_sum, Finset.sum_mul]
  rw [Finset.sum_comm (s := S) (t := Finset.range r), Finset.sum_comm (s := S) (t := Finset.range q)]
  simp only [mul_assoc]

theorem vir_congr {j1 r c : Nat} {A Z W A' Z' W' : Nat → Nat → K} {i p : Nat} (h0 : A i p = A' i p) (h1 : ∀ k, k < r → A i (j1+k) = A' i (j1+k))
    (h2 : ∀ k, k < r → Z k p = Z' k p) (h3 : ∀ k, k < c → W i k = W' i k) (h4 : ∀ k, k < c → A (j1+k) p = A' (j1+k) p) :
    vir j1 r c A Z W i p = vir j1 r c A' Z' W' i p := by
  unfold vir
  rw [h0]
  congr 1
  · congr 1
    refine Finset.sum_congr rfl fun k hk => ?_
    rw [Finset.mem_range] at hk
    rw [h1 k hk, h2 k hk]
  · refine Finset.sum_congr rfl fun k hk => ?_
    rw [Finset.mem_range] at hk
    rw [h3 k hk, h4 k hk]

theorem bStep_spec {tiny : ℝ} (ht : 0 < tiny) {M n j1 j : Nat} (hj1 : j1 ≤ j) (hjn : j < n) (hM : n < M) {A0 : Nat → Nat → K} {det0 : K} {s : BSt K}
    (h : BI tiny M n j1 j A0 det0 s) : BI tiny M n j1 (j+1) A0 det0 (bStep tiny M (n+1) j1 j s) := by
  set X := vir j1 (j-j1) (j-j1) s.A s.Z s.W with hX
  obtain ⟨r1, f1, d1⟩ := reflectCol_rc tiny ht M j (by omega) (bCol M j1 j s.A s.Z s.W) s.det
  rcases hR : reflectCol tiny M j (bCol M j1 j s.A s.Z s.W) s.det with ⟨A2, b, det1⟩
  rw [hR] at r1 f1 d1
  simp only at r1 f1 d1
  set A3 := setOne j j A2 with hA3
  set Z' := bZ M (n+1) j1 j b A3 s.Z s.W with hZ'
  set A4 := bRow (n+1) j1 j A3 Z' s.W with hA4
  obtain ⟨r2, f2, d2⟩ := reflectCol_rc tiny ht n j (by omega) (rowT A4) det1
  rcases hR2 : reflectCol tiny n j (rowT A4) det1 with ⟨T, g, det2⟩
  rw [hR2] at r2 f2 d2
  simp only at r2 f2 d2
  set A6 := setOne j (j+1) (unrowT A4 T) with hA6
  set W' := bW M (n+1) j1 j g A6 Z' s.W with hW'
  -- what is where
  have l1 : ∀ i p, ¬ (p = j ∧ j ≤ i ∧ i < M) → A3 i p = s.A i p := by
    intro i p hc
    rw [hA3, setOne, if_neg (by omega), f1 i p hc, bCol, if_neg hc]
  have l2 : ∀ i p, ¬ (i = j ∧ j < p ∧ p < n+1) → A6 i p = A3 i p := by
    intro i p hc
    rw [hA6, setOne, if_neg (by omega), unrowT]
    have : A4 i p = A3 i p := by rw [hA4, bRow, if_neg hc]
    split
    · exact this
    · rw [f2 _ _ (by omega), rowT, show p - 1 + 1 = p by omega, this]
  have lo : ∀ i p, i < j ∨ p < j → A6 i p = s.A i p := fun i p hc => by rw [l2 i p (by omega), l1 i p (by omega)]
  have lo2 : ∀ i p, i ≠ j → p ≠ j → A6 i p = s.A i p := fun i p h1 h2 => by rw [l2 i p (by omega), l1 i p (by omega)]
  have A3jj : A3 j j = 1 := by rw [hA3, setOne, if_pos ⟨rfl, rfl⟩]
  have A6jj : A6 j j = 1 := by rw [l2 j j (by omega), A3jj]
  have A6je : A6 j (j+1) = 1 := by rw [hA6, setOne, if_pos ⟨rfl, rfl⟩]
  have c1 : ∀ i, j < i → A6 i j = A2 i j := fun i hi => by rw [l2 i j (by omega), hA3, setOne, if_neg (by omega)]
  have c2 : ∀ p, j < p → A6 j (p+1) = T p j := fun p hp => by
    rw [hA6, setOne, if_neg (by omega), unrowT, if_neg (by omega), Nat.add_sub_cancel]
  have z1 : ∀ k p, k < j - j1 → Z' k p = s.Z k p := fun k p hk => by rw [hZ', bZ, if_neg (by omega)]
  have w1 : ∀ i k, k < j - j1 → W' i k = s.W i k := fun i k hk => by rw [hW', bW, if_neg (by omega)]
  have z2 : ∀ p, j < p → p < n+1 → Z' (j-j1) p = (∑ i ∈ Finset.Ico j M, star (A6 i j) * X i p) * b := by
    intro p h1 h2
    rw [hZ', bZ, if_pos ⟨rfl, h1, h2⟩, hX, sum_vir]
    have e1 : ∀ i, A3 i j = A6 i j := fun i => (l2 i j (by omega)).symm
    have e2 : ∀ i, A3 i p = s.A i p := fun i => l1 i p (by omega)
    have e3 : ∀ (f : Nat → K), ∑ k ∈ Finset.range (j-j1), (∑ i ∈ Finset.Ico j M, star (A6 i j) * A3 i (j1+k)) * s.Z k p =
        ∑ k ∈ Finset.range (j-j1), (∑ i ∈ Finset.Ico j M, star (A6 i j) * s.A i (j1+k)) * s.Z k p := fun _ =>
      Finset.sum_congr rfl fun k hk => by
        rw [Finset.mem_range] at hk
        congr 1
        exact Finset.sum_congr rfl fun i _ => by rw [l1 i (j1+k) (by omega)]
    simp only [e1, e2]
    rw [e3 0]
  have hx1 : ∀ i p, j ≤ i → i < M → j < p → p < n+1 → vir j1 (j-j1+1) (j-j1) A3 Z' s.W i p = H M A6 j b (fun i => X i p) i := by
    intro i p h1 h2 h3 h4
    rw [H_one A6jj b _ h1 h2, ← z2 p h3 h4]
    have : vir j1 (j-j1+1) (j-j1) A3 Z' s.W i p = vir j1 (j-j1) (j-j1) A3 Z' s.W i p - A3 i j * Z' (j-j1) p := by
      unfold vir
      rw [Finset.sum_range_succ, show j1 + (j-j1) = j by omega]
      ring
    rw [this, l2 i j (by omega), hX]
    congr 1
    exact vir_congr (l1 i p (by omega)) (fun k hk => l1 i (j1+k) (by omega)) (fun k hk => z1 k p hk) (fun _ _ => rfl)
      (fun k hk => l1 (j1+k) p (by omega))
  set X1 := vir j1 (j-j1+1) (j-j1) A3 Z' s.W with hX1
  have hrow : ∀ p, j ≤ p → p < n → rowT A4 p j = X1 j (p+1) := by
    intro p h1 h2
    rw [rowT, hA4, bRow, if_pos ⟨rfl, by omega, by omega⟩]
    rfl
  have hx1' : ∀ i p, j < i → j < p → vir j1 (j-j1+1) (j-j1) A6 Z' s.W i p = X1 i p := by
    intro i p h1 h2
    exact vir_congr (l2 i p (by omega)) (fun k hk => l2 i (j1+k) (by omega)) (fun _ _ => rfl) (fun _ _ => rfl) (fun k hk => l2 (j1+k) p (by omega))
  have w2 : ∀ i, j < i → i < M → W' i (j-j1) = (∑ p ∈ Finset.Ico (j+1) (n+1), X1 i p * star (A6 j p)) * g := by
    intro i h1 h2
    have : ∑ p ∈ Finset.Ico (j+1) (n+1), X1 i p * star (A6 j p) = ∑ p ∈ Finset.Ico (j+1) (n+1), vir j1 (j-j1+1) (j-j1) A6 Z' s.W i p * star (A6 j p) :=
      Finset.sum_congr rfl fun p hp => by rw [Finset.mem_Ico] at hp; rw [hx1' i p h1 (by omega)]
    rw [this, sum_vir', hW', bW, if_pos ⟨rfl, h1, h2⟩]
  have hx2 : ∀ i p, j < i → i < M → j ≤ p → p < n → vir j1 (j+1-j1) (j+1-j1) A6 Z' W' i (p+1) = H n (rowT A6) j g (fun p => X1 i (p+1)) p := by
    intro i p h1 h2 h3 h4
    rw [H_one (V := rowT A6) A6je g _ h3 h4]
    have e1 : (∑ q ∈ Finset.Ico j n, star (rowT A6 q j) * X1 i (q+1)) * g = W' i (j-j1) := by
      rw [w2 i h1 h2, ← Finset.sum_Ico_add' (fun p => X1 i p * star (A6 j p)) j n 1]
      congr 1
      exact Finset.sum_congr rfl fun q _ => mul_comm _ _
    rw [e1, ← hx1' i (p+1) h1 (by omega), show j+1-j1 = j-j1+1 by omega]
    have e2 : vir j1 (j-j1+1) (j-j1+1) A6 Z' W' i (p+1) = vir j1 (j-j1+1) (j-j1) A6 Z' W' i (p+1) - W' i (j-j1) * A6 j (p+1) := by
      unfold vir
      rw [Finset.sum_range_succ _ (j-j1), Finset.sum_range_succ _ (j-j1), show j1 + (j-j1) = j by omega]
      ring
    rw [e2, rowT, mul_comm (W' i (j-j1))]
    congr 1
    exact vir_congr rfl (fun _ _ => rfl) (fun _ _ => rfl) (fun k hk => w1 i k hk) (fun _ _ => rfl)
  have hvc : hv M A6 j = hv M A2 j := by
    funext p
    simp only [hv]
    split
    · rfl
    · split
      · split
        · rfl
        · exact c1 p (by omega)
      · rfl
  have hvr : hv n (rowT A6) j = hv n T j := by
    funext p
    simp only [hv]
    split
    · rfl
    · split
      · split
        · rfl
        · exact c2 p (by omega)
      · rfl
  have hH1 : ∀ b x i, H M A6 j b x i = H M A2 j b x i := fun b x i => by rw [H, H, hvc]
  have hH2 : ∀ b x i, H n (rowT A6) j b x i = H n T j b x i := fun b x i => by rw [H, H, hvr]
  have r1' := r1.congr (y := fun p => X p j) (fun p h1 h2 => by
    show bCol M j1 j s.A s.Z s.W p j = _
    rw [bCol, if_pos ⟨rfl, h1, h2⟩, hX, vir])
  have r2' := r2.congr (y := fun p => X1 j (p+1)) hrow
  obtain ⟨ε1, a1, a2, a3, a4⟩ := r1'.ex
  obtain ⟨ε2, b1, b2, b3, b4⟩ := r2'.ex
  have e6 : unrowT A4 T j (j+1) = T j j := by rw [unrowT, if_neg (by omega), Nat.add_sub_cancel]
  have i0 : Inv tiny M n j j A0 (Ck j X (fun k => (((if k = j then RCLike.re (A2 j j) else s.D k) : ℝ) : K)) (fun k => (((if k = j then RCLike.re (unrowT A4 T j (j+1)) else s.E k) : ℝ) : K))) A6 (rowT A6)
      (fun k => if k = j then b else s.ub k) (fun k => if k = j then g else s.vb k)
      (fun k => (((if k = j then RCLike.re (A2 j j) else s.D k) : ℝ) : K)) (fun k => (((if k = j then RCLike.re (unrowT A4 T j (j+1)) else s.E k) : ℝ) : K)) := by
    refine h.inv.congr ?_ ?_ ?_ ?_ ?_ ?_ ?_
    · intro i p hi hp
      by_cases hc : j ≤ i ∧ j ≤ p
      · rw [Ck_pos hc, Ck_pos hc]
      · rw [Ck_neg hc, Ck_neg hc]
        unfold bi
        split
        · show ((s.D i : ℝ) : K) = (((if i = j then _ else s.D i) : ℝ) : K)
          rw [if_neg (by omega)]
        · split
          · show ((s.E i : ℝ) : K) = (((if i = j then _ else s.E i) : ℝ) : K)
            rw [if_neg (by omega)]
          · rfl
    · intro p k h1 _ _; exact (lo p k (Or.inr h1)).symm
    · intro p k h1 _ _; exact (lo k (p+1) (Or.inl h1)).symm
    · intro k hk; rw [if_neg (by omega)]
    · intro k hk; rw [if_neg (by omega)]
    · intro k hk; rw [if_neg (by omega)]
    · intro k hk; rw [if_neg (by omega)]
  have i1 := step_col i0 ht (by omega) (by rw [if_pos rfl, Valid, hvc]; exact r1.valid)
    (fun h0 p h1 h2 => by rw [if_pos rfl] at h0; rw [c1 p h1]; exact r1.bz h0 p h1 h2) ε1 a1 a2
    (fun h0 => a3 (by rw [if_pos rfl, ← r1.re] at h0; exact h0))
    (fun p h1 h2 => by rw [if_pos rfl, if_pos rfl, hH1, a4 p h1 h2, ← r1.re])
    (X1 := X1) (fun i p h1 h2 h3 h4 => by rw [if_pos rfl]; exact hx1 i p h1 h2 h3 h4)
  have i2 := step_row i1 ht (by omega) (by rw [if_pos rfl, Valid, hvr]; exact r2.valid)
    (fun h0 p h1 h2 => by rw [if_pos rfl] at h0; rw [rowT, c2 p h1]; exact r2.bz h0 p h1 h2) ε2 b1 b2
    (fun h0 => b3 (by rw [if_pos rfl, e6, ← r2.re] at h0; exact h0))
    (fun p h1 h2 => by rw [if_pos rfl, if_pos rfl, hH2, e6, b4 p h1 h2, ← r2.re])
    (X1 := vir j1 (j+1-j1) (j+1-j1) A6 Z' W') (fun i p h1 h2 h3 h4 => by rw [if_pos rfl]; exact hx2 i p h1 h2 h3 h4)
  have key : bStep tiny M (n+1) j1 j s = ⟨⟨A6, fun k => if k = j then b else s.ub k, fun k => if k = j then g else s.vb k,
      fun k => if k = j then RCLike.re (A2 j j) else s.D k, fun k => if k = j then RCLike.re (unrowT A4 T j (j+1)) else s.E k, det2⟩, Z', W'⟩ := by
    have hR3 := hR2
    simp only [hA4, hZ', hA3] at hR3
    simp only [bStep, hR, Nat.add_sub_cancel, hR3]
    rfl
  rw [key]
  refine ⟨i2, ?_⟩
  simp only
  rw [d2, d1, h.det, Finset.prod_range_succ, Finset.prod_range_succ, if_pos rfl, if_pos rfl]
  have e1 : ∏ k ∈ Finset.range j, dfac (if k = j then b else s.ub k) = ∏ k ∈ Finset.range j, dfac (s.ub k) :=
    Finset.prod_congr rfl fun k hk => by rw [Finset.mem_range] at hk; rw [if_neg (by omega)]
  have e2 : ∏ k ∈ Finset.range j, dfac (if k = j then g else s.vb k) = ∏ k ∈ Finset.range j, dfac (s.vb k) :=
    Finset.prod_congr rfl fun k hk => by rw [Finset.mem_range] at hk; rw [if_neg (by omega)]
  rw [e1, e2]
  ring

theorem bTail_spec {tiny : ℝ} {M n j1 j2 : Nat} {A0 : Nat → Nat → K} {det0 : K} {s : BSt K}
    (h : BI tiny M n j1 j2 A0 det0 s) : BI tiny M n j2 j2 A0 det0 (bTail M (n+1) j1 j2 s) := by
  refine ⟨h.inv.congr ?_ ?_ ?_ (fun _ _ => rfl) (fun _ _ => rfl) (fun _ _ => rfl) (fun _ _ => rfl), h.det⟩
  · intro i p hi hp
    by_cases hc : j2 ≤ i ∧ j2 ≤ p
    · rw [Ck_pos hc, Ck_pos hc, Nat.sub_self]
      simp only [vir, bTail, Finset.range_zero, Finset.sum_empty, sub_zero]
      rw [if_pos ⟨hc.1, hi, hc.2, hp⟩]
    · rw [Ck_neg hc, Ck_neg hc]
      rfl
  · intro p k h1 _ _
    simp only [bTail]
    rw [if_neg (by omega)]
  · intro p k h1 _ _
    simp only [bTail, rowT]
    rw [if_neg (by omega)]

theorem bLoop_spec {tiny : ℝ} (ht : 0 < tiny) {nb M n : Nat} (hnb : 0 < nb) (hM : n < M) {A0 : Nat → Nat → K} {det0 : K} (m : Nat) :
    ∀ (j1 : Nat) (s : BSt K), n - j1 = m → j1 ≤ n → BI tiny M n j1 j1 A0 det0 s → BI tiny M n n n A0 det0 (bLoop tiny nb M (n+1) j1 s) := by
  induction m using Nat.strong_induction_on with
  | _ m ih =>
    intro j1 s hm hj h
    unfold bLoop
    rw [Nat.add_sub_cancel]
    by_cases hc : j1 < n ∧ 0 < nb
    · rw [dif_pos hc]
      have hj2 : j1 < min n (j1+nb) := by omega
      obtain ⟨j2, h2⟩ : ∃ j2, j2 = min n (j1+nb) := ⟨_, rfl⟩
      rw [← h2] at hj2 ⊢
      refine ih (n-j2) (by omega) j2 _ rfl (by omega) (bTail_spec ?_)
      have := up_succ (bStep tiny M (n+1) j1) (fun j t => BI tiny M n j1 j A0 det0 t) (j2-j1) j1 s h
        (fun j t h3 h4 h => bStep_spec ht h3 (by omega) hM h)
      rwa [show j1 + (j2-j1) = j2 by omega] at this
    · rw [dif_neg hc]
      have : j1 = n := by omega
      rwa [this] at h

theorem block_spec {tiny : ℝ} (ht : 0 < tiny) {nb M n : Nat} (hnb : 0 < nb) (hM : n < M) (Z W : Nat → Nat → K) (s : St K) :
    Done tiny M n s.A s.det (block tiny nb M (n+1) Z W s) := by
  have h := bLoop_spec ht hnb hM (A0 := s.A) (det0 := s.det) n 0 { s with Z := Z, W := W } rfl (Nat.zero_le _)
    ⟨(Inv.zero tiny M n s.A s.A s.A s.ub s.vb s.ub s.vb).congr (fun i p _ _ => by rw [Ck_pos (by omega)]; simp [vir]) (fun _ _ h => by omega) (fun _ _ h => by omega)
      (fun _ h => by omega) (fun _ h => by omega) (fun _ h => by omega) (fun _ h => by omega), by simp⟩
  unfold block
  rw [Nat.add_sub_cancel]
  generalize bLoop tiny nb M (n+1) 0 { s with Z := Z, W := W } = t at h
  refine last_col ht hM (s := t.toSt) (fun k => ((t.D k : ℝ) : K)) (fun k => ((t.E k : ℝ) : K)) ?_ h.det
    (fun k => if k = n then RCLike.re ((reflectCol tiny M n t.A t.det).1 k k) else t.D k) t.E ?_ (fun _ _ => rfl) ?_
  · refine h.inv.congr (fun i p _ _ => ?_) (fun _ _ _ _ _ => rfl) (fun _ _ _ _ _ => rfl) (fun _ _ => rfl) (fun _ _ => rfl) (fun _ _ => rfl) (fun _ _ => rfl)
    unfold Ck
    split
    · simp [vir]
    · rfl
  · intro k hk; rw [if_neg (by omega)]
  · rw [if_pos rfl]

end
end TMV.Bidiag
