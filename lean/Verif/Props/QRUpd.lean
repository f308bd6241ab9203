import Verif.Model.QRUpd
import Verif.Props.QRSolve

/-! **C84** Updating a QR decomposition. -/
namespace TMV.QR
noncomputable section
open Classical

variable {K : Type} [RCLike K]

/-- The upper triangular `N`×`N` matrix `R` on top of `A`. -/
def stk (N : Nat) (R A : Nat → Nat → K) (p c : Nat) : K :=
  if p < N then (if p ≤ c then R p c else 0) else A (p-N) c

/-- `k` zeros in front of `x`. -/
def pad (k : Nat) (x : Nat → K) : Nat → K := fun i => if i < k then 0 else x (i-k)

theorem maxAbs2_pad (k : Nat) (x : Nat → K) : ∀ n, maxAbs2 (pad k x) (k+n) = maxAbs2 x n := by
  have h0 : ∀ m, m ≤ k → maxAbs2 (pad k x) m = 0 := by
    intro m
    induction m with
    | zero => intro _; rfl
    | succ m ih =>
      intro hm
      rw [maxAbs2, ih (by omega), pad, if_pos (by omega)]
      simp [abs2]
  intro n
  induction n with
  | zero => exact h0 k le_rfl
  | succ n ih =>
    rw [← Nat.add_assoc, maxAbs2, ih, maxAbs2, pad, if_neg (by omega), Nat.add_sub_cancel_left]

theorem sum_pad (k n : Nat) (f : K → ℝ) (h : f 0 = 0) (x : Nat → K) :
    ∑ i ∈ Finset.range (k+n), f (pad k x i) = ∑ i ∈ Finset.range n, f (x i) := by
  rw [Finset.sum_range_add, Finset.sum_eq_zero, zero_add]
  · refine Finset.sum_congr rfl fun i _ => ?_
    rw [pad, if_neg (by omega), Nat.add_sub_cancel_left]
  · intro i hi
    rw [pad, if_pos (Finset.mem_range.mp hi), h]

/-- Zeros do not influence the reflection. -/
theorem reflect_pad (tiny : ℝ) (k n : Nat) (x0 : K) (x : Nat → K) (det : K) :
    reflect tiny (k+n) x0 (pad k x) det =
      ⟨(reflect tiny n x0 x det).x0, pad k (reflect tiny n x0 x det).x, (reflect tiny n x0 x det).beta, (reflect tiny n x0 x det).det⟩ := by
  have hp : ∀ f : K → K, f 0 = 0 → (fun i => if i < k + n then f (pad k x i) else pad k x i) = pad k (fun i => if i < n then f (x i) else x i) := by
    intro f hf
    funext i
    unfold pad
    dsimp only
    by_cases h1 : i < k
    · rw [if_pos h1, if_pos (by omega), if_pos h1, hf]
    · rw [if_neg h1, if_neg h1]
      by_cases h2 : i < k + n
      · rw [if_pos h2, if_pos (by omega)]
      · rw [if_neg h2, if_neg (by omega)]
  unfold reflect
  dsimp only
  rw [maxAbs2_pad]
  rw [sum_pad k n (fun z => RCLike.normSq (((1 / if ‖x0‖ > maxAbs2 x n then ‖x0‖ else maxAbs2 x n : ℝ) : K) * z)) (by simp) x]
  generalize (if ‖x0‖ > maxAbs2 x n then ‖x0‖ else maxAbs2 x n) = sc
  generalize (∑ i ∈ Finset.range n, RCLike.normSq (((1 / sc : ℝ) : K) * x i)) = q
  by_cases h1 : |sc| < tiny
  · rw [if_pos h1, if_pos h1]
    congr 1
    exact hp (fun _ => 0) rfl
  · rw [if_neg h1, if_neg h1]
    by_cases h2 : q = 0 ∧ RCLike.im x0 = 0
    · rw [if_pos h2, if_pos h2]
      congr 1
      exact hp (fun _ => 0) rfl
    · rw [if_neg h2, if_neg h2]
      congr 1
      dsimp only
      split_ifs
      all_goals first
        | exact hp (fun z => z * _ * _) (by simp)
        | exact hp (fun z => z * _) (by simp)

theorem stk_col (N j M : Nat) (hj : j < N) (R A : Nat → Nat → K) :
    (fun i => stk N R A (j+1+i) j) = pad (N-(j+1)) (fun i => A i j) := by
  funext i
  unfold stk pad
  by_cases h : j+1+i < N
  · rw [if_pos h, if_neg (by omega), if_pos (by omega)]
  · rw [if_neg h, if_neg (by omega)]
    congr 1
    omega

/-- One column of the update is one column of the decomposition of the stacked matrix. -/
theorem updCol_stk (tiny : ℝ) (M N j : Nat) (hj : j < N) (s : US K) :
    stk N (updCol tiny M j s).1.R (updCol tiny M j s).1.A = (reflectCol tiny (N+M) j (stk N s.R s.A) 0).1 ∧
    (updCol tiny M j s).2 = (reflectCol tiny (N+M) j (stk N s.R s.A) 0).2.1 := by
  have hl : N + M - (j+1) = (N-(j+1)) + M := by omega
  have h0 : stk N s.R s.A j j = s.R j j := by simp [stk, hj]
  have e : reflect tiny (N+M-(j+1)) (stk N s.R s.A j j) (fun i => stk N s.R s.A (j+1+i) j) 0 =
      ⟨(reflect tiny M (s.R j j) (fun i => s.A i j) 0).x0, pad (N-(j+1)) (reflect tiny M (s.R j j) (fun i => s.A i j) 0).x,
       (reflect tiny M (s.R j j) (fun i => s.A i j) 0).beta, (reflect tiny M (s.R j j) (fun i => s.A i j) 0).det⟩ :=
    by rw [hl, stk_col N j M hj, reflect_pad, h0]
  unfold updCol reflectCol
  dsimp only
  rw [e]
  refine ⟨?_, rfl⟩
  funext p c
  by_cases h1 : c = j ∧ p = j
  · obtain ⟨rfl, rfl⟩ := h1
    simp [stk, hj, setE]
  · rw [if_neg h1]
    by_cases h2 : c = j ∧ j < p ∧ p < N+M
    · rw [if_pos h2]
      obtain ⟨rfl, h3, h4⟩ := h2
      unfold stk pad
      dsimp only
      by_cases h5 : p < N
      · rw [if_pos h5, if_neg (by omega), if_pos (by omega)]
      · rw [if_neg h5, if_pos (show c = c ∧ p - N < M by omega), if_neg (show ¬ p-(c+1) < N-(c+1) by omega)]
        congr 1
        omega
    · rw [if_neg h2]
      unfold stk
      dsimp only
      by_cases h5 : p < N
      · rw [if_pos h5, if_pos h5]
        by_cases h6 : p ≤ c
        · rw [if_pos h6, if_pos h6, setE_ne (by omega)]
        · rw [if_neg h6, if_neg h6]
      · rw [if_neg h5, if_neg h5, if_neg (by omega)]

theorem stk_low {N p c : Nat} (R A : Nat → Nat → K) (h : p < N) (h2 : c < p) : stk N R A p c = 0 := by
  rw [stk, if_pos h, if_neg (by omega)]

theorem stk_up {N p c : Nat} (R A : Nat → Nat → K) (h : p < N) (h2 : p ≤ c) : stk N R A p c = R p c := by
  rw [stk, if_pos h, if_pos h2]

theorem stk_A {N p c : Nat} (R A : Nat → Nat → K) : stk N R A (N+p) c = A p c := by
  rw [stk, if_neg (by omega), Nat.add_sub_cancel_left]

/-- Sum over the rows below `b` of the stacked matrix. -/
theorem sum_stk (N M b : Nat) (hb : b ≤ N) (f : Nat → K) (h : ∀ p, b ≤ p → p < N → f p = 0) :
    ∑ p ∈ Finset.Ico b (N+M), f p = ∑ p ∈ Finset.range M, f (N+p) := by
  rw [← Finset.sum_Ico_consecutive f hb (Nat.le_add_right N M), Finset.sum_eq_zero, zero_add, Finset.sum_Ico_eq_sum_range,
    Nat.add_sub_cancel_left]
  intro p hp
  rw [Finset.mem_Ico] at hp
  exact h p hp.1 hp.2

theorem ul_stk {N p k : Nat} (R A : Nat → Nat → K) (h : p < N) : ul (stk N R A) p k = if p = k then 1 else 0 := by
  unfold ul
  by_cases h1 : p < k
  · rw [if_pos h1, if_neg (by omega)]
  · rw [if_neg h1]
    by_cases h2 : p = k
    · rw [if_pos h2, if_pos h2]
    · rw [if_neg h2, if_neg h2, stk_low _ _ h (by omega)]

theorem ytm_stk (N M a b : Nat) (hb : b ≤ N) (R A : Nat → Nat → K) (k c : Nat) (hk : a ≤ k ∧ k < b) (hc : b ≤ c) :
    ytm (N+M) a b (stk N R A) (stk N R A) k c = (∑ p ∈ Finset.range M, star (A p k) * A p c) + R k c := by
  unfold ytm
  rw [sum_stk N M b hb _ (fun p h1 h2 => by rw [stk_low _ _ h2 (by omega)]; simp)]
  rw [add_comm]
  congr 1
  · exact Finset.sum_congr rfl fun p _ => by rw [stk_A, stk_A]
  · rw [Finset.sum_eq_single k]
    · rw [ul_stk _ _ (by omega), if_pos rfl, star_one, one_mul, stk_up _ _ (by omega) (by omega)]
    · intro p hp hpk
      rw [Finset.mem_Ico] at hp
      rw [ul_stk _ _ (by omega), if_neg hpk]; simp
    · intro h; rw [Finset.mem_Ico] at h; omega

/-- The block step of the update is that of the decomposition of the stacked matrix. -/
theorem updBlock_stk (N M a b e : Nat) (hb : b ≤ N) (s : US K) :
    stk N (updBlock M a b e s).R (updBlock M a b e s).A = blockLDiv (N+M) a b b e (stk N s.R s.A) s.Z (stk N s.R s.A) := by
  obtain ⟨W, hW⟩ : ∃ W : Nat → Nat → K, W = fun k c => ∑ l ∈ Finset.Ico a (k+1), star (s.Z l k) * ((∑ p ∈ Finset.range M, star (s.A p l) * s.A p c) + s.R l c) :=
    ⟨_, rfl⟩
  have hWc : ∀ k c, a ≤ k → k < b → b ≤ c → (∑ l ∈ Finset.Ico a (k+1), star (s.Z l k) * ytm (N+M) a b (stk N s.R s.A) (stk N s.R s.A) l c) = W k c := by
    intro k c h1 h2 h3
    rw [hW]
    refine Finset.sum_congr rfl fun l hl => ?_
    rw [Finset.mem_Ico] at hl
    rw [ytm_stk N M a b hb _ _ l c ⟨hl.1, by omega⟩ h3]
  funext p c
  unfold updBlock blockLDiv subYW
  dsimp only
  by_cases hc : b ≤ c ∧ c < e
  · rw [if_pos hc]
    by_cases hp : a ≤ p ∧ p < b
    · rw [if_pos hp, stk_up _ _ (by omega) (by omega), stk_up _ _ (by omega) (by omega), if_pos ⟨hp.1, hp.2, hc⟩]
      congr 1
      symm
      rw [Finset.sum_eq_single p]
      · rw [ul_stk _ _ (by omega), if_pos rfl, one_mul, hWc p c hp.1 hp.2 hc.1, hW]
      · intro k hk hkp
        rw [ul_stk _ _ (by omega), if_neg (Ne.symm hkp), zero_mul]
      · intro h; rw [Finset.mem_Ico] at h; omega
    · rw [if_neg hp]
      by_cases hp2 : b ≤ p ∧ p < N + M
      · rw [if_pos hp2]
        by_cases hpN : p < N
        · rw [Finset.sum_eq_zero, sub_zero]
          · rw [stk, stk, if_pos hpN, if_pos hpN, if_neg (show ¬ (a ≤ p ∧ p < b ∧ b ≤ c ∧ c < e) by omega)]
          · intro k hk
            rw [Finset.mem_Ico] at hk
            rw [stk_low _ _ hpN (by omega), zero_mul]
        · obtain ⟨q, rfl⟩ : ∃ q, p = N + q := ⟨p - N, by omega⟩
          rw [stk_A, stk_A, if_pos ⟨by omega, hc⟩]
          congr 1
          refine Finset.sum_congr rfl fun k hk => ?_
          rw [Finset.mem_Ico] at hk
          rw [stk_A, hWc k c hk.1 hk.2 hc.1, hW]
      · rw [if_neg hp2]
        unfold stk
        dsimp only
        by_cases hpN : p < N
        · rw [if_pos hpN, if_pos hpN, if_neg (show ¬ (a ≤ p ∧ p < b ∧ b ≤ c ∧ c < e) by omega)]
        · rw [if_neg hpN, if_neg hpN, if_neg (by omega)]
  · rw [if_neg hc]
    unfold stk
    dsimp only
    by_cases hpN : p < N
    · rw [if_pos hpN, if_pos hpN, if_neg (show ¬ (a ≤ p ∧ p < b ∧ b ≤ c ∧ c < e) by omega)]
    · rw [if_neg hpN, if_neg hpN, if_neg (by omega)]

theorem updZ3_stk (N M a c b : Nat) (hb : b ≤ N) (s : US K) : updZ3 M a c b s = z3 (N+M) a c b (stk N s.R s.A) s.Z := by
  have hG : ∀ l k, l < c → k < b → (∑ p ∈ Finset.Ico c b, star (stk N s.R s.A p l) * ul (stk N s.R s.A) p k) +
      ∑ p ∈ Finset.Ico b (N+M), star (stk N s.R s.A p l) * stk N s.R s.A p k = ∑ p ∈ Finset.range M, star (s.A p l) * s.A p k := by
    intro l k hl hk
    rw [Finset.sum_eq_zero, zero_add, sum_stk N M b hb]
    · exact Finset.sum_congr rfl fun p _ => by rw [stk_A, stk_A]
    · intro p h1 h2
      rw [stk_low _ _ h2 (show k < p by omega), mul_zero]
    · intro p hp
      rw [Finset.mem_Ico] at hp
      rw [stk_low _ _ (by omega) (by omega), star_zero, zero_mul]
  funext l k
  unfold updZ3 z3
  dsimp only
  by_cases h : a ≤ l ∧ l < c ∧ c ≤ k ∧ k < b
  · rw [if_pos h, if_pos h]
    refine Finset.sum_congr rfl fun q hq => ?_
    rw [Finset.mem_Ico] at hq
    congr 2
    refine Finset.sum_congr rfl fun r hr => ?_
    rw [Finset.mem_Ico] at hr
    rw [hG r q (by omega) (by omega)]
  · rw [if_neg h, if_neg h]

/-- The step between the two columns of the `N == 2` case. -/
def updTwo (M a : Nat) (b0 : K) (s : US K) : US K :=
  if b0 ≠ 0 then
    ⟨setE s.R a (a+1) (s.R a (a+1) - b0 * ((∑ p ∈ Finset.range M, star (s.A p a) * s.A p (a+1)) + s.R a (a+1))),
     fun p c => if c = a+1 ∧ p < M then
        s.A p c - b0 * ((∑ p ∈ Finset.range M, star (s.A p a) * s.A p (a+1)) + s.R a (a+1)) * s.A p a else s.A p c, s.Z⟩
  else s

theorem updTwo_stk (N M a : Nat) (ha : a + 2 ≤ N) (b0 : K) (s : US K) :
    stk N (updTwo M a b0 s).R (updTwo M a b0 s).A =
      if b0 ≠ 0 then lmult (N+M) a (a+1) (a+2) (stk N s.R s.A) b0 (stk N s.R s.A) else stk N s.R s.A := by
  unfold updTwo
  by_cases hb : b0 ≠ 0
  · rw [if_pos hb, if_pos hb]
    unfold lmult
    rw [if_neg (by omega), if_pos hb]
    dsimp only
    have ht : (∑ p ∈ Finset.Ico (a+1) (N+M), star (stk N s.R s.A p a) * stk N s.R s.A p (a+1)) =
        ∑ p ∈ Finset.range M, star (s.A p a) * s.A p (a+1) := by
      rw [sum_stk N M (a+1) (by omega) _ (fun p h1 h2 => by rw [stk_low _ _ h2 (by omega)]; simp)]
      exact Finset.sum_congr rfl fun p _ => by rw [stk_A, stk_A]
    funext p c
    by_cases hc : a + 1 ≤ c ∧ c < a + 2
    · obtain rfl : c = a+1 := by omega
      rw [if_pos hc, ht, stk_up s.R s.A (show a < N by omega) (show a ≤ a+1 by omega)]
      by_cases hp : p = a
      · subst hp
        rw [if_pos rfl, stk_up _ _ (by omega) (by omega), stk_up _ _ (by omega) (by omega), setE_eq]
        ring
      · rw [if_neg hp]
        by_cases hpN : p < N
        · rw [stk, if_pos hpN]
          have e1 : setE s.R a (a+1) (s.R a (a+1) - b0 * ((∑ p ∈ Finset.range M, star (s.A p a) * s.A p (a+1)) + s.R a (a+1))) p (a+1) = s.R p (a+1) :=
            setE_ne (by omega)
          rw [e1]
          by_cases h2 : a < p ∧ p < N + M
          · rw [if_pos h2, stk_low s.R s.A hpN h2.1, zero_mul, sub_zero, stk, if_pos hpN]
          · rw [if_neg h2, stk, if_pos hpN]
        · obtain ⟨q, rfl⟩ : ∃ q, p = N + q := ⟨p - N, by omega⟩
          rw [stk_A, stk_A, stk_A]
          by_cases h2 : q < M
          · rw [if_pos ⟨rfl, h2⟩, if_pos (by omega)]; ring
          · rw [if_neg (by omega), if_neg (by omega)]
    · rw [if_neg hc]
      unfold stk
      dsimp only
      by_cases hpN : p < N
      · rw [if_pos hpN, if_pos hpN, setE_ne (by omega)]
      · rw [if_neg hpN, if_neg hpN, if_neg (by omega)]
  · rw [if_neg hb, if_neg hb]

/-! ### The recursive function -/

theorem recUpd_spec (tiny : ℝ) (ht : 0 < tiny) (L M n : Nat) : ∀ (a : Nat) (mz : Bool) (s : US K), a + n ≤ L →
    QRSpec tiny (L+M) a n (a+n) (stk L s.R s.A) (stk L (recUpd tiny M a n mz s).R (recUpd tiny M a n mz s).A)
      (fun j => star ((recUpd tiny M a n mz s).Z j j)) ∧
    (mz = true → ZOK (L+M) (stk L (recUpd tiny M a n mz s).R (recUpd tiny M a n mz s).A) (fun j => star ((recUpd tiny M a n mz s).Z j j))
      (recUpd tiny M a n mz s).Z a (a+n)) ∧
    (∀ k l, ¬ (a ≤ k ∧ k < a+n ∧ a ≤ l ∧ l < a+n) → (recUpd tiny M a n mz s).Z k l = s.Z k l) := by
  induction n using Nat.strong_induction_on with
  | _ N ih =>
    intro a mz s haM
    unfold recUpd
    by_cases h0 : N = 0
    · subst h0
      rw [dif_pos rfl]
      refine ⟨QRSpec.zero _ _ _ _ _ _, fun _ x => ?_, fun _ _ _ => rfl⟩
      funext i
      simp [blk, hsA]
    rw [dif_neg h0]
    by_cases h1 : N = 1
    · subst h1
      rw [dif_pos rfl]
      dsimp only
      obtain ⟨u1, u2⟩ := updCol_stk tiny M L a (by omega) s
      have h := reflectCol_spec tiny ht (L+M) a (by omega) (stk L s.R s.A) 0
        (fun j => star (setE (updCol tiny M a s).1.Z a a (star (updCol tiny M a s).2) j j)) (by rw [setE_eq, star_star, u2])
      rw [← u1] at h
      refine ⟨h.1, fun _ => ZOK.one _ _ _ _ _ (by simp only [star_star]), fun k l hkl => ?_⟩
      rw [setE_ne (by omega)]
      rfl
    rw [dif_neg h1]
    by_cases h2 : N = 2
    · subst h2
      rw [dif_pos rfl]
      obtain ⟨r0, hr0⟩ : ∃ r0, r0 = updCol tiny M a s := ⟨_, rfl⟩
      have hr0Z : r0.1.Z = s.Z := by rw [hr0]; rfl
      obtain ⟨s1, hs1⟩ : ∃ s1, s1 = updTwo M a r0.2 r0.1 := ⟨_, rfl⟩
      have hs1Z : s1.Z = s.Z := by rw [hs1]; unfold updTwo; split <;> exact hr0Z
      obtain ⟨r1, hr1⟩ : ∃ r1, r1 = updCol tiny M (a+1) ⟨s1.R, s1.A, setE s1.Z a a (star r0.2)⟩ := ⟨_, rfl⟩
      have hr1Z : r1.1.Z = setE s1.Z a a (star r0.2) := by rw [hr1]; rfl
      obtain ⟨s', hs'⟩ : ∃ s' : US K, s' = if mz = true then
          (⟨r1.1.R, r1.1.A, setE (setE r1.1.Z (a+1) (a+1) (star r1.2)) a (a+1)
            (-(setE r1.1.Z (a+1) (a+1) (star r1.2) a a * setE r1.1.Z (a+1) (a+1) (star r1.2) (a+1) (a+1)) *
              ∑ p ∈ Finset.range M, star (r1.1.A p a) * r1.1.A p (a+1))⟩ : US K)
        else ⟨r1.1.R, r1.1.A, setE r1.1.Z (a+1) (a+1) (star r1.2)⟩ := ⟨_, rfl⟩
      have goal : QRSpec tiny (L+M) a 2 (a+2) (stk L s.R s.A) (stk L s'.R s'.A) (fun j => star (s'.Z j j)) ∧
          (mz = true → ZOK (L+M) (stk L s'.R s'.A) (fun j => star (s'.Z j j)) s'.Z a (a+2)) ∧
          (∀ k l, ¬ (a ≤ k ∧ k < a+2 ∧ a ≤ l ∧ l < a+2) → s'.Z k l = s.Z k l) := by
        have hR : s'.R = r1.1.R := by rw [hs']; split <;> rfl
        have hA : s'.A = r1.1.A := by rw [hs']; split <;> rfl
        have z0 : s'.Z a a = star r0.2 := by
          rw [hs']; split <;> dsimp only
          · rw [setE_ne (by omega), setE_ne (by omega), hr1Z, setE_eq]
          · rw [setE_ne (by omega), hr1Z, setE_eq]
        have z1 : s'.Z (a+1) (a+1) = star r1.2 := by
          rw [hs']; split <;> dsimp only
          · rw [setE_ne (by omega), setE_eq]
          · rw [setE_eq]
        obtain ⟨u1, u2⟩ := updCol_stk tiny M L a (by omega) s
        rw [← hr0] at u1 u2
        obtain ⟨v1, v2⟩ := updCol_stk tiny M L (a+1) (by omega) ⟨s1.R, s1.A, setE s1.Z a a (star r0.2)⟩
        rw [← hr1] at v1 v2
        have w1 : stk L s1.R s1.A = (reflectMat tiny (L+M) (a+2) a (stk L s.R s.A) 0).1 := by
          rw [hs1, updTwo_stk L M a (by omega)]
          unfold reflectMat
          rw [u1, u2]
        have q0 := (reflectMat_spec tiny ht (L+M) (a+2) a (by omega) (by omega) (stk L s.R s.A) 0 (fun j => star (s'.Z j j))
          (by rw [z0, star_star, u2]; rfl)).1
        have q1 := (reflectCol_spec tiny ht (L+M) (a+1) (by omega) (stk L s1.R s1.A) 0 (fun j => star (s'.Z j j))
          (by rw [z1, star_star, v2])).1
        rw [← w1] at q0
        rw [← v1, ← hR, ← hA] at q1
        refine ⟨QRSpec.comp q0 q1 (by omega), ?_, ?_⟩
        · intro hmz
          refine ZOK.two (by omega) (by simp) (by simp) ?_
          simp only [star_star, z0, z1]
          rw [stk_low _ _ (show a+1 < L by omega) (show a < a+1 by omega), star_zero, add_zero,
            sum_stk L M (a+2) (by omega) _ (fun p h1 h2 => by rw [stk_low _ _ h2 (show a < p by omega)]; simp)]
          simp only [stk_A]
          rw [hs', if_pos hmz]
          simp only [setE_eq]
          rw [setE_ne (by omega), hr1Z, setE_eq]
          ring
        · intro k l hkl
          rw [hs']; split <;> dsimp only
          · rw [setE_ne (by omega), setE_ne (by omega), hr1Z, setE_ne (by omega), hs1Z]
          · rw [setE_ne (by omega), hr1Z, setE_ne (by omega), hs1Z]
      subst hs'
      subst hr1
      subst hs1
      subst hr0
      exact goal
    rw [dif_neg h2]
    dsimp only
    obtain ⟨j1, hj1⟩ : ∃ j1, j1 = N/2 := ⟨_, rfl⟩
    rw [← hj1]
    obtain ⟨s1, hs1⟩ : ∃ s1, s1 = recUpd tiny M a j1 true s := ⟨_, rfl⟩
    rw [← hs1]
    obtain ⟨a1, a3, a4⟩ := ih j1 (by omega) a true s (by omega)
    rw [← hs1] at a1 a3 a4
    have a3 := a3 rfl
    obtain ⟨s2, hs2⟩ : ∃ s2, s2 = updBlock M a (a+j1) (a+N) s1 := ⟨_, rfl⟩
    rw [← hs2]
    have hs2Z : s2.Z = s1.Z := by rw [hs2]; rfl
    have hA2 : stk L s2.R s2.A = blockLDiv (L+M) a (a+j1) (a+j1) (a+N) (stk L s1.R s1.A) s1.Z (stk L s1.R s1.A) := by rw [hs2]; exact updBlock_stk L M a (a+j1) (a+N) (by omega) s1
    obtain ⟨s3, hs3⟩ : ∃ s3, s3 = recUpd tiny M (a+j1) (N-j1) mz s2 := ⟨_, rfl⟩
    rw [← hs3]
    obtain ⟨b1, b3, b4⟩ := ih (N-j1) (by omega) (a+j1) mz s2 (by omega)
    rw [← hs3] at b1 b3 b4
    have e : a + j1 + (N - j1) = a + N := by omega
    rw [e] at b1 b3 b4
    rw [hs2Z] at b4
    have c1 : QRSpec tiny (L+M) a j1 (a+N) (stk L s.R s.A) (stk L s2.R s2.A) (fun j => star (s1.Z j j)) := by
      refine a1.extend (by omega) ?_
      intro p c
      have hz := a3.blkA
      rw [show a + j1 - a = j1 by omega] at hz
      rw [hA2, blockLDiv_eq _ _ _ _ _ _ _ _ (by omega), hz]
    have hZd : ∀ j, a ≤ j → j < a+j1 → star (s1.Z j j) = star (s3.Z j j) := fun j _ _ => by rw [b4 j j (by omega)]
    have d1 : QRSpec tiny (L+M) a N (a+N) (stk L s.R s.A) (stk L s3.R s3.A) (fun j => star (s3.Z j j)) := by
      have := QRSpec.comp (c1.congr (β' := fun j => star (s3.Z j j)) hZd) b1 (by omega)
      rwa [show j1 + (N-j1) = N by omega] at this
    cases mz with
    | false =>
      simp only [if_false, Bool.false_eq_true]
      refine ⟨d1, fun h => absurd h (by simp), fun k l hkl => ?_⟩
      rw [b4 k l (by omega), a4 k l (by omega)]
    | true =>
      simp only [if_true]
      rw [updZ3_stk L M a (a+j1) (a+N) (by omega)]
      have hzd : ∀ j, z3 (L+M) a (a+j1) (a+N) (stk L s3.R s3.A) s3.Z j j = s3.Z j j := fun j => z3_out _ _ _ _ _ _ _ _ (by omega)
      simp only [hzd]
      refine ⟨d1, fun _ => ZOK.z3 (by omega) (by omega) (by omega) ?_ (b3 rfl), fun k l hkl => ?_⟩
      · refine a3.congr (by omega) ?_ (fun k l h3 h4 h5 => (b4 k l (by omega)).symm) (fun j h3 h4 => hZd j h3 h4)
        intro p j h3 h4 h5 h6
        rw [b1.frame p j (by omega), hA2, blockLDiv_eq _ _ _ _ _ _ _ _ (by omega), if_neg (by omega)]
      · rw [z3_out _ _ _ _ _ _ _ _ (by omega), b4 k l (by omega), a4 k l (by omega)]

theorem blockUpd_spec (tiny : ℝ) (ht : 0 < tiny) (nb M N : Nat) (hnb : 0 < nb) (n : Nat) :
    ∀ (j1 : Nat) (s : US K) (β : Nat → K), N - j1 ≤ n → j1 ≤ N →
    ∀ A0, QRSpec tiny (N+M) 0 j1 N A0 (stk N s.R s.A) β →
      ∃ β', QRSpec tiny (N+M) 0 N N A0 (stk N (blockUpd tiny nb M N j1 s).R (blockUpd tiny nb M N j1 s).A) β' := by
  induction n with
  | zero =>
    intro j1 s β hn hj A0 h
    obtain rfl : j1 = N := by omega
    unfold blockUpd
    rw [dif_neg (by omega)]
    exact ⟨β, h⟩
  | succ n ih =>
    intro j1 s β hn hj A0 h
    unfold blockUpd
    by_cases hjN : j1 < N
    · rw [dif_pos ⟨hjN, hnb⟩]
      dsimp only
      obtain ⟨j2, hj2⟩ : ∃ j2, j2 = min N (j1+nb) := ⟨_, rfl⟩
      rw [← hj2]
      obtain ⟨s1, hs1⟩ : ∃ s1, s1 = recUpd tiny M j1 (j2-j1) (decide (j2 < N)) s := ⟨_, rfl⟩
      rw [← hs1]
      obtain ⟨a1, a3, a4⟩ := recUpd_spec tiny ht N M (j2-j1) j1 (decide (j2 < N)) s (by omega)
      rw [← hs1] at a1 a3 a4
      have e : j1 + (j2 - j1) = j2 := by omega
      rw [e] at a1 a3 a4
      obtain ⟨β2, hβ2⟩ : ∃ β2 : Nat → K, β2 = fun j => if j1 ≤ j ∧ j < j2 then star (s1.Z j j) else β j := ⟨_, rfl⟩
      have hb1 : ∀ j, j1 ≤ j → j < j2 → star (s1.Z j j) = β2 j := by
        intro j h1 h2; rw [hβ2]; simp only; rw [if_pos ⟨h1, h2⟩]
      have hb0 : ∀ j, j < j1 → β j = β2 j := by
        intro j h1; rw [hβ2]; simp only; rw [if_neg (by omega)]
      obtain ⟨s2, hs2⟩ : ∃ s2 : US K, s2 = if j2 < N then updBlock M j1 j2 N s1 else s1 := ⟨_, rfl⟩
      rw [← hs2]
      have c1 : QRSpec tiny (N+M) j1 (j2-j1) N (stk N s.R s.A) (stk N s2.R s2.A) β2 := by
        refine QRSpec.congr ?_ (fun j h1 h2 => hb1 j h1 (by omega))
        by_cases hlt : j2 < N
        · rw [hs2, if_pos hlt, updBlock_stk N M j1 j2 N (by omega)]
          have hz := (a3 (by simpa using hlt)).blkA
          refine QRSpec.extend (A' := stk N s1.R s1.A) (by rw [e]; exact a1) (by omega) ?_
          intro p c
          rw [blockLDiv_eq _ _ _ _ _ _ _ _ (by omega), hz, e]
        · rw [hs2, if_neg hlt]
          have hj2N : j2 = N := by omega
          rw [← hj2N] at a1 ⊢
          exact a1
      have h' : QRSpec tiny (N+M) 0 j1 N A0 (stk N s.R s.A) β2 := h.congr fun j _ h2 => hb0 j (by omega)
      have h2 : QRSpec tiny (N+M) 0 j2 N A0 (stk N s2.R s2.A) β2 := by
        have := QRSpec.comp h' (by rw [Nat.zero_add]; exact c1) (by omega)
        rwa [e] at this
      exact ih j2 s2 β2 (by omega) (by omega) A0 h2
    · obtain rfl : j1 = N := by omega
      rw [dif_neg (by omega)]
      exact ⟨β, h⟩

theorem update_qr (tiny : ℝ) (ht : 0 < tiny) (nb M N : Nat) (hnb : 0 < nb) (R A Z0 : Nat → Nat → K) :
    ∃ β, QRSpec tiny (N+M) 0 N N (stk N R A) (stk N (update tiny nb M N R A Z0).R (update tiny nb M N R A Z0).A) β := by
  unfold update
  by_cases hN : N > 0
  · rw [if_pos hN]
    by_cases hb : N > nb
    · rw [if_pos hb]
      exact blockUpd_spec tiny ht nb M N hnb N 0 ⟨R, A, Z0⟩ (fun _ => 0) (by omega) (by omega) _ (QRSpec.zero _ _ _ _ _ _)
    · rw [if_neg hb]
      obtain ⟨a1, _, _⟩ := recUpd_spec tiny ht N M N 0 false ⟨R, A, Z0⟩ (by omega)
      rw [Nat.zero_add] at a1
      exact ⟨_, a1⟩
  · rw [if_neg hN]
    obtain rfl : N = 0 := by omega
    exact ⟨fun _ => 0, QRSpec.zero _ _ _ _ _ _⟩

/-- **C84** `QR_Update(R,A)`, every block size: the new `R` is the triangle of a QR decomposition of the old `R` stacked on `A`: there is `Q`
with orthonormal columns such that `Q R' = [R; A] + E`.  Column `c` of `E` is zero unless `R'(c,c) = 0`, and then has norm at most
`√(N+M)·tiny`. -/
theorem qrUpdate_spec (tiny : ℝ) (ht : 0 < tiny) (nb M N : Nat) (hnb : 0 < nb) (R A Z0 : Nat → Nat → K) :
    ∃ Q E : Nat → Nat → K,
      (∀ k l, k < N → l < N → ∑ p ∈ Finset.range (N+M), star (Q p k) * Q p l = if k = l then 1 else 0) ∧
      (∀ p c, p < N → c < N → (if p ≤ c then R p c else 0) + E p c = ∑ k ∈ Finset.range N, Q p k * (if k ≤ c then (update tiny nb M N R A Z0).R k c else 0)) ∧
      (∀ p c, p < M → c < N → A p c + E (N+p) c = ∑ k ∈ Finset.range N, Q (N+p) k * (if k ≤ c then (update tiny nb M N R A Z0).R k c else 0)) ∧
      (∀ c, c < N → (update tiny nb M N R A Z0).R c c ≠ 0 → ∀ p, p < N+M → E p c = 0) ∧
      ∀ c, c < N → ∑ p ∈ Finset.range (N+M), ‖E p c‖ ^ 2 ≤ (N+M : Nat) * tiny ^ 2 := by
  obtain ⟨β, h⟩ := update_qr tiny ht nb M N hnb R A Z0
  generalize update tiny nb M N R A Z0 = s at *
  have hc : ∀ c, ∃ ε : Nat → K, c < N → (nsq (N+M) ε ≤ (N+M : Nat) * tiny ^ 2 ∧ (stk N s.R s.A c c ≠ 0 → ε = fun _ => 0) ∧
      (∀ p, p < N+M → stk N R A p c + ε p = ∑ k ∈ Finset.range N, hsA (N+M) (stk N s.R s.A) β 0 N (ev k) p * (if k ≤ c then stk N s.R s.A k c else 0))) := by
    intro c
    by_cases hc : c < N
    · obtain ⟨ε, e⟩ := h.col (by omega) c hc
      exact ⟨ε, fun _ => e⟩
    · exact ⟨fun _ => 0, fun h => absurd h hc⟩
  choose E hE using hc
  have hs : ∀ p c, p < N+M → c < N → stk N R A p c + E c p = ∑ k ∈ Finset.range N, hsA (N+M) (stk N s.R s.A) β 0 N (ev k) p * (if k ≤ c then s.R k c else 0) := by
    intro p c hp hc
    rw [(hE c hc).2.2 p hp]
    refine Finset.sum_congr rfl fun k hk => ?_
    rw [Finset.mem_range] at hk
    by_cases hkc : k ≤ c
    · rw [if_pos hkc, if_pos hkc, stk_up _ _ hk hkc]
    · rw [if_neg hkc, if_neg hkc]
  refine ⟨fun p k => hsA (N+M) (stk N s.R s.A) β 0 N (ev k) p, fun p c => E c p, ?_, ?_, ?_, ?_, ?_⟩
  · intro k l hk hl
    have h2 := hsA_unitary N (fun j h3 h4 => h.valid j h3 h4) (ev k) (ev l)
    rw [ip_ev _ (show k < N+M by omega)] at h2
    exact h2
  · intro p c hp hc
    have := hs p c (by omega) hc
    rwa [stk, if_pos hp] at this
  · intro p c hp hc
    have := hs (N+p) c (by omega) hc
    rwa [stk_A] at this
  · intro c hc hne p _
    have := (hE c hc).2.1 (by rw [stk_up _ _ hc le_rfl]; exact hne)
    exact congrFun this p
  · intro c hc
    rw [← nsq_norm]
    exact (hE c hc).1

/-- **C84** (the Gram matrices): if the new diagonal has no zeros, `R'ᴴR' = RᴴR + AᴴA` exactly. -/
theorem qrUpdate_gram (tiny : ℝ) (ht : 0 < tiny) (nb M N : Nat) (hnb : 0 < nb) (R A Z0 : Nat → Nat → K)
    (hd : ∀ c, c < N → (update tiny nb M N R A Z0).R c c ≠ 0) (c d : Nat) (hc : c < N) (hdN : d < N) :
    ∑ k ∈ Finset.range N, star (if k ≤ c then (update tiny nb M N R A Z0).R k c else 0) * (if k ≤ d then (update tiny nb M N R A Z0).R k d else 0) =
      (∑ k ∈ Finset.range N, star (if k ≤ c then R k c else 0) * (if k ≤ d then R k d else 0)) +
      ∑ p ∈ Finset.range M, star (A p c) * A p d := by
  obtain ⟨Q, E, q1, q2, q3, q4, _⟩ := qrUpdate_spec tiny ht nb M N hnb R A Z0
  generalize (update tiny nb M N R A Z0).R = R' at *
  have t1 : ∀ k, k < N → ∀ d, d < N → (if k ≤ d then R k d else 0) = ∑ l ∈ Finset.range N, Q k l * (if l ≤ d then R' l d else 0) := by
    intro k hk d hd'
    rw [← q2 k d hk hd', q4 d hd' (hd d hd') k (by omega), add_zero]
  have t2 : ∀ k, k < M → ∀ d, d < N → A k d = ∑ l ∈ Finset.range N, Q (N+k) l * (if l ≤ d then R' l d else 0) := by
    intro k hk d hd'
    rw [← q3 k d hk hd', q4 d hd' (hd d hd') (N+k) (by omega), add_zero]
  have f1 : ∑ k ∈ Finset.range N, star (if k ≤ c then R k c else 0) * (if k ≤ d then R k d else 0) =
      ∑ k ∈ Finset.range N, star (∑ l ∈ Finset.range N, Q k l * (if l ≤ c then R' l c else 0)) * ∑ l ∈ Finset.range N, Q k l * (if l ≤ d then R' l d else 0) :=
    Finset.sum_congr rfl fun k hk => by rw [t1 k (Finset.mem_range.mp hk) c hc, t1 k (Finset.mem_range.mp hk) d hdN]
  have f2 : ∑ p ∈ Finset.range M, star (A p c) * A p d =
      ∑ p ∈ Finset.range M, star (∑ l ∈ Finset.range N, Q (N+p) l * (if l ≤ c then R' l c else 0)) * ∑ l ∈ Finset.range N, Q (N+p) l * (if l ≤ d then R' l d else 0) :=
    Finset.sum_congr rfl fun k hk => by rw [t2 k (Finset.mem_range.mp hk) c hc, t2 k (Finset.mem_range.mp hk) d hdN]
  rw [f1, f2, ← Finset.sum_range_add (fun p => star (∑ l ∈ Finset.range N, Q p l * (if l ≤ c then R' l c else 0)) * ∑ l ∈ Finset.range N, Q p l * (if l ≤ d then R' l d else 0))]
  have f3 : ∀ p, star (∑ l ∈ Finset.range N, Q p l * (if l ≤ c then R' l c else 0)) * ∑ l ∈ Finset.range N, Q p l * (if l ≤ d then R' l d else 0) =
      ∑ k ∈ Finset.range N, ∑ l ∈ Finset.range N, star (if k ≤ c then R' k c else 0) * (if l ≤ d then R' l d else 0) * (star (Q p k) * Q p l) := by
    intro p
    rw [star_sum, Finset.sum_mul_sum]
    refine Finset.sum_congr rfl fun k _ => Finset.sum_congr rfl fun l _ => ?_
    rw [star_mul']
    ring
  simp only [f3]
  rw [Finset.sum_comm]
  refine Finset.sum_congr rfl fun k hk => ?_
  rw [Finset.mem_range] at hk
  rw [Finset.sum_comm, Finset.sum_eq_single k]
  · rw [← Finset.mul_sum, q1 k k hk hk, if_pos rfl, mul_one]
  · intro l hl hlk
    rw [Finset.mem_range] at hl
    rw [← Finset.mul_sum, q1 k l hk hl, if_neg (Ne.symm hlk), mul_zero]
  · intro h; exact absurd (Finset.mem_range.mpr hk) h

/-! ### What is not touched -/

theorem recUpd_R (tiny : ℝ) (M n : Nat) : ∀ (a : Nat) (mz : Bool) (s : US K) (k c : Nat), ¬ (a ≤ k ∧ k ≤ c ∧ c < a+n) →
    (recUpd tiny M a n mz s).R k c = s.R k c := by
  induction n using Nat.strong_induction_on with
  | _ N ih =>
    intro a mz s k c hkc
    unfold recUpd
    by_cases h0 : N = 0
    · rw [dif_pos h0]
    rw [dif_neg h0]
    by_cases h1 : N = 1
    · rw [dif_pos h1]
      exact setE_ne (by omega)
    rw [dif_neg h1]
    by_cases h2 : N = 2
    · rw [dif_pos h2]
      dsimp only
      have key : ∀ b0 : K, (updCol tiny M (a+1) (⟨(updTwo M a b0 (updCol tiny M a s).1).R, (updTwo M a b0 (updCol tiny M a s).1).A,
          setE (updTwo M a b0 (updCol tiny M a s).1).Z a a (star b0)⟩ : US K)).1.R k c = s.R k c := by
        intro b0
        have e1 : ∀ t : US K, (updCol tiny M (a+1) t).1.R k c = t.R k c := fun t => setE_ne (by omega)
        have e2 : (updCol tiny M a s).1.R k c = s.R k c := setE_ne (by omega)
        rw [e1]
        show (updTwo M a b0 (updCol tiny M a s).1).R k c = s.R k c
        unfold updTwo
        split
        · exact (setE_ne (by omega)).trans e2
        · exact e2
      cases mz
      · exact key _
      · exact key _
    rw [dif_neg h2]
    dsimp only
    have key : (recUpd tiny M (a+N/2) (N-N/2) mz (updBlock M a (a+N/2) (a+N) (recUpd tiny M a (N/2) true s))).R k c = s.R k c := by
      rw [ih (N-N/2) (by omega) _ _ _ _ _ (by omega)]
      unfold updBlock
      dsimp only
      rw [if_neg (by omega), ih (N/2) (by omega) _ _ _ _ _ (by omega)]
    cases mz
    · exact key
    · exact key

theorem blockUpd_R (tiny : ℝ) (nb M N : Nat) (k c : Nat) (hkc : ¬ (k ≤ c ∧ c < N)) (n : Nat) : ∀ (j1 : Nat) (s : US K), N - j1 ≤ n →
    (blockUpd tiny nb M N j1 s).R k c = s.R k c := by
  induction n with
  | zero =>
    intro j1 s h
    unfold blockUpd
    rw [dif_neg (by omega)]
  | succ n ih =>
    intro j1 s h
    unfold blockUpd
    by_cases h1 : j1 < N ∧ 0 < nb
    · rw [dif_pos h1]
      dsimp only
      rw [ih _ _ (by omega)]
      split
      · unfold updBlock
        dsimp only
        rw [if_neg (by omega), recUpd_R _ _ _ _ _ _ _ _ (by omega)]
      · rw [recUpd_R _ _ _ _ _ _ _ _ (by omega)]
    · rw [dif_neg h1]

/-- **C84** (frame): the update writes only to the upper triangle of `R` and to the `M`×`N` elements of `A`. -/
theorem qrUpdate_frame (tiny : ℝ) (ht : 0 < tiny) (nb M N : Nat) (hnb : 0 < nb) (R A Z0 : Nat → Nat → K) :
    (∀ k c, ¬ (k ≤ c ∧ c < N) → (update tiny nb M N R A Z0).R k c = R k c) ∧
    (∀ p c, ¬ (p < M ∧ c < N) → (update tiny nb M N R A Z0).A p c = A p c) := by
  constructor
  · intro k c h
    unfold update
    by_cases hN : N > 0
    · rw [if_pos hN]
      split
      · exact blockUpd_R tiny nb M N k c h N 0 _ (by omega)
      · exact recUpd_R tiny M N 0 false _ k c (by omega)
    · rw [if_neg hN]
  · intro p c h
    obtain ⟨β, q⟩ := update_qr tiny ht nb M N hnb R A Z0
    have := q.frame (N+p) c (by omega)
    rwa [stk_A, stk_A] at this

/-- The hypothesis of `qrUpdate_gram` is met: `R = (3)`, `A = (4)`. -/
example : ∀ c, c < 1 → (update (1:ℝ) 64 1 1 (fun _ _ => (3:ℝ)) (fun _ _ => 4) (fun _ _ => 0)).R c c ≠ 0 := by
  intro c hc h
  obtain rfl : c = 0 := by omega
  obtain ⟨Q, E, -, q2, -, -, q5⟩ := qrUpdate_spec (1:ℝ) one_pos 64 1 1 (by norm_num) (fun _ _ => (3:ℝ)) (fun _ _ => 4) (fun _ _ => 0)
  have h1 := q2 0 0 one_pos one_pos
  simp [h] at h1
  have h2 := q5 0 one_pos
  rw [Finset.sum_range_succ, Finset.sum_range_one, show E 0 0 = -3 by linarith] at h2
  norm_num at h2
  nlinarith [sq_nonneg (E 1 0)]

end
end TMV.QR
