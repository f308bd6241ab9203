import Verif.Model.QRP
import Verif.Props.QRSolve

/-! QR decomposition with column pivoting (C86): the step of the decomposition, `NonBlockQRPDecompose`. -/
namespace TMV.QR
noncomputable section
open Classical

variable {K : Type} [RCLike K]

/-- The rearrangement of the columns made by the interchanges `i <-> P[i]`, `i = 0, 1, ..., n-1`: column `c` afterwards was
column `swapsPerm P n c` before. -/
def swapsPerm (P : Nat → Nat) : Nat → Equiv.Perm Nat
  | 0 => 1
  | n+1 => swapsPerm P n * Equiv.swap n (P n)

/-- Its sign. -/
def psign (P : Nat → Nat) (n : Nat) : K := ∏ i ∈ Finset.range n, if P i = i then 1 else -1

theorem swapsPerm_congr {P P' : Nat → Nat} : ∀ n, (∀ i, i < n → P i = P' i) → swapsPerm P n = swapsPerm P' n
  | 0, _ => rfl
  | n+1, h => by rw [swapsPerm, swapsPerm, swapsPerm_congr n fun i hi => h i (by omega), h n (by omega)]

theorem psign_congr {P P' : Nat → Nat} {n : Nat} (h : ∀ i, i < n → P i = P' i) : psign P n = (psign P' n : K) := by
  unfold psign
  exact Finset.prod_congr rfl fun i hi => by rw [h i (Finset.mem_range.mp hi)]

/-- Sum of squares of column `c` from row `j` on. -/
def tl (M j : Nat) (V : Nat → Nat → K) (c : Nat) : ℝ := ∑ p ∈ Finset.Ico j M, RCLike.normSq (V p c)

theorem tl_nonneg (M j : Nat) (V : Nat → Nat → K) (c : Nat) : 0 ≤ tl M j V c :=
  Finset.sum_nonneg fun _ _ => RCLike.normSq_nonneg _

theorem cnorm_eq (s : ℝ) (A : Nat → Nat → K) (k j M : Nat) : cnorm s A k j M = s ^ 2 * tl M j A k := by
  unfold cnorm tl
  rw [Finset.mul_sum]
  refine Finset.sum_congr rfl fun p _ => ?_
  rw [map_mul, RCLike.normSq_eq_def', RCLike.norm_ofReal, sq_abs]

theorem nsq_split {M j : Nat} (hj : j ≤ M) (x : Nat → K) :
    nsq M x = (∑ p ∈ Finset.range j, RCLike.normSq (x p)) + ∑ p ∈ Finset.Ico j M, RCLike.normSq (x p) := by
  unfold nsq
  rw [Finset.range_eq_Ico, Finset.range_eq_Ico, Finset.sum_Ico_consecutive _ (Nat.zero_le _) hj]

theorem tl_succ {M j : Nat} (hj : j < M) (V : Nat → Nat → K) (c : Nat) : tl M j V c = RCLike.normSq (V j c) + tl M (j+1) V c := by
  unfold tl
  rw [Finset.sum_eq_sum_Ico_succ_bot hj]

/-! ### `QRSpec` -/

theorem QRSpec.mono {t T : ℝ} (h0 : 0 ≤ t) (htT : t ≤ T) {M a n e : Nat} {A A' : Nat → Nat → K} {β : Nat → K}
    (h : QRSpec t M a n e A A' β) : QRSpec T M a n e A A' β where
  valid := h.valid
  frame := h.frame
  cols := fun c h1 h2 => by
    obtain ⟨ε, e1, e2, e3, e4⟩ := h.cols c h1 h2
    refine ⟨ε, e1, e2.trans ?_, e3, e4⟩
    have : t ^ 2 ≤ T ^ 2 := pow_le_pow_left₀ h0 htT 2
    exact mul_le_mul_of_nonneg_left this (Nat.cast_nonneg _)
  bz := h.bz
  trail := h.trail

/-- Rearrange columns that are not decomposed yet. -/
theorem QRSpec.perm {t : ℝ} {M a n e : Nat} {A A' : Nat → Nat → K} {β : Nat → K} (h : QRSpec t M a n e A A' β)
    (π : Nat → Nat)
    (h1 : ∀ c, c < a+n → π c = c) (h2 : ∀ c, a+n ≤ c → c < e → a+n ≤ π c ∧ π c < e) (h3 : ∀ c, e ≤ c → e ≤ π c) :
    QRSpec t M a n e (fun p c => A p (π c)) (fun p c => A' p (π c)) β := by
  have hsc : ∀ k, k ≤ n → hs M (fun p c => A' p (π c)) β a k = hs M A' β a k := fun k hk =>
    hs_congr k (fun p j _ h3 _ _ => by rw [h1 j (by omega)]) (fun _ _ _ => rfl)
  refine ⟨?_, ?_, ?_, ?_, ?_⟩
  · intro j h4 h5
    exact (h.valid j h4 h5).congr fun p _ _ => by rw [h1 j h5]
  · intro p c hpc
    show A' p (π c) = A p (π c)
    refine h.frame p (π c) ?_
    rcases hpc with h4 | h4 | h4 | h4
    · exact Or.inl h4
    · exact Or.inr (Or.inl h4)
    · rw [h1 c (by omega)]; exact Or.inr (Or.inr (Or.inl h4))
    · exact Or.inr (Or.inr (Or.inr (h3 c h4)))
  · intro c h4 h5
    obtain ⟨ε, e1, e2, e3, e4⟩ := h.cols c h4 h5
    refine ⟨ε, e1, e2, ?_, ?_⟩
    · show A' c (π c) ≠ 0 → _
      rw [h1 c h5]; exact e3
    · rw [hsc _ (by omega)]
      simp only [h1 c h5]
      exact e4
  · intro j h4 h5 h6 p h7 h8
    show A' p (π j) = 0
    rw [h1 j h5]
    exact h.bz j h4 h5 h6 p h7 h8
  · intro c h4 h5
    rw [hsc n le_rfl]
    exact h.trail (π c) (h2 c h4 h5).1 (h2 c h4 h5).2

/-- Apply the reflectors to further columns. -/
theorem QRSpec.extendTo {t : ℝ} {M a n e e' : Nat} {A A' A2 : Nat → Nat → K} {β : Nat → K}
    (h : QRSpec t M a n e A A' β) (hne : a + n ≤ e) (hee : e ≤ e')
    (h2 : ∀ p c, A2 p c = if e ≤ c ∧ c < e' then hs M A' β a n (fun p => A' p c) p else A' p c) :
    QRSpec t M a n e' A A2 β := by
  have hlo : ∀ p c, ¬ (e ≤ c ∧ c < e') → A2 p c = A' p c := fun p c hc => by rw [h2, if_neg hc]
  have hsc : ∀ k, k ≤ n → hs M A2 β a k = hs M A' β a k := fun k hk =>
    hs_congr k (fun p j _ h3 _ _ => hlo p j (by omega)) (fun _ _ _ => rfl)
  refine ⟨?_, ?_, ?_, fun j h3 h4 h5 p h6 h7 => by rw [hlo p j (by omega)]; exact h.bz j h3 h4 h5 p h6 h7, ?_⟩
  · intro j h3 h4
    exact (h.valid j h3 h4).congr fun p _ _ => (hlo p j (by omega)).symm
  · intro p c hpc
    by_cases hc : e ≤ c ∧ c < e'
    · rw [h2, if_pos hc, hs_out _ (by omega), h.frame p c (by omega)]
    · rw [hlo p c hc, h.frame p c (by omega)]
  · intro c h3 h4
    obtain ⟨ε, e1, e2, e3, e4⟩ := h.cols c h3 h4
    refine ⟨ε, e1, e2, ?_, ?_⟩
    · rw [hlo c c (by omega)]; exact e3
    · rw [hsc _ (by omega), e4]
      funext p
      rw [hlo p c (by omega)]
  · intro c h3 h4
    rw [hsc n le_rfl]
    by_cases hc : e ≤ c
    · funext p
      rw [h2, if_pos ⟨hc, h4⟩]
      congr 1
      funext q
      exact h.frame q c (by omega)
    · rw [← h.trail c h3 (by omega)]
      funext p
      exact hlo p c (by omega)

theorem hs_beta0 {M : Nat} {V : Nat → Nat → K} {β : Nat → K} {a : Nat} (n : Nat) (hb : ∀ j, a ≤ j → j < a+n → β j = 0) (x : Nat → K) :
    hs M V β a n x = x := by
  induction n with
  | zero => rfl
  | succ n ih =>
    rw [hs, ih fun j h1 h2 => hb j h1 (by omega), hb (a+n) (by omega) (by omega)]
    funext i
    simp [H]

/-- Zeroing small columns. -/
theorem QRSpec.zeros {T : ℝ} {M j N : Nat} {V V0 : Nat → Nat → K} {β : Nat → K} (hNM : N ≤ M) (hjN : j ≤ N)
    (hV : ∀ p c, V0 p c = if j ≤ p ∧ p < M ∧ j ≤ c ∧ c < N then 0 else V p c) (hb : ∀ c, j ≤ c → c < N → β c = 0)
    (hsm : ∀ c, j ≤ c → c < N → tl M j V c ≤ M * T ^ 2) : QRSpec T M j (N-j) N V V0 β where
  valid := fun i h1 h2 => by
    unfold Valid
    rw [hb i h1 (by omega)]
    simp
  frame := fun p c hpc => by rw [hV, if_neg (by omega)]
  cols := fun c h1 h2 => by
    refine ⟨fun p => if j ≤ p ∧ p < M then -V p c else 0, ?_, ?_, ?_, ?_⟩
    · intro p hp
      exact if_neg (by omega)
    · rw [nsq_split (show j ≤ M by omega)]
      have e1 : ∑ p ∈ Finset.range j, RCLike.normSq (if j ≤ p ∧ p < M then -V p c else 0) = 0 :=
        Finset.sum_eq_zero fun p hp => by rw [if_neg (by rw [Finset.mem_range] at hp; omega), map_zero]
      have e2 : ∑ p ∈ Finset.Ico j M, RCLike.normSq (if j ≤ p ∧ p < M then -V p c else 0) = tl M j V c :=
        Finset.sum_congr rfl fun p hp => by rw [if_pos (Finset.mem_Ico.mp hp), RCLike.normSq_neg]
      rw [e1, e2, zero_add]
      exact hsm c h1 (by omega)
    · intro hc
      rw [hV, if_pos ⟨h1, by omega, h1, by omega⟩] at hc
      exact absurd rfl hc
    · rw [hs_beta0 _ fun i h3 h4 => hb i h3 (by omega)]
      funext p
      rw [hV]
      dsimp only
      by_cases hp : j ≤ p ∧ p < M
      · rw [if_pos hp, add_neg_cancel]
        split_ifs <;> first | rfl | omega
      · rw [if_neg hp, if_neg (by omega), if_neg (by omega), add_zero]
  bz := fun i h1 h2 h3 p h4 h5 => by rw [hV, if_pos (by omega)]
  trail := fun c h1 h2 => by omega


/-! ### One column -/

/-- What one reflection does to the norms. -/
theorem QRSpec.norm1 {t : ℝ} {M j e : Nat} {A A' : Nat → Nat → K} {β : Nat → K} (hj : j < M) (h : QRSpec t M j 1 e A A' β) :
    (∀ c, j < c → c < e → tl M j A' c = tl M j A c) ∧
    RCLike.normSq (A' j j) ≤ tl M j A j ∧ tl M j A j ≤ max (RCLike.normSq (A' j j)) (M * t ^ 2) := by
  have hun : ∀ x y : Nat → K, hs M A' β j 1 x = y → ∑ p ∈ Finset.Ico j M, RCLike.normSq (y p) = ∑ p ∈ Finset.Ico j M, RCLike.normSq (x p) := by
    intro x y hxy
    have e1 := nsq_eq_of_ip (hs_unitary 1 (fun i h1 h2 => h.valid i h1 h2) x x)
    rw [hxy, nsq_split hj.le, nsq_split hj.le x] at e1
    have e2 : ∑ p ∈ Finset.range j, RCLike.normSq (y p) = ∑ p ∈ Finset.range j, RCLike.normSq (x p) :=
      Finset.sum_congr rfl fun p hp => by rw [← hxy, hs_out _ (Or.inl (Finset.mem_range.mp hp))]
    linarith
  refine ⟨fun c h1 h2 => hun _ _ (h.trail c h1 h2).symm, ?_⟩
  obtain ⟨ε, e1, e2, e3, e4⟩ := h.cols j le_rfl (by omega)
  rw [show j + 1 - j = 1 by omega] at e4
  have e5 := hun _ _ e4
  have e6 : ∑ p ∈ Finset.Ico j M, RCLike.normSq (if j < p ∧ p < M then 0 else A' p j) = RCLike.normSq (A' j j) := by
    rw [Finset.sum_eq_single j]
    · rw [if_neg (by omega)]
    · intro p hp hpj
      rw [Finset.mem_Ico] at hp
      rw [if_pos (by omega), map_zero]
    · intro hn
      exact absurd (Finset.mem_Ico.mpr ⟨le_rfl, hj⟩) hn
  rw [e6] at e5
  by_cases h0 : A' j j = 0
  · rw [h0, map_zero] at e5 ⊢
    have e7 : ∀ p ∈ Finset.Ico j M, RCLike.normSq (A p j + ε p) = 0 :=
      (Finset.sum_eq_zero_iff_of_nonneg fun _ _ => RCLike.normSq_nonneg _).mp e5.symm
    have e8 : tl M j A j = ∑ p ∈ Finset.Ico j M, RCLike.normSq (ε p) := by
      refine Finset.sum_congr rfl fun p hp => ?_
      have := RCLike.normSq_eq_zero.mp (e7 p hp)
      rw [eq_neg_of_add_eq_zero_left this, RCLike.normSq_neg]
    refine ⟨tl_nonneg _ _ _ _, le_max_of_le_right ?_⟩
    rw [nsq_split hj.le] at e2
    have : 0 ≤ ∑ p ∈ Finset.range j, RCLike.normSq (ε p) := Finset.sum_nonneg fun _ _ => RCLike.normSq_nonneg _
    linarith
  · rw [e3 h0] at e5
    simp only [add_zero] at e5
    have : tl M j A j = RCLike.normSq (A' j j) := e5.symm
    rw [this]
    exact ⟨le_rfl, le_max_left _ _⟩

/-- What holds before column `j` is decomposed.  `T` bounds the perturbation; if `strict`, the diagonal is decreasing. -/
structure PInv (tiny T s : ℝ) (strict : Bool) (M N : Nat) (A0 : Nat → Nat → K) (det0 : K) (j : Nat) (st : PSt K) : Prop where
  spec : QRSpec T M 0 j N (fun p c => A0 p (swapsPerm st.P j c)) st.A st.beta
  pok : ∀ i, i < j → i ≤ st.P i ∧ st.P i < N
  cok : ∀ k, j ≤ k → k < N → st.cn k = s ^ 2 * tl M j st.A k
  dok : st.det = det0 * psign st.P j * ∏ i ∈ Finset.range j, dfac (st.beta i)
  mono : strict = true → (∀ i k, i ≤ k → k < j → RCLike.normSq (st.A k k) ≤ max (RCLike.normSq (st.A i i)) (M * tiny ^ 2)) ∧
    ∀ i, i < j → ∀ c, j ≤ c → c < N → tl M j st.A c ≤ max (RCLike.normSq (st.A i i)) (M * tiny ^ 2)

variable {tiny T s : ℝ} {strict : Bool} {M N : Nat} {A0 : Nat → Nat → K} {det0 : K} {j : Nat} {st : PSt K}

theorem swap_cases (i k c : Nat) : (c = i ∧ Equiv.swap i k c = k) ∨ (c ≠ i ∧ c = k ∧ Equiv.swap i k c = i) ∨
    (c ≠ i ∧ c ≠ k ∧ Equiv.swap i k c = c) := by
  rw [Equiv.swap_apply_def]
  by_cases h1 : c = i
  · simp [h1]
  · by_cases h2 : c = k
    · rw [if_neg h1, if_pos h2]; exact Or.inr (Or.inl ⟨h1, h2, rfl⟩)
    · rw [if_neg h1, if_neg h2]; exact Or.inr (Or.inr ⟨h1, h2, rfl⟩)

theorem swap_lt {i k c : Nat} (hi : c < i) (hk : c < k) : Equiv.swap i k c = c := by
  rcases swap_cases i k c with h | h | h <;> omega

theorem pivot_eq (j jp : Nat) (st : PSt K) : pivot j jp st =
    ⟨swapC st.A j jp, st.beta, setP st.P j jp, swapV st.cn j jp, if jp = j then st.det else -st.det⟩ := by
  unfold pivot
  by_cases h : jp = j
  · subst h
    rw [if_neg (by simp), if_pos rfl]
    have e1 : swapC st.A jp jp = st.A := by funext p c; simp [swapC]
    have e2 : swapV st.cn jp jp = st.cn := by funext c; simp [swapV]
    rw [e1, e2]
  · rw [if_pos h, if_neg h]

theorem argMax_spec (f : Nat → ℝ) (j : Nat) : ∀ n, 0 < n → j ≤ argMax f j n ∧ argMax f j n < j + n ∧
    ∀ k, j ≤ k → k < j + n → f k ≤ f (argMax f j n)
  | 0, h => absurd h (by omega)
  | 1, _ => ⟨le_rfl, by rw [argMax]; omega, fun k h1 h2 => by rw [argMax, show k = j by omega]⟩
  | n+2, _ => by
    obtain ⟨h1, h2, h3⟩ := argMax_spec f j (n+1) (by omega)
    rw [argMax]
    by_cases h : f (j+(n+1)) > f (argMax f j (n+1))
    · rw [if_pos h]
      refine ⟨by omega, by omega, fun k h4 h5 => ?_⟩
      by_cases hk : k = j+(n+1)
      · rw [hk]
      · exact (h3 k h4 (by omega)).trans h.le
    · rw [if_neg h]
      refine ⟨h1, by omega, fun k h4 h5 => ?_⟩
      by_cases hk : k = j+(n+1)
      · rw [hk]; exact not_lt.mp h
      · exact h3 k h4 (by omega)

/-- Pivot and decompose column `j`. -/
theorem PInv.step (ht : 0 < tiny) (htT : tiny ≤ T) (hs0 : 0 < s) (hNM : N ≤ M) (hj : j < N) (h : PInv tiny T s strict M N A0 det0 j st) {jp : Nat} (h1 : j ≤ jp)
    (h2 : jp < N) (hmax : strict = true → ∀ k, j ≤ k → k < N → st.cn k ≤ st.cn jp) :
    PInv tiny T s strict M N A0 det0 (j+1) (nbStep tiny s M N j (pivot j jp st)) := by
  rw [pivot_eq]
  obtain ⟨hsp, hpok, hcok, hdok, hmono⟩ := h
  -- the swap
  have hA1 : QRSpec T M 0 j N (fun p c => A0 p (swapsPerm (setP st.P j jp) (j+1) c)) (swapC st.A j jp) st.beta := by
    have e : swapsPerm (setP st.P j jp) (j+1) = swapsPerm st.P j * Equiv.swap j jp := by
      rw [swapsPerm, swapsPerm_congr (P := setP st.P j jp) (P' := st.P) j fun i hi => if_neg (by omega)]
      simp [setP]
    rw [e]
    refine hsp.perm (Equiv.swap j jp) (fun c hc => swap_lt (by omega) (by omega)) (fun c h3 h4 => ?_) fun c h3 => ?_
    · rcases swap_cases j jp c with h | h | h <;> omega
    · rcases swap_cases j jp c with h | h | h <;> omega
  have hsw : ∀ k, j ≤ k → k < N → j ≤ Equiv.swap j jp k ∧ Equiv.swap j jp k < N := by
    intro k h3 h4
    rcases swap_cases j jp k with h | h | h <;> omega
  have htl : ∀ k, tl M j (swapC st.A j jp) k = tl M j st.A (Equiv.swap j jp k) := fun k => rfl
  -- the reflection
  obtain ⟨B, hB⟩ : ∃ B, B = swapC st.A j jp := ⟨_, rfl⟩
  obtain ⟨d, hd⟩ : ∃ d, d = if jp = j then st.det else -st.det := ⟨_, rfl⟩
  rw [← hB, ← hd]
  rw [← hB] at hA1 htl
  obtain ⟨β', hβ'⟩ : ∃ β' : Nat → K, β' = fun c => if c = j then (reflectMat tiny M N j B d).2.1 else st.beta c := ⟨_, rfl⟩
  have hβj : β' j = (reflectMat tiny M N j B d).2.1 := by rw [hβ']; simp
  have hβlt : ∀ i, i < j → β' i = st.beta i := fun i hi => by rw [hβ']; exact if_neg (by omega)
  obtain ⟨hr, hdet⟩ := reflectMat_spec tiny ht M N j (by omega) (by omega) B d β' hβj
  obtain ⟨n1, n2, n3⟩ := hr.norm1 (by omega)
  have hfr : ∀ i, i < j → (reflectMat tiny M N j B d).1 i i = st.A i i := fun i hi => by
    rw [hr.frame i i (by omega), hB, swapC, swap_lt hi (by omega)]
  have htlN : ∀ c, j+1 ≤ c → c < N → tl M (j+1) (reflectMat tiny M N j B d).1 c =
      tl M j st.A (Equiv.swap j jp c) - RCLike.normSq ((reflectMat tiny M N j B d).1 j c) := by
    intro c h3 h4
    have := tl_succ (show j < M by omega) (reflectMat tiny M N j B d).1 c
    rw [n1 c (by omega) h4, htl] at this
    linarith
  refine ⟨?_, ?_, ?_, ?_, ?_⟩
  · have := (hA1.congr (β' := β') fun i _ hi => (hβlt i (by omega)).symm).comp (m := 1) (by rw [Nat.zero_add]; exact hr.mono ht.le htT) (by omega)
    rw [hβ'] at this
    exact this
  · intro i hi
    show i ≤ setP st.P j jp i ∧ setP st.P j jp i < N
    unfold setP
    by_cases hij : i = j
    · rw [if_pos hij]; omega
    · rw [if_neg hij]; exact hpok i (by omega)
  · intro k h3 h4
    show (if j < k ∧ k < N then swapV st.cn j jp k - RCLike.normSq ((reflectMat tiny M N j B d).1 j k * (s : K)) else swapV st.cn j jp k) =
      s ^ 2 * tl M (j+1) (reflectMat tiny M N j B d).1 k
    rw [if_pos (by omega), htlN k h3 h4, swapV, hcok _ (hsw k (by omega) h4).1 (hsw k (by omega) h4).2, map_mul,
      RCLike.normSq_eq_def' (s : K), RCLike.norm_ofReal, sq_abs]
    ring
  · show (reflectMat tiny M N j B d).2.2 = det0 * psign (setP st.P j jp) (j+1) * ∏ i ∈ Finset.range (j+1), dfac (if i = j then (reflectMat tiny M N j B d).2.1 else st.beta i)
    rw [hdet, Finset.prod_range_succ, if_pos rfl, ← hβj]
    rw [Finset.prod_congr rfl (g := fun i => dfac (st.beta i)) fun i hi => by
      rw [if_neg (by rw [Finset.mem_range] at hi; omega)]]
    unfold psign
    rw [Finset.prod_range_succ]
    have e : (∏ i ∈ Finset.range j, if setP st.P j jp i = i then (1:K) else -1) = psign st.P j :=
      psign_congr fun i hi => if_neg (by omega)
    rw [e, hd, hdok]
    simp only [setP, if_true]
    by_cases hjp : jp = j
    · rw [if_pos hjp, if_pos hjp]; ring
    · rw [if_neg hjp, if_neg hjp]; ring
  · intro hst
    obtain ⟨m1, m2⟩ := hmono hst
    have hmax' : ∀ k, j ≤ k → k < N → tl M j st.A k ≤ tl M j st.A jp := by
      intro k h3 h4
      have := hmax hst k h3 h4
      rw [hcok k h3 h4, hcok jp h1 h2] at this
      exact le_of_mul_le_mul_left this (by positivity)
    have hBj : tl M j B j = tl M j st.A jp := by rw [htl, Equiv.swap_apply_left]
    show (∀ i k, i ≤ k → k < j+1 → RCLike.normSq ((reflectMat tiny M N j B d).1 k k) ≤ max (RCLike.normSq ((reflectMat tiny M N j B d).1 i i)) (M * tiny ^ 2)) ∧
      ∀ i, i < j+1 → ∀ c, j+1 ≤ c → c < N → tl M (j+1) (reflectMat tiny M N j B d).1 c ≤ max (RCLike.normSq ((reflectMat tiny M N j B d).1 i i)) (M * tiny ^ 2)
    constructor
    · intro i k hik hk
      by_cases hkj : k = j
      · by_cases hij : i = j
        · rw [hkj, hij]; exact le_max_left _ _
        · rw [hkj, hfr i (by omega)]
          rw [hBj] at n2
          exact n2.trans (m2 i (by omega) jp h1 h2)
      · rw [hfr k (by omega), hfr i (by omega)]
        exact m1 i k hik (by omega)
    · intro i hi c h3 h4
      have hle : tl M (j+1) (reflectMat tiny M N j B d).1 c ≤ tl M j st.A (Equiv.swap j jp c) := by
        rw [htlN c h3 h4]
        have := RCLike.normSq_nonneg ((reflectMat tiny M N j B d).1 j c)
        linarith
      by_cases hij : i = j
      · rw [hij]
        rw [hBj] at n3
        exact (hle.trans (hmax' _ (hsw c (by omega) h4).1 (hsw c (by omega) h4).2)).trans n3
      · rw [hfr i (by omega)]
        exact hle.trans (m2 i (by omega) _ (hsw c (by omega) h4).1 (hsw c (by omega) h4).2)

/-- Zero the rest. -/
theorem PInv.zero (hs0 : 0 < s) (hNM : N ≤ M) (hj : j ≤ N) (h : PInv tiny T s strict M N A0 det0 j st) {th : ℝ}
    (hth : th ≤ s ^ 2 * (M * T ^ 2)) (hc : ∀ k, j ≤ k → k < N → st.cn k < th) :
    PInv tiny T s strict M N A0 det0 N (zeroRest M N j st) := by
  obtain ⟨hsp, hpok, hcok, hdok, hmono⟩ := h
  have hP : ∀ i, i < j → (zeroRest M N j st).P i = st.P i := fun i hi => if_neg (by omega)
  have hP2 : ∀ i, j ≤ i → i < N → (zeroRest M N j st).P i = i := fun i h1 h2 => if_pos ⟨h1, h2⟩
  have hAlt : ∀ p c, p < j → (zeroRest M N j st).A p c = st.A p c := fun p c hp => if_neg (by omega)
  have hA0 : ∀ p c, j ≤ p → p < M → j ≤ c → c < N → (zeroRest M N j st).A p c = 0 := fun p c a b c d => if_pos ⟨a, b, c, d⟩
  have hb0 : ∀ i, j ≤ i → i < N → (zeroRest M N j st).beta i = 0 := fun i h1 h2 => if_pos ⟨h1, h2⟩
  have hblt : ∀ i, i < j → (zeroRest M N j st).beta i = st.beta i := fun i h1 => if_neg (by omega)
  have hsw : ∀ n, j + n ≤ N → swapsPerm (zeroRest M N j st).P (j+n) = swapsPerm st.P j := by
    intro n
    induction n with
    | zero => intro _; exact swapsPerm_congr j hP
    | succ n ih =>
      intro hn
      rw [← Nat.add_assoc, swapsPerm, ih (by omega), hP2 (j+n) (by omega) (by omega), Equiv.swap_self]
      exact mul_one _
  have hsg : ∀ n, j + n ≤ N → (psign (zeroRest M N j st).P (j+n) : K) = psign st.P j := by
    intro n
    induction n with
    | zero => intro _; exact psign_congr hP
    | succ n ih =>
      intro hn
      have := ih (by omega)
      unfold psign at this ⊢
      rw [← Nat.add_assoc, Finset.prod_range_succ, this, hP2 (j+n) (by omega) (by omega), if_pos rfl, mul_one]
  have hN : N = j + (N - j) := by omega
  have htl0 : ∀ c, N ≤ c → c < N → False := by omega
  refine ⟨?_, ?_, ?_, ?_, ?_⟩
  · rw [show swapsPerm (zeroRest M N j st).P N = swapsPerm st.P j by have := hsw (N-j) (by omega); rwa [← hN] at this]
    have h1 : QRSpec T M 0 j N (fun p c => A0 p (swapsPerm st.P j c)) st.A (zeroRest M N j st).beta :=
      hsp.congr fun i _ hi => (hblt i (by omega)).symm
    have h2 : QRSpec T M j (N-j) N st.A (zeroRest M N j st).A (zeroRest M N j st).beta :=
      QRSpec.zeros hNM hj (fun p c => rfl) hb0 fun c h3 h4 => by
        have := hc c h3 h4
        rw [hcok c h3 h4] at this
        exact le_of_mul_le_mul_left (this.le.trans hth) (by positivity)
    have := h1.comp (m := N-j) (by rw [Nat.zero_add]; exact h2) (by omega)
    rwa [← hN] at this
  · intro i hi
    by_cases hij : i < j
    · rw [hP i hij]; exact hpok i hij
    · rw [hP2 i (by omega) hi]; omega
  · intro k h1 h2; omega
  · rw [show (psign (zeroRest M N j st).P N : K) = psign st.P j by have := hsg (N-j) (by omega); rwa [← hN] at this]
    rw [hN, ← Finset.prod_range_mul_prod_Ico _ (show j ≤ j + (N-j) by omega)]
    rw [← hN, Finset.prod_congr rfl (g := fun i => dfac (st.beta i)) fun i hi => by
      rw [hblt i (Finset.mem_range.mp hi)], Finset.prod_eq_one (s := Finset.Ico j N) fun i hi => by
      rw [Finset.mem_Ico] at hi
      rw [hb0 i hi.1 hi.2, dfac, if_pos rfl], mul_one]
    exact hdok
  · intro hst
    obtain ⟨m1, m2⟩ := hmono hst
    refine ⟨fun i k hik hk => ?_, fun i hi c h1 h2 => by omega⟩
    by_cases hkj : k < j
    · rw [hAlt k k hkj, hAlt i i (by omega)]
      exact m1 i k hik hkj
    · rw [hA0 k k (by omega) (by omega) (by omega) hk, map_zero]
      exact le_max_of_le_left (RCLike.normSq_nonneg _)

theorem PInv.recalc (h : PInv tiny T s strict M N A0 det0 j st) : PInv tiny T s strict M N A0 det0 j (recalc s M N j j st) :=
  ⟨h.spec, h.pok, fun k h1 h2 => by
    show (if j ≤ k ∧ k < N then _ else _) = _
    rw [if_pos ⟨h1, h2⟩, cnorm_eq]
    rfl, h.dok, h.mono⟩

/-! ### `NonBlockQRPDecompose` -/

theorem nbLoop_spec (ht : 0 < tiny) (htT : tiny ≤ T) (hs0 : 0 < s) (hNM : N ≤ M) {th sqe : ℝ} (hth : th ≤ s ^ 2 * (M * T ^ 2)) :
    ∀ (n j : Nat) (rt : ℝ) (st : PSt K), n + j = N → PInv tiny T s strict M N A0 det0 j st →
      PInv tiny T s strict M N A0 det0 N (nbLoop tiny sqe s th strict M N n j rt st) := by
  intro n
  induction n with
  | zero => intro j rt st hn h; rw [Nat.zero_add] at hn; subst hn; exact h
  | succ n ih =>
    intro j rt st hn h
    have am := argMax_spec st.cn j (N-j) (by omega)
    have am2 := argMax_spec (QR.recalc s M N j j st).cn j (N-j) (by omega)
    rw [show j + (N-j) = N by omega] at am am2
    unfold nbLoop
    by_cases hc : strict = true ∨ j = 0 ∨ st.cn j < rt
    · rw [if_pos hc]
      dsimp only
      by_cases hr : st.cn (argMax st.cn j (N-j)) < if j = 0 then 4 * sqe * st.cn (argMax st.cn j (N-j)) else rt
      · rw [if_pos hr]
        split_ifs with h3 h4
        · exact h.recalc.zero hs0 hNM (by omega) hth fun k h5 h6 => (am2.2.2 k h5 h6).trans_lt h3
        · exact ih _ _ _ (by omega) (h.recalc.step ht htT hs0 hNM (by omega) am2.1 am2.2.1 fun _ => am2.2.2)
        · exact ih _ _ _ (by omega) (h.recalc.step ht htT hs0 hNM (by omega) am2.1 am2.2.1 fun _ => am2.2.2)
      · rw [if_neg hr]
        by_cases h3 : st.cn (argMax st.cn j (N-j)) < th
        · rw [if_pos h3]
          exact h.zero hs0 hNM (by omega) hth fun k h5 h6 => (am.2.2 k h5 h6).trans_lt h3
        · rw [if_neg h3]
          exact ih _ _ _ (by omega) (h.step ht htT hs0 hNM (by omega) am.1 am.2.1 fun _ => am.2.2)
    · rw [if_neg hc]
      refine ih _ _ _ (by omega) ?_
      have e : ({ st with P := setP st.P j j } : PSt K) = pivot j j st := by
        unfold pivot
        rw [if_neg (by simp)]
      rw [e]
      exact h.step ht htT hs0 hNM (by omega) le_rfl (by omega) fun hst => absurd (Or.inl hst) hc

end
end TMV.QR
