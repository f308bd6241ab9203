import Verif.Props.QRPLoose
import Verif.Props.QRPStrict
import Verif.Props.QRQ

/-! QR decomposition with column pivoting (C86): the theorems about `QRP_Decompose`. -/
namespace TMV.QR
noncomputable section
open Classical

variable {K : Type} [RCLike K]
variable {tiny T s : ℝ} {strict : Bool} {M N : Nat} {A0 : Nat → Nat → K} {det0 : K} {j : Nat} {st : PSt K}

/-- Square of the largest perturbation a column may suffer: `√M·tiny` (underflow) or `√N·eps·‖A‖` (`thresh`), `‖A‖` the Frobenius norm. -/
def qrpTol (tiny eps : ℝ) (M N : Nat) (A : Nat → Nat → K) : ℝ :=
  max (M * tiny ^ 2) (N * eps ^ 2 * ∑ c ∈ Finset.range N, ∑ p ∈ Finset.range M, ‖A p c‖ ^ 2)

theorem maxAbs2M_nonneg (M : Nat) (A : Nat → Nat → K) : ∀ n, 0 ≤ maxAbs2M M A n
  | 0 => le_rfl
  | n+1 => le_max_of_le_left (maxAbs2M_nonneg M A n)

theorem qrpScale_pos (M N : Nat) (A : Nat → Nat → K) : 0 < qrpScale M N A := by
  unfold qrpScale
  split_ifs with h
  · exact one_pos
  · exact one_div_pos.mpr (lt_of_le_of_ne (maxAbs2M_nonneg M A N) (Ne.symm h))

theorem tl_zero (M : Nat) (A : Nat → Nat → K) (c : Nat) : tl M 0 A c = ∑ p ∈ Finset.range M, ‖A p c‖ ^ 2 := by
  unfold tl
  rw [← Finset.range_eq_Ico]
  exact Finset.sum_congr rfl fun p _ => by rw [RCLike.normSq_eq_def']

theorem qrpThresh_eq (eps : ℝ) (A : Nat → Nat → K) (beta0 : Nat → K) (P0 : Nat → Nat) (det : K) :
    qrpThresh eps N (qrpInit M N A beta0 P0 det).cn =
      qrpScale M N A ^ 2 * (N * eps ^ 2 * ∑ c ∈ Finset.range N, ∑ p ∈ Finset.range M, ‖A p c‖ ^ 2) := by
  unfold qrpThresh
  have : ∑ k ∈ Finset.range N, (qrpInit M N A beta0 P0 det).cn k =
      qrpScale M N A ^ 2 * ∑ c ∈ Finset.range N, ∑ p ∈ Finset.range M, ‖A p c‖ ^ 2 := by
    rw [Finset.mul_sum]
    refine Finset.sum_congr rfl fun k hk => ?_
    rw [← tl_zero, ← cnorm_eq]
    exact if_pos ⟨Nat.zero_le _, Finset.mem_range.mp hk⟩
  rw [this]
  ring

theorem qrpInit_inv (tiny T : ℝ) (strict : Bool) (A : Nat → Nat → K) (beta0 : Nat → K) (P0 : Nat → Nat) (det : K) :
    PInv tiny T (qrpScale M N A) strict M N A det 0 (qrpInit M N A beta0 P0 det) := by
  refine ⟨?_, fun i hi => by omega, fun k _ hk => ?_, ?_, fun _ => ⟨fun i k _ h => by omega, fun i h => by omega⟩⟩
  · exact QRSpec.zero _ _ _ _ _ _
  · rw [← cnorm_eq]
    exact if_pos ⟨Nat.zero_le _, hk⟩
  · show det = det * psign P0 0 * _
    simp [psign]

theorem signLoop_eq (P : Nat → Nat) : ∀ (n i : Nat) (det : K), signLoop P n i det = det * ∏ k ∈ Finset.Ico i (i+n), if P k = k then 1 else -1
  | 0, i, det => by simp [signLoop]
  | n+1, i, det => by
    rw [signLoop, signLoop_eq P n, Finset.prod_eq_prod_Ico_succ_bot (show i < i+(n+1) by omega), show i+1+n = i+(n+1) by omega, ← mul_assoc]
    congr 1
    by_cases h : P i = i
    · rw [if_neg (by simpa using h), if_pos h, mul_one]
    · rw [if_pos h, if_neg h, mul_neg, mul_one]

theorem signLoop_psign (P : Nat → Nat) (n : Nat) (det : K) : signLoop P n 0 det = det * psign P n := by
  rw [signLoop_eq, psign, Finset.range_eq_Ico, Nat.zero_add]

theorem qrpTol_T (ht : 0 < tiny) (eps : ℝ) (hNM : N ≤ M) (A : Nat → Nat → K) :
    ∃ T, tiny ≤ T ∧ M * T ^ 2 = qrpTol tiny eps M N A := by
  rcases Nat.eq_zero_or_pos M with rfl | hM
  · obtain rfl : N = 0 := by omega
    exact ⟨tiny, le_rfl, by simp [qrpTol]⟩
  have hM' : (0:ℝ) < M := by exact_mod_cast hM
  have h0 : 0 ≤ qrpTol tiny eps M N A / M := div_nonneg (le_max_of_le_left (by positivity)) hM'.le
  refine ⟨Real.sqrt (qrpTol tiny eps M N A / M), ?_, ?_⟩
  · refine Real.le_sqrt_of_sq_le ?_
    rw [le_div_iff₀ hM', mul_comm]
    exact le_max_left _ _
  · rw [Real.sq_sqrt h0]
    field_simp

/-- The state at the end. -/
theorem qrp_inv (ht : 0 < tiny) (hNM : N ≤ M) {eps sqe : ℝ} {nb : Nat} (hnb : 0 < nb)
    (hsq : strict = false → nb < N → N * sqe ≤ 1) (htT : tiny ≤ T) {A : Nat → Nat → K} (hT : M * T ^ 2 = qrpTol tiny eps M N A)
    (Z0 : Nat → Nat → K) (beta0 : Nat → K) (P0 : Nat → Nat) (det : K) (fuel : Nat) :
    (4 * sqe ≤ 1 → 2 * N + 3 ≤ fuel → (qrp tiny eps sqe strict nb M N A Z0 beta0 P0 det fuel).isSome) ∧
    ∀ r, qrp tiny eps sqe strict nb M N A Z0 beta0 P0 det fuel = some r → PInv tiny T (qrpScale M N A) strict M N A det N r := by
  have hs0 := qrpScale_pos M N A
  have hth : qrpThresh eps N (qrpInit M N A beta0 P0 det).cn ≤ qrpScale M N A ^ 2 * (M * T ^ 2) := by
    rw [qrpThresh_eq, hT]
    exact mul_le_mul_of_nonneg_left (le_max_right _ _) (sq_nonneg _)
  have hth0 : 0 ≤ qrpThresh eps N (qrpInit M N A beta0 P0 det).cn := by
    rw [qrpThresh_eq]
    exact mul_nonneg (sq_nonneg _) (mul_nonneg (by positivity) (Finset.sum_nonneg fun _ _ => Finset.sum_nonneg fun _ _ => sq_nonneg _))
  have h0 : ∀ b, PInv tiny T (qrpScale M N A) b M N A det 0 (qrpInit M N A beta0 P0 det) := fun b => qrpInit_inv tiny T b A beta0 P0 det
  unfold qrp
  by_cases hN : N > 0
  · rw [if_pos hN]
    by_cases hb : N > nb
    · rw [if_pos hb]
      rcases strict with _ | _
      · rw [if_neg (by simp)]
        have hi : PInv tiny T (qrpScale M N A) false M N A det 0
            { qrpInit M N A beta0 P0 det with det := (qrpInit M N A beta0 P0 det).det * psign (qrpInit M N A beta0 P0 det).P 0 } := by
          have : (psign (qrpInit M N A beta0 P0 det).P 0 : K) = 1 := by simp [psign]
          rw [this, mul_one]
          exact h0 false
        obtain ⟨l1, l2⟩ := lOuter_spec (s := qrpScale M N A) ht htT hs0 hNM hth hth0 hnb (hsq rfl hb) Z0 fuel 0 _ (Nat.zero_le _) hi
        unfold looseQRP
        refine ⟨fun _ hf => ?_, fun r hr => ?_⟩
        · rw [Option.isSome_map]
          exact l1 (by omega)
        · obtain ⟨q, hq, rfl⟩ := Option.map_eq_some_iff.mp hr
          have := l2 q hq
          by_cases hd : q.det = 0
          · rw [if_neg (by simpa using hd)]
            rw [hd, zero_mul, ← hd] at this
            exact this
          · rw [if_pos hd, signLoop_psign]
            exact this
      · rw [if_pos rfl]
        unfold strictQRP
        exact ⟨fun h4 hf => sbOuter_some ht htT hs0 hNM hth hnb h4 _ _ _ _ _ (Nat.zero_le _) (h0 true) (by rw [if_pos rfl]; omega),
          fun r hr => sbOuter_spec ht htT hs0 hNM hth nb _ _ _ _ _ (Nat.zero_le _) (h0 true) r hr⟩
    · rw [if_neg hb]
      refine ⟨fun _ _ => rfl, fun r hr => ?_⟩
      cases hr
      exact nbLoop_spec ht htT hs0 hNM hth N 0 0 _ rfl (h0 strict)
  · rw [if_neg hN]
    refine ⟨fun _ _ => rfl, fun r hr => ?_⟩
    cases hr
    obtain rfl : N = 0 := by omega
    refine ⟨QRSpec.zero _ _ _ _ _ _, fun i hi => by omega, fun k _ h => by omega, by simp [psign], fun _ => ⟨fun i k _ h => by omega, fun i h => by omega⟩⟩

theorem swapsPerm_fix {P : Nat → Nat} : ∀ n, n ≤ N → (∀ i, i < n → P i < N) → ∀ c, N ≤ c → swapsPerm P n c = c
  | 0, _, _, _, _ => rfl
  | n+1, hn, h, c, hc => by
    rw [swapsPerm, Equiv.Perm.mul_apply, Equiv.swap_apply_of_ne_of_ne (by omega) (by have := h n (by omega); omega)]
    exact swapsPerm_fix n (by omega) (fun i hi => h i (by omega)) c hc

/-- The interchanges change the determinant by the sign. -/
theorem det_swapsPerm {P : Nat → Nat} (X : Nat → Nat → K) : ∀ n, n ≤ N → (∀ i, i < n → P i < N) →
    (LU.toM N fun p c => X p (swapsPerm P n c)).det = psign P n * (LU.toM N X).det
  | 0, _, _ => by simp [psign, swapsPerm]
  | n+1, hn, h => by
    have ih := det_swapsPerm (P := P) X n (by omega) fun i hi => h i (by omega)
    have hp := h n (by omega)
    have e : (LU.toM N fun p c => X p (swapsPerm P (n+1) c)) =
        (LU.toM N fun p c => X p (swapsPerm P n c)).submatrix id (Equiv.swap (⟨n, by omega⟩ : Fin N) ⟨P n, hp⟩) := by
      ext a b
      simp only [LU.toM, Matrix.of_apply, Matrix.submatrix_apply, id, swapsPerm, Equiv.Perm.mul_apply]
      congr 2
      by_cases h1 : b.val = n
      · have : b = (⟨n, by omega⟩ : Fin N) := Fin.ext h1
        rw [this, Equiv.swap_apply_left (⟨n, by omega⟩ : Fin N) ⟨P n, hp⟩]
        exact Equiv.swap_apply_left n (P n)
      · by_cases h2 : b.val = P n
        · have : b = (⟨P n, hp⟩ : Fin N) := Fin.ext h2
          rw [this, Equiv.swap_apply_right (⟨n, by omega⟩ : Fin N) ⟨P n, hp⟩]
          exact Equiv.swap_apply_right n (P n)
        · rw [Equiv.swap_apply_of_ne_of_ne h1 h2, Equiv.swap_apply_of_ne_of_ne (fun h => h1 (congrArg Fin.val h)) (fun h => h2 (congrArg Fin.val h))]
    rw [e, Matrix.det_permute', ih, psign, psign, Finset.prod_range_succ]
    by_cases hs : P n = n
    · have : (⟨n, by omega⟩ : Fin N) = ⟨P n, hp⟩ := Fin.ext hs.symm
      rw [if_pos hs, this, Equiv.swap_self, Equiv.Perm.sign_refl]
      simp
    · rw [if_neg hs, Equiv.Perm.sign_swap (fun h => hs (congrArg Fin.val h).symm)]
      simp

/-- **C86** (packed form): if `QRP_Decompose(A,beta,P,det,strict)` of an `M`×`N` matrix, `M ≥ N`, ends, then `P` is a valid list of
interchanges, and `beta`, `A` are a QR decomposition of `A` with the columns interchanged, up to `E`.  `E` is zero in every column with a
nonzero diagonal element of `R`; the norm of the others is bounded by `qrpTol`.  For a square matrix `det·∏ R_ii` is the determinant
(times the old `det`) of the perturbed matrix.  If `strict`, the diagonal of `R` is decreasing in absolute value (elements below the
underflow threshold apart). -/
theorem qrp_packed (ht : 0 < tiny) (hNM : N ≤ M) {eps sqe : ℝ} {nb : Nat} (hnb : 0 < nb)
    (hsq : strict = false → nb < N → N * sqe ≤ 1) (A Z0 : Nat → Nat → K) (beta0 : Nat → K) (P0 : Nat → Nat) (det : K) (fuel : Nat)
    (r : PSt K) (hr : qrp tiny eps sqe strict nb M N A Z0 beta0 P0 det fuel = some r) :
    (∀ i, i < N → i ≤ r.P i ∧ r.P i < N) ∧
    (∃ E : Nat → Nat → K, Fact M N r.A r.beta (fun p c => A p (swapsPerm r.P N c) + E p c) ∧
      (∀ c, c < N → r.A c c ≠ 0 → ∀ p, E p c = 0) ∧
      (∀ c, c < N → ∑ p ∈ Finset.range M, ‖E p c‖ ^ 2 ≤ qrpTol tiny eps M N A) ∧
      (M = N → r.det * ∏ i ∈ Finset.range N, r.A i i = det * (LU.toM N fun p c => A p c + E p ((swapsPerm r.P N).symm c)).det)) ∧
    (strict = true → ∀ i k, i ≤ k → k < N → ‖r.A k k‖ ^ 2 ≤ max (‖r.A i i‖ ^ 2) (M * tiny ^ 2)) ∧
    (∀ p c, N ≤ c → r.A p c = A p c) := by
  obtain ⟨T, htT, hT⟩ := qrpTol_T ht eps hNM A
  have h := (qrp_inv ht hNM hnb hsq htT hT Z0 beta0 P0 det fuel).2 r hr
  have hfix := swapsPerm_fix (N := N) (P := r.P) N le_rfl fun i hi => (h.pok i hi).2
  refine ⟨h.pok, ?_, ?_, ?_⟩
  · obtain ⟨E, hE, hF⟩ := h.spec.fact hNM
    refine ⟨E, hF, hE.2, fun c hc => (hE.1 c hc).trans hT.le, ?_⟩
    intro hMN
    subst hMN
    have hd := hF.det
    have e := det_swapsPerm (N := M) (P := r.P) (fun p c => A p c + E p ((swapsPerm r.P M).symm c)) M le_rfl fun i hi => (h.pok i hi).2
    simp only [Equiv.symm_apply_apply] at e
    rw [hd] at e
    rw [h.dok, mul_assoc (det * _), e, mul_assoc det, ← mul_assoc (psign r.P M), psign_sq, one_mul]
  · intro hst i k hik hk
    have := (h.mono hst).1 i k hik hk
    simpa only [RCLike.normSq_eq_def'] using this
  · intro p c hc
    rw [h.spec.frame p c (by omega), hfix c hc]

/-- **C86**: `QRP_Decompose(Q,R,P,strict)`: `Q` has orthonormal columns, `R` is upper triangular, and `Q R` is `A` with the columns
interchanged (`i <-> P[i]` for `i = 0, 1, ...`) up to `E`. -/
theorem qrp_unpacked (ht : 0 < tiny) (hNM : N ≤ M) {eps sqe : ℝ} {nb nbu : Nat} (hnb : 0 < nb) (hnbu : 0 < nbu)
    (hsq : strict = false → nb < N → N * sqe ≤ 1) (A Z0 Z1 : Nat → Nat → K) (beta0 : Nat → K) (P0 : Nat → Nat) (fuel : Nat)
    (Q R : Nat → Nat → K) (P : Nat → Nat) (hr : qrpUnpacked tiny eps sqe strict nb nbu M N A Z0 Z1 beta0 P0 fuel = some (Q, R, P)) :
    (∀ i, i < N → i ≤ P i ∧ P i < N) ∧
    (∀ k l, k < N → l < N → ∑ p ∈ Finset.range M, star (Q p k) * Q p l = if k = l then 1 else 0) ∧
    (∀ i j, j < i → R i j = 0) ∧
    (∃ E : Nat → Nat → K, (∀ i c, i < M → c < N → A i (swapsPerm P N c) + E i c = ∑ k ∈ Finset.range N, Q i k * R k c) ∧
      (∀ c, c < N → R c c ≠ 0 → ∀ i, E i c = 0) ∧
      ∀ c, c < N → ∑ i ∈ Finset.range M, ‖E i c‖ ^ 2 ≤ qrpTol tiny eps M N A) ∧
    (strict = true → ∀ i k, i ≤ k → k < N → ‖R k k‖ ^ 2 ≤ max (‖R i i‖ ^ 2) (M * tiny ^ 2)) ∧
    (∀ p c, N ≤ c → Q p c = A p c) := by
  obtain ⟨r, hq, he⟩ := Option.map_eq_some_iff.mp hr
  obtain ⟨T, htT, hT⟩ := qrpTol_T ht eps hNM A
  have h := (qrp_inv ht hNM hnb hsq htT hT Z0 beta0 P0 0 fuel).2 r hq
  have hfix := swapsPerm_fix (N := N) (P := r.P) N le_rfl fun i hi => (h.pok i hi).2
  have hQ := getQ_spec hnbu hNM r.A r.beta Z1 (fun j hj hb => h.spec.bz j (by omega) (by omega) hb)
  obtain ⟨rfl, rfl, rfl⟩ : Q = getQ nbu M N r.beta Z1 r.A ∧ R = (fun i j => if i ≤ j then r.A i j else 0) ∧ P = r.P := by
    simp only [Prod.mk.injEq] at he
    exact ⟨he.1.symm, he.2.1.symm, he.2.2.symm⟩
  refine ⟨h.pok, ?_, ?_, ?_, ?_, ?_⟩
  · intro k l hk hl
    have h1 : ∀ c, c < N → ∀ p, p < M → getQ nbu M N r.beta Z1 r.A p c = hsA M r.A r.beta 0 N (ev c) p :=
      fun c hc p hp => by rw [hQ.done c (by omega) hc p hp, Nat.sub_zero]
    have h2 := hsA_unitary N (fun j h3 h4 => h.spec.valid j h3 h4) (ev k) (ev l)
    rw [ip_ev _ (show k < M by omega)] at h2
    rw [show (if k = l then (1:K) else 0) = ev l k from rfl, ← h2]
    refine Finset.sum_congr rfl fun p hp => ?_
    rw [Finset.mem_range] at hp
    rw [h1 k hk p hp, h1 l hl p hp]
  · intro i j hij
    show (if i ≤ j then r.A i j else 0) = 0
    rw [if_neg (by omega)]
  · have hc : ∀ c, ∃ ε : Nat → K, c < N → (nsq M ε ≤ M * T ^ 2 ∧ (r.A c c ≠ 0 → ε = fun _ => 0) ∧
        (∀ p, p < M → A p (swapsPerm r.P N c) + ε p = ∑ k ∈ Finset.range N, hsA M r.A r.beta 0 N (ev k) p * (if k ≤ c then r.A k c else 0))) := by
      intro c
      by_cases hc : c < N
      · obtain ⟨ε, e⟩ := h.spec.col hNM c hc
        exact ⟨ε, fun _ => e⟩
      · exact ⟨fun _ => 0, fun h => absurd h hc⟩
    choose ε hε using hc
    refine ⟨fun i c => ε c i, ?_, ?_, ?_⟩
    · intro i c hi hc
      rw [(hε c hc).2.2 i hi]
      refine Finset.sum_congr rfl fun k hk => ?_
      rw [Finset.mem_range] at hk
      rw [hQ.done k (by omega) hk i hi, Nat.sub_zero]
    · intro c hc hR i
      simp only [if_pos (le_refl c)] at hR
      show ε c i = 0
      rw [(hε c hc).2.1 hR]
    · intro c hc
      have := (hε c hc).1
      rw [hT] at this
      unfold nsq at this
      simpa only [RCLike.normSq_eq_def'] using this
  · intro hst i k hik hk
    have := (h.mono hst).1 i k hik hk
    simp only [if_pos (le_refl _)]
    simpa only [RCLike.normSq_eq_def'] using this
  · intro p c hc
    rw [hQ.frame p c (Or.inr hc), h.spec.frame p c (by omega), hfix c hc]

/-- **C86** (termination): with `4·√eps ≤ 1`, and `N·√eps ≤ 1` if the loose block algorithm is used, the decomposition ends: `2N+3` passes
through the outer loops are enough. -/
theorem qrp_ends (ht : 0 < tiny) (hNM : N ≤ M) {eps sqe : ℝ} {nb : Nat} (hnb : 0 < nb) (h4 : 4 * sqe ≤ 1)
    (hsq : strict = false → nb < N → N * sqe ≤ 1) (A Z0 : Nat → Nat → K) (beta0 : Nat → K) (P0 : Nat → Nat) (det : K) (fuel : Nat)
    (hf : 2 * N + 3 ≤ fuel) : (qrp tiny eps sqe strict nb M N A Z0 beta0 P0 det fuel).isSome := by
  obtain ⟨T, htT, hT⟩ := qrpTol_T ht eps hNM A
  exact (qrp_inv ht hNM hnb hsq htT hT Z0 beta0 P0 det fuel).1 h4 hf

/-! ### The loose algorithm does not end for many columns -/

theorem scanDown_all (cn : Nat → ℝ) (rt : ℝ) (j1 : Nat) : ∀ j3, j1 ≤ j3 → (∀ k, j1 < k → k ≤ j3 → cn k < rt) → scanDown cn rt j1 j3 = j1
  | 0, h, _ => by rw [scanDown]; omega
  | j3+1, h, hc => by
    rw [scanDown]
    by_cases he : j3+1 = j1
    · rw [if_neg (by omega), he]
    · rw [if_pos ⟨by omega, hc _ (by omega) le_rfl⟩]
      exact scanDown_all cn rt j1 j3 (by omega) fun k h1 h2 => hc k h1 (by omega)

theorem lWhile_stuck {rt : ℝ} {nb : Nat} (hN : 2 ≤ N) (hnb : 0 < nb) (Z0 : Nat → Nat → K) (jp : Nat) (st : PSt K)
    (hA : st.A = swapC A0 0 jp) (hP : st.P 0 = jp) (hjp : jp < N) (hcn : ∀ k, k < N → st.cn k < rt) (f : Nat) :
    lWhile tiny s rt nb M N Z0 f 0 1 N st = none ∨ ∃ q : PSt K, lWhile tiny s rt nb M N Z0 f 0 1 N st = some (0, 0, q) ∧ q.A = A0 := by
  obtain ⟨q, hq⟩ : ∃ q, q = putBack 0 1 0 st := ⟨_, rfl⟩
  have hq' : q = if st.P 0 > 0 then { st with A := swapC st.A 0 (st.P 0), cn := swapV st.cn 0 (st.P 0) } else st := by rw [hq]; rfl
  have qA : q.A = A0 := by
    rw [hq']
    split_ifs with hc
    · show swapC st.A 0 (st.P 0) = A0
      rw [hA, hP]
      funext p c
      simp [swapC]
    · rw [hA, show jp = 0 by omega, swapC_self]
  have qcn : q.cn 0 < rt := by
    rw [hq']
    split_ifs with hc
    · show swapV st.cn 0 (st.P 0) 0 < rt
      rw [swapV, Equiv.swap_apply_left]
      exact hcn _ (by omega)
    · exact hcn 0 (by omega)
  have b1 : lBlock tiny s rt nb M N 0 1 N st Z0 = (0, 1, q) := by
    have m1 : moveLow rt 1 (min N (0+nb)) N st = (1, 1, st) := by
      unfold moveLow
      dsimp only
      rw [scanDown_all st.cn rt 1 (N-1) (by omega) fun k _ h => hcn k (by omega), if_pos rfl, if_pos (hcn 1 (by omega))]
    have m2 : lInner tiny s rt M 1 0 (1-0) 0 1 st Z0 = (0, st, Z0) := by
      rw [show 1 - 0 = 0 + 1 from rfl, lInner, if_pos (by omega), if_pos (hcn 0 (by omega))]
      simp
    unfold lBlock
    dsimp only
    rw [m1]
    dsimp only
    rw [m2]
    dsimp only
    rw [show lUpdate s M N 0 0 1 st Z0 = st from if_neg (by omega), hq]
  have b2 : lBlock tiny s rt nb M N 0 0 1 q Z0 = (0, 0, q) := by
    have m1 : moveLow rt 0 (min 1 (0+nb)) 1 q = (0, 0, q) := by
      unfold moveLow
      dsimp only
      rw [scanDown_all q.cn rt 0 (1-1) (by omega) fun k _ h => by omega, if_pos rfl, if_pos qcn]
    unfold lBlock
    dsimp only
    rw [m1]
    dsimp only
    rw [show lInner tiny s rt M 0 0 (0-0) 0 0 q Z0 = (0, q, Z0) from rfl]
    dsimp only
    rw [show lUpdate s M N 0 0 0 q Z0 = q from if_neg (by omega)]
    rfl
  match f with
  | 0 => exact Or.inl rfl
  | 1 => left; rw [lWhile, if_pos (by omega), b1]; rfl
  | 2 => left; rw [lWhile, if_pos (by omega), b1]; dsimp only; rw [lWhile, if_pos (by omega), b2]; rfl
  | f+3 =>
    right
    refine ⟨q, ?_, qA⟩
    rw [lWhile, if_pos (by omega), b1]; dsimp only; rw [lWhile, if_pos (by omega), b2]; dsimp only; rw [lWhile, if_neg (by omega)]

theorem lOuter_stuck {th sqe : ℝ} {nb : Nat} (hN : 2 ≤ N) (hnb : 0 < nb) (Z0 : Nat → Nat → K) (hsq : 1 < N * sqe)
    (hmx : ∃ k, k < N ∧ th ≤ cnorm s A0 k 0 M ∧ 0 < cnorm s A0 k 0 M) :
    ∀ (f : Nat) (st : PSt K), st.A = A0 → (∀ k, k < N → st.cn k = cnorm s A0 k 0 M) → lOuter tiny sqe s th nb M N Z0 f 0 st = none := by
  intro f
  induction f with
  | zero => intro st _ _; rfl
  | succ f ih =>
    intro st hA hcn
    rw [lOuter, if_pos (by omega)]
    have am := argMax_spec st.cn 0 N (by omega)
    rw [Nat.zero_add] at am
    rw [Nat.sub_zero]
    obtain ⟨jp, hjp⟩ : ∃ jp, jp = argMax st.cn 0 N := ⟨_, rfl⟩
    rw [← hjp] at am ⊢
    dsimp only
    obtain ⟨k, k1, k2, k3⟩ := hmx
    have hk := am.2.2 k (Nat.zero_le _) k1
    rw [hcn k k1] at hk
    have hjth : th ≤ st.cn jp := k2.trans hk
    have hjpos : 0 < st.cn jp := k3.trans_le hk
    rw [if_neg (not_lt.mpr hjth)]
    have hrt : st.cn jp < N * sqe * st.cn jp := by nlinarith
    rw [if_neg (show ¬ N * sqe * st.cn jp < th from not_lt.mpr (hjth.trans hrt.le))]
    obtain ⟨st1, hst1⟩ : ∃ st1 : PSt K, st1 = if jp ≠ 0 then { st with A := swapC st.A 0 jp, cn := swapV st.cn 0 jp, P := setP st.P 0 jp }
      else { st with P := setP st.P 0 0 } := ⟨_, rfl⟩
    rw [← hst1]
    have hst1' : st1 = { st with A := swapC st.A 0 jp, cn := swapV st.cn 0 jp, P := setP st.P 0 jp } := by
      rw [hst1]
      split_ifs with hc
      · rfl
      · have : jp = 0 := not_not.mp hc
        rw [this, swapC_self, swapV_self]
    have hc1 : ∀ k, k < N → st1.cn k < N * sqe * st.cn jp := by
      intro k hk
      rw [hst1']
      show swapV st.cn 0 jp k < _
      refine lt_of_le_of_lt (am.2.2 _ (Nat.zero_le _) ?_) hrt
      rcases swap_cases 0 jp k with h | h | h <;> omega
    rcases lWhile_stuck (tiny := tiny) (s := s) (M := M) hN hnb Z0 jp st1 (by rw [hst1', hA]) (by rw [hst1']; show setP st.P 0 jp 0 = jp; simp [setP]) am.2.1 hc1 f with h | ⟨q, h, hq⟩
    · rw [h]
    · rw [h]
      dsimp only
      rw [if_pos (by omega)]
      refine ih _ hq fun k hk => ?_
      rw [← hq]
      exact if_pos ⟨Nat.zero_le _, hk⟩

/-- **C86** (finding): if `N·√eps > 1` (for `float`: more than 2896 columns), the loose block algorithm never ends, whatever the (nonzero)
matrix: the norm of the pivot column itself is below `recalcthresh` (TMV_QRPDecompose.cpp:542), so the block is empty, the norms are
recalculated, and the same pivot is chosen again. -/
theorem qrp_loose_hangs {eps sqe : ℝ} {nb : Nat} (hnb : 0 < nb) (hN : nb < N) (heps : 0 ≤ eps) (he : N * eps ≤ 1) (hsq : 1 < N * sqe)
    (A Z0 : Nat → Nat → K) {p c : Nat} (hp : p < M) (hc : c < N) (hA : A p c ≠ 0) (beta0 : Nat → K) (P0 : Nat → Nat) (det : K) (fuel : Nat) :
    qrp tiny eps sqe false nb M N A Z0 beta0 P0 det fuel = none := by
  unfold qrp
  rw [if_pos (by omega), if_pos hN, if_neg (by simp)]
  unfold looseQRP
  dsimp only
  rw [Option.map_eq_none_iff]
  have hs0 := qrpScale_pos M N A
  have hcn : ∀ k, k < N → (qrpInit M N A beta0 P0 det).cn k = cnorm (qrpScale M N A) A k 0 M := fun k hk => if_pos ⟨Nat.zero_le _, hk⟩
  refine lOuter_stuck (by omega) hnb Z0 hsq ?_ fuel _ rfl hcn
  have am := argMax_spec (qrpInit M N A beta0 P0 det).cn 0 N (by omega)
  rw [Nat.zero_add] at am
  obtain ⟨k, hk⟩ : ∃ k, k = argMax (qrpInit M N A beta0 P0 det).cn 0 N := ⟨_, rfl⟩
  rw [← hk] at am
  have hmax : ∀ i, i < N → (qrpInit M N A beta0 P0 det).cn i ≤ cnorm (qrpScale M N A) A k 0 M := fun i hi => by
    rw [← hcn k am.2.1]; exact am.2.2 i (Nat.zero_le _) hi
  have hpos : 0 < cnorm (qrpScale M N A) A k 0 M := by
    refine lt_of_lt_of_le ?_ (hmax c hc)
    rw [hcn c hc, cnorm_eq]
    refine mul_pos (pow_pos hs0 2) ?_
    exact Finset.sum_pos' (fun _ _ => RCLike.normSq_nonneg _) ⟨p, Finset.mem_Ico.mpr ⟨Nat.zero_le _, hp⟩, RCLike.normSq_pos.mpr hA⟩
  refine ⟨k, am.2.1, ?_, hpos⟩
  unfold qrpThresh
  have hsum : ∑ i ∈ Finset.range N, (qrpInit M N A beta0 P0 det).cn i ≤ N * cnorm (qrpScale M N A) A k 0 M := by
    have := Finset.sum_le_card_nsmul (Finset.range N) (qrpInit M N A beta0 P0 det).cn _ fun i hi => hmax i (Finset.mem_range.mp hi)
    rwa [Finset.card_range, nsmul_eq_mul] at this
  have h1 : N * eps ^ 2 * ∑ i ∈ Finset.range N, (qrpInit M N A beta0 P0 det).cn i ≤ N * eps ^ 2 * (N * cnorm (qrpScale M N A) A k 0 M) :=
    mul_le_mul_of_nonneg_left hsum (by positivity)
  have h2 : (N * eps) ^ 2 ≤ 1 := pow_le_one₀ (by positivity) he
  calc _ ≤ N * eps ^ 2 * (N * cnorm (qrpScale M N A) A k 0 M) := h1
    _ = (N * eps) ^ 2 * cnorm (qrpScale M N A) A k 0 M := by ring
    _ ≤ 1 * cnorm (qrpScale M N A) A k 0 M := mul_le_mul_of_nonneg_right h2 hpos.le
    _ = _ := one_mul _

/-- Single precision, the identity matrix of size 4096, block size 32: the conditions of `qrp_loose_hangs` hold. -/
example (tiny : ℝ) (fuel : Nat) : qrp tiny ((2:ℝ)⁻¹ ^ 23) (Real.sqrt ((2:ℝ)⁻¹ ^ 23)) false 32 4096 4096 (fun p c => if p = c then (1:ℝ) else 0)
    (fun _ _ => 0) (fun _ => 0) (fun _ => 0) 1 fuel = none := by
  refine qrp_loose_hangs (p := 0) (c := 0) (by norm_num) (by norm_num) (by positivity) (by norm_num) ?_ _ _ (by norm_num) (by norm_num) (by simp) _ _ _ _
  have : (1:ℝ)/4096 < Real.sqrt ((2:ℝ)⁻¹ ^ 23) := Real.lt_sqrt_of_sq_lt (by norm_num)
  push_cast
  linarith

/-- Double precision with at most a million columns: the decomposition ends. -/
example (M N : Nat) (hNM : N ≤ M) (hN : N ≤ 1000000) (A : Nat → Nat → ℂ) (strict : Bool) : ∃ fuel r,
    qrp ((2:ℝ)⁻¹ ^ 1022) ((2:ℝ)⁻¹ ^ 52) ((2:ℝ)⁻¹ ^ 26) strict 32 M N A (fun _ _ => 0) (fun _ => 0) (fun _ => 0) 1 fuel = some r := by
  refine ⟨2*N+3, Option.isSome_iff_exists.mp (qrp_ends (by positivity) hNM (by norm_num) (by norm_num) (fun _ _ => ?_) _ _ _ _ _ _ le_rfl)⟩
  have : (N:ℝ) ≤ 1000000 := by exact_mod_cast hN
  calc (N:ℝ) * 2⁻¹ ^ 26 ≤ 1000000 * 2⁻¹ ^ 26 := mul_le_mul_of_nonneg_right this (by positivity)
    _ ≤ 1 := by norm_num

end
end TMV.QR
