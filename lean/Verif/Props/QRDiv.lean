import Verif.Model.QRDiv
import Verif.Props.QRQ
import Verif.Props.LUDiv

/-! C59: the packed Q acts as the explicit Q.  C60: division by a QR decomposition. -/
namespace TMV.QR
noncomputable section
open Classical TMV.Tri

variable {K : Type} [RCLike K]

/-! ### `Q_RDivEq` -/

theorem hv_conj (M : Nat) (V : Nat → Nat → K) (j p : Nat) : hv M (conjM V) j p = star (hv M V j p) := by
  unfold hv conjM
  by_cases h1 : p < j
  · rw [if_pos h1, if_pos h1, star_zero]
  · rw [if_neg h1, if_neg h1]
    by_cases h2 : p < M
    · rw [if_pos h2, if_pos h2]
      by_cases h3 : p = j
      · rw [if_pos h3, if_pos h3, star_one]
      · rw [if_neg h3, if_neg h3]
    · rw [if_neg h2, if_neg h2, star_zero]

theorem H_conj (M : Nat) (V : Nat → Nat → K) (j : Nat) (b : K) (x : Nat → K) (p : Nat) :
    H M (conjM V) j b x p = star (H M V j (star b) (fun q => star (x q)) p) := by
  have h : ip M (hv M (conjM V) j) x = star (ip M (hv M V j) fun q => star (x q)) := by
    unfold ip
    rw [star_sum]
    refine Finset.sum_congr rfl fun q _ => ?_
    rw [hv_conj, star_mul', star_star]
    simp only [star_star]
  simp only [H]
  rw [h, hv_conj, star_sub, star_mul', star_mul', star_star, star_star]

theorem qRDivLoop_spec (M nr : Nat) (V : Nat → Nat → K) (β : Nat → K) (n : Nat) (hn : n ≤ M) (m : Nat → Nat → K) (a p : Nat) :
    qRDivLoop M nr V β n m a p = if a < nr then star (hsA M V β 0 n (fun q => star (m a q)) p) else m a p := by
  induction n generalizing m with
  | zero => simp [qRDivLoop, hsA]
  | succ n ih =>
    rw [qRDivLoop, ih (by omega)]
    have hl : ∀ a p, (if β n ≠ 0 then trM (lmult M n 0 nr (conjM V) (β n) (trM m)) else m) a p
        = if a < nr then star (H M V n (star (β n)) (fun q => star (m a q)) p) else m a p := by
      intro a p
      by_cases hb : β n ≠ 0
      · rw [if_pos hb, trM, lmult_eq _ _ _ _ _ _ _ (by omega)]
        by_cases ha : a < nr
        · rw [if_pos ⟨by omega, ha⟩, if_pos ha, H_conj]; rfl
        · rw [if_neg (by omega), if_neg ha]; rfl
      · rw [if_neg hb]
        simp only [not_not] at hb
        rw [hb]; simp [H]
    by_cases ha : a < nr
    · rw [if_pos ha, if_pos ha, hsA, Nat.zero_add]
      congr 2
      funext q
      rw [hl, if_pos ha, star_star]
    · rw [if_neg ha, if_neg ha, hl, if_neg ha]

theorem qRDivBlock_spec (nb M nr : Nat) (hnb : 0 < nb) (V : Nat → Nat → K) (β : Nat → K) (n : Nat) :
    ∀ j2 (Z m : Nat → Nat → K), j2 ≤ n → j2 ≤ M → ∀ a p, qRDivBlock nb M nr V β j2 Z m a p =
      if a < nr then star (hsA M V β 0 j2 (fun q => star (m a q)) p) else m a p := by
  induction n with
  | zero =>
    intro j2 Z m hn hj a p
    obtain rfl : j2 = 0 := by omega
    unfold qRDivBlock
    rw [dif_neg (by omega)]
    simp [hsA]
  | succ n ih =>
    intro j2 Z m hn hj a p
    unfold qRDivBlock
    by_cases h0 : j2 > 0
    · rw [dif_pos ⟨h0, hnb⟩]
      obtain ⟨j1, hj1⟩ : ∃ j1, j1 = if j2 > nb then j2 - nb else 0 := ⟨_, rfl⟩
      rw [← hj1]
      have hlt : j1 < j2 := by rw [hj1]; split <;> omega
      have hz := (makeZ_spec M V β (j2-j1) j1 Z (by omega) (by omega)).1
      rw [show j1 + (j2-j1) = j2 by omega] at hz
      rw [ih j1 _ _ (by omega) (by omega)]
      have hb : ∀ a p, adjM (blockLMult M j1 j2 0 nr V (makeZ M V β j1 (j2-j1) Z) (adjM m)) a p
          = if a < nr then star (hsA M V β j1 (j2-j1) (fun q => star (m a q)) p) else m a p := by
        intro a p
        rw [adjM, blockLMult_eq _ _ _ _ _ _ _ _ hj, hz]
        by_cases ha : a < nr
        · rw [if_pos ⟨by omega, ha⟩, if_pos ha]; rfl
        · rw [if_neg (by omega), if_neg ha, adjM, star_star]
      by_cases ha : a < nr
      · have h3 : hsA M V β 0 j2 (fun q => star (m a q)) = hsA M V β 0 j1 (hsA M V β j1 (j2-j1) (fun q => star (m a q))) := by
          conv_lhs => rw [show j2 = j1 + (j2-j1) by omega]
          rw [hsA_concat, Nat.zero_add]
        rw [if_pos ha, if_pos ha, h3]
        congr 2
        funext q
        rw [hb, if_pos ha, star_star]
      · rw [if_neg ha, if_neg ha, hb, if_neg ha]
    · obtain rfl : j2 = 0 := by omega
      rw [dif_neg (by omega)]
      simp [hsA]

theorem qRDivEq_spec (nb M N nr : Nat) (hnb : 0 < nb) (hNM : N ≤ M) (V : Nat → Nat → K) (β : Nat → K) (Z0 m : Nat → Nat → K) (a p : Nat) :
    qRDivEq nb M N nr V β Z0 m a p = if a < nr then star (hsA M V β 0 N (fun q => star (m a q)) p) else m a p := by
  unfold qRDivEq
  split
  · exact qRDivBlock_spec nb M nr hnb V β N N Z0 m le_rfl hNM a p
  · exact qRDivLoop_spec M nr V β N hNM m a p

/-! ### C59: the packed Q -/

/-- `hs x` row `k` in terms of the column `k` of the explicit `Q`. -/
theorem hs_apply {M N : Nat} (V : Nat → Nat → K) (β : Nat → K) (x : Nat → K) (k : Nat) (hk : k < M) :
    hs M V β 0 N x k = ∑ p ∈ Finset.range M, star (hsA M V β 0 N (ev k) p) * x p := by
  rw [← ip_ev (hs M V β 0 N x) hk, ← hsA_ip]; rfl

/-- `hsA` of a vector with `N` elements is `Q` times it. -/
theorem hsA_apply {M N : Nat} (V : Nat → Nat → K) (β : Nat → K) (x : Nat → K) (hx : ∀ q, N ≤ q → q < M → x q = 0)
    (p : Nat) (hp : p < M) : hsA M V β 0 N x p = ∑ k ∈ Finset.range N, hsA M V β 0 N (ev k) p * x k := by
  have h : ∀ q, q < M → x q = ∑ k ∈ Finset.range N, ev k q * x k := by
    intro q hq
    by_cases hqN : q < N
    · rw [Finset.sum_eq_single q]
      · simp [ev]
      · intro k _ hk; rw [ev_zero (Ne.symm hk), zero_mul]
      · intro hn; exact absurd (Finset.mem_range.mpr hqN) hn
    · rw [hx q (by omega) hq, Finset.sum_eq_zero]
      intro k hk
      rw [Finset.mem_range] at hk
      rw [ev_zero (by omega), zero_mul]
  rw [hsA_ext N h p hp, hsA_sum]
  simp only [hsA_smul]

section Packed
variable {nb M N : Nat} (hnb : 0 < nb) (hNM : N ≤ M) (V : Nat → Nat → K) (β : Nat → K)
  (hbz : ∀ j, j < N → β j = 0 → ∀ p, j < p → p < M → V p j = 0) (Z0 Z1 : Nat → Nat → K)
include hnb hNM hbz

theorem getQ_col {k p : Nat} (hk : k < N) (hp : p < M) : getQ nb M N β Z1 V p k = hsA M V β 0 N (ev k) p := by
  rw [(getQ_spec hnb hNM V β Z1 hbz).done k (by omega) hk p hp, Nat.sub_zero]

/-- **C59** (`m/Q`): `PackedQ::LDiv(m,x)` sets `x = Qᴴ m`, `Q` being what `GetQFromQR` would produce; nothing else changes. -/
theorem packedQ_lDiv (nc : Nat) (m x : Nat → Nat → K) (k c : Nat) :
    pqLDiv nb M N nc V β Z0 m x k c = if k < N ∧ c < nc then
      ∑ p ∈ Finset.range M, star (getQ nb M N β Z1 V p k) * m p c else x k c := by
  have key : ∀ m', k < N → c < nc → (∀ p, p < M → m' p c = m p c) → qLDivEq nb M N nc V β Z0 m' k c =
      ∑ p ∈ Finset.range M, star (getQ nb M N β Z1 V p k) * m p c := by
    intro m' hk hc hm
    rw [qLDivEq_spec nb M N nc hnb hNM, if_pos hc, hs_apply V β _ k (by omega)]
    refine Finset.sum_congr rfl fun p hp => ?_
    rw [Finset.mem_range] at hp
    rw [getQ_col hnb hNM V β hbz Z1 hk hp, hm p hp]
  unfold pqLDiv
  by_cases hMN : M = N
  · rw [if_pos hMN]
    by_cases h : k < N ∧ c < nc
    · rw [if_pos h, key _ h.1 h.2 fun p hp => by simp [paste, hp, h.2]]
    · rw [if_neg h, qLDivEq_spec nb M N nc hnb hNM]
      by_cases hc : c < nc
      · rw [if_pos hc, hs_out _ (by omega)]
        simp only [paste]; rw [if_neg (by omega)]
      · rw [if_neg hc]
        simp only [paste]; rw [if_neg (by omega)]
  · rw [if_neg hMN]
    simp only [paste]
    by_cases h : k < N ∧ c < nc
    · rw [if_pos (by omega), if_pos h]
      simp only [Nat.sub_zero]
      exact key m h.1 h.2 fun _ _ => rfl
    · rw [if_neg (by omega), if_neg h]

/-- **C59** (`m%Q`): `PackedQ::RDiv(m,x)` sets `x = m Qᴴ`. -/
theorem packedQ_rDiv (nr : Nat) (m x : Nat → Nat → K) (a p : Nat) :
    pqRDiv nb M N nr V β Z0 m x a p = if a < nr ∧ p < M then
      ∑ k ∈ Finset.range N, m a k * star (getQ nb M N β Z1 V p k) else x a p := by
  unfold pqRDiv
  rw [qRDivEq_spec nb M N nr hnb hNM]
  by_cases ha : a < nr
  · rw [if_pos ha]
    by_cases hp : p < M
    · rw [if_pos ⟨ha, hp⟩, hsA_apply _ _ _ _ p hp, star_sum]
      · refine Finset.sum_congr rfl fun k hk => ?_
        rw [Finset.mem_range] at hk
        rw [star_mul', star_star, if_neg (by omega), getQ_col hnb hNM V β hbz Z1 hk hp]
        simp only [paste]
        rw [if_pos (by omega), mul_comm]
        simp
      · intro q h1 h2
        rw [if_pos ⟨ha, h1, h2⟩, star_zero]
    · rw [if_neg (by omega), hsA_out _ (by omega), star_star, if_neg (by omega)]
      simp only [paste]; rw [if_neg (by omega)]
  · rw [if_neg ha, if_neg (by omega), if_neg (by omega)]
    simp only [paste]; rw [if_neg (by omega)]

/-- **C59** (`Q*m`): `PackedQ::LMult(m,x)` sets `x = Q m`. -/
theorem packedQ_lMult (nc : Nat) (m x : Nat → Nat → K) (p c : Nat) :
    pqLMult nb M N nc V β Z0 m x p c = if p < M ∧ c < nc then
      ∑ k ∈ Finset.range N, getQ nb M N β Z1 V p k * m k c else x p c := by
  rw [pqLMult, adjM, packedQ_rDiv hnb hNM V β hbz Z0 Z1]
  by_cases h : c < nc ∧ p < M
  · rw [if_pos h, if_pos ⟨h.2, h.1⟩, star_sum]
    refine Finset.sum_congr rfl fun k _ => ?_
    rw [star_mul', star_star, adjM, star_star, mul_comm]
  · rw [if_neg h, if_neg (by omega), adjM, star_star]

/-- **C59** (`m*Q`): `PackedQ::RMult(m,x)` sets `x = m Q`. -/
theorem packedQ_rMult (nr : Nat) (m x : Nat → Nat → K) (a k : Nat) :
    pqRMult nb M N nr V β Z0 m x a k = if a < nr ∧ k < N then
      ∑ p ∈ Finset.range M, m a p * getQ nb M N β Z1 V p k else x a k := by
  rw [pqRMult, adjM, packedQ_lDiv hnb hNM V β hbz Z0 Z1]
  by_cases h : k < N ∧ a < nr
  · rw [if_pos h, if_pos ⟨h.2, h.1⟩, star_sum]
    refine Finset.sum_congr rfl fun p _ => ?_
    rw [star_mul', star_star, adjM, star_star, mul_comm]
  · rw [if_neg h, if_neg (by omega), adjM, star_star]

end Packed

/-- C59, violated: `m0 = x*Q*m` drops the factor `x` (`ProdpQM::assignToM` never uses it): `2*Q*m` for `Q = I`, `m = I` stores 1. -/
theorem packedQ_scaled_product_violated :
    prodpQM 64 1 1 1 (2 : ℝ) (fun _ _ => 0) (fun _ => 0) (fun _ _ => 0) (fun _ _ => 1) (fun _ _ => 0) 0 0 = 1 ∧
    (1 : ℝ) ≠ 2 * (getQ 64 1 1 (fun _ => (0:ℝ)) (fun _ _ => 0) (fun _ _ => 0) 0 0 * 1) := by
  have hq : getQ 64 1 1 (fun _ => (0:ℝ)) (fun _ _ => 0) (fun _ _ => 0) 0 0 = 1 := by
    rw [getQ_col (by norm_num) le_rfl _ _ (fun _ _ _ _ _ _ => rfl) _ (by norm_num) (by norm_num)]
    simp [hsA, H, ev]
  constructor
  · rw [prodpQM, packedQ_lMult (by norm_num) le_rfl _ _ (fun _ _ _ _ _ _ => rfl) _ (fun _ _ => 0), if_pos (by omega)]
    rw [Finset.sum_range_one, hq, mul_one]
  · rw [hq]; norm_num

end
end TMV.QR
