import Verif.Props.BandQRSolve

/-! C95: QR decomposition of a band matrix.  C96: the `BandQRDiv` divider. -/
namespace TMV.BandQR
noncomputable section
open Classical TMV.Tri TMV.QR

variable {K : Type} [RCLike K]

/-! ### The explicit Q -/

theorem unpackCol_trim {E M N j : Nat} (hj : j < E) (hE : E ≤ M) (hN : j + 1 ≤ N) (b : K) (Q : Nat → Nat → K)
    (hz : ∀ p, E ≤ p → p < M → Q p j = 0) : unpackCol E N j b Q = unpackCol M N j b Q := by
  unfold unpackCol
  rw [lmult_trim hj hE hN le_rfl Q (star b) Q hz (fun _ _ _ _ h1 h2 => by omega)]
  dsimp only
  by_cases hb : b = 0
  · rw [if_pos hb, if_pos hb]
  · rw [if_neg hb, if_neg hb]
    funext a c
    by_cases h1 : c = j ∧ a = j
    · rw [if_pos h1, if_pos h1]
    · rw [if_neg h1, if_neg h1]
      by_cases h2 : c = j ∧ j < a ∧ a < E
      · rw [if_pos h2, if_pos (by omega)]
      · rw [if_neg h2]
        by_cases h3 : c = j ∧ j < a ∧ a < M
        · rw [if_pos h3, lmult_eq _ _ _ _ _ _ _ hj, if_neg (by omega), h3.1, hz a (by omega) h3.2.2, zero_mul]
        · rw [if_neg h3]

theorem unpackCol_low {M N j : Nat} (hj : j < M) (b : K) (Q : Nat → Nat → K) (p c : Nat) (hc : c < j) : unpackCol M N j b Q p c = Q p c := by
  unfold unpackCol
  have hl : lmult M j (j+1) N Q (star b) Q p c = Q p c := by rw [lmult_eq _ _ _ _ _ _ _ hj, if_neg (by omega)]
  by_cases hb : b = 0
  · rw [if_pos hb, QR.setE_ne (by omega), hl]
  · rw [if_neg hb, if_neg (by omega), if_neg (by omega), hl]

theorem getQLoop_eq {M N lo : Nat} (hNM : N ≤ M) (β : Nat → K) : ∀ n (Q : Nat → Nat → K), n ≤ N →
    (∀ k, k < n → ∀ p, k + lo < p → p < M → Q p k = 0) → getQLoop M N lo β n Q = unpackLoop M N β n Q := by
  intro n
  induction n with
  | zero => intro Q _ _; rfl
  | succ n ih =>
    intro Q hn hz
    have h1 : (if n+lo+1 > M then unpackCol M N n (β n) Q else unpackCol (n+lo+1) N n (β n) Q) = unpackCol M N n (β n) Q := by
      by_cases h : n+lo+1 > M
      · rw [if_pos h]
      · rw [if_neg h, unpackCol_trim (by omega) (by omega) (by omega) _ _ fun p h2 h3 => hz n (by omega) p (by omega) h3]
    rw [getQLoop, unpackLoop, h1]
    refine ih _ (by omega) fun k hk p h2 h3 => ?_
    rw [unpackCol_low (by omega) _ _ _ _ hk]
    exact hz k (by omega) p h2 h3

theorem getQFrom_spec {M N lo : Nat} (hNM : N ≤ M) (V : Nat → Nat → K) (β : Nat → K)
    (hz : ∀ k, k < N → ∀ p, k + lo < p → p < M → V p k = 0)
    (hbz : ∀ j, j < N → β j = 0 → ∀ p, j < p → p < M → V p j = 0) : Unp M N 0 V β V (getQFrom M N lo β V) := by
  have h : Unp M N N V β V (zeroUpper N V) := by
    refine ⟨fun c _ _ => by omega, hbz, ?_, ?_⟩
    · intro c hc p hp
      unfold zeroUpper
      by_cases h : p ≤ c
      · rw [if_pos ⟨h, hc⟩, if_pos h]
      · rw [if_neg (by omega), if_neg h]
    · intro p c hpc
      unfold zeroUpper
      rw [if_neg (by omega)]
  unfold getQFrom
  rw [getQLoop_eq hNM β N _ le_rfl]
  · exact unpackLoop_inv hNM N _ le_rfl h
  · intro k hk p h1 h2
    unfold zeroUpper
    rw [if_neg (by omega)]
    exact hz k hk p h1 h2

/-- The `Q` of a decomposition and what it multiplies to. -/
theorem QRSpec.q_spec {tiny : ℝ} {M N lo hi : Nat} (hNM : N ≤ M) {A V : Nat → Nat → K} {β : Nat → K}
    (h : QRSpec tiny M 0 N N (msk M N lo hi A) (msk M N lo hi V) β) (hz : ∀ k, k < N → ∀ p, k + lo < p → p < M → V p k = 0) :
    (∀ k l, k < N → l < N → ∑ p ∈ Finset.range M, star (getQFrom M N lo β V p k) * getQFrom M N lo β V p l = if k = l then 1 else 0) ∧
    (∃ E : Nat → Nat → K, Small tiny M N (fun c => V c c) E ∧
      ∀ i c, i < M → c < N → bandMat lo hi A i c + E i c = ∑ k ∈ Finset.range N, getQFrom M N lo β V i k * bandMat 0 hi V k c) ∧
    ∀ p c, M ≤ p ∨ N ≤ c → getQFrom M N lo β V p c = V p c := by
  have hVm : ∀ p j, j < N → j < p → p < M → V p j = msk M N lo hi V p j := by
    intro p j h1 h2 h3
    by_cases h4 : p ≤ j + lo
    · rw [msk_in _ (by omega)]
    · rw [msk_out _ (by omega), hz j h1 p (by omega) h3]
  have hQ := getQFrom_spec (lo := lo) hNM V β hz fun j hj hb p h1 h2 => by
    rw [hVm p j hj h1 h2]; exact h.bz j (by omega) (by omega) hb p h1 h2
  have h1 : ∀ c, c < N → ∀ p, p < M → getQFrom M N lo β V p c = hsA M (msk M N lo hi V) β 0 N (ev c) p := by
    intro c hc p hp
    rw [hQ.done c (by omega) hc p hp, Nat.sub_zero, hsA_congr (V' := msk M N lo hi V) (β' := β) N]
    · intro p j _ h2 h3 h4; exact hVm p j (by omega) h3 h4
    · intro _ _ _; rfl
  refine ⟨?_, ?_, fun p c hpc => hQ.frame p c hpc⟩
  · intro k l hk hl
    have h2 := hsA_unitary N (fun j h3 h4 => h.valid j h3 h4) (ev k) (ev l)
    rw [ip_ev _ (show k < M by omega)] at h2
    rw [show (if k = l then (1:K) else 0) = ev l k from rfl, ← h2]
    refine Finset.sum_congr rfl fun p hp => ?_
    rw [Finset.mem_range] at hp
    rw [h1 k hk p hp, h1 l hl p hp]
  · have hc : ∀ c, ∃ ε : Nat → K, c < N → (nsq M ε ≤ M * tiny ^ 2 ∧ (msk M N lo hi V c c ≠ 0 → ε = fun _ => 0) ∧
        (∀ p, p < M → msk M N lo hi A p c + ε p =
          ∑ k ∈ Finset.range N, hsA M (msk M N lo hi V) β 0 N (ev k) p * (if k ≤ c then msk M N lo hi V k c else 0))) := by
      intro c
      by_cases hc : c < N
      · obtain ⟨ε, e⟩ := h.col hNM c hc
        exact ⟨ε, fun _ => e⟩
      · exact ⟨fun _ => 0, fun h => absurd h hc⟩
    choose ε hε using hc
    refine ⟨fun i c => ε c i, ⟨?_, ?_⟩, ?_⟩
    · intro c hc
      have := (hε c hc).1
      unfold nsq at this
      simpa only [RCLike.normSq_eq_def'] using this
    · intro c hc hR i
      show ε c i = 0
      rw [(hε c hc).2.1 (by rw [msk_in _ (by omega)]; exact hR)]
    · intro i c hi' hc
      have h2 : bandMat lo hi A i c = msk M N lo hi A i c := by
        unfold bandMat
        by_cases h3 : i ≤ c + lo ∧ c ≤ i + hi
        · rw [if_pos h3, msk_in _ ⟨hi', hc, h3⟩]
        · rw [if_neg h3, msk_out _ (by omega)]
      rw [h2, (hε c hc).2.2 i hi']
      refine Finset.sum_congr rfl fun k hk => ?_
      rw [Finset.mem_range] at hk
      rw [h1 k hk i hi']
      congr 1
      unfold bandMat
      by_cases h3 : k ≤ c
      · rw [if_pos h3]
        by_cases h4 : c ≤ k + hi
        · rw [msk_in _ (by omega), if_pos (by omega)]
        · rw [msk_out _ (by omega), if_neg (by omega)]
      · rw [if_neg h3, if_neg (by omega)]

/-! ### C95 -/

theorem decLoop_rows (tiny : ℝ) {M N lo cs : Nat} (hcs : cs = min M (N+lo)) : ∀ (n j ec ec' er : Nat) (A : Nat → Nat → K) (β : Nat → K) (det : K),
    j + n = N → (0 < n → ec = min (lo+1+j) M ∧ ec' = ec) →
    decLoop tiny cs N n j ec' er A β det = decLoop tiny M N n j ec er A β det := by
  intro n
  induction n with
  | zero => intros; rfl
  | succ n ih =>
    intro j ec ec' er A β det hj he
    obtain ⟨h1, rfl⟩ := he (by omega)
    rw [decLoop, decLoop]
    refine ih (j+1) _ _ _ _ _ _ (by omega) fun h0 => ?_
    constructor
    · split <;> omega
    · by_cases h2 : ec' < M
      · rw [if_pos h2, if_pos (by omega)]
      · rw [if_neg h2, if_neg (by omega)]

theorem decompose_rows (tiny : ℝ) {M N lo hi : Nat} (hlo : lo < M) (A : Nat → Nat → K) (β : Nat → K) (det : K) :
    decompose tiny (min M (N+lo)) N lo hi A β det = decompose tiny M N lo hi A β det := by
  unfold decompose
  by_cases h : lo = 0
  · rw [if_pos h, if_pos h]
  · rw [if_neg h, if_neg h]
    exact decLoop_rows tiny rfl N 0 (lo+1) (lo+1) (hi+1) A β det (by omega) fun _ => ⟨by omega, rfl⟩

/-- The matrix that is decomposed: `A` copied into the wider band. -/
theorem band_copy {M N lo hi hi' : Nat} (hhi : hi ≤ hi') (A Q : Nat → Nat → K)
    (h1 : ∀ p c, p < M → c < N → p ≤ c + lo → c ≤ p + hi → Q p c = A p c)
    (h2 : ∀ p c, p < M → c < N → p + hi < c → c ≤ p + hi' → Q p c = 0) {p c : Nat} (hp : p < M) (hc : c < N) :
    bandMat lo hi' Q p c = bandMat lo hi A p c := by
  unfold bandMat
  by_cases h3 : p ≤ c + lo ∧ c ≤ p + hi
  · rw [if_pos h3, if_pos (by omega), h1 p c hp hc h3.1 h3.2]
  · rw [if_neg h3]
    by_cases h4 : p ≤ c + lo ∧ c ≤ p + hi'
    · rw [if_pos h4, h2 p c hp hc (by omega) h4.2]
    · rw [if_neg h4]

/-- **C95** `QR_Decompose(A,Q,R)` of an `M`×`N` band matrix (`M ≥ N`) with `lo` subdiagonals and `hi` superdiagonals: `Q` has orthonormal
columns, `R` is upper triangular with `lo + hi` superdiagonals, and `Q R = A + E`, where column `c` of `E` is zero unless `R c c = 0`, and
then has norm at most `√M · tiny`.  Nothing but the `M`×`N` elements of `Q` and the `N`×`N` elements of `R` changes. -/
theorem band_qr_decompose (tiny : ℝ) (ht : 0 < tiny) (M N lo hi : Nat) (hNM : N ≤ M) (hlo : lo < M) (hhi : hi < N)
    (A Q0 R0 : Nat → Nat → K) (beta : Nat → K) : ∃ Q R : Nat → Nat → K, decomposeQR tiny M N lo hi A Q0 R0 beta = (Q, R) ∧
    (∀ k l, k < N → l < N → ∑ p ∈ Finset.range M, star (Q p k) * Q p l = if k = l then 1 else 0) ∧
    (∀ i j, i < N → j < N → j < i ∨ i + lo + hi < j → R i j = 0) ∧
    (∃ E : Nat → Nat → K, (∀ i c, i < M → c < N → bandMat lo hi A i c + E i c = ∑ k ∈ Finset.range N, Q i k * R k c) ∧
      (∀ c, c < N → R c c ≠ 0 → ∀ i, E i c = 0) ∧
      ∀ c, c < N → ∑ i ∈ Finset.range M, ‖E i c‖ ^ 2 ≤ M * tiny ^ 2) ∧
    (∀ p c, M ≤ p ∨ N ≤ c → Q p c = Q0 p c) ∧ (∀ p c, N ≤ p ∨ N ≤ c → R p c = R0 p c) := by
  obtain ⟨P, hP⟩ : ∃ P : Nat → Nat → K, P = fun i j => if i < M ∧ j < N ∧ i ≤ j + lo ∧ j ≤ i + hi then A i j else
    if i < M ∧ j < N then 0 else Q0 i j := ⟨_, rfl⟩
  obtain ⟨hi', hhi'⟩ : ∃ hi', hi' = min (lo+hi) (N-1) := ⟨_, rfl⟩
  obtain ⟨r, hr⟩ : ∃ r, r = decompose tiny M N lo hi' P beta 0 := ⟨_, rfl⟩
  have hd : decomposeQR tiny M N lo hi A Q0 R0 beta = (getQFrom M N lo r.2.1 r.1,
      fun i j => if i < N ∧ j < N then bandMat 0 hi' r.1 i j else R0 i j) := by
    rw [hr, ← decompose_rows tiny hlo, hP, hhi']; rfl
  have p1 : ∀ p c, p < M → c < N → p ≤ c + lo → c ≤ p + hi → P p c = A p c := fun p c h1 h2 h3 h4 => by
    rw [hP]; dsimp only; rw [if_pos ⟨h1, h2, h3, h4⟩]
  have p2 : ∀ p c, p < M → c < N → p + hi < c ∨ c + lo < p → P p c = 0 := fun p c h1 h2 h3 => by
    rw [hP]; dsimp only; rw [if_neg (by omega), if_pos ⟨h1, h2⟩]
  obtain ⟨d1, _, d3, _⟩ := decompose_band tiny ht (ahi := hi) hNM hlo (show hi' < N by omega) (by omega) P beta 0
    (fun p c h1 h2 h3 _ => p2 p c h1 h2 (.inl h3))
  rw [← hr] at d1 d3
  obtain ⟨q1, ⟨E, q2, q3⟩, q4⟩ := QRSpec.q_spec hNM d1 (fun k hk p h1 h2 => by
    rw [d3 p k (by omega)]; exact p2 p k h2 hk (.inr h1))
  refine ⟨_, _, hd, q1, ?_, ⟨E, ?_, ?_, q2.1⟩, ?_, ?_⟩
  · intro i j h1 h2 h3
    rw [if_pos ⟨h1, h2⟩, bandMat, if_neg (by omega)]
  · intro i c h1 h2
    rw [← band_copy (show hi ≤ hi' by omega) A P p1 (fun p c h1 h2 h3 _ => p2 p c h1 h2 (.inl h3)) h1 h2, q3 i c h1 h2]
    refine Finset.sum_congr rfl fun k hk => ?_
    rw [Finset.mem_range] at hk
    rw [if_pos ⟨hk, h2⟩]
  · intro c hc hR
    rw [if_pos ⟨hc, hc⟩, bandMat, if_pos (by omega)] at hR
    exact q2.2 c hc hR
  · intro p c hpc
    rw [q4 p c hpc, d3 p c (by omega), hP]
    dsimp only
    rw [if_neg (by omega), if_neg (by omega)]
  · intro p c hpc
    rw [if_neg (by omega)]

/-- `decLoop` and `decompose` only look at the band. -/
theorem decLoop_det (tiny : ℝ) {M N lo hi ahi : Nat} (hNM : N ≤ M) (hloM : lo < M) (hhiN : hi < N) (hhi : lo = 0 ∨ lo + ahi ≤ hi ∨ hi + 1 = N)
    (A A' : Nat → Nat → K) (β : Nat → K) (det : K) (hz : ∀ p c, p < M → c < N → p + ahi < c → c ≤ p + hi → A p c = 0)
    (hA : ∀ p c, p < M → c < N → p ≤ c + lo → c ≤ p + hi → A p c = A' p c) :
    (decompose tiny M N lo hi A β det).2 = (decompose tiny M N lo hi A' β det).2 ∧
    ∀ p c, p < M → c < N → p ≤ c + lo → c ≤ p + hi →
      (decompose tiny M N lo hi A β det).1 p c = (decompose tiny M N lo hi A' β det).1 p c := by
  unfold decompose
  by_cases hlo : lo = 0
  · rw [if_pos hlo, if_pos hlo]; exact ⟨rfl, hA⟩
  rw [if_neg hlo, if_neg hlo]
  have hS : ∀ A : Nat → Nat → K, (∀ p c, p < M → c < N → p ≤ c + lo → p + ahi < c → c ≤ p + hi → A p c = 0) →
      Shape M N lo hi ahi 0 (msk M N lo hi A) := by
    intro A hz
    refine ⟨fun p c _ _ _ => msk_out _ (by omega), fun p c _ _ _ => msk_out _ (by omega), ?_, ?_⟩
    · intro p c h1 h2 h3 h4
      by_cases h5 : p ≤ c + lo ∧ c ≤ p + hi
      · rw [msk_in _ ⟨h1, h2, h5⟩]; exact hz p c h1 h2 h5.1 h4 h5.2
      · exact msk_out _ (by omega)
    · intro p c h1 h2 h3 h4 h5
      by_cases h6 : p ≤ c + lo ∧ c ≤ p + hi
      · rw [msk_in _ ⟨h1, h2, h6⟩]; exact hz p c h1 h2 h6.1 (by omega) h6.2
      · exact msk_out _ (by omega)
  have e1 : lo + 1 = min (lo+1+0) M := by omega
  have e2 : hi + 1 = min (hi+1+0) N := by omega
  rw [e1, e2]
  obtain ⟨a1, a2, _⟩ := decLoop_eq tiny hNM (by omega) (by omega : lo + ahi ≤ hi ∨ hi + 1 = N) N 0 A (msk M N lo hi A) β det
      (by omega) (hS A fun p c h1 h2 _ => hz p c h1 h2) (fun p c h1 h2 h3 h4 => (msk_in _ ⟨h1, h2, h3, h4⟩).symm)
  obtain ⟨b1, b2, _⟩ := decLoop_eq tiny hNM (by omega) (by omega : lo + ahi ≤ hi ∨ hi + 1 = N) N 0 A' (msk M N lo hi A) β det
      (by omega) (hS A fun p c h1 h2 _ => hz p c h1 h2) (fun p c h1 h2 h3 h4 => by
        rw [msk_in _ ⟨h1, h2, h3, h4⟩]; exact (hA p c h1 h2 h3 h4).symm)
  refine ⟨a1.trans b1.symm, fun p c h1 h2 h3 h4 => (a2 p c h1 h2 h3 h4).trans (b2 p c h1 h2 h3 h4).symm⟩

/-- **C95** `QR_Decompose(A,R)`: the same `R`. -/
theorem band_qr_decompose_R (tiny : ℝ) (M N lo hi : Nat) (hNM : N ≤ M) (hlo : lo < M) (hhi : hi < N)
    (A Q0 R0 : Nat → Nat → K) (beta : Nat → K) : decomposeR tiny M N lo hi A R0 beta = (decomposeQR tiny M N lo hi A Q0 R0 beta).2 := by
  unfold decomposeR decomposeQR
  dsimp only
  rw [decompose_rows tiny hlo, decompose_rows tiny hlo]
  obtain ⟨_, h⟩ := decLoop_det tiny (ahi := hi) hNM hlo (show min (lo+hi) (N-1) < N by omega) (by omega)
    (fun i j => if i < min M (N+lo) ∧ j < N ∧ i ≤ j + lo ∧ j ≤ i + hi then A i j else 0)
    (fun i j => if i < M ∧ j < N ∧ i ≤ j + lo ∧ j ≤ i + hi then A i j else if i < M ∧ j < N then 0 else Q0 i j) beta 0
    (fun p c _ _ h3 _ => if_neg (by omega)) (fun p c h1 h2 h3 h4 => by
      by_cases h5 : c ≤ p + hi
      · rw [if_pos (by omega), if_pos ⟨h1, h2, h3, h5⟩]
      · rw [if_neg (by omega), if_neg (by omega), if_pos ⟨h1, h2⟩])
  funext i j
  by_cases hij : i < N ∧ j < N
  · rw [if_pos hij, if_pos hij]
    unfold bandMat
    by_cases h2 : i ≤ j + 0 ∧ j ≤ i + min (lo+hi) (N-1)
    · rw [if_pos h2, if_pos h2, h i j (by omega) hij.2 (by omega) h2.2]
    · rw [if_neg h2, if_neg h2]
  · rw [if_neg hij, if_neg hij]

end
end TMV.BandQR
