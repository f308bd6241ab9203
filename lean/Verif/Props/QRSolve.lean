import Verif.Props.QRDiv

/-! C60: division by a QR decomposition: least squares, minimal norm, inverse, determinant. -/
namespace TMV.QR
noncomputable section
open Classical TMV.Tri

variable {K : Type} [RCLike K]

/-- `V`, `β` hold a QR decomposition of `B`. -/
structure Fact (M N : Nat) (V : Nat → Nat → K) (β : Nat → K) (B : Nat → Nat → K) : Prop where
  le : N ≤ M
  valid : ∀ j, 0 ≤ j → j < 0+N → Valid M V j (β j)
  col : ∀ c, c < N → ∀ p, p < M → hs M V β 0 N (fun q => B q c) p = upperMat false V p c

/-- What "`E` is below the underflow threshold" means: `E` has columns of norm at most `√M·tiny`, and only where `d` is zero. -/
def Small (tiny : ℝ) (M N : Nat) (d : Nat → K) (E : Nat → Nat → K) : Prop :=
  (∀ c, c < N → ∑ i ∈ Finset.range M, ‖E i c‖ ^ 2 ≤ M * tiny ^ 2) ∧ ∀ c, c < N → d c ≠ 0 → ∀ i, E i c = 0

theorem QRSpec.fact {tiny : ℝ} {M N : Nat} (hNM : N ≤ M) {A A' : Nat → Nat → K} {β : Nat → K} (h : QRSpec tiny M 0 N N A A' β) :
    ∃ E, Small tiny M N (fun c => A' c c) E ∧ Fact M N A' β fun p c => A p c + E p c := by
  have hc : ∀ c, ∃ ε : Nat → K, c < N → nsq M ε ≤ M * tiny ^ 2 ∧ (A' c c ≠ 0 → ε = fun _ => 0) ∧
      hs M A' β 0 N (fun p => A p c + ε p) = fun p => if c < p ∧ p < M then 0 else A' p c := by
    intro c
    by_cases hc : c < N
    · obtain ⟨ε, _, e2, e3, e4⟩ := h.cols c (by omega) (by omega)
      refine ⟨ε, fun _ => ⟨e2, e3, ?_⟩⟩
      rw [Nat.sub_zero] at e4
      have hN : N = (c+1) + (N-(c+1)) := by omega
      conv_lhs => rw [hN]
      rw [hs_concat, e4, hs_fix]
      intro q h2 h3
      rw [if_pos (by omega)]
    · exact ⟨fun _ => 0, fun h => absurd h hc⟩
  choose ε hε using hc
  refine ⟨fun i c => ε c i, ⟨?_, ?_⟩, hNM, h.valid, ?_⟩
  · intro c hc
    have := (hε c hc).1
    unfold nsq at this
    simpa only [RCLike.normSq_eq_def'] using this
  · intro c hc hd i
    show ε c i = 0
    rw [(hε c hc).2.1 hd]
  · intro c hc p hp
    show hs M A' β 0 N (fun q => A q c + ε c q) p = _
    rw [(hε c hc).2.2]
    unfold upperMat
    dsimp only
    by_cases h1 : c < p
    · rw [if_pos ⟨h1, hp⟩, if_neg (by omega), if_neg (by omega)]
    · rw [if_neg (by omega)]
      by_cases h2 : p < c
      · rw [if_pos h2]
      · obtain rfl : p = c := by omega
        rw [if_neg (by omega), if_pos rfl]; rfl

section
variable {M N : Nat} {V : Nat → Nat → K} {β : Nat → K} {B : Nat → Nat → K} (h : Fact M N V β B)
include h

theorem Fact.hs_mul (z : Nat → K) (p : Nat) (hp : p < M) :
    hs M V β 0 N (fun q => ∑ l ∈ Finset.range N, B q l * z l) p = ∑ l ∈ Finset.range N, upperMat false V p l * z l := by
  rw [hs_apply V β _ p hp]
  simp only [Finset.mul_sum]
  rw [Finset.sum_comm]
  refine Finset.sum_congr rfl fun l hl => ?_
  rw [Finset.mem_range] at hl
  rw [← h.col l hl p hp, hs_apply V β _ p hp, Finset.sum_mul]
  exact Finset.sum_congr rfl fun q _ => by ring

/-- The residual splits into the triangular system and a part no choice of `z` can change. -/
theorem Fact.resid (z m : Nat → K) : nsq M (fun p => ∑ l ∈ Finset.range N, B p l * z l - m p) =
    (∑ i ∈ Finset.range N, RCLike.normSq (∑ l ∈ Finset.range N, upperMat false V i l * z l - hs M V β 0 N m i)) +
    ∑ i ∈ Finset.Ico N M, RCLike.normSq (hs M V β 0 N m i) := by
  have hsub : ∀ p, p < M → hs M V β 0 N (fun p => ∑ l ∈ Finset.range N, B p l * z l - m p) p =
      ∑ l ∈ Finset.range N, upperMat false V p l * z l - hs M V β 0 N m p := by
    intro p hp
    rw [← h.hs_mul z p hp, hs_apply V β _ p hp, hs_apply V β _ p hp, hs_apply V β _ p hp, ← Finset.sum_sub_distrib]
    exact Finset.sum_congr rfl fun q _ => by ring
  rw [← nsq_eq_of_ip (hs_unitary N h.valid _ _)]
  unfold nsq
  rw [Finset.range_eq_Ico, ← Finset.sum_Ico_consecutive _ (Nat.zero_le N) h.le, ← Finset.range_eq_Ico]
  congr 1
  · refine Finset.sum_congr rfl fun i hi => ?_
    rw [Finset.mem_range] at hi
    rw [hsub i (by have := h.le; omega)]
  · refine Finset.sum_congr rfl fun i hi => ?_
    rw [Finset.mem_Ico] at hi
    rw [hsub i hi.2, Finset.sum_eq_zero, zero_sub, RCLike.normSq_neg]
    intro l hl
    rw [Finset.mem_range] at hl
    simp [upperMat, show ¬ i < l by omega, show ¬ i = l by omega]

omit h in
theorem nsq_norm (M : Nat) (x : Nat → K) : nsq M x = ∑ p ∈ Finset.range M, ‖x p‖ ^ 2 := by
  simp only [nsq, RCLike.normSq_eq_def']

omit h in
theorem nsq_eq_zero {M : Nat} {x : Nat → K} (h : nsq M x = 0) (p : Nat) (hp : p < M) : x p = 0 := by
  unfold nsq at h
  rw [Finset.sum_eq_zero_iff_of_nonneg fun _ _ => RCLike.normSq_nonneg _] at h
  exact RCLike.normSq_eq_zero.mp (h p (Finset.mem_range.mpr hp))

/-- `x = m/A`: the result is the least-squares solution (the solution, if the matrix is square). -/
theorem Fact.lDiv {nb tb tb2 : Nat} (hnb : 0 < nb) (htb : 0 < tb) (htb2 : 0 < tb2) (o : Ord) (brm : Bool) (nc : Nat)
    (Z0 m x : Nat → Nat → K) :
    ((∀ i, i < N → V i i ≠ 0) → (qrLDiv nb tb tb2 o brm M N nc N V β Z0 m x).isSome) ∧
    ∀ X, qrLDiv nb tb tb2 o brm M N nc N V β Z0 m x = some X →
      (∀ c, c < nc → ∀ z : Nat → K, ∑ p ∈ Finset.range M, ‖∑ l ∈ Finset.range N, B p l * X l c - m p c‖ ^ 2 ≤
        ∑ p ∈ Finset.range M, ‖∑ l ∈ Finset.range N, B p l * z l - m p c‖ ^ 2) ∧
      (M = N → ∀ c, c < nc → ∀ p, p < M → ∑ l ∈ Finset.range N, B p l * X l c = m p c) ∧
      ∀ a c, ¬ (a < N ∧ c < nc) → X a c = x a c := by
  obtain ⟨Y, hY⟩ : ∃ Y : Nat → Nat → K, Y = fun a b => if N ≤ a ∧ a < N ∧ b < nc then 0 else
    pqLDiv nb M N nc V β Z0 m x a b := ⟨_, rfl⟩
  have hq : qrLDiv nb tb tb2 o brm M N nc N V β Z0 m x = upperM tb tb2 o brm false N nc V Y := by rw [hY]; rfl
  rw [hq]
  have hYv : ∀ a c, a < N → c < nc → Y a c = hs M V β 0 N (fun p => m p c) a := by
    intro a c ha hc
    rw [hY]; dsimp only
    rw [if_neg (by omega)]
    unfold pqLDiv
    by_cases hMN : M = N
    · rw [if_pos hMN, qLDivEq_spec nb M N nc hnb h.le, if_pos hc]
      refine hs_ext N (fun p hp => ?_) a (by have := h.le; omega)
      simp [paste, hp, hc]
    · rw [if_neg hMN]
      simp only [paste]
      rw [if_pos (by omega), Nat.sub_zero, Nat.sub_zero, qLDivEq_spec nb M N nc hnb h.le, if_pos hc]
  have hYo : ∀ a c, ¬ (a < N ∧ c < nc) → Y a c = x a c := by
    intro a c hac
    rw [hY]; dsimp only
    rw [if_neg (by omega)]
    unfold pqLDiv
    by_cases hMN : M = N
    · rw [if_pos hMN, qLDivEq_spec nb M N nc hnb h.le]
      by_cases hc : c < nc
      · rw [if_pos hc, hs_out _ (by omega)]
        simp only [paste]; rw [if_neg (by omega)]
      · rw [if_neg hc]
        simp only [paste]; rw [if_neg (by omega)]
    · rw [if_neg hMN]
      simp only [paste]
      rw [if_neg (by omega)]
  refine ⟨fun hd => upperM_isSome tb tb2 htb htb2 o brm false N nc V Y hd, ?_⟩
  intro X hX
  obtain ⟨s1, s2⟩ := upperM_sound tb tb2 htb htb2 o brm false N nc V Y X hX
  have hz : ∀ c, c < nc → nsq M (fun p => ∑ l ∈ Finset.range N, B p l * X l c - m p c) =
      ∑ i ∈ Finset.Ico N M, RCLike.normSq (hs M V β 0 N (fun p => m p c) i) := by
    intro c hc
    rw [h.resid (fun l => X l c) (fun p => m p c), Finset.sum_eq_zero, zero_add]
    intro i hi
    rw [Finset.mem_range] at hi
    rw [s1 i c hi hc, hYv i c hi hc, sub_self, map_zero]
  refine ⟨?_, ?_, ?_⟩
  · intro c hc z
    rw [← nsq_norm M fun p => ∑ l ∈ Finset.range N, B p l * X l c - m p c,
      ← nsq_norm M fun p => ∑ l ∈ Finset.range N, B p l * z l - m p c, hz c hc, h.resid z fun p => m p c]
    exact le_add_of_nonneg_left (Finset.sum_nonneg fun _ _ => RCLike.normSq_nonneg _)
  · intro hMN c hc p hp
    have := hz c hc
    rw [show Finset.Ico N M = ∅ by rw [hMN, Finset.Ico_self], Finset.sum_empty] at this
    exact sub_eq_zero.mp (nsq_eq_zero this p hp)
  · intro a c hac
    rw [s2 a c hac, hYo a c hac]

/-- A row `z` times `B`, in terms of the triangle. -/
theorem Fact.row_mul (z : Nat → K) (c : Nat) (hc : c < N) : ∑ p ∈ Finset.range M, z p * B p c =
    ∑ k ∈ Finset.range N, star (hs M V β 0 N (fun p => star (z p)) k) * upperMat false V k c := by
  have h1 : ∑ p ∈ Finset.range M, z p * B p c = ip M (fun p => star (z p)) fun q => B q c := by
    simp only [ip, star_star]
  rw [h1, ← hs_unitary N h.valid]
  unfold ip
  rw [Finset.range_eq_Ico, ← Finset.sum_Ico_consecutive _ (Nat.zero_le N) h.le, ← Finset.range_eq_Ico,
    Finset.sum_eq_zero (s := Finset.Ico N M), add_zero]
  · refine Finset.sum_congr rfl fun k hk => ?_
    rw [Finset.mem_range] at hk
    rw [h.col c hc k (by have := h.le; omega)]
  · intro k hk
    rw [Finset.mem_Ico] at hk
    rw [h.col c hc k hk.2]
    simp [upperMat, show ¬ k < c by omega, show ¬ k = c by omega]

omit h in
/-- A triangular system with non-zero diagonal has at most one solution. -/
theorem tri_row_unique (hd : ∀ i, i < N → V i i ≠ 0) (u v : Nat → K)
    (huv : ∀ c, c < N → ∑ k ∈ Finset.range N, u k * upperMat false V k c = ∑ k ∈ Finset.range N, v k * upperMat false V k c) :
    ∀ n, ∀ k, k < n → k < N → u k = v k := by
  intro n
  induction n with
  | zero => intro k hk; omega
  | succ n ih =>
    intro k hk hkN
    have hs := huv k hkN
    have key : ∀ w : Nat → K, ∑ l ∈ Finset.range N, w l * upperMat false V l k =
        ∑ l ∈ Finset.range k, w l * upperMat false V l k + w k * V k k := by
      intro w
      rw [Finset.range_eq_Ico, ← Finset.sum_Ico_consecutive _ (Nat.zero_le k) hkN.le, ← Finset.range_eq_Ico,
        Finset.sum_eq_sum_Ico_succ_bot hkN, Finset.sum_eq_zero (s := Finset.Ico (k+1) N), add_zero]
      · simp [upperMat]
      · intro l hl
        rw [Finset.mem_Ico] at hl
        simp [upperMat, show ¬ l < k by omega, show ¬ l = k by omega]
    rw [key u, key v, Finset.sum_congr rfl fun l hl => by
      rw [ih l (by have := Finset.mem_range.mp hl; omega) (by have := Finset.mem_range.mp hl; omega)]] at hs
    exact mul_right_cancel₀ (hd k hkN) (add_left_cancel hs)

/-- `x = m%A`: `x A = m`, and no other solution has a smaller norm. -/
theorem Fact.rDiv {nb tb tb2 : Nat} (hnb : 0 < nb) (htb : 0 < tb) (htb2 : 0 < tb2) (o : Ord) (brm : Bool) (nr : Nat)
    (Z0 m x : Nat → Nat → K) :
    ((∀ i, i < N → V i i ≠ 0) → (qrRDiv nb tb tb2 o brm M N nr N V β Z0 m x).isSome) ∧
    ∀ X, qrRDiv nb tb tb2 o brm M N nr N V β Z0 m x = some X →
      (∀ a, a < nr → ∀ c, c < N → ∑ p ∈ Finset.range M, X a p * B p c = m a c) ∧
      ((∀ i, i < N → V i i ≠ 0) → ∀ a, a < nr → ∀ z : Nat → K, (∀ c, c < N → ∑ p ∈ Finset.range M, z p * B p c = m a c) →
        ∑ p ∈ Finset.range M, ‖X a p‖ ^ 2 ≤ ∑ p ∈ Finset.range M, ‖z p‖ ^ 2) ∧
      ∀ a p, ¬ (a < nr ∧ p < M) → X a p = x a p := by
  have hle := h.le
  obtain ⟨Y, hY⟩ : ∃ Y : Nat → Nat → K, Y = fun a b => if a < nr ∧ N ≤ b ∧ b < M then 0 else paste x 0 0 nr N m a b := ⟨_, rfl⟩
  have hq : qrRDiv nb tb tb2 o brm M N nr N V β Z0 m x =
      (lowerM tb tb2 (LU.Ord.tr o) brm false N nr (trM V) (trM Y)).map fun xt => qRDivEq nb M N nr V β Z0 (trM xt) := by
    rw [hY]; rfl
  rw [hq]
  refine ⟨fun hd => ?_, ?_⟩
  · rw [Option.isSome_map]
    exact lowerM_isSome tb tb2 htb htb2 _ brm false N nr _ _ hd
  intro X hX
  obtain ⟨W, hW, hXW⟩ := Option.map_eq_some_iff.mp hX
  obtain ⟨s1, s2⟩ := lowerM_sound tb tb2 htb htb2 _ brm false N nr _ _ W hW
  have hYm : ∀ a b, a < nr → b < N → Y a b = m a b := by
    intro a b ha hb
    rw [hY]; dsimp only
    rw [if_neg (by omega)]
    simp [paste, ha, hb]
  have hYz : ∀ a b, a < nr → N ≤ b → b < M → Y a b = 0 := by
    intro a b ha hb hb2
    rw [hY]; dsimp only
    rw [if_pos ⟨ha, hb, hb2⟩]
  have hYo : ∀ a p, ¬ (a < nr ∧ p < M) → Y a p = x a p := by
    intro a p hap
    rw [hY]; dsimp only
    rw [if_neg (by omega)]
    simp only [paste]; rw [if_neg (by omega)]
  -- the triangular part
  have hWR : ∀ a, a < nr → ∀ c, c < N → ∑ k ∈ Finset.range N, W k a * upperMat false V k c = m a c := by
    intro a ha c hc
    rw [← hYm a c ha hc, show Y a c = trM Y c a from rfl, ← s1 c a hc ha]
    refine Finset.sum_congr rfl fun k _ => ?_
    rw [show trM V = TriProd.tr V from rfl, TriProd.tr_lower, mul_comm]
  have hWz : ∀ a b, a < nr → N ≤ b → b < M → W b a = 0 := by
    intro a b ha hb hb2
    rw [s2 b a (by omega)]
    exact hYz a b ha hb hb2
  have hXa : ∀ a p, a < nr → X a p = star (hsA M V β 0 N (fun q => star (W q a)) p) := by
    intro a p ha
    rw [← hXW]
    show qRDivEq nb M N nr V β Z0 (trM W) a p = _
    rw [qRDivEq_spec nb M N nr hnb h.le, if_pos ha]; rfl
  have hhs : ∀ a, a < nr → hs M V β 0 N (fun p => star (X a p)) = fun q => star (W q a) := by
    intro a ha
    rw [← hs_hsA N h.valid fun q => star (W q a)]
    congr 1
    funext p
    rw [hXa a p ha, star_star]
  refine ⟨?_, ?_, ?_⟩
  · intro a ha c hc
    rw [h.row_mul _ c hc, ← hWR a ha c hc, hhs a ha]
    simp only [star_star]
  · intro hd a ha z hz
    have e1 : ∀ y : Nat → K, ∑ p ∈ Finset.range M, ‖y p‖ ^ 2 = nsq M (hs M V β 0 N fun p => star (y p)) := by
      intro y
      rw [nsq_eq_of_ip (hs_unitary N h.valid _ _), nsq_norm]
      exact Finset.sum_congr rfl fun p _ => by rw [norm_star]
    rw [e1, e1, hhs a ha]
    have hu : ∀ k, k < N → hs M V β 0 N (fun p => star (z p)) k = star (W k a) := by
      intro k hk
      have := tri_row_unique hd (fun k => star (hs M V β 0 N (fun p => star (z p)) k)) (fun k => W k a) (by
        intro c hc
        rw [hWR a ha c hc, ← hz c hc, h.row_mul z c hc]) N k hk hk
      rw [← this, star_star]
    unfold nsq
    refine Finset.sum_le_sum fun q hq => ?_
    rw [Finset.mem_range] at hq
    by_cases hqN : q < N
    · rw [hu q hqN]
    · show RCLike.normSq (star (W q a)) ≤ _
      rw [hWz a q ha (by omega) hq, star_zero, map_zero]
      exact RCLike.normSq_nonneg _
  · intro a p hap
    rw [← hXW]
    show qRDivEq nb M N nr V β Z0 (trM W) a p = _
    have hWY : W p a = Y a p := s2 p a (by omega)
    rw [qRDivEq_spec nb M N nr hnb h.le]
    by_cases ha : a < nr
    · rw [if_pos ha, hsA_out _ (by omega), star_star]
      rw [← hYo a p hap]; exact hWY
    · rw [if_neg ha, ← hYo a p hap]; exact hWY

/-- `A.inverse()`: a left inverse whose product on the other side is Hermitian, that is the pseudo-inverse. -/
theorem Fact.inverse {nb ib mb mb2 : Nat} (hnb : 0 < nb) (hib : 0 < ib) (hmb : 0 < mb) (hmb2 : 0 < mb2) (o : Ord) (crm st : Bool)
    (Z0 minv : Nat → Nat → K) :
    (qrInverse nb ib mb mb2 o crm st M N N V β Z0 minv = none ↔ ∃ i < N, V i i = 0) ∧
    ∀ X, qrInverse nb ib mb mb2 o crm st M N N V β Z0 minv = some X →
      (∀ a c, a < N → c < N → ∑ p ∈ Finset.range M, X a p * B p c = if a = c then 1 else 0) ∧
      (∀ p q, p < M → q < M → ∑ c ∈ Finset.range N, B p c * X c q = star (∑ c ∈ Finset.range N, B q c * X c p)) ∧
      ∀ a p, ¬ (a < N ∧ p < M) → X a p = minv a p := by
  have hle := h.le
  obtain ⟨Y, hY⟩ : ∃ Y : Nat → Nat → K, Y = fun a b => if a ≤ b ∧ b < N then V a b else if a < N ∧ b < M then 0 else minv a b :=
    ⟨_, rfl⟩
  have hq : qrInverse nb ib mb mb2 o crm st M N N V β Z0 minv =
      (TriProd.triInverse ib mb mb2 o crm st false N Y).map fun minv => qRDivEq nb M N N V β Z0 minv := by rw [hY]; rfl
  rw [hq]
  obtain ⟨t1, t2⟩ := TriProd.triInverse_spec ib mb mb2 hib hmb hmb2 o crm st false N Y
  refine ⟨?_, ?_⟩
  · rw [Option.map_eq_none_iff, t1]
    simp only [true_and]
    refine exists_congr fun i => and_congr_right fun hi => ?_
    rw [hY]; dsimp only
    rw [if_pos ⟨le_rfl, hi⟩]
  intro X hX
  obtain ⟨W, hW, hXW⟩ := Option.map_eq_some_iff.mp hX
  obtain ⟨i1, i2⟩ := t2 W hW
  have hUY : ∀ a c, a < N → c < N → upperMat false Y a c = upperMat false V a c := by
    intro a c ha hc
    rw [hY]
    unfold upperMat
    dsimp only
    by_cases h1 : a < c
    · rw [if_pos h1, if_pos h1, if_pos (by omega)]
    · rw [if_neg h1, if_neg h1]
      by_cases h2 : a = c
      · rw [if_pos h2, if_pos h2]
        simp [ha]
      · rw [if_neg h2, if_neg h2]
  have hinv : ∀ i j, i < N → j < N → ∑ k ∈ Finset.range N, upperMat false V i k * upperMat false W k j = if i = j then 1 else 0 := by
    intro i j hi hj
    rw [← i1 i j hi hj]
    exact Finset.sum_congr rfl fun k hk => by rw [hUY i k hi (Finset.mem_range.mp hk)]
  -- left inverse too
  have hinvL : ∀ i j, i < N → j < N → ∑ k ∈ Finset.range N, upperMat false W i k * upperMat false V k j = if i = j then 1 else 0 := by
    have hm : LU.toM N (upperMat false V) * LU.toM N (upperMat false W) = 1 := by
      ext i j
      rw [Matrix.mul_apply, Matrix.one_apply]
      have := hinv i j i.2 j.2
      rw [Finset.sum_range] at this
      simp only [LU.toM, Matrix.of_apply]
      rw [this]
      simp [Fin.ext_iff]
    have hm2 := mul_eq_one_comm.mp hm
    intro i j hi hj
    have := congrFun (congrFun hm2 ⟨i, hi⟩) ⟨j, hj⟩
    rw [Matrix.mul_apply, Matrix.one_apply] at this
    simp only [LU.toM, Matrix.of_apply, Fin.mk.injEq] at this
    rw [Finset.sum_range, this]
  have hWu : ∀ a b, a < N → b < N → W a b = upperMat false W a b := by
    intro a b ha hb
    unfold upperMat
    by_cases h1 : a < b
    · rw [if_pos h1]
    · rw [if_neg h1]
      by_cases h2 : a = b
      · rw [if_pos h2, h2]; rfl
      · rw [if_neg h2, i2 a b (by simp; omega), hY]
        dsimp only
        rw [if_neg (by omega), if_pos (by omega)]
  have hWz : ∀ a b, a < N → N ≤ b → b < M → W a b = 0 := by
    intro a b ha hb hb2
    rw [i2 a b (by omega), hY]
    dsimp only
    rw [if_neg (by omega), if_pos (by omega)]
  have hXa : ∀ a p, a < N → X a p = star (hsA M V β 0 N (fun q => star (W a q)) p) := by
    intro a p ha
    rw [← hXW, qRDivEq_spec nb M N N hnb h.le, if_pos ha]
  have hhs : ∀ a, a < N → hs M V β 0 N (fun p => star (X a p)) = fun q => star (W a q) := by
    intro a ha
    rw [← hs_hsA N h.valid fun q => star (W a q)]
    congr 1
    funext p
    rw [hXa a p ha, star_star]
  refine ⟨?_, ?_, ?_⟩
  · intro a c ha hc
    rw [h.row_mul _ c hc, hhs a ha, ← hinvL a c ha hc]
    refine Finset.sum_congr rfl fun k hk => ?_
    rw [star_star, hWu a k ha (Finset.mem_range.mp hk)]
  · -- B X = Σ_k q_k q_kᴴ
    have hBX : ∀ p q, p < M → q < M → ∑ c ∈ Finset.range N, B p c * X c q =
        ∑ k ∈ Finset.range N, hsA M V β 0 N (ev k) p * star (hsA M V β 0 N (ev k) q) := by
      intro p q hp hq
      have hB : ∀ c, c < N → B p c = ∑ k ∈ Finset.range N, hsA M V β 0 N (ev k) p * upperMat false V k c := by
        intro c hc
        have h1 : hsA M V β 0 N (hs M V β 0 N fun q => B q c) p = B p c := by rw [hsA_hs N h.valid]
        rw [← h1, hsA_apply V β _ (fun q h1 h2 => ?_) p hp]
        · refine Finset.sum_congr rfl fun k hk => ?_
          rw [h.col c hc k (by have := Finset.mem_range.mp hk; omega)]
        · rw [h.col c hc q h2]
          simp [upperMat, show ¬ q < c by omega, show ¬ q = c by omega]
      have hXc : ∀ c, c < N → X c q = ∑ l ∈ Finset.range N, upperMat false W c l * star (hsA M V β 0 N (ev l) q) := by
        intro c hc
        rw [hXa c q hc, hsA_apply V β _ (fun r h1 h2 => by rw [hWz c r hc h1 h2, star_zero]) q hq, star_sum]
        refine Finset.sum_congr rfl fun l hl => ?_
        rw [star_mul', star_star, ← hWu c l hc (Finset.mem_range.mp hl), mul_comm]
      calc ∑ c ∈ Finset.range N, B p c * X c q
          = ∑ c ∈ Finset.range N, ∑ k ∈ Finset.range N, ∑ l ∈ Finset.range N,
              (hsA M V β 0 N (ev k) p * star (hsA M V β 0 N (ev l) q)) * (upperMat false V k c * upperMat false W c l) := by
            refine Finset.sum_congr rfl fun c hc => ?_
            rw [hB c (Finset.mem_range.mp hc), hXc c (Finset.mem_range.mp hc), Finset.sum_mul_sum]
            exact Finset.sum_congr rfl fun k _ => Finset.sum_congr rfl fun l _ => by ring
        _ = ∑ k ∈ Finset.range N, ∑ l ∈ Finset.range N, (hsA M V β 0 N (ev k) p * star (hsA M V β 0 N (ev l) q)) *
              ∑ c ∈ Finset.range N, upperMat false V k c * upperMat false W c l := by
            rw [Finset.sum_comm]
            refine Finset.sum_congr rfl fun k _ => ?_
            rw [Finset.sum_comm]
            exact Finset.sum_congr rfl fun l _ => by rw [Finset.mul_sum]
        _ = _ := by
            refine Finset.sum_congr rfl fun k hk => ?_
            rw [Finset.sum_eq_single k]
            · rw [hinv k k (Finset.mem_range.mp hk) (Finset.mem_range.mp hk), if_pos rfl, mul_one]
            · intro l hl hlk
              rw [hinv k l (Finset.mem_range.mp hk) (Finset.mem_range.mp hl), if_neg (Ne.symm hlk), mul_zero]
            · intro hn; exact absurd hk hn
    intro p q hp hq
    rw [hBX p q hp hq, hBX q p hq hp, star_sum]
    refine Finset.sum_congr rfl fun k _ => ?_
    rw [star_mul', star_star, mul_comm]
  · intro a p hap
    have hWm : W a p = minv a p := by
      rw [i2 a p (by simp; omega), hY]
      dsimp only
      rw [if_neg (by omega), if_neg hap]
    rw [← hXW, qRDivEq_spec nb M N N hnb h.le]
    by_cases ha : a < N
    · rw [if_pos ha, hsA_out _ (by omega), star_star, hWm]
    · rw [if_neg ha, hWm]

end

/-! ### The determinant -/

theorem toM_hsA_det (M : Nat) (V : Nat → Nat → K) (β : Nat → K) (n : Nat) (hn : n ≤ M)
    (hv : ∀ j, 0 ≤ j → j < 0+n → Valid M V j (β j)) :
    (LU.toM M fun p k => hsA M V β 0 n (ev k) p).det = ∏ j ∈ Finset.range n, dfac (β j) := by
  induction n with
  | zero =>
    rw [Finset.prod_range_zero]
    have : (LU.toM M fun p k => hsA M V β 0 0 (ev k : Nat → K) p) = 1 := by
      ext i j
      rw [Matrix.one_apply]
      simp [LU.toM, hsA, ev, Fin.ext_iff]
    rw [this, Matrix.det_one]
  | succ n ih =>
    have hmul : (LU.toM M fun p k => hsA M V β 0 (n+1) (ev k) p) =
        (LU.toM M fun p k => hsA M V β 0 n (ev k) p) * houseMat (star (β n)) (fun i : Fin M => TMV.QR.hv M V n i) := by
      ext i j
      rw [Matrix.mul_apply]
      simp only [LU.toM, Matrix.of_apply, hsA, Nat.zero_add]
      have h1 : ∀ q, q < M → H M V n (star (β n)) (ev j) q = ∑ k ∈ Finset.range M, ev k q * H M V n (star (β n)) (ev j) k := by
        intro q hq
        rw [Finset.sum_eq_single q]
        · simp [ev]
        · intro k _ hk; rw [ev_zero (Ne.symm hk), zero_mul]
        · intro hn; exact absurd (Finset.mem_range.mpr hq) hn
      rw [hsA_ext n h1 i i.2, hsA_sum]
      simp only [hsA_smul]
      rw [Finset.sum_range]
      refine Finset.sum_congr rfl fun k _ => ?_
      congr 1
      simp only [H, houseMat, Matrix.sub_apply, Matrix.one_apply, Matrix.smul_apply, Matrix.of_apply, smul_eq_mul]
      rw [ip_ev' _ j.2]
      simp only [ev, Fin.ext_iff]
      ring
    rw [hmul, Matrix.det_mul, ih (by omega) (fun j h1 h2 => hv j h1 (by omega)), houseMat_det, Finset.prod_range_succ]
    congr 1
    have hvn := hv n (by omega) (by omega)
    unfold Valid at hvn
    rw [dfac_eq _ _ hvn, ip, Finset.sum_range]

theorem Fact.det {N : Nat} {V : Nat → Nat → K} {β : Nat → K} {B : Nat → Nat → K} (h : Fact N N V β B) :
    (LU.toM N B).det = (∏ j ∈ Finset.range N, dfac (β j)) * ∏ i ∈ Finset.range N, V i i := by
  have hmul : LU.toM N B = (LU.toM N fun p k => hsA N V β 0 N (ev k) p) * LU.toM N (upperMat false V) := by
    ext i j
    rw [Matrix.mul_apply]
    simp only [LU.toM, Matrix.of_apply]
    have h1 : hsA N V β 0 N (hs N V β 0 N fun q => B q j) i = B i j := by rw [hsA_hs N h.valid]
    rw [← h1, hsA_apply V β _ (fun q h1 h2 => by omega) i i.2, Finset.sum_range]
    refine Finset.sum_congr rfl fun k _ => ?_
    rw [h.col j j.2 k k.2]
  rw [hmul, Matrix.det_mul, toM_hsA_det N V β N le_rfl h.valid]
  congr 1
  rw [Matrix.det_of_isUpperTriangular, Finset.prod_range]
  · refine Finset.prod_congr rfl fun i _ => ?_
    simp [LU.toM, upperMat]
  · intro i j hij
    have hij : j < i := hij
    simp only [LU.toM, Matrix.of_apply, upperMat]
    rw [if_neg (by omega), if_neg (by omega)]

/-! ### C60: the `QRDiv` divider -/

theorem qrFac_det (N : Nat) (F : QRFac K) (d : K) (hd : F.signdet = d) :
    F.det N = d * ∏ i ∈ Finset.range N, F.QRx i i := by
  obtain ⟨l1, l2⟩ := LU.logDetLoop_spec (fun i => F.QRx i i) N 0 (0, 1)
  unfold QRFac.det QRFac.logDet
  simp only [hd]
  by_cases hz : ∃ k < N, F.QRx k k = 0
  · have h0 : (LU.logDetLoop (fun i => F.QRx i i) N 0 (0, 1)).2 = 0 := l1.mpr (.inr (by simpa using hz))
    rw [h0, mul_zero, if_pos rfl]
    obtain ⟨k, hk, hk0⟩ := hz
    rw [Finset.prod_eq_zero (f := fun i => F.QRx i i) (Finset.mem_range.mpr hk) hk0, mul_zero]
  · push Not at hz
    have := l2 (by simpa using hz)
    simp only [Nat.zero_add, Real.exp_zero, RCLike.ofReal_one, one_mul] at this
    by_cases h0 : d * (LU.logDetLoop (fun i => F.QRx i i) N 0 (0, 1)).2 = 0
    · rw [if_pos h0, ← this, ← mul_assoc, h0, zero_mul]
    · rw [if_neg h0, mul_assoc, this]

/-- **C60** (`M ≥ N`): with `F = QRDiv(A)` there is an `E` below the underflow threshold (zero if no diagonal element of `R` is zero)
such that for `B = A + E`: `m/A` is the least-squares solution of `B x = m` and the exact solution if `M = N`; `m%A` solves `x B = m`
with minimal norm; the inverse is the pseudo-inverse of `B` and is refused exactly if `R` has a zero on the diagonal; for `M = N` the
determinant is that of `B`.  Division raises nothing unless `R` has a zero on the diagonal.  Nothing but the destination changes. -/
theorem qrDiv_tall (tiny : ℝ) (ht : 0 < tiny) {nb tb tb2 ib mb mb2 : Nat} (hnb : 0 < nb) (htb : 0 < tb) (htb2 : 0 < tb2)
    (hib : 0 < ib) (hmb : 0 < mb) (hmb2 : 0 < mb2) (M N : Nat) (hNM : N ≤ M) (A Z0 Z1 : Nat → Nat → K) (beta0 : Nat → K) (F : QRFac K)
    (hF : F = QRFac.make tiny nb M N A Z0 beta0) :
    ∃ E B : Nat → Nat → K, Small tiny M N (fun c => F.QRx c c) E ∧ (∀ p c, B p c = A p c + E p c) ∧
    (∀ brm nc m x, ((∀ i, i < N → F.QRx i i ≠ 0) → (F.lDiv nb tb tb2 brm M N nc Z1 m x).isSome) ∧
      ∀ X, F.lDiv nb tb tb2 brm M N nc Z1 m x = some X →
        (∀ c, c < nc → ∀ z : Nat → K, ∑ p ∈ Finset.range M, ‖∑ l ∈ Finset.range N, B p l * X l c - m p c‖ ^ 2 ≤
          ∑ p ∈ Finset.range M, ‖∑ l ∈ Finset.range N, B p l * z l - m p c‖ ^ 2) ∧
        (M = N → ∀ c, c < nc → ∀ p, p < M → ∑ l ∈ Finset.range N, B p l * X l c = m p c) ∧
        ∀ a c, ¬ (a < N ∧ c < nc) → X a c = x a c) ∧
    (∀ brm nr m x, ((∀ i, i < N → F.QRx i i ≠ 0) → (F.rDiv nb tb tb2 brm M N nr Z1 m x).isSome) ∧
      ∀ X, F.rDiv nb tb tb2 brm M N nr Z1 m x = some X →
        (∀ a, a < nr → ∀ c, c < N → ∑ p ∈ Finset.range M, X a p * B p c = m a c) ∧
        ((∀ i, i < N → F.QRx i i ≠ 0) → ∀ a, a < nr → ∀ z : Nat → K, (∀ c, c < N → ∑ p ∈ Finset.range M, z p * B p c = m a c) →
          ∑ p ∈ Finset.range M, ‖X a p‖ ^ 2 ≤ ∑ p ∈ Finset.range M, ‖z p‖ ^ 2) ∧
        ∀ a p, ¬ (a < nr ∧ p < M) → X a p = x a p) ∧
    (∀ o crm st minv, (F.inverse nb ib mb mb2 o crm st M N Z1 minv = none ↔ ∃ i < N, F.QRx i i = 0) ∧
      ∀ X, F.inverse nb ib mb mb2 o crm st M N Z1 minv = some X →
        (∀ a c, a < N → c < N → ∑ p ∈ Finset.range M, X a p * B p c = if a = c then 1 else 0) ∧
        (∀ p q, p < M → q < M → ∑ c ∈ Finset.range N, B p c * X c q = star (∑ c ∈ Finset.range N, B q c * X c p)) ∧
        ∀ a p, ¬ (a < N ∧ p < M) → X a p = minv a p) ∧
    (M = N → F.det N = (Matrix.of fun i j : Fin N => B i j).det) := by
  unfold QRFac.make at hF
  rw [if_neg (by omega)] at hF
  obtain ⟨h, hdet⟩ := decompose_spec tiny ht nb M N hnb hNM A Z0 beta0 1
  obtain ⟨r, hr⟩ : ∃ r, r = decompose tiny nb M N A Z0 beta0 1 := ⟨_, rfl⟩
  rw [← hr] at h hF hdet
  obtain ⟨E, hE, hfact⟩ := h.fact hNM
  subst hF
  refine ⟨E, fun p c => A p c + E p c, hE, fun _ _ => rfl, ?_, ?_, ?_, ?_⟩
  · intro brm nc m x
    exact hfact.lDiv hnb htb htb2 .cm brm nc Z1 m x
  · intro brm nr m x
    exact hfact.rDiv hnb htb htb2 .cm brm nr Z1 m x
  · intro o crm st minv
    exact hfact.inverse hnb hib hmb hmb2 o crm st Z1 minv
  · rintro rfl
    rw [qrFac_det _ _ _ rfl]
    show r.1.det * _ = _
    rw [hdet, one_mul]
    exact hfact.det.symm

/-- **C60** (`M < N`): the same for a wide matrix, which is decomposed through its transpose. -/
theorem qrDiv_wide (tiny : ℝ) (ht : 0 < tiny) {nb tb tb2 ib mb mb2 : Nat} (hnb : 0 < nb) (htb : 0 < tb) (htb2 : 0 < tb2)
    (hib : 0 < ib) (hmb : 0 < mb) (hmb2 : 0 < mb2) (M N : Nat) (hMN : M < N) (A Z0 Z1 : Nat → Nat → K) (beta0 : Nat → K) (F : QRFac K)
    (hF : F = QRFac.make tiny nb M N A Z0 beta0) :
    ∃ E B : Nat → Nat → K, Small tiny N M (fun c => F.QRx c c) (fun i j => E j i) ∧ (∀ p c, B p c = A p c + E p c) ∧
    (∀ brm nc m x, ((∀ i, i < M → F.QRx i i ≠ 0) → (F.lDiv nb tb tb2 brm M N nc Z1 m x).isSome) ∧
      ∀ X, F.lDiv nb tb tb2 brm M N nc Z1 m x = some X →
        (∀ c, c < nc → ∀ p, p < M → ∑ l ∈ Finset.range N, B p l * X l c = m p c) ∧
        ((∀ i, i < M → F.QRx i i ≠ 0) → ∀ c, c < nc → ∀ z : Nat → K, (∀ p, p < M → ∑ l ∈ Finset.range N, B p l * z l = m p c) →
          ∑ l ∈ Finset.range N, ‖X l c‖ ^ 2 ≤ ∑ l ∈ Finset.range N, ‖z l‖ ^ 2) ∧
        ∀ a c, ¬ (a < N ∧ c < nc) → X a c = x a c) ∧
    (∀ brm nr m x, ((∀ i, i < M → F.QRx i i ≠ 0) → (F.rDiv nb tb tb2 brm M N nr Z1 m x).isSome) ∧
      ∀ X, F.rDiv nb tb tb2 brm M N nr Z1 m x = some X →
        (∀ a, a < nr → ∀ z : Nat → K, ∑ c ∈ Finset.range N, ‖∑ p ∈ Finset.range M, X a p * B p c - m a c‖ ^ 2 ≤
          ∑ c ∈ Finset.range N, ‖∑ p ∈ Finset.range M, z p * B p c - m a c‖ ^ 2) ∧
        ∀ a p, ¬ (a < nr ∧ p < M) → X a p = x a p) ∧
    (∀ o crm st minv, (F.inverse nb ib mb mb2 o crm st M N Z1 minv = none ↔ ∃ i < M, F.QRx i i = 0) ∧
      ∀ X, F.inverse nb ib mb mb2 o crm st M N Z1 minv = some X →
        (∀ a c, a < M → c < M → ∑ p ∈ Finset.range N, B a p * X p c = if a = c then 1 else 0) ∧
        (∀ p q, p < N → q < N → ∑ c ∈ Finset.range M, X p c * B c q = star (∑ c ∈ Finset.range M, X q c * B c p)) ∧
        ∀ a p, ¬ (a < N ∧ p < M) → X a p = minv a p) := by
  unfold QRFac.make at hF
  rw [if_pos hMN] at hF
  obtain ⟨h, _⟩ := decompose_spec tiny ht nb N M hnb hMN.le (trM A) Z0 beta0 1
  obtain ⟨r, hr⟩ : ∃ r, r = decompose tiny nb N M (trM A) Z0 beta0 1 := ⟨_, rfl⟩
  rw [← hr] at h hF
  obtain ⟨E, hE, hfact⟩ := h.fact hMN.le
  subst hF
  refine ⟨fun i j => E j i, fun p c => A p c + E c p, hE, fun _ _ => rfl, ?_, ?_, ?_⟩
  · intro brm nc m x
    obtain ⟨a1, a2⟩ := hfact.rDiv hnb htb htb2 .cm brm nc Z1 (trM m) (trM x)
    refine ⟨fun hd => ?_, ?_⟩
    · show Option.isSome (Option.map trM _)
      rw [Option.isSome_map]; exact a1 hd
    intro X hX
    obtain ⟨Y, hY, rfl⟩ := Option.map_eq_some_iff.mp (show Option.map trM _ = some X from hX)
    obtain ⟨b1, b2, b3⟩ := a2 Y hY
    refine ⟨?_, ?_, ?_⟩
    · intro c hc p hp
      rw [show m p c = trM m c p from rfl, ← b1 c hc p hp]
      exact Finset.sum_congr rfl fun l _ => mul_comm _ _
    · intro hd c hc z hz
      refine b2 hd c hc z fun p hp => ?_
      rw [show trM m c p = m p c from rfl, ← hz p hp]
      exact Finset.sum_congr rfl fun l _ => mul_comm _ _
    · intro a c hac
      exact b3 c a fun hh => hac ⟨hh.2, hh.1⟩
  · intro brm nr m x
    obtain ⟨a1, a2⟩ := hfact.lDiv hnb htb htb2 .cm brm nr Z1 (trM m) (trM x)
    refine ⟨fun hd => ?_, ?_⟩
    · show Option.isSome (Option.map trM _)
      rw [Option.isSome_map]; exact a1 hd
    intro X hX
    obtain ⟨Y, hY, rfl⟩ := Option.map_eq_some_iff.mp (show Option.map trM _ = some X from hX)
    obtain ⟨b1, _, b3⟩ := a2 Y hY
    refine ⟨?_, ?_⟩
    · intro a ha z
      have := b1 a ha z
      simpa only [trM, mul_comm] using this
    · intro a p hap
      exact b3 p a fun hh => hap ⟨hh.2, hh.1⟩
  · intro o crm st minv
    obtain ⟨a1, a2⟩ := hfact.inverse hnb hib hmb hmb2 o crm st Z1 (trM minv)
    refine ⟨?_, ?_⟩
    · show Option.map trM _ = none ↔ _
      rw [Option.map_eq_none_iff]; exact a1
    intro X hX
    obtain ⟨Y, hY, rfl⟩ := Option.map_eq_some_iff.mp (show Option.map trM _ = some X from hX)
    obtain ⟨b1, b2, b3⟩ := a2 Y hY
    refine ⟨?_, ?_, ?_⟩
    · intro a c ha hc
      have := b1 c a hc ha
      rw [show (if a = c then (1:K) else 0) = if c = a then 1 else 0 by simp only [eq_comm], ← this]
      exact Finset.sum_congr rfl fun l _ => mul_comm _ _
    · intro p q hp hq
      have := b2 q p hq hp
      simpa only [trM, mul_comm] using this
    · intro a p hap
      exact b3 p a fun hh => hap ⟨hh.2, hh.1⟩

/-- Every step of the theorems above is met by a concrete matrix: `QRDiv` of the 1×1 matrix (2) divides 6 by 2. -/
example : ∃ X, (QRFac.make (1/10) 64 1 1 (fun _ _ => (2:ℝ)) (fun _ _ => 0) fun _ => 0).lDiv 64 64 64 false 1 1 1 (fun _ _ => 0)
    (fun _ _ => 6) (fun _ _ => 0) = some X ∧ X 0 0 = 3 := by
  obtain ⟨E, B, hE, hB, hl, -⟩ := qrDiv_tall (1/10) (by norm_num) (nb := 64) (tb := 64) (tb2 := 64) (ib := 64) (mb := 64) (mb2 := 64)
    (by norm_num) (by norm_num) (by norm_num) (by norm_num) (by norm_num) (by norm_num) 1 1 le_rfl (fun _ _ => (2:ℝ)) (fun _ _ => 0)
    (fun _ _ => 0) (fun _ => 0) _ rfl
  have hq : (QRFac.make (1/10) 64 1 1 (fun _ _ => (2:ℝ)) (fun _ _ => 0) fun _ => 0).QRx 0 0 = 2 := by
    simp [QRFac.make, decompose, recQR, reflectCol, reflect, maxAbs2]
    norm_num
  obtain ⟨hs, hX⟩ := hl false 1 (fun _ _ => 6) (fun _ _ => 0)
  obtain ⟨X, hX'⟩ := Option.isSome_iff_exists.mp (hs fun i hi => by
    obtain rfl : i = 0 := by omega
    rw [hq]; norm_num)
  refine ⟨X, hX', ?_⟩
  have := (hX X hX').2.1 rfl 0 (by norm_num) 0 (by norm_num)
  rw [Finset.sum_range_one, hB, hE.2 0 (by norm_num) (by show QRFac.QRx _ 0 0 ≠ 0; rw [hq]; norm_num)] at this
  linarith

end
end TMV.QR
