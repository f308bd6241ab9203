import Verif.Props.BandQRMain

/-! C96: the `BandQRDiv` divider. -/
namespace TMV.BandQR
noncomputable section
open Classical TMV.Tri TMV.QR

variable {K : Type} [RCLike K]

/-! ### What the constructor leaves -/

theorem msk_msk {M N lo ahi hi : Nat} (h : ahi ≤ hi) (A : Nat → Nat → K) : msk M N lo hi (msk M N lo ahi A) = msk M N lo ahi A := by
  funext p c
  by_cases h1 : p < M ∧ c < N ∧ p ≤ c + lo ∧ c ≤ p + hi
  · rw [msk_in _ h1]
  · rw [msk_out _ h1, msk_out _ (by omega)]

theorem msk_band {M N lo hi p c : Nat} (A : Nat → Nat → K) (hp : p < M) (hc : c < N) : msk M N lo hi A p c = bandMat lo hi A p c := by
  unfold msk bandMat
  by_cases h : p ≤ c + lo ∧ c ≤ p + hi
  · rw [if_pos h, if_pos ⟨hp, hc, h⟩]
  · rw [if_neg h, if_neg (by omega)]

/-- What every constructed divider satisfies; `A'` is the matrix or its transpose. -/
structure Made (tiny : ℝ) (lo ahi : Nat) (A' : Nat → Nat → K) (F : Fac K) : Prop where
  le : F.rs ≤ F.cs
  lo_lt : F.lo < F.cs
  hi_lt : F.hi < F.rs
  lo_eq : F.lo = lo
  hi_le : ahi ≤ F.hi
  spec : QRSpec tiny F.cs 0 F.rs F.rs (msk F.cs F.rs lo ahi A') (msk F.cs F.rs F.lo F.hi F.QRx) (beff F.lo F.beta)
  det : F.signdet = ∏ k ∈ Finset.range F.rs, dfac (beff F.lo F.beta k)

theorem decompose_made (tiny : ℝ) (ht : 0 < tiny) {cs rs lo ahi hi : Nat} (hle : rs ≤ cs) (hlo : lo < cs) (hhi : hi < rs) (hah : ahi ≤ hi)
    (hhi2 : lo = 0 ∨ lo + ahi ≤ hi ∨ hi + 1 = rs) (A' Q : Nat → Nat → K) (β0 : Nat → K)
    (h1 : ∀ p c, p < cs → c < rs → p ≤ c + lo → c ≤ p + ahi → Q p c = A' p c)
    (h2 : ∀ p c, p < cs → c < rs → p + ahi < c → c ≤ p + hi → Q p c = 0) (it : Bool) (o : Ord) :
    let r := decompose tiny cs rs lo hi Q β0 1
    Made tiny lo ahi A' ⟨it, cs, rs, lo, hi, o, r.1, r.2.1, r.2.2⟩ := by
  intro r
  obtain ⟨d1, d2, _, d4⟩ := decompose_band tiny ht hle hlo hhi hhi2 Q β0 1 h2
  have hb : ∀ j, j < rs → r.2.1 j = beff lo r.2.1 j := by
    intro j hj
    unfold beff
    by_cases h : lo = 0
    · rw [if_pos h]; exact d4 h j hj
    · rw [if_neg h]
  have hm : msk cs rs lo hi Q = msk cs rs lo ahi A' := by
    funext p c
    by_cases h3 : p < cs ∧ c < rs ∧ p ≤ c + lo ∧ c ≤ p + ahi
    · rw [msk_in _ (by omega), msk_in _ h3, h1 p c h3.1 h3.2.1 h3.2.2.1 h3.2.2.2]
    · rw [msk_out (hi := ahi) _ h3]
      by_cases h4 : p < cs ∧ c < rs ∧ p ≤ c + lo ∧ c ≤ p + hi
      · rw [msk_in _ h4, h2 p c h4.1 h4.2.1 (by omega) h4.2.2.2]
      · rw [msk_out _ h4]
  rw [hm] at d1
  refine ⟨hle, hlo, hhi, rfl, hah, d1.congr fun j _ hj => hb j (by omega), ?_⟩
  show r.2.2 = _
  rw [d2, one_mul]
  exact Finset.prod_congr rfl fun k hk => by rw [hb k (Finset.mem_range.mp hk)]

theorem copy_made (tiny : ℝ) (ht : 0 < tiny) {cs rs ahi : Nat} (hle : rs ≤ cs) (hah : ahi < rs) (A' : Nat → Nat → K) (β0 : Nat → K)
    (it : Bool) (o : Ord) : Made tiny 0 ahi A' ⟨it, cs, rs, 0, ahi, o, A', β0, 1⟩ := by
  have h := decompose_made tiny ht (lo := 0) (hi := ahi) hle (by omega) hah le_rfl (.inl rfl) A' A' β0 (fun _ _ _ _ _ _ => rfl)
    (fun p c _ _ h3 h4 => by omega) it o
  have hb : beff 0 (decompose tiny cs rs 0 ahi A' β0 1).2.1 = beff 0 β0 := by funext j; simp [beff]
  have hs := h.spec
  have hd := h.det
  simp only [hb] at hs hd
  exact ⟨h.le, h.lo_lt, h.hi_lt, rfl, le_rfl, hs, hd⟩

/-- The constructor transposes iff the matrix is wide, or square with fewer superdiagonals, or square, row-major with as many. -/
theorem make_made (tiny : ℝ) (ht : 0 < tiny) (oA : Ord) (M N lo hi : Nat) (hlo : lo < M) (hhi : hi < N) (A mem : Nat → Nat → K)
    (β0 : Nat → K) (F : Fac K) (hF : F = Fac.make tiny oA M N lo hi A mem β0) :
    (F.istrans = true ∧ M ≤ N ∧ F.cs = N ∧ F.rs = M ∧ Made tiny hi lo (trM A) F) ∨
    (F.istrans = false ∧ N ≤ M ∧ F.cs = M ∧ F.rs = N ∧ Made tiny lo hi A F) := by
  unfold Fac.make at hF
  by_cases hT : M < N ∨ (M = N ∧ hi < lo) ∨ (M = N ∧ hi = lo ∧ oA = .rm)
  · left
    have hMN : M ≤ N := by rcases hT with h | h | h <;> omega
    rw [decide_eq_true hT] at hF
    simp only [if_true] at hF
    by_cases h0 : hi = 0
    · rw [if_pos h0] at hF
      subst h0
      rw [hF]
      exact ⟨rfl, hMN, rfl, rfl, copy_made tiny ht hMN hlo _ _ _ _⟩
    · rw [if_neg h0] at hF
      rw [hF]
      refine ⟨rfl, hMN, rfl, rfl, decompose_made tiny ht hMN hhi (by omega) (by omega) (by omega) _ _ β0 ?_ ?_ _ _⟩
      · intro p c h1 h2 h3 h4
        split
        · dsimp only; rw [if_neg (by omega), if_pos ⟨h1, h2, h3, h4⟩]
        · dsimp only; rw [if_pos ⟨h1, h2, h3, h4⟩]
      · intro p c h1 h2 h3 h4
        rw [if_pos (show _ > _ by omega)]
        exact if_pos ⟨h1, h2, h3, h4⟩
  · right
    have hMN : N ≤ M := by omega
    rw [decide_eq_false hT] at hF
    simp only [Bool.false_eq_true, if_false] at hF
    by_cases h0 : lo = 0
    · rw [if_pos h0] at hF
      subst h0
      rw [hF]
      exact ⟨rfl, hMN, rfl, rfl, copy_made tiny ht hMN hhi _ _ _ _⟩
    · rw [if_neg h0] at hF
      rw [hF]
      refine ⟨rfl, hMN, rfl, rfl, decompose_made tiny ht hMN hlo (by omega) (by omega) (by omega) _ _ β0 ?_ ?_ _ _⟩
      · intro p c h1 h2 h3 h4
        split
        · dsimp only; rw [if_neg (by omega), if_pos ⟨h1, h2, h3, h4⟩]
        · dsimp only; rw [if_pos ⟨h1, h2, h3, h4⟩]
      · intro p c h1 h2 h3 h4
        rw [if_pos (show _ > _ by omega)]
        exact if_pos ⟨h1, h2, h3, h4⟩

theorem _root_.TMV.QR.Fact.congrB {M N : Nat} {V : Nat → Nat → K} {β : Nat → K} {B B' : Nat → Nat → K} (h : Fact M N V β B)
    (hB : ∀ p c, p < M → c < N → B p c = B' p c) : Fact M N V β B' where
  le := h.le
  valid := h.valid
  col := fun c hc p hp => by
    rw [← h.col c hc p hp]
    exact hs_ext N (fun q hq => (hB q c hq hc).symm) p hp

theorem Made.fact {tiny : ℝ} {lo ahi : Nat} {A' : Nat → Nat → K} {F : Fac K} (h : Made tiny lo ahi A' F) :
    ∃ E, Small tiny F.cs F.rs (fun c => F.QRx c c) E ∧
      Fact F.cs F.rs (msk F.cs F.rs F.lo F.hi F.QRx) (beff F.lo F.beta) fun p c => bandMat lo ahi A' p c + E p c := by
  obtain ⟨E, e1, e2⟩ := QRSpec.fact h.le h.spec
  refine ⟨E, ⟨e1.1, fun c hc hd => e1.2 c hc ?_⟩, e2.congrB fun p c hp hc => ?_⟩
  · have := h.le
    show msk F.cs F.rs F.lo F.hi F.QRx c c ≠ 0
    rw [msk_in _ (by omega)]; exact hd
  · rw [msk_band _ hp hc]

theorem fac_det (F : Fac K) : F.det = F.signdet * ∏ i ∈ Finset.range F.rs, F.QRx i i := by
  obtain ⟨l1, l2⟩ := LU.logDetLoop_spec (fun i => F.QRx i i) F.rs 0 (0, 1)
  unfold Fac.det Fac.logDet
  by_cases hz : ∃ k < F.rs, F.QRx k k = 0
  · have h0 : (LU.logDetLoop (fun i => F.QRx i i) F.rs 0 (0, 1)).2 = 0 := l1.mpr (.inr (by simpa using hz))
    dsimp only
    rw [h0, mul_zero, if_pos rfl]
    obtain ⟨k, hk, hk0⟩ := hz
    rw [Finset.prod_eq_zero (f := fun i => F.QRx i i) (Finset.mem_range.mpr hk) hk0, mul_zero]
  · push Not at hz
    have := l2 (by simpa using hz)
    simp only [Nat.zero_add, Real.exp_zero, RCLike.ofReal_one, one_mul] at this
    dsimp only
    by_cases h0 : F.signdet * (LU.logDetLoop (fun i => F.QRx i i) F.rs 0 (0, 1)).2 = 0
    · rw [if_pos h0, ← this, ← mul_assoc, h0, zero_mul]
    · rw [if_neg h0, mul_assoc, this]

theorem Made.detB {tiny : ℝ} {lo ahi : Nat} {A' : Nat → Nat → K} {F : Fac K} (h : Made tiny lo ahi A' F) (hsq : F.cs = F.rs)
    {B : Nat → Nat → K} (hf : Fact F.cs F.rs (msk F.cs F.rs F.lo F.hi F.QRx) (beff F.lo F.beta) B) :
    F.det = (Matrix.of fun i j : Fin F.rs => B i j).det := by
  have hf' : Fact F.rs F.rs (msk F.cs F.rs F.lo F.hi F.QRx) (beff F.lo F.beta) B := by
    have := hf; rw [hsq] at this ⊢; exact this
  rw [fac_det, h.det]
  have := hf'.det
  rw [show (Matrix.of fun i j : Fin F.rs => B i j) = LU.toM F.rs B from rfl, this]
  congr 1
  refine Finset.prod_congr rfl fun i hi => ?_
  have := h.le
  rw [Finset.mem_range] at hi
  rw [msk_in _ (by omega)]

/-! ### C96 -/

/-- **C96** (`M > N`): with `F = BandQRDiv(A)` there is an `E` below the underflow threshold (zero if no diagonal element of `R` is zero)
such that for `B = A + E` (`A` meaning the band matrix): `m/A` is the least-squares solution of `B x = m`; `m%A` solves `x B = m` with
minimal norm; the inverse is the pseudo-inverse of `B`, refused exactly if `R` has a zero on the diagonal.  Division raises nothing unless
`R` has a zero on the diagonal.  Nothing but the destination changes. -/
theorem bandQRDiv_tall (tiny : ℝ) (ht : 0 < tiny) {ib mb mb2 : Nat} (hib : 0 < ib) (hmb : 0 < mb) (hmb2 : 0 < mb2) (oA : Ord)
    (M N lo hi : Nat) (hNM : N < M) (hlo : lo < M) (hhi : hi < N) (A mem : Nat → Nat → K) (β0 : Nat → K) (F : Fac K)
    (hF : F = Fac.make tiny oA M N lo hi A mem β0) :
    ∃ E B : Nat → Nat → K, Small tiny M N (fun c => F.QRx c c) E ∧ (∀ p c, B p c = bandMat lo hi A p c + E p c) ∧
    (∀ brm nc m x, ((∀ i, i < N → F.QRx i i ≠ 0) → (F.lDiv brm nc m x).isSome) ∧
      ∀ X, F.lDiv brm nc m x = some X →
        (∀ c, c < nc → ∀ z : Nat → K, ∑ p ∈ Finset.range M, ‖∑ l ∈ Finset.range N, B p l * X l c - m p c‖ ^ 2 ≤
          ∑ p ∈ Finset.range M, ‖∑ l ∈ Finset.range N, B p l * z l - m p c‖ ^ 2) ∧
        ∀ a c, ¬ (a < N ∧ c < nc) → X a c = x a c) ∧
    (∀ bcm nr m x, ((∀ i, i < N → F.QRx i i ≠ 0) → (F.rDiv bcm nr m x).isSome) ∧
      ∀ X, F.rDiv bcm nr m x = some X →
        (∀ a, a < nr → ∀ c, c < N → ∑ p ∈ Finset.range M, X a p * B p c = m a c) ∧
        ((∀ i, i < N → F.QRx i i ≠ 0) → ∀ a, a < nr → ∀ z : Nat → K, (∀ c, c < N → ∑ p ∈ Finset.range M, z p * B p c = m a c) →
          ∑ p ∈ Finset.range M, ‖X a p‖ ^ 2 ≤ ∑ p ∈ Finset.range M, ‖z p‖ ^ 2) ∧
        ∀ a p, ¬ (a < nr ∧ p < M) → X a p = x a p) ∧
    (∀ o crm st minv, (F.inverse ib mb mb2 o crm st minv = none ↔ ∃ i < N, F.QRx i i = 0) ∧
      ∀ X, F.inverse ib mb mb2 o crm st minv = some X →
        (∀ a c, a < N → c < N → ∑ p ∈ Finset.range M, X a p * B p c = if a = c then 1 else 0) ∧
        (∀ p q, p < M → q < M → ∑ c ∈ Finset.range N, B p c * X c q = star (∑ c ∈ Finset.range N, B q c * X c p)) ∧
        ∀ a p, ¬ (a < N ∧ p < M) → X a p = minv a p) := by
  rcases make_made tiny ht oA M N lo hi hlo hhi A mem β0 F hF with h | h
  · omega
  obtain ⟨hi1, _, h3, h4, hm⟩ := h
  obtain ⟨E, e1, e2⟩ := hm.fact
  have hl := hm.lo_lt
  have hh := hm.hi_lt
  unfold Fac.lDiv Fac.rDiv Fac.inverse
  rw [hi1]
  simp only [Bool.false_eq_true, if_false]
  rw [h3, h4] at *
  refine ⟨E, fun p c => bandMat lo hi A p c + E p c, e1, fun _ _ => rfl, ?_, ?_, ?_⟩
  · intro brm nc m x
    obtain ⟨a1, a2⟩ := qrLDiv_spec e2 hl hh F.o brm nc m x
    exact ⟨a1, fun X hX => ⟨(a2 X hX).1, (a2 X hX).2.2⟩⟩
  · intro bcm nr m x
    exact qrRDiv_spec e2 hl hh F.o bcm nr m x
  · intro o crm st minv
    exact qrInverse_spec e2 hl hh hib hmb hmb2 o crm st minv

/-- **C96** (`M < N`): the same for a wide matrix, which is decomposed through its transpose. -/
theorem bandQRDiv_wide (tiny : ℝ) (ht : 0 < tiny) {ib mb mb2 : Nat} (hib : 0 < ib) (hmb : 0 < mb) (hmb2 : 0 < mb2) (oA : Ord)
    (M N lo hi : Nat) (hMN : M < N) (hlo : lo < M) (hhi : hi < N) (A mem : Nat → Nat → K) (β0 : Nat → K) (F : Fac K)
    (hF : F = Fac.make tiny oA M N lo hi A mem β0) :
    ∃ E B : Nat → Nat → K, Small tiny N M (fun c => F.QRx c c) (fun i j => E j i) ∧ (∀ p c, B p c = bandMat lo hi A p c + E p c) ∧
    (∀ brm nc m x, ((∀ i, i < M → F.QRx i i ≠ 0) → (F.lDiv brm nc m x).isSome) ∧
      ∀ X, F.lDiv brm nc m x = some X →
        (∀ c, c < nc → ∀ p, p < M → ∑ l ∈ Finset.range N, B p l * X l c = m p c) ∧
        ((∀ i, i < M → F.QRx i i ≠ 0) → ∀ c, c < nc → ∀ z : Nat → K, (∀ p, p < M → ∑ l ∈ Finset.range N, B p l * z l = m p c) →
          ∑ l ∈ Finset.range N, ‖X l c‖ ^ 2 ≤ ∑ l ∈ Finset.range N, ‖z l‖ ^ 2) ∧
        ∀ a c, ¬ (a < N ∧ c < nc) → X a c = x a c) ∧
    (∀ bcm nr m x, ((∀ i, i < M → F.QRx i i ≠ 0) → (F.rDiv bcm nr m x).isSome) ∧
      ∀ X, F.rDiv bcm nr m x = some X →
        (∀ a, a < nr → ∀ z : Nat → K, ∑ c ∈ Finset.range N, ‖∑ p ∈ Finset.range M, X a p * B p c - m a c‖ ^ 2 ≤
          ∑ c ∈ Finset.range N, ‖∑ p ∈ Finset.range M, z p * B p c - m a c‖ ^ 2) ∧
        ∀ a p, ¬ (a < nr ∧ p < M) → X a p = x a p) ∧
    (∀ o crm st minv, (F.inverse ib mb mb2 o crm st minv = none ↔ ∃ i < M, F.QRx i i = 0) ∧
      ∀ X, F.inverse ib mb mb2 o crm st minv = some X →
        (∀ a c, a < M → c < M → ∑ p ∈ Finset.range N, B a p * X p c = if a = c then 1 else 0) ∧
        (∀ p q, p < N → q < N → ∑ c ∈ Finset.range M, X p c * B c q = star (∑ c ∈ Finset.range M, X q c * B c p)) ∧
        ∀ a p, ¬ (a < N ∧ p < M) → X a p = minv a p) := by
  rcases make_made tiny ht oA M N lo hi hlo hhi A mem β0 F hF with h | h
  swap
  · omega
  obtain ⟨hi1, _, h3, h4, hm⟩ := h
  obtain ⟨E, e1, e2⟩ := hm.fact
  have hl := hm.lo_lt
  have hh := hm.hi_lt
  have hAt : ∀ p c, bandMat hi lo (trM A) p c = bandMat lo hi A c p := by
    intro p c
    unfold bandMat trM
    simp only [and_comm]
  have e2 := e2.congrB (B' := fun p c => bandMat lo hi A c p + E p c) fun p c _ _ => by rw [hAt]
  unfold Fac.lDiv Fac.rDiv Fac.inverse
  rw [hi1]
  simp only [if_true]
  rw [h3, h4] at *
  refine ⟨fun i j => E j i, fun p c => bandMat lo hi A p c + E c p, e1, fun _ _ => rfl, ?_, ?_, ?_⟩
  · intro brm nc m x
    obtain ⟨a1, a2⟩ := qrRDiv_spec e2 hl hh F.o brm nc (trM m) (trM x)
    refine ⟨fun hd => by rw [Option.isSome_map]; exact a1 hd, ?_⟩
    intro X hX
    obtain ⟨Y, hY, rfl⟩ := Option.map_eq_some_iff.mp hX
    obtain ⟨b1, b2, b3⟩ := a2 Y hY
    refine ⟨?_, ?_, ?_⟩
    · intro c hc p hp
      rw [show m p c = trM m c p from rfl, ← b1 c hc p hp]
      exact Finset.sum_congr rfl fun l _ => mul_comm _ _
    · intro hd c hc z hz
      refine b2 hd c hc z fun p hp => ?_
      rw [show trM m c p = m p c from rfl, ← hz p hp]
      exact Finset.sum_congr rfl fun l _ => mul_comm _ _
    · intro a c hac
      exact b3 c a fun hh => hac ⟨hh.2, hh.1⟩
  · intro brm nr m x
    obtain ⟨a1, a2⟩ := qrLDiv_spec e2 hl hh F.o brm nr (trM m) (trM x)
    refine ⟨fun hd => by rw [Option.isSome_map]; exact a1 hd, ?_⟩
    intro X hX
    obtain ⟨Y, hY, rfl⟩ := Option.map_eq_some_iff.mp hX
    obtain ⟨b1, _, b3⟩ := a2 Y hY
    refine ⟨?_, ?_⟩
    · intro a ha z
      have := b1 a ha z
      simpa only [trM, mul_comm] using this
    · intro a p hap
      exact b3 p a fun hh => hap ⟨hh.2, hh.1⟩
  · intro o crm st minv
    obtain ⟨a1, a2⟩ := qrInverse_spec e2 hl hh hib hmb hmb2 o crm st (trM minv)
    refine ⟨by rw [Option.map_eq_none_iff]; exact a1, ?_⟩
    intro X hX
    obtain ⟨Y, hY, rfl⟩ := Option.map_eq_some_iff.mp hX
    obtain ⟨b1, b2, b3⟩ := a2 Y hY
    refine ⟨?_, ?_, ?_⟩
    · intro a c ha hc
      have := b1 c a hc ha
      rw [show (if a = c then (1:K) else 0) = if c = a then 1 else 0 by simp only [eq_comm], ← this]
      exact Finset.sum_congr rfl fun l _ => mul_comm _ _
    · intro p q hp hq
      have := b2 q p hq hp
      simpa only [trM, mul_comm] using this
    · intro a p hap
      exact b3 p a fun hh => hap ⟨hh.2, hh.1⟩

/-- A left inverse of a square matrix is a right inverse. -/
theorem inv_comm {N : Nat} {X B : Nat → Nat → K}
    (h : ∀ a c, a < N → c < N → ∑ p ∈ Finset.range N, X a p * B p c = if a = c then 1 else 0) :
    ∀ a c, a < N → c < N → ∑ p ∈ Finset.range N, B a p * X p c = if a = c then 1 else 0 := by
  have hm : LU.toM N X * LU.toM N B = 1 := by
    ext i j
    rw [Matrix.mul_apply, Matrix.one_apply]
    have := h i j i.2 j.2
    rw [Finset.sum_range] at this
    simp only [LU.toM, Matrix.of_apply]
    rw [this]
    simp [Fin.ext_iff]
  have hm2 := mul_eq_one_comm.mp hm
  intro i j hi hj
  have := congrFun (congrFun hm2 ⟨i, hi⟩) ⟨j, hj⟩
  rw [Matrix.mul_apply, Matrix.one_apply] at this
  simp only [LU.toM, Matrix.of_apply, Fin.mk.injEq] at this
  rw [Finset.sum_range, this]

/-- **C96** (`M = N`), whichever of `A` and its transpose is decomposed: for some `E` below the underflow threshold, zero if no diagonal
element of `R` is zero, and `B = A + E`: `m/A` solves `B x = m`, `m%A` solves `x B = m`, the inverse is the two-sided inverse of `B`
(refused exactly if `R` has a zero on the diagonal), the determinant is that of `B`. -/
theorem bandQRDiv_square (tiny : ℝ) (ht : 0 < tiny) {ib mb mb2 : Nat} (hib : 0 < ib) (hmb : 0 < mb) (hmb2 : 0 < mb2) (oA : Ord)
    (N lo hi : Nat) (hlo : lo < N) (hhi : hi < N) (A mem : Nat → Nat → K) (β0 : Nat → K) (F : Fac K)
    (hF : F = Fac.make tiny oA N N lo hi A mem β0) :
    ∃ E B : Nat → Nat → K, (Small tiny N N (fun c => F.QRx c c) E ∨ Small tiny N N (fun c => F.QRx c c) fun i j => E j i) ∧
    (∀ p c, B p c = bandMat lo hi A p c + E p c) ∧
    (∀ brm nc m x, ((∀ i, i < N → F.QRx i i ≠ 0) → (F.lDiv brm nc m x).isSome) ∧
      ∀ X, F.lDiv brm nc m x = some X →
        (∀ c, c < nc → ∀ p, p < N → ∑ l ∈ Finset.range N, B p l * X l c = m p c) ∧
        ∀ a c, ¬ (a < N ∧ c < nc) → X a c = x a c) ∧
    (∀ bcm nr m x, ((∀ i, i < N → F.QRx i i ≠ 0) → (F.rDiv bcm nr m x).isSome) ∧
      ∀ X, F.rDiv bcm nr m x = some X →
        (∀ a, a < nr → ∀ c, c < N → ∑ p ∈ Finset.range N, X a p * B p c = m a c) ∧
        ∀ a p, ¬ (a < nr ∧ p < N) → X a p = x a p) ∧
    (∀ o crm st minv, (F.inverse ib mb mb2 o crm st minv = none ↔ ∃ i < N, F.QRx i i = 0) ∧
      ∀ X, F.inverse ib mb mb2 o crm st minv = some X →
        (∀ a c, a < N → c < N → ∑ p ∈ Finset.range N, X a p * B p c = if a = c then 1 else 0) ∧
        (∀ a c, a < N → c < N → ∑ p ∈ Finset.range N, B a p * X p c = if a = c then 1 else 0) ∧
        ∀ a p, ¬ (a < N ∧ p < N) → X a p = minv a p) ∧
    F.det = (Matrix.of fun i j : Fin N => B i j).det := by
  rcases make_made tiny ht oA N N lo hi hlo hhi A mem β0 F hF with h | h
  · obtain ⟨hi1, _, h3, h4, hm⟩ := h
    obtain ⟨E, e1, e2⟩ := hm.fact
    have hl := hm.lo_lt
    have hh := hm.hi_lt
    have hAt : ∀ p c, bandMat hi lo (trM A) p c = bandMat lo hi A c p := by
      intro p c
      unfold bandMat trM
      simp only [and_comm]
    have e2 := e2.congrB (B' := fun p c => bandMat lo hi A c p + E p c) fun p c _ _ => by rw [hAt]
    have hdet := hm.detB (by rw [h3, h4]) e2
    unfold Fac.lDiv Fac.rDiv Fac.inverse
    rw [hi1]
    simp only [if_true]
    rw [h3, h4] at e1 e2
    rw [h3] at hl
    rw [h4] at hh
    rw [h3, h4]
    refine ⟨fun i j => E j i, fun p c => bandMat lo hi A p c + E c p, .inr e1, fun _ _ => rfl, ?_, ?_, ?_, ?_⟩
    · intro brm nc m x
      obtain ⟨a1, a2⟩ := qrRDiv_spec e2 hl hh F.o brm nc (trM m) (trM x)
      refine ⟨fun hd => by rw [Option.isSome_map]; exact a1 hd, ?_⟩
      intro X hX
      obtain ⟨Y, hY, rfl⟩ := Option.map_eq_some_iff.mp hX
      obtain ⟨b1, _, b3⟩ := a2 Y hY
      refine ⟨?_, ?_⟩
      · intro c hc p hp
        rw [show m p c = trM m c p from rfl, ← b1 c hc p hp]
        exact Finset.sum_congr rfl fun l _ => mul_comm _ _
      · intro a c hac
        exact b3 c a fun hh => hac ⟨hh.2, hh.1⟩
    · intro brm nr m x
      obtain ⟨a1, a2⟩ := qrLDiv_spec e2 hl hh F.o brm nr (trM m) (trM x)
      refine ⟨fun hd => by rw [Option.isSome_map]; exact a1 hd, ?_⟩
      intro X hX
      obtain ⟨Y, hY, rfl⟩ := Option.map_eq_some_iff.mp hX
      obtain ⟨_, b2, b3⟩ := a2 Y hY
      refine ⟨?_, ?_⟩
      · intro a ha c hc
        rw [show m a c = trM m c a from rfl, ← b2 rfl a ha c hc]
        exact Finset.sum_congr rfl fun l _ => mul_comm _ _
      · intro a p hap
        exact b3 p a fun hh => hap ⟨hh.2, hh.1⟩
    · intro o crm st minv
      obtain ⟨a1, a2⟩ := qrInverse_spec e2 hl hh hib hmb hmb2 o crm st (trM minv)
      refine ⟨by rw [Option.map_eq_none_iff]; exact a1, ?_⟩
      intro X hX
      obtain ⟨Y, hY, rfl⟩ := Option.map_eq_some_iff.mp hX
      obtain ⟨b1, _, b3⟩ := a2 Y hY
      have hr : ∀ a c, a < N → c < N → ∑ p ∈ Finset.range N, (bandMat lo hi A a p + E p a) * trM Y p c = if a = c then 1 else 0 := by
        intro a c ha hc
        have := b1 c a hc ha
        rw [show (if a = c then (1:K) else 0) = if c = a then 1 else 0 by simp only [eq_comm], ← this]
        exact Finset.sum_congr rfl fun l _ => mul_comm _ _
      refine ⟨inv_comm (X := fun a p => bandMat lo hi A a p + E p a) hr, hr, ?_⟩
      intro a p hap
      exact b3 p a fun hh => hap ⟨hh.2, hh.1⟩
    · rw [hdet, ← Matrix.det_transpose]
      subst h4
      rfl
  · obtain ⟨hi1, _, h3, h4, hm⟩ := h
    obtain ⟨E, e1, e2⟩ := hm.fact
    have hl := hm.lo_lt
    have hh := hm.hi_lt
    have hdet := hm.detB (by rw [h3, h4]) e2
    unfold Fac.lDiv Fac.rDiv Fac.inverse
    rw [hi1]
    simp only [Bool.false_eq_true, if_false]
    rw [h3, h4] at e1 e2
    rw [h3] at hl
    rw [h4] at hh
    rw [h3, h4]
    refine ⟨E, fun p c => bandMat lo hi A p c + E p c, .inl e1, fun _ _ => rfl, ?_, ?_, ?_, ?_⟩
    · intro brm nc m x
      obtain ⟨a1, a2⟩ := qrLDiv_spec e2 hl hh F.o brm nc m x
      exact ⟨a1, fun X hX => ⟨(a2 X hX).2.1 rfl, (a2 X hX).2.2⟩⟩
    · intro bcm nr m x
      obtain ⟨a1, a2⟩ := qrRDiv_spec e2 hl hh F.o bcm nr m x
      exact ⟨a1, fun X hX => ⟨(a2 X hX).1, (a2 X hX).2.2⟩⟩
    · intro o crm st minv
      obtain ⟨a1, a2⟩ := qrInverse_spec e2 hl hh hib hmb hmb2 o crm st minv
      exact ⟨a1, fun X hX => ⟨(a2 X hX).1, inv_comm (a2 X hX).1, (a2 X hX).2.2⟩⟩
    · rw [hdet]
      subst h4
      rfl

/-- **C96** `getQ()`, `getR()`: `Q` has orthonormal columns, `R` is upper triangular with the bandwidth of the decomposition, and `Q R` is
`A` (or its transpose, if `isTrans()`) up to an `E` below the underflow threshold. -/
theorem bandQRDiv_getQR (tiny : ℝ) (ht : 0 < tiny) (oA : Ord) (M N lo hi : Nat) (hlo : lo < M) (hhi : hi < N) (A mem temp : Nat → Nat → K)
    (β0 : Nat → K) (F : Fac K) (hF : F = Fac.make tiny oA M N lo hi A mem β0) :
    (∀ k l, k < F.rs → l < F.rs → ∑ p ∈ Finset.range F.cs, star (F.getQ temp p k) * F.getQ temp p l = if k = l then 1 else 0) ∧
    (∀ i j, j < i ∨ i + F.hi < j → F.getR i j = 0) ∧
    ∃ E : Nat → Nat → K, Small tiny F.cs F.rs (fun c => F.getR c c) E ∧ ∀ i c, i < F.cs → c < F.rs →
      (if F.istrans then bandMat lo hi A c i else bandMat lo hi A i c) + E i c = ∑ k ∈ Finset.range F.rs, F.getQ temp i k * F.getR k c := by
  have key : ∀ l a A', Made tiny l a A' F →
      (∀ k l, k < F.rs → l < F.rs → ∑ p ∈ Finset.range F.cs, star (F.getQ temp p k) * F.getQ temp p l = if k = l then 1 else 0) ∧
      (∀ i j, j < i ∨ i + F.hi < j → F.getR i j = 0) ∧
      ∃ E : Nat → Nat → K, Small tiny F.cs F.rs (fun c => F.getR c c) E ∧ ∀ i c, i < F.cs → c < F.rs →
        bandMat l a A' i c + E i c = ∑ k ∈ Finset.range F.rs, F.getQ temp i k * F.getR k c := by
    intro l a A' hm
    have hle := hm.le
    have hll := hm.lo_eq
    have hhl := hm.hi_le
    refine ⟨?_, fun i j hij => by rw [Fac.getR, bandMat, if_neg (by omega)], ?_⟩
    all_goals
      simp only [Fac.getQ, Fac.getR]
    · by_cases h0 : F.lo = 0
      · rw [if_pos h0]
        intro k j hk hj
        rw [Finset.sum_eq_single k]
        · rw [if_pos (by omega), if_pos rfl, if_pos (by omega), star_one, one_mul]
        · intro p hp hpk
          rw [Finset.mem_range] at hp
          rw [if_pos (by omega), if_neg hpk, star_zero, zero_mul]
        · intro hn; exact absurd (Finset.mem_range.mpr (by omega)) hn
      · rw [if_neg h0]
        have hsp := hm.spec
        have hb : beff F.lo F.beta = F.beta := by funext j; exact if_neg h0
        rw [hb] at hsp
        refine (QRSpec.q_spec (tiny := tiny) (A := msk F.cs F.rs l a A') (hi := F.hi) hle ?_ ?_).1
        · have hmt : (msk F.cs F.rs F.lo F.hi fun i j => if i < F.cs ∧ j < F.rs then bandMat F.lo F.hi F.QRx i j else temp i j) =
              msk F.cs F.rs F.lo F.hi F.QRx := by
            funext p c
            by_cases h1 : p < F.cs ∧ c < F.rs ∧ p ≤ c + F.lo ∧ c ≤ p + F.hi
            · rw [msk_in _ h1, msk_in _ h1, if_pos ⟨h1.1, h1.2.1⟩, bandMat, if_pos h1.2.2]
            · rw [msk_out _ h1, msk_out _ h1]
          rw [hmt, hll, msk_msk hhl, ← hll]
          rw [← hll] at hsp; exact hsp
        · intro k hk p h1 h2
          rw [if_pos ⟨h2, hk⟩, bandMat, if_neg (by omega)]
    · by_cases h0 : F.lo = 0
      · rw [if_pos h0]
        obtain ⟨E, e1, e2⟩ := hm.fact
        have hbz : ∀ j, 0 ≤ j → j < 0 + F.rs → beff F.lo F.beta j = 0 := fun j _ _ => if_pos h0
        refine ⟨E, ⟨e1.1, fun c hc hd => e1.2 c hc ?_⟩, ?_⟩
        · dsimp only at hd
          rw [bandMat, if_pos (by omega)] at hd
          exact hd
        intro i c h1 h2
        have := e2.col c h2 i h1
        rw [hs_beta_zero _ _ _ _ _ hbz] at this
        rw [this]
        by_cases h3 : i < F.rs
        · rw [upper_msk hle _ h3 h2, Finset.sum_eq_single i]
          · rw [if_pos (by omega), if_pos rfl, one_mul]
          · intro k hk hki
            rw [Finset.mem_range] at hk
            rw [if_pos (by omega), if_neg (Ne.symm hki), zero_mul]
          · intro hn; exact absurd (Finset.mem_range.mpr h3) hn
        · rw [Finset.sum_eq_zero]
          · simp [upperMat, show ¬ i < c by omega, show ¬ i = c by omega]
          · intro k hk
            rw [Finset.mem_range] at hk
            rw [if_pos (by omega), if_neg (by omega), zero_mul]
      · rw [if_neg h0]
        have hsp := hm.spec
        have hb : beff F.lo F.beta = F.beta := by funext j; exact if_neg h0
        rw [hb] at hsp
        obtain ⟨temp', htemp'⟩ : ∃ temp' : Nat → Nat → K, temp' =
          fun i j => if i < F.cs ∧ j < F.rs then bandMat F.lo F.hi F.QRx i j else temp i j := ⟨_, rfl⟩
        rw [← htemp']
        have hmt : msk F.cs F.rs F.lo F.hi temp' = msk F.cs F.rs F.lo F.hi F.QRx := by
          rw [htemp']
          funext p c
          by_cases h1 : p < F.cs ∧ c < F.rs ∧ p ≤ c + F.lo ∧ c ≤ p + F.hi
          · rw [msk_in _ h1, msk_in _ h1, if_pos ⟨h1.1, h1.2.1⟩, bandMat, if_pos h1.2.2]
          · rw [msk_out _ h1, msk_out _ h1]
        have hbt : ∀ k c, k < F.rs → c < F.rs → bandMat 0 F.hi temp' k c = bandMat 0 F.hi F.QRx k c := by
          intro k c h1 h2
          unfold bandMat
          by_cases h3 : k ≤ c + 0 ∧ c ≤ k + F.hi
          · rw [if_pos h3, if_pos h3, htemp']
            dsimp only
            rw [if_pos (by omega), bandMat, if_pos (by omega)]
          · rw [if_neg h3, if_neg h3]
        obtain ⟨_, ⟨E, e1, e2⟩, _⟩ := QRSpec.q_spec (tiny := tiny) (A := msk F.cs F.rs l a A') (V := temp') (lo := F.lo) (hi := F.hi)
          (β := F.beta) hle (by rw [hmt, hll, msk_msk hhl, ← hll]; rw [← hll] at hsp; exact hsp) (by
            intro k hk p h1 h2
            rw [htemp']
            dsimp only
            rw [if_pos ⟨h2, hk⟩, bandMat, if_neg (by omega)])
        refine ⟨E, ⟨e1.1, fun c hc hd => e1.2 c hc ?_⟩, ?_⟩
        · dsimp only at hd ⊢
          rw [← hbt c c hc hc, bandMat, if_pos (by omega)] at hd
          exact hd
        · intro i c h1 h2
          have h3 : bandMat F.lo F.hi (msk F.cs F.rs l a A') i c = bandMat l a A' i c := by
            rw [← msk_band (M := F.cs) (N := F.rs) _ h1 h2, hll, msk_msk hhl, msk_band _ h1 h2]
          rw [← h3, e2 i c h1 h2]
          refine Finset.sum_congr rfl fun k hk => ?_
          rw [hbt k c (Finset.mem_range.mp hk) h2]
  rcases make_made tiny ht oA M N lo hi hlo hhi A mem β0 F hF with h | h
  · obtain ⟨hi1, _, _, _, hm⟩ := h
    obtain ⟨k1, k2, E, k3, k4⟩ := key _ _ _ hm
    refine ⟨k1, k2, E, k3, fun i c h1 h2 => ?_⟩
    rw [← k4 i c h1 h2, hi1, if_pos rfl]
    congr 1
    unfold bandMat trM
    simp only [and_comm]
  · obtain ⟨hi1, _, _, _, hm⟩ := h
    obtain ⟨k1, k2, E, k3, k4⟩ := key _ _ _ hm
    refine ⟨k1, k2, E, k3, fun i c h1 h2 => ?_⟩
    rw [← k4 i c h1 h2, hi1, if_neg (by simp)]

end
end TMV.BandQR
