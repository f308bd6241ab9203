import Verif.Props.BandQR
import Verif.Props.QRSolve
import Verif.Props.BandLU

/-! C95, C96: QR decomposition of a band matrix and division by it. -/
namespace TMV.BandQR
noncomputable section
open Classical TMV.Tri TMV.QR

variable {K : Type} [RCLike K]

/-- The band matrix that the element function `V` stands for, zero outside. -/
def msk (M N lo hi : Nat) (V : Nat → Nat → K) : Nat → Nat → K :=
  fun p c => if p < M ∧ c < N ∧ p ≤ c + lo ∧ c ≤ p + hi then V p c else 0

theorem msk_in {M N lo hi p c : Nat} (V : Nat → Nat → K) (h : p < M ∧ c < N ∧ p ≤ c + lo ∧ c ≤ p + hi) :
    msk M N lo hi V p c = V p c := if_pos h

theorem msk_out {M N lo hi p c : Nat} (V : Nat → Nat → K) (h : ¬ (p < M ∧ c < N ∧ p ≤ c + lo ∧ c ≤ p + hi)) :
    msk M N lo hi V p c = 0 := if_neg h

/-! ### The decomposition -/

theorem nonBlock_spec (tiny : ℝ) (ht : 0 < tiny) (M N : Nat) (hNM : N ≤ M) : ∀ (n j : Nat) (B : Nat → Nat → K) (β : Nat → K) (det : K),
    j + n = N → ∀ A0 det0, QRSpec tiny M 0 j N A0 B β → det = det0 * ∏ k ∈ Finset.range j, dfac (β k) →
    let s := nonBlock tiny M N n j B β det
    QRSpec tiny M 0 N N A0 s.1 s.2.1 ∧ s.2.2 = det0 * ∏ k ∈ Finset.range N, dfac (s.2.1 k) := by
  intro n
  induction n with
  | zero =>
    intro j B β det hj A0 det0 h hd
    obtain rfl : j = N := by omega
    exact ⟨h, hd⟩
  | succ n ih =>
    intro j B β det hj A0 det0 h hd
    obtain ⟨β2, hβ2⟩ : ∃ β2 : Nat → K, β2 = fun k => if k = j then (reflectMat tiny M N j B det).2.1 else β k := ⟨_, rfl⟩
    obtain ⟨r1, r2⟩ := reflectMat_spec tiny ht M N j (by omega) (by omega) B det β2 (by rw [hβ2]; simp)
    have h1 : QRSpec tiny M 0 j N A0 B β2 := h.congr fun k _ hk => by rw [hβ2]; simp only; rw [if_neg (by omega)]
    have h2 : QRSpec tiny M 0 (j+1) N A0 (reflectMat tiny M N j B det).1 β2 :=
      QRSpec.comp h1 (by rw [Nat.zero_add]; exact r1) (by omega)
    have := ih (j+1) _ β2 (reflectMat tiny M N j B det).2.2 (by omega) A0 det0 h2 (by
      rw [r2, hd, Finset.prod_range_succ, mul_assoc]
      congr 2
      refine Finset.prod_congr rfl fun k hk => ?_
      rw [Finset.mem_range] at hk
      rw [hβ2]; simp only; rw [if_neg (by omega)])
    rw [hβ2] at this
    exact this

theorem hs_beta_zero (M : Nat) (V : Nat → Nat → K) (β : Nat → K) (a n : Nat) (h : ∀ j, a ≤ j → j < a+n → β j = 0) (x : Nat → K) :
    hs M V β a n x = x := by
  induction n generalizing a x with
  | zero => rfl
  | succ n ih =>
    have h0 : hs M V β a n x = x := ih a (fun j h1 h2 => h j h1 (by omega)) x
    rw [hs, h0]
    funext p
    simp [H, h (a+n) (by omega) (by omega)]

theorem hsA_beta_zero (M : Nat) (V : Nat → Nat → K) (β : Nat → K) (a n : Nat) (h : ∀ j, a ≤ j → j < a+n → β j = 0) (x : Nat → K) :
    hsA M V β a n x = x := by
  induction n generalizing a x with
  | zero => rfl
  | succ n ih =>
    have h0 : H M V (a+n) (star (β (a+n))) x = x := by
      funext p
      simp [H, h (a+n) (by omega) (by omega)]
    rw [hsA, h0]
    exact ih a (fun j h1 h2 => h j h1 (by omega)) x

/-- `QR_Decompose(QRx,Qbeta,det)` of a band matrix with `lo` subdiagonals whose superdiagonals above `ahi` are zero and which has room
for `hi`. -/
theorem decompose_band (tiny : ℝ) (ht : 0 < tiny) {M N lo hi ahi : Nat} (hNM : N ≤ M) (hloM : lo < M) (hhiN : hi < N)
    (hhi : lo = 0 ∨ lo + ahi ≤ hi ∨ hi + 1 = N) (A : Nat → Nat → K) (β0 : Nat → K) (det : K)
    (hz : ∀ p c, p < M → c < N → p + ahi < c → c ≤ p + hi → A p c = 0) :
    let r := decompose tiny M N lo hi A β0 det
    QRSpec tiny M 0 N N (msk M N lo hi A) (msk M N lo hi r.1) r.2.1 ∧ r.2.2 = det * ∏ k ∈ Finset.range N, dfac (r.2.1 k) ∧
      (∀ p c, ¬ (p < M ∧ c < N ∧ p ≤ c + lo ∧ c ≤ p + hi) → r.1 p c = A p c) ∧ (lo = 0 → ∀ j, j < N → r.2.1 j = 0) := by
  intro r
  by_cases hlo : lo = 0
  · have hr : r = (A, fun j => if j < N then 0 else β0 j, det) := if_pos hlo
    have hb : ∀ j, j < N → r.2.1 j = 0 := fun j hj => by rw [hr]; exact if_pos hj
    rw [hr] at hb ⊢
    refine ⟨⟨?_, fun _ _ _ => rfl, ?_, ?_, ?_⟩, ?_, fun _ _ _ => rfl, fun _ => hb⟩
    · intro j _ hj
      unfold Valid
      rw [hb j (by omega)]; simp
    · intro c _ hc
      refine ⟨fun _ => 0, fun _ _ => rfl, ?_, fun _ => rfl, ?_⟩
      · rw [nsq_zero]; positivity
      · rw [hs_beta_zero _ _ _ _ _ fun j _ hj => hb j (by omega)]
        funext p
        rw [add_zero]
        split
        · exact msk_out _ (by omega)
        · rfl
    · intro j _ hj _ p h1 h2
      exact msk_out _ (by omega)
    · intro c h1 h2; omega
    · rw [Finset.prod_eq_one, mul_one]
      intro k hk
      rw [Finset.mem_range] at hk
      rw [hb k hk, dfac, if_pos rfl]
  · have hr : r = decLoop tiny M N N 0 (min (lo+1+0) M) (min (hi+1+0) N) A β0 det := by
      rw [show min (lo+1+0) M = lo+1 by omega, show min (hi+1+0) N = hi+1 by omega]
      exact if_neg hlo
    have hS : Shape M N lo hi ahi 0 (msk M N lo hi A) := by
      refine ⟨fun p c _ _ _ => msk_out _ (by omega), fun p c _ _ _ => msk_out _ (by omega), ?_, ?_⟩
      · intro p c h1 h2 h3 h4
        by_cases h5 : p ≤ c + lo ∧ c ≤ p + hi
        · rw [msk_in _ ⟨h1, h2, h5⟩]; exact hz p c h1 h2 h4 h5.2
        · exact msk_out _ (by omega)
      · intro p c h1 h2 h3 h4 h5
        by_cases h6 : p ≤ c + lo ∧ c ≤ p + hi
        · rw [msk_in _ ⟨h1, h2, h6⟩]; exact hz p c h1 h2 (by omega) h6.2
        · exact msk_out _ (by omega)
    obtain ⟨d1, d2, d3⟩ := decLoop_eq tiny hNM (by omega) (by omega : lo + ahi ≤ hi ∨ hi + 1 = N) N 0 A (msk M N lo hi A) β0 det
      (by omega) hS (fun p c h1 h2 h3 h4 => (msk_in _ ⟨h1, h2, h3, h4⟩).symm)
    rw [← hr] at d1 d2 d3
    obtain ⟨n1, n2⟩ := nonBlock_spec tiny ht M N hNM N 0 (msk M N lo hi A) β0 det (by omega) _ det
      (QRSpec.zero tiny M 0 N _ β0) (by simp)
    rw [← d1] at n1 n2
    have hm : msk M N lo hi r.1 = (nonBlock tiny M N N 0 (msk M N lo hi A) β0 det).1 := by
      funext p c
      by_cases h : p < M ∧ c < N ∧ p ≤ c + lo ∧ c ≤ p + hi
      · rw [msk_in _ h, d2 p c h.1 h.2.1 h.2.2.1 h.2.2.2]
      · rw [msk_out _ h, (d3 p c h).2, msk_out _ h]
    rw [hm]
    exact ⟨n1, n2, fun p c h => (d3 p c h).1, fun h => absurd h hlo⟩

/-! ### The packed Q -/

theorem hv_band {M N lo hi j : Nat} (V : Nat → Nat → K) (hj : j < N) (hNM : N ≤ M) :
    hv (min (j+lo+1) M) V j = hv M (msk M N lo hi V) j := by
  funext p
  unfold hv
  by_cases h1 : p < j
  · rw [if_pos h1, if_pos h1]
  · rw [if_neg h1, if_neg h1]
    by_cases h2 : p < min (j+lo+1) M
    · rw [if_pos h2, if_pos (show p < M by omega)]
      by_cases h3 : p = j
      · rw [if_pos h3, if_pos h3]
      · rw [if_neg h3, if_neg h3, msk_in _ (by omega)]
    · rw [if_neg h2]
      by_cases h3 : p < M
      · rw [if_pos h3, if_neg (by omega), msk_out _ (by omega)]
      · rw [if_neg h3]

theorem H_band {M N lo hi j : Nat} (V : Nat → Nat → K) (hj : j < N) (hNM : N ≤ M) (b : K) (x : Nat → K) :
    H (min (j+lo+1) M) V j b x = H M (msk M N lo hi V) j b x := by
  have hip : ip (min (j+lo+1) M) (hv (min (j+lo+1) M) V j) x = ip M (hv M (msk M N lo hi V) j) x := by
    rw [← hv_band V hj hNM]
    unfold ip
    refine (sum_trim _ (by omega) fun i h1 h2 => ?_).symm
    unfold hv
    rw [if_neg (by omega), if_neg (by omega), star_zero, zero_mul]
  unfold H
  rw [hip, hv_band (hi := hi) V hj hNM]

theorem qLDivLoop_band {M N lo hi : Nat} (hNM : N ≤ M) (nc : Nat) (V : Nat → Nat → K) (β : Nat → K) :
    ∀ (n j i2 : Nat) (m : Nat → Nat → K), j + n = N → i2 = min (j+lo+1) M → ∀ p c,
    qLDivLoop M nc V β n j i2 m p c = if c < nc then hs M (msk M N lo hi V) β j n (fun p => m p c) p else m p c := by
  intro n
  induction n with
  | zero => intro j i2 m _ _ p c; simp [qLDivLoop, hs]
  | succ n ih =>
    intro j i2 m hj hi2 p c
    rw [qLDivLoop, ih (j+1) _ _ (by omega) (by rw [hi2]; split <;> omega)]
    have hl : ∀ p c, (if β j ≠ 0 then lmult i2 j 0 nc V (β j) m else m) p c
        = if c < nc then H M (msk M N lo hi V) j (β j) (fun p => m p c) p else m p c := by
      intro p c
      by_cases hb : β j ≠ 0
      · rw [if_pos hb, lmult_eq _ _ _ _ _ _ _ (by omega), hi2, H_band V (by omega) hNM]
        by_cases hc : c < nc
        · rw [if_pos ⟨by omega, hc⟩, if_pos hc]
        · rw [if_neg (by omega), if_neg hc]
      · rw [if_neg hb]
        simp only [not_not] at hb
        rw [hb]; simp [H]
    by_cases hc : c < nc
    · rw [if_pos hc, if_pos hc, show n + 1 = 1 + n by omega, hs_concat]
      congr 1
      funext q
      rw [hl, if_pos hc]; rfl
    · rw [if_neg hc, if_neg hc, hl, if_neg hc]

/-- The `β` the code uses: none if there are no subdiagonals. -/
def beff (lo : Nat) (β : Nat → K) : Nat → K := fun j => if lo = 0 then 0 else β j

theorem qLDivEq_band {M N lo hi : Nat} (hNM : N ≤ M) (hlo : lo < M) (nc : Nat) (V : Nat → Nat → K) (β : Nat → K) (m : Nat → Nat → K) (p c : Nat) :
    qLDivEq M N lo nc V β m p c = if c < nc then hs M (msk M N lo hi V) (beff lo β) 0 N (fun p => m p c) p else m p c := by
  unfold qLDivEq
  by_cases h : lo > 0
  · rw [if_pos h, qLDivLoop_band (lo := lo) (hi := hi) hNM nc V β N 0 (lo+1) m (by omega) (by omega)]
    rw [show beff lo β = β by funext j; exact if_neg (by omega)]
  · rw [if_neg h, hs_beta_zero M _ (beff lo β) _ _ fun j _ _ => if_pos (by omega)]
    simp

theorem qRDivLoop_band {M N lo hi : Nat} (hNM : N ≤ M) (nr : Nat) (V : Nat → Nat → K) (β : Nat → K) :
    ∀ (n i2 k : Nat) (m : Nat → Nat → K), n ≤ N → (0 < n → i2 = min (n+lo) M ∧ k = n + lo - i2) → ∀ a p,
    qRDivLoop nr V β n i2 k m a p =
      if a < nr then star (hsA M (msk M N lo hi V) β 0 n (fun q => star (m a q)) p) else m a p := by
  intro n
  induction n with
  | zero => intro i2 k m _ _ a p; simp [qRDivLoop, hsA]
  | succ n ih =>
    intro i2 k m hn hk a p
    obtain ⟨hi2, hk⟩ := hk (by omega)
    rw [qRDivLoop, ih _ _ _ (by omega) (fun h0 => by constructor <;> (split <;> omega))]
    have hl : ∀ a p, (if β n ≠ 0 then trM (lmult i2 n 0 nr (conjM V) (β n) (trM m)) else m) a p
        = if a < nr then star (H M (msk M N lo hi V) n (star (β n)) (fun q => star (m a q)) p) else m a p := by
      intro a p
      by_cases hb : β n ≠ 0
      · rw [if_pos hb, trM, lmult_eq _ _ _ _ _ _ _ (by omega), hi2, show n + 1 + lo = n + lo + 1 by omega]
        by_cases ha : a < nr
        · rw [if_pos ⟨by omega, ha⟩, if_pos ha, H_conj, H_band V (by omega) hNM]; rfl
        · rw [if_neg (by omega), if_neg ha]; rfl
      · rw [if_neg hb]
        simp only [not_not] at hb
        rw [hb]; simp [H]
    by_cases ha : a < nr
    · rw [if_pos ha, if_pos ha, hsA, Nat.zero_add]
      congr 2
      funext q
      rw [hl, if_pos ha, star_star]
    · rw [if_neg ha, if_neg ha, hl, if_neg ha]

theorem qRDivEq_band {M N lo hi : Nat} (hNM : N ≤ M) (nr : Nat) (V : Nat → Nat → K) (β : Nat → K) (m : Nat → Nat → K) (a p : Nat) :
    qRDivEq M N lo nr V β m a p =
      if a < nr then star (hsA M (msk M N lo hi V) (beff lo β) 0 N (fun q => star (m a q)) p) else m a p := by
  unfold qRDivEq
  by_cases h : lo > 0
  · rw [if_pos h]
    rw [qRDivLoop_band (lo := lo) (hi := hi) hNM nr V β N _ _ m le_rfl (fun h0 => by constructor <;> (split <;> omega)),
      show beff lo β = β by funext j; exact if_neg (by omega)]
  · rw [if_neg h, hsA_beta_zero M _ (beff lo β) _ _ fun j _ _ => if_pos (by omega)]
    simp

/-! ### From the triangular system to the solution -/

section Core
variable {M N : Nat} {V : Nat → Nat → K} {β : Nat → K} {B : Nat → Nat → K} (h : Fact M N V β B)
include h

theorem lDiv_core (m X : Nat → Nat → K) {c : Nat}
    (hX : ∀ i, i < N → ∑ k ∈ Finset.range N, upperMat false V i k * X k c = hs M V β 0 N (fun p => m p c) i) :
    (∀ z : Nat → K, ∑ p ∈ Finset.range M, ‖∑ l ∈ Finset.range N, B p l * X l c - m p c‖ ^ 2 ≤
        ∑ p ∈ Finset.range M, ‖∑ l ∈ Finset.range N, B p l * z l - m p c‖ ^ 2) ∧
    (M = N → ∀ p, p < M → ∑ l ∈ Finset.range N, B p l * X l c = m p c) := by
  have hz : nsq M (fun p => ∑ l ∈ Finset.range N, B p l * X l c - m p c) =
      ∑ i ∈ Finset.Ico N M, RCLike.normSq (hs M V β 0 N (fun p => m p c) i) := by
    rw [h.resid (fun l => X l c) (fun p => m p c), Finset.sum_eq_zero, zero_add]
    intro i hi
    rw [Finset.mem_range] at hi
    rw [hX i hi, sub_self, map_zero]
  refine ⟨?_, ?_⟩
  · intro z
    rw [← nsq_norm M fun p => ∑ l ∈ Finset.range N, B p l * X l c - m p c,
      ← nsq_norm M fun p => ∑ l ∈ Finset.range N, B p l * z l - m p c, hz, h.resid z fun p => m p c]
    exact le_add_of_nonneg_left (Finset.sum_nonneg fun _ _ => RCLike.normSq_nonneg _)
  · intro hMN p hp
    rw [show Finset.Ico N M = ∅ by rw [hMN, Finset.Ico_self], Finset.sum_empty] at hz
    exact sub_eq_zero.mp (nsq_eq_zero hz p hp)

/-- `X a · = W a ·` times `Qᴴ`. -/
theorem hs_of_hsA {X W : Nat → K} (hX : ∀ p, X p = star (hsA M V β 0 N (fun q => star (W q)) p)) :
    hs M V β 0 N (fun p => star (X p)) = fun q => star (W q) := by
  rw [← hs_hsA N h.valid fun q => star (W q)]
  congr 1
  funext p
  rw [hX p, star_star]

theorem rDiv_core (X W m : Nat → K) (hWR : ∀ c, c < N → ∑ k ∈ Finset.range N, W k * upperMat false V k c = m c)
    (hWz : ∀ b, N ≤ b → b < M → W b = 0) (hX : ∀ p, X p = star (hsA M V β 0 N (fun q => star (W q)) p)) :
    (∀ c, c < N → ∑ p ∈ Finset.range M, X p * B p c = m c) ∧
    ((∀ i, i < N → V i i ≠ 0) → ∀ z : Nat → K, (∀ c, c < N → ∑ p ∈ Finset.range M, z p * B p c = m c) →
        ∑ p ∈ Finset.range M, ‖X p‖ ^ 2 ≤ ∑ p ∈ Finset.range M, ‖z p‖ ^ 2) := by
  have hhs := hs_of_hsA h hX
  refine ⟨?_, ?_⟩
  · intro c hc
    rw [h.row_mul _ c hc, ← hWR c hc, hhs]
    simp only [star_star]
  · intro hd z hz
    have e1 : ∀ y : Nat → K, ∑ p ∈ Finset.range M, ‖y p‖ ^ 2 = nsq M (hs M V β 0 N fun p => star (y p)) := by
      intro y
      rw [nsq_eq_of_ip (hs_unitary N h.valid _ _), nsq_norm]
      exact Finset.sum_congr rfl fun p _ => by rw [norm_star]
    rw [e1, e1, hhs]
    have hu : ∀ k, k < N → hs M V β 0 N (fun p => star (z p)) k = star (W k) := by
      intro k hk
      have := tri_row_unique hd (fun k => star (hs M V β 0 N (fun p => star (z p)) k)) (fun k => W k) (by
        intro c hc
        rw [hWR c hc, ← hz c hc, h.row_mul z c hc]) N k hk hk
      rw [← this, star_star]
    unfold nsq
    refine Finset.sum_le_sum fun q hq => ?_
    rw [Finset.mem_range] at hq
    by_cases hqN : q < N
    · rw [hu q hqN]
    · show RCLike.normSq (star (W q)) ≤ _
      rw [hWz q (by omega) hq, star_zero, map_zero]
      exact RCLike.normSq_nonneg _

theorem inverse_core (X W : Nat → Nat → K)
    (hinv : ∀ i j, i < N → j < N → ∑ k ∈ Finset.range N, upperMat false V i k * W k j = if i = j then 1 else 0)
    (hWz : ∀ a b, a < N → N ≤ b → b < M → W a b = 0)
    (hXa : ∀ a p, a < N → X a p = star (hsA M V β 0 N (fun q => star (W a q)) p)) :
    (∀ a c, a < N → c < N → ∑ p ∈ Finset.range M, X a p * B p c = if a = c then 1 else 0) ∧
    (∀ p q, p < M → q < M → ∑ c ∈ Finset.range N, B p c * X c q = star (∑ c ∈ Finset.range N, B q c * X c p)) := by
  have hle := h.le
  have hinvL : ∀ i j, i < N → j < N → ∑ k ∈ Finset.range N, W i k * upperMat false V k j = if i = j then 1 else 0 := by
    have hm : LU.toM N (upperMat false V) * LU.toM N W = 1 := by
      ext i j
      rw [Matrix.mul_apply, Matrix.one_apply]
      have := hinv i j i.2 j.2
      rw [Finset.sum_range] at this
      simp only [LU.toM, Matrix.of_apply]
      rw [this]
      simp [Fin.ext_iff]
    have hm2 := mul_eq_one_comm.mp hm
    intro i j hi hj
    have := congrFun (congrFun hm2 ⟨i, hi⟩) ⟨j, hj⟩
    rw [Matrix.mul_apply, Matrix.one_apply] at this
    simp only [LU.toM, Matrix.of_apply, Fin.mk.injEq] at this
    rw [Finset.sum_range, this]
  refine ⟨?_, ?_⟩
  · intro a c ha hc
    rw [h.row_mul _ c hc, hs_of_hsA h (hXa a · ha), ← hinvL a c ha hc]
    refine Finset.sum_congr rfl fun k hk => ?_
    rw [star_star]
  · have hBX : ∀ p q, p < M → q < M → ∑ c ∈ Finset.range N, B p c * X c q =
        ∑ k ∈ Finset.range N, hsA M V β 0 N (ev k) p * star (hsA M V β 0 N (ev k) q) := by
      intro p q hp hq
      have hB : ∀ c, c < N → B p c = ∑ k ∈ Finset.range N, hsA M V β 0 N (ev k) p * upperMat false V k c := by
        intro c hc
        have h1 : hsA M V β 0 N (hs M V β 0 N fun q => B q c) p = B p c := by rw [hsA_hs N h.valid]
        rw [← h1, hsA_apply V β _ (fun q h1 h2 => ?_) p hp]
        · refine Finset.sum_congr rfl fun k hk => ?_
          rw [h.col c hc k (by have := Finset.mem_range.mp hk; omega)]
        · rw [h.col c hc q h2]
          simp [upperMat, show ¬ q < c by omega, show ¬ q = c by omega]
      have hXc : ∀ c, c < N → X c q = ∑ l ∈ Finset.range N, W c l * star (hsA M V β 0 N (ev l) q) := by
        intro c hc
        rw [hXa c q hc, hsA_apply V β _ (fun r h1 h2 => by rw [hWz c r hc h1 h2, star_zero]) q hq, star_sum]
        refine Finset.sum_congr rfl fun l hl => ?_
        rw [star_mul', star_star, mul_comm]
      calc ∑ c ∈ Finset.range N, B p c * X c q
          = ∑ c ∈ Finset.range N, ∑ k ∈ Finset.range N, ∑ l ∈ Finset.range N,
              (hsA M V β 0 N (ev k) p * star (hsA M V β 0 N (ev l) q)) * (upperMat false V k c * W c l) := by
            refine Finset.sum_congr rfl fun c hc => ?_
            rw [hB c (Finset.mem_range.mp hc), hXc c (Finset.mem_range.mp hc), Finset.sum_mul_sum]
            exact Finset.sum_congr rfl fun k _ => Finset.sum_congr rfl fun l _ => by ring
        _ = ∑ k ∈ Finset.range N, ∑ l ∈ Finset.range N, (hsA M V β 0 N (ev k) p * star (hsA M V β 0 N (ev l) q)) *
              ∑ c ∈ Finset.range N, upperMat false V k c * W c l := by
            rw [Finset.sum_comm]
            refine Finset.sum_congr rfl fun k _ => ?_
            rw [Finset.sum_comm]
            exact Finset.sum_congr rfl fun l _ => by rw [Finset.mul_sum]
        _ = _ := by
            refine Finset.sum_congr rfl fun k hk => ?_
            rw [Finset.sum_eq_single k]
            · rw [hinv k k (Finset.mem_range.mp hk) (Finset.mem_range.mp hk), if_pos rfl, mul_one]
            · intro l hl hlk
              rw [hinv k l (Finset.mem_range.mp hk) (Finset.mem_range.mp hl), if_neg (Ne.symm hlk), mul_zero]
            · intro hn; exact absurd hk hn
    intro p q hp hq
    rw [hBX p q hp hq, hBX q p hq hp, star_sum]
    refine Finset.sum_congr rfl fun k _ => ?_
    rw [star_mul', star_star, mul_comm]

end Core

/-! ### Division by the band decomposition -/

theorem upper_msk {M N lo hi : Nat} (hNM : N ≤ M) (V : Nat → Nat → K) {i k : Nat} (hi' : i < N) (hk : k < N) :
    upperMat false (msk M N lo hi V) i k = bandMat 0 hi V i k := by
  unfold upperMat bandMat
  by_cases h1 : i < k
  · rw [if_pos h1]
    by_cases h2 : k ≤ i + hi
    · rw [msk_in _ (by omega), if_pos (by omega)]
    · rw [msk_out _ (by omega), if_neg (by omega)]
  · rw [if_neg h1]
    by_cases h2 : i = k
    · subst h2
      rw [if_pos rfl, if_pos (show i ≤ i + 0 ∧ i ≤ i + hi by omega)]
      show msk M N lo hi V i i = _
      rw [msk_in _ (by omega)]
    · rw [if_neg h2, if_neg (by omega)]

section Div
variable {M N lo hi : Nat} {V : Nat → Nat → K} {β : Nat → K} {B : Nat → Nat → K}
  (h : Fact M N (msk M N lo hi V) (beff lo β) B) (hlo : lo < M) (hhi : hi < N)
include h hlo hhi

theorem qrLDiv_spec (o : Ord) (brm : Bool) (nc : Nat) (m x : Nat → Nat → K) :
    ((∀ i, i < N → V i i ≠ 0) → (qrLDiv o brm M N lo hi nc V β m x).isSome) ∧
    ∀ X, qrLDiv o brm M N lo hi nc V β m x = some X →
      (∀ c, c < nc → ∀ z : Nat → K, ∑ p ∈ Finset.range M, ‖∑ l ∈ Finset.range N, B p l * X l c - m p c‖ ^ 2 ≤
        ∑ p ∈ Finset.range M, ‖∑ l ∈ Finset.range N, B p l * z l - m p c‖ ^ 2) ∧
      (M = N → ∀ c, c < nc → ∀ p, p < M → ∑ l ∈ Finset.range N, B p l * X l c = m p c) ∧
      ∀ a c, ¬ (a < N ∧ c < nc) → X a c = x a c := by
  have hle := h.le
  obtain ⟨Y, hY⟩ : ∃ Y : Nat → Nat → K, Y = if M = N then qLDivEq M N lo nc V β (paste x 0 0 N nc m)
    else if lo > 0 then paste x 0 0 N nc (qLDivEq M N lo nc V β m)
    else paste x 0 0 N nc m := ⟨_, rfl⟩
  have hq : qrLDiv o brm M N lo hi nc V β m x = BandTri.triM o brm false N 0 hi nc V Y := by rw [hY]; rfl
  rw [hq]
  have hYv : ∀ a c, a < N → c < nc → Y a c = hs M (msk M N lo hi V) (beff lo β) 0 N (fun p => m p c) a := by
    intro a c ha hc
    rw [hY]
    by_cases hMN : M = N
    · rw [if_pos hMN, qLDivEq_band (hi := hi) h.le hlo, if_pos hc]
      refine hs_ext N (fun p hp => ?_) a (by omega)
      simp only [paste]; rw [if_pos (by omega)]; simp
    · rw [if_neg hMN]
      by_cases h0 : lo > 0
      · rw [if_pos h0]
        simp only [paste]
        rw [if_pos (by omega), Nat.sub_zero, Nat.sub_zero, qLDivEq_band (hi := hi) h.le hlo, if_pos hc]
      · rw [if_neg h0, hs_beta_zero M _ (beff lo β) _ _ fun j _ _ => if_pos (by omega)]
        simp only [paste]
        rw [if_pos (by omega), Nat.sub_zero, Nat.sub_zero]
  have hYo : ∀ a c, ¬ (a < N ∧ c < nc) → Y a c = x a c := by
    intro a c hac
    rw [hY]
    by_cases hMN : M = N
    · rw [if_pos hMN, qLDivEq_band (hi := hi) h.le hlo]
      by_cases hc : c < nc
      · rw [if_pos hc, hs_out _ (by omega)]
        simp only [paste]; rw [if_neg (by omega)]
      · rw [if_neg hc]
        simp only [paste]; rw [if_neg (by omega)]
    · rw [if_neg hMN]
      split
      · simp only [paste]
        rw [if_neg (by omega)]
      · simp only [paste]
        rw [if_neg (by omega)]
  obtain ⟨t1, t2, _⟩ := BandTri.triM_spec o brm false N 0 hi nc (.inl rfl) (by omega) hhi V Y
  have hT : ∀ i k, i < N → k < N → (if i = k ∧ false = true then (1:K) else bandMat 0 hi V i k) =
      upperMat false (msk M N lo hi V) i k := by
    intro i k h1 h2
    rw [if_neg (by simp), upper_msk h.le V h1 h2]
  refine ⟨fun hd => ?_, ?_⟩
  · obtain ⟨X, hX⟩ := t2 fun i hi' => by
      beta_reduce
      rw [if_neg (by simp), bandMat, if_pos (by omega)]; exact hd i hi'
    rw [hX]; rfl
  intro X hX
  obtain ⟨s1, s2⟩ := t1 X hX
  have hsys : ∀ c, c < nc → ∀ i, i < N → ∑ k ∈ Finset.range N, upperMat false (msk M N lo hi V) i k * X k c =
      hs M (msk M N lo hi V) (beff lo β) 0 N (fun p => m p c) i := by
    intro c hc i hi'
    rw [← hYv i c hi' hc, ← s1 i c hi' hc]
    exact Finset.sum_congr rfl fun k hk => by beta_reduce; rw [hT i k hi' (Finset.mem_range.mp hk)]
  refine ⟨fun c hc => (lDiv_core h m X (hsys c hc)).1, fun hMN c hc => (lDiv_core h m X (hsys c hc)).2 hMN, ?_⟩
  intro a c hac
  rw [s2 a c hac, hYo a c hac]

theorem qrRDiv_spec (o : Ord) (bcm : Bool) (nr : Nat) (m x : Nat → Nat → K) :
    ((∀ i, i < N → V i i ≠ 0) → (qrRDiv o bcm M N lo hi nr V β m x).isSome) ∧
    ∀ X, qrRDiv o bcm M N lo hi nr V β m x = some X →
      (∀ a, a < nr → ∀ c, c < N → ∑ p ∈ Finset.range M, X a p * B p c = m a c) ∧
      ((∀ i, i < N → V i i ≠ 0) → ∀ a, a < nr → ∀ z : Nat → K, (∀ c, c < N → ∑ p ∈ Finset.range M, z p * B p c = m a c) →
        ∑ p ∈ Finset.range M, ‖X a p‖ ^ 2 ≤ ∑ p ∈ Finset.range M, ‖z p‖ ^ 2) ∧
      ∀ a p, ¬ (a < nr ∧ p < M) → X a p = x a p := by
  have hle := h.le
  obtain ⟨Y, hY⟩ : ∃ Y : Nat → Nat → K, Y = paste (fun a b => if a < nr ∧ N ≤ b ∧ b < M then 0 else x a b) 0 0 nr N m := ⟨_, rfl⟩
  have hq : qrRDiv o bcm M N lo hi nr V β m x =
      (BandTri.triM (LU.Ord.tr o) bcm false N hi 0 nr (trM V) (trM Y)).map fun xt => qRDivEq M N lo nr V β (trM xt) := by
    rw [hY]; rfl
  rw [hq]
  obtain ⟨t1, t2, _⟩ := BandTri.triM_spec (LU.Ord.tr o) bcm false N hi 0 nr (.inr rfl) hhi (by omega) (trM V) (trM Y)
  have hT : ∀ i k, i < N → k < N → (if i = k ∧ false = true then (1:K) else bandMat hi 0 (trM V) i k) =
      upperMat false (msk M N lo hi V) k i := by
    intro i k h1 h2
    rw [if_neg (by simp), upper_msk h.le V h2 h1]
    unfold bandMat trM
    by_cases h3 : i ≤ k + hi ∧ k ≤ i + 0
    · rw [if_pos h3, if_pos (by omega)]
    · rw [if_neg h3, if_neg (by omega)]
  refine ⟨fun hd => ?_, ?_⟩
  · rw [Option.isSome_map]
    obtain ⟨X, hX⟩ := t2 fun i hi' => by
      beta_reduce
      rw [if_neg (by simp), bandMat, if_pos (by omega)]; exact hd i hi'
    rw [hX]; rfl
  intro X hX
  obtain ⟨W, hW, hXW⟩ := Option.map_eq_some_iff.mp hX
  obtain ⟨s1, s2⟩ := t1 W hW
  have hYm : ∀ a b, a < nr → b < N → Y a b = m a b := by
    intro a b ha hb
    rw [hY]
    simp only [paste]; rw [if_pos (by omega)]; simp
  have hYz : ∀ a b, a < nr → N ≤ b → b < M → Y a b = 0 := by
    intro a b ha hb hb2
    rw [hY]
    simp only [paste]; rw [if_neg (by omega), if_pos ⟨ha, hb, hb2⟩]
  have hYo : ∀ a p, ¬ (a < nr ∧ p < M) → Y a p = x a p := by
    intro a p hap
    rw [hY]
    simp only [paste]; rw [if_neg (by omega), if_neg (by omega)]
  have hWR : ∀ a, a < nr → ∀ c, c < N → ∑ k ∈ Finset.range N, W k a * upperMat false (msk M N lo hi V) k c = m a c := by
    intro a ha c hc
    rw [← hYm a c ha hc, show Y a c = trM Y c a from rfl, ← s1 c a hc ha]
    refine Finset.sum_congr rfl fun k hk => ?_
    beta_reduce
    rw [hT c k hc (Finset.mem_range.mp hk), mul_comm]
  have hWz : ∀ a b, a < nr → N ≤ b → b < M → W b a = 0 := by
    intro a b ha hb hb2
    rw [s2 b a (by omega)]
    exact hYz a b ha hb hb2
  have hXa : ∀ a p, a < nr → X a p = star (hsA M (msk M N lo hi V) (beff lo β) 0 N (fun q => star (W q a)) p) := by
    intro a p ha
    rw [← hXW]
    show qRDivEq M N lo nr V β (trM W) a p = _
    rw [qRDivEq_band (hi := hi) h.le, if_pos ha]; rfl
  have hdd : (∀ i, i < N → V i i ≠ 0) → ∀ i, i < N → msk M N lo hi V i i ≠ 0 := fun hd i hi' => by
    rw [msk_in _ (by omega)]; exact hd i hi'
  refine ⟨fun a ha => (rDiv_core h (X a) (fun k => W k a) (m a) (hWR a ha) (fun b => hWz a b ha) (fun p => hXa a p ha)).1,
    fun hd a ha => (rDiv_core h (X a) (fun k => W k a) (m a) (hWR a ha) (fun b => hWz a b ha) (fun p => hXa a p ha)).2 (hdd hd), ?_⟩
  intro a p hap
  rw [← hXW]
  show qRDivEq M N lo nr V β (trM W) a p = _
  have hWY : W p a = Y a p := s2 p a (by omega)
  rw [qRDivEq_band (hi := hi) h.le]
  by_cases ha : a < nr
  · rw [if_pos ha, hsA_out _ (by omega), star_star]
    rw [← hYo a p hap]; exact hWY
  · rw [if_neg ha, ← hYo a p hap]; exact hWY

/-- The inverse of the triangle, shared by the inverse and the inverse of `AᴴA`. -/
theorem triInv_spec {ib mb mb2 : Nat} (hib : 0 < ib) (hmb : 0 < mb) (hmb2 : 0 < mb2) (o : Ord) (crm st : Bool) (minv : Nat → Nat → K)
    (Y : Nat → Nat → K) (hY : Y = fun a b => if a ≤ b ∧ b < N then bandMat 0 hi V a b else minv a b) :
    (BandLU.triInverse ib mb mb2 o crm st N hi Y = none ↔ ∃ i < N, V i i = 0) ∧
    ∀ W, BandLU.triInverse ib mb mb2 o crm st N hi Y = some W →
      (∀ i j, i < N → j < N → ∑ k ∈ Finset.range N, upperMat false (msk M N lo hi V) i k * upperMat false W k j = if i = j then 1 else 0) ∧
      ∀ i j, ¬ (j < N ∧ i ≤ j) → W i j = minv i j := by
  have hle := h.le
  obtain ⟨t1, t2⟩ := BandLU.triInverse_spec ib mb mb2 hib hmb hmb2 o crm st N hi Y (by
    intro i j h1 h2 h3
    rw [hY]; dsimp only
    rw [if_pos (by omega), bandMat, if_neg (by omega)])
  refine ⟨?_, ?_⟩
  · rw [t1]
    refine exists_congr fun i => and_congr_right fun hi' => ?_
    rw [hY]; dsimp only
    rw [if_pos ⟨le_rfl, hi'⟩, bandMat, if_pos (by omega)]
  intro W hW
  obtain ⟨i1, i2⟩ := t2 W hW
  refine ⟨?_, ?_⟩
  · intro i j h1 h2
    rw [← i1 i j h1 h2]
    refine Finset.sum_congr rfl fun k hk => ?_
    congr 1
    rw [Finset.mem_range] at hk
    rw [upper_msk h.le V h1 hk, hY]
    unfold upperMat
    dsimp only
    by_cases h3 : i < k
    · rw [if_pos h3, if_pos (by omega)]
    · rw [if_neg h3]
      by_cases h4 : i = k
      · rw [if_pos h4, h4]; simp [hk]
      · rw [if_neg h4, bandMat, if_neg (by omega)]
  · intro i j hij
    rw [i2 i j hij, hY]; dsimp only
    rw [if_neg (by omega)]

theorem qrInverse_spec {ib mb mb2 : Nat} (hib : 0 < ib) (hmb : 0 < mb) (hmb2 : 0 < mb2) (o : Ord) (crm st : Bool)
    (minv : Nat → Nat → K) :
    (qrInverse ib mb mb2 o crm st M N lo hi V β minv = none ↔ ∃ i < N, V i i = 0) ∧
    ∀ X, qrInverse ib mb mb2 o crm st M N lo hi V β minv = some X →
      (∀ a c, a < N → c < N → ∑ p ∈ Finset.range M, X a p * B p c = if a = c then 1 else 0) ∧
      (∀ p q, p < M → q < M → ∑ c ∈ Finset.range N, B p c * X c q = star (∑ c ∈ Finset.range N, B q c * X c p)) ∧
      ∀ a p, ¬ (a < N ∧ p < M) → X a p = minv a p := by
  have hle := h.le
  obtain ⟨t1, t2⟩ := triInv_spec h hlo hhi hib hmb hmb2 o crm st (fun a b => if a < N ∧ b < M then 0 else minv a b) _ rfl
  unfold qrInverse
  dsimp only
  refine ⟨by rw [Option.map_eq_none_iff, t1], ?_⟩
  intro X hX
  obtain ⟨W, hW, hXW⟩ := Option.map_eq_some_iff.mp hX
  obtain ⟨i1, i2⟩ := t2 W hW
  have hWu : ∀ a b, a < N → b < N → W a b = upperMat false W a b := by
    intro a b ha hb
    unfold upperMat
    by_cases h1 : a < b
    · rw [if_pos h1]
    · rw [if_neg h1]
      by_cases h2 : a = b
      · rw [if_pos h2, h2]; rfl
      · rw [if_neg h2, i2 a b (by omega)]
        rw [if_pos (by omega)]
  have hinv : ∀ i j, i < N → j < N → ∑ k ∈ Finset.range N, upperMat false (msk M N lo hi V) i k * W k j = if i = j then 1 else 0 := by
    intro i j h1 h2
    rw [← i1 i j h1 h2]
    exact Finset.sum_congr rfl fun k hk => by rw [hWu k j (Finset.mem_range.mp hk) h2]
  obtain ⟨c1, c2⟩ := inverse_core h X W hinv (fun a b ha hb hb2 => by
      rw [i2 a b (by omega)]; rw [if_pos (by omega)])
    (fun a p ha => by rw [← hXW, qRDivEq_band (hi := hi) h.le, if_pos ha])
  refine ⟨c1, c2, ?_⟩
  intro a p hap
  have hWm : W a p = minv a p := by
    rw [i2 a p (by omega)]
    rw [if_neg hap]
  rw [← hXW, qRDivEq_band (hi := hi) h.le]
  by_cases ha : a < N
  · rw [if_pos ha, hsA_out _ (by omega), star_star, hWm]
  · rw [if_neg ha, hWm]

end Div

end
end TMV.BandQR
